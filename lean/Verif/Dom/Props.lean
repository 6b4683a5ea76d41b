import Verif.Dom.Tree
import Mathlib.Tactic.Ring
/-! # C29, C30: dominators and the dominator tree -/
namespace Cmmc.Dom
open Cmmc.SCC (upd)

/-! ### steps towards the root -/

/-- `k` steps up -/
def up (par : Nat → Nat) (r : Nat) : Nat → Nat → Option Nat
  | 0, x => some x
  | k + 1, x => if x = r then none else up par r k (par x)

theorem up_add (par : Nat → Nat) (r : Nat) : ∀ (a b x : Nat), up par r (a + b) x = (up par r a x).bind (up par r b) := by
  intro a
  induction a with
  | zero => intro b x; simp [up]
  | succ a ih =>
    intro b x
    rw [Nat.succ_add]
    show (if x = r then none else up par r (a + b) (par x)) = (if x = r then none else up par r a (par x)).bind (up par r b)
    split
    · rfl
    · exact ih b (par x)

/-- the finished tree -/
structure Fin (V : Nat → Prop) (par : Nat → Nat) (r : Nat) (t : TS) : Prop where
  inv : ∀ x, V x ↔ ∃ i, t.inv x = some i
  blk : ∀ x i, t.inv x = some i → (t.node i).block = x
  idx : ∀ i, i < t.cnt → t.inv (t.node i).block = some i
  lt : ∀ x i, t.inv x = some i → i < t.cnt
  anc : ∀ a b i j, t.inv a = some i → t.inv b = some j → (Anc V par r a b ↔ (i ≤ j ∧ j < i + (t.node i).size))
  links : ∀ x i, t.inv x = some i → LinkOK t i (if x = r then none else t.inv (par x))
  par_V : ∀ {x}, V x → x ≠ r → V (par x)
  root : V r
  comparable : ∀ {a b c}, Anc V par r a c → Anc V par r b c → Anc V par r a b ∨ Anc V par r b a

section
variable {V : Nat → Prop} {par : Nat → Nat} {r : Nat} {t : TS} (F : Fin V par r t)
include F

theorem Fin.up_V : ∀ (k : Nat) {x y : Nat}, V x → up par r k x = some y → V y := by
  intro k
  induction k with
  | zero => intro x y hx h; simp [up] at h; subst h; exact hx
  | succ k ih =>
    intro x y hx h
    unfold up at h
    split at h
    · simp at h
    · rename_i hr; exact ih (F.par_V hx hr) h

theorem Fin.jump : ∀ (m x i : Nat), t.inv x = some i → (t.node i).anc m = (up par r (2 ^ m) x).bind t.inv := by
  intro m
  induction m with
  | zero =>
    intro x i hi
    rw [(F.links x i hi).1]
    simp only [Nat.pow_zero, up]
    split <;> simp
  | succ m ih =>
    intro x i hi
    rw [(F.links x i hi).2.2 m, ih x i hi, Nat.pow_succ, Nat.mul_two, up_add]
    cases h : up par r (2 ^ m) x with
    | none => rfl
    | some y =>
      have hy := F.up_V _ ((F.inv x).mpr ⟨i, hi⟩) h
      obtain ⟨j, hj⟩ := (F.inv y).mp hy
      simp only [Option.bind_some, hj]
      exact ih y j hj

/-- the recorded depth -/
theorem Fin.depth_par {x i : Nat} (hi : t.inv x = some i) (hr : x ≠ r) : ∃ j, t.inv (par x) = some j ∧ (t.node i).depth = (t.node j).depth + 1 := by
  obtain ⟨j, hj⟩ := (F.inv _).mp (F.par_V ((F.inv x).mpr ⟨i, hi⟩) hr)
  have := (F.links x i hi).2.1
  rw [if_neg hr, hj] at this
  exact ⟨j, hj, this⟩

theorem Fin.depth_root {i : Nat} (hi : t.inv r = some i) : (t.node i).depth = 0 := by
  have := (F.links r i hi).2.1
  rw [if_pos rfl] at this
  exact this

theorem Fin.up_some : ∀ (k x y i j : Nat), t.inv x = some i → t.inv y = some j →
    (up par r k x = some y ↔ (Anc V par r y x ∧ (t.node i).depth = (t.node j).depth + k)) := by
  intro k
  induction k with
  | zero =>
    intro x y i j hi hj
    simp only [up, Option.some.injEq, Nat.add_zero]
    constructor
    · rintro rfl
      rw [hi] at hj
      simp only [Option.some.injEq] at hj
      subst hj
      exact ⟨.refl ((F.inv x).mpr ⟨i, hi⟩), rfl⟩
    · rintro ⟨h, hd⟩
      -- an ancestor at the same depth is the vertex itself
      have : ∀ {x i}, Anc V par r y x → t.inv x = some i → (t.node j).depth ≤ (t.node i).depth ∧ (x ≠ y → (t.node j).depth < (t.node i).depth) := by
        intro x i h
        induction h generalizing i with
        | refl _ => intro hi; rw [hi] at hj; simp only [Option.some.injEq] at hj; subst hj; exact ⟨Nat.le_refl _, fun h => absurd rfl h⟩
        | @step b hb hr h ih =>
          intro hi
          obtain ⟨q, hq, hd⟩ := F.depth_par hi hr
          have := (ih hq).1
          exact ⟨by omega, fun _ => by omega⟩
      have := (this h hi).2
      by_contra hne
      have := this hne
      omega
  | succ k ih =>
    intro x y i j hi hj
    unfold up
    split
    · rename_i hr
      subst hr
      have := F.depth_root hi
      simp only [reduceCtorEq, false_iff]
      omega
    · rename_i hr
      obtain ⟨q, hq, hd⟩ := F.depth_par hi hr
      rw [ih (par x) y q j hq hj]
      constructor
      · rintro ⟨h1, h2⟩
        exact ⟨.step ((F.inv x).mpr ⟨i, hi⟩) hr h1, by omega⟩
      · rintro ⟨h1, h2⟩
        refine ⟨?_, by omega⟩
        cases h1 with
        | refl _ => rw [hi] at hj; simp only [Option.some.injEq] at hj; subst hj; omega
        | step _ _ h => exact h

theorem Fin.up_none : ∀ (k x i : Nat), t.inv x = some i → (up par r k x = none ↔ (t.node i).depth < k) := by
  intro k
  induction k with
  | zero => intro x i hi; simp [up]
  | succ k ih =>
    intro x i hi
    unfold up
    split
    · rename_i hr
      subst hr
      have := F.depth_root hi
      simp [this]
    · rename_i hr
      obtain ⟨q, hq, hd⟩ := F.depth_par hi hr
      rw [ih (par x) q hq]
      omega

theorem Fin.inj {x y i : Nat} (hx : t.inv x = some i) (hy : t.inv y = some i) : x = y := by
  rw [← F.blk x i hx, F.blk y i hy]

theorem Fin.climb_spec : ∀ (fuel i diff x u : Nat), t.inv x = some u → diff ≤ fuel → diff < 2 ^ (maxDepth + 1 - i) → i ≤ maxDepth + 1 → diff * 2 ^ i ≤ (t.node u).depth →
    climb t.node fuel i diff (some u) = (up par r (diff * 2 ^ i) x).bind t.inv := by
  intro fuel
  induction fuel with
  | zero =>
    intro i diff x u hx h _ _ _
    have : diff = 0 := by omega
    subst this
    simp [climb, up, hx]
  | succ fuel ih =>
    intro i diff x u hx h hlt hi hd
    unfold climb
    by_cases h0 : diff = 0
    · subst h0; simp [up, hx]
    · rw [if_neg h0]
      have him : i ≤ maxDepth := by
        by_contra hc
        have : maxDepth + 1 - i = 0 := by omega
        rw [this] at hlt
        simp at hlt
        exact h0 hlt
      have hpow : 2 ^ (maxDepth + 1 - i) = 2 * 2 ^ (maxDepth + 1 - (i + 1)) := by
        have : maxDepth + 1 - i = (maxDepth + 1 - (i + 1)) + 1 := by omega
        rw [this, Nat.pow_succ, Nat.mul_comm]
      have hdiv : diff / 2 < 2 ^ (maxDepth + 1 - (i + 1)) := by
        rw [hpow] at hlt; omega
      have hdm := Nat.div_add_mod diff 2
      have hexp : (diff / 2) * 2 ^ (i + 1) = 2 * (diff / 2) * 2 ^ i := by rw [Nat.pow_succ]; ring
      by_cases h1 : diff % 2 = 1
      · rw [if_pos h1, if_pos him]
        simp only [Option.bind_some]
        rw [F.jump i x u hx]
        have hsum : diff * 2 ^ i = 2 ^ i + (diff / 2) * 2 ^ (i + 1) := by
          rw [hexp]
          have : diff = 2 * (diff / 2) + 1 := by omega
          conv_lhs => rw [this]
          ring
        rw [hsum, up_add]
        cases hu : up par r (2 ^ i) x with
        | none =>
          have := (F.up_none _ x u hx).mp hu
          rw [hsum] at hd
          omega
        | some y =>
          have hy := F.up_V _ ((F.inv x).mpr ⟨u, hx⟩) hu
          obtain ⟨j, hj⟩ := (F.inv y).mp hy
          have hdep := ((F.up_some _ x y u j hx hj).mp hu).2
          simp only [Option.bind_some, hj]
          exact ih (i + 1) (diff / 2) y j hj (by omega) hdiv (by omega) (by rw [hsum] at hd; omega)
      · rw [if_neg h1]
        have hsum : diff * 2 ^ i = (diff / 2) * 2 ^ (i + 1) := by
          rw [hexp]
          have : diff = 2 * (diff / 2) := by omega
          conv_lhs => rw [this]
        rw [hsum]
        exact ih (i + 1) (diff / 2) x u hx (by omega) hdiv (by omega) (by rw [← hsum]; exact hd)

theorem Fin.lift2_spec : ∀ (i x y u v : Nat), t.inv x = some u → t.inv y = some v → x ≠ y → (t.node u).depth = (t.node v).depth →
    up par r (2 ^ i) x = up par r (2 ^ i) y →
    ∃ x' y' u' v', lift2 t.node i u v = some (u', v') ∧ t.inv x' = some u' ∧ t.inv y' = some v' ∧ x' ≠ y' ∧
      (t.node u').depth = (t.node v').depth ∧ up par r 1 x' = up par r 1 y' ∧ Anc V par r x' x ∧ Anc V par r y' y := by
  intro i
  induction i with
  | zero =>
    intro x y u v hx hy hne hd hup
    exact ⟨x, y, u, v, rfl, hx, hy, hne, hd, by simpa using hup, .refl ((F.inv x).mpr ⟨u, hx⟩), .refl ((F.inv y).mpr ⟨v, hy⟩)⟩
  | succ i ih =>
    intro x y u v hx hy hne hd hup
    unfold lift2
    have huv : u ≠ v := fun e => hne (F.inj hx (e ▸ hy))
    rw [if_neg huv, F.jump i x u hx, F.jump i y v hy]
    cases hux : up par r (2 ^ i) x with
    | none =>
      have h1 := (F.up_none _ x u hx).mp hux
      have huy : up par r (2 ^ i) y = none := (F.up_none _ y v hy).mpr (by omega)
      rw [huy]
      simp only [if_true]
      exact ih x y u v hx hy hne hd (by rw [hux, huy])
    | some x1 =>
      have h1 : ¬ (t.node u).depth < 2 ^ i := fun h => by rw [(F.up_none _ x u hx).mpr h] at hux; simp at hux
      cases huy : up par r (2 ^ i) y with
      | none => exact absurd ((F.up_none _ y v hy).mp huy) (by omega)
      | some y1 =>
        obtain ⟨u1, hu1⟩ := (F.inv x1).mp (F.up_V _ ((F.inv x).mpr ⟨u, hx⟩) hux)
        obtain ⟨v1, hv1⟩ := (F.inv y1).mp (F.up_V _ ((F.inv y).mpr ⟨v, hy⟩) huy)
        simp only [Option.bind_some, hu1, hv1, Option.some.injEq]
        have a1 := (F.up_some _ x x1 u u1 hx hu1).mp hux
        have b1 := (F.up_some _ y y1 v v1 hy hv1).mp huy
        by_cases he : u1 = v1
        · rw [if_pos he]
          subst he
          have := F.inj hu1 hv1
          subst this
          exact ih x y u v hx hy hne hd (by rw [hux, huy])
        · rw [if_neg he]
          have hne' : x1 ≠ y1 := fun e => he (by rw [e, hv1] at hu1; simpa using hu1.symm)
          obtain ⟨x', y', u', v', h1, h2, h3, h4, h5, h6, h7, h8⟩ := ih x1 y1 u1 v1 hu1 hv1 hne' (by omega) (by
            rw [Nat.pow_succ, Nat.mul_two, up_add, up_add, hux, huy] at hup
            simpa using hup)
          exact ⟨x', y', u', v', h1, h2, h3, h4, h5, h6, PTree.anc_trans h7 a1.1, PTree.anc_trans h8 b1.1⟩

theorem Fin.anc_depth {x y i j : Nat} (h : Anc V par r y x) (hi : t.inv x = some i) (hj : t.inv y = some j) :
    (t.node j).depth ≤ (t.node i).depth ∧ ((t.node i).depth = (t.node j).depth → x = y) := by
  induction h generalizing i with
  | refl _ => rw [hi] at hj; simp only [Option.some.injEq] at hj; subst hj; exact ⟨Nat.le_refl _, fun _ => rfl⟩
  | @step b hb hr h ih =>
    obtain ⟨q, hq, hd⟩ := F.depth_par hi hr
    have := (ih hq).1
    exact ⟨by omega, fun _ => by omega⟩

/-- ancestors of the same vertex are ordered by depth -/
theorem Fin.anc_of_depth {a b c i j : Nat} (h1 : Anc V par r a c) (h2 : Anc V par r b c) (hi : t.inv a = some i) (hj : t.inv b = some j)
    (h : (t.node i).depth ≤ (t.node j).depth) : Anc V par r a b := by
  rcases F.comparable h1 h2 with h' | h'
  · exact h'
  · have := F.anc_depth h' hi hj
    rw [this.2 (by omega)]
    exact .refl ((F.inv b).mpr ⟨j, hj⟩)

theorem Fin.lca_spec {a b : Nat} (ha : V a) (hb : V b) (hd : ∀ x i, t.inv x = some i → (t.node i).depth < 2 ^ (maxDepth + 1)) :
    ∃ c, t.lca a b = some c ∧ Anc V par r c a ∧ Anc V par r c b ∧ ∀ d, Anc V par r d a → Anc V par r d b → Anc V par r d c := by
  obtain ⟨u0, hu0⟩ := (F.inv a).mp ha
  obtain ⟨v0, hv0⟩ := (F.inv b).mp hb
  unfold TS.lca
  rw [hu0, hv0]
  dsimp only
  -- after the swap
  have main : ∀ x y u v, t.inv x = some u → t.inv y = some v → (t.node u).depth ≤ (t.node v).depth →
      ∃ c, (match climb t.node ((t.node v).depth - (t.node u).depth) 0 ((t.node v).depth - (t.node u).depth) (some v) with
        | none => none
        | some v =>
          if u = v then some (t.node u).block
          else
            match lift2 t.node (maxDepth + 1) u v with
            | none => none
            | some (u, _) => ((t.node u).anc 0).map (fun q => (t.node q).block)) = some c ∧
        Anc V par r c x ∧ Anc V par r c y ∧ ∀ d, Anc V par r d x → Anc V par r d y → Anc V par r d c := by
    intro x y u v hx hy hle
    have hdv := hd y v hy
    rw [F.climb_spec _ 0 _ y v hy (Nat.le_refl _) (by simp only [Nat.sub_zero]; omega) (by omega) (by simp)]
    simp only [Nat.pow_zero, Nat.mul_one]
    cases hup : up par r ((t.node v).depth - (t.node u).depth) y with
    | none => exact absurd ((F.up_none _ y v hy).mp hup) (by omega)
    | some y1 =>
      obtain ⟨v1, hv1⟩ := (F.inv y1).mp (F.up_V _ ((F.inv y).mpr ⟨v, hy⟩) hup)
      obtain ⟨hy1, hdep⟩ := (F.up_some _ y y1 v v1 hy hv1).mp hup
      simp only [Option.bind_some, hv1]
      have hcommon : ∀ d, Anc V par r d x → Anc V par r d y → Anc V par r d y1 := by
        intro d h1 h2
        obtain ⟨k, hk⟩ := (F.inv d).mp (PTree.anc_V h1).1
        have := (F.anc_depth h1 hx hk).1
        exact F.anc_of_depth h2 hy1 hk hv1 (by omega)
      by_cases he : u = v1
      · rw [if_pos he]
        subst he
        have := F.inj hx hv1
        subst this
        exact ⟨x, by rw [F.blk x u hx], .refl ((F.inv x).mpr ⟨u, hx⟩), hy1, fun d h _ => h⟩
      · rw [if_neg he]
        have hne : x ≠ y1 := fun e => he (by rw [e, hv1] at hx; simpa using hx.symm)
        have hdx := hd x u hx
        obtain ⟨x', y', u', v', h1, h2, h3, h4, h5, h6, h7, h8⟩ := F.lift2_spec (maxDepth + 1) x y1 u v1 hx hv1 hne (by omega) (by
          rw [(F.up_none _ x u hx).mpr (by omega), (F.up_none _ y1 v1 hv1).mpr (by omega)])
        rw [h1]
        dsimp only
        -- neither is the root
        have hxr : x' ≠ r := by
          intro e
          subst e
          have := F.depth_root h2
          have hyr : y' = x' := by
            by_contra hyr
            obtain ⟨q, _, hd'⟩ := F.depth_par h3 hyr
            omega
          exact h4 hyr.symm
        have hyr : y' ≠ r := by
          intro e
          subst e
          have := F.depth_root h3
          obtain ⟨q, _, hd'⟩ := F.depth_par h2 hxr
          omega
        have hpar : par x' = par y' := by simpa [up, hxr, hyr] using h6
        obtain ⟨q, hq, hqd⟩ := F.depth_par h2 hxr
        have hL := (F.links x' u' h2).1
        rw [if_neg hxr, hq] at hL
        refine ⟨par x', ?_, ?_, ?_, ?_⟩
        · rw [hL]; simp only [Option.map_some, F.blk _ q hq]
        · exact PTree.anc_trans (.step ((F.inv x').mpr ⟨u', h2⟩) hxr (.refl ((F.inv _).mpr ⟨q, hq⟩))) h7
        · rw [hpar] at hq ⊢
          exact PTree.anc_trans (.step ((F.inv y').mpr ⟨v', h3⟩) hyr (.refl ((F.inv _).mpr ⟨q, hq⟩))) (PTree.anc_trans h8 hy1)
        · intro d d1 d2
          have d3 := hcommon d d1 d2
          obtain ⟨k, hk⟩ := (F.inv d).mp (PTree.anc_V d1).1
          -- a common ancestor is strictly above `x'`
          rcases F.comparable d1 h7 with h | h
          · cases h with
            | refl _ =>
              -- then it would also be `y'`
              exfalso
              rw [h2] at hk
              simp only [Option.some.injEq] at hk
              subst hk
              have := F.anc_of_depth d3 h8 h2 h3 (by omega)
              exact h4 ((F.anc_depth this h3 h2).2 (by omega)).symm
            | step _ _ h => exact h
          · exfalso
            have hd1 := (F.anc_depth h hk h2).1
            have := F.anc_of_depth h8 d3 h3 hk (by omega)
            rcases F.comparable h this with h' | h'
            · exact h4 ((F.anc_depth h' h3 h2).2 (by omega)).symm
            · exact h4 ((F.anc_depth h' h2 h3).2 (by omega))
  by_cases hgt : (t.node u0).depth > (t.node v0).depth
  · rw [if_pos hgt]
    obtain ⟨c, h1, h2, h3, h4⟩ := main b a v0 u0 hv0 hu0 (by omega)
    exact ⟨c, h1, h3, h2, fun d d1 d2 => h4 d d2 d1⟩
  · rw [if_neg hgt]
    obtain ⟨c, h1, h2, h3, h4⟩ := main a b u0 v0 hu0 hv0 (by omega)
    exact ⟨c, h1, h2, h3, h4⟩

end

/-! ### dominance -/

theorem path_prefix {α : Type} {E : α → α → Prop} {a c : α} {p : List α} (h : Path E a c p) {b : α} (hb : b ∈ p) :
    ∃ q, Path E a b q ∧ ∀ x ∈ q, x ∈ p := by
  induction h with
  | single a => simp only [List.mem_singleton] at hb; subst hb; exact ⟨[b], .single b, fun x h => h⟩
  | @cons a d c p e hp ih =>
    rcases List.mem_cons.mp hb with rfl | hb
    · exact ⟨[b], .single b, by simp⟩
    · obtain ⟨q, hq, hs⟩ := ih hb
      refine ⟨a :: q, .cons e hq, ?_⟩
      intro x hx
      rcases List.mem_cons.mp hx with rfl | hx
      · simp
      · simp [hs x hx]

theorem dominates_refl {α : Type} {E : α → α → Prop} {r a : α} : Dominates E r a a := by
  intro p hp
  have : ∀ {x y p}, Path E x y p → y ∈ p := by
    intro x y p h
    induction h with
    | single _ => simp
    | cons _ _ ih => simp [ih]
  exact this hp

theorem dominates_trans {α : Type} {E : α → α → Prop} {r a b c : α} (h1 : Dominates E r a b) (h2 : Dominates E r b c) : Dominates E r a c := by
  intro p hp
  obtain ⟨q, hq, hs⟩ := path_prefix hp (h2 p hp)
  exact hs a (h1 q hq)

/-- everything the analysis guarantees, for the queries below -/
theorem run_spec (ordg ordc : Nat → List Nat → List Nat) (hg : ∀ u l, (ordg u l).Perm l) (hc : ∀ u l, (ordc u l).Perm l)
    {n : Nat} {succ : Nat → List Nat} {r : Nat} (hv : ∀ u v, v ∈ succ u → v < n) (hr : r < n) :
    ∃ t idom, run ordg ordc n succ r = some t ∧ Fin (Reachable (Edge succ) r) idom r t ∧
      (∀ x, Reachable (Edge succ) r x → x ≠ r → ImmDom (Edge succ) r (idom x) x) ∧ t.cnt ≤ n ∧
      (∀ a b, Reachable (Edge succ) r b → (Anc (Reachable (Edge succ) r) idom r a b ↔ Dominates (Edge succ) r a b)) := by
  obtain ⟨c, idom, e, D, H⟩ := idoms_spec ordg hg hv hr
  have T := D.tree
  have hVR : ∀ x, Vis c x ↔ Reachable (Edge succ) r x := by
    intro x
    refine ⟨D.reach x, ?_⟩
    rintro ⟨p, hp⟩
    have : ∀ {a b p}, Path (Edge succ) a b p → Vis c a → Vis c b := by
      intro a b p h
      induction h with
      | single _ => exact fun h => h
      | cons e _ ih => exact fun h => ih (T.closed h e)
    exact this hp T.root
  have hVeq : Vis c = Reachable (Edge succ) r := funext fun x => propext (hVR x)
  have hseq : ∀ x, x ∈ c.dfseq ↔ Vis c x := by
    intro x
    rw [List.mem_iff_getElem?]
    constructor
    · rintro ⟨i, hi⟩; unfold Vis; rw [(D.seq i x).mp hi]; omega
    · intro h
      have : c.dfn x ≠ 0 := h
      exact ⟨c.dfn x - 1, (D.seq _ _).mpr (by omega)⟩
  have hnd : c.dfseq.Nodup := by
    rw [List.nodup_iff_injective_getElem]
    intro i j heq
    have h1 := (D.seq i.1 _).mp (List.getElem?_eq_getElem i.2)
    have h2 := (D.seq j.1 _).mp (List.getElem?_eq_getElem j.2)
    dsimp only at heq
    rw [heq] at h1
    exact Fin.ext (by omega)
  have himm : ∀ {x}, Vis c x → x ≠ r → Anc (Vis c) c.fa r (idom x) x ∧ idom x ≠ x := fun hx hxr =>
    ⟨T.dom_anc hx (H _ hx hxr).1, (H _ hx hxr).2.1⟩
  have PT : PTree (Vis c) idom r n c.dfn (fun v => ordc v (c.dfseq.filter (fun u => u ≠ r && idom u = v))) := by
    refine ⟨T.root, fun hx hxr => T.V_left (himm hx hxr).1, fun hx hxr => T.anc_lt (himm hx hxr).1 (himm hx hxr).2, ?_, ?_, ?_⟩
    · intro x _; have := D.len x; have := D.lenle n hv hr; omega
    · intro v x
      rw [(hc v _).mem_iff, List.mem_filter, hseq]
      simp
    · intro v
      exact (hc v _).nodup_iff.mpr (hnd.filter _)
  obtain ⟨t, e2, P, hlt, hsz, hinv⟩ := tdfs_spec PT (n + 1) r none { cnt := 0, inv := fun _ => none, node := fun _ => blankNode } T.root
    (by omega) (fun i hi => by simp at hi) (by simp) (by simp)
  have hPV : ∀ x, Anc (Vis c) idom r r x ↔ Vis c x := fun x => ⟨fun h => (PTree.anc_V h).2, PT.root_anc⟩
  have hdomanc : ∀ a b, Vis c b → (Anc (Vis c) idom r a b ↔ Dominates (Edge succ) r a b) := by
    intro a b hb
    constructor
    · intro h
      induction h with
      | refl _ => exact dominates_refl
      | @step b hb' hbr _ ih => exact dominates_trans (ih (PT.par_V hb' hbr)) (H b hb' hbr).1
    · intro h
      have : ∀ k b, c.dfn b = k → Vis c b → Dominates (Edge succ) r a b → Anc (Vis c) idom r a b := by
        intro k
        induction k using Nat.strongRecOn with
        | _ k ih =>
          intro b hk hb h
          by_cases hab : a = b
          · subst hab; exact .refl hb
          · by_cases hbr : b = r
            · subst hbr
              have := h [b] (.single b)
              simp only [List.mem_singleton] at this
              exact absurd this hab
            · exact .step hb hbr (ih _ (hk ▸ PT.rank_lt hb hbr) _ rfl (PT.par_V hb hbr) ((H b hb hbr).2.2 a h hab))
      exact this _ b rfl hb h
  have hcnt : t.cnt ≤ n := by
    have hnodes : ((List.range t.cnt).map (fun i => (t.node i).block)).Nodup := by
      rw [List.nodup_map_iff_inj_on List.nodup_range]
      intro i hi j hj hij
      have h1 := (P.blk i (Nat.zero_le _) (List.mem_range.mp hi)).2
      have h2 := (P.blk j (Nat.zero_le _) (List.mem_range.mp hj)).2
      rw [hij, h2] at h1
      simpa using h1.symm
    have := CallGraph.nodup_length_le (n := n) hnodes (by
      intro x hx
      rw [List.mem_map] at hx
      obtain ⟨i, hi, rfl⟩ := hx
      have hV := (hPV _).mp (P.blk i (Nat.zero_le _) (List.mem_range.mp hi)).1
      by_cases h : (t.node i).block = r
      · rw [h]; exact hr
      · exact hv _ _ (T.fa_E hV h))
    simpa using this
  rw [hVeq] at P hPV hdomanc PT H
  refine ⟨t, idom, ?_, ?_, H, hcnt, hdomanc⟩
  · unfold run
    rw [e]
    dsimp only
    rw [e2]
  · have hnone : ∀ x, ¬ Reachable (Edge succ) r x → t.inv x = none := fun x h => by
      rw [P.invOld x (fun h' => h ((hPV x).mp h'))]
    have hsome : ∀ x i, t.inv x = some i → Reachable (Edge succ) r x := by
      intro x i h
      by_contra hn
      rw [hnone x hn] at h; simp at h
    refine ⟨?_, ?_, ?_, ?_, ?_, ?_, PT.par_V, PT.root, PT.comparable⟩
    · intro x
      constructor
      · intro h
        obtain ⟨i, hi, _⟩ := P.invNew x ((hPV x).mpr h)
        exact ⟨i, hi⟩
      · rintro ⟨i, hi⟩; exact hsome x i hi
    · intro x i h
      obtain ⟨j, hj, _, _, hb⟩ := P.invNew x ((hPV x).mpr (hsome x i h))
      rw [h] at hj
      simp only [Option.some.injEq] at hj
      subst hj; exact hb
    · intro i hi
      exact (P.blk i (by simp) hi).2
    · intro x i h
      obtain ⟨j, hj, _, hl, _⟩ := P.invNew x ((hPV x).mpr (hsome x i h))
      rw [h] at hj
      simp only [Option.some.injEq] at hj
      subst hj; exact hl
    · intro a b i j hi hj
      exact P.anc a b i j ((hPV a).mpr (hsome a i hi)) ((hPV b).mpr (hsome b j hj)) hi hj
    · intro x i hi
      exact P.links x i ((hPV x).mpr (hsome x i hi)) hi

/-! ## The properties -/

section
variable (ordg ordc : Nat → List Nat → List Nat) (hg : ∀ u l, (ordg u l).Perm l) (hc : ∀ u l, (ordc u l).Perm l)
  {n : Nat} {succ : Nat → List Nat} {r : Nat} (hv : ∀ u v, v ∈ succ u → v < n) (hr : r < n)
include hg hc hv hr

/-- C30: for every control-flow graph (blocks numbered below `n`, entry `r`) and whatever the order in which the hash containers are
walked, the analysis terminates; a block is `reachable` iff a path leads to it from the entry; and the `parent` of a block is its
immediate dominator (`nullptr` exactly for the entry and for unreachable blocks). -/
theorem C30_immediate_dominators : ∃ t, run ordg ordc n succ r = some t ∧
    (∀ x, t.reachable x = true ↔ Reachable (Edge succ) r x) ∧
    (∀ x, t.parent x = none ↔ (x = r ∨ ¬ Reachable (Edge succ) r x)) ∧
    (∀ x d, t.parent x = some d ↔ (Reachable (Edge succ) r x ∧ ImmDom (Edge succ) r d x)) := by
  classical
  obtain ⟨t, idom, e, F, H, _, hd⟩ := run_spec ordg ordc hg hc hv hr
  have hpar : ∀ x, t.parent x = if Reachable (Edge succ) r x ∧ x ≠ r then some (idom x) else none := by
    intro x
    unfold TS.parent
    by_cases hx : Reachable (Edge succ) r x
    · obtain ⟨i, hi⟩ := (F.inv x).mp hx
      rw [hi]
      dsimp only
      rw [(F.links x i hi).1]
      by_cases hxr : x = r
      · simp [hxr]
      · obtain ⟨j, hj⟩ := (F.inv _).mp (F.par_V hx hxr)
        rw [if_neg hxr, hj, if_pos ⟨hx, hxr⟩]
        simp only [Option.map_some, F.blk _ j hj]
    · have : t.inv x = none := by
        cases h : t.inv x with
        | none => rfl
        | some i => exact absurd ((F.inv x).mpr ⟨i, h⟩) hx
      rw [this, if_neg (fun h => hx h.1)]
  refine ⟨t, e, ?_, ?_, ?_⟩
  · intro x
    unfold TS.reachable
    rw [F.inv x, Option.isSome_iff_exists]
  · intro x
    rw [hpar x]
    by_cases hx : Reachable (Edge succ) r x
    · by_cases hxr : x = r
      · simp [hxr]
      · simp [hx, hxr]
    · simp [hx]
  · intro x d
    rw [hpar x]
    constructor
    · intro h
      split at h
      · rename_i hh
        simp only [Option.some.injEq] at h
        rw [← h]
        exact ⟨hh.1, H x hh.1 hh.2⟩
      · simp at h
    · rintro ⟨hx, hi⟩
      have hxr : x ≠ r := by
        intro e
        subst e
        have := hi.1 [x] (.single x)
        simp only [List.mem_singleton] at this
        exact hi.2.1 this
      rw [if_pos ⟨hx, hxr⟩]
      have hi' := H x hx hxr
      have h1 := hi'.2.2 d hi.1 hi.2.1
      have h2 := hi.2.2 (idom x) hi'.1 hi'.2.1
      -- two vertices that dominate each other are equal
      have hpV := F.par_V hx hxr
      have hdV : Reachable (Edge succ) r d := by
        obtain ⟨p, hp⟩ := hx
        obtain ⟨q, hq, _⟩ := path_prefix hp (hi.1 p hp)
        exact ⟨q, hq⟩
      have a1 := (hd d (idom x) hpV).mpr h1
      have a2 := (hd (idom x) d hdV).mpr h2
      obtain ⟨i, hi1⟩ := (F.inv _).mp hpV
      obtain ⟨j, hj1⟩ := (F.inv _).mp hdV
      have b1 := F.anc_depth a1 hi1 hj1
      have b2 := F.anc_depth a2 hj1 hi1
      rw [b1.2 (by omega)]

/-- C29: `dominate(a, b)` answers whether `a` dominates the (reachable) block `b`. -/
theorem C29_dominate : ∃ t, run ordg ordc n succ r = some t ∧
    ∀ a b, t.dominate a b = true ↔ (Reachable (Edge succ) r b ∧ Dominates (Edge succ) r a b) := by
  obtain ⟨t, idom, e, F, H, _, hd⟩ := run_spec ordg ordc hg hc hv hr
  refine ⟨t, e, fun a b => ?_⟩
  unfold TS.dominate
  cases hb : t.inv b with
  | none =>
    have : ¬ Reachable (Edge succ) r b := fun h => by
      obtain ⟨i, hi⟩ := (F.inv b).mp h
      rw [hb] at hi; simp at hi
    cases t.inv a <;> simp [this]
  | some j =>
    have hbV := (F.inv b).mpr ⟨j, hb⟩
    cases ha : t.inv a with
    | none =>
      simp only [Bool.false_eq_true, false_iff, not_and]
      intro _ h
      have := (hd a b hbV).mpr h
      obtain ⟨i, hi⟩ := (F.inv a).mp (PTree.anc_V this).1
      rw [ha] at hi; simp at hi
    | some i =>
      simp only [Bool.and_eq_true, decide_eq_true_eq]
      rw [← F.anc a b i j ha hb, hd a b hbV]
      exact ⟨fun h => ⟨hbV, h⟩, fun h => h.2⟩

/-- C29: for functions of at most 2^21 blocks, `lca(a, b)` of two reachable blocks is their nearest common dominator: it dominates
both, and every block that dominates both dominates it. -/
theorem C29_lca (hn : n ≤ 2 ^ 21) : ∃ t, run ordg ordc n succ r = some t ∧
    (∀ a b, (¬ Reachable (Edge succ) r a ∨ ¬ Reachable (Edge succ) r b) → t.lca a b = none) ∧
    ∀ a b, Reachable (Edge succ) r a → Reachable (Edge succ) r b → ∃ c, t.lca a b = some c ∧
      Dominates (Edge succ) r c a ∧ Dominates (Edge succ) r c b ∧
      ∀ d, Dominates (Edge succ) r d a → Dominates (Edge succ) r d b → Dominates (Edge succ) r d c := by
  obtain ⟨t, idom, e, F, H, hcnt, hd⟩ := run_spec ordg ordc hg hc hv hr
  have hnone : ∀ x, ¬ Reachable (Edge succ) r x → t.inv x = none := by
    intro x hx
    cases h : t.inv x with
    | none => rfl
    | some i => exact absurd ((F.inv x).mpr ⟨i, h⟩) hx
  -- depth is at most the index
  have hdepth : ∀ k x i, i = k → t.inv x = some i → (t.node i).depth ≤ i := by
    intro k
    induction k using Nat.strongRecOn with
    | _ k ih =>
      intro x i hk hi
      by_cases hxr : x = r
      · subst hxr; rw [F.depth_root hi]; omega
      · obtain ⟨j, hj, hdj⟩ := F.depth_par hi hxr
        have hx := (F.inv x).mpr ⟨i, hi⟩
        have hanc : Anc (Reachable (Edge succ) r) idom r (idom x) x := .step hx hxr (.refl (F.par_V hx hxr))
        have h1 := (F.anc _ _ j i hj hi).mp hanc
        have hne : j ≠ i := fun e => by subst e; omega
        have := ih j (by omega) _ j rfl hj
        omega
  refine ⟨t, e, ?_, ?_⟩
  · rintro a b (h | h)
    · unfold TS.lca; rw [hnone a h]
    · unfold TS.lca; rw [hnone b h]; cases t.inv a <;> rfl
  · intro a b ha hb
    obtain ⟨c, h1, h2, h3, h4⟩ := F.lca_spec ha hb (fun x i hi => by
      have := hdepth i x i rfl hi
      have := F.lt x i hi
      unfold maxDepth
      omega)
    refine ⟨c, h1, (hd c a ha).mp h2, (hd c b hb).mp h3, fun d d1 d2 => ?_⟩
    exact (hd d c (PTree.anc_V h2).1).mp (h4 d ((hd d a ha).mpr d1) ((hd d b hb).mpr d2))

/-- C29: `blocks()` (the tree in index order, DominateAnalysis.cpp:29-31) lists every reachable block exactly once, dominators first. -/
theorem C29_blocks_order : ∃ t, run ordg ordc n succ r = some t ∧
    let blocks := (List.range t.cnt).map (fun i => (t.node i).block)
    blocks.Nodup ∧ (∀ x, x ∈ blocks ↔ Reachable (Edge succ) r x) ∧
      ∀ (a b i j : Nat), blocks[i]? = some a → blocks[j]? = some b → Dominates (Edge succ) r a b → i ≤ j := by
  obtain ⟨t, idom, e, F, H, _, hd⟩ := run_spec ordg ordc hg hc hv hr
  refine ⟨t, e, ?_, ?_, ?_⟩
  · rw [List.nodup_map_iff_inj_on List.nodup_range]
    intro i hi j hj hij
    have h1 := F.idx i (List.mem_range.mp hi)
    have h2 := F.idx j (List.mem_range.mp hj)
    rw [hij, h2] at h1
    simpa using h1.symm
  · intro x
    rw [List.mem_map]
    constructor
    · rintro ⟨i, hi, rfl⟩
      exact (F.inv _).mpr ⟨i, F.idx i (List.mem_range.mp hi)⟩
    · intro h
      obtain ⟨i, hi⟩ := (F.inv x).mp h
      exact ⟨i, List.mem_range.mpr (F.lt x i hi), F.blk x i hi⟩
  · intro a b i j hi hj h
    have get : ∀ {i x}, ((List.range t.cnt).map (fun i => (t.node i).block))[i]? = some x → t.inv x = some i := by
      intro i x hx
      rw [List.getElem?_map] at hx
      rcases Nat.lt_or_ge i t.cnt with hl | hl
      · rw [List.getElem?_range hl] at hx
        simp only [Option.map_some, Option.some.injEq] at hx
        rw [← hx]; exact F.idx i hl
      · rw [List.getElem?_eq_none (by simpa using hl)] at hx; simp at hx
    have hi' := get hi
    have hj' := get hj
    exact ((F.anc a b i j hi' hj').mp ((hd a b ((F.inv b).mpr ⟨j, hj'⟩)).mpr h)).1

end

/-! non-vacuity: a diamond with a loop and an unreachable block:  0 → 1, 2;  1 → 3;  2 → 3, 2;  3 → 4;  4 → 3;  5 unreachable -/
def exSucc : Nat → List Nat
  | 0 => [1, 2]
  | 1 => [3]
  | 2 => [3, 2]
  | 3 => [4]
  | 4 => [3]
  | 5 => [4]
  | _ => []

example : ∀ u v, v ∈ exSucc u → v < 6 := by
  intro u v h
  match u with
  | 0 | 1 | 2 | 3 | 4 | 5 => simp [exSucc] at h; omega
  | n + 6 => simp [exSucc] at h

example : (run (fun _ l => l) (fun _ l => l) 6 exSucc 0).map (fun t => ((List.range 6).map t.parent, t.lca 1 4, t.dominate 0 4, t.dominate 1 3)) =
    some ([none, some 0, some 0, some 0, some 3, none], some 0, true, false) := by decide +kernel

end Cmmc.Dom
