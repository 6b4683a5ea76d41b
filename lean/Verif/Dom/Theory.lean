import Verif.Dom.Spec
import Mathlib.Tactic.ByContra
/-!
# Depth-first spanning trees and semidominators

The graph-theoretic facts behind the Lengauer–Tarjan algorithm, proved for an arbitrary numbered spanning tree with the two
properties of depth-first numberings (`interval`, `edge`).
-/
namespace Cmmc.Dom
open Relation

/-- `a` is an ancestor of `b` (or `b` itself) in the tree given by the parent function `fa` on the vertices `V` with root `r` -/
inductive Anc {α : Type} (V : α → Prop) (fa : α → α) (r : α) : α → α → Prop
  | refl {a : α} : V a → Anc V fa r a a
  | step {a b : α} : V b → b ≠ r → Anc V fa r a (fa b) → Anc V fa r a b

/-- a depth-first spanning tree of the vertices reachable from `r` -/
structure DFST {α : Type} (E : α → α → Prop) (r : α) (V : α → Prop) (dfn : α → Nat) (fa : α → α) : Prop where
  root : V r
  closed : ∀ {a b}, V a → E a b → V b
  inj : ∀ {a b}, V a → V b → dfn a = dfn b → a = b
  fa_V : ∀ {b}, V b → b ≠ r → V (fa b)
  fa_E : ∀ {b}, V b → b ≠ r → E (fa b) b
  fa_lt : ∀ {b}, V b → b ≠ r → dfn (fa b) < dfn b
  interval : ∀ {m x y}, Anc V fa r m x → V y → dfn m ≤ dfn y → dfn y ≤ dfn x → Anc V fa r m y
  edge : ∀ {u v}, V u → E u v → dfn u < dfn v → Anc V fa r u v

variable {α : Type} {E : α → α → Prop} {r : α} {V : α → Prop} {dfn : α → Nat} {fa : α → α}

theorem rtg_mono {p q : α → α → Prop} (h : ∀ a b, p a b → q a b) {a b : α} (hp : ReflTransGen p a b) : ReflTransGen q a b := by
  induction hp with
  | refl => exact .refl
  | tail _ e ih => exact ih.tail (h _ _ e)

section tree
variable (T : DFST E r V dfn fa)
include T

theorem DFST.V_left {a b : α} (h : Anc V fa r a b) : V a := by
  induction h with
  | refl h => exact h
  | step _ _ _ ih => exact ih

theorem DFST.V_right {a b : α} (h : Anc V fa r a b) : V b := by
  cases h with
  | refl h => exact h
  | step h _ _ => exact h

theorem DFST.anc_le {a b : α} (h : Anc V fa r a b) : dfn a ≤ dfn b := by
  induction h with
  | refl _ => exact Nat.le_refl _
  | step hb hr _ ih => have := T.fa_lt hb hr; omega

theorem DFST.anc_trans {a b c : α} (h1 : Anc V fa r a b) (h2 : Anc V fa r b c) : Anc V fa r a c := by
  induction h2 with
  | refl _ => exact h1
  | step hb hr _ ih => exact .step hb hr ih

theorem DFST.anc_antisymm {a b : α} (h1 : Anc V fa r a b) (h2 : dfn b ≤ dfn a) : a = b :=
  T.inj (T.V_left h1) (T.V_right h1) (Nat.le_antisymm (T.anc_le h1) h2)

theorem DFST.anc_lt {a b : α} (h1 : Anc V fa r a b) (h2 : a ≠ b) : dfn a < dfn b := by
  rcases Nat.lt_or_ge (dfn a) (dfn b) with h | h
  · exact h
  · exact absurd (T.anc_antisymm h1 h) h2

theorem DFST.anc_fa {a b : α} (h : Anc V fa r a b) (hne : a ≠ b) : Anc V fa r a (fa b) ∧ b ≠ r := by
  cases h with
  | refl _ => exact absurd rfl hne
  | step _ hr h => exact ⟨h, hr⟩

theorem DFST.fa_anc {b : α} (h : V b) (hr : b ≠ r) : Anc V fa r (fa b) b := .step h hr (.refl (T.fa_V h hr))

/-- two ancestors of the same vertex are comparable -/
theorem DFST.anc_comparable {a b c : α} (h1 : Anc V fa r a c) (h2 : Anc V fa r b c) (h : dfn a ≤ dfn b) : Anc V fa r a b :=
  T.interval h1 (T.V_left h2) h (T.anc_le h2)

theorem DFST.root_anc {b : α} (h : V b) : Anc V fa r r b := by
  have : ∀ n b, dfn b = n → V b → Anc V fa r r b := by
    intro n
    induction n using Nat.strongRecOn with
    | _ n ih =>
      intro b hn hb
      by_cases hr : b = r
      · subst hr; exact .refl hb
      · exact .step hb hr (ih _ (hn ▸ T.fa_lt hb hr) (fa b) rfl (T.fa_V hb hr))
  exact this _ b rfl h

theorem DFST.root_le {b : α} (h : V b) : dfn r ≤ dfn b := T.anc_le (T.root_anc h)

/-- the child of `a` on the tree path from `a` to a proper descendant `b` -/
theorem DFST.child {a b : α} (h : Anc V fa r a b) (hne : a ≠ b) : ∃ c, V c ∧ c ≠ r ∧ fa c = a ∧ Anc V fa r c b := by
  induction h with
  | refl _ => exact absurd rfl hne
  | @step b hb hr h ih =>
    by_cases hf : a = fa b
    · exact ⟨b, hb, hr, hf.symm, .refl hb⟩
    · obtain ⟨c, h1, h2, h3, h4⟩ := ih hf
      exact ⟨c, h1, h2, h3, .step hb hr h4⟩

/-- an edge that does not leave below `m` stays inside the subtree of `m` -/
theorem DFST.desc {m x y : α} (h : Anc V fa r m x) (e : E x y) (hm : dfn m ≤ dfn y) : Anc V fa r m y := by
  have hx := T.V_right h
  rcases Nat.lt_or_ge (dfn x) (dfn y) with h1 | h1
  · exact T.anc_trans h (T.edge hx e h1)
  · exact T.interval h (T.closed hx e) hm h1

/-- every path from `a` to `z` contains an ancestor of `z` numbered at most `a` -/
theorem DFST.path_min {Q : α → Prop} {a z : α} (hz : V z) (p : ReflTransGen (fun a b => V a ∧ E a b ∧ Q b) a z) (hQ : Q a) :
    ∃ m, Q m ∧ Anc V fa r m z ∧ dfn m ≤ dfn a := by
  induction p using ReflTransGen.head_induction_on with
  | refl => exact ⟨z, hQ, .refl hz, Nat.le_refl _⟩
  | @head a b h _ ih =>
    obtain ⟨m, hm, ha, hle⟩ := ih h.2.2
    rcases Nat.lt_or_ge (dfn a) (dfn m) with h1 | h1
    · have hab := T.edge h.1 h.2.1 (by omega)
      exact ⟨a, hQ, T.anc_trans (T.interval hab (T.V_left ha) (by omega) hle) ha, Nat.le_refl _⟩
    · exact ⟨m, hm, ha, h1⟩

/-! ### avoiding a vertex -/

/-- there is a path from `a` to `b` none of whose vertices is `d` -/
def Avoid (E : α → α → Prop) (d a b : α) : Prop := a ≠ d ∧ ReflTransGen (fun a b => E a b ∧ b ≠ d) a b

omit T in
theorem Avoid.trans {d a b c : α} (h1 : Avoid E d a b) (h2 : Avoid E d b c) : Avoid E d a c := ⟨h1.1, h1.2.trans h2.2⟩

omit T in
theorem avoid_refl {d a : α} (h : a ≠ d) : Avoid E d a a := ⟨h, .refl⟩

omit T in
theorem Avoid.tail {d a b c : α} (h1 : Avoid E d a b) (e : E b c) (h : c ≠ d) : Avoid E d a c := ⟨h1.1, h1.2.tail ⟨e, h⟩⟩

omit T in
theorem avoid_iff_path {d a b : α} : Avoid E d a b ↔ ∃ p, Path E a b p ∧ d ∉ p := by
  constructor
  · rintro ⟨h, p⟩
    induction p using ReflTransGen.head_induction_on with
    | refl => exact ⟨[b], .single b, by simpa using h.symm⟩
    | @head a c e _ ih =>
      obtain ⟨p, hp, hd⟩ := ih e.2
      exact ⟨a :: p, .cons e.1 hp, by simp only [List.mem_cons, not_or]; exact ⟨h.symm, hd⟩⟩
  · rintro ⟨p, hp, hd⟩
    induction hp with
    | single a => exact ⟨by simpa [eq_comm] using hd, .refl⟩
    | @cons a b c p e hp ih =>
      simp only [List.mem_cons, not_or] at hd
      have := ih hd.2
      exact ⟨Ne.symm hd.1, this.2.head ⟨e, this.1⟩⟩

omit T in
theorem dominates_iff {d b : α} : Dominates E r d b ↔ ¬ Avoid E d r b := by
  rw [avoid_iff_path]
  unfold Dominates
  constructor
  · rintro h ⟨p, hp, hd⟩; exact hd (h p hp)
  · intro h p hp; by_contra hd; exact h ⟨p, hp, hd⟩

/-- a tree path avoids every vertex that is not on it -/
theorem DFST.avoid_tree {a b d : α} (h : Anc V fa r a b) (hd : ¬ (Anc V fa r a d ∧ Anc V fa r d b)) : Avoid E d a b := by
  induction h with
  | refl h => exact avoid_refl (fun e => hd (by subst e; exact ⟨.refl h, .refl h⟩))
  | @step b hb hr h ih =>
    have h1 := ih (fun hh => hd ⟨hh.1, .step hb hr hh.2⟩)
    refine h1.tail (T.fa_E hb hr) (fun e => hd ?_)
    subst e
    exact ⟨.step hb hr h, .refl hb⟩

theorem DFST.avoid_root {b d : α} (hb : V b) (hd : ¬ Anc V fa r d b) : Avoid E d r b :=
  T.avoid_tree (T.root_anc hb) (fun h => hd h.2)

theorem DFST.dom_anc {d b : α} (hb : V b) (h : Dominates E r d b) : Anc V fa r d b := by
  by_contra hn
  exact dominates_iff.mp h (T.avoid_root hb hn)

/-! ### semidominators -/

/-- a path from `s` to `w`, of at least one edge, whose inner vertices are numbered higher than `w` -/
def SemiPath (E : α → α → Prop) (dfn : α → Nat) (s w : α) : Prop :=
  ∃ y, ReflTransGen (fun a b => E a b ∧ dfn w < dfn b) s y ∧ E y w

/-- `s` is the semidominator of `w` -/
def IsSd (E : α → α → Prop) (V : α → Prop) (dfn : α → Nat) (s w : α) : Prop :=
  V s ∧ SemiPath E dfn s w ∧ ∀ v, V v → SemiPath E dfn v w → dfn s ≤ dfn v

theorem DFST.isSd_unique {s s' w : α} (h : IsSd E V dfn s w) (h' : IsSd E V dfn s' w) : s = s' :=
  T.inj h.1 h'.1 (Nat.le_antisymm (h.2.2 _ h'.1 h'.2.1) (h'.2.2 _ h.1 h.2.1))

omit T in
theorem semi_edge {s w : α} (e : E s w) : SemiPath E dfn s w := ⟨s, .refl, e⟩

/-- the source of a semi-path, if numbered lower, is an ancestor -/
theorem DFST.semi_anc {s w : α} (hs : V s) (h : SemiPath E dfn s w) (hlt : dfn s < dfn w) : Anc V fa r s w := by
  obtain ⟨y, p, e⟩ := h
  have : Anc V fa r s y := by
    clear e
    induction p with
    | refl => exact .refl hs
    | @tail b c _ h ih => exact T.desc ih h.1 (by omega)
  exact T.desc this e (by omega)

theorem DFST.sd_anc {s w : α} (hw : V w) (hr : w ≠ r) (h : IsSd E V dfn s w) : Anc V fa r s w ∧ dfn s < dfn w := by
  have h1 := h.2.2 _ (T.fa_V hw hr) (semi_edge (T.fa_E hw hr))
  have h2 := T.fa_lt hw hr
  exact ⟨T.semi_anc h.1 h.2.1 (by omega), by omega⟩

/-- a semi-path avoids every vertex other than its ends that is numbered at most its end -/
theorem semi_avoid {s w d : α} (h : SemiPath E dfn s w) (hs : s ≠ d) (hw : w ≠ d) (hd : dfn d ≤ dfn w) : Avoid E d s w := by
  obtain ⟨y, p, e⟩ := h
  refine Avoid.tail ⟨hs, ?_⟩ e hw
  exact rtg_mono (fun a b h => ⟨h.1, fun e => by subst e; omega⟩) p

/-- Lemma 4 of Lengauer and Tarjan -/
theorem DFST.dom_anc_sd {s w d : α} (hw : V w) (h : IsSd E V dfn s w) (hd : Dominates E r d w) (hne : d ≠ w) : Anc V fa r d s := by
  by_contra hn
  have h1 := T.avoid_root h.1 hn
  have h2 := T.anc_le (T.dom_anc hw hd)
  refine dominates_iff.mp hd (h1.trans (semi_avoid T h.2.1 ?_ hne.symm h2))
  intro e; subst e; exact hn (.refl h.1)

/-- the core of Theorems 2 and 3: a proper ancestor `d` of `w` dominates `w` if no vertex on the tree path below `d` can be entered by a
semi-path from above `d` -/
theorem DFST.dom_of_no_semi {d w : α} (hdw : Anc V fa r d w)
    (H : ∀ y, Anc V fa r d y → y ≠ d → Anc V fa r y w → ∀ x, V x → dfn x < dfn d → ¬ SemiPath E dfn x y) : Dominates E r d w := by
  rw [dominates_iff]
  rintro ⟨hrd, p⟩
  have hd := T.V_left hdw
  -- vertices reached while avoiding `d`
  have key : ∀ z, ReflTransGen (fun a b => E a b ∧ b ≠ d) r z → V z ∧ (dfn z < dfn d ∨
      (∃ x, V x ∧ dfn x < dfn d ∧ dfn d < dfn z ∧ ¬ Anc V fa r z w ∧
        ReflTransGen (fun a b => V a ∧ E a b ∧ (dfn d < dfn b ∧ ¬ Anc V fa r b w)) x z)) := by
    intro z pz
    induction pz with
    | refl =>
      refine ⟨T.root, Or.inl ?_⟩
      have := T.root_le hd
      rcases Nat.lt_or_ge (dfn r) (dfn d) with h | h
      · exact h
      · exact absurd (T.inj T.root hd (by omega)) hrd
    | @tail z z' _ h ih =>
      obtain ⟨hz, ih⟩ := ih
      have hz' : V z' := T.closed hz h.1
      refine ⟨hz', ?_⟩
      rcases Nat.lt_or_ge (dfn z') (dfn d) with hlt | hge
      · exact Or.inl hlt
      have hgt : dfn d < dfn z' := by
        rcases Nat.lt_or_ge (dfn d) (dfn z') with h' | h'
        · exact h'
        · exact absurd (T.inj hz' hd (by omega)) h.2
      -- the segment `x … z`
      obtain ⟨x, hx, hxd, q⟩ : ∃ x, V x ∧ dfn x < dfn d ∧
          ReflTransGen (fun a b => V a ∧ E a b ∧ (dfn d < dfn b ∧ ¬ Anc V fa r b w)) x z := by
        rcases ih with h1 | ⟨x, hx, hxd, _, _, q⟩
        · exact ⟨z, hz, h1, .refl⟩
        · exact ⟨x, hx, hxd, q⟩
      have hnz : ¬ Anc V fa r z' w := by
        intro hzw
        have hdz : Anc V fa r d z' := T.anc_comparable hdw hzw (by omega)
        refine H z' hdz (fun e => by subst e; omega) hzw x hx hxd ⟨z, ?_, h.1⟩
        -- every inner vertex is numbered higher than `z'`
        have conv : ∀ x, ReflTransGen (fun a b => V a ∧ E a b ∧ (dfn d < dfn b ∧ ¬ Anc V fa r b w)) x z →
            ReflTransGen (fun a b => E a b ∧ dfn z' < dfn b) x z := by
          intro x q
          induction q using ReflTransGen.head_induction_on with
          | refl => exact .refl
          | @head a b hab q ih =>
            refine ih.head ⟨hab.2.1, ?_⟩
            by_contra hle
            have hbV : V b := T.closed hab.1 hab.2.1
            have q' : ReflTransGen (fun a b => V a ∧ E a b ∧ ((dfn d < dfn b ∧ ¬ Anc V fa r b w) ∨ b = z')) b z' :=
              (rtg_mono (fun a b h => ⟨h.1, h.2.1, Or.inl h.2.2⟩) q).tail ⟨hz, h.1, Or.inr rfl⟩
            obtain ⟨m, hm, hmz, hmb⟩ := T.path_min hz' q' (Or.inl hab.2.2)
            rcases hm with ⟨h1, h2⟩ | rfl
            · exact h2 (T.anc_trans hmz hzw)
            · have : b = m := T.inj hbV hz' (by omega)
              subst this
              exact hab.2.2.2 hzw
        exact conv x q
      exact Or.inr ⟨x, hx, hxd, hgt, hnz, q.tail ⟨hz, h.1, hgt, hnz⟩⟩
  obtain ⟨hw, h | ⟨x, _, _, _, h, _⟩⟩ := key w p
  · have := T.anc_le hdw; omega
  · exact h (.refl hw)

/-- a vertex strictly above on the tree path does not get in the way below -/
theorem DFST.dom_up {e s w : α} (hes : Anc V fa r e s) (hsw : Anc V fa r s w) (h : Dominates E r e w) : Dominates E r e s := by
  by_cases he : e = s
  · subst he; rw [dominates_iff]; rintro ⟨h1, p⟩
    rcases ReflTransGen.cases_tail p with h2 | ⟨_, _, h2⟩
    · exact h1 h2.symm
    · exact h2.2 rfl
  · rw [dominates_iff] at h ⊢
    intro ha
    refine h (ha.trans (T.avoid_tree hsw ?_))
    rintro ⟨h1, _⟩
    exact he (T.anc_antisymm hes (T.anc_le h1))

/-- Theorem 2: when no vertex on the tree path from `sd w` to `w` has a smaller semidominator, the semidominator is the immediate
dominator -/
theorem DFST.imm_of_sd {s w : α} (hw : V w) (hr : w ≠ r) (hs : IsSd E V dfn s w)
    (H : ∀ y sy, Anc V fa r s y → y ≠ s → Anc V fa r y w → IsSd E V dfn sy y → dfn s ≤ dfn sy)
    (ex : ∀ y, V y → y ≠ r → ∃ sy, IsSd E V dfn sy y) : ImmDom E r s w := by
  obtain ⟨hsw, hlt⟩ := T.sd_anc hw hr hs
  refine ⟨T.dom_of_no_semi hsw ?_, fun e => by subst e; omega, ?_⟩
  · intro y hy hne hyw x hx hlt' hp
    have hyr : y ≠ r := fun e => by
      subst e
      exact hne (T.anc_antisymm hy (T.root_le hs.1)).symm
    obtain ⟨sy, hsy⟩ := ex y (T.V_right hy) hyr
    have h1 := H y sy hy hne hyw hsy
    have h2 := hsy.2.2 x hx hp
    omega
  · intro e he hne
    exact T.dom_up (T.dom_anc_sd hw hs he hne) hsw he

/-- Theorem 3: the vertex with the smallest semidominator on the tree path below `sd w` has the same strict dominators as `w` -/
theorem DFST.imm_of_min {s w u su d : α} (hw : V w) (hr : w ≠ r) (hs : IsSd E V dfn s w)
    (hu : Anc V fa r s u) (hus : u ≠ s) (huw : Anc V fa r u w) (hsu : IsSd E V dfn su u) (hlt : dfn su < dfn s)
    (H : ∀ y sy, Anc V fa r s y → y ≠ s → Anc V fa r y w → IsSd E V dfn sy y → dfn su ≤ dfn sy)
    (ex : ∀ y, V y → y ≠ r → ∃ sy, IsSd E V dfn sy y) (hd : ImmDom E r d u) : ImmDom E r d w := by
  obtain ⟨hsw, hslt⟩ := T.sd_anc hw hr hs
  have huV := T.V_right hu
  have hsult := T.anc_lt hu (Ne.symm hus)
  have hur : u ≠ r := fun e => by
    subst e
    exact hus (T.anc_antisymm hu (T.root_le hs.1)).symm
  -- a strict dominator of `u` dominates `w`
  have up : ∀ e, Dominates E r e u → e ≠ u → Dominates E r e w ∧ e ≠ w := by
    intro e he hne
    have h1 := T.dom_anc_sd huV hsu he hne
    have h2 := T.anc_le h1
    have heu := T.dom_anc huV he
    have hew : Anc V fa r e w := T.anc_trans heu huw
    refine ⟨T.dom_of_no_semi hew ?_, fun e' => by subst e'; omega⟩
    intro y hey hne' hyw x hx hxe hp
    have heyl := T.anc_lt hey (Ne.symm hne')
    have hyr : y ≠ r := fun e' => by
      subst e'
      exact hne' (T.anc_antisymm hey (T.root_le (T.V_left hey))).symm
    by_cases hys : Anc V fa r s y ∧ y ≠ s
    · obtain ⟨sy, hsy⟩ := ex y (T.V_right hey) hyr
      have k1 := H y sy hys.1 hys.2 hyw hsy
      have k2 := hsy.2.2 x hx hp
      omega
    · -- `y` is above `s`, so the semi-path reaches `u` around `e`
      have hyles : dfn y ≤ dfn s := by
        by_contra hgt
        exact hys ⟨T.anc_comparable hsw hyw (by omega), fun e' => by subst e'; omega⟩
      have hyu : Anc V fa r y u := T.anc_trans (T.anc_comparable hyw hsw hyles) hu
      refine dominates_iff.mp he ?_
      have a1 : Avoid E e r x := T.avoid_root hx (fun h => by have := T.anc_le h; omega)
      have a2 : Avoid E e x y := semi_avoid T hp (fun e' => by subst e'; omega) (fun e' => by subst e'; omega) (by omega)
      have a3 : Avoid E e y u := T.avoid_tree hyu (fun h => by have := T.anc_le h.1; omega)
      exact (a1.trans a2).trans a3
  have down : ∀ e, Dominates E r e w → e ≠ w → Dominates E r e u ∧ e ≠ u := by
    intro e he hne
    have h1 := T.dom_anc_sd hw hs he hne
    have h2 := T.anc_le h1
    exact ⟨T.dom_up (T.anc_trans h1 hu) huw he, fun e' => by subst e'; omega⟩
  obtain ⟨k1, k2⟩ := up d hd.1 hd.2.1
  refine ⟨k1, k2, fun e he hne => ?_⟩
  obtain ⟨k3, k4⟩ := down e he hne
  exact hd.2.2 e k3 k4

/-! ### Theorem 4: the recurrence for semidominators -/

/-- soundness of the recurrence: a semi-path to `u > w`, then the tree path to a predecessor `v` of `w` -/
theorem DFST.semi_extend {s u v w : α} (hs : SemiPath E dfn s u) (huw : dfn w < dfn u) (huv : Anc V fa r u v) (e : E v w) :
    SemiPath E dfn s w := by
  refine ⟨v, ?_, e⟩
  obtain ⟨y, p, e'⟩ := hs
  have p1 : ReflTransGen (fun a b => E a b ∧ dfn w < dfn b) s u :=
    (rtg_mono (fun a b h => ⟨h.1, by omega⟩) p).tail ⟨e', huw⟩
  refine p1.trans ?_
  clear e p p1
  induction huv with
  | refl _ => exact .refl
  | @step b hb hr h ih =>
    refine ih.tail ⟨T.fa_E hb hr, ?_⟩
    have := T.anc_le h
    have := T.fa_lt hb hr
    omega

theorem DFST.semi_tree {s v w : α} (hsv : Anc V fa r s v) (h : ∀ y, Anc V fa r s y → y ≠ s → Anc V fa r y v → dfn w < dfn y) (e : E v w) :
    SemiPath E dfn s w := by
  refine ⟨v, ?_, e⟩
  clear e
  induction hsv with
  | refl _ => exact .refl
  | @step b hb hr hs ih =>
    have hlt := T.fa_lt hb hr
    have hle := T.anc_le hs
    refine (ih (fun y h1 h2 h3 => h y h1 h2 (.step hb hr h3))).tail ⟨T.fa_E hb hr, h b (.step hb hr hs) (fun e => by subst e; omega) (.refl hb)⟩

/-- completeness of the recurrence -/
theorem DFST.semi_cases {s w : α} (hs : V s) (h : SemiPath E dfn s w) :
    E s w ∨ ∃ u v, V u ∧ dfn w < dfn u ∧ Anc V fa r u v ∧ E v w ∧ SemiPath E dfn s u := by
  obtain ⟨y, p, e⟩ := h
  have key : ∀ y, ReflTransGen (fun a b => E a b ∧ dfn w < dfn b) s y → V y ∧ (y = s ∨ ∃ u, V u ∧ dfn w < dfn u ∧ Anc V fa r u y ∧
      SemiPath E dfn s u ∧ ReflTransGen (fun a b => E a b ∧ dfn u ≤ dfn b) s y) := by
    intro y p
    induction p with
    | refl => exact ⟨hs, Or.inl rfl⟩
    | @tail y y' _ h ih =>
      obtain ⟨hy, ih⟩ := ih
      have hy' := T.closed hy h.1
      refine ⟨hy', Or.inr ?_⟩
      rcases ih with rfl | ⟨u, hu, hwu, huy, hsu, q⟩
      · exact ⟨y', hy', h.2, .refl hy', semi_edge h.1, ReflTransGen.single ⟨h.1, Nat.le_refl _⟩⟩
      · rcases Nat.lt_or_ge (dfn y') (dfn u) with hlt | hge
        · refine ⟨y', hy', h.2, .refl hy', ⟨y, rtg_mono (fun a b h => ⟨h.1, by omega⟩) q, h.1⟩, ?_⟩
          exact (rtg_mono (fun a b h => ⟨h.1, by omega⟩) q).tail ⟨h.1, Nat.le_refl _⟩
        · exact ⟨u, hu, hwu, T.desc huy h.1 hge, hsu, q.tail ⟨h.1, hge⟩⟩
  obtain ⟨hy, rfl | ⟨u, hu, hwu, huy, hsu, _⟩⟩ := key y p
  · exact Or.inl e
  · exact Or.inr ⟨u, y, hu, hwu, huy, e, hsu⟩

/-- every vertex other than the root has a semidominator -/
theorem DFST.sd_exists {w : α} (hw : V w) (hr : w ≠ r) : ∃ s, IsSd E V dfn s w := by
  have : ∀ n s, dfn s = n → V s → SemiPath E dfn s w → ∃ s, IsSd E V dfn s w := by
    intro n
    induction n using Nat.strongRecOn with
    | _ n ih =>
      intro s hn hs hp
      by_cases h : ∃ v, V v ∧ SemiPath E dfn v w ∧ dfn v < dfn s
      · obtain ⟨v, h1, h2, h3⟩ := h
        exact ih _ (hn ▸ h3) v rfl h1 h2
      · refine ⟨s, hs, hp, fun v h1 h2 => ?_⟩
        by_contra h3
        exact h ⟨v, h1, h2, by omega⟩
  exact this _ (fa w) rfl (T.fa_V hw hr) (semi_edge (T.fa_E hw hr))

end tree
end Cmmc.Dom
