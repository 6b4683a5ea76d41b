import Verif.Dom.Proof
/-! # The preorder numbering of the dominator tree and its queries -/
namespace Cmmc.Dom
open Cmmc.SCC (upd)

/-- a finite rooted tree given by parents; `rank` increases away from the root and is bounded by `N` -/
structure PTree (V : Nat → Prop) (par : Nat → Nat) (r N : Nat) (rank : Nat → Nat) (children : Nat → List Nat) : Prop where
  root : V r
  par_V : ∀ {x}, V x → x ≠ r → V (par x)
  rank_lt : ∀ {x}, V x → x ≠ r → rank (par x) < rank x
  rank_le : ∀ {x}, V x → rank x ≤ N
  kids : ∀ {c x}, x ∈ children c ↔ (V x ∧ x ≠ r ∧ par x = c)
  nodup : ∀ c, (children c).Nodup

section
variable {V : Nat → Prop} {par : Nat → Nat} {r N : Nat} {rank : Nat → Nat} {children : Nat → List Nat}

theorem PTree.anc_V {a b : Nat} (h : Anc V par r a b) : V a ∧ V b := by
  induction h with
  | refl h => exact ⟨h, h⟩
  | step h _ _ ih => exact ⟨ih.1, h⟩

theorem PTree.anc_trans {a b c : Nat} (h1 : Anc V par r a b) (h2 : Anc V par r b c) : Anc V par r a c := by
  induction h2 with
  | refl _ => exact h1
  | step hb hr _ ih => exact .step hb hr ih

variable (T : PTree V par r N rank children)
include T

theorem PTree.anc_rank {a b : Nat} (h : Anc V par r a b) : rank a ≤ rank b ∧ (a ≠ b → rank a < rank b) := by
  induction h with
  | refl _ => exact ⟨Nat.le_refl _, fun h => absurd rfl h⟩
  | step hb hr _ ih => have := T.rank_lt hb hr; exact ⟨by omega, fun _ => by omega⟩

theorem PTree.antisymm {a b : Nat} (h1 : Anc V par r a b) (h2 : Anc V par r b a) : a = b := by
  by_contra h
  have := (T.anc_rank h1).2 h
  have := (T.anc_rank h2).1
  omega

theorem PTree.root_anc {b : Nat} (h : V b) : Anc V par r r b := by
  have : ∀ n b, rank b = n → V b → Anc V par r r b := by
    intro n
    induction n using Nat.strongRecOn with
    | _ n ih =>
      intro b hn hb
      by_cases hr : b = r
      · subst hr; exact .refl hb
      · exact .step hb hr (ih _ (hn ▸ T.rank_lt hb hr) (par b) rfl (T.par_V hb hr))
  exact this _ b rfl h

theorem PTree.comparable {a b c : Nat} (h1 : Anc V par r a c) (h2 : Anc V par r b c) : Anc V par r a b ∨ Anc V par r b a := by
  induction h1 with
  | refl _ => exact Or.inr h2
  | @step c hc hr h ih =>
    cases h2 with
    | refl _ => exact Or.inl (.step hc hr h)
    | step _ _ h2 => exact ih h2

/-- the descendants of `c` are `c` and those of its children -/
theorem PTree.sub_iff {c x : Nat} (hc : V c) : Anc V par r c x ↔ (x = c ∨ ∃ v ∈ children c, Anc V par r v x) := by
  constructor
  · intro h
    induction h with
    | refl _ => exact Or.inl rfl
    | @step b hb hr h ih =>
      rcases ih with e | ⟨v, hv, h'⟩
      · exact Or.inr ⟨b, T.kids.mpr ⟨hb, hr, e⟩, .refl hb⟩
      · exact Or.inr ⟨v, hv, .step hb hr h'⟩
  · rintro (rfl | ⟨v, hv, h⟩)
    · exact .refl hc
    · obtain ⟨h1, h2, rfl⟩ := T.kids.mp hv
      exact PTree.anc_trans (.step h1 h2 (.refl hc)) h

/-- the subtrees of different children are disjoint -/
theorem PTree.disjoint {c v w x : Nat} (hv : v ∈ children c) (hw : w ∈ children c) (h1 : Anc V par r v x) (h2 : Anc V par r w x) : v = w := by
  obtain ⟨a1, a2, a3⟩ := T.kids.mp hv
  obtain ⟨b1, b2, b3⟩ := T.kids.mp hw
  have key : ∀ {v w}, V v → v ≠ r → par v = c → V w → w ≠ r → par w = c → Anc V par r v w → v = w := by
    intro v w hv hvr e1 hw hwr e2 h
    cases h with
    | refl _ => rfl
    | step _ _ h =>
      rw [e2] at h
      have := (T.anc_rank h).1
      have := T.rank_lt hv hvr
      rw [e1] at this
      omega
  rcases T.comparable h1 h2 with h | h
  · exact key a1 a2 a3 b1 b2 b3 h
  · exact (key b1 b2 b3 a1 a2 a3 h).symm

/-! ### the numbering -/

/-- the links of node `i` whose parent index is `p` -/
def LinkOK (s : TS) (i : Nat) (p : Option Nat) : Prop :=
  (s.node i).anc 0 = p ∧ (s.node i).depth = depthOf s.node p ∧
    ∀ m, (s.node i).anc (m + 1) = ((s.node i).anc m).bind (fun v => (s.node v).anc m)

/-- jump tables point to earlier nodes -/
def Bnd (s : TS) : Prop := ∀ i, i < s.cnt → ∀ m v, (s.node i).anc m = some v → v < i

/-- numbering the vertices satisfying `P` (a union of subtrees) takes `s` to `s'`; only node `u` among the old ones may change, in its size -/
structure TPost (V : Nat → Prop) (par : Nat → Nat) (r : Nat) (P : Nat → Prop) (u : Nat) (s s' : TS) : Prop where
  mono : s.cnt ≤ s'.cnt
  bnd : Bnd s'
  old : ∀ i, i < s.cnt → (s'.node i).block = (s.node i).block ∧ (s'.node i).depth = (s.node i).depth ∧ (s'.node i).anc = (s.node i).anc ∧
    (i ≠ u → (s'.node i).size = (s.node i).size)
  invOld : ∀ x, ¬ P x → s'.inv x = s.inv x
  invNew : ∀ x, P x → ∃ i, s'.inv x = some i ∧ s.cnt ≤ i ∧ i < s'.cnt ∧ (s'.node i).block = x
  blk : ∀ i, s.cnt ≤ i → i < s'.cnt → P (s'.node i).block ∧ s'.inv (s'.node i).block = some i
  anc : ∀ a b i j, P a → P b → s'.inv a = some i → s'.inv b = some j → (Anc V par r a b ↔ (i ≤ j ∧ j < i + (s'.node i).size))
  upper : ∀ i, s.cnt ≤ i → i < s'.cnt → i + (s'.node i).size ≤ s'.cnt
  links : ∀ x i, P x → s'.inv x = some i → LinkOK s' i (if x = r then none else s'.inv (par x))

omit T in
theorem TPost.congr {P Q : Nat → Prop} {u : Nat} {s s' : TS} (h : ∀ x, P x ↔ Q x) (p : TPost V par r P u s s') : TPost V par r Q u s s' := by
  have : P = Q := funext fun x => propext (h x)
  rw [← this]; exact p

omit T in
theorem linkOK_stable {s s' : TS} (hb : Bnd s) (h : ∀ i, i < s.cnt → (s'.node i).depth = (s.node i).depth ∧ (s'.node i).anc = (s.node i).anc)
    {i : Nat} (hi : i < s.cnt) {p : Option Nat} (L : LinkOK s i p) : LinkOK s' i p := by
  obtain ⟨l1, l2, l3⟩ := L
  refine ⟨by rw [(h i hi).2]; exact l1, ?_, ?_⟩
  · rw [(h i hi).1, l2]
    cases p with
    | none => rfl
    | some q =>
      have := hb i hi 0 q l1
      simp only [depthOf, (h q (by omega)).1]
  · intro m
    rw [(h i hi).2, l3]
    cases hv : (s.node i).anc m with
    | none => rfl
    | some v =>
      have := hb i hi m v hv
      simp only [Option.bind_some, (h v (by omega)).2]

theorem tkids_spec {f c u : Nat} 
    (ih : ∀ v p s, V v → N - rank v < f → Bnd s → (∀ q, p = some q → q < s.cnt) → p = (if v = r then none else s.inv (par v)) →
      ∃ s', tdfs children f v p s = some (s.cnt, s') ∧ TPost V par r (Anc V par r v) s.cnt s s' ∧ s.cnt < s'.cnt ∧
        (s'.node s.cnt).size = s'.cnt - s.cnt ∧ s'.inv v = some s.cnt)
    (hf : ∀ v ∈ children c, N - rank v < f) :
    ∀ (vs : List Nat) (s : TS), (∀ v ∈ vs, v ∈ children c) → vs.Nodup → Bnd s → u < s.cnt → s.inv c = some u →
      ∃ s', tkids (tdfs children f) u vs s = some s' ∧ TPost V par r (fun x => ∃ v ∈ vs, Anc V par r v x) u s s' ∧
        (s'.node u).size = (s.node u).size + (s'.cnt - s.cnt) := by
  intro vs
  induction vs with
  | nil =>
    intro s _ _ hb hu _
    refine ⟨s, rfl, ⟨Nat.le_refl _, hb, fun i _ => ⟨rfl, rfl, rfl, fun _ => rfl⟩, fun _ _ => rfl, ?_, ?_, ?_, ?_, ?_⟩, by omega⟩
    · rintro x ⟨v, hv, _⟩; simp at hv
    · intro i h1 h2; omega
    · rintro a b i j ⟨v, hv, _⟩; simp at hv
    · intro i h1 h2; omega
    · rintro x i ⟨v, hv, _⟩; simp at hv
  | cons v vs ihv =>
    intro s hvs hnd hb hu hcu
    rw [List.nodup_cons] at hnd
    obtain ⟨kv1, kv2, kv3⟩ := T.kids.mp (hvs v (by simp))
    obtain ⟨s1, e1, P1, hlt1, hsz1, hinv1⟩ := ih v (some u) s kv1 (hf v (hvs v (by simp))) hb (fun q hq => by simp at hq; omega)
      (by rw [if_neg kv2, kv3, hcu])
    unfold tkids
    rw [e1]
    dsimp only
    generalize hs2 : ({ s1 with node := upd s1.node u { s1.node u with size := (s1.node u).size + (s1.node s.cnt).size } } : TS) = s2
    have c2 : s2.cnt = s1.cnt := by rw [← hs2]
    have i2 : s2.inv = s1.inv := by rw [← hs2]
    have n2 : ∀ i, i ≠ u → s2.node i = s1.node i := fun i hi => by rw [← hs2]; exact upd_ne _ _ hi
    have n2u : s2.node u = { s1.node u with size := (s1.node u).size + (s1.node s.cnt).size } := by rw [← hs2]; exact upd_same _ _ _
    have n2' : ∀ i, (s2.node i).block = (s1.node i).block ∧ (s2.node i).depth = (s1.node i).depth ∧ (s2.node i).anc = (s1.node i).anc := by
      intro i
      by_cases hi : i = u
      · subst hi; rw [n2u]; exact ⟨rfl, rfl, rfl⟩
      · rw [n2 i hi]; exact ⟨rfl, rfl, rfl⟩
    have hb2 : Bnd s2 := by
      intro i hi m w hw
      rw [(n2' i).2.2] at hw
      exact P1.bnd i (by omega) m w hw
    have hcu2 : s2.inv c = some u := by
      rw [i2, P1.invOld c ?_]
      · exact hcu
      · intro h
        have := (T.anc_rank h).1
        have := T.rank_lt kv1 kv2
        rw [kv3] at this
        omega
    obtain ⟨s3, e3, P3, hsz3⟩ := ihv s2 (fun w hw => hvs w (by simp [hw])) hnd.2 hb2 (by omega) hcu2
    have hdisj : ∀ x, Anc V par r v x → ¬ ∃ w ∈ vs, Anc V par r w x := by
      rintro x hx ⟨w, hw, hwx⟩
      have := T.disjoint (hvs v (by simp)) (hvs w (by simp [hw])) hx hwx
      subst this; exact hnd.1 hw
    -- old nodes, seen from `s` and from `s1`
    have old31 : ∀ i, i < s1.cnt → (s3.node i).block = (s1.node i).block ∧ (s3.node i).depth = (s1.node i).depth ∧
        (s3.node i).anc = (s1.node i).anc ∧ (i ≠ u → (s3.node i).size = (s1.node i).size) := by
      intro i hi
      obtain ⟨a, b, c', d⟩ := P3.old i (by omega)
      obtain ⟨a', b', c''⟩ := n2' i
      exact ⟨a.trans a', b.trans b', c'.trans c'', fun h => by rw [d h, n2 i h]⟩
    refine ⟨s3, e3, ⟨?_, P3.bnd, ?_, ?_, ?_, ?_, ?_, ?_, ?_⟩, ?_⟩
    · have := P3.mono; omega
    · intro i hi
      obtain ⟨a, b, c', d⟩ := old31 i (by omega)
      obtain ⟨a', b', c'', d'⟩ := P1.old i hi
      exact ⟨a.trans a', b.trans b', c'.trans c'', fun h => by rw [d h, d' (by omega)]⟩
    · intro x hx
      rw [P3.invOld x (fun ⟨w, hw, h⟩ => hx ⟨w, by simp [hw], h⟩), i2, P1.invOld x (fun h => hx ⟨v, by simp, h⟩)]
    · rintro x ⟨w, hw, hx⟩
      rcases List.mem_cons.mp hw with rfl | hw
      · obtain ⟨i, a, b, c', d⟩ := P1.invNew x hx
        refine ⟨i, ?_, b, ?_, ?_⟩
        · rw [P3.invOld x (hdisj x hx), i2]; exact a
        · have := P3.mono; omega
        · rw [(old31 i c').1]; exact d
      · obtain ⟨i, a, b, c', d⟩ := P3.invNew x ⟨w, hw, hx⟩
        exact ⟨i, a, by omega, c', d⟩
    · intro i h1 h2
      rcases Nat.lt_or_ge i s1.cnt with h | h
      · obtain ⟨a, b⟩ := P1.blk i h1 h
        rw [(old31 i h).1]
        refine ⟨⟨v, by simp, a⟩, ?_⟩
        rw [P3.invOld _ (hdisj _ a), i2]; exact b
      · obtain ⟨⟨w, hw, a⟩, b⟩ := P3.blk i (by omega) h2
        exact ⟨⟨w, by simp [hw], a⟩, b⟩
    · -- ancestors versus intervals
      have inA : ∀ x i, Anc V par r v x → s3.inv x = some i → s1.inv x = some i ∧ s.cnt ≤ i ∧ i < s1.cnt := by
        intro x i hx hi
        rw [P3.invOld x (hdisj x hx), i2] at hi
        obtain ⟨j, a, b, c', _⟩ := P1.invNew x hx
        rw [hi] at a
        simp only [Option.some.injEq] at a
        subst a
        exact ⟨hi, b, c'⟩
      have inB : ∀ x i, (∃ w ∈ vs, Anc V par r w x) → s3.inv x = some i → s1.cnt ≤ i ∧ i < s3.cnt := by
        intro x i hx hi
        obtain ⟨j, a, b, c', _⟩ := P3.invNew x hx
        rw [hi] at a
        simp only [Option.some.injEq] at a
        subst a
        exact ⟨by omega, c'⟩
      have split : ∀ x, (∃ w ∈ v :: vs, Anc V par r w x) → Anc V par r v x ∨ ∃ w ∈ vs, Anc V par r w x := by
        rintro x ⟨w, hw, hx⟩
        rcases List.mem_cons.mp hw with rfl | hw
        · exact Or.inl hx
        · exact Or.inr ⟨w, hw, hx⟩
      intro a b i j ha hb' hi hj
      rcases split a ha with ha | ha
      · obtain ⟨a1, a2, a3⟩ := inA a i ha hi
        have hsz : (s3.node i).size = (s1.node i).size := (old31 i a3).2.2.2 (by omega)
        rcases split b hb' with hb' | hb'
        · obtain ⟨b1, b2, b3⟩ := inA b j hb' hj
          rw [hsz]
          exact P1.anc a b i j ha hb' a1 b1
        · obtain ⟨b1, b2⟩ := inB b j hb' hj
          have hup := P1.upper i a2 a3
          constructor
          · intro h
            exact absurd hb' (hdisj b (PTree.anc_trans ha h))
          · rw [hsz]; intro h; omega
      · obtain ⟨a1, a2⟩ := inB a i ha hi
        rcases split b hb' with hb' | hb'
        · obtain ⟨b1, b2, b3⟩ := inA b j hb' hj
          constructor
          · intro h
            obtain ⟨w, hw, hwa⟩ := ha
            exact absurd ⟨w, hw, PTree.anc_trans hwa h⟩ (hdisj b hb')
          · intro h; omega
        · exact P3.anc a b i j ha hb' hi hj
    · intro i h1 h2
      rcases Nat.lt_or_ge i s1.cnt with h | h
      · rw [(old31 i h).2.2.2 (by omega)]
        have := P1.upper i h1 h
        have := P3.mono
        omega
      · exact P3.upper i (by omega) h2
    · intro x i hx hi
      by_cases hxv : Anc V par r v x
      · have hi1 : s1.inv x = some i := by rw [P3.invOld x (hdisj x hxv), i2] at hi; exact hi
        obtain ⟨j, a, _, c', _⟩ := P1.invNew x hxv
        rw [hi1] at a
        simp only [Option.some.injEq] at a
        subst a
        have L := P1.links x i hxv hi1
        have e : (if x = r then none else s3.inv (par x)) = (if x = r then none else s1.inv (par x)) := by
          split
          · rfl
          · rename_i hxr
            rw [P3.invOld, i2]
            cases hxv with
            | refl _ =>
              rw [kv3]
              rintro ⟨w, hw, hwc⟩
              have h1 := (T.anc_rank hwc).1
              obtain ⟨kw1, kw2, kw3⟩ := T.kids.mp (hvs w (by simp [hw]))
              have := T.rank_lt kw1 kw2
              rw [kw3] at this
              omega
            | step _ _ h => exact hdisj _ h
        rw [e]
        exact linkOK_stable P1.bnd (fun i hi => ⟨(old31 i hi).2.1, (old31 i hi).2.2.1⟩) c' L
      · refine P3.links x i ?_ hi
        obtain ⟨w, hw, h⟩ := hx
        rcases List.mem_cons.mp hw with rfl | hw
        · exact absurd h hxv
        · exact ⟨w, hw, h⟩
    · have hu1 : (s1.node u).size = (s.node u).size := (P1.old u hu).2.2.2 (by omega)
      rw [hsz3, n2u]
      dsimp only
      rw [hu1, hsz1, c2]
      have := P3.mono
      omega

theorem mkAnc_bnd {s : TS} (hb : Bnd s) {p : Option Nat} (hp : ∀ q, p = some q → q < s.cnt) : ∀ m v, mkAnc s.node p m = some v → v < s.cnt := by
  intro m
  induction m with
  | zero => intro v h; exact hp v h
  | succ m ih =>
    intro v h
    unfold mkAnc at h
    cases hm : mkAnc s.node p m with
    | none => rw [hm] at h; simp at h
    | some w =>
      rw [hm] at h
      have h1 := ih w hm
      have := hb w h1 m v h
      omega

theorem tdfs_spec : ∀ (f v : Nat) (p : Option Nat) (s : TS), V v → N - rank v < f → Bnd s → (∀ q, p = some q → q < s.cnt) →
    p = (if v = r then none else s.inv (par v)) →
      ∃ s', tdfs children f v p s = some (s.cnt, s') ∧ TPost V par r (Anc V par r v) s.cnt s s' ∧ s.cnt < s'.cnt ∧
        (s'.node s.cnt).size = s'.cnt - s.cnt ∧ s'.inv v = some s.cnt := by
  intro f
  induction f with
  | zero => intro v p s _ h; omega
  | succ f ih =>
    intro v p s hv hf hb hp hpe
    unfold tdfs
    have hab := mkAnc_bnd T hb hp
    generalize hs1 : enterT v p s = s1
    have c1 : s1.cnt = s.cnt + 1 := by rw [← hs1]; rfl
    have i1 : ∀ x, s1.inv x = if x = v then some s.cnt else s.inv x := fun x => by
      rw [← hs1]; show upd s.inv v _ x = _; rfl
    have n1 : ∀ i, i ≠ s.cnt → s1.node i = s.node i := fun i hi => by rw [← hs1]; exact upd_ne _ _ hi
    have n1u : s1.node s.cnt = { block := v, depth := depthOf s.node p, anc := mkAnc s.node p, size := 1 } := by
      rw [← hs1]; exact upd_same _ _ _
    have hb1 : Bnd s1 := by
      intro i hi m w hw
      by_cases he : i = s.cnt
      · subst he; rw [n1u] at hw; exact hab m w hw
      · rw [n1 i he] at hw; exact hb i (by omega) m w hw
    obtain ⟨s2, e2, P2, hsz⟩ := tkids_spec T (f := f) (c := v) (u := s.cnt) ih
      (fun w hw => by
        obtain ⟨k1, k2, k3⟩ := T.kids.mp hw
        have := T.rank_le k1
        have := T.rank_lt k1 k2
        rw [k3] at this
        omega) (children v) s1 (fun w h => h) (T.nodup v) hb1 (by omega) (by rw [i1]; simp)
    rw [e2]
    dsimp only
    have hnv : ¬ ∃ w ∈ children v, Anc V par r w v := by
      rintro ⟨w, hw, h⟩
      obtain ⟨k1, k2, k3⟩ := T.kids.mp hw
      have := (T.anc_rank h).1
      have := T.rank_lt k1 k2
      rw [k3] at this
      omega
    have hinv2 : s2.inv v = some s.cnt := by rw [P2.invOld v hnv, i1]; simp
    have hsz2 : (s2.node s.cnt).size = s2.cnt - s.cnt := by
      rw [hsz, n1u, c1]; have := P2.mono; dsimp only; omega
    refine ⟨s2, rfl, ⟨?_, P2.bnd, ?_, ?_, ?_, ?_, ?_, ?_, ?_⟩, ?_, hsz2, hinv2⟩
    · have := P2.mono; omega
    · intro i hi
      obtain ⟨a, b, c, d⟩ := P2.old i (by omega)
      rw [n1 i (by omega)] at a b c d
      exact ⟨a, b, c, fun h => d h⟩
    · intro x hx
      rw [T.sub_iff hv] at hx
      simp only [not_or] at hx
      rw [P2.invOld x hx.2, i1, if_neg hx.1]
    · intro x hx
      rw [T.sub_iff hv] at hx
      rcases hx with rfl | hx
      · refine ⟨s.cnt, hinv2, Nat.le_refl _, by have := P2.mono; omega, ?_⟩
        rw [(P2.old s.cnt (by omega)).1, n1u]
      · obtain ⟨i, a, b, c, d⟩ := P2.invNew x hx
        exact ⟨i, a, by omega, c, d⟩
    · intro i h1 h2
      by_cases he : i = s.cnt
      · subst he
        have hbk : (s2.node s.cnt).block = v := by rw [(P2.old s.cnt (by omega)).1, n1u]
        rw [hbk]
        exact ⟨.refl hv, hinv2⟩
      · obtain ⟨a, b⟩ := P2.blk i (by omega) h2
        exact ⟨(T.sub_iff hv).mpr (Or.inr a), b⟩
    · intro a b i j ha hb' hi hj
      have rng : ∀ x i, (∃ w ∈ children v, Anc V par r w x) → s2.inv x = some i → s.cnt + 1 ≤ i ∧ i < s2.cnt := by
        intro x i hx hi
        obtain ⟨j, a, b, c', _⟩ := P2.invNew x hx
        rw [hi] at a
        simp only [Option.some.injEq] at a
        subst a
        exact ⟨by omega, c'⟩
      rcases (T.sub_iff hv).mp ha with rfl | ha'
      · rw [hinv2] at hi
        simp only [Option.some.injEq] at hi
        subst hi
        rw [hsz2]
        refine iff_of_true hb' ?_
        rcases (T.sub_iff hv).mp hb' with rfl | hb''
        · rw [hinv2] at hj
          simp only [Option.some.injEq] at hj
          have := P2.mono
          omega
        · have := rng b j hb'' hj
          omega
      · rcases (T.sub_iff hv).mp hb' with rfl | hb''
        · rw [hinv2] at hj
          simp only [Option.some.injEq] at hj
          have := rng a i ha' hi
          refine iff_of_false ?_ (by omega)
          intro h
          have e := T.antisymm ha h
          rw [← e] at ha'
          exact hnv ha'
        · exact P2.anc a b i j ha' hb'' hi hj
    · intro i h1 h2
      by_cases he : i = s.cnt
      · subst he; rw [hsz2]; omega
      · exact P2.upper i (by omega) h2
    · intro x i hx hi
      rcases (T.sub_iff hv).mp hx with rfl | hx'
      · rw [hinv2] at hi
        simp only [Option.some.injEq] at hi
        subst hi
        have e : (if x = r then none else s2.inv (par x)) = p := by
          rw [hpe]
          split
          · rfl
          · rename_i hxr
            have hnp : ∀ y, Anc V par r x y → y ≠ par x := by
              intro y hy e
              have := (T.anc_rank hy).1
              have := T.rank_lt hv hxr
              rw [e] at *
              omega
            rw [P2.invOld (par x), i1, if_neg]
            · intro e
              have := T.rank_lt hv hxr
              rw [e] at this; omega
            · rintro ⟨w, hw, h⟩
              exact hnp (par x) ((T.sub_iff hv).mpr (Or.inr ⟨w, hw, h⟩)) rfl
        rw [e]
        have L1 : LinkOK s1 s.cnt p := by
          refine ⟨by rw [n1u]; rfl, ?_, ?_⟩
          · rw [n1u]
            cases p with
            | none => rfl
            | some q =>
              have := hp q rfl
              simp only [depthOf]
              rw [n1 q (by omega)]
          · intro m
            rw [n1u]
            show mkAnc s.node p (m + 1) = (mkAnc s.node p m).bind _
            cases hm : mkAnc s.node p m with
            | none => simp [mkAnc, hm]
            | some w =>
              have := hab m w hm
              simp only [mkAnc, hm, Option.bind_some]
              rw [n1 w (by omega)]
        exact linkOK_stable hb1 (fun i hi => ⟨(P2.old i hi).2.1, (P2.old i hi).2.2.1⟩) (by omega) L1
      · exact P2.links x i hx' hi
    · have := P2.mono; omega

end
end Cmmc.Dom
