import Verif.Mir.SchedOrder
import Mathlib.Logic.Relation

/-!
# The dependences collected by the scheduler cover every conflict
-/

namespace Cmmc.Mir

/-- `a` must come after `b`, directly or through other instructions. -/
abbrev Rch (es : List (Nat × Nat)) (a b : Nat) : Prop := Relation.ReflTransGen (fun x y => (x, y) ∈ es) a b

theorem Rch.mono {es es' : List (Nat × Nat)} (h : es ⊆ es') {a b : Nat} (hr : Rch es a b) : Rch es' a b :=
  Relation.ReflTransGen.mono (fun _ _ hxy => h hxy) _ _ hr

theorem addDep_sub (es : List (Nat × Nat)) (u v : Nat) : es ⊆ addDep es u v := by
  unfold addDep
  split
  · exact List.Subset.refl _
  · split
    · exact List.Subset.refl _
    · exact List.subset_append_left _ _

theorem addDep_rch (es : List (Nat × Nat)) (u v : Nat) : Rch (addDep es u v) u v := by
  unfold addDep
  split
  · rename_i h; subst h; exact .refl
  · split
    · exact .single (by assumption)
    · exact .single (by simp)

/-- The list of dependences is well-formed while instruction `i` is processed. -/
structure EdgesOk (i : Nat) (es : List (Nat × Nat)) : Prop where
  nodup : es.Nodup
  lt : ∀ u v, (u, v) ∈ es → v < u ∧ u ≤ i

theorem addDep_ok {i : Nat} {es : List (Nat × Nat)} (h : EdgesOk i es) {v : Nat} (hv : v ≤ i) : EdgesOk i (addDep es i v) := by
  unfold addDep
  split
  · exact h
  · split
    · exact h
    · rename_i h1 h2
      refine ⟨?_, ?_⟩
      · rw [List.nodup_append]
        refine ⟨h.nodup, by simp, ?_⟩
        intro a ha b hb
        simp at hb
        subst hb
        rintro rfl
        exact h2 ha
      · intro u w hm
        rcases List.mem_append.1 hm with hm | hm
        · exact h.lt u w hm
        · simp at hm
          obtain ⟨rfl, rfl⟩ := hm
          omega

theorem depOpt_sub (es : List (Nat × Nat)) (u : Nat) (o : Option Nat) : es ⊆ depOpt es u o := by
  cases o
  · exact List.Subset.refl _
  · exact addDep_sub _ _ _

theorem depOpt_ok {i : Nat} {es : List (Nat × Nat)} (h : EdgesOk i es) {o : Option Nat} (hv : ∀ v, o = some v → v ≤ i) :
    EdgesOk i (depOpt es i o) := by
  cases o
  · exact h
  · exact addDep_ok h (hv _ rfl)

theorem foldDep_spec {i : Nat} : ∀ (vs : List Nat) (es : List (Nat × Nat)), EdgesOk i es → (∀ v ∈ vs, v ≤ i) →
    EdgesOk i (vs.foldl (fun es v => addDep es i v) es) ∧ es ⊆ vs.foldl (fun es v => addDep es i v) es ∧
    ∀ v ∈ vs, Rch (vs.foldl (fun es v => addDep es i v) es) i v := by
  intro vs
  induction vs with
  | nil => intro es h _; exact ⟨h, List.Subset.refl _, by simp⟩
  | cons w vs ih =>
    intro es h hv
    simp only [List.foldl_cons]
    obtain ⟨a, b, c⟩ := ih (addDep es i w) (addDep_ok h (hv w (by simp))) fun v hm => hv v (by simp [hm])
    refine ⟨a, List.Subset.trans (addDep_sub es i w) b, ?_⟩
    intro v hm
    rcases List.mem_cons.1 hm with rfl | hm
    · exact (addDep_rch es i v).mono b
    · exact c v hm

/-- What is known while instruction `i` is processed: `tch j r`, `df j r`: instruction `j` has touched, written `r`;
    `sd j`, `br j`: `j` has side effects, is a barrier. -/
structure DepInv (i : Nat) (tch df : Nat → Reg → Prop) (sd br : Nat → Prop) (s : DepSt) : Prop where
  ok : EdgesOk i s.edges
  tlt : ∀ r, ∀ t ∈ s.touch r, t ≤ i
  dlt : ∀ r d, s.dfn r = some d → d ≤ i
  slt : ∀ d, s.side = some d → d ≤ i
  blt : ∀ d, s.barrier = some d → d ≤ i
  T : ∀ j r, tch j r → ∃ t ∈ s.touch r, Rch s.edges t j
  D : ∀ j r, df j r → ∃ d, s.dfn r = some d ∧ Rch s.edges d j
  Sd : ∀ j, sd j → ∃ d, s.side = some d ∧ Rch s.edges d j
  Br : ∀ j, br j → ∃ d, s.barrier = some d ∧ Rch s.edges d j

variable {i : Nat} {tch df : Nat → Reg → Prop} {sd br : Nat → Prop} {s : DepSt}

theorem use_inv (h : DepInv i tch df sd br s) (r : Reg) :
    DepInv i (fun j q => tch j q ∨ (j = i ∧ q = r)) df sd br (s.use i r) ∧ s.edges ⊆ (s.use i r).edges ∧
    ∀ j, df j r → Rch (s.use i r).edges i j := by
  have hsub : s.edges ⊆ (s.use i r).edges := depOpt_sub _ _ _
  refine ⟨⟨?_, ?_, h.dlt, h.slt, h.blt, ?_, ?_, ?_, ?_⟩, hsub, ?_⟩
  · exact depOpt_ok h.ok (h.dlt r)
  · intro q t ht
    simp only [DepSt.use] at ht
    split at ht
    · rcases List.mem_append.1 ht with ht | ht
      · exact h.tlt _ t ht
      · simp at ht; omega
    · exact h.tlt _ t ht
  · intro j q hj
    rcases hj with hj | ⟨rfl, rfl⟩
    · obtain ⟨t, h1, h2⟩ := h.T j q hj
      refine ⟨t, ?_, h2.mono hsub⟩
      simp only [DepSt.use]
      split
      · rename_i he; subst he; simp [h1]
      · exact h1
    · exact ⟨j, by simp [DepSt.use], .refl⟩
  · intro j q hj
    obtain ⟨d, h1, h2⟩ := h.D j q hj
    exact ⟨d, h1, h2.mono hsub⟩
  · intro j hj
    obtain ⟨d, h1, h2⟩ := h.Sd j hj
    exact ⟨d, h1, h2.mono hsub⟩
  · intro j hj
    obtain ⟨d, h1, h2⟩ := h.Br j hj
    exact ⟨d, h1, h2.mono hsub⟩
  · intro j hj
    obtain ⟨d, h1, h2⟩ := h.D j r hj
    have : (s.use i r).edges = addDep s.edges i d := by simp [DepSt.use, h1, depOpt]
    refine Relation.ReflTransGen.trans ?_ (h2.mono hsub)
    rw [this]
    exact addDep_rch _ _ _

theorem uses_inv : ∀ (rs : List Reg) (tch : Nat → Reg → Prop) (s : DepSt), DepInv i tch df sd br s →
    DepInv i (fun j q => tch j q ∨ (j = i ∧ q ∈ rs)) df sd br (rs.foldl (DepSt.use i) s) ∧
    s.edges ⊆ (rs.foldl (DepSt.use i) s).edges ∧
    ∀ r ∈ rs, ∀ j, df j r → Rch (rs.foldl (DepSt.use i) s).edges i j := by
  intro rs
  induction rs with
  | nil => intro tch s h; exact ⟨by simpa using h, List.Subset.refl _, by simp⟩
  | cons r rs ih =>
    intro tch s h
    obtain ⟨a, b, c⟩ := use_inv h r
    obtain ⟨a', b', c'⟩ := ih _ _ a
    refine ⟨?_, List.Subset.trans b b', ?_⟩
    · have e : (fun j q => (tch j q ∨ (j = i ∧ q = r)) ∨ (j = i ∧ q ∈ rs)) = fun j q => tch j q ∨ (j = i ∧ q ∈ r :: rs) := by
        funext j q
        simp only [List.mem_cons, eq_iff_iff]
        tauto
      rw [← e]; exact a'
    · intro q hq j hj
      rcases List.mem_cons.1 hq with rfl | hq
      · exact (c j hj).mono b'
      · exact c' q hq j hj

theorem dfnd_inv (h : DepInv i tch df sd br s) (r : Reg) :
    DepInv i (fun j q => tch j q ∨ (j = i ∧ q = r)) (fun j q => (df j q ∧ tch j q) ∨ (j = i ∧ q = r)) sd br (s.dfnd i r) ∧
    s.edges ⊆ (s.dfnd i r).edges ∧ ∀ j, tch j r → Rch (s.dfnd i r).edges i j := by
  obtain ⟨e1, e2, e3⟩ := foldDep_spec (s.touch r) s.edges h.ok (h.tlt r)
  have hsub : s.edges ⊆ (s.dfnd i r).edges := e2
  have hT : ∀ j, tch j r → Rch (s.dfnd i r).edges i j := by
    intro j hj
    obtain ⟨t, h1, h2⟩ := h.T j r hj
    exact (e3 t h1).trans (h2.mono hsub)
  refine ⟨⟨e1, ?_, ?_, h.slt, h.blt, ?_, ?_, ?_, ?_⟩, hsub, hT⟩
  · intro q t ht
    simp only [DepSt.dfnd] at ht
    split at ht
    · simp at ht; omega
    · exact h.tlt _ t ht
  · intro q d hd
    simp only [DepSt.dfnd] at hd
    split at hd
    · simp at hd; omega
    · exact h.dlt _ d hd
  · intro j q hj
    by_cases hq : q = r
    · subst hq
      refine ⟨i, by simp [DepSt.dfnd], ?_⟩
      rcases hj with hj | ⟨rfl, -⟩
      · exact hT j hj
      · exact .refl
    · rcases hj with hj | ⟨-, hj⟩
      · obtain ⟨t, h1, h2⟩ := h.T j q hj
        exact ⟨t, by simp [DepSt.dfnd, hq, h1], h2.mono hsub⟩
      · exact absurd hj hq
  · intro j q hj
    by_cases hq : q = r
    · subst hq
      refine ⟨i, by simp [DepSt.dfnd], ?_⟩
      rcases hj with hj | ⟨rfl, -⟩
      · exact hT j hj.2
      · exact .refl
    · rcases hj with hj | ⟨-, hj⟩
      · obtain ⟨t, h1, h2⟩ := h.D j q hj.1
        exact ⟨t, by simp [DepSt.dfnd, hq, h1], h2.mono hsub⟩
      · exact absurd hj hq
  · intro j hj
    obtain ⟨d, h1, h2⟩ := h.Sd j hj
    exact ⟨d, h1, h2.mono hsub⟩
  · intro j hj
    obtain ⟨d, h1, h2⟩ := h.Br j hj
    exact ⟨d, h1, h2.mono hsub⟩

theorem DepInv.weaken {tch' df' : Nat → Reg → Prop} {sd' br' : Nat → Prop} (h : DepInv i tch df sd br s)
    (h1 : ∀ j r, tch' j r → tch j r) (h2 : ∀ j r, df' j r → df j r) (h3 : ∀ j, sd' j → sd j) (h4 : ∀ j, br' j → br j) :
    DepInv i tch' df' sd' br' s :=
  ⟨h.ok, h.tlt, h.dlt, h.slt, h.blt, fun j r hj => h.T j r (h1 j r hj), fun j r hj => h.D j r (h2 j r hj),
    fun j hj => h.Sd j (h3 j hj), fun j hj => h.Br j (h4 j hj)⟩

theorem dfnds_inv : ∀ (rs : List Reg) (tch df : Nat → Reg → Prop) (s : DepSt), (∀ j r, df j r → tch j r) →
    DepInv i tch df sd br s →
    DepInv i (fun j q => tch j q ∨ (j = i ∧ q ∈ rs)) (fun j q => df j q ∨ (j = i ∧ q ∈ rs)) sd br (rs.foldl (DepSt.dfnd i) s) ∧
    s.edges ⊆ (rs.foldl (DepSt.dfnd i) s).edges ∧
    ∀ r ∈ rs, ∀ j, tch j r → Rch (rs.foldl (DepSt.dfnd i) s).edges i j := by
  intro rs
  induction rs with
  | nil => intro tch df s _ h; exact ⟨by simpa using h, List.Subset.refl _, by simp⟩
  | cons r rs ih =>
    intro tch df s hdt h
    obtain ⟨a, b, c⟩ := dfnd_inv h r
    obtain ⟨a', b', c'⟩ := ih (fun j q => tch j q ∨ (j = i ∧ q = r)) (fun j q => df j q ∨ (j = i ∧ q = r)) _
      (fun j q hq => hq.imp (hdt j q) id)
      (a.weaken (fun _ _ h => h) (fun j q hq => hq.imp (fun h => ⟨h, hdt j q h⟩) id) (fun _ h => h) (fun _ h => h))
    refine ⟨?_, List.Subset.trans b b', ?_⟩
    · refine a'.weaken ?_ ?_ (fun _ h => h) (fun _ h => h)
      · intro j q hq
        simp only [List.mem_cons] at hq
        tauto
      · intro j q hq
        simp only [List.mem_cons] at hq
        tauto
    · intro q hq j hj
      rcases List.mem_cons.1 hq with rfl | hq
      · exact (c j hj).mono b'
      · exact c' q hq j (.inl hj)

theorem edges_inv {es : List (Nat × Nat)} (h : DepInv i tch df sd br s) (hs : s.edges ⊆ es) (ho : EdgesOk i es) :
    DepInv i tch df sd br { s with edges := es } :=
  ⟨ho, h.tlt, h.dlt, h.slt, h.blt,
    fun j r hj => by obtain ⟨t, h1, h2⟩ := h.T j r hj; exact ⟨t, h1, h2.mono hs⟩,
    fun j r hj => by obtain ⟨t, h1, h2⟩ := h.D j r hj; exact ⟨t, h1, h2.mono hs⟩,
    fun j hj => by obtain ⟨t, h1, h2⟩ := h.Sd j hj; exact ⟨t, h1, h2.mono hs⟩,
    fun j hj => by obtain ⟨t, h1, h2⟩ := h.Br j hj; exact ⟨t, h1, h2.mono hs⟩⟩

/-- A barrier: nothing may cross it. -/
def Inst.isBar (F : Flags) (inOrder : Nat → Bool) (x : Inst) : Prop := F.side x.op = true ∧ inOrder x.op = true

theorem effects_inv {F : Flags} {inOrder : Nat → Bool} {x : Inst} (h : DepInv i tch df sd br s) :
    DepInv i tch df (fun j => sd j ∨ (j = i ∧ F.side x.op = true)) (fun j => br j ∨ (j = i ∧ x.isBar F inOrder))
      (s.effects F inOrder i x) ∧
    s.edges ⊆ (s.effects F inOrder i x).edges ∧
    (∀ j, br j → Rch (s.effects F inOrder i x).edges i j) ∧
    (F.side x.op = true → ∀ j, sd j → Rch (s.effects F inOrder i x).edges i j) ∧
    (x.isBar F inOrder → ∀ j, j < i → Rch (s.effects F inOrder i x).edges i j) := by
  -- after the last barrier
  have hsub1 : s.edges ⊆ (depOpt s.edges i s.barrier) := depOpt_sub _ _ _
  have hok1 : EdgesOk i (depOpt s.edges i s.barrier) := depOpt_ok h.ok h.blt
  have h1 := edges_inv h hsub1 hok1
  have hb1 : ∀ j, br j → Rch (depOpt s.edges i s.barrier) i j := by
    intro j hj
    obtain ⟨d, hd, hr⟩ := h.Br j hj
    rw [hd] at hsub1 ⊢
    exact (addDep_rch _ _ _).trans (hr.mono hsub1)
  generalize hes1 : (depOpt s.edges i s.barrier) = es1 at *
  unfold DepSt.effects
  simp only [hes1]
  by_cases hside : F.side x.op = true
  · simp only [hside, if_true]
    have hsub2 : es1 ⊆ (depOpt es1 i s.side) := depOpt_sub _ _ _
    have hok2 : EdgesOk i (depOpt es1 i s.side) := depOpt_ok hok1 h.slt
    have hs2 : ∀ j, sd j → Rch (depOpt es1 i s.side) i j := by
      intro j hj
      obtain ⟨d, hd, hr⟩ := h1.Sd j hj
      rw [show s.side = some d from hd] at hsub2 ⊢
      exact (addDep_rch _ _ _).trans (hr.mono hsub2)
    have h2 := edges_inv h1 hsub2 hok2
    generalize hes2 : (depOpt es1 i s.side) = es2 at *
    by_cases hio : inOrder x.op = true
    · simp only [hio, if_true]
      obtain ⟨e1, e2, e3⟩ := foldDep_spec (i := i) (List.range i) es2 hok2 (fun v hv => by have := List.mem_range.1 hv; omega)
      have h3 := edges_inv h2 e2 e1
      refine ⟨⟨e1, h.tlt, h.dlt, ?_, ?_, h3.T, h3.D, ?_, ?_⟩, List.Subset.trans hsub1 (List.Subset.trans hsub2 e2), ?_, ?_, ?_⟩
      · intro d hd; simp at hd; omega
      · intro d hd; simp at hd; omega
      · intro j hj
        refine ⟨i, rfl, ?_⟩
        rcases hj with hj | ⟨rfl, -⟩
        · exact (hs2 j hj).mono e2
        · exact .refl
      · intro j hj
        refine ⟨i, rfl, ?_⟩
        rcases hj with hj | ⟨rfl, -⟩
        · exact (hb1 j hj).mono (List.Subset.trans hsub2 e2)
        · exact .refl
      · exact fun j hj => (hb1 j hj).mono (List.Subset.trans hsub2 e2)
      · exact fun _ j hj => (hs2 j hj).mono e2
      · exact fun _ j hj => e3 j (List.mem_range.2 hj)
    · simp only [hio, if_false, Bool.false_eq_true]
      have hnb : ¬ x.isBar F inOrder := fun hb => hio hb.2
      refine ⟨⟨hok2, h.tlt, h.dlt, ?_, h.blt, h2.T, h2.D, ?_, ?_⟩, List.Subset.trans hsub1 hsub2, ?_, ?_, ?_⟩
      · intro d hd; simp at hd; omega
      · intro j hj
        refine ⟨i, rfl, ?_⟩
        rcases hj with hj | ⟨rfl, -⟩
        · exact hs2 j hj
        · exact .refl
      · intro j hj
        rcases hj with hj | ⟨-, hj⟩
        · exact h2.Br j hj
        · exact absurd hj hnb
      · exact fun j hj => (hb1 j hj).mono hsub2
      · exact fun _ j hj => hs2 j hj
      · exact fun hb => absurd hb hnb
  · have hnb : ¬ x.isBar F inOrder := fun hb => hside hb.1
    simp only [hside, if_false, Bool.false_eq_true]
    refine ⟨h1.weaken (fun _ _ h => h) (fun _ _ h => h) (fun j hj => ?_) (fun j hj => ?_), hsub1, hb1, fun hc => ?_, fun hb => absurd hb hnb⟩
    · rcases hj with hj | ⟨-, hj⟩
      · exact hj
      · simp at hj
    · rcases hj with hj | ⟨-, hj⟩
      · exact hj
      · exact absurd hj hnb
    · simp at hc

/-! ## A whole block -/

/-- Two instructions whose order matters (`x` comes first). -/
def Conf (F : Flags) (inOrder : Nat → Bool) (x y : Inst) : Prop :=
  (∃ r, r ∈ x.defs ∧ r ∈ y.uses) ∨ (∃ r, r ∈ y.defs ∧ (r ∈ x.uses ∨ r ∈ x.defs)) ∨
  (F.side x.op = true ∧ F.side y.op = true) ∨ x.isBar F inOrder ∨ y.isBar F inOrder

/-- The dependences among the first instructions of the block cover every conflict. -/
structure DepCov (F : Flags) (inOrder : Nat → Bool) (l : List Inst) (s : DepSt) : Prop where
  inv : DepInv l.length (fun j r => ∃ x, l[j]? = some x ∧ (r ∈ x.uses ∨ r ∈ x.defs)) (fun j r => ∃ x, l[j]? = some x ∧ r ∈ x.defs)
    (fun j => ∃ x, l[j]? = some x ∧ F.side x.op = true) (fun j => ∃ x, l[j]? = some x ∧ x.isBar F inOrder) s
  lt : ∀ u v, (u, v) ∈ s.edges → u < l.length
  cov : ∀ i j x y, l[i]? = some x → l[j]? = some y → i < j → Conf F inOrder x y → Rch s.edges j i

theorem depStep_cov {F : Flags} {inOrder : Nat → Bool} {l : List Inst} {x : Inst} (h : DepCov F inOrder l s) :
    DepCov F inOrder (l ++ [x]) (depStep F inOrder s (x, l.length)) := by
  obtain ⟨a1, a2, a3⟩ := uses_inv x.uses _ _ h.inv
  have a1' := a1.weaken (tch' := fun j q => (∃ x, l[j]? = some x ∧ (q ∈ x.uses ∨ q ∈ x.defs)) ∨ (j = l.length ∧ q ∈ x.uses))
    (df' := fun j r => ∃ x, l[j]? = some x ∧ r ∈ x.defs) (fun _ _ h => h) (fun _ _ h => h) (fun _ h => h) (fun _ h => h)
  obtain ⟨b1, b2, b3⟩ := dfnds_inv x.defs _ _ _ (fun j r ⟨x, h1, h2⟩ => .inl ⟨x, h1, .inr h2⟩) a1'
  obtain ⟨c1, c2, c3, c4, c5⟩ := effects_inv (F := F) (inOrder := inOrder) (x := x) b1
  have hget : ∀ j y, (l ++ [x])[j]? = some y → l[j]? = some y ∨ (j = l.length ∧ y = x) := by
    intro j y hy
    rcases Nat.lt_trichotomy j l.length with hj | hj | hj
    · rw [List.getElem?_append_left hj] at hy; exact .inl hy
    · subst hj; simp at hy; exact .inr ⟨rfl, hy.symm⟩
    · rw [List.getElem?_eq_none (by simp; omega)] at hy; cases hy
  refine ⟨?_, ?_, ?_⟩
  · have key : DepInv l.length (fun j r => ∃ y, (l ++ [x])[j]? = some y ∧ (r ∈ y.uses ∨ r ∈ y.defs))
        (fun j r => ∃ y, (l ++ [x])[j]? = some y ∧ r ∈ y.defs) (fun j => ∃ y, (l ++ [x])[j]? = some y ∧ F.side y.op = true)
        (fun j => ∃ y, (l ++ [x])[j]? = some y ∧ y.isBar F inOrder) (depStep F inOrder s (x, l.length)) := by
      refine c1.weaken ?_ ?_ ?_ ?_
      · rintro j r ⟨y, hy, hr⟩
        rcases hget j y hy with hy | ⟨rfl, rfl⟩
        · exact .inl (.inl ⟨y, hy, hr⟩)
        · rcases hr with hr | hr
          · exact .inl (.inr ⟨rfl, hr⟩)
          · exact .inr ⟨rfl, hr⟩
      · rintro j r ⟨y, hy, hr⟩
        rcases hget j y hy with hy | ⟨rfl, rfl⟩
        · exact .inl ⟨y, hy, hr⟩
        · exact .inr ⟨rfl, hr⟩
      · rintro j ⟨y, hy, hr⟩
        rcases hget j y hy with hy | ⟨rfl, rfl⟩
        · exact .inl ⟨y, hy, hr⟩
        · exact .inr ⟨rfl, hr⟩
      · rintro j ⟨y, hy, hr⟩
        rcases hget j y hy with hy | ⟨rfl, rfl⟩
        · exact .inl ⟨y, hy, hr⟩
        · exact .inr ⟨rfl, hr⟩
    exact ⟨⟨key.ok.nodup, fun u v hm => by have := key.ok.lt u v hm; rw [List.length_append]; simp; omega⟩,
      fun r t ht => by have := key.tlt r t ht; rw [List.length_append]; simp; omega,
      fun r t ht => by have := key.dlt r t ht; rw [List.length_append]; simp; omega,
      fun t ht => by have := key.slt t ht; rw [List.length_append]; simp; omega,
      fun t ht => by have := key.blt t ht; rw [List.length_append]; simp; omega,
      key.T, key.D, key.Sd, key.Br⟩
  · intro u v hm
    have := (c1.ok.lt u v hm).2
    rw [List.length_append]; simp; omega
  · intro i j y z hy hz hij hc
    have hy' : l[i]? = some y := by
      rcases hget i y hy with hy | ⟨rfl, rfl⟩
      · exact hy
      · exact absurd (List.getElem?_eq_some_iff.1 hz).1 (by simp; omega)
    rcases hget j z hz with hz | ⟨rfl, rfl⟩
    · exact (h.cov i j y z hy' hz hij hc).mono (List.Subset.trans a2 (List.Subset.trans b2 c2))
    · rcases hc with ⟨r, h1, h2⟩ | ⟨r, h1, h2⟩ | ⟨h1, h2⟩ | h1 | h1
      · exact (a3 r h2 i ⟨y, hy', h1⟩).mono (List.Subset.trans b2 c2)
      · exact (b3 r h1 i (.inl ⟨y, hy', h2⟩)).mono c2
      · exact c4 h2 i ⟨y, hy', h1⟩
      · exact c3 i ⟨y, hy', h1⟩
      · exact c5 h1 i hij

theorem depFold_cov {F : Flags} {inOrder : Nat → Bool} : ∀ (post pre : List Inst) (s : DepSt), DepCov F inOrder pre s →
    DepCov F inOrder (pre ++ post) ((post.zipIdx pre.length).foldl (depStep F inOrder) s) := by
  intro post
  induction post with
  | nil => intro pre s h; simpa using h
  | cons x post ih =>
    intro pre s h
    rw [List.zipIdx_cons, List.foldl_cons]
    have := ih (pre ++ [x]) _ (depStep_cov h)
    rw [List.append_assoc, List.length_append] at this
    exact this

theorem buildDeps_cov (F : Flags) (inOrder : Nat → Bool) (l : List Inst) :
    (buildDeps F inOrder l).Nodup ∧ (∀ u v, (u, v) ∈ buildDeps F inOrder l → v < u ∧ u < l.length) ∧
    ∀ i j x y, l[i]? = some x → l[j]? = some y → i < j → Conf F inOrder x y → Rch (buildDeps F inOrder l) j i := by
  have h0 : DepCov F inOrder [] {} :=
    ⟨⟨⟨List.nodup_nil, by simp⟩, by simp, by simp, by simp, by simp, by simp, by simp, by simp, by simp⟩, by simp, by simp⟩
  have := depFold_cov l [] {} h0
  simp only [List.nil_append, List.length_nil] at this
  exact ⟨this.inv.ok.nodup, fun u v hm => ⟨(this.inv.ok.lt u v hm).1, this.lt u v hm⟩, this.cov⟩

end Cmmc.Mir
