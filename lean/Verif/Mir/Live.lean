import Verif.Mir.Sem
import Mathlib.Algebra.BigOperators.Group.Finset.Basic
import Mathlib.Algebra.Order.BigOperators.Group.Finset

/-!
# Which virtual registers are live at block boundaries

Stages 1 and 2 of `calcLiveIntervals` (`/repo/cmmc/CodeGen/LiveInterval.cpp:38-116`).
-/

namespace Cmmc.Mir

/-- LiveInterval.cpp:46-58: one operand of stage 1, on the pair (uses, defs) of the block. -/
def useDefOp (s : Finset Nat × Finset Nat) (o : Role × Reg) : Finset Nat × Finset Nat :=
  match o with
  | (_, .ph _) => s
  | (.dfn, .vr v) => (s.1, insert v s.2)
  | (.use, .vr v) => if v ∈ s.2 then s else (insert v s.1, s.2)

/-- LiveInterval.cpp:44-60: stage 1, one instruction. -/
def useDefInst (s : Finset Nat × Finset Nat) (i : Inst) : Finset Nat × Finset Nat :=
  i.ops.foldl useDefOp s

/-- LiveInterval.cpp:42-61: stage 1, the `uses` and `defs` of a block. -/
def useDef (B : Block) : Finset Nat × Finset Nat :=
  B.insts.foldl useDefInst (∅, ∅)

def usesOf (f : Func) (b : Nat) : Finset Nat :=
  match f[b]? with
  | none => ∅
  | some B => (useDef B).1

def defsOf (f : Func) (b : Nat) : Finset Nat :=
  match f[b]? with
  | none => ∅
  | some B => (useDef B).2

/-- LiveInterval.cpp:87-92: the union of the `ins` of the successors. -/
def outsOf (f : Func) (ins : Nat → Finset Nat) (b : Nat) : Finset Nat :=
  (calcCFG f b).foldl (fun acc s => acc ∪ ins s) ∅

/-- LiveInterval.cpp:94-98: the new `ins` of a block. -/
def insOf (f : Func) (ins : Nat → Finset Nat) (b : Nat) : Finset Nat :=
  usesOf f b ∪ (outsOf f ins b \ defsOf f b)

/-- LiveInterval.cpp:84-103: one pass over the blocks, updating `ins` in place; the flag says whether
    something changed. -/
def sweep (f : Func) (ins : Nat → Finset Nat) : (Nat → Finset Nat) × Bool :=
  (List.range f.length).foldl
    (fun (s : (Nat → Finset Nat) × Bool) b =>
      let new := insOf f s.1 b
      if new = s.1 b then s else (Function.update s.1 b new, true))
    (ins, false)

/-- LiveInterval.cpp:63-106: repeat until a pass changes nothing. The number of passes is bounded by the
    argument only to make the function total; `solve_fixed` shows the bound is never what stops it. -/
def solveFrom (f : Func) : Nat → (Nat → Finset Nat) → Nat → Finset Nat
  | 0, ins => ins
  | n + 1, ins =>
    let r := sweep f ins
    if r.2 then solveFrom f n r.1 else r.1

/-- All virtual registers a block mentions. -/
def Block.vregs (B : Block) : Finset Nat := (useDef B).1 ∪ (useDef B).2

/-- All virtual registers of the function. -/
def Func.vregs (f : Func) : Finset Nat :=
  (f.map Block.vregs).foldl (· ∪ ·) ∅

/-- `ins` of every block. -/
def ins (f : Func) : Nat → Finset Nat :=
  solveFrom f (f.length * f.vregs.card + 1) (fun _ => ∅)

/-- `outs` of every block. -/
def outs (f : Func) (b : Nat) : Finset Nat := outsOf f (ins f) b

/-! ## Stage 1 computes the uses that are not preceded by a definition -/

theorem mem_uses_iff {i : Inst} {r : Reg} : r ∈ i.uses ↔ (Role.use, r) ∈ i.ops := by
  unfold Inst.uses
  simp only [List.mem_filterMap]
  constructor
  · rintro ⟨⟨x, y⟩, h, h'⟩
    simp only at h'
    split at h'
    · cases h'; subst_vars; assumption
    · cases h'
  · intro h; exact ⟨_, h, by simp⟩

theorem mem_defs_iff {i : Inst} {r : Reg} : r ∈ i.defs ↔ (Role.dfn, r) ∈ i.ops := by
  unfold Inst.defs
  simp only [List.mem_filterMap]
  constructor
  · rintro ⟨⟨x, y⟩, h, h'⟩
    simp only at h'
    split at h'
    · cases h'; subst_vars; assumption
    · cases h'
  · intro h; exact ⟨_, h, by simp⟩

/-- No instruction hides a use: if an operand reads a virtual register after another operand of the same
    instruction was declared to write it, the register was already written earlier in the block. The code
    generator's two-address instructions (ARM `movt`, MIPS `movn`) satisfy this because the first half of
    the pair is emitted right before them. -/
def Block.NoHidden (B : Block) : Prop :=
  ∀ (i : Nat) (inst : Inst) (v : Nat) (l₁ l₂ : List (Role × Reg)), B.insts[i]? = some inst → inst.ops = l₁ ++ (Role.use, Reg.vr v) :: l₂ →
    (Role.dfn, Reg.vr v) ∈ l₁ → ∃ (j : Nat) (inst' : Inst), j < i ∧ B.insts[j]? = some inst' ∧ Reg.vr v ∈ inst'.defs

def Func.NoHidden (f : Func) : Prop := ∀ B ∈ f, B.NoHidden

theorem useDefOp_fold (v : Nat) : ∀ (l : List (Role × Reg)) (s : Finset Nat × Finset Nat),
    (v ∈ (l.foldl useDefOp s).2 ↔ v ∈ s.2 ∨ (Role.dfn, Reg.vr v) ∈ l) ∧
    (v ∈ (l.foldl useDefOp s).1 ↔ v ∈ s.1 ∨
      (v ∉ s.2 ∧ ∃ l₁ l₂, l = l₁ ++ (Role.use, Reg.vr v) :: l₂ ∧ (Role.dfn, Reg.vr v) ∉ l₁)) := by
  intro l
  induction l with
  | nil => intro s; simp
  | cons o l ih =>
    intro s
    simp only [List.foldl_cons]
    obtain ⟨h2, h1⟩ := ih (useDefOp s o)
    rw [h2, h1]
    have key : ∀ (P : List (Role × Reg) → Prop),
        (∃ l₁ l₂, o :: l = l₁ ++ (Role.use, Reg.vr v) :: l₂ ∧ P l₁) ↔
        ((o = (Role.use, Reg.vr v) ∧ P []) ∨
          ∃ l₁ l₂, l = l₁ ++ (Role.use, Reg.vr v) :: l₂ ∧ P (o :: l₁)) := by
      intro P
      constructor
      · rintro ⟨l₁, l₂, h, hp⟩
        cases l₁ with
        | nil => simp at h; exact Or.inl ⟨h.1, hp⟩
        | cons x l₁ =>
          simp at h
          obtain ⟨rfl, h⟩ := h
          exact Or.inr ⟨l₁, l₂, h, hp⟩
      · rintro (⟨rfl, hp⟩ | ⟨l₁, l₂, h, hp⟩)
        · exact ⟨[], l, by simp, hp⟩
        · exact ⟨o :: l₁, l₂, by simp [h], hp⟩
    rw [key]
    rcases o with ⟨ro, _ | p⟩
    · rename_i w
      cases ro
      · -- definition
        simp only [useDefOp]
        by_cases hw : v = w
        · subst hw; simp
        · have : ¬ w = v := fun h => hw h.symm
          simp [hw, this]
      · simp only [useDefOp]
        by_cases hw : v = w
        · subst hw
          by_cases hs : v ∈ s.2 <;> simp [hs]
        · have hw' : ¬ w = v := fun h => hw h.symm
          by_cases hs : w ∈ s.2 <;> simp [hs, hw, hw']
    · cases ro <;> simp [useDefOp]

theorem useDef_fold (v : Nat) : ∀ (l : List Inst) (s : Finset Nat × Finset Nat),
    (v ∈ (l.foldl useDefInst s).2 ↔ v ∈ s.2 ∨ ∃ i ∈ l, Reg.vr v ∈ i.defs) ∧
    (v ∈ (l.foldl useDefInst s).1 ↔ v ∈ s.1 ∨
      (v ∉ s.2 ∧ ∃ (i : Nat) (inst : Inst), l[i]? = some inst ∧
        (∀ j inst', j < i → l[j]? = some inst' → Reg.vr v ∉ inst'.defs) ∧
        ∃ l₁ l₂, inst.ops = l₁ ++ (Role.use, Reg.vr v) :: l₂ ∧ (Role.dfn, Reg.vr v) ∉ l₁)) := by
  intro l
  induction l with
  | nil => intro s; simp
  | cons a l ih =>
    intro s
    simp only [List.foldl_cons]
    obtain ⟨h2, h1⟩ := ih (useDefInst s a)
    obtain ⟨g2, g1⟩ := useDefOp_fold v a.ops s
    rw [← mem_defs_iff] at g2
    refine ⟨?_, ?_⟩
    · rw [h2, useDefInst, g2]; simp [or_assoc]
    · rw [h1, useDefInst, g1, g2]
      constructor
      · rintro ((h | ⟨h, h'⟩) | ⟨h, i, inst, hi, hn, hl⟩)
        · exact Or.inl h
        · exact Or.inr ⟨h, 0, a, by simp, by simp, h'⟩
        · simp only [not_or] at h
          refine Or.inr ⟨h.1, i + 1, inst, by simpa using hi, ?_, hl⟩
          intro j inst' hj hj'
          cases j with
          | zero => simp at hj'; subst hj'; exact h.2
          | succ j => exact hn j inst' (by omega) (by simpa using hj')
      · rintro (h | ⟨h, i, inst, hi, hn, hl⟩)
        · exact Or.inl (Or.inl h)
        · cases i with
          | zero => simp at hi; subst hi; exact Or.inl (Or.inr ⟨h, hl⟩)
          | succ i =>
            refine Or.inr ⟨?_, i, inst, by simpa using hi, ?_, hl⟩
            · simp only [not_or]; exact ⟨h, hn 0 a (by omega) (by simp)⟩
            · intro j inst' hj hj'
              exact hn (j + 1) inst' (by omega) (by simpa using hj')

theorem mem_useDef_defs (B : Block) (v : Nat) :
    v ∈ (useDef B).2 ↔ ∃ i ∈ B.insts, Reg.vr v ∈ i.defs := by
  have := (useDef_fold v B.insts (∅, ∅)).1
  simpa [useDef] using this

/-- The first place where list member `x` occurs splits it so that `x` is not before. -/
theorem split_first {α : Type} [DecidableEq α] (x y : α) : ∀ l : List α, x ∈ l →
    (∃ l₁ l₂, l = l₁ ++ x :: l₂ ∧ y ∉ l₁) ∨ (∃ l₁ l₂, l = l₁ ++ x :: l₂ ∧ y ∈ l₁) := by
  intro l h
  obtain ⟨l₁, l₂, h⟩ := List.append_of_mem h
  by_cases hy : y ∈ l₁
  · exact Or.inr ⟨l₁, l₂, h, hy⟩
  · exact Or.inl ⟨l₁, l₂, h, hy⟩

/-- LiveInterval.cpp:41-61: with no hidden uses, `uses` holds the registers some instruction of the block
    reads while no earlier instruction of the block writes them. -/
theorem mem_useDef_uses {B : Block} (hB : B.NoHidden) (v : Nat) :
    v ∈ (useDef B).1 ↔ ∃ (i : Nat) (inst : Inst), B.insts[i]? = some inst ∧ Reg.vr v ∈ inst.uses ∧
      ∀ j inst', j < i → B.insts[j]? = some inst' → Reg.vr v ∉ inst'.defs := by
  have := (useDef_fold v B.insts (∅, ∅)).2
  rw [useDef, this]
  simp only [Finset.notMem_empty, false_or, not_false_eq_true, true_and]
  constructor
  · rintro ⟨i, inst, hi, hn, l₁, l₂, h, -⟩
    exact ⟨i, inst, hi, by rw [mem_uses_iff, h]; simp, hn⟩
  · rintro ⟨i, inst, hi, hu, hn⟩
    refine ⟨i, inst, hi, hn, ?_⟩
    rcases split_first _ (Role.dfn, Reg.vr v) _ (mem_uses_iff.1 hu) with h | ⟨l₁, l₂, h, h'⟩
    · exact h
    · obtain ⟨j, inst', hj, hj', hd⟩ := hB i inst v l₁ l₂ hi h h'
      exact absurd hd (hn j inst' hj hj')

/-! ## Stage 2 reaches its least fixed point -/

theorem outsOf_fold (g : Nat → Finset Nat) (v : Nat) : ∀ (l : List Nat) (a : Finset Nat),
    v ∈ l.foldl (fun acc s => acc ∪ g s) a ↔ v ∈ a ∨ ∃ s ∈ l, v ∈ g s := by
  intro l
  induction l with
  | nil => intro a; simp
  | cons x l ih => intro a; simp [ih, or_assoc]

theorem mem_outsOf {f : Func} {g : Nat → Finset Nat} {b v : Nat} :
    v ∈ outsOf f g b ↔ ∃ s, f.goesTo b s ∧ v ∈ g s := by
  unfold outsOf
  rw [outsOf_fold]
  simp [calcCFG_iff]

theorem insOf_mono {f : Func} {g h : Nat → Finset Nat} (hgh : ∀ b, g b ⊆ h b) (b : Nat) :
    insOf f g b ⊆ insOf f h b := by
  intro v hv
  unfold insOf at hv ⊢
  rw [Finset.mem_union, Finset.mem_sdiff, mem_outsOf] at hv ⊢
  rcases hv with hv | ⟨⟨s, hs, hv⟩, hd⟩
  · exact Or.inl hv
  · exact Or.inr ⟨⟨s, hs, hgh s hv⟩, hd⟩

/-- One block of a pass. -/
def sweepStep (f : Func) (s : (Nat → Finset Nat) × Bool) (b : Nat) : (Nat → Finset Nat) × Bool :=
  let new := insOf f s.1 b
  if new = s.1 b then s else (Function.update s.1 b new, true)

theorem sweep_def (f : Func) (g : Nat → Finset Nat) :
    sweep f g = (List.range f.length).foldl (sweepStep f) (g, false) := rfl

/-- What holds of `ins` during the iteration: it only ever grows, and stays below the paths. -/
structure InsInv (f : Func) (g : Nat → Finset Nat) : Prop where
  pre : ∀ b, g b ⊆ insOf f g b
  vr : ∀ b, g b ⊆ f.vregs
  out : ∀ b, f.length ≤ b → g b = ∅

theorem mem_vregs {f : Func} {v : Nat} : v ∈ f.vregs ↔ ∃ B ∈ f, v ∈ B.vregs := by
  unfold Func.vregs
  have : ∀ (l : List (Finset Nat)) (a : Finset Nat), v ∈ l.foldl (· ∪ ·) a ↔ v ∈ a ∨ ∃ s ∈ l, v ∈ s := by
    intro l
    induction l with
    | nil => intro a; simp
    | cons x l ih => intro a; simp [ih, or_assoc]
  rw [this]; simp

theorem usesOf_vregs (f : Func) (b : Nat) : usesOf f b ⊆ f.vregs := by
  intro v hv
  unfold usesOf at hv
  split at hv
  · simp at hv
  · rename_i B hB
    exact mem_vregs.2 ⟨B, List.mem_of_getElem? hB, by simp [Block.vregs, hv]⟩

theorem insOf_vregs {f : Func} {g : Nat → Finset Nat} (h : ∀ b, g b ⊆ f.vregs) (b : Nat) :
    insOf f g b ⊆ f.vregs := by
  intro v hv
  unfold insOf at hv
  rw [Finset.mem_union, Finset.mem_sdiff, mem_outsOf] at hv
  rcases hv with hv | ⟨⟨s, hs, hv⟩, hd⟩
  · exact usesOf_vregs f b hv
  · exact h s hv

theorem sweepStep_inv {f : Func} {s : (Nat → Finset Nat) × Bool} (h : InsInv f s.1) {b : Nat}
    (hb : b < f.length) : InsInv f (sweepStep f s b).1 ∧ (∀ x, s.1 x ⊆ (sweepStep f s b).1 x) := by
  unfold sweepStep
  simp only
  split
  · exact ⟨h, fun x => Finset.Subset.refl _⟩
  · have hle : ∀ x, s.1 x ⊆ Function.update s.1 b (insOf f s.1 b) x := by
      intro x
      by_cases hx : x = b
      · subst hx; simp [h.pre x]
      · simp [Function.update_of_ne hx]
    refine ⟨⟨?_, ?_, ?_⟩, hle⟩
    · intro x
      refine Finset.Subset.trans ?_ (insOf_mono hle x)
      by_cases hx : x = b
      · subst hx; simp
      · simp only [Function.update_of_ne hx]; exact h.pre x
    · intro x
      by_cases hx : x = b
      · subst hx; simp [insOf_vregs h.vr x]
      · simp only [Function.update_of_ne hx]; exact h.vr x
    · intro x hx
      simp only
      rw [Function.update_of_ne (by omega)]
      exact h.out x hx

theorem sweep_fold {f : Func} : ∀ (l : List Nat), (∀ b ∈ l, b < f.length) →
    ∀ s : (Nat → Finset Nat) × Bool, InsInv f s.1 →
    InsInv f (l.foldl (sweepStep f) s).1 ∧ (∀ x, s.1 x ⊆ (l.foldl (sweepStep f) s).1 x) ∧
    ((l.foldl (sweepStep f) s).2 = false → (l.foldl (sweepStep f) s).1 = s.1 ∧ s.2 = false ∧
      ∀ b ∈ l, insOf f s.1 b = s.1 b) ∧
    ((l.foldl (sweepStep f) s).2 = true → s.2 = true ∨
      ∃ x, x < f.length ∧ s.1 x ⊂ (l.foldl (sweepStep f) s).1 x) := by
  intro l
  induction l with
  | nil => intro _ s h; simp [h]
  | cons a l ih =>
    intro hl s h
    have ha : a < f.length := hl a (by simp)
    obtain ⟨hi, hm⟩ := sweepStep_inv h ha
    obtain ⟨i1, i2, i3, i4⟩ := ih (fun b hb => hl b (by simp [hb])) _ hi
    refine ⟨i1, fun x => Finset.Subset.trans (hm x) (i2 x), ?_, ?_⟩
    · intro hf
      obtain ⟨j1, j2, j3⟩ := i3 hf
      have hs : sweepStep f s a = s := by
        unfold sweepStep at j2 ⊢
        simp only at j2 ⊢
        split
        · rfl
        · rename_i hne; simp [hne] at j2
      have he : insOf f s.1 a = s.1 a := by
        by_contra hne
        unfold sweepStep at j2
        simp [hne] at j2
      rw [hs] at j1 j2 j3
      refine ⟨?_, j2, ?_⟩
      · simp only [List.foldl_cons, hs]; exact j1
      · intro b hb
        rcases List.mem_cons.1 hb with rfl | hb
        · exact he
        · exact j3 b hb
    · intro ht
      rcases i4 ht with h2 | ⟨x, hx, hlt⟩
      · unfold sweepStep at h2
        simp only at h2
        split at h2
        · exact Or.inl h2
        · rename_i hne
          refine Or.inr ⟨a, ha, ?_⟩
          have hin : sweepStep f s a = (Function.update s.1 a (insOf f s.1 a), true) := by
            unfold sweepStep; simp [hne]
          have h1 : s.1 a ⊂ (sweepStep f s a).1 a := by
            rw [hin]; simp only [Function.update_self]
            exact Finset.ssubset_iff_subset_ne.2 ⟨h.pre a, fun e => hne e.symm⟩
          exact Finset.ssubset_of_ssubset_of_subset h1 (i2 a)
      · exact Or.inr ⟨x, hx, Finset.ssubset_of_subset_of_ssubset (hm x) hlt⟩

theorem sweep_spec {f : Func} {g : Nat → Finset Nat} (h : InsInv f g) :
    InsInv f (sweep f g).1 ∧ (∀ x, g x ⊆ (sweep f g).1 x) ∧
    ((sweep f g).2 = false → (sweep f g).1 = g ∧ ∀ b, b < f.length → insOf f g b = g b) ∧
    ((sweep f g).2 = true → ∃ x, x < f.length ∧ g x ⊂ (sweep f g).1 x) := by
  obtain ⟨a, b, c, d⟩ := sweep_fold (f := f) (List.range f.length) (by simp) (g, false) h
  rw [sweep_def]
  refine ⟨a, b, ?_, ?_⟩
  · intro hf
    obtain ⟨c1, -, c3⟩ := c hf
    exact ⟨c1, fun x hx => c3 x (by simpa using hx)⟩
  · intro ht
    rcases d ht with d | d
    · simp at d
    · exact d

/-- How much is in `ins` altogether. -/
def weight (f : Func) (g : Nat → Finset Nat) : Nat := ∑ b ∈ Finset.range f.length, (g b).card

theorem weight_le {f : Func} {g : Nat → Finset Nat} (h : InsInv f g) :
    weight f g ≤ f.length * f.vregs.card := by
  unfold weight
  have := Finset.sum_le_card_nsmul (Finset.range f.length) (fun b => (g b).card) f.vregs.card
    (fun b _ => Finset.card_le_card (h.vr b))
  simpa using this

theorem solve_fixed {f : Func} : ∀ (n : Nat) (g : Nat → Finset Nat), InsInv f g →
    f.length * f.vregs.card < weight f g + n →
    InsInv f (solveFrom f n g) ∧ (∀ b, b < f.length → insOf f (solveFrom f n g) b = solveFrom f n g b) := by
  intro n
  induction n with
  | zero => intro g h hw; have := weight_le h; omega
  | succ n ih =>
    intro g h hw
    obtain ⟨s1, s2, s3, s4⟩ := sweep_spec h
    unfold solveFrom
    simp only
    split
    · rename_i ht
      apply ih _ s1
      obtain ⟨x, hx, hlt⟩ := s4 ht
      have : weight f g < weight f (sweep f g).1 := by
        unfold weight
        apply Finset.sum_lt_sum
        · intro i _; exact Finset.card_le_card (s2 i)
        · exact ⟨x, by simpa using hx, Finset.card_lt_card hlt⟩
      omega
    · rename_i hf
      obtain ⟨e, hfix⟩ := s3 (by simpa using hf)
      rw [e]
      exact ⟨h, hfix⟩

theorem insInv_init (f : Func) : InsInv f (fun _ => ∅) :=
  ⟨fun _ => by simp, fun _ => by simp, fun _ _ => rfl⟩

/-- LiveInterval.cpp:63-106: when the iteration stops, `ins = uses ∪ (outs \ defs)` holds in every block. -/
theorem ins_fixed (f : Func) (b : Nat) (hb : b < f.length) : insOf f (ins f) b = ins f b :=
  (solve_fixed (f.length * f.vregs.card + 1) _ (insInv_init f) (by omega)).2 b hb

theorem ins_out (f : Func) (b : Nat) (hb : f.length ≤ b) : ins f b = ∅ :=
  (solve_fixed (f.length * f.vregs.card + 1) _ (insInv_init f) (by omega)).1.out b hb

/-- The iteration adds nothing that is not forced: anything closed under the equations contains it. -/
theorem sweep_le {f : Func} {P : Nat → Nat → Prop}
    (hP : ∀ g : Nat → Finset Nat, (∀ b, ∀ v ∈ g b, P b v) → ∀ b, ∀ v ∈ insOf f g b, P b v) :
    ∀ n (g : Nat → Finset Nat), (∀ b, ∀ v ∈ g b, P b v) → ∀ b, ∀ v ∈ solveFrom f n g b, P b v := by
  have step : ∀ (l : List Nat) (s : (Nat → Finset Nat) × Bool), (∀ b, ∀ v ∈ s.1 b, P b v) →
      ∀ b, ∀ v ∈ (l.foldl (sweepStep f) s).1 b, P b v := by
    intro l
    induction l with
    | nil => intro s h; exact h
    | cons a l ih =>
      intro s h
      simp only [List.foldl_cons]
      apply ih
      intro b v hv
      unfold sweepStep at hv
      simp only at hv
      split at hv
      · exact h b v hv
      · simp only at hv
        by_cases hb : b = a
        · subst hb; simp only [Function.update_self] at hv; exact hP s.1 h b v hv
        · rw [Function.update_of_ne hb] at hv; exact h b v hv
  intro n
  induction n with
  | zero => intro g h; exact h
  | succ n ih =>
    intro g h
    unfold solveFrom
    simp only
    split
    · exact ih _ (step _ _ h)
    · exact step _ _ h

/-! ## The result is liveness -/

/-- Whether, looking only at one block from instruction `i` on, `v` is read before it is written. -/
theorem liveAt_of_use {f : Func} {v b : Nat} {B : Block} (hB : f[b]? = some B) :
    ∀ (d i j : Nat) (inst : Inst), j = i + d → B.insts[j]? = some inst → Reg.vr v ∈ inst.uses →
      (∀ k inst', i ≤ k → k < j → B.insts[k]? = some inst' → Reg.vr v ∉ inst'.defs) →
      LiveAt f v b i := by
  intro d
  induction d with
  | zero => intro i j inst hj hi hu _; subst hj; exact .use hB hi hu
  | succ d ih =>
    intro i j inst hj hi hu hn
    have hlt : j < B.insts.length := by
      rcases List.getElem?_eq_some_iff.1 hi with ⟨h, -⟩; exact h
    have hii : i < B.insts.length := by omega
    refine .next hB (List.getElem?_eq_getElem hii) (hn i _ (le_refl _) (by omega)
      (List.getElem?_eq_getElem hii)) (by omega) ?_
    exact ih (i + 1) j inst (by omega) hi hu (fun k inst' h1 h2 => hn k inst' (by omega) h2)

theorem liveAt_of_out {f : Func} {v b b' : Nat} {B : Block} (hB : f[b]? = some B)
    (hg : f.goesTo b b') (hl : LiveAt f v b' 0) :
    ∀ (d i : Nat), i + d + 1 = B.insts.length →
      (∀ k inst', i ≤ k → B.insts[k]? = some inst' → Reg.vr v ∉ inst'.defs) → LiveAt f v b i := by
  intro d
  induction d with
  | zero =>
    intro i hi hn
    have hii : i < B.insts.length := by omega
    exact .jump hB (List.getElem?_eq_getElem hii) (hn i _ (le_refl _) (List.getElem?_eq_getElem hii))
      (by omega) hg hl
  | succ d ih =>
    intro i hi hn
    have hii : i < B.insts.length := by omega
    refine .next hB (List.getElem?_eq_getElem hii) (hn i _ (le_refl _)
      (List.getElem?_eq_getElem hii)) (by omega) ?_
    exact ih (i + 1) (by omega) (fun k inst' h1 => hn k inst' (by omega))

/-- Liveness seen from inside a block: a later read with no write in between, or no write up to the end
    and live at the start of a block that can come next. -/
theorem liveAt_local {f : Func} {v b i : Nat} (h : LiveAt f v b i) :
    ∃ B, f[b]? = some B ∧ i < B.insts.length ∧
    ((∃ j inst, i ≤ j ∧ B.insts[j]? = some inst ∧ Reg.vr v ∈ inst.uses ∧
        ∀ k inst', i ≤ k → k < j → B.insts[k]? = some inst' → Reg.vr v ∉ inst'.defs) ∨
     (∃ b', f.goesTo b b' ∧ LiveAt f v b' 0 ∧
        ∀ k inst', i ≤ k → B.insts[k]? = some inst' → Reg.vr v ∉ inst'.defs)) := by
  induction h with
  | @use b i B inst hB hi hu =>
    have hlt := (List.getElem?_eq_some_iff.1 hi).1
    exact ⟨B, hB, hlt, Or.inl ⟨i, inst, le_refl _, hi, hu, fun k _ h1 h2 => by omega⟩⟩
  | @next b i B inst hB hi hd hl _ ih =>
    have hlt := (List.getElem?_eq_some_iff.1 hi).1
    obtain ⟨B', hB', -, ih⟩ := ih
    rw [hB] at hB'; cases hB'
    refine ⟨B, hB, hlt, ?_⟩
    rcases ih with ⟨j, inst', h1, h2, h3, h4⟩ | ⟨b', h1, h2, h3⟩
    · refine Or.inl ⟨j, inst', by omega, h2, h3, ?_⟩
      intro k ik a1 a2 a3
      by_cases hk : k = i
      · subst hk; rw [hi] at a3; cases a3; exact hd
      · exact h4 k ik (by omega) a2 a3
    · refine Or.inr ⟨b', h1, h2, ?_⟩
      intro k ik a1 a3
      by_cases hk : k = i
      · subst hk; rw [hi] at a3; cases a3; exact hd
      · exact h3 k ik (by omega) a3
  | @jump b i B inst b' hB hi hd hl hg hb' _ =>
    have hlt := (List.getElem?_eq_some_iff.1 hi).1
    refine ⟨B, hB, hlt, Or.inr ⟨b', hg, hb', ?_⟩⟩
    intro k ik a1 a3
    have hk := (List.getElem?_eq_some_iff.1 a3).1
    have : k = i := by omega
    subst this; rw [hi] at a3; cases a3; exact hd

theorem goesTo_lt {f : Func} (hf : f.Wf) {b b' : Nat} (h : f.goesTo b b') : b' < f.length := by
  obtain ⟨B, k, hB, hn⟩ := h
  have hm := hf.2 B (List.mem_of_getElem? hB)
  cases hT : B.term with
  | jmp t => simp [hT, Term.next] at hn hm; omega
  | cond t =>
    simp only [hT, Term.next] at hn hm
    split at hn
    · cases hn; exact hm
    · split at hn
      · cases hn; assumption
      · cases hn
  | table ts =>
    simp only [hT, Term.next] at hn hm
    exact hm _ (List.mem_of_getElem? hn)
  | ret => simp [hT, Term.next] at hn

theorem mem_insOf {f : Func} (hh : f.NoHidden) {g : Nat → Finset Nat} {b v : Nat} {B : Block}
    (hB : f[b]? = some B) :
    v ∈ insOf f g b ↔
      (∃ (i : Nat) (inst : Inst), B.insts[i]? = some inst ∧ Reg.vr v ∈ inst.uses ∧
        ∀ j inst', j < i → B.insts[j]? = some inst' → Reg.vr v ∉ inst'.defs) ∨
      ((∃ b', f.goesTo b b' ∧ v ∈ g b') ∧
        ∀ (k : Nat) (inst' : Inst), B.insts[k]? = some inst' → Reg.vr v ∉ inst'.defs) := by
  have hBn : B.NoHidden := hh B (List.mem_of_getElem? hB)
  unfold insOf
  rw [Finset.mem_union, Finset.mem_sdiff, mem_outsOf]
  have e1 : v ∈ usesOf f b ↔ v ∈ (useDef B).1 := by simp [usesOf, hB]
  have e2 : v ∈ defsOf f b ↔ v ∈ (useDef B).2 := by simp [defsOf, hB]
  rw [e1, e2, mem_useDef_uses hBn, mem_useDef_defs]
  have : (¬ ∃ i ∈ B.insts, Reg.vr v ∈ i.defs) ↔
      ∀ (k : Nat) (inst' : Inst), B.insts[k]? = some inst' → Reg.vr v ∉ inst'.defs := by
    constructor
    · intro h k i hk hd; exact h ⟨i, List.mem_of_getElem? hk, hd⟩
    · rintro h ⟨i, hi, hd⟩
      obtain ⟨k, hk⟩ := List.mem_iff_getElem?.1 hi
      exact h k i hk hd
  rw [this]

/-- **`ins` is exactly liveness at the start of blocks** (LiveInterval.cpp:38-106). -/
theorem mem_ins_iff {f : Func} (hf : f.Wf) (hh : f.NoHidden) (b v : Nat) :
    v ∈ ins f b ↔ LiveAt f v b 0 := by
  constructor
  · unfold ins
    refine sweep_le (P := fun b v => LiveAt f v b 0) ?_ _ _ (by simp) b v
    intro g hg b v hv
    cases hB : f[b]? with
    | none =>
      exfalso
      unfold insOf at hv
      rw [Finset.mem_union, Finset.mem_sdiff, mem_outsOf] at hv
      rcases hv with hv | ⟨⟨s, ⟨B, k, h, _⟩, _⟩, _⟩
      · simp [usesOf, hB] at hv
      · rw [hB] at h; cases h
    | some B =>
      have hne : B.insts ≠ [] := hf.1 B (List.mem_of_getElem? hB)
      have hpos : 0 < B.insts.length := List.length_pos_iff.2 hne
      rw [mem_insOf hh hB] at hv
      rcases hv with ⟨i, inst, hi, hu, hn⟩ | ⟨⟨b', hg', hv⟩, hn⟩
      · exact liveAt_of_use hB i 0 i inst (by omega) hi hu (fun k ik _ h2 h3 => hn k ik h2 h3)
      · exact liveAt_of_out hB hg' (hg b' v hv) (B.insts.length - 1) 0 (by omega)
          (fun k ik _ h3 => hn k ik h3)
  · intro h
    have key : ∀ b i, LiveAt f v b i → ∃ B, f[b]? = some B ∧ i < B.insts.length ∧
        ((∃ j inst, i ≤ j ∧ B.insts[j]? = some inst ∧ Reg.vr v ∈ inst.uses ∧
          ∀ k inst', i ≤ k → k < j → B.insts[k]? = some inst' → Reg.vr v ∉ inst'.defs) ∨
        (∃ b', f.goesTo b b' ∧ v ∈ ins f b' ∧
          ∀ k inst', i ≤ k → B.insts[k]? = some inst' → Reg.vr v ∉ inst'.defs)) := by
      have toIns : ∀ b (B : Block), f[b]? = some B →
          ((∃ j inst, 0 ≤ j ∧ B.insts[j]? = some inst ∧ Reg.vr v ∈ inst.uses ∧
            ∀ k inst', 0 ≤ k → k < j → B.insts[k]? = some inst' → Reg.vr v ∉ inst'.defs) ∨
          (∃ b', f.goesTo b b' ∧ v ∈ ins f b' ∧
            ∀ k inst', 0 ≤ k → B.insts[k]? = some inst' → Reg.vr v ∉ inst'.defs)) → v ∈ ins f b := by
        intro b B hB hc
        rw [← ins_fixed f b (List.getElem?_eq_some_iff.1 hB).1, mem_insOf hh hB]
        rcases hc with ⟨j, inst, -, h2, h3, h4⟩ | ⟨b', h1, h2, h3⟩
        · exact Or.inl ⟨j, inst, h2, h3, fun k ik hk => h4 k ik (Nat.zero_le _) hk⟩
        · exact Or.inr ⟨⟨b', h1, h2⟩, fun k ik => h3 k ik (Nat.zero_le _)⟩
      intro b i h
      induction h with
      | @use b i B inst hB hi hu =>
        have hlt := (List.getElem?_eq_some_iff.1 hi).1
        exact ⟨B, hB, hlt, Or.inl ⟨i, inst, le_refl _, hi, hu, fun k _ h1 h2 => by omega⟩⟩
      | @next b i B inst hB hi hd hl _ ih =>
        have hlt := (List.getElem?_eq_some_iff.1 hi).1
        obtain ⟨B', hB', -, ih⟩ := ih
        rw [hB] at hB'; cases hB'
        refine ⟨B, hB, hlt, ?_⟩
        rcases ih with ⟨j, inst', h1, h2, h3, h4⟩ | ⟨b', h1, h2, h3⟩
        · refine Or.inl ⟨j, inst', by omega, h2, h3, ?_⟩
          intro k ik a1 a2 a3
          by_cases hk : k = i
          · subst hk; rw [hi] at a3; cases a3; exact hd
          · exact h4 k ik (by omega) a2 a3
        · refine Or.inr ⟨b', h1, h2, ?_⟩
          intro k ik a1 a3
          by_cases hk : k = i
          · subst hk; rw [hi] at a3; cases a3; exact hd
          · exact h3 k ik (by omega) a3
      | @jump b i B inst b' hB hi hd hl hg _ ih =>
        have hlt := (List.getElem?_eq_some_iff.1 hi).1
        obtain ⟨B', hB', -, ih⟩ := ih
        refine ⟨B, hB, hlt, Or.inr ⟨b', hg, toIns b' B' hB' ih, ?_⟩⟩
        intro k ik a1 a3
        have hk := (List.getElem?_eq_some_iff.1 a3).1
        have : k = i := by omega
        subst this; rw [hi] at a3; cases a3; exact hd
    obtain ⟨B, hB, hlt, hc⟩ := key b 0 h
    rw [← ins_fixed f b (List.getElem?_eq_some_iff.1 hB).1, mem_insOf hh hB]
    rcases hc with ⟨j, inst, -, h2, h3, h4⟩ | ⟨b', h1, h2, h3⟩
    · exact Or.inl ⟨j, inst, h2, h3, fun k ik hk => h4 k ik (Nat.zero_le _) hk⟩
    · exact Or.inr ⟨⟨b', h1, h2⟩, fun k ik => h3 k ik (Nat.zero_le _)⟩

/-- **`outs` is exactly liveness at the end of blocks.** -/
theorem mem_outs_iff {f : Func} (hf : f.Wf) (hh : f.NoHidden) (b v : Nat) :
    v ∈ outs f b ↔ ∃ b', f.goesTo b b' ∧ LiveAt f v b' 0 := by
  unfold outs
  rw [mem_outsOf]
  simp [mem_ins_iff hf hh]

end Cmmc.Mir
