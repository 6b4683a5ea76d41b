import Verif.Mir.Live
import Mathlib.Logic.Function.Iterate

/-!
# Live intervals

Stage 3 of `calcLiveIntervals` and the operations on intervals
(`/repo/cmmc/CodeGen/LiveInterval.cpp:28-37,108-256`).

The code walks each block once and keeps, for every virtual register, the segment being built, the last use
and the finished segments, in maps keyed by the register. The entries of different registers do not
influence each other, so the model follows the entry of one register `v`.
-/

namespace Cmmc.Mir

/-- LiveInterval.hpp:33-40 `LiveSegment`: `[beg, end)`. -/
abbrev Seg := Nat × Nat

/-- The entries of register `v` in `currentSegment`, `info.interval` and `lastUse`, and the instructions
    whose reads of `v` were marked `RegisterFlagDead` (LiveInterval.cpp:112-113). -/
structure RegSt where
  cur : Option Seg := none
  done : List Seg := []
  last : Option Nat := none
  dead : List Nat := []
deriving Repr

/-- LiveInterval.cpp:128-144: a use of `v` by instruction `i`, numbered `n`. -/
def useSt (first n i : Nat) (s : RegSt) : RegSt :=
  { s with
    cur := match s.cur with
      | some (b, _) => some (b, n + 1)
      | none => some (first, n + 1)
    last := some i }

/-- LiveInterval.cpp:152-173: a definition of `v` by the instruction numbered `n`. -/
def defSt (n : Nat) (s : RegSt) : RegSt :=
  match s.cur with
  | some (b, e) =>
    if e = n + 1 then { s with cur := some (b, n + 2) }
    else
      { cur := some (n + 1, n + 2), done := s.done ++ [(b, e)], last := none,
        dead := s.dead ++ s.last.toList }
  | none => { s with cur := some (n + 1, n + 2) }

/-- LiveInterval.cpp:116-175: one instruction: first its uses, then its definitions. -/
def instSt (v first n i : Nat) (inst : Inst) (s : RegSt) : RegSt :=
  (defSt n)^[inst.defs.count (.vr v)] (if Reg.vr v ∈ inst.uses then useSt first n i s else s)

/-- LiveInterval.cpp:28-37 `assignInstNum`: numbers go up by `defaultIncrement` = 4. The state after the
    first `k` instructions of a block whose first instruction has number `base`. -/
def blockSt (v base : Nat) (insts : List Inst) : Nat → RegSt
  | 0 => {}
  | k + 1 =>
    match insts[k]? with
    | some inst => instSt v base (base + 4 * k) k inst (blockSt v base insts k)
    | none => blockSt v base insts k

/-- LiveInterval.cpp:177-182, 190-192: the segments a block contributes. -/
def blockSegs (base len : Nat) (isIn isOut : Bool) (s : RegSt) : List Seg :=
  match s.cur with
  | some (b, e) => s.done ++ [(b, if isOut then base + 4 * (len - 1) + 2 else e)]
  | none => s.done ++ (if isOut && isIn then [(base, base + 4 * (len - 1) + 2)] else [])

/-- LiveInterval.cpp:183-189: the instructions whose reads are marked dead. -/
def blockDead (isOut : Bool) (s : RegSt) : List Nat :=
  s.dead ++ (if isOut then [] else s.last.toList)

/-- LiveInterval.cpp:28-37: the number of the first instruction of block `b`. -/
def baseNum (f : Func) (b : Nat) : Nat :=
  4 * ((f.take b).map fun B => B.insts.length).sum

/-- LiveInterval.cpp:28-37 `assignInstNum`. -/
def instNum (f : Func) (b i : Nat) : Nat := baseNum f b + 4 * i

def segsOf (f : Func) (v b : Nat) : List Seg :=
  match f[b]? with
  | none => []
  | some B =>
    blockSegs (baseNum f b) B.insts.length (v ∈ ins f b) (v ∈ outs f b)
      (blockSt v (baseNum f b) B.insts B.insts.length)

/-- The reads of `v` by instruction `i` of block `b` carry `RegisterFlagDead`. -/
def deadUse (f : Func) (v b i : Nat) : Bool :=
  match f[b]? with
  | none => false
  | some B => i ∈ blockDead (v ∈ outs f b) (blockSt v (baseNum f b) B.insts B.insts.length)

/-- LiveInterval.cpp:210-223 `LiveInterval::optimize`: merge segments that touch. -/
def optimizeGo : Seg → List Seg → List Seg
  | c, [] => [c]
  | c, s :: l => if c.2 < s.1 then c :: optimizeGo s l else optimizeGo (c.1, max c.2 s.2) l

def optimize : List Seg → List Seg
  | [] => []
  | s :: l => optimizeGo s l

/-- LiveInterval.cpp:108-200: the interval of register `v`. -/
def interval (f : Func) (v : Nat) : List Seg :=
  optimize ((List.range f.length).flatMap (segsOf f v))

/-- LiveInterval.cpp:243-259 `LiveInterval::intersectWith`: walk the two lists together. -/
def intersectWith : List Seg → List Seg → Bool
  | [], _ => false
  | (b, e) :: l, r =>
    match r.dropWhile (fun s => s.2 ≤ b) with
    | [] => false
    | s :: r' => if s.1 < e then true else intersectWith l (s :: r')

/-- LiveInterval.cpp:224-234 `LiveInterval::verify`. -/
def verifySegs : Nat → List Seg → Bool
  | _, [] => true
  | val, s :: l => if s.1 ≥ s.2 then false else if val ≥ s.2 then false else verifySegs s.2 l

/-! ## Specification -/

/-- A point lies in one of the segments. -/
def Covers (l : List Seg) (x : Nat) : Prop := ∃ s ∈ l, s.1 ≤ x ∧ x < s.2

/-- Segments in order with gaps between them. -/
def Sep (l : List Seg) : Prop := l.Pairwise (fun s t => s.2 < t.1) ∧ ∀ s ∈ l, s.1 < s.2

theorem covers_append {l r : List Seg} {x : Nat} : Covers (l ++ r) x ↔ Covers l x ∨ Covers r x := by
  unfold Covers; simp only [List.mem_append]
  constructor
  · rintro ⟨s, h | h, h'⟩
    · exact Or.inl ⟨s, h, h'⟩
    · exact Or.inr ⟨s, h, h'⟩
  · rintro (⟨s, h, h'⟩ | ⟨s, h, h'⟩)
    · exact ⟨s, Or.inl h, h'⟩
    · exact ⟨s, Or.inr h, h'⟩

theorem covers_cons {s : Seg} {l : List Seg} {x : Nat} :
    Covers (s :: l) x ↔ (s.1 ≤ x ∧ x < s.2) ∨ Covers l x := by
  unfold Covers; simp

theorem covers_nil {x : Nat} : ¬ Covers [] x := by unfold Covers; simp

/-! ## `optimize` and `intersectWith` -/

theorem optimizeGo_covers : ∀ (l : List Seg) (c : Seg),
    (c :: l).Pairwise (fun s t => s.1 ≤ t.1) → ∀ x, Covers (optimizeGo c l) x ↔ Covers (c :: l) x := by
  intro l
  induction l with
  | nil => intro c _ x; rfl
  | cons s l ih =>
    intro c hp x
    unfold optimizeGo
    rw [List.pairwise_cons] at hp
    have hs := List.pairwise_cons.1 hp.2
    split
    · rw [covers_cons, ih s hp.2, covers_cons (s := c)]
    · rename_i hlt
      have hcs := hp.1 s (by simp)
      rw [ih (c.1, max c.2 s.2) (List.pairwise_cons.2
        ⟨fun t ht => hp.1 t (by simp [ht]), hs.2⟩)]
      rw [covers_cons, covers_cons (s := c), covers_cons (s := s), ← or_assoc]
      apply or_congr_left
      simp only
      omega

theorem optimize_covers {l : List Seg} (h : l.Pairwise (fun s t => s.1 ≤ t.1)) (x : Nat) :
    Covers (optimize l) x ↔ Covers l x := by
  cases l with
  | nil => rfl
  | cons s l => exact optimizeGo_covers l s h x

theorem optimizeGo_sep : ∀ (l : List Seg) (c : Seg),
    (c :: l).Pairwise (fun s t => s.1 ≤ t.1) → (∀ s ∈ c :: l, s.1 < s.2) →
    Sep (optimizeGo c l) ∧ ∀ s ∈ optimizeGo c l, c.1 ≤ s.1 := by
  intro l
  induction l with
  | nil => intro c _ hn; exact ⟨⟨by simp [optimizeGo], by simpa [optimizeGo] using hn⟩, by simp [optimizeGo]⟩
  | cons s l ih =>
    intro c hp hn
    have hp' := List.pairwise_cons.1 hp
    have hs := List.pairwise_cons.1 hp'.2
    unfold optimizeGo
    split
    · rename_i hlt
      obtain ⟨⟨i1, i2⟩, i3⟩ := ih s hp'.2 (fun t ht => hn t (by simp [List.mem_cons.1 ht]))
      refine ⟨⟨List.pairwise_cons.2 ⟨fun t ht => ?_, i1⟩, ?_⟩, ?_⟩
      · have := i3 t ht; omega
      · intro t ht
        rcases List.mem_cons.1 ht with rfl | ht
        · exact hn _ (by simp)
        · exact i2 t ht
      · intro t ht
        rcases List.mem_cons.1 ht with rfl | ht
        · exact le_refl _
        · have := i3 t ht; have := hp'.1 s (by simp); omega
    · rename_i hlt
      have hcn := hn c (by simp)
      exact ih (c.1, max c.2 s.2)
        (List.pairwise_cons.2 ⟨fun t ht => hp'.1 t (by simp [ht]), hs.2⟩)
        (by
          intro t ht
          rcases List.mem_cons.1 ht with rfl | ht
          · simp only; omega
          · exact hn t (by simp [ht]))

theorem optimize_sep {l : List Seg} (h : l.Pairwise (fun s t => s.1 ≤ t.1)) (hn : ∀ s ∈ l, s.1 < s.2) :
    Sep (optimize l) := by
  cases l with
  | nil => exact ⟨by simp [optimize], by simp [optimize]⟩
  | cons s l => exact (optimizeGo_sep l s h hn).1

theorem sep_tail {s : Seg} {l : List Seg} (h : Sep (s :: l)) : Sep l :=
  ⟨(List.pairwise_cons.1 h.1).2, fun t ht => h.2 t (by simp [ht])⟩

theorem sep_dropWhile {p : Seg → Bool} : ∀ {l : List Seg}, Sep l → Sep (l.dropWhile p) := by
  intro l
  induction l with
  | nil => intro h; simpa using h
  | cons s l ih =>
    intro h
    rw [List.dropWhile_cons]
    split
    · exact ih (sep_tail h)
    · exact h

/-- Segments dropped because they end before `b` contain no point from `b` on. -/
theorem covers_dropWhile {b x : Nat} (hx : b ≤ x) : ∀ (l : List Seg),
    Covers (l.dropWhile (fun s => s.2 ≤ b)) x ↔ Covers l x := by
  intro l
  induction l with
  | nil => rfl
  | cons s l ih =>
    rw [List.dropWhile_cons]
    split
    · rename_i h
      rw [ih, covers_cons]
      simp only [decide_eq_true_eq] at h
      constructor
      · exact Or.inr
      · rintro (h' | h')
        · omega
        · exact h'
    · rfl

theorem dropWhile_head {p : Seg → Bool} : ∀ (l : List Seg) (s : Seg) (r : List Seg),
    l.dropWhile p = s :: r → p s = false := by
  intro l
  induction l with
  | nil => intro s r h; simp at h
  | cons a l ih =>
    intro s r h
    rw [List.dropWhile_cons] at h
    split at h
    · exact ih s r h
    · rename_i hp; cases h; simpa using hp

/-- **`intersectWith` is true exactly when the two intervals have a point in common.** -/
theorem intersectWith_iff : ∀ (l r : List Seg), Sep l → Sep r →
    (intersectWith l r = true ↔ ∃ x, Covers l x ∧ Covers r x) := by
  intro l
  induction l with
  | nil =>
    intro r _ _
    simp only [intersectWith]
    constructor
    · intro h; cases h
    · rintro ⟨x, h, -⟩; exact absurd h covers_nil
  | cons s l ih =>
    intro r hl hr
    obtain ⟨b, e⟩ := s
    have hbe : b < e := hl.2 (b, e) (by simp)
    have hlater : ∀ t ∈ l, e < t.1 := fun t ht => (List.pairwise_cons.1 hl.1).1 t ht
    have hge : ∀ x, Covers ((b, e) :: l) x → b ≤ x := by
      rintro x ⟨t, ht, h1, h2⟩
      rcases List.mem_cons.1 ht with rfl | ht
      · exact h1
      · have := hlater t ht; omega
    unfold intersectWith
    have hsep := sep_dropWhile (p := fun s => decide (s.2 ≤ b)) hr
    have hcov := fun x hx => covers_dropWhile (b := b) (x := x) hx r
    cases hd : r.dropWhile (fun s => decide (s.2 ≤ b)) with
    | nil =>
      rw [hd] at hcov
      simp only
      constructor
      · intro h; cases h
      · rintro ⟨x, h1, h2⟩
        exact absurd ((hcov x (hge x h1)).2 h2) covers_nil
    | cons t r' =>
      rw [hd] at hcov hsep
      have ht : b < t.2 := by
        have := dropWhile_head _ _ _ hd; simpa using this
      have htt : t.1 < t.2 := hsep.2 t (by simp)
      simp only
      split
      · rename_i hlt
        simp only [true_iff]
        refine ⟨max b t.1, covers_cons.2 (Or.inl ⟨by simp, by simp; omega⟩), ?_⟩
        apply (hcov _ (by simp)).1
        exact covers_cons.2 (Or.inl ⟨by simp, by simp; omega⟩)
      · rename_i hge'
        rw [ih (t :: r') (sep_tail hl) hsep]
        constructor
        · rintro ⟨x, h1, h2⟩
          have hx : b ≤ x := hge x (covers_cons.2 (Or.inr h1))
          exact ⟨x, covers_cons.2 (Or.inr h1), (hcov x hx).1 h2⟩
        · rintro ⟨x, h1, h2⟩
          have h2' := (hcov x (hge x h1)).2 h2
          rcases covers_cons.1 h1 with ⟨h3, h4⟩ | h1
          · exfalso
            obtain ⟨u, hu, h5, h6⟩ := h2'
            rcases List.mem_cons.1 hu with rfl | hu
            · simp at h4; omega
            · have := (List.pairwise_cons.1 hsep.1).1 u hu
              simp at h4; omega
          · exact ⟨x, h1, h2'⟩

/-! ## What one block contributes -/

/-- Instruction `j` reads, respectively writes, `v`. -/
def UseAt (insts : List Inst) (v j : Nat) : Prop := ∃ inst, insts[j]? = some inst ∧ Reg.vr v ∈ inst.uses
def DefAt (insts : List Inst) (v j : Nat) : Prop := ∃ inst, insts[j]? = some inst ∧ Reg.vr v ∈ inst.defs

/-- What is known after the first `k` instructions. -/
structure RInv (insts : List Inst) (v base k : Nat) (s : RegSt) : Prop where
  none_ : s.cur = none → (∀ j, j < k → ¬ UseAt insts v j ∧ ¬ DefAt insts v j) ∧ s.done = [] ∧
    s.last = none ∧ s.dead = []
  beg0 : ∀ b e, s.cur = some (b, e) → base ≤ b ∧ b < e ∧ e + 2 ≤ base + 4 * k
  begD : ∀ b e, s.cur = some (b, e) → ∀ i, i < k → (∀ j, i < j → j < k → ¬ DefAt insts v j) →
    b ≤ base + 4 * i + 1
  begN : ∀ b e, s.cur = some (b, e) → (∀ j, j < k → ¬ DefAt insts v j) → b = base
  doneB : ∀ t ∈ s.done, base ≤ t.1 ∧ t.1 < t.2 ∧ ∀ b e, s.cur = some (b, e) → t.1 ≤ b
  sorted : s.done.Pairwise (fun s t => s.1 ≤ t.1)
  last_ : ∀ i, s.last = some i → i < k ∧ ∀ j, i < j → j < k → ¬ UseAt insts v j
  dead_ : ∀ i ∈ s.dead, i < k ∧ (DefAt insts v i ∨ ∃ k', i < k' ∧ k' < k ∧ DefAt insts v k' ∧
    ∀ j, i < j → j ≤ k' → ¬ UseAt insts v j)

theorem rinv_init (insts : List Inst) (v base : Nat) : RInv insts v base 0 {} where
  none_ := fun _ => ⟨fun j hj => by omega, rfl, rfl, rfl⟩
  beg0 := fun b e h => by cases h
  begD := fun b e h => by cases h
  begN := fun b e h => by cases h
  doneB := fun t ht => by cases ht
  sorted := List.Pairwise.nil
  last_ := fun i h => by cases h
  dead_ := fun i h => by cases h

/-- What is known in the middle of instruction `k`: its uses were processed and, if `d`, at least one of
    its definitions. -/
structure MInv (insts : List Inst) (v base k : Nat) (d : Prop) (s : RegSt) : Prop where
  none_ : s.cur = none → (∀ j, j < k → ¬ UseAt insts v j ∧ ¬ DefAt insts v j) ∧ s.done = [] ∧
    s.last = none ∧ s.dead = [] ∧ ¬ UseAt insts v k ∧ ¬ d
  beg0 : ∀ b e, s.cur = some (b, e) → base ≤ b ∧ b < e ∧ e ≤ base + 4 * k + 2
  used : UseAt insts v k → ∃ b e, s.cur = some (b, e) ∧ base + 4 * k + 1 ≤ e
  usedN : ¬ d → (∀ b e, s.cur = some (b, e) → (e = base + 4 * k + 1 ↔ UseAt insts v k) ∧
    e ≤ base + 4 * k + 1)
  begK : ∀ b e, s.cur = some (b, e) → b ≤ base + 4 * k + 1
  begD : ¬ d → ∀ b e, s.cur = some (b, e) → ∀ i, i < k → (∀ j, i < j → j < k → ¬ DefAt insts v j) →
    b ≤ base + 4 * i + 1
  begN : ¬ d → ∀ b e, s.cur = some (b, e) → (∀ j, j < k → ¬ DefAt insts v j) → b = base
  defd : d → ∃ b e, s.cur = some (b, e) ∧ e = base + 4 * k + 2
  doneB : ∀ t ∈ s.done, base ≤ t.1 ∧ t.1 < t.2 ∧ ∀ b e, s.cur = some (b, e) → t.1 ≤ b
  sorted : s.done.Pairwise (fun s t => s.1 ≤ t.1)
  last_ : ∀ i, s.last = some i → i = k ∨ (i < k ∧ ∀ j, i < j → j ≤ k → ¬ UseAt insts v j)
  lastN : UseAt insts v k → ¬ d → s.last = some k
  dead_ : ∀ i ∈ s.dead, (i < k ∨ (i = k ∧ d)) ∧ (DefAt insts v i ∨ ∃ k', i < k' ∧ k' ≤ k ∧
    DefAt insts v k' ∧ ∀ j, i < j → j ≤ k' → ¬ UseAt insts v j)

theorem minv_use {insts : List Inst} {v base k : Nat} {s : RegSt} (h : RInv insts v base k s)
    {inst : Inst} (hi : insts[k]? = some inst) :
    MInv insts v base k False
      (if Reg.vr v ∈ inst.uses then useSt base (base + 4 * k) k s else s) := by
  have huse : UseAt insts v k ↔ Reg.vr v ∈ inst.uses := by
    unfold UseAt; rw [hi]; simp
  have hdead : ∀ i ∈ s.dead, (i < k ∨ (i = k ∧ False)) ∧ (DefAt insts v i ∨ ∃ k', i < k' ∧ k' ≤ k ∧
      DefAt insts v k' ∧ ∀ j, i < j → j ≤ k' → ¬ UseAt insts v j) := by
    intro i hi'
    obtain ⟨h1, h2⟩ := h.dead_ i hi'
    refine ⟨Or.inl h1, ?_⟩
    rcases h2 with h2 | ⟨k', a, b, c⟩
    · exact Or.inl h2
    · exact Or.inr ⟨k', a, by omega, c⟩
  split
  · rename_i hu
    have hcur : ∃ b, (useSt base (base + 4 * k) k s).cur = some (b, base + 4 * k + 1) ∧
        (s.cur = none ∧ b = base ∨ ∃ e, s.cur = some (b, e)) := by
      unfold useSt
      cases hc : s.cur with
      | none => exact ⟨base, rfl, Or.inl ⟨rfl, rfl⟩⟩
      | some p => exact ⟨p.1, rfl, Or.inr ⟨p.2, rfl⟩⟩
    obtain ⟨b₀, hb₀, hb₁⟩ := hcur
    have hB : base ≤ b₀ ∧ b₀ ≤ base + 4 * k := by
      rcases hb₁ with ⟨-, rfl⟩ | ⟨e, he⟩
      · omega
      · have := h.beg0 _ _ he; omega
    have hcase : ∀ b e, (useSt base (base + 4 * k) k s).cur = some (b, e) → b = b₀ ∧ e = base + 4 * k + 1 := by
      intro b e hbe
      rw [hb₀] at hbe
      simp only [Option.some.injEq, Prod.mk.injEq] at hbe
      exact ⟨hbe.1.symm, hbe.2.symm⟩
    refine ⟨?_, ?_, ?_, ?_, ?_, ?_, ?_, ?_, ?_, h.sorted, ?_, ?_, hdead⟩
    · intro hn; rw [hb₀] at hn; cases hn
    · intro b e hbe; obtain ⟨rfl, rfl⟩ := hcase b e hbe; omega
    · intro _; exact ⟨b₀, _, hb₀, by omega⟩
    · intro _ b e hbe; obtain ⟨rfl, rfl⟩ := hcase b e hbe
      exact ⟨by simp [huse, hu], by omega⟩
    · intro b e hbe; obtain ⟨rfl, rfl⟩ := hcase b e hbe; omega
    · intro _ b e hbe i hik hnd
      obtain ⟨rfl, rfl⟩ := hcase b e hbe
      rcases hb₁ with ⟨-, rfl⟩ | ⟨e, he⟩
      · omega
      · exact h.begD _ _ he i hik hnd
    · intro _ b e hbe hnd
      obtain ⟨rfl, rfl⟩ := hcase b e hbe
      rcases hb₁ with ⟨-, h'⟩ | ⟨e, he⟩
      · exact h'
      · exact h.begN _ _ he hnd
    · intro hd; exact hd.elim
    · intro t ht
      obtain ⟨d1, d2, d3⟩ := h.doneB t ht
      refine ⟨d1, d2, ?_⟩
      intro b e hbe
      obtain ⟨rfl, rfl⟩ := hcase b e hbe
      rcases hb₁ with ⟨hn, -⟩ | ⟨e, he⟩
      · have := (h.none_ hn).2.1; unfold useSt at ht; simp only at ht; rw [this] at ht; cases ht
      · exact d3 _ _ he
    · intro i hl; unfold useSt at hl; simp only [Option.some.injEq] at hl; exact Or.inl hl.symm
    · intro _ _; rfl
  · rename_i hu
    have hnu : ¬ UseAt insts v k := fun h => hu (huse.1 h)
    refine ⟨?_, ?_, ?_, ?_, ?_, ?_, ?_, ?_, h.doneB, h.sorted, ?_, ?_, hdead⟩
    · intro hn; obtain ⟨a, b, c, d⟩ := h.none_ hn
      exact ⟨a, b, c, d, hnu, not_false⟩
    · intro b e hbe; have := h.beg0 b e hbe; omega
    · intro hu'; exact absurd hu' hnu
    · intro _ b e hbe
      have := h.beg0 b e hbe
      exact ⟨⟨fun he => by omega, fun hh => absurd hh hnu⟩, by omega⟩
    · intro b e hbe; have := h.beg0 b e hbe; omega
    · intro _; exact h.begD
    · intro _; exact h.begN
    · intro hd; exact hd.elim
    · intro i hl
      obtain ⟨a, b⟩ := h.last_ i hl
      refine Or.inr ⟨a, ?_⟩
      intro j h1 h2
      by_cases hj : j = k
      · subst hj; exact hnu
      · exact b j h1 (by omega)
    · intro hu'; exact absurd hu' hnu

theorem minv_def {insts : List Inst} {v base k : Nat} {s : RegSt} {d : Prop} [Decidable d]
    (h : MInv insts v base k d s) (hd : DefAt insts v k) :
    MInv insts v base k True (defSt (base + 4 * k) s) := by
  have keepDead : ∀ i ∈ s.dead, (i < k ∨ (i = k ∧ True)) ∧ (DefAt insts v i ∨ ∃ k', i < k' ∧ k' ≤ k ∧
      DefAt insts v k' ∧ ∀ j, i < j → j ≤ k' → ¬ UseAt insts v j) := by
    intro i hi
    obtain ⟨h1, h2⟩ := h.dead_ i hi
    exact ⟨by rcases h1 with h1 | h1 <;> [exact Or.inl h1; exact Or.inr ⟨h1.1, trivial⟩], h2⟩
  unfold defSt
  cases hc : s.cur with
  | none =>
    obtain ⟨n1, n2, n3, n4, n5, n6⟩ := h.none_ hc
    simp only
    refine ⟨(by intro hn; cases hn), ?_, ?_, ?_, ?_, ?_, ?_, ?_, ?_, ?_, ?_, ?_, keepDead⟩
    · intro b e hbe; simp at hbe; omega
    · intro hu; exact absurd hu n5
    · intro hh; exact absurd trivial hh
    · intro b e hbe; simp at hbe; omega
    · intro hh; exact absurd trivial hh
    · intro hh; exact absurd trivial hh
    · intro _; exact ⟨_, _, rfl, rfl⟩
    · intro t ht; simp only [n2] at ht; cases ht
    · exact h.sorted
    · exact h.last_
    · intro hu; exact absurd hu n5
  | some p =>
    obtain ⟨b₀, e₀⟩ := p
    have hb0 := h.beg0 b₀ e₀ hc
    simp only
    split
    · -- the instruction also reads `v`
      rename_i he
      refine ⟨(by intro hn; cases hn), ?_, ?_, ?_, ?_, ?_, ?_, ?_, ?_, h.sorted, h.last_, ?_, keepDead⟩
      · intro b e hbe; simp at hbe; omega
      · intro hu; exact ⟨_, _, rfl, by omega⟩
      · intro hh; exact absurd trivial hh
      · intro b e hbe; simp at hbe; have := h.begK b₀ e₀ hc; omega
      · intro hh; exact absurd trivial hh
      · intro hh; exact absurd trivial hh
      · intro _; exact ⟨_, _, rfl, rfl⟩
      · intro t ht
        obtain ⟨d1, d2, d3⟩ := h.doneB t ht
        refine ⟨d1, d2, ?_⟩
        intro b e hbe
        simp at hbe
        have := d3 b₀ e₀ hc
        omega
      · intro _ hh; exact absurd trivial hh
    · rename_i he
      have hbk := h.begK b₀ e₀ hc
      refine ⟨(by intro hn; cases hn), ?_, ?_, ?_, ?_, ?_, ?_, ?_, ?_, ?_, ?_, ?_, ?_⟩
      · intro b e hbe; simp at hbe; omega
      · intro hu; exact ⟨_, _, rfl, by omega⟩
      · intro hh; exact absurd trivial hh
      · intro b e hbe; simp at hbe; omega
      · intro hh; exact absurd trivial hh
      · intro hh; exact absurd trivial hh
      · intro _; exact ⟨_, _, rfl, rfl⟩
      · intro t ht
        simp only [List.mem_append, List.mem_singleton] at ht
        rcases ht with ht | rfl
        · obtain ⟨d1, d2, d3⟩ := h.doneB t ht
          refine ⟨d1, d2, ?_⟩
          intro b e hbe
          simp at hbe
          have := d3 b₀ e₀ hc
          omega
        · refine ⟨hb0.1, hb0.2.1, ?_⟩
          intro b e hbe
          simp at hbe
          simp only
          omega
      · simp only
        rw [List.pairwise_append]
        refine ⟨h.sorted, by simp, ?_⟩
        intro a ha b hb
        simp at hb
        subst hb
        exact (h.doneB a ha).2.2 b₀ e₀ hc
      · intro i hl; cases hl
      · intro _ hh; exact absurd trivial hh
      · intro i hi
        simp only [List.mem_append, Option.mem_toList, Option.mem_def] at hi
        rcases hi with hi | hi
        · exact keepDead i hi
        · rcases h.last_ i hi with rfl | ⟨h1, h2⟩
          · exact ⟨Or.inr ⟨rfl, trivial⟩, Or.inl hd⟩
          · exact ⟨Or.inl h1, Or.inr ⟨k, h1, le_refl _, hd, h2⟩⟩

theorem minv_iter {insts : List Inst} {v base k : Nat} (hd : DefAt insts v k) :
    ∀ (n : Nat) (s : RegSt), MInv insts v base k True s →
      MInv insts v base k True ((defSt (base + 4 * k))^[n] s) := by
  intro n
  induction n with
  | zero => intro s h; exact h
  | succ n ih => intro s h; rw [Function.iterate_succ_apply]; exact ih _ (minv_def h hd)

theorem rinv_of_minv_def {insts : List Inst} {v base k : Nat} {s : RegSt}
    (h : MInv insts v base k True s) (hd : DefAt insts v k) : RInv insts v base (k + 1) s := by
  obtain ⟨b₀, e₀, hc, he⟩ := h.defd trivial
  refine ⟨?_, ?_, ?_, ?_, h.doneB, h.sorted, ?_, ?_⟩
  · intro hn; rw [hc] at hn; cases hn
  · intro b e hbe; have := h.beg0 b e hbe; omega
  · intro b e hbe i hik hnd
    have := h.begK b e hbe
    by_cases hi : i = k
    · subst hi; exact this
    · exact absurd hd (hnd k (by omega) (by omega))
  · intro b e hbe hnd; exact absurd hd (hnd k (by omega))
  · intro i hl
    rcases h.last_ i hl with rfl | ⟨h1, h2⟩
    · exact ⟨by omega, fun j h1 h2 => by omega⟩
    · exact ⟨by omega, fun j h3 h4 => h2 j h3 (by omega)⟩
  · intro i hi
    obtain ⟨h1, h2⟩ := h.dead_ i hi
    refine ⟨by rcases h1 with h1 | h1 <;> omega, ?_⟩
    rcases h2 with h2 | ⟨k', a, b, c⟩
    · exact Or.inl h2
    · exact Or.inr ⟨k', a, by omega, c⟩

theorem rinv_of_minv {insts : List Inst} {v base k : Nat} {s : RegSt}
    (h : MInv insts v base k False s) (hd : ¬ DefAt insts v k) : RInv insts v base (k + 1) s := by
  refine ⟨?_, ?_, ?_, ?_, h.doneB, h.sorted, ?_, ?_⟩
  · intro hn
    obtain ⟨n1, n2, n3, n4, n5, n6⟩ := h.none_ hn
    refine ⟨?_, n2, n3, n4⟩
    intro j hj
    by_cases hjk : j = k
    · subst hjk; exact ⟨n5, hd⟩
    · exact n1 j (by omega)
  · intro b e hbe; have := h.beg0 b e hbe; omega
  · intro b e hbe i hik hnd
    by_cases hi : i = k
    · subst hi; exact h.begK b e hbe
    · exact h.begD not_false b e hbe i (by omega) (fun j h1 h2 => hnd j h1 (by omega))
  · intro b e hbe hnd; exact h.begN not_false b e hbe (fun j hj => hnd j (by omega))
  · intro i hl
    rcases h.last_ i hl with rfl | ⟨h1, h2⟩
    · exact ⟨by omega, fun j h1 h2 => by omega⟩
    · exact ⟨by omega, fun j h3 h4 => h2 j h3 (by omega)⟩
  · intro i hi
    obtain ⟨h1, h2⟩ := h.dead_ i hi
    refine ⟨by rcases h1 with h1 | h1 <;> omega, ?_⟩
    rcases h2 with h2 | ⟨k', a, b, c⟩
    · exact Or.inl h2
    · exact Or.inr ⟨k', a, by omega, c⟩

/-- Nothing built so far is lost or shortened. -/
def Grows (s s' : RegSt) : Prop :=
  ∀ t ∈ s.done ++ s.cur.toList, ∃ t' ∈ s'.done ++ s'.cur.toList, t'.1 ≤ t.1 ∧ t.2 ≤ t'.2

theorem grows_refl (s : RegSt) : Grows s s := fun t ht => ⟨t, ht, le_refl _, le_refl _⟩

theorem grows_trans {a b c : RegSt} (h : Grows a b) (h' : Grows b c) : Grows a c := by
  intro t ht
  obtain ⟨t', h1, h2, h3⟩ := h t ht
  obtain ⟨t'', h4, h5, h6⟩ := h' t' h1
  exact ⟨t'', h4, by omega, by omega⟩

theorem grows_use {first n i : Nat} {s : RegSt} (h : ∀ b e, s.cur = some (b, e) → e ≤ n + 1) :
    Grows s (useSt first n i s) := by
  intro t ht
  simp only [List.mem_append, Option.mem_toList, Option.mem_def] at ht
  rcases ht with ht | ht
  · exact ⟨t, by simp [useSt, ht], le_refl _, le_refl _⟩
  · have := h t.1 t.2 ht
    refine ⟨(t.1, n + 1), by simp [useSt, ht], le_refl _, this⟩

theorem grows_def {n : Nat} {s : RegSt} : Grows s (defSt n s) := by
  intro t ht
  simp only [List.mem_append, Option.mem_toList, Option.mem_def] at ht
  unfold defSt
  rcases ht with ht | ht
  · cases hc : s.cur with
    | none => exact ⟨t, by simp [ht], le_refl _, le_refl _⟩
    | some p =>
      simp only
      split
      · exact ⟨t, by simp [ht], le_refl _, le_refl _⟩
      · exact ⟨t, by simp [ht], le_refl _, le_refl _⟩
  · rw [ht]
    simp only
    split
    · exact ⟨(t.1, n + 2), by simp, le_refl _, by simp only; omega⟩
    · exact ⟨t, by simp, le_refl _, le_refl _⟩

theorem grows_iter {n : Nat} : ∀ (m : Nat) (s : RegSt), Grows s ((defSt n)^[m] s) := by
  intro m
  induction m with
  | zero => intro s; exact grows_refl s
  | succ m ih =>
    intro s
    rw [Function.iterate_succ_apply]
    exact grows_trans grows_def (ih _)

/-- The invariant holds throughout the block. -/
theorem rinv_block (v base : Nat) (insts : List Inst) : ∀ k, k ≤ insts.length →
    RInv insts v base k (blockSt v base insts k) := by
  intro k
  induction k with
  | zero => intro _; exact rinv_init insts v base
  | succ k ih =>
    intro hk
    have hlt : k < insts.length := by omega
    have hi := List.getElem?_eq_getElem hlt
    unfold blockSt
    rw [hi]
    simp only
    unfold instSt
    have hm := minv_use (ih (by omega)) hi
    have hdef : DefAt insts v k ↔ Reg.vr v ∈ insts[k].defs := by
      unfold DefAt; rw [hi]; simp
    by_cases hd : DefAt insts v k
    · have hpos : 0 < insts[k].defs.count (Reg.vr v) := List.count_pos_iff.2 (hdef.1 hd)
      obtain ⟨n, hn⟩ : ∃ n, insts[k].defs.count (Reg.vr v) = n + 1 := ⟨_, (Nat.succ_pred_eq_of_pos hpos).symm⟩
      rw [hn, Function.iterate_succ_apply]
      exact rinv_of_minv_def (minv_iter hd n _ (minv_def hm hd)) hd
    · have h0 : insts[k].defs.count (Reg.vr v) = 0 := List.count_eq_zero.2 (fun h => hd (hdef.2 h))
      rw [h0]
      exact rinv_of_minv hm hd

theorem grows_step (v base : Nat) (insts : List Inst) (k : Nat) (hk : k ≤ insts.length) :
    Grows (blockSt v base insts k) (blockSt v base insts (k + 1)) := by
  have h := rinv_block v base insts k hk
  conv => rhs; unfold blockSt
  split
  · rename_i inst hi
    unfold instSt
    refine grows_trans ?_ (grows_iter _ _)
    split
    · apply grows_use
      intro b e hbe
      have := h.beg0 b e hbe
      omega
    · exact grows_refl _
  · exact grows_refl _

theorem grows_le (v base : Nat) (insts : List Inst) (k : Nat) : ∀ d, k + d ≤ insts.length →
    Grows (blockSt v base insts k) (blockSt v base insts (k + d)) := by
  intro d
  induction d with
  | zero => intro _; exact grows_refl _
  | succ d ih =>
    intro h
    exact grows_trans (ih (by omega)) (grows_step v base insts (k + d) (by omega))

/-- After a use: the segment being built reaches the use. -/
theorem after_use {v base : Nat} {insts : List Inst} {k : Nat} (hu : UseAt insts v k) :
    ∃ b e, (∃ t ∈ (blockSt v base insts (k + 1)).done ++ (blockSt v base insts (k + 1)).cur.toList,
        t.1 ≤ b ∧ e ≤ t.2) ∧ base + 4 * k + 1 ≤ e ∧
      (∀ i, i < k → (∀ j, i < j → j < k → ¬ DefAt insts v j) → b ≤ base + 4 * i + 1) ∧
      ((∀ j, j < k → ¬ DefAt insts v j) → b = base) := by
  obtain ⟨inst, hi, hu'⟩ := hu
  have hlt := (List.getElem?_eq_some_iff.1 hi).1
  have hm := minv_use (rinv_block v base insts k (by omega)) hi
  obtain ⟨b, e, hbe, he⟩ := hm.used ⟨inst, hi, hu'⟩
  refine ⟨b, e, ?_, he, hm.begD not_false b e hbe, hm.begN not_false b e hbe⟩
  have hg := grows_iter (n := base + 4 * k) (inst.defs.count (.vr v))
    (if Reg.vr v ∈ inst.uses then useSt base (base + 4 * k) k (blockSt v base insts k)
      else blockSt v base insts k)
  have heq : blockSt v base insts (k + 1) = instSt v base (base + 4 * k) k inst (blockSt v base insts k) := by
    conv => lhs; unfold blockSt
    rw [hi]
  rw [heq]
  obtain ⟨t, ht, h1, h2⟩ := hg (b, e) (by simp [hbe])
  exact ⟨t, ht, h1, h2⟩

theorem after_def {v base : Nat} {insts : List Inst} {k : Nat} (hd : DefAt insts v k) :
    ∃ b e, (blockSt v base insts (k + 1)).cur = some (b, e) ∧ b ≤ base + 4 * k + 1 ∧
      base + 4 * k + 2 ≤ e := by
  obtain ⟨inst, hi, hd'⟩ := hd
  have hlt := (List.getElem?_eq_some_iff.1 hi).1
  have hm := minv_use (rinv_block v base insts k (by omega)) hi
  have heq : blockSt v base insts (k + 1) = instSt v base (base + 4 * k) k inst (blockSt v base insts k) := by
    conv => lhs; unfold blockSt
    rw [hi]
  have hpos : 0 < inst.defs.count (Reg.vr v) := List.count_pos_iff.2 hd'
  obtain ⟨n, hn⟩ : ∃ n, inst.defs.count (Reg.vr v) = n + 1 := ⟨_, (Nat.succ_pred_eq_of_pos hpos).symm⟩
  rw [heq, instSt, hn, Function.iterate_succ_apply]
  have := minv_iter ⟨inst, hi, hd'⟩ n _ (minv_def hm ⟨inst, hi, hd'⟩)
  obtain ⟨b, e, h1, h2⟩ := this.defd trivial
  exact ⟨b, e, h1, this.begK b e h1, by omega⟩

theorem segs_of_final {base len : Nat} {isIn isOut : Bool} {s : RegSt} {insts : List Inst} {v : Nat}
    (h : RInv insts v base len s) (hlen : 0 < len)
    {t : Seg} (ht : t ∈ s.done ++ s.cur.toList) :
    ∃ t' ∈ blockSegs base len isIn isOut s, t'.1 ≤ t.1 ∧ t.2 ≤ t'.2 := by
  unfold blockSegs
  cases hc : s.cur with
  | none =>
    rw [hc] at ht
    simp at ht
    exact ⟨t, by simp [ht], le_refl _, le_refl _⟩
  | some p =>
    obtain ⟨b, e⟩ := p
    rw [hc] at ht
    simp at ht
    rcases ht with ht | rfl
    · exact ⟨t, by simp [ht], le_refl _, le_refl _⟩
    · refine ⟨_, List.mem_append_right _ (List.mem_singleton.2 rfl), le_refl _, ?_⟩
      simp only
      have := h.beg0 b e hc
      split <;> omega

/-- A block's segments cover every point where the register is live in it or has just been written. -/
theorem block_covers {v base : Nat} {insts : List Inst} {isIn isOut : Bool}
    (hin : isOut = true → (∀ j, ¬ DefAt insts v j) → isIn = true) {i : Nat} (hi : i < insts.length) :
    (((∃ j, i ≤ j ∧ UseAt insts v j ∧ ∀ k, i ≤ k → k < j → ¬ DefAt insts v k) ∨
      (isOut = true ∧ ∀ k, i ≤ k → ¬ DefAt insts v k)) →
      Covers (blockSegs base insts.length isIn isOut (blockSt v base insts insts.length)) (base + 4 * i)) ∧
    ((DefAt insts v i ∨ (∃ j, i < j ∧ UseAt insts v j ∧ ∀ k, i < k → k < j → ¬ DefAt insts v k) ∨
      (isOut = true ∧ ∀ k, i < k → ¬ DefAt insts v k)) →
      Covers (blockSegs base insts.length isIn isOut (blockSt v base insts insts.length))
        (base + 4 * i + 1)) := by
  have hR := rinv_block v base insts insts.length (le_refl _)
  have hpos : 0 < insts.length := by omega
  -- a use reaches back to the definition before it
  have useCov : ∀ j, UseAt insts v j → ∀ x, x < base + 4 * j + 1 →
      ((∃ i', i' < j ∧ (∀ k, i' < k → k < j → ¬ DefAt insts v k) ∧ base + 4 * i' + 1 ≤ x) ∨
        ((∀ k, k < j → ¬ DefAt insts v k) ∧ base ≤ x)) →
      Covers (blockSegs base insts.length isIn isOut (blockSt v base insts insts.length)) x := by
    intro j hj x hx hb
    have hjl : j < insts.length := by
      obtain ⟨_, h, _⟩ := hj; exact (List.getElem?_eq_some_iff.1 h).1
    obtain ⟨b, e, ⟨t, ht, ht1, ht2⟩, he, h1, h2⟩ := after_use (base := base) hj
    obtain ⟨t', ht', h3, h4⟩ := grows_le v base insts (j + 1) (insts.length - (j + 1)) (by omega) t ht
    rw [show j + 1 + (insts.length - (j + 1)) = insts.length by omega] at ht'
    obtain ⟨t'', ht'', h5, h6⟩ := segs_of_final (isIn := isIn) (isOut := isOut) hR hpos ht'
    refine ⟨t'', ht'', ?_, by omega⟩
    rcases hb with ⟨i', hi', hn, hx'⟩ | ⟨hn, hx'⟩
    · have := h1 i' hi' hn; omega
    · have := h2 hn; omega
  -- a register live out of the block reaches from its last definition to the end
  have outCov : isOut = true → ∀ x, x < base + 4 * (insts.length - 1) + 2 →
      ((∃ i', i' < insts.length ∧ (∀ k, i' < k → ¬ DefAt insts v k) ∧ base + 4 * i' + 1 ≤ x) ∨
        ((∀ k, ¬ DefAt insts v k) ∧ base ≤ x)) →
      Covers (blockSegs base insts.length isIn isOut (blockSt v base insts insts.length)) x := by
    intro ho x hx hb
    unfold blockSegs
    cases hc : (blockSt v base insts insts.length).cur with
    | none =>
      obtain ⟨hno, -⟩ := hR.none_ hc
      have hnd : ∀ j, ¬ DefAt insts v j := by
        intro j hj
        have hjl : j < insts.length := by
          obtain ⟨_, h, _⟩ := hj; exact (List.getElem?_eq_some_iff.1 h).1
        exact (hno j hjl).2 hj
      simp only [ho, hin ho hnd, Bool.and_self, if_true]
      refine covers_append.2 (Or.inr ⟨_, List.mem_singleton.2 rfl, ?_, by simpa using hx⟩)
      simp only
      rcases hb with ⟨_, _, _, h⟩ | ⟨_, h⟩ <;> omega
    | some p =>
      obtain ⟨b, e⟩ := p
      simp only [ho, if_true]
      refine covers_append.2 (Or.inr ⟨_, List.mem_singleton.2 rfl, ?_, by simpa using hx⟩)
      simp only
      rcases hb with ⟨i', hi', hn, hx'⟩ | ⟨hn, hx'⟩
      · have := hR.begD b e hc i' hi' (fun j h1 h2 => hn j h1); omega
      · have := hR.begN b e hc (fun j _ => hn j); omega
  refine ⟨?_, ?_⟩
  · rintro (⟨j, hij, hu, hn⟩ | ⟨ho, hn⟩)
    · apply useCov j hu _ (by omega)
      by_cases h0 : i = 0
      · subst h0; exact Or.inr ⟨fun k hk => hn k (by omega) hk, by omega⟩
      · exact Or.inl ⟨i - 1, by omega, fun k h1 h2 => hn k (by omega) h2, by omega⟩
    · apply outCov ho _ (by omega)
      by_cases h0 : i = 0
      · subst h0; exact Or.inr ⟨fun k => hn k (by omega), by omega⟩
      · exact Or.inl ⟨i - 1, by omega, fun k h1 => hn k (by omega), by omega⟩
  · rintro (hd | ⟨j, hij, hu, hn⟩ | ⟨ho, hn⟩)
    · obtain ⟨b, e, hc, hb, he⟩ := after_def (base := base) hd
      obtain ⟨t', ht', h3, h4⟩ := grows_le v base insts (i + 1) (insts.length - (i + 1)) (by omega) (b, e)
        (by simp [hc])
      rw [show i + 1 + (insts.length - (i + 1)) = insts.length by omega] at ht'
      obtain ⟨t'', ht'', h5, h6⟩ := segs_of_final (isIn := isIn) (isOut := isOut) hR hpos ht'
      exact ⟨t'', ht'', by simp only at h3; omega, by simp only at h4; omega⟩
    · exact useCov j hu _ (by omega) (Or.inl ⟨i, hij, hn, by omega⟩)
    · exact outCov ho _ (by omega) (Or.inl ⟨i, hi, hn, by omega⟩)

/-- A block's segments are in order, not empty, and inside the block. -/
theorem block_sorted {v base : Nat} {insts : List Inst} {isIn isOut : Bool} (hl : 0 < insts.length) :
    (blockSegs base insts.length isIn isOut (blockSt v base insts insts.length)).Pairwise
      (fun s t => s.1 ≤ t.1) ∧
    ∀ s ∈ blockSegs base insts.length isIn isOut (blockSt v base insts insts.length),
      base ≤ s.1 ∧ s.1 < s.2 ∧ s.1 < base + 4 * insts.length := by
  have hR := rinv_block v base insts insts.length (le_refl _)
  unfold blockSegs
  cases hc : (blockSt v base insts insts.length).cur with
  | none =>
    obtain ⟨-, hd, -⟩ := hR.none_ hc
    simp only [hd, List.nil_append]
    split
    · refine ⟨by simp, ?_⟩
      intro s hs
      simp at hs
      subst hs
      simp only; omega
    · simp
  | some p =>
    obtain ⟨b, e⟩ := p
    have hb := hR.beg0 b e hc
    simp only
    refine ⟨?_, ?_⟩
    · rw [List.pairwise_append]
      refine ⟨hR.sorted, by simp, ?_⟩
      intro s hs t ht
      simp at ht
      subst ht
      exact (hR.doneB s hs).2.2 b e hc
    · intro s hs
      simp only [List.mem_append, List.mem_singleton] at hs
      rcases hs with hs | rfl
      · obtain ⟨d1, d2, d3⟩ := hR.doneB s hs
        have := d3 b e hc
        omega
      · simp only
        split <;> omega

/-- A read marked dead is the last one of its value. -/
theorem block_dead {v base : Nat} {insts : List Inst} {isOut : Bool} {i : Nat}
    (h : i ∈ blockDead isOut (blockSt v base insts insts.length)) :
    DefAt insts v i ∨
      (¬ (∃ j, i < j ∧ UseAt insts v j ∧ ∀ k, i < k → k < j → ¬ DefAt insts v k) ∧
       (isOut = true → ∃ k, i < k ∧ DefAt insts v k)) := by
  have hR := rinv_block v base insts insts.length (le_refl _)
  unfold blockDead at h
  rw [List.mem_append] at h
  rcases h with h | h
  · obtain ⟨-, h2⟩ := hR.dead_ i h
    rcases h2 with h2 | ⟨k', a, b, c, d⟩
    · exact Or.inl h2
    · refine Or.inr ⟨?_, fun _ => ⟨k', a, c⟩⟩
      rintro ⟨j, h1, h2, h3⟩
      by_cases hj : j ≤ k'
      · exact d j h1 hj h2
      · exact h3 k' a (by omega) c
  · cases ho : isOut with
    | true => simp [ho] at h
    | false =>
      simp [ho] at h
      obtain ⟨h1, h2⟩ := hR.last_ i h
      refine Or.inr ⟨?_, by intro hh; cases hh⟩
      rintro ⟨j, h3, h4, -⟩
      have hjl : j < insts.length := by
        obtain ⟨_, h, _⟩ := h4; exact (List.getElem?_eq_some_iff.1 h).1
      exact h2 j h3 hjl h4

/-! ## The whole function -/

theorem baseNum_succ {f : Func} {b : Nat} {B : Block} (hB : f[b]? = some B) :
    baseNum f (b + 1) = baseNum f b + 4 * B.insts.length := by
  unfold baseNum
  have hlt := (List.getElem?_eq_some_iff.1 hB).1
  rw [List.take_succ, hB]
  simp only [Option.toList_some, List.map_append, List.map_cons, List.map_nil, List.sum_append,
    List.sum_cons, List.sum_nil]
  omega

theorem baseNum_mono (f : Func) (b : Nat) : ∀ d, baseNum f b ≤ baseNum f (b + d) := by
  intro d
  induction d with
  | zero => exact le_refl _
  | succ d ih =>
    cases hB : f[b + d]? with
    | some B => have := baseNum_succ hB; rw [← Nat.add_assoc]; omega
    | none =>
      have : baseNum f (b + (d + 1)) = baseNum f (b + d) := by
        unfold baseNum
        rw [← Nat.add_assoc, List.take_succ, hB]; simp
      omega

theorem segsOf_bounds {f : Func} (hf : f.Wf) {v b : Nat} :
    (segsOf f v b).Pairwise (fun s t => s.1 ≤ t.1) ∧
    ∀ s ∈ segsOf f v b, baseNum f b ≤ s.1 ∧ s.1 < s.2 ∧ s.1 < baseNum f (b + 1) := by
  unfold segsOf
  cases hB : f[b]? with
  | none => simp
  | some B =>
    simp only
    rw [baseNum_succ hB]
    exact block_sorted (List.length_pos_iff.2 (hf.1 B (List.mem_of_getElem? hB)))

theorem allSegs_sorted {f : Func} (hf : f.Wf) (v : Nat) : ∀ n,
    ((List.range n).flatMap (segsOf f v)).Pairwise (fun s t => s.1 ≤ t.1) ∧
    ∀ s ∈ (List.range n).flatMap (segsOf f v), s.1 < s.2 ∧ s.1 < baseNum f n := by
  intro n
  induction n with
  | zero => simp
  | succ n ih =>
    rw [List.range_succ, List.flatMap_append]
    obtain ⟨i1, i2⟩ := ih
    obtain ⟨j1, j2⟩ := segsOf_bounds hf (v := v) (b := n)
    have hm := baseNum_mono f n 1
    simp only [List.flatMap_cons, List.flatMap_nil, List.append_nil]
    refine ⟨?_, ?_⟩
    · rw [List.pairwise_append]
      refine ⟨i1, j1, ?_⟩
      intro s hs t ht
      have := i2 s hs; have := j2 t ht; omega
    · intro s hs
      rw [List.mem_append] at hs
      rcases hs with hs | hs
      · have := i2 s hs; omega
      · have := j2 s hs; omega

/-- LiveInterval.cpp:194-197: the intervals are in the form `intersectWith` needs. -/
theorem interval_sep {f : Func} (hf : f.Wf) (v : Nat) : Sep (interval f v) :=
  optimize_sep (allSegs_sorted hf v f.length).1 (fun s hs => ((allSegs_sorted hf v f.length).2 s hs).1)

theorem interval_covers {f : Func} (hf : f.Wf) {v b : Nat} (hb : b < f.length) {x : Nat}
    (h : Covers (segsOf f v b) x) : Covers (interval f v) x := by
  unfold interval
  rw [optimize_covers (allSegs_sorted hf v f.length).1]
  obtain ⟨s, hs, h'⟩ := h
  exact ⟨s, List.mem_flatMap.2 ⟨b, by simpa using hb, hs⟩, h'⟩

theorem useAt_iff {B : Block} {v j : Nat} {inst : Inst} (h : B.insts[j]? = some inst) :
    UseAt B.insts v j ↔ Reg.vr v ∈ inst.uses := by unfold UseAt; rw [h]; simp

theorem out_in {f : Func} (hf : f.Wf) (hh : f.NoHidden) {b : Nat} {B : Block} (hB : f[b]? = some B)
    {v : Nat} (ho : v ∈ outs f b) (hn : ∀ j, ¬ DefAt B.insts v j) : v ∈ ins f b := by
  rw [mem_ins_iff hf hh]
  obtain ⟨b', h1, h2⟩ := (mem_outs_iff hf hh b v).1 ho
  have hpos : 0 < B.insts.length := List.length_pos_iff.2 (hf.1 B (List.mem_of_getElem? hB))
  exact liveAt_of_out hB h1 h2 (B.insts.length - 1) 0 (by omega)
    (fun k ik _ hk hd => hn k ⟨ik, hk, hd⟩)

/-- **Intervals cover liveness**: a register's interval contains the number of every instruction before
    which it is live. -/
theorem interval_before {f : Func} (hf : f.Wf) (hh : f.NoHidden) {v b i : Nat} (h : LiveAt f v b i) :
    Covers (interval f v) (instNum f b i) := by
  obtain ⟨B, hB, hi, hc⟩ := liveAt_local h
  apply interval_covers hf (List.getElem?_eq_some_iff.1 hB).1
  unfold segsOf instNum
  rw [hB]
  refine (block_covers ?_ hi).1 ?_
  · intro ho hn
    simp only [decide_eq_true_eq] at ho ⊢
    exact out_in hf hh hB ho hn
  · rcases hc with ⟨j, inst, h1, h2, h3, h4⟩ | ⟨b', h1, h2, h3⟩
    · exact Or.inl ⟨j, h1, ⟨inst, h2, h3⟩, fun k a c ⟨ik, d, e⟩ => h4 k ik a c d e⟩
    · refine Or.inr ⟨?_, fun k a ⟨ik, d, e⟩ => h3 k ik a d e⟩
      simp only [decide_eq_true_eq]
      exact (mem_outs_iff hf hh b v).2 ⟨b', h1, h2⟩

theorem liveAfter_local {f : Func} {v b i : Nat} (h : LiveAfter f v b i) :
    ∃ B, f[b]? = some B ∧ i < B.insts.length ∧
    ((∃ j, i < j ∧ UseAt B.insts v j ∧ ∀ k, i < k → k < j → ¬ DefAt B.insts v k) ∨
     (∃ b', f.goesTo b b' ∧ LiveAt f v b' 0 ∧ ∀ k, i < k → ¬ DefAt B.insts v k)) := by
  obtain ⟨B, hB, h⟩ := h
  refine ⟨B, hB, by rcases h with ⟨h, -⟩ | ⟨h, -⟩ <;> omega, ?_⟩
  rcases h with ⟨h1, h2⟩ | ⟨h1, b', h2, h3⟩
  · obtain ⟨B', hB', hi, hc⟩ := liveAt_local h2
    rw [hB] at hB'; cases hB'
    rcases hc with ⟨j, inst, h1, h2, h3, h4⟩ | ⟨b', h1, h2, h3⟩
    · exact Or.inl ⟨j, by omega, ⟨inst, h2, h3⟩, fun k a c ⟨ik, d, e⟩ => h4 k ik (by omega) c d e⟩
    · exact Or.inr ⟨b', h1, h2, fun k a ⟨ik, d, e⟩ => h3 k ik (by omega) d e⟩
  · refine Or.inr ⟨b', h2, h3, ?_⟩
    rintro k a ⟨ik, d, e⟩
    have := (List.getElem?_eq_some_iff.1 d).1
    omega

/-- A register's interval contains the point right after every instruction after which it is live. -/
theorem interval_after {f : Func} (hf : f.Wf) (hh : f.NoHidden) {v b i : Nat} (h : LiveAfter f v b i) :
    Covers (interval f v) (instNum f b i + 1) := by
  obtain ⟨B, hB, hi, hc⟩ := liveAfter_local h
  apply interval_covers hf (List.getElem?_eq_some_iff.1 hB).1
  unfold segsOf instNum
  rw [hB]
  refine (block_covers ?_ hi).2 ?_
  · intro ho hn
    simp only [decide_eq_true_eq] at ho ⊢
    exact out_in hf hh hB ho hn
  · rcases hc with h | ⟨b', h1, h2, h3⟩
    · exact Or.inr (Or.inl h)
    · refine Or.inr (Or.inr ⟨?_, h3⟩)
      simp only [decide_eq_true_eq]
      exact (mem_outs_iff hf hh b v).2 ⟨b', h1, h2⟩

/-- A register's interval contains the point right after every instruction that writes it. -/
theorem interval_def {f : Func} (hf : f.Wf) (hh : f.NoHidden) {v b i : Nat} {B : Block} {inst : Inst}
    (hB : f[b]? = some B) (hi : B.insts[i]? = some inst) (hd : Reg.vr v ∈ inst.defs) :
    Covers (interval f v) (instNum f b i + 1) := by
  apply interval_covers hf (List.getElem?_eq_some_iff.1 hB).1
  unfold segsOf instNum
  rw [hB]
  refine (block_covers ?_ (List.getElem?_eq_some_iff.1 hi).1).2 (Or.inl ⟨inst, hi, hd⟩)
  intro ho hn
  simp only [decide_eq_true_eq] at ho ⊢
  exact out_in hf hh hB ho hn

/-- A read marked dead really is the last: unless the same instruction writes the register, it is not live
    afterwards. -/
theorem deadUse_sound {f : Func} (hf : f.Wf) (hh : f.NoHidden) {v b i : Nat} {B : Block}
    (hB : f[b]? = some B) (h : deadUse f v b i = true) :
    DefAt B.insts v i ∨ ¬ LiveAfter f v b i := by
  unfold deadUse at h
  rw [hB] at h
  simp only [decide_eq_true_eq] at h
  rcases block_dead h with h | ⟨h1, h2⟩
  · exact Or.inl h
  · refine Or.inr ?_
    intro hl
    obtain ⟨B', hB', hi, hc⟩ := liveAfter_local hl
    rw [hB] at hB'; cases hB'
    rcases hc with hc | ⟨b', g1, g2, g3⟩
    · exact h1 hc
    · obtain ⟨k, hk, hd⟩ := h2 (by
        simp only [decide_eq_true_eq]; exact (mem_outs_iff hf hh b v).2 ⟨b', g1, g2⟩)
      exact g3 k hk hd

end Cmmc.Mir
