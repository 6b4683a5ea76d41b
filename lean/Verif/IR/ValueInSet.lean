import Mathlib.Data.BitVec
import Mathlib.Tactic.Ring
import Mathlib.Tactic.Linarith
/-!
# C95: ValueInSetCombine (cmmc/Transforms/Combine/ValueInSetCombine.cpp)

The pass looks for `x != c1 && x != c2 && ...` in a block and replaces the conjunction by a test of `x - min` against a bit mask.

Modelled: the search (`runBlock`, `State`) and the value of the code that `handleFinalState` builds. Values of integer instructions are given
by their signed reading, so that integer types do not matter for the search; the code is built for a type of `w` bits and registers of `L`
bits. A shift whose amount is too large has an arbitrary result (`Shift`). The order in which hash sets are walked does not matter.
-/
namespace Cmmc.ValueInSet

/-- operands of comparisons -/
inductive Arg
  | const (c : Int)
  | val (x : Nat)
deriving DecidableEq

/-- instructions that the pass looks at: `And` of booleans (`isEligibleAndInst`, lines 29-34), `ICmp` of kind `!=`, others -/
inductive VInst
  | and (a b : Nat)
  | ne (l r : Arg)
  | other
deriving DecidableEq

/-- `class State` (lines 36-89); `dropped` is no part of the program: comparisons that were erased from `mUnsolvedValue` although their left
side is not the root (line 71 returns false, which `runBlock` ignores) -/
structure VState where
  unsolved : List Nat
  root : Option Arg
  compared : List Arg
  target : Nat
  dropped : List Nat

/-- `State(target)` (lines 43-45) -/
def VState.new (t : Nat) : VState := ⟨[t], none, [], t, []⟩

/-- `mUnsolvedValue.erase(inst)` -/
def VState.erase (s : VState) (i : Nat) : VState := { s with unsolved := s.unsolved.filter (fun x => x != i) }

/-- `visitCompare` (lines 63-80) -/
def VState.visitCompare (s : VState) (i : Nat) (l r : Arg) : VState :=
  if i ∈ s.unsolved then
    match s.root with
    | some x => if x = l then { s.erase i with compared := r :: s.compared } else { s.erase i with dropped := i :: s.dropped }
    | none => { s.erase i with root := some l, compared := r :: s.compared }
  else s

/-- `visitAnd` (lines 82-89) -/
def VState.visitAnd (s : VState) (i a b : Nat) : VState :=
  if i ∈ s.unsolved then { s.erase i with unsolved := a :: b :: (s.erase i).unsolved } else s

/-- `finished()` (lines 47-49) -/
def VState.finished (s : VState) : Bool := s.unsolved.isEmpty && s.root.isSome

/-- one instruction (lines 147-160) -/
def visit (s : Option VState) (i : Nat) : VInst → Option VState
  | .and a b => some ((s.getD (VState.new i)).visitAnd i a b)
  | .ne l r => s.map (fun s => s.visitCompare i l r)
  | .other => s

/-- `runBlock` (lines 142-169), for the instructions from the last to the first: the states that `handleFinalState` is called with -/
def scan : List (Nat × VInst) → Option VState → List VState
  | [], _ => []
  | (i, v) :: is, s => match visit s i v with
    | some t => if t.finished then t :: scan is none else scan is (some t)
    | none => scan is none

/-! ## the code that is built (lines 91-137) -/

/-- the constants that are compared with (lines 93-99) -/
def constants : List Arg → Option (List Int)
  | [] => some []
  | .const c :: as => (constants as).map (fun cs => c :: cs)
  | .val _ :: _ => none

/-- `std::max_element` -/
def maxOf (c : Int) : List Int → Int
  | [] => c
  | d :: ds => maxOf (max c d) ds

/-- `std::min_element` -/
def minOf (c : Int) : List Int → Int
  | [] => c
  | d :: ds => minOf (min c d) ds

/-- `mask` (lines 114-119) -/
def maskOf (L : Nat) (off : Int) : List Int → BitVec 64
  | [] => 0#64
  | c :: cs => if off ≤ c ∧ c < off + L then (1#64 <<< (c - off).toNat) ||| maskOf L off cs else maskOf L off cs

/-- what the target computes for `Shl` -/
structure Shift (L : Nat) where
  fn : BitVec L → BitVec L → BitVec L
  law : ∀ x y : BitVec L, y.toNat < L → fn x y = x <<< y.toNat

/-- the loop over the sections (lines 112-131) for a root with value `x`: the value of `result` -/
def loopVal {L : Nat} (S : Shift L) {w : Nat} (x : BitVec w) (cs : List Int) (mn : Int) : Nat → Bool
  | 0 => true
  | i + 1 =>
    let off := mn + i * L
    let delta := x - BitVec.ofInt w off
    -- a cast to the same type is left out by the code; it would change nothing
    let fixed := delta.signExtend L
    let localResult := decide (S.fn 1#L fixed &&& (maskOf L off cs).setWidth L = 0#L)
    if 0 ≤ delta.toInt then localResult else loopVal S x cs mn i

/-- the value of the code: `none`: nothing is built -/
def built {L : Nat} (S : Shift L) {w : Nat} (x : BitVec w) : List Int → Option Bool
  | [] => none
  | c :: cs =>
    let mx := maxOf c cs
    let mn := minOf c cs
    let sections := (mx - mn).toNat / L + 1
    if (c :: cs).length ≤ sections * 3 then none
    else some (if x.toInt ≤ (BitVec.ofInt w mx).toInt then loopVal S x (c :: cs) mn sections else true)

/-! ## specification -/

/-- the integer and boolean values that the instructions of the block have in a run -/
structure Vals where
  int : Nat → Int
  bool : Nat → Bool

def Vals.arg (V : Vals) : Arg → Int
  | .const c => c
  | .val x => V.int x

/-- instructions compute what they say -/
def Vals.Ok (V : Vals) (is : List (Nat × VInst)) : Prop :=
  (∀ i a b, (i, .and a b) ∈ is → V.bool i = (V.bool a && V.bool b)) ∧ (∀ i l r, (i, .ne l r) ∈ is → V.bool i = decide (V.arg l ≠ V.arg r))

/-- signed integers of `w` bits -/
def FitsW (w : Nat) (z : Int) : Prop := -2 ^ (w - 1) ≤ z ∧ z < 2 ^ (w - 1)

/-! ## the search -/

/-- what a state says about the value of its target -/
def VState.Inv (V : Vals) (s : VState) : Prop :=
  s.dropped = [] →
    (V.bool s.target = true ↔ (∀ u ∈ s.unsolved, V.bool u = true) ∧ ∀ c ∈ s.compared, ∀ x, s.root = some x → V.arg x ≠ V.arg c) ∧
    (s.root = none → s.compared = [])

theorem mem_erase {l : List Nat} {i u : Nat} : u ∈ l.filter (fun x => x != i) ↔ u ∈ l ∧ u ≠ i := by
  rw [List.mem_filter]; simp

theorem all_erase {l : List Nat} {i : Nat} {P : Nat → Prop} (h : i ∈ l) : (∀ u ∈ l, P u) ↔ P i ∧ ∀ u ∈ l.filter (fun x => x != i), P u := by
  constructor
  · exact fun hp => ⟨hp i h, fun u hu => hp u (mem_erase.1 hu).1⟩
  · rintro ⟨h1, h2⟩ u hu
    by_cases hui : u = i
    · rw [hui]; exact h1
    · exact h2 u (mem_erase.2 ⟨hu, hui⟩)

theorem Inv.new (V : Vals) (t : Nat) : (VState.new t).Inv V := by
  intro _
  simp [VState.new]

theorem Inv.and {V : Vals} {s : VState} (h : s.Inv V) {i a b : Nat} (hv : V.bool i = (V.bool a && V.bool b)) : (s.visitAnd i a b).Inv V := by
  unfold VState.visitAnd
  split
  · rename_i hi
    intro hd
    obtain ⟨h1, h2⟩ := h hd
    refine ⟨?_, h2⟩
    show V.bool s.target = true ↔ (∀ u ∈ a :: b :: s.unsolved.filter (fun x => x != i), V.bool u = true) ∧ _
    rw [h1, all_erase hi, hv, Bool.and_eq_true, List.forall_mem_cons, List.forall_mem_cons]
    simp only [VState.erase]
    tauto
  · exact h

theorem Inv.compare {V : Vals} {s : VState} (h : s.Inv V) {i : Nat} {l r : Arg} (hv : V.bool i = decide (V.arg l ≠ V.arg r)) :
    (s.visitCompare i l r).Inv V := by
  unfold VState.visitCompare
  split
  · rename_i hi
    split
    · rename_i x hx
      split
      · rename_i hxl
        subst hxl
        intro hd
        obtain ⟨h1, h2⟩ := h hd
        refine ⟨?_, fun hn => ?_⟩
        · show V.bool s.target = true ↔ (∀ u ∈ s.unsolved.filter (fun x => x != i), V.bool u = true) ∧
            ∀ c ∈ r :: s.compared, ∀ y, s.root = some y → V.arg y ≠ V.arg c
          rw [h1, all_erase hi, hv, decide_eq_true_eq, List.forall_mem_cons]
          constructor
          · rintro ⟨⟨g1, g2⟩, g3⟩
            exact ⟨g2, fun y hy => by rw [hx] at hy; cases hy; exact g1, g3⟩
          · rintro ⟨g2, g1, g3⟩
            exact ⟨⟨g1 x hx, g2⟩, g3⟩
        · exact absurd (show s.root = none from hn) (by rw [hx]; simp)
      · intro hd
        exact absurd hd (by simp)
    · rename_i hx
      intro hd
      obtain ⟨h1, h2⟩ := h hd
      refine ⟨?_, fun hn => absurd hn (by simp)⟩
      show V.bool s.target = true ↔ (∀ u ∈ s.unsolved.filter (fun x => x != i), V.bool u = true) ∧
        ∀ c ∈ r :: s.compared, ∀ y, some l = some y → V.arg y ≠ V.arg c
      rw [h1, all_erase hi, hv, decide_eq_true_eq, h2 hx]
      simp only [Option.some.injEq, List.mem_singleton]
      constructor
      · rintro ⟨⟨g1, g2⟩, -⟩
        exact ⟨g2, fun c hc y hy => by subst hc; subst hy; exact g1⟩
      · rintro ⟨g2, g1⟩
        exact ⟨⟨g1 r rfl l rfl, g2⟩, fun c hc => by simp at hc⟩
  · exact h

theorem scan_inv {V : Vals} : ∀ {is : List (Nat × VInst)} {s : Option VState}, V.Ok is → (∀ t, s = some t → t.Inv V) → ∀ t ∈ scan is s,
    t.Inv V ∧ t.finished = true := by
  intro is
  induction is with
  | nil => intro s _ _ t ht; simp [scan] at ht
  | cons e is ih =>
    intro s hok hs t ht
    obtain ⟨i, v⟩ := e
    have hok' : V.Ok is := ⟨fun i a b h => hok.1 i a b (List.mem_cons_of_mem _ h), fun i l r h => hok.2 i l r (List.mem_cons_of_mem _ h)⟩
    have hv : ∀ t, visit s i v = some t → t.Inv V := by
      intro t hvt
      cases v with
      | and a b =>
        simp only [visit, Option.some.injEq] at hvt
        subst hvt
        refine Inv.and ?_ (hok.1 i a b List.mem_cons_self)
        cases s with
        | none => exact Inv.new V i
        | some s => exact hs s rfl
      | ne l r =>
        simp only [visit, Option.map_eq_some_iff] at hvt
        obtain ⟨s', hs', rfl⟩ := hvt
        exact Inv.compare (hs s' hs') (hok.2 i l r List.mem_cons_self)
      | other => exact hs t hvt
    unfold scan at ht
    split at ht
    · rename_i t' hvt
      split at ht
      · rename_i hf
        rcases List.mem_cons.1 ht with rfl | ht
        · exact ⟨hv _ hvt, hf⟩
        · exact ih hok' (fun _ h => by simp at h) t ht
      · exact ih hok' (fun t h => by cases h; exact hv t' hvt) t ht
    · exact ih hok' (fun _ h => by simp at h) t ht

/-! ## the code -/

theorem le_maxOf {c : Int} {cs : List Int} : ∀ d ∈ c :: cs, d ≤ maxOf c cs := by
  induction cs generalizing c with
  | nil => intro d hd; rw [List.mem_singleton] at hd; rw [hd]; exact le_refl _
  | cons e es ih =>
    intro d hd
    have h0 := ih (c := max c e) (max c e) List.mem_cons_self
    show d ≤ maxOf (max c e) es
    rcases List.mem_cons.1 hd with rfl | hd
    · omega
    · rcases List.mem_cons.1 hd with rfl | hd
      · omega
      · exact ih d (List.mem_cons_of_mem _ hd)

theorem minOf_le {c : Int} {cs : List Int} : ∀ d ∈ c :: cs, minOf c cs ≤ d := by
  induction cs generalizing c with
  | nil => intro d hd; rw [List.mem_singleton] at hd; rw [hd]; exact le_refl _
  | cons e es ih =>
    intro d hd
    have h0 := ih (c := min c e) (min c e) List.mem_cons_self
    show minOf (min c e) es ≤ d
    rcases List.mem_cons.1 hd with rfl | hd
    · omega
    · rcases List.mem_cons.1 hd with rfl | hd
      · omega
      · exact ih d (List.mem_cons_of_mem _ hd)

theorem maxOf_mem {c : Int} {cs : List Int} : maxOf c cs ∈ c :: cs := by
  induction cs generalizing c with
  | nil => exact List.mem_cons_self
  | cons e es ih =>
    show maxOf (max c e) es ∈ _
    rcases List.mem_cons.1 (ih (c := max c e)) with h | h
    · rw [h]; rcases max_choice c e with h | h <;> rw [h] <;> simp
    · exact List.mem_cons_of_mem _ (List.mem_cons_of_mem _ h)

theorem minOf_mem {c : Int} {cs : List Int} : minOf c cs ∈ c :: cs := by
  induction cs generalizing c with
  | nil => exact List.mem_cons_self
  | cons e es ih =>
    show minOf (min c e) es ∈ _
    rcases List.mem_cons.1 (ih (c := min c e)) with h | h
    · rw [h]; rcases min_choice c e with h | h <;> rw [h] <;> simp
    · exact List.mem_cons_of_mem _ (List.mem_cons_of_mem _ h)

/-- a bit of the mask -/
theorem maskOf_bit {L : Nat} (hL : L ≤ 64) {off : Int} {cs : List Int} {d : Nat} (hd : d < L) :
    (maskOf L off cs).getLsbD d = true ↔ off + d ∈ cs := by
  induction cs with
  | nil => simp [maskOf]
  | cons c cs ih =>
    unfold maskOf
    split
    · rename_i h
      rw [BitVec.getLsbD_or, Bool.or_eq_true, ih, List.mem_cons, BitVec.getLsbD_shiftLeft, BitVec.getLsbD_one]
      have : ((decide (d < 64) && !decide (d < (c - off).toNat) && (decide (0 < 64) && decide (d - (c - off).toNat = 0))) = true) ↔ off + d = c := by
        simp only [Bool.and_eq_true, decide_eq_true_eq, Bool.not_eq_true', decide_eq_false_iff_not]
        omega
      rw [this]
    · rename_i h
      rw [ih, List.mem_cons]
      constructor
      · exact .inr
      · rintro (h1 | h1)
        · exfalso; apply h; omega
        · exact h1

theorem toInt_sub_fits {w : Nat} (hw : 0 < w) {x : BitVec w} {y : Int} (h : FitsW w (x.toInt - y)) : (x - BitVec.ofInt w y).toInt = x.toInt - y := by
  rw [BitVec.toInt_sub, BitVec.toInt_ofInt, Int.sub_bmod_bmod, Int.bmod_eq_of_le]
  all_goals
    obtain ⟨h1, h2⟩ := h
    have hp : ((2 ^ w : Nat) : Int) = 2 * 2 ^ (w - 1) := by
      push_cast
      rw [← pow_succ']; congr 1; omega
    omega

theorem toNat_of_toInt {L : Nat} {y : BitVec L} {d : Nat} (h : y.toInt = d) : y.toNat = d := by
  have := y.isLt
  rw [BitVec.toInt_eq_toNat_cond] at h
  split at h <;> omega

theorem shl_and_zero {L d : Nat} (hd : d < L) (m : BitVec L) : (1#L <<< d &&& m = 0#L) ↔ m.getLsbD d = false := by
  constructor
  · intro h
    have := congrArg (fun b => b.getLsbD d) h
    simpa [hd, BitVec.getLsbD_and, BitVec.getLsbD_shiftLeft, BitVec.getLsbD_one, show 0 < L by omega] using this
  · intro h
    apply BitVec.eq_of_getLsbD_eq
    intro n hn
    rw [BitVec.getLsbD_and, BitVec.getLsbD_shiftLeft, BitVec.getLsbD_one]
    by_cases hnd : n = d
    · subst hnd; simp [h]
    · by_cases hlt : n < d
      · simp [hlt]
      · have : n - d ≠ 0 := by omega
        simp [this]

/-- the loop tests membership when no difference wraps around -/
theorem loopVal_eq {L w : Nat} (hL : L ≤ 64) (hw : 0 < w) (hwL : w ≤ L) (S : Shift L) {x : BitVec w} {cs : List Int} {mn : Int} (hmn : ∀ c ∈ cs, mn ≤ c) :
    ∀ n : Nat, (∀ i : Nat, i < n → FitsW w (x.toInt - (mn + i * L))) → x.toInt < mn + n * L → loopVal S x cs mn n = decide (x.toInt ∉ cs) := by
  intro n
  induction n with
  | zero =>
    intro _ h
    symm
    show decide _ = true
    rw [decide_eq_true_eq]
    intro hm
    have := hmn _ hm
    simp at h
    omega
  | succ n ih =>
    intro hf h
    have hd := toInt_sub_fits hw (hf n (Nat.lt_succ_self n))
    unfold loopVal
    dsimp only
    rw [hd]
    split
    · rename_i h0
      obtain ⟨d, hd'⟩ := Int.eq_ofNat_of_zero_le h0
      have hdL : d < L := by
        have : ((n + 1 : Nat) : Int) * L = n * L + L := by push_cast; ring
        rw [this] at h
        omega
      have hfx : ((x - BitVec.ofInt w (mn + n * L)).signExtend L).toNat = d := by
        apply toNat_of_toInt
        rw [BitVec.toInt_signExtend_of_le hwL, hd, hd']
      rw [S.law _ _ (by rw [hfx]; exact hdL), hfx]
      have hiff : (1#L <<< d &&& (maskOf L (mn + n * L) cs).setWidth L = 0#L) ↔ x.toInt ∉ cs := by
        rw [shl_and_zero hdL, BitVec.getLsbD_setWidth, decide_eq_true hdL, Bool.true_and, ← Bool.not_eq_true, maskOf_bit hL hdL]
        rw [show mn + n * L + (d : Int) = x.toInt by omega]
      exact decide_eq_decide.2 hiff
    · rename_i h0
      exact ih (fun i hi => hf i (by omega)) (by omega)

/-- the code tests membership -/
theorem built_eq {L w : Nat} (hL : L ≤ 64) (hw : 0 < w) (hwL : w ≤ L) (S : Shift L) {x : BitVec w} {cs : List Int} (hc : ∀ c ∈ cs, FitsW w c)
    (hf : ∀ c ∈ cs, ∀ d ∈ cs, ∀ i : Nat, c + i * L ≤ d → x.toInt ≤ d → FitsW w (x.toInt - (c + i * L))) {b : Bool} (h : built S x cs = some b) : b = decide (x.toInt ∉ cs) := by
  cases cs with
  | nil => simp [built] at h
  | cons c cs =>
    unfold built at h
    dsimp only at h
    split at h
    · simp at h
    · simp only [Option.some.injEq] at h
      subst h
      have h1 := maxOf_mem (c := c) (cs := cs)
      have h2 := minOf_mem (c := c) (cs := cs)
      have h3 := le_maxOf (c := c) (cs := cs)
      have h4 := minOf_le (c := c) (cs := cs)
      generalize maxOf c cs = mx at *
      generalize minOf c cs = mn at *
      have hmx : (BitVec.ofInt w mx).toInt = mx := by
        obtain ⟨g1, g2⟩ := hc mx h1
        rw [BitVec.toInt_ofInt, Int.bmod_eq_of_le]
        all_goals
          have hp : ((2 ^ w : Nat) : Int) = 2 * 2 ^ (w - 1) := by
            push_cast
            rw [← pow_succ']; congr 1; omega
          omega
      rw [hmx]
      have hmm := h4 mx h1
      split
      · rename_i hx
        have hL0 : 0 < L := by omega
        have hdiv : (mx - mn).toNat / L * L ≤ (mx - mn).toNat := Nat.div_mul_le_self _ _
        have hdiv2 : (mx - mn).toNat < ((mx - mn).toNat / L + 1) * L := by
          have := Nat.lt_div_mul_add (a := (mx - mn).toNat) hL0
          rw [Nat.add_mul, Nat.one_mul]; exact this
        refine loopVal_eq hL hw hwL S h4 _ (fun i hi => hf mn h2 mx h1 i ?_ hx) ?_
        · have : i * L ≤ (mx - mn).toNat / L * L := Nat.mul_le_mul_right _ (by omega)
          have h5 : ((i * L : Nat) : Int) ≤ ((mx - mn).toNat : Int) := by exact_mod_cast Nat.le_trans this hdiv
          rw [Int.toNat_of_nonneg (by omega)] at h5
          push_cast at h5
          omega
        · have h5 : ((mx - mn).toNat : Int) < ((((mx - mn).toNat / L + 1) * L : Nat) : Int) := by exact_mod_cast hdiv2
          rw [Int.toNat_of_nonneg (by omega)] at h5
          rw [Nat.cast_mul] at h5
          omega
      · rename_i hx
        symm
        rw [decide_eq_true_eq]
        intro hm
        exact hx (h3 _ hm)

theorem constants_spec : ∀ {as : List Arg} {cs : List Int}, constants as = some cs → as = cs.map Arg.const := by
  intro as
  induction as with
  | nil => intro cs h; simp only [constants, Option.some.injEq] at h; rw [← h]; rfl
  | cons a as ih =>
    intro cs h
    cases a with
    | const c =>
      simp only [constants, Option.map_eq_some_iff] at h
      obtain ⟨cs', h1, rfl⟩ := h
      rw [ih h1]; rfl
    | val x => simp [constants] at h

/-- C95 (partial: when all comparisons of the conjunction have the same left side, and no difference of the value and the start of a section wraps
around; it is wrong without either, `inset_drop_bad`, `inset_wrap_bad`): whatever the instructions of the block are and whatever a shift by too
much gives, the code that replaces a conjunction has the value of the conjunction. -/
theorem C95_valueInSet_partial {is : List (Nat × VInst)} {V : Vals} (hV : V.Ok is) {s : VState} (hs : s ∈ scan is.reverse none) {root : Arg}
    (hroot : s.root = some root) {cs : List Int} (hcs : constants s.compared = some cs) {L w : Nat} (hL : L ≤ 64) (hw : 0 < w) (hwL : w ≤ L)
    {x : BitVec w} (hx : V.arg root = x.toInt) (hc : ∀ c ∈ cs, FitsW w c) (S : Shift L) {b : Bool} (hb : built S x cs = some b)
    (hdrop : s.dropped = [])
    (hwrap : ∀ c ∈ cs, ∀ d ∈ cs, ∀ i : Nat, c + i * L ≤ d → x.toInt ≤ d → FitsW w (x.toInt - (c + i * L))) :
    b = V.bool s.target := by
  have hV' : V.Ok is.reverse := ⟨fun i a b h => hV.1 i a b (List.mem_reverse.1 h), fun i l r h => hV.2 i l r (List.mem_reverse.1 h)⟩
  obtain ⟨hI, hfin⟩ := scan_inv hV' (fun _ h => by simp at h) s hs
  obtain ⟨h1, _⟩ := hI hdrop
  have hu : s.unsolved = [] := by
    unfold VState.finished at hfin
    rw [Bool.and_eq_true] at hfin
    simpa using hfin.1
  rw [built_eq hL hw hwL S hc hwrap hb, Bool.eq_iff_iff, h1, decide_eq_true_eq, hu, constants_spec hcs, hroot]
  simp only [List.not_mem_nil, false_imp_iff, implies_true, true_and, Option.some.injEq, forall_eq', hx]
  constructor
  · rintro h c hc rfl'
    obtain ⟨z, hz, rfl⟩ := List.mem_map.1 hc
    have : x.toInt = z := rfl'
    exact h (this ▸ hz)
  · intro h hm
    exact h (.const x.toInt) (List.mem_map.2 ⟨_, hm, rfl⟩) rfl

/-- C95 for values that are not negative, and for sets of numbers that are not positive: no difference wraps around if the set spans less than half
of the type. -/
theorem C95_nowrap {w : Nat} {L : Nat} {x : BitVec w} (hw : 0 < w) {cs : List Int} (hc : ∀ c ∈ cs, FitsW w c) (hspan : ∀ c ∈ cs, ∀ d ∈ cs, d - c < 2 ^ (w - 1))
    (h : 0 ≤ x.toInt ∨ ∀ c ∈ cs, c ≤ 0) : ∀ c ∈ cs, ∀ d ∈ cs, ∀ i : Nat, c + i * L ≤ d → x.toInt ≤ d → FitsW w (x.toInt - (c + i * L)) := by
  intro c hcm d hdm i hi hxd
  have h1 := hspan c hcm d hdm
  have h2 := (hc d hdm).2
  have h3 : (0 : Int) ≤ i * L := by positivity
  have h4 : -2 ^ (w - 1) ≤ x.toInt := BitVec.le_toInt x
  refine ⟨?_, by omega⟩
  rcases h with h | h
  · omega
  · have := h d hdm; omega

/-! ## concrete cases -/

/-- shifts of RISC-V use the low bits of the amount -/
def rvShift (L : Nat) : Shift L := ⟨fun x y => x <<< (y.toNat % L), fun x y h => by rw [Nat.mod_eq_of_lt h]⟩

/-- `x != 5 && x != 6 && x != 7 && x != c`; `x` is value 0 -/
def four (c : Int) : List (Nat × VInst) := [(1, .ne (.val 0) (.const 5)), (2, .ne (.val 0) (.const 6)), (3, .ne (.val 0) (.const 7)), (4, .ne (.val 0) (.const c)),
  (5, .and 1 2), (6, .and 3 4), (7, .and 5 6)]

/-- values in a run in which `x` is `z` -/
def fourVals (c z : Int) : Vals where
  int _ := z
  bool := fun n => match n with
    | 1 => decide (z ≠ 5) | 2 => decide (z ≠ 6) | 3 => decide (z ≠ 7) | 4 => decide (z ≠ c)
    | 5 => decide (z ≠ 5) && decide (z ≠ 6) | 6 => decide (z ≠ 7) && decide (z ≠ c)
    | 7 => (decide (z ≠ 5) && decide (z ≠ 6)) && (decide (z ≠ 7) && decide (z ≠ c))
    | _ => false

theorem four_ok (c z : Int) : (fourVals c z).Ok (four c) := by
  constructor
  · intro i a b h
    simp only [four, List.mem_cons, Prod.mk.injEq, VInst.and.injEq, reduceCtorEq, and_false, false_or, List.not_mem_nil, or_false] at h
    rcases h with ⟨rfl, rfl, rfl⟩ | ⟨rfl, rfl, rfl⟩ | ⟨rfl, rfl, rfl⟩ <;> rfl
  · intro i l r h
    simp only [four, List.mem_cons, Prod.mk.injEq, VInst.ne.injEq, reduceCtorEq, and_false, List.not_mem_nil, or_false] at h
    rcases h with ⟨rfl, rfl, rfl⟩ | ⟨rfl, rfl, rfl⟩ | ⟨rfl, rfl, rfl⟩ | ⟨rfl, rfl, rfl⟩ <;> rfl

def fourState (c : Int) : VState := ⟨[], some (.val 0), [.const 5, .const 6, .const 7, .const c], 7, []⟩

theorem four_scan (c : Int) : scan (four c).reverse none = [fourState c] := rfl

/-- the code for `{5, 6, 7, 9}` has the value of the conjunction for every `x` that is not negative -/
theorem four_right {x : BitVec 32} (h : 0 ≤ x.toInt) {b : Bool} (hb : built (rvShift 64) x [5, 6, 7, 9] = some b) : b = (fourVals 9 x.toInt).bool 7 := by
  have hc : ∀ c ∈ ([5, 6, 7, 9] : List Int), FitsW 32 c := by simp [FitsW]
  exact C95_valueInSet_partial (four_ok 9 x.toInt) (s := fourState 9) (root := .val 0) (by rw [four_scan]; exact List.mem_cons_self) rfl rfl (by decide) (by decide) (by decide)
    (x := x) rfl hc (rvShift 64) hb rfl (C95_nowrap (by decide) hc (by decide) (.inl h))

/-- the code is built -/
example : built (rvShift 64) 7#32 [5, 6, 7, 9] = some false ∧ built (rvShift 64) 8#32 [5, 6, 7, 9] = some true := by decide +kernel

/-- With `{5, 6, 7, 64}` and `x = INT_MIN` the difference `x - 5` wraps around and is positive; it is taken for a distance in the set, and the shift by
`2147483643` sets bit 59, which is the bit of 64 ("TODO: check overflow?", line 128): the code says that `x` is in the set. -/
theorem inset_wrap_bad : (fourVals 64 (-2147483648)).Ok (four 64) ∧ fourState 64 ∈ scan (four 64).reverse none ∧
    constants (fourState 64).compared = some [5, 6, 7, 64] ∧ built (rvShift 64) (BitVec.ofInt 32 (-2147483648)) [5, 6, 7, 64] = some false ∧
    (fourVals 64 (-2147483648)).bool (fourState 64).target = true := by
  refine ⟨four_ok _ _, by rw [four_scan]; exact List.mem_cons_self, rfl, by decide +kernel, by decide⟩

/-- `y != 1 && x != 5 && x != 6 && x != 7 && x != 9`; `x` is value 0, `y` value 10 -/
def five : List (Nat × VInst) := [(11, .ne (.val 10) (.const 1)), (1, .ne (.val 0) (.const 5)), (2, .ne (.val 0) (.const 6)), (3, .ne (.val 0) (.const 7)),
  (4, .ne (.val 0) (.const 9)), (5, .and 1 2), (6, .and 3 4), (7, .and 5 6), (12, .and 11 7)]

/-- the run with `x = 0` and `y = 1` -/
def fiveVals : Vals where
  int := fun n => if n = 10 then 1 else 0
  bool := fun n => !(n == 11 || n == 12)

/-- A comparison of another value in the conjunction is forgotten (line 71 gives up after it has erased the comparison, and `runBlock` goes on): the
conjunction is false because of `y`, the code only tests `x`. -/
theorem inset_drop_bad : fiveVals.Ok five ∧ ∃ s ∈ scan five.reverse none, s.target = 12 ∧ s.root = some (.val 0) ∧ constants s.compared = some [5, 6, 7, 9] ∧
    (∀ c ∈ ([5, 6, 7, 9] : List Int), FitsW 32 c) ∧ built (rvShift 64) 0#32 [5, 6, 7, 9] = some true ∧ fiveVals.bool 12 = false := by
  refine ⟨⟨?_, ?_⟩, ⟨[], some (.val 0), [.const 5, .const 6, .const 7, .const 9], 12, [11]⟩, ?_, rfl, rfl, rfl, by simp [FitsW], by decide +kernel, rfl⟩
  rotate_right
  · rw [show scan five.reverse none = [⟨[], some (.val 0), [.const 5, .const 6, .const 7, .const 9], 12, [11]⟩] from rfl]
    exact List.mem_cons_self
  · intro i a b h
    simp only [five, List.mem_cons, Prod.mk.injEq, VInst.and.injEq, reduceCtorEq, and_false, false_or, List.not_mem_nil, or_false] at h
    rcases h with ⟨rfl, rfl, rfl⟩ | ⟨rfl, rfl, rfl⟩ | ⟨rfl, rfl, rfl⟩ | ⟨rfl, rfl, rfl⟩ <;> rfl
  · intro i l r h
    simp only [five, List.mem_cons, Prod.mk.injEq, VInst.ne.injEq, reduceCtorEq, and_false, List.not_mem_nil, or_false] at h
    rcases h with ⟨rfl, rfl, rfl⟩ | ⟨rfl, rfl, rfl⟩ | ⟨rfl, rfl, rfl⟩ | ⟨rfl, rfl, rfl⟩ | ⟨rfl, rfl, rfl⟩ <;> decide

end Cmmc.ValueInSet
