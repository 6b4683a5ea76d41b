import Mathlib.Tactic.Linarith
import Mathlib.Tactic.IntervalCases
/-!
# Work distribution of `cmmcParallelFor` (C19) and `cmmcAddRec3SRem` (C23), cmmc/Runtime/cmmc_sysy_rt.cpp

Signed overflow is undefined behaviour: every signed `int32_t` operation of the code is checked and yields `none` when out of range.
-/
namespace Cmmc.ParFor

/-- result of a signed 32-bit operation -/
def i32 (v : Int) : Option Int := if -2147483648 ≤ v ∧ v ≤ 2147483647 then some v else none
/-- result of a signed 64-bit operation -/
def i64 (v : Int) : Option Int := if -9223372036854775808 ≤ v ∧ v ≤ 9223372036854775807 then some v else none

/-- the chunk for worker `i` (lines 240-247): `none` undefined, `some none` skipped, `some (some (subBeg, subEnd))` -/
def chunk (beg end_ inc : Int) (threads i : Nat) : Option (Option (Int × Int)) := do
  let off ← i32 (i * inc)
  let subBeg ← i32 (beg + off)
  let top ← i32 (subBeg + inc)
  let subEnd := if i = threads - 1 then end_ else min top end_
  return if subBeg ≥ subEnd then none else some (subBeg, subEnd)

/-- `inc` (line 238): `static_cast<int32_t>(((size / threads) + 3) / 4 * 4)` on unsigned arithmetic; the cast keeps the value when it
fits and is checked here -/
def incOf (size threads : Nat) : Option Int := i32 ((((size / threads + 4 - 1) % 2 ^ 32 / 4 * 4 : Nat)) : Int)

/-- the calls of `func` made by `spawnAndJoin` (lines 228-264), as `(worker, subBeg, subEnd)`; worker index `none`: the caller itself -/
def spawn (beg end_ : Int) (size threads : Nat) : Option (List (Option Nat × Int × Int)) :=
  if threads = 1 then some [(none, beg, end_)]
  else do
    let inc ← incOf size threads
    let cs ← (List.range threads).mapM fun i => (chunk beg end_ inc threads i).map fun c => (i, c)
    return cs.filterMap fun p => p.2.map fun c => (some p.1, c)

/-- `cmmcParallelFor` (lines 217-277) as the list of calls of `func`, for the thread count `1 << threads` selected by the tuner -/
def parallelFor (beg end_ : Int) (threads : Nat) : Option (List (Option Nat × Int × Int)) :=
  if end_ ≤ beg then some []
  else do
    let size ← i32 (end_ - beg)
    if size < 16 then return [(none, beg, end_)]
    else spawn beg end_ size.toNat (2 ^ threads)

/-! ## Specification -/

/-- how often iteration `k` is executed by a list of calls `func(b, e)`, each running `b, ..., e-1` -/
def times (l : List (Option Nat × Int × Int)) (k : Int) : Nat := (l.filter fun c => decide (c.2.1 ≤ k ∧ k < c.2.2)).length

theorem i32_some {v r : Int} (h : i32 v = some r) : r = v ∧ -2147483648 ≤ v ∧ v ≤ 2147483647 := by
  unfold i32 at h; split at h
  · simp only [Option.some.injEq] at h; exact ⟨h.symm, by assumption⟩
  · simp at h

theorem chunk_some {beg e inc : Int} {threads i : Nat} {c : Option (Int × Int)} (h : chunk beg e inc threads i = some c) :
    c = let subBeg := beg + i * inc; let subEnd := if i = threads - 1 then e else min (subBeg + inc) e
      if subBeg ≥ subEnd then none else some (subBeg, subEnd) := by
  unfold chunk at h
  simp only [Option.bind_eq_bind, Option.bind_eq_some_iff, Option.pure_def] at h
  obtain ⟨a, ha, b, hb, t, ht, h⟩ := h
  obtain ⟨rfl, _⟩ := i32_some ha
  obtain ⟨rfl, _⟩ := i32_some hb
  obtain ⟨rfl, _⟩ := i32_some ht
  simp only [Option.some.injEq] at h
  exact h.symm

theorem incOf_some {size threads : Nat} {inc : Int} (hs : size < 2147483648) (h : incOf size threads = some inc) :
    inc = (((size / threads + 3) / 4 * 4 : Nat) : Int) := by
  unfold incOf at h
  obtain ⟨h, _⟩ := i32_some h
  have : size / threads ≤ size := Nat.div_le_self _ _
  rw [Nat.mod_eq_of_lt (by omega)] at h
  exact h

/-- C19. Whatever thread count the tuner selects (1, 2 or 4: `C21`), if no signed overflow occurs the calls of the loop body cover
every iteration of `[beg, end)` exactly once and no other iteration; no chunk is empty, and each worker gets at most one chunk. -/
theorem C19_partition (beg e : Int) (threads : Nat) (ht : threads ≤ 2) (l : List (Option Nat × Int × Int))
    (h : parallelFor beg e threads = some l) :
    (∀ k, times l k = if beg ≤ k ∧ k < e then 1 else 0) ∧ (∀ c ∈ l, c.2.1 < c.2.2) ∧
    (l.map Prod.fst).Nodup ∧ ∀ c ∈ l, ∀ i, c.1 = some i → i < 4 := by
  unfold parallelFor at h
  split at h
  · rename_i hle
    simp only [Option.some.injEq] at h
    subst h
    refine ⟨fun k => ?_, by simp, by simp, by simp⟩
    rw [if_neg (by omega)]; rfl
  rename_i hlt
  simp only [Option.bind_eq_bind, Option.bind_eq_some_iff] at h
  obtain ⟨size, hsz, h⟩ := h
  obtain ⟨rfl, hlo, hhi⟩ := i32_some hsz
  have single : ∀ k, times [(none, beg, e)] k = if beg ≤ k ∧ k < e then 1 else 0 := by
    intro k
    unfold times
    by_cases hk : beg ≤ k ∧ k < e
    · rw [if_pos hk, List.filter_cons_of_pos (by simpa using hk)]; rfl
    · rw [if_neg hk, List.filter_cons_of_neg (by simpa using hk)]; rfl
  have single' : l = [(none, beg, e)] → (∀ k, times l k = if beg ≤ k ∧ k < e then 1 else 0) ∧ (∀ c ∈ l, c.2.1 < c.2.2) ∧
      (l.map Prod.fst).Nodup ∧ ∀ c ∈ l, ∀ i, c.1 = some i → i < 4 := by
    rintro rfl
    refine ⟨single, ?_, by simp, by simp⟩
    intro c hc; simp only [List.mem_singleton] at hc; subst hc; simp only; omega
  split at h
  · simp only [Option.pure_def, Option.some.injEq] at h
    exact single' h.symm
  rename_i hbig
  have hsN : (e - beg).toNat < 2147483648 := by omega
  have hcast : ((e - beg).toNat : Int) = e - beg := Int.toNat_of_nonneg (by omega)
  generalize (e - beg).toNat = size at *
  unfold spawn at h
  split at h
  · simp only [Option.some.injEq] at h
    exact single' h.symm
  rename_i ht1
  simp only [Option.bind_eq_bind, Option.bind_eq_some_iff, Option.pure_def, Option.some.injEq] at h
  obtain ⟨inc, hinc, cs, hcs, rfl⟩ := h
  have hinc := incOf_some hsN hinc
  have hpos : 0 < size := by omega
  rcases (by omega : threads = 0 ∨ threads = 1 ∨ threads = 2) with rfl | rfl | rfl
  · simp at ht1
  · simp only [Nat.pow_one] at hcs hinc
    rw [show List.range 2 = [0, 1] from rfl] at hcs
    simp only [List.mapM_cons, List.mapM_nil, Option.bind_eq_bind, Option.pure_def, Option.bind_eq_some_iff, Option.some.injEq,
      Option.map_eq_some_iff] at hcs
    obtain ⟨_, ⟨c0, h0, rfl⟩, _, ⟨_, ⟨c1, h1, rfl⟩, _, rfl, rfl⟩, rfl⟩ := hcs
    have h0 := chunk_some h0
    have h1 := chunk_some h1
    simp only [Nat.reduceSub, Nat.cast_zero, Int.zero_mul, Int.add_zero, Nat.cast_one, Int.one_mul, if_true] at h0 h1
    rw [if_neg (by omega)] at h0
    rw [if_neg (by omega)] at h0
    subst h0
    by_cases c : beg + inc ≥ e
    · rw [if_pos c] at h1
      subst h1
      simp only [List.filterMap_cons, Option.map_some, Option.map_none, List.filterMap_nil]
      refine ⟨fun k => ?_, ?_, by simp, by simp⟩
      · unfold times
        simp only [List.filter_cons, List.filter_nil, decide_eq_true_eq]
        split_ifs <;> first | rfl | omega
      · intro c hc; simp only [List.mem_singleton] at hc; subst hc; simp only; omega
    · rw [if_neg c] at h1
      subst h1
      simp only [List.filterMap_cons, Option.map_some, List.filterMap_nil]
      refine ⟨fun k => ?_, ?_, by simp, by simp⟩
      · unfold times
        simp only [List.filter_cons, List.filter_nil, decide_eq_true_eq]
        split_ifs <;> first | rfl | (exfalso; omega)
      · intro c hc
        simp only [List.mem_cons, List.mem_nil_iff, or_false] at hc
        rcases hc with rfl | rfl <;> simp only <;> omega
  · simp only [show (2:Nat) ^ 2 = 4 from rfl] at hcs hinc
    rw [show List.range 4 = [0, 1, 2, 3] from rfl] at hcs
    simp only [List.mapM_cons, List.mapM_nil, Option.bind_eq_bind, Option.pure_def, Option.bind_eq_some_iff, Option.some.injEq,
      Option.map_eq_some_iff] at hcs
    obtain ⟨_, ⟨c0, h0, rfl⟩, _, ⟨_, ⟨c1, h1, rfl⟩, _, ⟨_, ⟨c2, h2, rfl⟩, _, ⟨_, ⟨c3, h3, rfl⟩, _, rfl, rfl⟩, rfl⟩, rfl⟩, rfl⟩ := hcs
    have h0 := chunk_some h0
    have h1 := chunk_some h1
    have h2 := chunk_some h2
    have h3 := chunk_some h3
    simp only [Nat.reduceSub, Nat.cast_zero, Int.zero_mul, Int.add_zero, Nat.cast_one, Int.one_mul, Nat.cast_ofNat] at h0 h1 h2 h3
    simp only [OfNat.zero_ne_ofNat, OfNat.one_ne_ofNat, Nat.reduceEqDiff, if_false, if_true] at h0 h1 h2 h3
    rw [if_neg (by omega)] at h0
    subst h0
    have fin : ∀ l : List (Option Nat × Int × Int), 
        l = ([(0, some (beg, min (beg + inc) e)), (1, c1), (2, c2), (3, c3)] : List (Nat × Option (Int × Int))).filterMap
          (fun p => p.2.map fun c => (some p.1, c)) → (∀ k, times l k = if beg ≤ k ∧ k < e then 1 else 0) ∧ (∀ c ∈ l, c.2.1 < c.2.2) ∧
      (l.map Prod.fst).Nodup ∧ ∀ c ∈ l, ∀ i, c.1 = some i → i < 4 := by
      intro l hl
      by_cases d1 : beg + inc ≥ min (beg + inc + inc) e <;> by_cases d2 : beg + 2 * inc ≥ min (beg + 2 * inc + inc) e <;>
        by_cases d3 : beg + 3 * inc ≥ e <;>
        simp only [d1, d2, d3, if_true, if_false] at h1 h2 h3 <;> subst h1 h2 h3 <;>
        simp only [List.filterMap_cons, Option.map_some, Option.map_none, List.filterMap_nil] at hl <;> subst hl <;>
        (first | (exfalso; omega) | skip) <;>
        refine ⟨fun k => ?_, ?_, by simp, by simp⟩ <;>
        first
        | (unfold times
           simp only [List.filter_cons, List.filter_nil, decide_eq_true_eq]
           split_ifs <;> first | rfl | (exfalso; omega))
        | (intro c hc
           simp only [List.mem_cons, List.mem_nil_iff, or_false] at hc
           rcases hc with rfl | rfl | rfl | rfl <;> simp only <;> omega)
        | (intro c hc
           simp only [List.mem_cons, List.mem_nil_iff, or_false] at hc
           rcases hc with rfl | rfl | rfl <;> simp only <;> omega)
        | (intro c hc
           simp only [List.mem_cons, List.mem_nil_iff, or_false] at hc
           rcases hc with rfl | rfl <;> simp only <;> omega)
        | (intro c hc
           simp only [List.mem_cons, List.mem_nil_iff, or_false] at hc
           rcases hc with rfl <;> simp only <;> omega)
    exact fin _ rfl

theorem i32_ok {v : Int} (h : -2147483648 ≤ v ∧ v ≤ 2147483647) : i32 v = some v := by unfold i32; rw [if_pos h]

theorem chunk_ok {beg e inc : Int} {threads i : Nat} (h1 : -2147483648 ≤ (i:Int) * inc ∧ (i:Int) * inc ≤ 2147483647)
    (h2 : -2147483648 ≤ beg + i * inc ∧ beg + i * inc ≤ 2147483647)
    (h3 : -2147483648 ≤ beg + i * inc + inc ∧ beg + i * inc + inc ≤ 2147483647) : ∃ c, chunk beg e inc threads i = some c := by
  unfold chunk
  rw [i32_ok h1]
  simp only [Option.bind_eq_bind, Option.bind_some]
  rw [i32_ok h2]
  simp only [Option.bind_some]
  rw [i32_ok h3]
  exact ⟨_, rfl⟩

/-- C19, definedness: no overflow happens for any `int32` range of fewer than 2^31 iterations that ends at least 15 below INT_MAX. -/
theorem C19_defined (beg e : Int) (threads : Nat) (ht : threads ≤ 2) (hb : -2147483648 ≤ beg) (he : e + 15 ≤ 2147483647)
    (hs : e - beg ≤ 2147483647) : ∃ l, parallelFor beg e threads = some l := by
  unfold parallelFor
  split
  · exact ⟨_, rfl⟩
  rename_i hlt
  rw [i32_ok (by omega)]
  simp only [Option.bind_eq_bind, Option.bind_some]
  split
  · exact ⟨_, rfl⟩
  unfold spawn
  split
  · exact ⟨_, rfl⟩
  rename_i ht1
  have hsN : (e - beg).toNat < 2147483648 := by omega
  have hcast : ((e - beg).toNat : Int) = e - beg := Int.toNat_of_nonneg (by omega)
  generalize (e - beg).toNat = size at *
  have hinc : incOf size (2 ^ threads) = some (((size / 2 ^ threads + 3) / 4 * 4 : Nat) : Int) := by
    unfold incOf
    have : size / 2 ^ threads ≤ size := Nat.div_le_self _ _
    rw [Nat.mod_eq_of_lt (by omega), i32_ok]
    · rfl
    · rcases (by omega : threads = 0 ∨ threads = 1 ∨ threads = 2) with rfl | rfl | rfl
      · simp at ht1
      · simp only [Nat.pow_one]; omega
      · simp only [show (2:Nat) ^ 2 = 4 from rfl]; omega
  rw [hinc]
  rcases (by omega : threads = 0 ∨ threads = 1 ∨ threads = 2) with rfl | rfl | rfl
  · simp at ht1
  · simp only [Nat.pow_one]
    rw [show List.range 2 = [0, 1] from rfl]
    obtain ⟨c0, h0⟩ := chunk_ok (beg := beg) (e := e) (inc := (((size / 2 + 3) / 4 * 4 : Nat) : Int)) (threads := 2) (i := 0)
      (by push_cast; omega) (by push_cast; omega) (by push_cast; omega)
    obtain ⟨c1, h1⟩ := chunk_ok (beg := beg) (e := e) (inc := (((size / 2 + 3) / 4 * 4 : Nat) : Int)) (threads := 2) (i := 1)
      (by push_cast; omega) (by push_cast; omega) (by push_cast; omega)
    simp only [List.mapM_cons, List.mapM_nil, Option.bind_eq_bind, Option.pure_def, Option.bind_some, Option.map_some, h0, h1]
    exact ⟨_, rfl⟩
  · simp only [show (2:Nat) ^ 2 = 4 from rfl]
    rw [show List.range 4 = [0, 1, 2, 3] from rfl]
    obtain ⟨c0, h0⟩ := chunk_ok (beg := beg) (e := e) (inc := (((size / 4 + 3) / 4 * 4 : Nat) : Int)) (threads := 4) (i := 0)
      (by push_cast; omega) (by push_cast; omega) (by push_cast; omega)
    obtain ⟨c1, h1⟩ := chunk_ok (beg := beg) (e := e) (inc := (((size / 4 + 3) / 4 * 4 : Nat) : Int)) (threads := 4) (i := 1)
      (by push_cast; omega) (by push_cast; omega) (by push_cast; omega)
    obtain ⟨c2, h2⟩ := chunk_ok (beg := beg) (e := e) (inc := (((size / 4 + 3) / 4 * 4 : Nat) : Int)) (threads := 4) (i := 2)
      (by push_cast; omega) (by push_cast; omega) (by push_cast; omega)
    obtain ⟨c3, h3⟩ := chunk_ok (beg := beg) (e := e) (inc := (((size / 4 + 3) / 4 * 4 : Nat) : Int)) (threads := 4) (i := 3)
      (by push_cast; omega) (by push_cast; omega) (by push_cast; omega)
    simp only [List.mapM_cons, List.mapM_nil, Option.bind_eq_bind, Option.pure_def, Option.bind_some, Option.map_some, h0, h1, h2, h3]
    exact ⟨_, rfl⟩

/-- near `INT_MAX` the code overflows -/
theorem C19_overflow_witness : parallelFor 2147483627 2147483647 2 = none := by decide

example : parallelFor 3 103 2 = some [(some 0, 3, 31), (some 1, 31, 59), (some 2, 59, 87), (some 3, 87, 103)] := by decide

/-- `cmmcAddRec3SRem` (lines 300-303); the result of the final cast is checked to fit -/
def addRec3SRem (x rem : Int) : Option Int := do
  let d ← i64 (x - 1)
  let m ← i64 (x * d)
  if rem = 0 then none
  else i32 ((m.tdiv 2).tmod rem)

/-- C23: for all `int32` `x` and nonzero `rem`, no overflow happens and the result is the C remainder of the triangular number
`t = x (x - 1) / 2`. -/
theorem C23_triangular_rem (x rem : Int) (hx : -2147483648 ≤ x ∧ x ≤ 2147483647) (hr : -2147483648 ≤ rem ∧ rem ≤ 2147483647)
    (h0 : rem ≠ 0) : ∃ t, 2 * t = x * (x - 1) ∧ addRec3SRem x rem = some (t.tmod rem) := by
  have hb : 0 ≤ x * (x - 1) ∧ x * (x - 1) ≤ 4611686020574871552 := by
    constructor
    · rcases le_or_gt x 0 with h | h
      · nlinarith
      · nlinarith
    · nlinarith
  have hev : x * (x - 1) % 2 = 0 := by
    rcases Int.emod_two_eq_zero_or_one x with h | h
    · rw [Int.mul_emod, h]; simp
    · rw [Int.mul_emod, show (x - 1) % 2 = 0 by omega]; simp
  refine ⟨x * (x - 1) / 2, by omega, ?_⟩
  unfold addRec3SRem
  have e1 : i64 (x - 1) = some (x - 1) := by unfold i64; rw [if_pos (by omega)]
  have e2 : i64 (x * (x - 1)) = some (x * (x - 1)) := by unfold i64; rw [if_pos (by omega)]
  simp only [e1, e2, Option.bind_eq_bind, Option.bind_some]
  rw [if_neg h0, Int.tdiv_eq_ediv_of_nonneg hb.1]
  apply i32_ok
  have h1 := Int.tmod_nonneg rem (a := x * (x - 1) / 2) (by omega)
  have h2 : (x * (x - 1) / 2).tmod rem < |rem| := by
    have := Int.tmod_lt_of_pos (x * (x - 1) / 2) (b := |rem|) (abs_pos.2 h0)
    rcases abs_choice rem with h | h
    · rwa [h] at this ⊢
    · rw [h] at this ⊢; rwa [Int.tmod_neg] at this
  have h3 : |rem| ≤ 2147483648 := abs_le.2 ⟨by omega, by omega⟩
  omega

example : addRec3SRem (-2147483648) 2147483647 = some 1 := by decide

end Cmmc.ParFor
