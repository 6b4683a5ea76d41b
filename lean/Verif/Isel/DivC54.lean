import Verif.Isel.DivProps

/-!
# C54: division and remainder by constants

Spec: C's `/` and `%` on `int32_t`, i.e. `Int.tdiv` and `Int.tmod` of the signed values.  A RISC-V
register holding an `int32_t` value `v` holds `sx v`, its sign extension to 64 bits.
-/

namespace Cmmc.Isel

/-- The divisors `isOperandSDiv32ByConstantDivisor` accepts, in plain terms. -/
theorem isConstDivisor_iff {d : ℤ} :
    isConstDivisor d = true ↔ (-2 ^ 31 ≤ d ∧ d < 2 ^ 31) ∧ d ≠ 0 ∧ d ≠ 1 ∧ d ≠ -1 := by
  unfold isConstDivisor
  simp only [Bool.and_eq_true, decide_eq_true_eq, Bool.not_eq_true', Bool.and_eq_false_iff,
    decide_eq_false_iff_not, Int.not_le]
  omega

theorem good_of {d : ℤ} (hd : isConstDivisor d = true) :
    ∃ g, selectSDiv32ByConstant d = some g ∧ g.Good d := by
  obtain ⟨g, h1, h2, h3, h4, h5, h6, h7⟩ := selectSDiv32ByConstant_spec hd
  exact ⟨g, h1, h2, h3, h4, h5, h6, h7⟩

theorem natAbs2 {d : ℤ} (hd : isConstDivisor d = true) : 2 ≤ d.natAbs := by
  have := isConstDivisor_iff.mp hd
  omega

theorem toInt_quot {d : ℤ} (hd : isConstDivisor d = true) (n : BitVec 32) :
    (BitVec.ofInt 32 (n.toInt.tdiv d)).toInt = n.toInt.tdiv d := by
  have := tdiv_range (i32_range n) (natAbs2 hd)
  exact toInt_ofInt32 (by omega) (by omega)

theorem toInt_rem {d : ℤ} (hd : isConstDivisor d = true) (n : BitVec 32) :
    (BitVec.ofInt 32 (n.toInt.tmod d)).toInt = n.toInt.tmod d := by
  have h1 : (n.toInt.tmod d).natAbs = n.toInt.natAbs % d.natAbs := Int.natAbs_tmod _ _
  have h2 := i32_range n
  have h3 := Nat.mod_le n.toInt.natAbs d.natAbs
  have h4 := Nat.mod_lt n.toInt.natAbs (show 0 < d.natAbs by have := natAbs2 hd; omega)
  have h5 := isConstDivisor_iff.mp hd
  refine toInt_ofInt32 ?_ ?_ <;> omega

/-- **C54 (RISC-V).**  For every divisor other than `0`, `1` and `-1` the magic number exists, and for
every dividend the emitted sequence leaves the C quotient in the low 32 bits of the register; when the
sequence contains a shift the register is moreover sign extended.  The remainder sequence leaves the
C remainder, sign extended, in every case. -/
theorem C54_riscv {d : ℤ} (hr : -2 ^ 31 ≤ d ∧ d < 2 ^ 31) (hd : d ≠ 0 ∧ d ≠ 1 ∧ d ≠ -1) :
    ∃ g, selectSDiv32ByConstant d = some g ∧ ∀ n : BitVec 32,
      (lo (rvSDivConst (sx n) g)).toInt = n.toInt.tdiv d ∧
      (g.shift ≠ 0 → (rvSDivConst (sx n) g).toInt = n.toInt.tdiv d) ∧
      (rvSRemConst (sx n) (rvSDivConst (sx n) g) d).toInt = n.toInt.tmod d := by
  have hc : isConstDivisor d = true := isConstDivisor_iff.mpr ⟨hr, hd⟩
  obtain ⟨g, h1, hg⟩ := good_of hc
  refine ⟨g, h1, fun n => ?_⟩
  obtain ⟨h2, h3⟩ := rvSDivConst_good hg (natAbs2 hc) n
  refine ⟨by rw [h2, toInt_quot hc], fun h0 => by rw [h3 h0, toInt_sx, toInt_quot hc], ?_⟩
  rw [rvSRemConst_ok h2, toInt_sx, toInt_rem hc]

/-- **C54 (ARM).** -/
theorem C54_arm {d : ℤ} (hr : -2 ^ 31 ≤ d ∧ d < 2 ^ 31) (hd : d ≠ 0 ∧ d ≠ 1 ∧ d ≠ -1) :
    ∃ g, selectSDiv32ByConstant d = some g ∧ ∀ n : BitVec 32,
      (armSDivConst n g).toInt = n.toInt.tdiv d ∧
      (armSRemConst n (armSDivConst n g) d).toInt = n.toInt.tmod d := by
  have hc : isConstDivisor d = true := isConstDivisor_iff.mpr ⟨hr, hd⟩
  obtain ⟨g, h1, hg⟩ := good_of hc
  refine ⟨g, h1, fun n => ?_⟩
  have h2 := armSDivConst_good hg n
  exact ⟨by rw [h2, toInt_quot hc], by rw [armSRemConst_ok h2, toInt_rem hc]⟩

theorem pow_divisor {s : ℕ} (h1 : 1 ≤ s) (hs : s ≤ 30) : isConstDivisor (2 ^ s) = true := by
  have h2 : (2 : ℤ) ^ s ≤ 2 ^ 30 := (pow_range hs).2
  have h3 : (2 : ℤ) ^ 1 ≤ 2 ^ s := by exact_mod_cast Nat.pow_le_pow_right (by norm_num) h1
  exact isConstDivisor_iff.mpr ⟨⟨by omega, by omega⟩, by omega, by omega, by omega⟩

/-- **C54 (powers of two).**  Both targets' sequences for a power of two, and the remainder sequences
built on them. -/
theorem C54_pow2 {s : ℕ} (h1 : 1 ≤ s) (hs : s ≤ 30) (n : BitVec 32) :
    (rvSDivPow2 (sx n) s).toInt = n.toInt.tdiv (2 ^ s) ∧
    (armSDivPow2 n s).toInt = n.toInt.tdiv (2 ^ s) ∧
    (armSDiv2 n).toInt = n.toInt.tdiv 2 ∧
    (rvSRemConst (sx n) (rvSDivPow2 (sx n) s) (2 ^ s)).toInt = n.toInt.tmod (2 ^ s) ∧
    (armSRemPow2 n (armSDivPow2 n s) s).toInt = n.toInt.tmod (2 ^ s) := by
  have hc := pow_divisor h1 hs
  refine ⟨?_, ?_, ?_, ?_, ?_⟩
  · rw [rvSDivPow2_ok n hs, toInt_sx, toInt_quot hc]
  · rw [armSDivPow2_ok n h1 hs, toInt_quot hc]
  · rw [armSDiv2_ok]
    exact toInt_quot (d := 2) (by decide) n
  · rw [rvSRemConst_ok (by rw [rvSDivPow2_ok n hs, lo_sx]), toInt_sx, toInt_rem hc]
  · rw [armSRemPow2_ok (by omega) (armSDivPow2_ok n h1 hs), toInt_rem hc]

/-- **C54 (shifted one).**  Division by a register holding `1 << s`, for `0 ≤ s < 31`. -/
theorem C54_shl (n s : BitVec 32) (hs : s.toNat < 31) :
    (rvSDivShl (sx n) (sx s)).toInt = n.toInt.tdiv (2 ^ s.toNat) ∧
    (armSDivShl n s).toInt = n.toInt.tdiv (2 ^ s.toNat) := by
  have key : (BitVec.ofInt 32 (n.toInt.tdiv (2 ^ s.toNat))).toInt = n.toInt.tdiv (2 ^ s.toNat) := by
    have hn := i32_range n
    by_cases h0 : s.toNat = 0
    · rw [h0, pow_zero, Int.tdiv_one]
      exact toInt_ofInt32 hn.1 hn.2
    · exact toInt_quot (pow_divisor (by omega) (by omega)) n
  have h1 := rvSDivShl_ok n s hs
  have h2 := armSDivShl_ok n s hs
  rw [one_shl hs] at h1 h2
  exact ⟨by rw [h1, toInt_sx, key], by rw [h2, key]⟩

/-! ## Concrete cases -/

example : selectSDiv32ByConstant 7 = some { magic := -1840700269, shift := 2, factor := 1 } := by
  decide +kernel
example : selectSDiv32ByConstant (-7) = some { magic := 1840700269, shift := 2, factor := -1 } := by
  decide +kernel
example : selectSDiv32ByConstant 3 = some { magic := 1431655766, shift := 0, factor := 0 } := by
  decide +kernel
example : selectSDiv32ByConstant (-2 ^ 31) = some { magic := 2147483647, shift := 30, factor := -1 } := by
  decide +kernel
example : (rvSDivConst (sx (-100)) { magic := -1840700269, shift := 2, factor := 1 }).toInt = -14 := by
  decide +kernel
example : (armSRemPow2 (-100) (armSDivPow2 (-100) 3) 3).toInt = -4 := by decide +kernel

/-! ## Where the code disagrees -/

/-- **Witness.**  `-3 / 3` on RISC-V: the magic number of 3 needs no shift, so `buildSRAIW` returns the
zero-extended high half, and the register ends up holding `2^32 - 1` instead of `-1`: its low half is
right, but it is not sign extended. -/
theorem rv_div3_not_sign_extended :
    ∃ g, selectSDiv32ByConstant 3 = some g ∧ g.shift = 0 ∧
      (rvSDivConst (sx (BitVec.ofInt 32 (-3))) g).toInt = 4294967295 ∧
      ((BitVec.ofInt 32 (-3)).toInt).tdiv 3 = -1 ∧
      -- a following 64-bit signed comparison with zero, which is how `q < 0` is compiled, is false
      Rv2.slt.run (rvSDivConst (sx (BitVec.ofInt 32 (-3))) g) 0 = 0 := by
  refine ⟨{ magic := 1431655766, shift := 0, factor := 0 }, ?_, rfl, ?_, ?_, ?_⟩ <;> decide +kernel

/-- **Witness.**  `INT_MIN / (1 << 31)` is `1` in C (both are `INT_MIN`), the shifted-one sequences give `-1`. -/
theorem div_shl31_wrong :
    ((BitVec.intMin 32).toInt).tdiv ((1 : BitVec 32) <<< 31).toInt = 1 ∧
    (rvSDivShl (sx (BitVec.intMin 32)) (sx 31)).toInt = -1 ∧
    (armSDivShl (BitVec.intMin 32) 31).toInt = -1 := by
  refine ⟨?_, ?_, ?_⟩ <;> decide +kernel

end Cmmc.Isel
