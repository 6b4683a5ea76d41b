import Verif.Isel.Div
import Mathlib.Algebra.Order.Ring.Abs
import Mathlib.Tactic.IntervalCases

/-!
# Division and remainder by constants are correct (C54)

The specification is C's division: `Int.tdiv` (truncation towards zero) and `Int.tmod` on the
signed values of 32-bit words.
-/

namespace Cmmc.Isel

/-- The low half of a word shifted right by 32. -/
theorem lo_hi (v : ℤ) : lo (Rv2.srl.run (BitVec.ofInt 64 v) (immW 32)) = BitVec.ofInt 32 (v / 2 ^ 32) := by
  have e : (immW 32).toNat % 64 = 32 := by decide
  unfold Rv2.run lo
  simp only [e]
  apply BitVec.eq_of_toNat_eq
  simp only [BitVec.toNat_setWidth, BitVec.toNat_ofInt, BitVec.toNat_ushiftRight,
    Nat.shiftRight_eq_div_pow]
  omega

theorem isPow2_iff {n : ℕ} (h : isPow2 n = true) : n = 2 ^ ilog2 n := by
  unfold isPow2 at h
  simp only [Bool.and_eq_true, bne_iff_ne, ne_eq, beq_iff_eq] at h
  exact h.2

theorem immW_nat {k : ℕ} (hk : k < 64) : (immW k).toNat = k := by
  unfold immW
  rw [BitVec.toNat_ofInt]
  omega

theorem immW_nat32 {k : ℕ} (hk : k < 32) : (immW k).toNat % 32 = k := by
  rw [immW_nat (by omega)]; omega

/-- Multiplying by a constant: the shift used for a power of two is the same. -/
theorem mulImm_eq (x m : W) :
    (if isPow2 m.toNat then Rv2.sll.run x (immW (ilog2 m.toNat)) else Rv2.mul.run x m) = x * m := by
  split
  · next h =>
    have h1 := isPow2_iff h
    have hlt : ilog2 m.toNat < 64 := by
      have h2 := m.isLt
      rw [h1] at h2
      exact (Nat.pow_lt_pow_iff_right (by norm_num : 1 < 2)).mp h2
    show x <<< ((immW (ilog2 m.toNat)).toNat % 64) = _
    rw [immW_nat hlt, Nat.mod_eq_of_lt hlt, BitVec.shiftLeft_eq_mul_twoPow]
    congr 1
    apply BitVec.eq_of_toNat_eq
    rw [BitVec.toNat_twoPow, Nat.mod_eq_of_lt (Nat.pow_lt_pow_right (by norm_num) hlt)]
    exact h1.symm
  · rfl

theorem Magic.fold {g : Magic} {n : ℤ} :
    (g.magic + g.factor * 2 ^ 32) * n / 2 ^ 32 = n * g.magic / 2 ^ 32 + g.factor * n := by
  rw [show (g.magic + g.factor * 2 ^ 32) * n = n * g.magic + g.factor * n * 2 ^ 32 by ring]
  exact Int.add_mul_ediv_right _ _ (by norm_num)

/-- The low half of the intermediate register. -/
theorem lo_buildMul64Imm {g : Magic} (hf : g.factor = 0 ∨ g.factor = 1 ∨ g.factor = -1)
    (n : BitVec 32) :
    lo (buildMul64Imm (sx n) g) =
      BitVec.ofInt 32 ((g.magic + g.factor * 2 ^ 32) * n.toInt / 2 ^ 32) := by
  unfold buildMul64Imm
  simp only [mulImm_eq]
  have e : sx n * immW g.magic = BitVec.ofInt 64 (n.toInt * g.magic) := by
    rw [sx_eq_ofInt, immW, BitVec.ofInt_mul]
  rw [e, Magic.fold]
  have e2 : BitVec.ofInt 32 n.toInt = n := BitVec.ofInt_toInt
  rcases hf with h | h | h <;> rw [h]
  · simp only [if_true, lo_hi]
    ring_nf
  · simp only [one_ne_zero, if_false, if_true]
    show lo (_ + _) = _
    rw [lo_add, lo_hi, lo_sx, BitVec.ofInt_add, one_mul, e2]
  · rw [if_neg (by decide), if_neg (by decide)]
    show lo (_ - _) = _
    rw [lo_sub, lo_hi, lo_sx, BitVec.ofInt_add, BitVec.sub_eq_add_neg, neg_one_mul, BitVec.ofInt_neg, e2]

/-- The facts about a magic number that `selectSDiv32ByConstant_spec` provides. -/
structure Magic.Good (g : Magic) (d : ℤ) : Prop where
  mlo : -2 ^ 31 ≤ g.magic
  mhi : g.magic < 2 ^ 31
  shift : g.shift ≤ 30
  factor : g.factor = 0 ∨ g.factor = 1 ∨ g.factor = -1
  big : -2 ^ 32 < g.magic + g.factor * 2 ^ 32 ∧ g.magic + g.factor * 2 ^ 32 < 2 ^ 32
  div : ∀ n : ℤ, -2 ^ 31 ≤ n → n < 2 ^ 31 →
        (g.magic + g.factor * 2 ^ 32) * n / 2 ^ (32 + g.shift) +
          (if (g.magic + g.factor * 2 ^ 32) * n < 0 then 1 else 0) = n.tdiv d

theorem i32_range (n : BitVec 32) : -2 ^ 31 ≤ n.toInt ∧ n.toInt < 2 ^ 31 := by
  have h1 := BitVec.toInt_lt (x := n)
  have h2 := BitVec.le_toInt (x := n)
  constructor <;> omega

/-- The high half of the product fits a word. -/
theorem high_range {A n : ℤ} (hA : -2 ^ 32 < A ∧ A < 2 ^ 32) (hn : -2 ^ 31 ≤ n ∧ n < 2 ^ 31) :
    -2 ^ 31 ≤ A * n / 2 ^ 32 ∧ A * n / 2 ^ 32 < 2 ^ 31 := by
  have h1 : |A * n| < 2 ^ 63 := by
    rw [abs_mul]
    have ha : |A| ≤ 2 ^ 32 - 1 := abs_le.mpr ⟨by omega, by omega⟩
    have hb : |n| ≤ 2 ^ 31 := abs_le.mpr ⟨by omega, by omega⟩
    have : |A| * |n| ≤ (2 ^ 32 - 1) * 2 ^ 31 := mul_le_mul ha hb (abs_nonneg _) (by norm_num)
    omega
  have h2 := abs_lt.mp h1
  constructor <;> omega

/-- The sign bit of a 32-bit word. -/
theorem srl31 (h : BitVec 32) : h >>> 31 = if h.toInt < 0 then 1 else 0 := by
  apply BitVec.eq_of_toNat_eq
  rw [BitVec.toNat_ushiftRight, Nat.shiftRight_eq_div_pow]
  have := h.isLt
  have e := BitVec.toInt_eq_toNat_cond h
  split
  · next hn =>
    have : (1 : BitVec 32).toNat = 1 := by decide
    rw [this]
    split at e <;> omega
  · next hn =>
    have : (0 : BitVec 32).toNat = 0 := by decide
    rw [this]
    split at e <;> omega

theorem sshift_toInt (h : BitVec 32) (s : ℕ) : (h.sshiftRight s).toInt = h.toInt / 2 ^ s := by
  rw [BitVec.toInt_sshiftRight, Int.shiftRight_eq_div_pow]
  norm_cast

theorem ediv_ediv_pow (a : ℤ) (s : ℕ) : a / 2 ^ 32 / 2 ^ s = a / 2 ^ (32 + s) := by
  rw [Int.ediv_ediv_of_nonneg (by positivity), ← pow_add]

/-- The quotient fits a word when the divisor is not `0`, `1` or `-1`. -/
theorem tdiv_range {n d : ℤ} (hn : -2 ^ 31 ≤ n ∧ n < 2 ^ 31) (hd : 2 ≤ d.natAbs) :
    -2 ^ 31 < n.tdiv d ∧ n.tdiv d < 2 ^ 31 := by
  have h1 : (n.tdiv d).natAbs = n.natAbs / d.natAbs := Int.natAbs_tdiv _ _
  have h2 : n.natAbs / d.natAbs ≤ n.natAbs / 2 := Nat.div_le_div_left hd (by norm_num)
  constructor <;> omega

theorem sign_of_high {a : ℤ} : a / 2 ^ 32 < 0 ↔ a < 0 := by omega

/-- The 32-bit sum both targets compute. -/
theorem sum32 {g : Magic} {d : ℤ} (hg : g.Good d) (n : BitVec 32) {H : BitVec 32}
    (hH : H = BitVec.ofInt 32 ((g.magic + g.factor * 2 ^ 32) * n.toInt / 2 ^ 32)) :
    H.sshiftRight g.shift + H >>> 31 = BitVec.ofInt 32 (n.toInt.tdiv d) := by
  have hr := high_range hg.big (i32_range n)
  have hHi : H.toInt = (g.magic + g.factor * 2 ^ 32) * n.toInt / 2 ^ 32 := by
    rw [hH]; exact toInt_ofInt32 hr.1 hr.2
  have hdiv := hg.div n.toInt (i32_range n).1 (i32_range n).2
  have e1 : H.sshiftRight g.shift =
      BitVec.ofInt 32 ((g.magic + g.factor * 2 ^ 32) * n.toInt / 2 ^ (32 + g.shift)) := by
    rw [← ediv_ediv_pow, ← hHi, ← sshift_toInt, BitVec.ofInt_toInt]
  have e2 : H >>> 31 = BitVec.ofInt 32
      (if (g.magic + g.factor * 2 ^ 32) * n.toInt < 0 then 1 else 0) := by
    rw [srl31]
    have : (H.toInt < 0) ↔ ((g.magic + g.factor * 2 ^ 32) * n.toInt < 0) := by
      rw [hHi]; exact sign_of_high
    by_cases h : H.toInt < 0
    · rw [if_pos h, if_pos (this.mp h)]; rfl
    · rw [if_neg h, if_neg (fun h' => h (this.mpr h'))]; rfl
  rw [e1, e2, ← BitVec.ofInt_add, hdiv]

/-- The RISC-V sequence, for a good magic number: the low half is always right; the whole register
is the sign extension when a shift was needed. -/
theorem rvSDivConst_good {g : Magic} {d : ℤ} (hg : g.Good d) (hd : 2 ≤ d.natAbs) (n : BitVec 32) :
    lo (rvSDivConst (sx n) g) = BitVec.ofInt 32 (n.toInt.tdiv d) ∧
      (g.shift ≠ 0 → rvSDivConst (sx n) g = sx (BitVec.ofInt 32 (n.toInt.tdiv d))) := by
  have hlo := lo_buildMul64Imm hg.factor n
  have hsum := sum32 hg n hlo
  have hs := hg.shift
  have e31 : (immW 31).toNat % 32 = 31 := by decide
  have es : (immW g.shift).toNat % 32 = g.shift := immW_nat32 (by omega)
  have hrun : rvSDivConst (sx n) g = sx (lo (buildMul64Imm (sx n) g) >>> 31) +
      (if g.shift = 0 then buildMul64Imm (sx n) g
        else sx ((lo (buildMul64Imm (sx n) g)).sshiftRight g.shift)) := by
    unfold rvSDivConst buildSRAIW
    simp only [Rv2.run, e31, es]
  have hlow : lo (rvSDivConst (sx n) g) = BitVec.ofInt 32 (n.toInt.tdiv d) := by
    rw [hrun, lo_add, lo_sx, BitVec.add_comm, ← hsum]
    congr 1
    split
    · next h0 => rw [h0]; simp
    · rw [lo_sx]
  refine ⟨hlow, fun h0 => ?_⟩
  rw [← hlow]
  refine (sx_lo_iff.mpr ?_).symm
  rw [hrun, if_neg h0]
  generalize hH : lo (buildMul64Imm (sx n) g) = H at *
  have h1 := i32_range (H.sshiftRight g.shift)
  have h2 : (H >>> 31).toInt = if H.toInt < 0 then 1 else 0 := by
    rw [srl31]; split <;> rfl
  have h3 : (sx (H >>> 31) + sx (H.sshiftRight g.shift)).toInt =
      (if H.toInt < 0 then 1 else 0) + H.toInt / 2 ^ g.shift := by
    rw [BitVec.toInt_add, toInt_sx, toInt_sx, h2, sshift_toInt]
    have := h1
    rw [sshift_toInt] at this
    refine Int.bmod_eq_of_le ?_ ?_
    · split <;> omega
    · split <;> omega
  rw [h3]
  rw [sshift_toInt] at h1
  have h5 := i32_range H
  have h6 : H.toInt / 2 ^ g.shift < 2 ^ 31 - 1 := by
    obtain ⟨k, hk⟩ : ∃ k, g.shift = k + 1 := ⟨g.shift - 1, by omega⟩
    rw [hk, pow_succ, Int.mul_comm, ← Int.ediv_ediv_of_nonneg (by norm_num)]
    have h7 : H.toInt / 2 < 2 ^ 30 := by omega
    rcases Int.lt_or_le (H.toInt / 2) 0 with h8 | h8
    · have := Int.ediv_neg_of_neg_of_pos h8 (show (0 : ℤ) < 2 ^ k by positivity)
      omega
    · have : H.toInt / 2 / 2 ^ k ≤ H.toInt / 2 := Int.ediv_le_self _ h8
      omega
  split <;> omega

/-- The ARM sequence. -/
theorem armSDivConst_good {g : Magic} {d : ℤ} (hg : g.Good d) (n : BitVec 32) :
    armSDivConst n g = BitVec.ofInt 32 (n.toInt.tdiv d) := by
  have hm : (BitVec.ofInt 32 g.magic).toInt = g.magic := toInt_ofInt32 hg.mlo hg.mhi
  have hn : BitVec.ofInt 32 n.toInt = n := BitVec.ofInt_toInt
  have hout : buildMulHiImm n g =
      BitVec.ofInt 32 ((g.magic + g.factor * 2 ^ 32) * n.toInt / 2 ^ 32) := by
    unfold buildMulHiImm armSmmla armSmmul
    simp only [Magic.fold, hm]
    rcases hg.factor with h | h | h <;> rw [h]
    · simp only [if_true]; ring_nf
    · simp only [one_ne_zero, if_false, if_true]
      rw [BitVec.ofInt_add, one_mul, hn]
    · rw [if_neg (by decide), if_neg (by decide)]
      rw [BitVec.ofInt_add, BitVec.sub_eq_add_neg, neg_one_mul, BitVec.ofInt_neg, hn]
  rw [← sum32 hg n hout]
  unfold armSDivConst
  simp only
  congr 1
  split
  · next h0 => rw [h0]; simp
  · rfl

/-! ## Powers of two -/

/-- Truncating division by a positive number, as a floor division of a corrected dividend. -/
theorem tdiv_as_floor {n D : ℤ} (hD : 0 < D) :
    n.tdiv D = (n + if n < 0 then D - 1 else 0) / D := by
  by_cases hn : n < 0
  · rw [if_pos hn]
    obtain ⟨m, rfl⟩ : ∃ m, n = -m := ⟨-n, by ring⟩
    have hm : 0 ≤ m := by omega
    rw [Int.neg_tdiv, Int.tdiv_eq_ediv_of_nonneg hm]
    have h1 := Int.mul_ediv_add_emod m D
    have h2 := Int.emod_nonneg m (show D ≠ 0 by omega)
    have h3 := Int.emod_lt_of_pos m hD
    have e : -m + (D - 1) = (D - 1 - m % D) + D * -(m / D) := by
      have : D * -(m / D) = -(D * (m / D)) := by ring
      omega
    have e0 : (D - 1 - m % D) / D = 0 := Int.ediv_eq_zero_of_lt (by omega) (by omega)
    rw [e, Int.add_mul_ediv_left _ _ (show D ≠ 0 by omega), e0, Int.zero_add]
  · rw [if_neg hn, Int.add_zero, Int.tdiv_eq_ediv_of_nonneg (by omega)]

theorem slt_zero (n : BitVec 32) : (sx n).slt 0 = decide (n.toInt < 0) := by
  rw [BitVec.slt_eq_decide, toInt_sx]
  rfl

/-- `2^s - 1` in the range of the shifts used. -/
theorem pow_range {s : ℕ} (hs : s ≤ 30) : (1 : ℤ) ≤ 2 ^ s ∧ (2 : ℤ) ^ s ≤ 2 ^ 30 := by
  constructor
  · exact_mod_cast Nat.one_le_two_pow
  · exact_mod_cast Nat.pow_le_pow_right (by norm_num) hs

theorem rvSDivPow2_ok (n : BitVec 32) {s : ℕ} (hs : s ≤ 30) :
    rvSDivPow2 (sx n) s = sx (BitVec.ofInt 32 (n.toInt.tdiv (2 ^ s))) := by
  have hp := pow_range hs
  have hn := i32_range n
  unfold rvSDivPow2
  rw [slt_zero]
  simp only [Rv2.run, immW_nat32 (show s < 32 by omega), decide_eq_true_eq]
  congr 1
  rw [tdiv_as_floor (by omega)]
  by_cases h : n.toInt < 0
  · rw [if_pos h, if_pos h, lo_sx, lo_sx, immW, lo_ofInt]
    have e : n + BitVec.ofInt 32 (2 ^ s - 1) = BitVec.ofInt 32 (n.toInt + (2 ^ s - 1)) := by
      rw [BitVec.ofInt_add, BitVec.ofInt_toInt]
    rw [e, ← BitVec.ofInt_toInt (x := (BitVec.ofInt 32 (n.toInt + (2 ^ s - 1))).sshiftRight s), sshift_toInt,
      toInt_ofInt32 (by omega) (by omega)]
  · rw [if_neg h, if_neg h, lo_sx, Int.add_zero, ← sshift_toInt, BitVec.ofInt_toInt]

/-- The low bits of an all-ones word. -/
theorem ones_shift {s : ℕ} (h1 : 1 ≤ s) (hs : s ≤ 31) :
    (BitVec.allOnes 32) >>> (32 - s) = BitVec.ofInt 32 (2 ^ s - 1) := by
  interval_cases s <;> decide

theorem sshift31 (n : BitVec 32) :
    n.sshiftRight 31 = if n.toInt < 0 then BitVec.allOnes 32 else 0 := by
  have hn := i32_range n
  apply BitVec.eq_of_toInt_eq
  rw [sshift_toInt]
  split
  · have : (BitVec.allOnes 32).toInt = -1 := by decide
    rw [this]; omega
  · have : (0 : BitVec 32).toInt = 0 := by decide
    rw [this]; omega

theorem armSDivPow2_ok (n : BitVec 32) {s : ℕ} (h1 : 1 ≤ s) (hs : s ≤ 30) :
    armSDivPow2 n s = BitVec.ofInt 32 (n.toInt.tdiv (2 ^ s)) := by
  have hp := pow_range hs
  have hn := i32_range n
  unfold armSDivPow2
  rw [sshift31, tdiv_as_floor (by omega)]
  by_cases h : n.toInt < 0
  · rw [if_pos h, if_pos h, ones_shift h1 (by omega)]
    have e : n + BitVec.ofInt 32 (2 ^ s - 1) = BitVec.ofInt 32 (n.toInt + (2 ^ s - 1)) := by
      rw [BitVec.ofInt_add, BitVec.ofInt_toInt]
    rw [e, ← BitVec.ofInt_toInt (x := (BitVec.ofInt 32 (n.toInt + (2 ^ s - 1))).sshiftRight s), sshift_toInt,
      toInt_ofInt32 (by omega) (by omega)]
  · rw [if_neg h, if_neg h, Int.add_zero]
    simp only [BitVec.ofNat_eq_ofNat, BitVec.zero_ushiftRight, BitVec.add_zero]
    rw [← sshift_toInt, BitVec.ofInt_toInt]

theorem armSDiv2_ok (n : BitVec 32) : armSDiv2 n = BitVec.ofInt 32 (n.toInt.tdiv 2) := by
  have hn := i32_range n
  unfold armSDiv2
  rw [srl31, tdiv_as_floor (by omega)]
  by_cases h : n.toInt < 0
  · rw [if_pos h, if_pos h]
    have e : n + 1 = BitVec.ofInt 32 (n.toInt + (2 - 1)) := by
      rw [BitVec.ofInt_add, BitVec.ofInt_toInt]; rfl
    rw [e, ← BitVec.ofInt_toInt (x := (BitVec.ofInt 32 (n.toInt + (2 - 1))).sshiftRight 1), sshift_toInt,
      toInt_ofInt32 (by omega) (by omega)]
    rfl
  · rw [if_neg h, if_neg h, Int.add_zero]
    simp only [BitVec.ofNat_eq_ofNat, BitVec.add_zero]
    rw [← BitVec.ofInt_toInt (x := n.sshiftRight 1), sshift_toInt]
    rfl

/-! ## Remainders -/

theorem ofInt_mod {n d : ℤ} :
    BitVec.ofInt 32 n - BitVec.ofInt 32 (n.tdiv d) * BitVec.ofInt 32 d =
      BitVec.ofInt 32 (n.tmod d) := by
  rw [← BitVec.ofInt_mul, BitVec.sub_eq_add_neg, ← BitVec.ofInt_neg, ← BitVec.ofInt_add]
  congr 1
  have := Int.mul_tdiv_add_tmod n d
  have e : n.tdiv d * d = d * n.tdiv d := by ring
  omega

theorem rvSRemConst_ok {n : BitVec 32} {q : W} {d : ℤ}
    (hq : lo q = BitVec.ofInt 32 (n.toInt.tdiv d)) :
    rvSRemConst (sx n) q d = sx (BitVec.ofInt 32 (n.toInt.tmod d)) := by
  unfold rvSRemConst
  simp only [Rv2.run]
  rw [lo_sx, lo_sx, hq, immW, lo_ofInt, ← ofInt_mod, BitVec.ofInt_toInt]

theorem armSRemConst_ok {n q : BitVec 32} {d : ℤ} (hq : q = BitVec.ofInt 32 (n.toInt.tdiv d)) :
    armSRemConst n q d = BitVec.ofInt 32 (n.toInt.tmod d) := by
  unfold armSRemConst
  rw [hq, ← ofInt_mod, BitVec.ofInt_toInt]

theorem armSRemPow2_ok {n q : BitVec 32} {s : ℕ} (hs : s < 32)
    (hq : q = BitVec.ofInt 32 (n.toInt.tdiv (2 ^ s))) :
    armSRemPow2 n q s = BitVec.ofInt 32 (n.toInt.tmod (2 ^ s)) := by
  rw [← armSRemConst_ok hq]
  unfold armSRemPow2 armSRemConst
  rw [BitVec.shiftLeft_eq_mul_twoPow]
  congr 2
  apply BitVec.eq_of_toNat_eq
  rw [BitVec.toNat_twoPow, BitVec.toNat_ofInt]
  have e : (2 : ℤ) ^ s = ((2 ^ s : ℕ) : ℤ) := by norm_cast
  rw [e]
  omega

/-! ## Division by `1 << shift` in a register -/

theorem one_shl {s : ℕ} (hs : s < 31) : ((1 : BitVec 32) <<< s).toInt = 2 ^ s := by
  interval_cases s <;> decide

theorem rvSDivShl_ok (n shift : BitVec 32) (hs : shift.toNat < 31) :
    rvSDivShl (sx n) (sx shift) =
      sx (BitVec.ofInt 32 (n.toInt.tdiv ((1 : BitVec 32) <<< shift.toNat).toInt)) := by
  have hx : (sx shift).toNat % 32 = shift.toNat := by
    have h1 : (lo (sx shift)).toNat = (sx shift).toNat % 2 ^ 32 := by
      unfold lo; rw [BitVec.toNat_setWidth]
    rw [lo_sx] at h1
    omega
  have hl1 : lo (immW 1) = 1 := by decide
  have hm1 : lo (immW (-1)) = -1 := by decide
  generalize hk : shift.toNat = k at *
  rw [one_shl hs, ← rvSDivPow2_ok n (s := k) (by omega)]
  unfold rvSDivShl rvSDivPow2
  simp only [Rv2.run, hx, immW_nat32 (show k < 32 by omega), lo_sx, hl1, hm1]
  have e : (1 : BitVec 32) <<< k + -1 = lo (immW (2 ^ k - 1)) := by
    interval_cases k <;> decide
  rw [e]

theorem armSDivShl_ok (n shift : BitVec 32) (hs : shift.toNat < 31) :
    armSDivShl n shift =
      BitVec.ofInt 32 (n.toInt.tdiv ((1 : BitVec 32) <<< shift.toNat).toInt) := by
  have hp := pow_range (s := shift.toNat) (by omega)
  rw [one_shl hs]
  unfold armSDivShl armAsr armLsr
  have e1 : shift.toNat % 256 = shift.toNat := by omega
  have e2 : (32 - shift).toNat % 256 = 32 - shift.toNat := by
    rw [BitVec.toNat_sub]
    have : (32 : BitVec 32).toNat = 32 := by decide
    rw [this]
    omega
  rw [e1, e2]
  by_cases h0 : shift.toNat = 0
  · rw [h0]
    have : (n.sshiftRight 31) >>> (32 - 0) = 0 := by
      apply BitVec.eq_of_toNat_eq
      rw [BitVec.toNat_ushiftRight, Nat.shiftRight_eq_div_pow]
      have := (n.sshiftRight 31).isLt
      have h2 : (0 : BitVec 32).toNat = 0 := by decide
      rw [h2]
      omega
    rw [this]
    simp
  · exact armSDivPow2_ok n (by omega) (by omega)

end Cmmc.Isel
