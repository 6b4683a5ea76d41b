import Verif.Isel.TreeProps
import Mathlib.Tactic.IntervalCases

/-!
# The identities between words behind the selection rules
-/

namespace Cmmc.Isel

theorem immW_toInt {v : ℤ} (h : -2 ^ 63 ≤ v ∧ v < 2 ^ 63) : (immW v).toInt = v :=
  toInt_ofInt64 h.1 h.2

theorem wrap64_range (v : ℤ) : -2 ^ 63 ≤ wrap64 v ∧ wrap64 v < 2 ^ 63 := by
  unfold wrap64
  have h1 := Int.le_bmod (x := v) (m := 2 ^ 64) (by norm_num)
  have h2 := Int.bmod_lt (x := v) (m := 2 ^ 64) (by norm_num)
  norm_num at h1 h2 ⊢
  exact ⟨by omega, by omega⟩

theorem immW_wrap64 (v : ℤ) : immW (wrap64 v) = immW v := by
  apply BitVec.eq_of_toInt_eq
  simp only [immW, wrap64, BitVec.toInt_ofInt]
  exact Int.bmod_bmod

/-- The integer meaning of a comparison of registers. -/
def CC.rel : CC → ℤ → ℤ → Prop
  | .eq, a, b => a = b
  | .ne, a, b => a ≠ b
  | .slt, a, b => a < b
  | .sle, a, b => a ≤ b
  | .sgt, a, b => b < a
  | .sge, a, b => b ≤ a
  | .ult, a, b => (0 ≤ a ∧ b < 0) ∨ ((0 ≤ a ↔ 0 ≤ b) ∧ a < b)
  | .ugt, a, b => (0 ≤ b ∧ a < 0) ∨ ((0 ≤ b ↔ 0 ≤ a) ∧ b < a)
  | .ule, a, b => ¬((0 ≤ b ∧ a < 0) ∨ ((0 ≤ b ↔ 0 ≤ a) ∧ b < a))
  | .uge, a, b => ¬((0 ≤ a ∧ b < 0) ∨ ((0 ≤ a ↔ 0 ≤ b) ∧ a < b))

theorem ule_not {w : ℕ} (a b : BitVec w) : a.ule b = !b.ult a := by
  rw [BitVec.ule_eq_decide, BitVec.ult_eq_decide, ← decide_not]
  exact decide_eq_decide.mpr (by omega)

theorem CC.run_iff (c : CC) (x y : W) : c.run x y = true ↔ c.rel x.toInt y.toInt := by
  cases c <;> simp only [CC.run, CC.rel]
  · rw [beq_iff_eq, ← BitVec.toInt_inj]
  · rw [bne_iff_ne, ne_eq, ← BitVec.toInt_inj]
  · rw [BitVec.slt_eq_decide, decide_eq_true_eq]
  · rw [BitVec.sle_eq_decide, decide_eq_true_eq]
  · rw [BitVec.slt_eq_decide, decide_eq_true_eq]
  · rw [BitVec.sle_eq_decide, decide_eq_true_eq]
  · rw [ult_toInt (by omega), decide_eq_true_eq]
  · rw [ule_not, ult_toInt (by omega), Bool.not_eq_true', decide_eq_false_iff_not]
  · rw [ult_toInt (by omega), decide_eq_true_eq]
  · rw [ule_not, ult_toInt (by omega), Bool.not_eq_true', decide_eq_false_iff_not]

theorem CC.run_eq {c c' : CC} {x y x' y' : W} (h : c.rel x.toInt y.toInt ↔ c'.rel x'.toInt y'.toInt) :
    c.run x y = c'.run x' y' := by
  rw [Bool.eq_iff_iff, CC.run_iff, CC.run_iff, h]

/-- Comparing with a constant, and with the next one. -/
theorem cmp_next {t : Ty} {x : W} {v v' : ℤ} {c c' : CC} (hx : Holds t x)
    (hv : -2 ^ 63 ≤ v ∧ v < 2 ^ 63) (hvt : Holds t (immW v))
    (hv' : -2 ^ 63 ≤ v' ∧ v' < 2 ^ 63) (hvt' : Holds t (immW v'))
    (ht : t ≠ .b) (h : ∀ a, c.rel a v ↔ c'.rel a v') :
    c.run (prj t x) (prj t (immW v)) = c'.run (prj t x) (prj t (immW v')) := by
  rw [CC.run_prj (fun _ => ht) hx hvt, CC.run_prj (fun _ => ht) hx hvt']
  apply CC.run_eq
  rw [immW_toInt hv, immW_toInt hv']
  exact h _

theorem maxS_spec {s : Ty} {m v : ℤ} (hm : maxS s = some m) (hv : Holds s (immW v))
    (hr : -2 ^ 63 ≤ v ∧ v < 2 ^ 63) (hlt : v < m) : s ≠ .b ∧ -2 ^ 63 ≤ v + 1 ∧ v + 1 < 2 ^ 63 ∧ Holds s (immW (v + 1)) := by
  cases s <;> simp only [maxS, Option.some.injEq, reduceCtorEq] at hm
  · refine ⟨by decide, by omega, by omega, ?_⟩
    rw [holds_iff (by decide), immW_toInt hr] at hv
    rw [holds_iff (by decide), immW_toInt ⟨by omega, by omega⟩]
    simp only [Ty.width] at hv ⊢
    omega
  · exact ⟨by decide, by omega, by omega, holds_i64 _⟩

theorem minS_spec {s : Ty} {m v : ℤ} (hm : minS s = some m) (hv : Holds s (immW v))
    (hr : -2 ^ 63 ≤ v ∧ v < 2 ^ 63) (hlt : m < v) : s ≠ .b ∧ -2 ^ 63 ≤ v - 1 ∧ v - 1 < 2 ^ 63 ∧ Holds s (immW (v - 1)) := by
  cases s <;> simp only [minS, Option.some.injEq, reduceCtorEq] at hm
  · refine ⟨by decide, by omega, by omega, ?_⟩
    rw [holds_iff (by decide), immW_toInt hr] at hv
    rw [holds_iff (by decide), immW_toInt ⟨by omega, by omega⟩]
    simp only [Ty.width] at hv ⊢
    omega
  · exact ⟨by decide, by omega, by omega, holds_i64 _⟩

/-- Unsigned `<=` the largest signed value. -/
theorem ule_max {s : Ty} {m : ℤ} {x : W} (hm : maxS s = some m) (hx : Holds s x) :
    CC.ule.run (prj s x) (prj s (immW m)) = x.ult (immW (wrap64 (m + 1))) := by
  change _ = CC.ult.run x (immW (wrap64 (m + 1)))
  cases s <;> simp only [maxS, Option.some.injEq, reduceCtorEq] at hm
  · subst hm
    rw [CC.run_prj (by simp [CC.signed]) hx (by decide)]
    apply CC.run_eq
    rw [show (immW (2 ^ 31 - 1)).toInt = 2 ^ 31 - 1 by decide,
      show (immW (wrap64 (2 ^ 31 - 1 + 1))).toInt = 2 ^ 31 by decide]
    have h := (holds_iff (by decide)).mp hx
    simp only [Ty.width] at h
    simp only [CC.rel]
    omega
  · subst hm
    rw [prj_i64, prj_i64]
    apply CC.run_eq
    rw [show (immW (2 ^ 63 - 1)).toInt = 2 ^ 63 - 1 by decide,
      show (immW (wrap64 (2 ^ 63 - 1 + 1))).toInt = -2 ^ 63 by decide]
    have h := (holds_iff (t := .i64) (by decide)).mp hx
    simp only [Ty.width] at h
    simp only [CC.rel]
    omega

theorem uge_min {s : Ty} {m : ℤ} {x : W} (hm : minS s = some m) (hx : Holds s x) :
    CC.uge.run (prj s x) (prj s (immW m)) = (immW (wrap64 (m - 1))).ult x := by
  change _ = CC.ult.run (immW (wrap64 (m - 1))) x
  cases s <;> simp only [minS, Option.some.injEq, reduceCtorEq] at hm
  · subst hm
    rw [CC.run_prj (by simp [CC.signed]) hx (by decide)]
    apply CC.run_eq
    rw [show (immW (-2 ^ 31)).toInt = -2 ^ 31 by decide,
      show (immW (wrap64 (-2 ^ 31 - 1))).toInt = -2 ^ 31 - 1 by decide]
    have h := (holds_iff (by decide)).mp hx
    simp only [Ty.width] at h
    simp only [CC.rel]
    omega
  · subst hm
    rw [prj_i64, prj_i64]
    apply CC.run_eq
    rw [show (immW (-2 ^ 63)).toInt = -2 ^ 63 by decide,
      show (immW (wrap64 (-2 ^ 63 - 1))).toInt = 2 ^ 63 - 1 by decide]
    have h := (holds_iff (t := .i64) (by decide)).mp hx
    simp only [Ty.width] at h
    simp only [CC.rel]
    omega

theorem ult_one (x : W) : x.ult 1 = (x == 0) := by
  rw [Bool.eq_iff_iff, BitVec.ult_eq_decide, decide_eq_true_eq, beq_iff_eq, ← BitVec.toNat_inj]
  simp

theorem zero_ult (x : W) : (0 : W).ult x = (x != 0) := by
  rw [Bool.eq_iff_iff, BitVec.ult_eq_decide, decide_eq_true_eq, bne_iff_ne, ne_eq, ← BitVec.toNat_inj]
  simp
  omega

theorem bit_not (b : Bool) : bit b ^^^ 1 = bit (!b) := by cases b <;> rfl

theorem sle_not (x y : W) : x.sle y = !y.slt x := by
  rw [BitVec.sle_eq_decide, BitVec.slt_eq_decide, ← decide_not]
  exact decide_eq_decide.mpr (by omega)

theorem prj_bit (b : Bool) : prj .b (bit b) = 1 ↔ b = true := by cases b <;> decide

/-! ## Masks and extensions -/

theorem mask_eq (x : W) {k : ℕ} (hk : k < 64) :
    x &&& immW (2 ^ k - 1) = (x.setWidth k).setWidth 64 := by
  apply BitVec.eq_of_toNat_eq
  have h2 : 2 ^ k < 2 ^ 64 := Nat.pow_lt_pow_right (by norm_num) hk
  have h1 : (immW (2 ^ k - 1)).toNat = 2 ^ k - 1 := by
    simp only [immW, BitVec.toNat_ofInt]
    have : (2 : ℤ) ^ k = ((2 ^ k : ℕ) : ℤ) := by push_cast; rfl
    rw [this]
    have := Nat.one_le_two_pow (n := k)
    omega
  rw [BitVec.toNat_and, h1, Nat.and_two_pow_sub_one_eq_mod, BitVec.toNat_setWidth, BitVec.toNat_setWidth]
  rw [Nat.mod_eq_of_lt (b := 2 ^ 64)]
  exact lt_trans (Nat.mod_lt _ (by positivity)) h2

/-- A value zero extended to a wider type, in a register. -/
theorem inj_zext {w : ℕ} {t : Ty} (h : w < t.width) (u : BitVec w) :
    inj t (u.setWidth t.width) = u.setWidth 64 := by
  have key : ∀ n, w < n → n ≤ 64 → (u.setWidth n).signExtend 64 = u.setWidth 64 := by
    intro n hn hn64
    rw [BitVec.signExtend_eq_setWidth_of_msb_false]
    · apply BitVec.eq_of_toNat_eq
      simp only [BitVec.toNat_setWidth]
      rw [Nat.mod_eq_of_lt (lt_trans u.isLt (Nat.pow_lt_pow_right (by norm_num) hn))]
    · rw [BitVec.msb_setWidth, BitVec.getLsbD_of_ge _ _ (by omega)]
      simp
  cases t <;> simp only [Ty.width] at h <;> simp only [inj, Ty.width]
  · have : w = 0 := by omega
    subst this
    rw [BitVec.eq_nil u]; rfl
  · exact key 8 h (by omega)
  · exact key 16 h (by omega)
  · exact key 32 h (by omega)

theorem zext_b {t : Ty} {x : W} (h : Holds .b x) (ht : 1 < t.width) :
    inj t ((prj .b x).setWidth t.width) = x := by
  exact (inj_zext (w := 1) ht (prj .b x)).trans h

theorem sext_eq {s t : Ty} (hs : s ≠ .b) (hst : s.width < t.width) {x : W} (h : Holds s x) :
    inj t ((prj s x).signExtend t.width) = x := by
  have ht : t ≠ .b := by rintro rfl; revert hst hs; cases s <;> decide
  apply BitVec.eq_of_toInt_eq
  rw [← toInt_prj hs h, ← toInt_prj ht (holds_inj t _), prj_inj, BitVec.toInt_signExtend_of_le (by omega)]

theorem trunc_prj {s : Ty} {k : ℕ} (h : k ≤ s.width) (x : W) : (prj s x).setWidth k = x.setWidth k := by
  unfold prj
  exact BitVec.setWidth_setWidth_of_le x h

/-! ## Arithmetic -/

theorem immW_neg (v : ℤ) : immW (-v) = -immW v := by
  unfold immW; exact BitVec.ofInt_neg

theorem sub_imm {t : Ty} (ht : t = .i32 ∨ t = .i64) (x : W) (v : ℤ) :
    prj t x - prj t (immW v) = prj t x + prj t (immW (-v)) := by
  rw [immW_neg]
  rcases ht with rfl | rfl
  · show lo x - lo (immW v) = lo x + lo (-immW v)
    rw [lo_neg, ← BitVec.sub_eq_add_neg]
  · rw [prj_i64, prj_i64, prj_i64]
    exact BitVec.sub_eq_add_neg _ _

theorem toInt_neg32 (n : BitVec 32) : (-n).toInt = if n.toInt = -2 ^ 31 then -2 ^ 31 else -n.toInt := by
  have := i32_range n
  rw [BitVec.toInt_neg, Int.bmod_def]
  norm_num at this ⊢
  split_ifs <;> omega

theorem abs_max (n : BitVec 32) :
    Rv2.max.run (sx (lo 0 - n)) (sx n) = sx (if n.slt 0 then -n else n) := by
  have h1 := toInt_neg32 n
  have h2 := i32_range n
  have e : lo 0 - n = -n := by
    show (0 : BitVec 32) - n = -n
    simp
  rw [e]
  simp only [Rv2.run, BitVec.slt_eq_decide, toInt_sx, decide_eq_true_eq,
    show (0 : BitVec 32).toInt = 0 from rfl]
  split_ifs at h1 ⊢ <;> first | rfl | (exfalso; omega) | skip
  · congr 1
    apply BitVec.eq_of_toInt_eq
    rw [toInt_neg32]; split_ifs; omega

theorem neg_abs_min (n : BitVec 32) :
    Rv2.min.run (sx (lo 0 - n)) (sx n) = sx (lo 0 - (if n.slt 0 then -n else n)) := by
  have h1 := toInt_neg32 n
  have h2 := i32_range n
  have e : ∀ m, lo 0 - m = -m := by
    intro m
    show (0 : BitVec 32) - m = -m
    simp
  rw [e, e]
  simp only [Rv2.run, BitVec.slt_eq_decide, toInt_sx, decide_eq_true_eq,
    show (0 : BitVec 32).toInt = 0 from rfl]
  split_ifs at h1 ⊢ <;> first | rfl | (exfalso; omega) | skip
  all_goals
    congr 1
    apply BitVec.eq_of_toInt_eq
  all_goals try simp only [BitVec.neg_neg]
  all_goals try rw [toInt_neg32]
  all_goals try split_ifs
  all_goals omega

theorem sdiv_ofInt {w : ℕ} (x y : BitVec w) : x.sdiv y = BitVec.ofInt w (x.toInt.tdiv y.toInt) := by
  apply BitVec.eq_of_toInt_eq
  rw [BitVec.toInt_sdiv, BitVec.toInt_ofInt]

theorem srem_ofInt {w : ℕ} (x y : BitVec w) : x.srem y = BitVec.ofInt w (x.toInt.tmod y.toInt) := by
  rw [← BitVec.toInt_srem, BitVec.ofInt_toInt]

theorem sub_sub_add (a b c : BitVec 32) : a - (b - c) = a + c - b := by
  apply BitVec.eq_of_toNat_eq
  simp only [BitVec.toNat_sub, BitVec.toNat_add]
  have := a.isLt
  have := b.isLt
  have := c.isLt
  omega

/-! ## Shifts -/

theorem shamt {t : Ty} {n : ℕ} (hn : n ∣ 2 ^ t.width) (hn' : 2 ^ t.width ∣ 2 ^ 64) {y : W}
    (h : (prj t y).toNat < n) : y.toNat % n = (prj t y).toNat := by
  have e : (prj t y).toNat = y.toNat % 2 ^ t.width := by simp [prj]
  rw [e] at h ⊢
  have : y.toNat % 2 ^ t.width % n = y.toNat % n := Nat.mod_mod_of_dvd _ hn
  rw [Nat.mod_eq_of_lt h] at this
  omega

theorem shamt32 {y : W} (h : (lo y).toNat < 32) : y.toNat % 32 = (lo y).toNat :=
  shamt (t := .i32) (by norm_num [Ty.width]) (by norm_num [Ty.width]) h

theorem shamt64 {y : W} (h : y.toNat < 64) : y.toNat % 64 = y.toNat := Nat.mod_eq_of_lt h

theorem immW_toNat {k : ℤ} (h0 : 0 ≤ k) (h : k < 64) : (immW k).toNat = k.toNat := by
  simp only [immW, BitVec.toNat_ofInt]
  omega

theorem hi_toNat (x : W) : (lo (x >>> 32)).toNat = x.toNat / 2 ^ 32 := by
  have := x.isLt
  simp only [lo, BitVec.toNat_setWidth, BitVec.toNat_ushiftRight, Nat.shiftRight_eq_div_pow]
  omega

theorem hi_toInt (x : W) : (lo (x >>> 32)).toInt = x.toInt / 2 ^ 32 := by
  have := x.isLt
  rw [BitVec.toInt_eq_toNat_cond, hi_toNat, BitVec.toInt_eq_toNat_cond]
  split_ifs <;> push_cast <;> omega

theorem srlw_hi (x : W) {k : ℕ} (h0 : 0 < k) (hk : k < 32) :
    sx (lo (x >>> 32) >>> k) = x >>> (k + 32) := by
  have hm : (lo (x >>> 32) >>> k).msb = false := by
    rw [BitVec.msb_ushiftRight]; simp; omega
  unfold sx
  rw [BitVec.signExtend_eq_setWidth_of_msb_false hm]
  apply BitVec.eq_of_toNat_eq
  rw [BitVec.toNat_setWidth, BitVec.toNat_ushiftRight, BitVec.toNat_ushiftRight, hi_toNat,
    Nat.shiftRight_eq_div_pow, Nat.shiftRight_eq_div_pow, Nat.div_div_eq_div_mul, ← pow_add,
    Nat.mod_eq_of_lt, Nat.add_comm]
  exact lt_of_le_of_lt (Nat.div_le_self _ _) x.isLt

theorem sraw_hi (x : W) {k : ℕ} (hk : k < 32) :
    sx ((lo (x >>> 32)).sshiftRight k) = x.sshiftRight (k + 32) := by
  apply BitVec.eq_of_toInt_eq
  rw [toInt_sx, BitVec.toInt_sshiftRight, BitVec.toInt_sshiftRight, hi_toInt,
    Int.shiftRight_eq_div_pow, Int.shiftRight_eq_div_pow]
  push_cast
  rw [Int.ediv_ediv_of_nonneg (by positivity), pow_add, mul_comm]
  norm_num

theorem mask_imm {k : ℕ} (hk : k ≤ 11) : immW (-2 ^ k) = (BitVec.allOnes 64) <<< k := by
  interval_cases k <;> decide

theorem sx_getLsbD (n : BitVec 32) (i : ℕ) :
    (sx n).getLsbD i = (decide (i < 64) && if i < 32 then n.getLsbD i else n.msb) := by
  unfold sx; rw [BitVec.getLsbD_signExtend]

theorem shift_mask (n : BitVec 32) {k : ℕ} (h0 : 0 < k) (hk : k ≤ 11) :
    sx (n.sshiftRight k) <<< k = sx n &&& immW (-2 ^ k) := by
  rw [mask_imm hk]
  apply BitVec.eq_of_getLsbD_eq
  intro i hi
  rw [BitVec.getLsbD_shiftLeft, BitVec.getLsbD_and, BitVec.getLsbD_shiftLeft, sx_getLsbD, sx_getLsbD,
    BitVec.getLsbD_sshiftRight, BitVec.msb_sshiftRight, BitVec.getLsbD_allOnes]
  have e : k + (i - k) = i ∨ i < k := by omega
  rcases e with e | e
  · rw [e]
    by_cases h1 : i - k < 32 <;> by_cases h2 : i < 32 <;> simp [h1, h2, show ¬ i < k by omega, hi,
      show i - k < 64 by omega]
    all_goals omega
  · simp [e]

theorem shift_maskW (n : BitVec 32) {k : ℕ} (h0 : 0 < k) (hk : k ≤ 11) :
    sx (n.sshiftRight k <<< k) = sx n &&& immW (-2 ^ k) := by
  rw [mask_imm hk]
  apply BitVec.eq_of_getLsbD_eq
  intro i hi
  rw [BitVec.getLsbD_and, BitVec.getLsbD_shiftLeft, sx_getLsbD, sx_getLsbD,
    BitVec.getLsbD_shiftLeft, BitVec.getLsbD_sshiftRight, BitVec.getLsbD_allOnes,
    BitVec.msb_eq_getLsbD_last (x := n.sshiftRight k <<< k),
    BitVec.getLsbD_shiftLeft, BitVec.getLsbD_sshiftRight, BitVec.msb_eq_getLsbD_last]
  have e : k + (i - k) = i ∨ i < k := by omega
  have e2 : k + (32 - 1 - k) = 31 := by omega
  rw [e2]
  rcases e with e | e
  · rw [e]
    by_cases h2 : i < 32 <;> simp [h2, show ¬ i < k by omega, hi, show ¬ 31 < k by omega,
      show i - k < 64 by omega]
    all_goals omega
  · simp [e, show i < 32 by omega]

theorem sll_li (v : ℤ) {k : ℕ} : immW v <<< k = immW (wrap64 (v * 2 ^ k)) := by
  rw [immW_wrap64, BitVec.shiftLeft_eq_mul_twoPow, immW, immW, BitVec.ofInt_mul]
  congr 1
  apply BitVec.eq_of_toNat_eq
  rw [BitVec.toNat_twoPow, BitVec.toNat_ofInt]
  have : (2 : ℤ) ^ k = ((2 ^ k : ℕ) : ℤ) := by push_cast; rfl
  rw [this]
  norm_cast

theorem add_uw (x : W) {v : ℤ} (h0 : 0 < v) (h : v ≤ 2047) :
    (lo (immW v)).setWidth 64 + x <<< 32 = x <<< 32 ||| immW v := by
  have e : (lo (immW v)).setWidth 64 = immW v := by
    apply BitVec.eq_of_toNat_eq
    simp only [lo, immW, BitVec.toNat_setWidth, BitVec.toNat_ofInt]
    omega
  rw [e, BitVec.add_comm]
  apply BitVec.add_eq_or_of_and_eq_zero
  apply BitVec.eq_of_getLsbD_eq
  intro i hi
  rw [BitVec.getLsbD_and, BitVec.getLsbD_shiftLeft]
  by_cases h32 : i < 32
  · simp [h32]
  · have : (immW v).getLsbD i = false := by
      have hn : (immW v).toNat = v.toNat := by
        simp only [immW, BitVec.toNat_ofInt]; omega
      rw [BitVec.getLsbD, hn]
      apply Nat.testBit_lt_two_pow
      have : (2 : ℕ) ^ 32 ≤ 2 ^ i := Nat.pow_le_pow_right (by norm_num) (by omega)
      omega
    simp [this]

theorem not_xor_bool {x y : W} (hx : Holds .b x) (hy : Holds .b y) : x &&& (y ^^^ 1) = x &&& ~~~y := by
  rcases holds_b.mp hx with rfl | rfl <;> rcases holds_b.mp hy with rfl | rfl <;> decide

theorem xor_ones (y : W) : y ^^^ immW (-1) = ~~~y := by
  rw [show immW (-1) = BitVec.allOnes 64 by decide, BitVec.xor_allOnes]

end Cmmc.Isel
