import Verif.Fe.Emit
import Mathlib.Tactic.IntervalCases
/-!
# Values and bit patterns: the conversions and operators of the front end compute what the specification says
-/
namespace Cmmc.Fe
open Cmmc

theorem Wd.bits_pos (w : Wd) : 8 ≤ w.bits := by cases w <;> decide
theorem Wd.bits_le (w : Wd) : w.bits ≤ 64 := by cases w <;> decide
theorem Wd.bits_gt_one (w : Wd) : ¬ w.bits ≤ 1 := by cases w <;> decide
theorem Wd.bytes_lt {a b : Wd} : a.bits / 8 < b.bits / 8 ↔ a.bits < b.bits := by cases a <;> cases b <;> decide
theorem Wd.bytes_le {a b : Wd} : a.bits / 8 ≤ b.bits / 8 ↔ a.bits ≤ b.bits := by cases a <;> cases b <;> decide
theorem Wd.bits_inj {a b : Wd} (h : a.bits = b.bits) : a = b := by cases a <;> cases b <;> simp_all [Wd.bits]

theorem pow_cast (n : Nat) : ((2 ^ n : Nat) : Int) = 2 ^ n := by push_cast; rfl

theorem toNat_ofInt (w : Wd) (v : Int) : (BitVec.ofInt w.bits v).toNat = raw w v := by
  rw [BitVec.toNat_ofInt, pow_cast]; rfl

theorem ofNat_raw (w : Wd) (v : Int) : BitVec.ofNat w.bits (raw w v) = BitVec.ofInt w.bits v := by
  rw [← toNat_ofInt, BitVec.ofNat_toNat, BitVec.setWidth_eq]

theorem raw_lt (w : Wd) (v : Int) : raw w v < 2 ^ w.bits := by
  rw [← toNat_ofInt]; exact (BitVec.ofInt w.bits v).isLt

theorem raw_mod (w : Wd) (v : Int) : raw w v % 2 ^ w.bits = raw w v := Nat.mod_eq_of_lt (raw_lt w v)

theorem raw_congr {w : Wd} {a b : Int} (h : a % 2 ^ w.bits = b % 2 ^ w.bits) : raw w a = raw w b := by
  unfold raw; rw [h]

theorem raw_emod (w : Wd) (v : Int) : raw w (v % 2 ^ w.bits) = raw w v := raw_congr (Int.emod_emod _ _)

theorem raw_cast (w : Wd) (v : Int) : ((raw w v : Nat) : Int) = v % 2 ^ w.bits := by
  unfold raw
  exact Int.toNat_of_nonneg (Int.emod_nonneg _ (by positivity))

theorem raw_raw (w : Wd) (v : Int) : raw w ((raw w v : Nat) : Int) = raw w v := by rw [raw_cast, raw_emod]

theorem conv_emod (t : IT) (v : Int) : conv t v % 2 ^ t.w.bits = v % 2 ^ t.w.bits := by
  unfold conv
  split
  · have := Int.bmod_emod (x := v) (m := 2 ^ t.w.bits)
    rwa [pow_cast] at this
  · exact Int.emod_emod _ _

theorem raw_conv (t : IT) (v : Int) : raw t.w (conv t v) = raw t.w v := raw_congr (conv_emod t v)

theorem conv_congr {t : IT} {a b : Int} (h : a % 2 ^ t.w.bits = b % 2 ^ t.w.bits) : conv t a = conv t b := by
  unfold conv
  split
  · unfold Int.bmod; simp only [pow_cast, h]
  · exact h

theorem conv_raw (t : IT) (v : Int) : conv t (raw t.w v) = conv t v :=
  conv_congr (by rw [raw_cast, Int.emod_emod])

theorem has_iff {t : IT} {v : Int} : t.has v = true ↔ t.lo ≤ v ∧ v ≤ t.hi := by
  simp [IT.has]

theorem two_half (w : Wd) : (2 : Int) ^ w.bits = 2 * 2 ^ (w.bits - 1) := IR.two_pow_split (by have := w.bits_pos; omega)

theorem conv_has (t : IT) (v : Int) : t.has (conv t v) = true := by
  rw [has_iff]
  have h2 := two_half t.w
  have hp : (0 : Int) < 2 ^ (t.w.bits - 1) := by positivity
  cases hs : t.sg with
  | true =>
    simp only [IT.lo, IT.hi, conv, hs, if_true]
    have hm : 0 < 2 ^ t.w.bits := by positivity
    have h1 := Int.le_bmod (x := v) hm
    have h3 := Int.bmod_lt (x := v) hm
    rw [pow_cast, h2] at h1 h3
    constructor <;> omega
  | false =>
    simp only [IT.lo, IT.hi, conv, hs]
    have h1 := Int.emod_nonneg v (b := (2 : Int) ^ t.w.bits) (by positivity)
    have h3 := Int.emod_lt_of_pos v (b := (2 : Int) ^ t.w.bits) (by positivity)
    constructor
    · simpa using h1
    · simp only [Bool.false_eq_true, if_false]; omega

theorem conv_of_has {t : IT} {v : Int} (h : t.has v = true) : conv t v = v := by
  rw [has_iff] at h
  have h2 := two_half t.w
  cases hs : t.sg with
  | true =>
    simp only [IT.lo, IT.hi, hs, if_true] at h
    simp only [conv, hs, if_true]
    apply Int.bmod_eq_of_le
    · rw [pow_cast, h2]; omega
    · rw [pow_cast, h2]; omega
  | false =>
    simp only [IT.lo, IT.hi, hs, Bool.false_eq_true, if_false] at h
    simp only [conv, hs, Bool.false_eq_true, if_false]
    exact Int.emod_eq_of_lt h.1 (by omega)

/-- two values of a type with the same pattern are equal -/
theorem raw_inj {t : IT} {a b : Int} (ha : t.has a = true) (hb : t.has b = true) (h : raw t.w a = raw t.w b) : a = b := by
  have : conv t (raw t.w a) = conv t (raw t.w b) := by rw [h]
  rwa [conv_raw, conv_raw, conv_of_has ha, conv_of_has hb] at this

theorem sval_of_has {t : IT} (hs : t.sg = true) {v : Int} (h : t.has v = true) : IR.sval (BitVec.ofInt t.w.bits v) = v := by
  apply IR.sval_ofInt
  rw [has_iff] at h
  have := t.w.bits_gt_one
  simpa [IR.Fits, IR.lo, IR.hi, this, IT.lo, IT.hi, hs] using h

theorem fits_iff {t : IT} (hs : t.sg = true) {v : Int} : IR.Fits t.w.bits v ↔ t.has v = true := by
  rw [has_iff]
  have := t.w.bits_gt_one
  simp [IR.Fits, IR.lo, IR.hi, this, IT.lo, IT.hi, hs]

theorem toNat_of_has {t : IT} (hs : t.sg = false) {v : Int} (h : t.has v = true) : ((raw t.w v : Nat) : Int) = v := by
  rw [raw_cast]
  have := conv_of_has h
  simpa [conv, hs] using this

theorem sx_raw {t : IT} (hs : t.sg = true) {v : Int} (h : t.has v = true) : sx t.w.bits (raw t.w v) = v := by
  have := sval_of_has hs h
  have hg := t.w.bits_gt_one
  simp only [IR.sval, hg, if_false] at this
  unfold sx
  rw [ofNat_raw]
  exact this

/-- the value of a constant as the compiler reads it -/
theorem cval_raw {t : IT} {v : Int} (h : t.has v = true) :
    (if t.sg then sx t.w.bits (raw t.w v) else ((raw t.w v : Nat) : Int)) = v := by
  cases hs : t.sg with
  | true => simpa using sx_raw hs h
  | false => simpa using toNat_of_has hs h

theorem sx_emod (w : Wd) (v : Int) : sx w.bits (raw w v) % 2 ^ w.bits = v % 2 ^ w.bits := by
  have := sx_raw (t := ⟨w, true⟩) rfl (conv_has ⟨w, true⟩ v)
  simp only [raw_conv ⟨w, true⟩ v] at this
  rw [this]
  exact conv_emod ⟨w, true⟩ v

/-! ## types -/

theorem applyPromotion_eq (t : IT) : applyPromotion t = promote t := by
  rcases t with ⟨w, s⟩
  cases w <;> cases s <;> rfl

theorem selectTarget_eq (a b : IT) : selectTarget a b = usual a b := by
  rcases a with ⟨wa, sa⟩
  rcases b with ⟨wb, sb⟩
  cases wa <;> cases wb <;> cases sa <;> cases sb <;> rfl

theorem implicitTarget_none (a b : IT) : implicitTarget none a b = usual a b := selectTarget_eq a b

theorem implicitTarget_some (op : BOp) (a b : IT) : implicitTarget (some op) a b = opTy op a b := by
  cases op <;> simp [implicitTarget, opTy, BOp.isShift, selectTarget_eq, applyPromotion_eq]

theorem promote_has {t : IT} {v : Int} (h : t.has v = true) : (promote t).has v = true := by
  rw [has_iff] at *
  rcases t with ⟨w, s⟩
  cases w <;> cases s <;> revert h <;> simp [promote, IT.lo, IT.hi, Wd.bits, IT.int] <;> omega

/-! ## casts -/

/-- widening -/
theorem ext_ok {src dst : IT} {v : Int} (h : src.has v = true) (hw : src.w.bits < dst.w.bits) :
    (IR.castVal dst.w.bits (if src.sg then .sext else .zext) (BitVec.ofInt src.w.bits v)).toNat = raw dst.w v := by
  cases hs : src.sg with
  | true =>
    simp only [if_true, IR.castVal]
    rw [sval_of_has hs h, toNat_ofInt]
  | false =>
    simp only [Bool.false_eq_true, if_false, IR.castVal]
    rw [BitVec.toNat_setWidth, toNat_ofInt]
    have h1 := raw_lt src.w v
    have h2 : 2 ^ src.w.bits < 2 ^ dst.w.bits := Nat.pow_lt_pow_right (by decide) hw
    rw [Nat.mod_eq_of_lt (by omega)]
    have h3 := toNat_of_has hs h
    have h4 : raw dst.w ((raw src.w v : Nat) : Int) = raw src.w v := by
      zify
      rw [raw_cast, Int.emod_eq_of_lt (by omega)]
      have := pow_cast dst.w.bits
      omega
    rw [← h4, h3]

/-- narrowing (or same width) -/
theorem trunc_ok {src : Wd} {dst : IT} (sg : Bool) (v : Int) (hw : dst.w.bits ≤ src.bits) :
    (IR.castVal dst.w.bits (if sg then .strunc else .ztrunc) (BitVec.ofInt src.bits v)).toNat = raw dst.w v := by
  have hd : (2 : Int) ^ dst.w.bits ∣ 2 ^ src.bits := pow_dvd_pow 2 hw
  cases sg with
  | true =>
    simp only [if_true, IR.castVal]
    rw [toNat_ofInt]
    apply raw_congr
    have h1 := sx_emod src v
    have hg := src.bits_gt_one
    have h2 : sx src.bits (raw src v) = IR.sval (BitVec.ofInt src.bits v) := by
      unfold sx; rw [ofNat_raw]; simp [IR.sval, hg]
    rw [h2] at h1
    have h3 := congrArg (· % (2 : Int) ^ dst.w.bits) h1
    simp only [Int.emod_emod_of_dvd _ hd] at h3
    exact h3
  | false =>
    simp only [Bool.false_eq_true, if_false, IR.castVal]
    rw [BitVec.toNat_setWidth, toNat_ofInt]
    zify
    rw [raw_cast, raw_cast, Int.emod_emod_of_dvd _ hd]

/-! ## binary operators -/

theorem arith_some {t : IT} {r v : Int} (h : arith t r = some v) : raw t.w r = raw t.w v ∧ t.has v = true := by
  unfold arith at h
  split at h
  · split at h
    · cases h; exact ⟨rfl, by assumption⟩
    · cases h
  · rename_i hs
    cases h
    refine ⟨(raw_emod _ _).symm, ?_⟩
    have := conv_has t r
    simpa [conv, hs] using this

theorem arith_uns {t : IT} (hs : t.sg = false) {r v : Int} (h : arith t r = some v) : v = r % 2 ^ t.w.bits := by
  unfold arith at h
  simp [hs] at h
  exact h.symm

theorem arith_sig {t : IT} (hs : t.sg = true) {r v : Int} (h : arith t r = some v) : v = r ∧ t.has r = true := by
  unfold arith at h
  simp [hs] at h
  exact ⟨h.2.symm, h.1⟩

theorem nonneg_of_uns {t : IT} (hs : t.sg = false) {v : Int} (h : t.has v = true) : 0 ≤ v := by
  rw [has_iff] at h; simpa [IT.lo, hs] using h.1

theorem ofInt_ne_zero {t : IT} {y : Int} (hy : t.has y = true) (h : y ≠ 0) : BitVec.ofInt t.w.bits y ≠ 0 := by
  intro h0
  apply h
  apply raw_inj (t := t) hy
  · rw [has_iff]
    have hp : (0 : Int) < 2 ^ (t.w.bits - 1) := by positivity
    have hp2 : (0 : Int) < 2 ^ t.w.bits := by positivity
    cases hs : t.sg <;> simp [IT.lo, IT.hi, hs] <;> omega
  · rw [← toNat_ofInt, ← toNat_ofInt, h0]; simp

theorem zero_has (t : IT) : t.has 0 = true := by
  rw [has_iff]
  have hp : (0 : Int) < 2 ^ (t.w.bits - 1) := by positivity
  have hp2 : (0 : Int) < 2 ^ t.w.bits := by positivity
  cases hs : t.sg <;> simp [IT.lo, IT.hi, hs] <;> omega

theorem small_has (t : IT) {v : Int} (h0 : 0 ≤ v) (h1 : v ≤ 127) : t.has v = true := by
  rw [has_iff]
  rcases t with ⟨w, s⟩
  cases w <;> cases s <;> simp [IT.lo, IT.hi, Wd.bits] <;> omega

theorem raw_small (w : Wd) {v : Int} (h0 : 0 ≤ v) (h1 : v ≤ 127) : raw w v = v.toNat := by
  have h := toNat_of_has (t := ⟨w, false⟩) rfl (small_has _ h0 h1)
  simp only at h
  omega

/-- the instruction chosen for a non-comparison computes the operator -/
theorem bin_ok {op : BOp} {t : IT} {x y v : Int} {bo : IR.BinOp} (hx : t.has x = true) (hy : t.has y = true)
    (h : binop op t x y = some v) (hb : getBinaryOp op t.sg = some bo) :
    IR.binDef false bo (BitVec.ofInt t.w.bits x) (BitVec.ofInt t.w.bits y) ∧
    (IR.binVal bo (BitVec.ofInt t.w.bits x) (BitVec.ofInt t.w.bits y)).toNat = raw t.w v ∧ t.has v = true := by
  have hnx : t.sg = false → ((BitVec.ofInt t.w.bits x).toNat : Int) = x := fun hs => by rw [toNat_ofInt]; exact toNat_of_has hs hx
  have hny : t.sg = false → ((BitVec.ofInt t.w.bits y).toNat : Int) = y := fun hs => by rw [toNat_ofInt]; exact toNat_of_has hs hy
  cases op with
  | add =>
    cases hb
    obtain ⟨h1, h2⟩ := arith_some h
    refine ⟨by simp [IR.binDef], ?_, h2⟩
    simp only [IR.binVal]
    rw [← BitVec.ofInt_add, toNat_ofInt, h1]
  | sub =>
    cases hb
    obtain ⟨h1, h2⟩ := arith_some h
    refine ⟨by simp [IR.binDef], ?_, h2⟩
    simp only [IR.binVal]
    rw [BitVec.sub_eq_add_neg, ← BitVec.ofInt_neg, ← BitVec.ofInt_add, toNat_ofInt, ← Int.sub_eq_add_neg, h1]
  | mul =>
    cases hb
    obtain ⟨h1, h2⟩ := arith_some h
    refine ⟨by simp [IR.binDef], ?_, h2⟩
    simp only [IR.binVal]
    rw [← BitVec.ofInt_mul, toNat_ofInt, h1]
  | div =>
    simp only [binop] at h
    split at h
    · cases h
    · rename_i hy0
      have hne := ofInt_ne_zero hy hy0
      cases hs : t.sg with
      | true =>
        simp only [getBinaryOp, hs, if_true] at hb
        cases hb
        obtain ⟨rfl, h2⟩ := arith_sig hs h
        simp only [IR.binDef, IR.binVal, sval_of_has hs hx, sval_of_has hs hy]
        exact ⟨⟨hne, (fits_iff hs).2 h2⟩, toNat_ofInt _ _, h2⟩
      | false =>
        simp only [getBinaryOp, hs, Bool.false_eq_true, if_false] at hb
        cases hb
        obtain ⟨h1, h2⟩ := arith_some h
        refine ⟨hne, ?_, h2⟩
        simp only [IR.binVal]
        rw [← h1, ← toNat_ofInt]
        congr 1
        rw [← BitVec.ofInt_natCast]
        congr 1
        rw [Int.natCast_ediv, hnx hs, hny hs, Int.tdiv_eq_ediv_of_nonneg (nonneg_of_uns hs hx)]
  | rem =>
    simp only [binop] at h
    split at h
    · cases h
    · rename_i hy0
      have hne := ofInt_ne_zero hy hy0
      cases hs : t.sg with
      | true =>
        simp only [getBinaryOp, hs, if_true] at hb
        cases hb
        simp only [hs, Bool.true_and] at h
        split at h
        · cases h
        · rename_i h2
          have h2 : t.has (x.tdiv y) = true := by simpa using h2
          cases h
          simp only [IR.binDef, IR.binVal, sval_of_has hs hx, sval_of_has hs hy]
          refine ⟨⟨hne, (fits_iff hs).2 h2⟩, toNat_ofInt _ _, ?_⟩
          rw [has_iff] at hx hy ⊢
          simp only [IT.lo, IT.hi, hs, if_true] at *
          have hxt := Int.natAbs_tmod x y
          have hle : x.natAbs % y.natAbs ≤ x.natAbs := Nat.mod_le _ _
          by_cases hxp : 0 ≤ x
          · have h3 := Int.tmod_nonneg y hxp
            have h4 : (x.tmod y).natAbs ≤ x.natAbs := by rw [hxt]; exact hle
            omega
          · have h3 : x.tmod y ≤ 0 := by
              have := Int.tmod_nonneg y (a := -x) (by omega)
              rw [Int.neg_tmod] at this; omega
            have h4 : (x.tmod y).natAbs ≤ x.natAbs := by rw [hxt]; exact hle
            omega
      | false =>
        simp only [getBinaryOp, hs, Bool.false_eq_true, if_false] at hb
        cases hb
        simp only [hs, Bool.false_and, Bool.false_eq_true, if_false] at h
        cases h
        have hx0 := nonneg_of_uns hs hx
        have hy0' := nonneg_of_uns hs hy
        have he : x.tmod y = x % y := Int.tmod_eq_emod_of_nonneg hx0
        refine ⟨hne, ?_, ?_⟩
        · simp only [IR.binVal]
          rw [← toNat_ofInt]
          congr 1
          rw [← BitVec.ofInt_natCast]
          congr 1
          rw [Int.natCast_emod, hnx hs, hny hs, he]
        · rw [he]
          rw [has_iff] at hx hy ⊢
          simp only [IT.lo, IT.hi, hs, Bool.false_eq_true, if_false] at *
          have h1 := Int.emod_nonneg x hy0
          have h3 := Int.emod_lt_of_pos x (show 0 < y by omega)
          omega
  | band =>
    cases hb; cases h
    refine ⟨trivial, ?_, conv_has _ _⟩
    unfold bitop
    rw [raw_conv]
    simp only [IR.binVal]
    rw [← toNat_ofInt, BitVec.ofInt_natCast, BitVec.ofNat_toNat, BitVec.setWidth_eq]
  | bor =>
    cases hb; cases h
    refine ⟨trivial, ?_, conv_has _ _⟩
    unfold bitop
    rw [raw_conv]
    simp only [IR.binVal]
    rw [← toNat_ofInt, BitVec.ofInt_natCast, BitVec.ofNat_toNat, BitVec.setWidth_eq]
  | xor =>
    cases hb; cases h
    refine ⟨trivial, ?_, conv_has _ _⟩
    unfold bitop
    rw [raw_conv]
    simp only [IR.binVal]
    rw [← toNat_ofInt, BitVec.ofInt_natCast, BitVec.ofNat_toNat, BitVec.setWidth_eq]
  | shl =>
    simp only [binop] at h
    split at h
    · rename_i hr
      cases hb; cases h
      have hb64 := t.w.bits_le
      have hyn : (BitVec.ofInt t.w.bits y).toNat = y.toNat := by rw [toNat_ofInt]; exact raw_small _ hr.1 (by omega)
      refine ⟨?_, ?_, conv_has _ _⟩
      · simp only [IR.binDef]; omega
      · simp only [IR.binVal]
        rw [raw_conv, hyn, ← toNat_ofInt, BitVec.shiftLeft_eq_mul_twoPow]
        congr 1
        rw [BitVec.ofInt_mul]
        congr 1
        apply BitVec.eq_of_toNat_eq
        rw [toNat_ofInt, BitVec.toNat_twoPow]
        unfold raw
        have : (2 : Int) ^ y.toNat % 2 ^ t.w.bits = ((2 ^ y.toNat % 2 ^ t.w.bits : Nat) : Int) := by push_cast; rfl
        rw [this]; rfl
    · cases h
  | shr =>
    simp only [binop] at h
    split at h
    · rename_i hr
      cases h
      have hb64 := t.w.bits_le
      have hyn : (BitVec.ofInt t.w.bits y).toNat = y.toNat := by rw [toNat_ofInt]; exact raw_small _ hr.1 (by omega)
      have hpos : (1 : Int) ≤ 2 ^ y.toNat := by
        have : (0 : Int) < 2 ^ y.toNat := by positivity
        omega
      have hhas : t.has (x / 2 ^ y.toNat) = true := by
        rw [has_iff] at hx ⊢
        have hlo : t.lo ≤ 0 := by
          have hp : (0 : Int) < 2 ^ (t.w.bits - 1) := by positivity
          cases hs : t.sg <;> simp [IT.lo, hs]
        have hhi : 0 ≤ t.hi := (has_iff.1 (zero_has t)).2
        by_cases hx0 : 0 ≤ x
        · have h1 : 0 ≤ x / 2 ^ y.toNat := Int.ediv_nonneg hx0 (by omega)
          have h2 : x / 2 ^ y.toNat ≤ x := Int.ediv_le_self _ hx0
          omega
        · have h1 : x / 2 ^ y.toNat < 0 := Int.ediv_neg_of_neg_of_pos (by omega) (by omega)
          have h2 : x ≤ x / 2 ^ y.toNat := by
            rw [Int.le_ediv_iff_mul_le (by omega)]
            nlinarith
          omega
      cases hs : t.sg with
      | true =>
        simp only [getBinaryOp, hs, if_true] at hb
        cases hb
        refine ⟨by simp only [IR.binDef]; omega, ?_, hhas⟩
        simp only [IR.binVal, sval_of_has hs hx, hyn]
        exact toNat_ofInt _ _
      | false =>
        simp only [getBinaryOp, hs, Bool.false_eq_true, if_false] at hb
        cases hb
        refine ⟨by simp only [IR.binDef]; omega, ?_, hhas⟩
        simp only [IR.binVal]
        rw [hyn, BitVec.toNat_ushiftRight, Nat.shiftRight_eq_div_pow]
        zify
        rw [hnx hs, toNat_of_has hs hhas]
    · cases h
  | lt => simp [getBinaryOp] at hb
  | le => simp [getBinaryOp] at hb
  | gt => simp [getBinaryOp] at hb
  | ge => simp [getBinaryOp] at hb
  | eq => simp [getBinaryOp] at hb
  | ne => simp [getBinaryOp] at hb

/-- the comparison instruction computes the comparison -/
theorem cmp_ok {op : BOp} {t : IT} {x y v : Int} (hx : t.has x = true) (hy : t.has y = true)
    (h : binop op t x y = some v) (hb : getBinaryOp op t.sg = none) :
    v = b2i (IR.cmpVal (getCompareOp op t.sg) (BitVec.ofInt t.w.bits x) (BitVec.ofInt t.w.bits y)) := by
  have heq : BitVec.ofInt t.w.bits x = BitVec.ofInt t.w.bits y ↔ x = y := by
    constructor
    · intro h
      apply raw_inj hx hy
      rw [← toNat_ofInt, ← toNat_ofInt, h]
    · intro h; rw [h]
  have hnx : t.sg = false → ((BitVec.ofInt t.w.bits x).toNat : Int) = x := fun hs => by rw [toNat_ofInt]; exact toNat_of_has hs hx
  have hny : t.sg = false → ((BitVec.ofInt t.w.bits y).toNat : Int) = y := fun hs => by rw [toNat_ofInt]; exact toNat_of_has hs hy
  have hult : t.sg = false → ((BitVec.ofInt t.w.bits x).toNat < (BitVec.ofInt t.w.bits y).toNat ↔ x < y) := fun hs => by
    have h1 := hnx hs; have h2 := hny hs; omega
  have hule : t.sg = false → ((BitVec.ofInt t.w.bits x).toNat ≤ (BitVec.ofInt t.w.bits y).toNat ↔ x ≤ y) := fun hs => by
    have h1 := hnx hs; have h2 := hny hs; omega
  have hugt : t.sg = false → ((BitVec.ofInt t.w.bits y).toNat < (BitVec.ofInt t.w.bits x).toNat ↔ y < x) := fun hs => by
    have h1 := hnx hs; have h2 := hny hs; omega
  have huge : t.sg = false → ((BitVec.ofInt t.w.bits y).toNat ≤ (BitVec.ofInt t.w.bits x).toNat ↔ y ≤ x) := fun hs => by
    have h1 := hnx hs; have h2 := hny hs; omega
  cases hs : t.sg with
  | true =>
    cases op <;> simp only [getBinaryOp, reduceCtorEq] at hb <;> simp only [binop, Option.some.injEq] at h <;> subst h <;>
      simp only [getCompareOp, if_true, IR.cmpVal, sval_of_has hs hx, sval_of_has hs hy] <;> congr 1 <;> simp [heq]
  | false =>
    have h1 := hnx hs
    have h2 := hny hs
    cases op <;> simp only [getBinaryOp, reduceCtorEq] at hb <;> simp only [binop, Option.some.injEq] at h <;> subst h <;>
      simp only [getCompareOp, Bool.false_eq_true, if_false, IR.cmpVal] <;> congr 1 <;>
      first
        | (simp [heq]; done)
        | (simp only [decide_eq_decide]; omega)

/-- constant folding computes the operator -/
theorem eval_ok {op : BOp} {t : IT} {x y v r : Int} (hx : t.has x = true) (hy : t.has y = true)
    (h : binop op t x y = some v) (he : evaluateOp op x y = some r) : raw t.w r = raw t.w v ∧ t.has v = true := by
  cases op <;> simp only [evaluateOp, reduceCtorEq] at he
  · cases he; exact arith_some h
  · cases he; exact arith_some h
  · cases he; exact arith_some h
  · simp only [binop] at h
    split at h
    · cases h
    · rename_i h0
      rw [if_neg h0] at he
      cases he; exact arith_some h
  · have hh : ∃ bo, getBinaryOp .rem t.sg = some bo := ⟨_, rfl⟩
    obtain ⟨bo, hb⟩ := hh
    have h2 := (bin_ok hx hy h hb).2.2
    simp only [binop] at h
    split at h
    · cases h
    · rename_i h0
      rw [if_neg h0] at he
      cases he
      split at h
      · cases h
      · cases h; exact ⟨rfl, h2⟩

theorem b2i_has (b : Bool) : IT.int.has (b2i b) = true := by cases b <;> decide

end Cmmc.Fe
