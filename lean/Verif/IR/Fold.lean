import Verif.IR.Expr
/-!
# `ConstantInteger` (cmmc/IR/ConstantValue.cpp:43-95,139-146) and constant folding (cmmc/Transforms/Combine/ConstantPropagation.cpp:64-257)

C24 and C25. Host arithmetic is 64-bit (`intmax_t`/`uintmax_t`), modelled by `BitVec 64`; the specification is the `w`-bit arithmetic of
`Verif.IR.Expr`.
-/
namespace Cmmc.IR

/-- a `ConstantInteger` of `IntegerType::get(w)`: its `mValue` -/
structure CI (w : Nat) where
  v : BitVec 64
deriving DecidableEq

namespace CI

/-- `getSignExtended` (ConstantValue.cpp:47-58) -/
def getSignExtended {w : Nat} (c : CI w) : BitVec 64 :=
  if w = 1 then (if c.v ≠ 0 then 1 else 0)
  else if w = 64 then c.v
  else
    let mask : BitVec 64 := (1#64 <<< w) - 1
    let low := c.v &&& mask
    let high := if c.v &&& (1#64 <<< (w - 1)) ≠ 0 then ~~~mask else 0
    high ||| low

/-- `getZeroExtended` (ConstantValue.cpp:60-66) -/
def getZeroExtended {w : Nat} (c : CI w) : BitVec 64 :=
  if w = 64 then c.v
  else
    let mask : BitVec 64 := (1#64 <<< w) - 1
    c.v &&& mask

/-- `ConstantInteger::get` (ConstantValue.cpp:79-95); the cached zero objects have storage 0 as well -/
def get (w : Nat) (value : BitVec 64) : CI w :=
  if w = 1 then (if value &&& 1 ≠ 0 then ⟨1⟩ else ⟨0⟩)
  else ⟨value⟩

/-- `isEqual` (ConstantValue.cpp:142-145, ConstantValue.hpp:28-35); the two constants may have different types -/
def isEqual {w w' : Nat} (a : CI w) (b : CI w') : Bool := a.getSignExtended == b.getSignExtended

/-- `hash` (ConstantValue.cpp:139-141): a function of the sign-extended value -/
def hash {w : Nat} (H : BitVec 64 → Nat) (a : CI w) : Nat := H a.getSignExtended

/-- specification: the `w`-bit number this constant stands for -/
def value {w : Nat} (c : CI w) : BitVec w := c.v.setWidth w

/-- boolean constants are only built by `get` (getTrue/getFalse; the constructor is private) -/
def WF {w : Nat} (c : CI w) : Prop := w = 1 → c.v = 0 ∨ c.v = 1

end CI

theorem mask_toNat {w : Nat} (hw : w < 64) : ((1#64 <<< w) - 1) = BitVec.ofNat 64 (2 ^ w - 1) := by
  have h1 : 2 ^ w < 2 ^ 64 := Nat.pow_lt_pow_right (by omega) hw
  have h2 : 0 < 2 ^ w := Nat.two_pow_pos w
  apply BitVec.eq_of_toNat_eq
  rw [BitVec.toNat_sub, BitVec.toNat_shiftLeft, BitVec.toNat_ofNat]
  simp only [BitVec.toNat_ofNat, Nat.shiftLeft_eq]
  have h3 : (1 : BitVec 64).toNat = 1 := rfl
  rw [h3]
  norm_num at h1 ⊢
  rw [Nat.mod_eq_of_lt (a := 2 ^ w - 1) (by omega)]
  omega

theorem mask_bit {w : Nat} (hw : w < 64) (i : Nat) : ((1#64 <<< w) - 1).getLsbD i = decide (i < w) := by
  rw [mask_toNat hw, BitVec.getLsbD_ofNat, Nat.testBit_two_pow_sub_one]
  by_cases h : i < w
  · simp [h]; omega
  · simp [h]

/-- C25: `getZeroExtended` is the unsigned reading of the low `w` bits -/
theorem C25_zero_extended {w : Nat} (hw : w ≤ 64) (c : CI w) : c.getZeroExtended = c.value.setWidth 64 := by
  unfold CI.getZeroExtended CI.value
  split
  · rename_i h; subst h; simp
  · apply BitVec.eq_of_getLsbD_eq
    intro i hi
    simp only [BitVec.getLsbD_and, BitVec.getLsbD_setWidth, mask_bit (show w < 64 by omega)]
    by_cases h : i < w <;> simp [h, hi]

/-- C25: `getSignExtended` is the signed reading of the low `w` bits (0/1 for booleans) -/
theorem C25_sign_extended {w : Nat} (hw : w ≤ 64) (h0 : 0 < w) (c : CI w) (hc : c.WF) : c.getSignExtended.toInt = sval c.value := by
  unfold CI.getSignExtended CI.value
  by_cases h1 : w = 1
  · subst h1
    rcases hc rfl with h | h <;> rw [h] <;> decide
  · rw [if_neg h1]
    have hs : sval (c.v.setWidth w) = (c.v.setWidth w).toInt := by unfold sval; rw [if_neg (by omega)]
    rw [hs]
    by_cases h2 : w = 64
    · subst h2; simp
    · rw [if_neg h2]
      have key : (let mask : BitVec 64 := (1#64 <<< w) - 1
          let low := c.v &&& mask
          let high := if c.v &&& (1#64 <<< (w - 1)) ≠ 0 then ~~~mask else 0
          high ||| low) = (c.v.setWidth w).signExtend 64 := by
        apply BitVec.eq_of_getLsbD_eq
        intro i hi
        have hb : (c.v &&& (1#64 <<< (w - 1)) ≠ 0) ↔ c.v.getLsbD (w - 1) = true := by
          constructor
          · intro h
            by_contra hn
            apply h
            apply BitVec.eq_of_getLsbD_eq
            intro j hj
            rw [BitVec.getLsbD_and, BitVec.getLsbD_shiftLeft, BitVec.getLsbD_one]
            by_cases hj' : j = w - 1
            · subst hj'; simp at hn; simp [hn]
            · by_cases hlt : j < w - 1
              · simp [hlt]
              · simp [show ¬ (j - (w - 1) = 0) by omega]
          · intro h h'
            have := congrArg (fun x => x.getLsbD (w - 1)) h'
            simp only [BitVec.getLsbD_and, BitVec.getLsbD_shiftLeft, h, BitVec.getLsbD_one] at this
            simp at this
            omega
        simp only [BitVec.getLsbD_or, BitVec.getLsbD_and, mask_bit (show w < 64 by omega), BitVec.getLsbD_signExtend,
          BitVec.getLsbD_setWidth]
        have hm : (c.v.setWidth w).msb = c.v.getLsbD (w - 1) := by
          rw [BitVec.msb_eq_getLsbD_last, BitVec.getLsbD_setWidth]; simp [h0]
        rw [hm]
        by_cases hbit : c.v.getLsbD (w - 1) = true
        · rw [if_pos (hb.2 hbit)]
          simp only [BitVec.getLsbD_not, mask_bit (show w < 64 by omega), hbit]
          by_cases h : i < w <;> simp [h, hi]
        · rw [if_neg (fun h => hbit (hb.1 h))]
          simp only [Bool.not_eq_true] at hbit
          rw [hbit]
          by_cases h : i < w <;> simp [h, hi]
      rw [key, BitVec.toInt_signExtend_of_le (by omega)]

/-- C25: `get` stores the low `w` bits of the given number, and booleans are canonical -/
theorem C25_get {w : Nat} (hw : w ≤ 64) (x : BitVec 64) : (CI.get w x).value = x.setWidth w ∧ (CI.get w x).WF := by
  unfold CI.get CI.value CI.WF
  by_cases h1 : w = 1
  · subst h1
    simp only [if_true]
    have hb : (x &&& 1 ≠ 0) ↔ x.getLsbD 0 = true := by
      constructor
      · intro h
        by_contra hn
        apply h
        apply BitVec.eq_of_getLsbD_eq
        intro j hj
        rw [BitVec.getLsbD_and, show (1 : BitVec 64) = 1#64 from rfl, BitVec.getLsbD_one]
        by_cases hj' : j = 0
        · subst hj'; simp at hn; simp [hn]
        · simp [hj']
      · intro h h'
        have := congrArg (fun x => x.getLsbD 0) h'
        simp only [BitVec.getLsbD_and, h] at this
        exact absurd this (by decide)
    constructor
    · apply BitVec.eq_of_getLsbD_eq
      intro i hi
      have : i = 0 := by omega
      subst this
      by_cases h : x.getLsbD 0 = true
      · rw [if_pos (hb.2 h)]
        rw [BitVec.getLsbD_setWidth, BitVec.getLsbD_setWidth, h]; decide
      · rw [if_neg (fun h' => h (hb.1 h'))]
        simp only [Bool.not_eq_true] at h
        rw [BitVec.getLsbD_setWidth, BitVec.getLsbD_setWidth, h]; decide
    · intro _
      split
      · exact Or.inr rfl
      · exact Or.inl rfl
  · rw [if_neg h1]
    exact ⟨rfl, fun h => absurd h h1⟩

theorem ofInt_toInt64 {w : Nat} (hw : w ≤ 64) (x : BitVec 64) : x.setWidth w = BitVec.ofInt w x.toInt := by
  have h : BitVec.ofInt 64 x.toInt = x := BitVec.ofInt_toInt
  apply BitVec.eq_of_toNat_eq
  rw [BitVec.toNat_setWidth, BitVec.toNat_ofInt]
  have h1 : (x.toInt : Int) = x.toNat ∨ (x.toInt : Int) = x.toNat - 2 ^ 64 := by
    rw [BitVec.toInt_eq_toNat_cond]; split
    · exact Or.inl rfl
    · exact Or.inr (by push_cast; rfl)
  have hd : ((2 ^ w : Nat) : Int) ∣ 2 ^ 64 := by
    push_cast; exact pow_dvd_pow 2 hw
  have h2 : x.toInt % ((2 ^ w : Nat) : Int) = (x.toNat : Int) % ((2 ^ w : Nat) : Int) := by
    rcases h1 with h1 | h1
    · rw [h1]
    · rw [h1, Int.sub_emod, Int.emod_eq_zero_of_dvd hd]; simp
  rw [h2]
  omega

/-- C25: reading a constant and building it again gives the same number, with both extensions -/
theorem C25_round_trip {w : Nat} (hw : w ≤ 64) (h0 : 0 < w) (c : CI w) (hc : c.WF) :
    (CI.get w c.getSignExtended).value = c.value ∧ (CI.get w c.getZeroExtended).value = c.value := by
  constructor
  · rw [(C25_get hw _).1, ofInt_toInt64 hw, C25_sign_extended hw h0 c hc, ofInt_sval]
  · rw [(C25_get hw _).1, C25_zero_extended hw, BitVec.setWidth_setWidth_of_le _ hw, BitVec.setWidth_eq]

/-- C25: equal constants of one type denote the same number and hash equally, whatever the hash function -/
theorem C25_equal_iff {w : Nat} (hw : w ≤ 64) (h0 : 0 < w) (a b : CI w) (ha : a.WF) (hb : b.WF) :
    (a.isEqual b = true ↔ a.value = b.value) ∧ ∀ H, a.isEqual b = true → a.hash H = b.hash H := by
  unfold CI.isEqual CI.hash
  refine ⟨?_, fun H h => by rw [eq_of_beq h]⟩
  rw [beq_iff_eq, ← sval_inj (x := a.value), ← C25_sign_extended hw h0 a ha, ← C25_sign_extended hw h0 b hb]
  exact ⟨fun h => by rw [h], fun h => BitVec.eq_of_toInt_eq h⟩

/-- hypotheses are satisfiable: `-1 : i8` and `255 : i8` are equal, `-1 : i8` and `255 : i32` are not -/
example : (CI.get 8 (-1)).isEqual (CI.get 8 255) = true ∧ (CI.get 8 (-1)).isEqual (CI.get 32 255) = false := by decide

/-! ## folding -/

/-- binary instructions (ConstantPropagation.cpp:90-125). Result `none`: not folded. -/
def foldBin {w : Nat} (op : BinOp) (a b : CI w) : Option (CI w) :=
  let i1 := a.getSignExtended
  let i2 := b.getSignExtended
  let u1 := a.getZeroExtended
  let u2 := b.getZeroExtended
  match op with
  | .add => some (.get w (i1 + i2))
  | .sub => some (.get w (i1 - i2))
  | .mul => some (.get w (i1 * i2))
  | .sdiv => if i2 ≠ 0 then (if i1 = BitVec.intMin 64 ∧ i2 = -1 then some (.get w i1) else some (.get w (i1.sdiv i2))) else none
  | .udiv => if u2 ≠ 0 then some (.get w (u1 / u2)) else none
  | .srem => if i2 ≠ 0 then some (.get w (i1.srem i2)) else none
  | .urem => if u2 ≠ 0 then some (.get w (u1 % u2)) else none
  | .shl => some (.get w (u1 <<< u2.toNat))
  | .lshr => some (.get w (u1 >>> u2.toNat))
  | .ashr => some (.get w (i1.sshiftRight u2.toNat))
  | .smin => some (.get w (if i2.slt i1 then i2 else i1))
  | .smax => some (.get w (if i1.slt i2 then i2 else i1))
  | .and => some (.get w (u1 &&& u2))
  | .or => some (.get w (u1 ||| u2))
  | .xor => some (.get w (u1 ^^^ u2))

/-- `Neg` and `Abs` (lines 86-89) -/
def foldNeg {w : Nat} (a : CI w) : CI w := .get w (-a.getSignExtended)
def foldAbs {w : Nat} (a : CI w) : CI w := .get w a.getSignExtended.abs

/-- `doCompare` (lines 147-171) -/
def doCompare (c : Cmp) (l r : BitVec 64) : Bool :=
  match c with
  | .eq => l == r
  | .ne => l != r
  | .slt => l.slt r
  | .sle => l.sle r
  | .sgt => r.slt l
  | .sge => r.sle l
  | .ult => l.ult r
  | .ule => l.ule r
  | .ugt => r.ult l
  | .uge => r.ule l

def foldCmp {w : Nat} (c : Cmp) (a b : CI w) : CI 1 :=
  .get 1 (if doCompare c a.getSignExtended b.getSignExtended then 1 else 0)

/-- casts (lines 214-225) -/
def foldCast {w : Nat} (op : CastOp) (w' : Nat) (a : CI w) : CI w' :=
  match op with
  | .strunc | .sext => .get w' a.getSignExtended
  | .zext | .ztrunc => .get w' a.getZeroExtended


theorem sx_toInt {w : Nat} (hw : w ≤ 64) (h0 : 0 < w) {a : CI w} (ha : a.WF) : a.getSignExtended.toInt = sval a.value :=
  C25_sign_extended hw h0 a ha

theorem ux_toNat {w : Nat} (hw : w ≤ 64) (a : CI w) : a.getZeroExtended.toNat = a.value.toNat := by
  rw [C25_zero_extended hw, BitVec.toNat_setWidth]
  have := a.value.isLt
  have h1 : 2 ^ w ≤ 2 ^ 64 := Nat.pow_le_pow_right (by omega) hw
  exact Nat.mod_eq_of_lt (by omega)

theorem setWidth_sx {w : Nat} (hw : w ≤ 64) (h0 : 0 < w) {a : CI w} (ha : a.WF) : a.getSignExtended.setWidth w = a.value := by
  rw [ofInt_toInt64 hw, sx_toInt hw h0 ha, ofInt_sval]

theorem setWidth_ux {w : Nat} (hw : w ≤ 64) (a : CI w) : a.getZeroExtended.setWidth w = a.value := by
  rw [C25_zero_extended hw, BitVec.setWidth_setWidth_of_le _ hw, BitVec.setWidth_eq]

/-- host and target arithmetic agree modulo `2^w` -/
theorem setWidth_sub' {w : Nat} (hw : w ≤ 64) (x y : BitVec 64) : (x - y).setWidth w = x.setWidth w - y.setWidth w := by
  have h : ∀ z : BitVec 64, z.setWidth w = BitVec.ofInt w z.toInt := fun z => ofInt_toInt64 hw z
  rw [BitVec.sub_eq_add_neg, BitVec.sub_eq_add_neg, BitVec.setWidth_add _ _ hw]
  congr 1
  have h2 : (-y).setWidth w + y.setWidth w = 0 := by rw [← BitVec.setWidth_add _ _ hw]; simp
  exact eq_neg_of_add_eq_zero_left h2

theorem fits64 {w : Nat} (hw : w ≤ 64) {i : Int} (h : Fits w i) : -2 ^ 63 ≤ i ∧ i < 2 ^ 63 := by
  unfold Fits lo hi at h
  by_cases h1 : w ≤ 1
  · simp only [h1, if_true] at h
    have : (2 : Int) ^ w ≤ 2 ^ 1 := pow_le_pow_right₀ (by norm_num) h1
    constructor <;> norm_num at * <;> omega
  · simp only [h1, if_false] at h
    have : (2 : Int) ^ (w - 1) ≤ 2 ^ 63 := pow_le_pow_right₀ (by norm_num) (by omega)
    constructor <;> omega

theorem get_of_toInt {w : Nat} (hw : w ≤ 64) (x : BitVec 64) : (CI.get w x).value = BitVec.ofInt w x.toInt := by
  rw [(C25_get hw x).1, ofInt_toInt64 hw]

theorem get_of_toNat {w : Nat} (hw : w ≤ 64) (x : BitVec 64) : (CI.get w x).value = BitVec.ofNat w x.toNat := by
  rw [(C25_get hw x).1]
  apply BitVec.eq_of_toNat_eq
  simp

/-- C24 (binary instructions): whenever the instruction is defined on the constants, it is folded, to the constant it evaluates to. -/
theorem C24_fold_bin {w : Nat} (hw : w ≤ 64) (h0 : 0 < w) (op : BinOp) (a b : CI w) (ha : a.WF) (hb : b.WF)
    (hd : binDef false op a.value b.value) : ∃ c, foldBin op a b = some c ∧ c.WF ∧ c.value = binVal op a.value b.value := by
  have A := sx_toInt hw h0 ha
  have B := sx_toInt hw h0 hb
  have UA := ux_toNat hw a
  have UB := ux_toNat hw b
  have WFg : ∀ x, (CI.get w x).WF := fun x => (C25_get hw x).2
  have B0 : b.getSignExtended ≠ 0 ↔ b.value ≠ 0 := by
    rw [not_iff_not, ← BitVec.toInt_inj, B, eq_zero_iff]; simp
  have U0 : b.getZeroExtended ≠ 0 ↔ b.value ≠ 0 := by
    rw [not_iff_not, ← BitVec.toNat_inj, UB, ← BitVec.toNat_inj]; simp
  cases op
  case add => exact ⟨_, rfl, WFg _, by
    rw [(C25_get hw _).1, BitVec.setWidth_add _ _ hw, setWidth_sx hw h0 ha, setWidth_sx hw h0 hb]; rfl⟩
  case sub => exact ⟨_, rfl, WFg _, by
    rw [(C25_get hw _).1, setWidth_sub' hw, setWidth_sx hw h0 ha, setWidth_sx hw h0 hb]; rfl⟩
  case mul => exact ⟨_, rfl, WFg _, by
    rw [(C25_get hw _).1, BitVec.setWidth_mul _ _ hw, setWidth_sx hw h0 ha, setWidth_sx hw h0 hb]; rfl⟩
  case sdiv =>
    have hne : ¬ (a.getSignExtended = BitVec.intMin 64 ∧ b.getSignExtended = -1) := by
      rintro ⟨h1, h2⟩
      have := fits64 hw hd.2
      rw [← A, ← B, h1, h2] at this
      exact absurd this (by decide)
    refine ⟨.get w (a.getSignExtended.sdiv b.getSignExtended), ?_, WFg _, ?_⟩
    · simp only [foldBin]
      rw [if_pos (B0.2 hd.1), if_neg hne]
    · rw [get_of_toInt hw, BitVec.toInt_sdiv, A, B]
      simp only [binVal]
      rw [Int.bmod_eq_of_le]
      · have := fits64 hw hd.2; norm_num at this ⊢; omega
      · have := fits64 hw hd.2; norm_num at this ⊢; omega
  case udiv =>
    refine ⟨.get w (a.getZeroExtended / b.getZeroExtended), ?_, WFg _, ?_⟩
    · simp only [foldBin]; rw [if_pos (U0.2 hd)]
    · rw [get_of_toNat hw, BitVec.toNat_udiv, UA, UB]; rfl
  case srem =>
    refine ⟨.get w (a.getSignExtended.srem b.getSignExtended), ?_, WFg _, ?_⟩
    · simp only [foldBin]; rw [if_pos (B0.2 hd.1)]
    · rw [get_of_toInt hw, BitVec.toInt_srem, A, B]; rfl
  case urem =>
    refine ⟨.get w (a.getZeroExtended % b.getZeroExtended), ?_, WFg _, ?_⟩
    · simp only [foldBin]; rw [if_pos (U0.2 hd)]
    · rw [get_of_toNat hw, BitVec.toNat_umod, UA, UB]; rfl
  case shl =>
    refine ⟨_, rfl, WFg _, ?_⟩
    rw [get_of_toNat hw, BitVec.toNat_shiftLeft, UA, UB]
    simp only [binVal]
    apply BitVec.eq_of_toNat_eq
    rw [BitVec.toNat_ofNat, BitVec.toNat_shiftLeft, Nat.mod_mod_of_dvd _ (pow_dvd_pow 2 hw)]
  case lshr =>
    refine ⟨_, rfl, WFg _, ?_⟩
    rw [get_of_toNat hw, BitVec.toNat_ushiftRight, UA, UB]
    simp only [binVal]
    apply BitVec.eq_of_toNat_eq
    rw [BitVec.toNat_ofNat, BitVec.toNat_ushiftRight]
    apply Nat.mod_eq_of_lt
    exact lt_of_le_of_lt (Nat.shiftRight_le _ _) a.value.isLt
  case ashr =>
    refine ⟨_, rfl, WFg _, ?_⟩
    rw [get_of_toInt hw, BitVec.toInt_sshiftRight, A, UB]
    simp only [binVal]
    rw [Int.shiftRight_eq_div_pow]
    push_cast; rfl
  case and => exact ⟨_, rfl, WFg _, by
    rw [(C25_get hw _).1, BitVec.setWidth_and, setWidth_ux hw, setWidth_ux hw]; rfl⟩
  case or => exact ⟨_, rfl, WFg _, by
    rw [(C25_get hw _).1, BitVec.setWidth_or, setWidth_ux hw, setWidth_ux hw]; rfl⟩
  case xor => exact ⟨_, rfl, WFg _, by
    rw [(C25_get hw _).1, BitVec.setWidth_xor, setWidth_ux hw, setWidth_ux hw]; rfl⟩
  case smin =>
    refine ⟨_, rfl, WFg _, ?_⟩
    rw [(C25_get hw _).1]
    simp only [binVal, BitVec.slt, A, B, decide_eq_true_eq]
    by_cases h : sval a.value ≤ sval b.value
    · rw [if_pos h, if_neg (by omega), setWidth_sx hw h0 ha]
    · rw [if_neg h, if_pos (by omega), setWidth_sx hw h0 hb]
  case smax =>
    refine ⟨_, rfl, WFg _, ?_⟩
    rw [(C25_get hw _).1]
    simp only [binVal, BitVec.slt, A, B, decide_eq_true_eq]
    by_cases h : sval a.value ≤ sval b.value
    · rw [if_pos h]
      by_cases h' : sval a.value < sval b.value
      · rw [if_pos h', setWidth_sx hw h0 hb]
      · rw [if_neg h', setWidth_sx hw h0 ha]
        exact sval_inj.1 (by omega)
    · rw [if_neg h, if_neg (by omega), setWidth_sx hw h0 ha]

/-- C24 (negation and absolute value) -/
theorem C24_fold_unary {w : Nat} (hw : w ≤ 64) (h0 : 0 < w) (a : CI w) (ha : a.WF) :
    (foldNeg a).value = -a.value ∧ (foldAbs a).value = BitVec.ofInt w |sval a.value| := by
  constructor
  · unfold foldNeg
    rw [(C25_get hw _).1, ← setWidth_sx hw h0 ha]
    have h2 : (-a.getSignExtended).setWidth w + a.getSignExtended.setWidth w = 0 := by
      rw [← BitVec.setWidth_add _ _ hw]; simp
    exact eq_neg_of_add_eq_zero_left h2
  · unfold foldAbs
    have A := sx_toInt hw h0 ha
    rw [(C25_get hw _).1]
    have hneg : (-a.getSignExtended).setWidth w = BitVec.ofInt w (-(sval a.value)) := by
      have h2 : (-a.getSignExtended).setWidth w + a.getSignExtended.setWidth w = 0 := by
        rw [← BitVec.setWidth_add _ _ hw]; simp
      rw [eq_neg_of_add_eq_zero_left h2, setWidth_sx hw h0 ha, BitVec.ofInt_neg, ofInt_sval]
    unfold BitVec.abs
    have hm : a.getSignExtended.msb = decide (sval a.value < 0) := by rw [BitVec.msb_eq_toInt, A]
    rw [hm]
    by_cases h : sval a.value < 0
    · simp only [h, decide_true, if_true]
      rw [show a.getSignExtended.neg = -a.getSignExtended from rfl, hneg, abs_of_neg h]
    · simp only [h, decide_false, Bool.false_eq_true, if_false]
      rw [setWidth_sx hw h0 ha, abs_of_nonneg (by omega), ofInt_sval]

theorem unsigned_sx {w : Nat} (hw : w ≤ 64) (h0 : 0 < w) {a b : CI w} (ha : a.WF) (hb : b.WF) :
    a.getSignExtended.toNat < b.getSignExtended.toNat ↔ a.value.toNat < b.value.toNat := by
  have A := sx_toInt hw h0 ha
  have B := sx_toInt hw h0 hb
  have ha' := sval_eq a.value
  have hb' := sval_eq b.value
  have l1 := toNat_lt_pow a.value
  have l2 := toNat_lt_pow b.value
  have l3 := a.getSignExtended.isLt
  have l4 := b.getSignExtended.isLt
  rw [BitVec.toInt_eq_toNat_cond] at A B
  have hp : (2 : Int) ^ w ≤ 2 ^ 64 := pow_le_pow_right₀ (by norm_num) hw
  have hl := hi_sub_lo w
  have hn := hi_nonneg w
  have h64 : hi w ≤ 2 ^ 63 - 1 := by
    have := fits64 hw (i := hi w) ⟨by have := lo_nonpos w; omega, le_refl _⟩
    omega
  have hneg : 2 ^ w - 1 - hi w ≤ 2 ^ 63 := by
    have := fits64 hw (i := lo w) ⟨le_refl _, by have := lo_nonpos w; omega⟩
    omega
  rw [ha'] at A
  rw [hb'] at B
  clear ha' hb'
  norm_num at A B l3 l4 hp h64 hneg ⊢
  split at A <;> split at B <;> split at A <;> split at B <;> omega

/-- C24 (comparisons) -/
theorem C24_fold_cmp {w : Nat} (hw : w ≤ 64) (h0 : 0 < w) (c : Cmp) (a b : CI w) (ha : a.WF) (hb : b.WF) :
    (foldCmp c a b).value = BitVec.ofBool (cmpVal c a.value b.value) := by
  have A := sx_toInt hw h0 ha
  have B := sx_toInt hw h0 hb
  have key : doCompare c a.getSignExtended b.getSignExtended = cmpVal c a.value b.value := by
    have hu := unsigned_sx hw h0 ha hb
    have hu' := unsigned_sx hw h0 hb ha
    have he : a.getSignExtended = b.getSignExtended ↔ a.value = b.value := by
      rw [← BitVec.toInt_inj, A, B, sval_inj]
    cases c
    · simp only [doCompare, cmpVal]; by_cases h : a.value = b.value <;> simp [h, he]
    · simp only [doCompare, cmpVal]
      by_cases h : a.value = b.value
      · simp [h, he.2 h]
      · have h' := mt he.1 h; simp [h, h']
    · simp [doCompare, cmpVal, BitVec.slt, A, B]
    · simp [doCompare, cmpVal, BitVec.sle, A, B]
    · simp [doCompare, cmpVal, BitVec.slt, A, B]
    · simp [doCompare, cmpVal, BitVec.sle, A, B]
    · simp only [doCompare, cmpVal, BitVec.ult]; exact decide_eq_decide.2 hu
    · simp only [doCompare, cmpVal, BitVec.ule]; exact decide_eq_decide.2 (by omega)
    · simp only [doCompare, cmpVal, BitVec.ult]; exact decide_eq_decide.2 hu'
    · simp only [doCompare, cmpVal, BitVec.ule]; exact decide_eq_decide.2 (by omega)
  unfold foldCmp
  rw [key]
  cases cmpVal c a.value b.value <;> decide

/-- C24 (casts) -/
theorem C24_fold_cast {w w' : Nat} (hw : w ≤ 64) (hw' : w' ≤ 64) (h0 : 0 < w) (op : CastOp) (a : CI w) (ha : a.WF) :
    (foldCast op w' a).value = castVal w' op a.value := by
  have hz : (CI.get w' a.getZeroExtended).value = a.value.setWidth w' := by
    rw [get_of_toNat hw', ux_toNat hw]; simp
  have hs : (CI.get w' a.getSignExtended).value = BitVec.ofInt w' (sval a.value) := by
    rw [get_of_toInt hw', sx_toInt hw h0 ha]
  cases op
  · exact hz
  · exact hs
  · exact hz
  · exact hs

/-- the hypotheses are met: `-128 / 3 : i8` is folded to `-42` -/
example : binDef false .sdiv (CI.get 8 (-128)).value (CI.get 8 3).value ∧
    foldBin .sdiv (CI.get 8 (-128)) (CI.get 8 3) = some (CI.get 8 (-42)) := by
  refine ⟨⟨by decide, ?_⟩, by decide⟩
  unfold Fits; decide

end Cmmc.IR
