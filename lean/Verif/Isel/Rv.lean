import Mathlib.Tactic.Linarith
import Mathlib.Tactic.Ring
import Mathlib.Tactic.NormNum

/-!
# RV64 integer instructions

The meaning of the RISC-V instructions the instruction selector emits (RV64IM, Zba, Zbb), as functions on 64-bit
words.  This file is part of the specification: it says what the machine does and models no code
of the compiler.  The instruction names are those of `cmmc/Target/RISCV/RISCV.yml:1-412`.
-/

namespace Cmmc.Isel

/-- A machine word of RV64. -/
abbrev W := BitVec 64

/-- The low 32 bits of a word, and the sign extension of 32 bits to a word. -/
def lo (x : W) : BitVec 32 := x.setWidth 32
def sx (v : BitVec 32) : W := v.signExtend 64

/-- RISC-V signed division (`DIV`, `DIVW`): `x / 0 = -1`, and `INT_MIN / -1 = INT_MIN`. -/
def rvSDiv {w : ℕ} (x y : BitVec w) : BitVec w := if y = 0 then -1 else x.sdiv y
/-- RISC-V signed remainder: `x % 0 = x`. -/
def rvSRem {w : ℕ} (x y : BitVec w) : BitVec w := if y = 0 then x else x.srem y
def rvUDiv {w : ℕ} (x y : BitVec w) : BitVec w := if y = 0 then -1 else x.udiv y
def rvURem {w : ℕ} (x y : BitVec w) : BitVec w := if y = 0 then x else x.umod y

/-- Two-operand instructions.  The immediate forms (`ADDI`, `SLTI`, ...) take the immediate, sign
extended, as second operand. -/
inductive Rv2
  | add | addw | sub | subw | mul | mulw | div | divw | divu | divuw | rem | remw | remu | remuw
  | and | or | xor | andn | orn | xnor | sll | sllw | srl | srlw | sra | sraw | slt | sltu
  | min | max | sh1add | sh2add | sh3add | addUw
  deriving Repr, DecidableEq

/-- One-operand instructions. -/
inductive Rv1
  | mv | zextW | zextH | sextB | sextH | sextW
  deriving Repr, DecidableEq

def bit (b : Bool) : W := if b then 1 else 0

def Rv2.run : Rv2 → W → W → W
  | .add, x, y => x + y
  | .addw, x, y => sx (lo x + lo y)
  | .sub, x, y => x - y
  | .subw, x, y => sx (lo x - lo y)
  | .mul, x, y => x * y
  | .mulw, x, y => sx (lo x * lo y)
  | .div, x, y => rvSDiv x y
  | .divw, x, y => sx (rvSDiv (lo x) (lo y))
  | .divu, x, y => rvUDiv x y
  | .divuw, x, y => sx (rvUDiv (lo x) (lo y))
  | .rem, x, y => rvSRem x y
  | .remw, x, y => sx (rvSRem (lo x) (lo y))
  | .remu, x, y => rvURem x y
  | .remuw, x, y => sx (rvURem (lo x) (lo y))
  | .and, x, y => x &&& y
  | .or, x, y => x ||| y
  | .xor, x, y => x ^^^ y
  | .andn, x, y => x &&& ~~~y
  | .orn, x, y => x ||| ~~~y
  | .xnor, x, y => ~~~(x ^^^ y)
  | .sll, x, y => x <<< (y.toNat % 64)
  | .sllw, x, y => sx (lo x <<< (y.toNat % 32))
  | .srl, x, y => x >>> (y.toNat % 64)
  | .srlw, x, y => sx (lo x >>> (y.toNat % 32))
  | .sra, x, y => x.sshiftRight (y.toNat % 64)
  | .sraw, x, y => sx ((lo x).sshiftRight (y.toNat % 32))
  | .slt, x, y => bit (x.slt y)
  | .sltu, x, y => bit (x.ult y)
  | .min, x, y => if x.slt y then x else y
  | .max, x, y => if x.slt y then y else x
  | .sh1add, x, y => (x <<< 1) + y
  | .sh2add, x, y => (x <<< 2) + y
  | .sh3add, x, y => (x <<< 3) + y
  | .addUw, x, y => (lo x).setWidth 64 + y

def Rv1.run : Rv1 → W → W
  | .mv, x => x
  | .zextW, x => (lo x).setWidth 64
  | .zextH, x => (x.setWidth 16).setWidth 64
  | .sextB, x => (x.setWidth 8).signExtend 64
  | .sextH, x => (x.setWidth 16).signExtend 64
  | .sextW, x => sx (lo x)

/-- `LUI`: the 20-bit immediate, shifted left by 12 and sign extended from 32 bits. -/
def rvLui (hi : BitVec 20) : W := sx ((hi.setWidth 32) <<< 12)

/-- An immediate, sign extended to a word. -/
def immW (v : ℤ) : W := BitVec.ofInt 64 v

/-! ## Basic facts -/

@[simp] theorem lo_sx (v : BitVec 32) : lo (sx v) = v := by
  unfold lo sx
  ext i hi
  rw [BitVec.getElem_setWidth, BitVec.getLsbD_signExtend, if_pos hi,
    BitVec.getLsbD_eq_getElem hi]
  simp [show i < 64 by omega]

theorem sx_inj {a b : BitVec 32} (h : sx a = sx b) : a = b := by
  rw [← lo_sx a, ← lo_sx b, h]

theorem toInt_sx (v : BitVec 32) : (sx v).toInt = v.toInt := by
  unfold sx
  exact BitVec.toInt_signExtend_of_le (by omega)

theorem lo_add (x y : W) : lo (x + y) = lo x + lo y := by
  unfold lo; exact BitVec.setWidth_add x y (by omega)

theorem lo_mul (x y : W) : lo (x * y) = lo x * lo y := by
  unfold lo; exact BitVec.setWidth_mul x y (by omega)

theorem lo_neg (x : W) : lo (-x) = -lo x := by
  unfold lo
  apply BitVec.eq_of_toNat_eq
  simp only [BitVec.toNat_setWidth, BitVec.toNat_neg]
  omega

theorem lo_sub (x y : W) : lo (x - y) = lo x - lo y := by
  rw [BitVec.sub_eq_add_neg, BitVec.sub_eq_add_neg, lo_add, lo_neg]

theorem lo_ofInt (v : ℤ) : lo (BitVec.ofInt 64 v) = BitVec.ofInt 32 v := by
  unfold lo
  apply BitVec.eq_of_toNat_eq
  simp only [BitVec.toNat_setWidth, BitVec.toNat_ofInt]
  omega

theorem sx_eq_ofInt (v : BitVec 32) : sx v = BitVec.ofInt 64 v.toInt := by
  rw [← toInt_sx, BitVec.ofInt_toInt]

/-- A word is the sign extension of its low half iff its value fits an `int32_t`. -/
theorem sx_lo_iff {x : W} : sx (lo x) = x ↔ -2 ^ 31 ≤ x.toInt ∧ x.toInt < 2 ^ 31 := by
  constructor
  · intro h
    rw [← h, toInt_sx]
    have h1 := BitVec.toInt_lt (x := lo x)
    have h2 := BitVec.le_toInt (x := lo x)
    constructor <;> omega
  · rintro ⟨h1, h2⟩
    have : lo x = BitVec.ofInt 32 x.toInt := by rw [← lo_ofInt, BitVec.ofInt_toInt]
    rw [sx_eq_ofInt, this, BitVec.toInt_ofInt, Int.bmod_eq_of_le (by omega) (by omega),
      BitVec.ofInt_toInt]

theorem sx_ofInt {v : ℤ} (h1 : -2 ^ 31 ≤ v) (h2 : v < 2 ^ 31) :
    sx (BitVec.ofInt 32 v) = BitVec.ofInt 64 v := by
  rw [sx_eq_ofInt, BitVec.toInt_ofInt, Int.bmod_eq_of_le (by omega) (by omega)]

theorem toInt_ofInt32 {v : ℤ} (h1 : -2 ^ 31 ≤ v) (h2 : v < 2 ^ 31) :
    (BitVec.ofInt 32 v).toInt = v := by
  rw [BitVec.toInt_ofInt, Int.bmod_eq_of_le (by omega) (by omega)]

theorem toInt_ofInt64 {v : ℤ} (h1 : -2 ^ 63 ≤ v) (h2 : v < 2 ^ 63) :
    (BitVec.ofInt 64 v).toInt = v := by
  rw [BitVec.toInt_ofInt, Int.bmod_eq_of_le (by omega) (by omega)]

end Cmmc.Isel
