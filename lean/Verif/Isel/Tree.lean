import Verif.Isel.DivC54

/-!
# Expression trees for instruction selection

The values instruction selection works on: expression trees whose inner nodes are generic MIR
operations (`InstAdd`, `InstICmp`, ...) or RISC-V instructions.  `ISelContext::runISel`
(`cmmc/CodeGen/ISelInfo.cpp:36-170`) matches patterns against such trees: an operand that is a virtual
register is followed to its defining instruction with `lookupDef`.

Simplification: the compiler keeps the trees as a list of instructions, with sharing.  Within a block
every virtual register has one definition (`runISel` aborts otherwise, `ISelInfo.cpp:96-101`), so the
value an operand has is the value of the tree below it.
-/

namespace Cmmc.Isel

/-! ## Types and how a typed value sits in a register -/

/-- The integer operand types (`cmmc/CodeGen/MIR.hpp`, `OperandType`). -/
inductive Ty
  | b | i8 | i16 | i32 | i64
  deriving Repr, DecidableEq

def Ty.width : Ty → ℕ
  | .b => 1 | .i8 => 8 | .i16 => 16 | .i32 => 32 | .i64 => 64

/-- The register contents that represent a typed value: booleans are `0` or `1`, the other types are
sign extended.  (The convention the patterns rely on: `InstSExt` is a copy, `RISCV.yml:1498-1505`, and
`InstZExt` from a boolean is a copy, `1455-1463`.) -/
def inj : (t : Ty) → BitVec t.width → W
  | .b, v => v.setWidth 64
  | .i8, v => v.signExtend 64
  | .i16, v => v.signExtend 64
  | .i32, v => v.signExtend 64
  | .i64, v => v

/-- The typed value in the low bits of a register. -/
def prj (t : Ty) (x : W) : BitVec t.width := x.setWidth t.width

/-- The register holds a value of the type in the form above. -/
def Holds (t : Ty) (x : W) : Prop := inj t (prj t x) = x

instance (t : Ty) (x : W) : Decidable (Holds t x) := by unfold Holds; infer_instance

/-! ## Generic operations -/

/-- The integer comparisons (`CompareOp`, `cmmc/IR/Instruction.hpp`). -/
inductive CC
  | eq | ne | slt | sle | sgt | sge | ult | ule | ugt | uge
  deriving Repr, DecidableEq

def CC.run {w : ℕ} : CC → BitVec w → BitVec w → Bool
  | .eq, x, y => x == y
  | .ne, x, y => x != y
  | .slt, x, y => x.slt y
  | .sle, x, y => x.sle y
  | .sgt, x, y => y.slt x
  | .sge, x, y => y.sle x
  | .ult, x, y => x.ult y
  | .ule, x, y => x.ule y
  | .ugt, x, y => y.ult x
  | .uge, x, y => y.ule x

/-- `getReversedOp` (`cmmc/IR/Instruction.hpp:454-504`): the comparison of the swapped operands. -/
def CC.rev : CC → CC
  | .eq => .eq | .ne => .ne | .slt => .sgt | .sle => .sge | .sgt => .slt | .sge => .sle
  | .ult => .ugt | .ule => .uge | .ugt => .ult | .uge => .ule

def CC.signed : CC → Bool
  | .slt | .sle | .sgt | .sge => true
  | _ => false

/-- Generic two-operand operations. -/
inductive GBin
  | add | sub | mul | and | or | xor | shl | lshr | ashr | smin | smax | sdiv | srem | udiv | urem
  deriving Repr, DecidableEq

/-- Their meaning on `w`-bit values; `none` where the operation is undefined (shifting by the width or
more, dividing by zero, and the one overflowing quotient). -/
def GBin.run {w : ℕ} : GBin → BitVec w → BitVec w → Option (BitVec w)
  | .add, x, y => some (x + y)
  | .sub, x, y => some (x - y)
  | .mul, x, y => some (x * y)
  | .and, x, y => some (x &&& y)
  | .or, x, y => some (x ||| y)
  | .xor, x, y => some (x ^^^ y)
  | .shl, x, y => if y.toNat < w then some (x <<< y.toNat) else none
  | .lshr, x, y => if y.toNat < w then some (x >>> y.toNat) else none
  | .ashr, x, y => if y.toNat < w then some (x.sshiftRight y.toNat) else none
  | .smin, x, y => some (if x.slt y then x else y)
  | .smax, x, y => some (if x.slt y then y else x)
  | .sdiv, x, y => if y = 0 ∨ (x = BitVec.intMin w ∧ y = -1) then none
      else some (BitVec.ofInt w (x.toInt.tdiv y.toInt))
  | .srem, x, y => if y = 0 ∨ (x = BitVec.intMin w ∧ y = -1) then none
      else some (BitVec.ofInt w (x.toInt.tmod y.toInt))
  | .udiv, x, y => if y = 0 then none else some (x.udiv y)
  | .urem, x, y => if y = 0 then none else some (x.umod y)

/-- The operations with `InstFlagCommutative` (`cmmc/Target/Generic/Generic.yml:20-60`). -/
def GBin.comm : GBin → Bool
  | .add | .mul | .and | .or | .xor | .smin | .smax => true
  | _ => false

/-- One-operand nodes: generic, or a machine instruction. -/
inductive UOp
  | neg | abs | sext | zext | trunc | r (o : Rv1)
  deriving Repr, DecidableEq

/-- Two-operand nodes: generic, comparison, or a machine instruction. -/
inductive BOp
  | g (o : GBin) | icmp (c : CC) | r (o : Rv2)
  deriving Repr, DecidableEq

/-- The value of a one-operand node of type `t` on an operand of type `s`. -/
def UOp.run (o : UOp) (t s : Ty) (x : W) : W :=
  match o with
  | .neg => inj t (-(prj t x))
  | .abs => inj t (if (prj t x).slt 0 then -(prj t x) else prj t x)
  | .sext => inj t ((prj s x).signExtend t.width)
  | .zext => inj t ((prj s x).setWidth t.width)
  | .trunc => inj t ((prj s x).setWidth t.width)
  | .r o => o.run x

/-- The value of a two-operand node of type `t` whose first operand has type `s`. -/
def BOp.run (o : BOp) (t s : Ty) (x y : W) : Option W :=
  match o with
  | .g o => (o.run (prj t x) (prj t y)).map (inj t)
  | .icmp c => some (bit (c.run (prj s x) (prj s y)))
  | .r o => some (o.run x y)

/-! ## Trees -/

/-- An operand of an instruction, with everything below it.
* `reg t n`: a register computed elsewhere; `zero t`: the register `x0`;
* `imm t v`: an immediate operand; `li t v`: a register loaded with a constant (`InstLoadImm`,
  `LoadImm12`, `LoadImm32`, `LoadImm64`);
* `sel`: `InstSelect`;
* `selG c t l r x y`: the pseudo instruction `Select_GPR_GPR`, `l c r ? x : y`, comparing whole
  registers;
* `selA c o t l r x y`: `Select_GPR_Arith`, `l c r ? o x y : x`. -/
inductive Tm
  | reg (t : Ty) (n : ℕ)
  | zero (t : Ty)
  | imm (t : Ty) (v : ℤ)
  | li (t : Ty) (v : ℤ)
  | un (o : UOp) (t : Ty) (a : Tm)
  | bin (o : BOp) (t : Ty) (a b : Tm)
  | sel (t : Ty) (c a b : Tm)
  | selG (c : CC) (t : Ty) (l r x y : Tm)
  | selA (c : CC) (o : Rv2) (t : Ty) (l r x y : Tm)
  deriving Repr, DecidableEq

namespace Tm

def ty : Tm → Ty
  | reg t _ | zero t | imm t _ | li t _ | un _ t _ | bin _ t _ _ | sel t _ _ _
  | selG _ t _ _ _ _ | selA _ _ t _ _ _ _ => t

def isImm : Tm → Bool
  | imm _ _ => true
  | _ => false

/-- The contents of the register an operand stands for; `none` if some operation is undefined. -/
def eval (env : ℕ → W) : Tm → Option W
  | reg _ n => some (env n)
  | zero _ => some 0
  | imm _ v => some (immW v)
  | li _ v => some (immW v)
  | un o t a => (a.eval env).bind fun x => some (o.run t a.ty x)
  | bin o t a b => (a.eval env).bind fun x => (b.eval env).bind fun y => o.run t a.ty x y
  | sel _ c a b => (c.eval env).bind fun k => (a.eval env).bind fun x => (b.eval env).bind fun y =>
      some (if prj .b k = 1 then x else y)
  | selG c _ l r a b => (l.eval env).bind fun p => (r.eval env).bind fun q =>
      (a.eval env).bind fun x => (b.eval env).bind fun y => some (if c.run p q then x else y)
  | selA c o _ l r a b => (l.eval env).bind fun p => (r.eval env).bind fun q =>
      (a.eval env).bind fun x => (b.eval env).bind fun y =>
      some (if c.run p q then o.run x y else x)

/-- The tree has only generic operations: what `cmmc/CodeGen/Lowering.cpp` produces. -/
def Generic : Tm → Prop
  | reg _ _ | zero _ | imm _ _ | li _ _ => True
  | un (.r _) _ _ => False
  | un _ _ a => a.Generic
  | bin (.r _) _ _ _ => False
  | bin _ _ a b => a.Generic ∧ b.Generic
  | sel _ c a b => c.Generic ∧ a.Generic ∧ b.Generic
  | selG _ _ _ _ _ _ => False
  | selA _ _ _ _ _ _ _ => False

/-- The tree has no generic operation left, and no immediate where an instruction wants a register:
it can be emitted. -/
def Machine : Tm → Prop
  | reg _ _ | zero _ | imm _ _ | li _ _ => True
  | un (.r _) _ a => a.isImm = false ∧ a.Machine
  | un _ _ _ => False
  | bin (.r _) _ a b => a.isImm = false ∧ a.Machine ∧ b.Machine
  | bin _ _ _ _ => False
  | sel _ _ _ _ => False
  | selG _ _ l r a b => (l.isImm = false ∧ r.isImm = false) ∧ l.Machine ∧ r.Machine ∧ a.Machine ∧ b.Machine
  | selA _ _ _ l r a b => (l.isImm = false ∧ r.isImm = false ∧ a.isImm = false) ∧
      l.Machine ∧ r.Machine ∧ a.Machine ∧ b.Machine

/-- Typing of generic nodes, as `MIRFunction::verify` and the IR type rules give it. -/
def UOp.typed (o : UOp) (t s : Ty) : Prop :=
  match o with
  | .neg | .abs => s = t ∧ t ≠ .b
  | .sext | .zext => s.width < t.width
  | .trunc => t.width < s.width
  | .r _ => True

def BOp.typed (o : BOp) (t s1 s2 : Ty) : Prop :=
  match o with
  | .g _ => s1 = t ∧ s2 = t
  | .icmp _ => t = .b ∧ s1 = s2
  | .r _ => True

def Typed : Tm → Prop
  | reg _ _ | zero _ => True
  | imm t v | li t v => (-2 ^ 63 ≤ v ∧ v < 2 ^ 63) ∧ Holds t (immW v)
  | un o t a => UOp.typed o t a.ty ∧ a.Typed
  | bin o t a b => BOp.typed o t a.ty b.ty ∧ a.Typed ∧ b.Typed
  | sel t c a b => (c.ty = .b ∧ a.ty = t ∧ b.ty = t) ∧ c.Typed ∧ a.Typed ∧ b.Typed
  | selG _ _ l r a b => l.Typed ∧ r.Typed ∧ a.Typed ∧ b.Typed
  | selA _ _ _ l r a b => l.Typed ∧ r.Typed ∧ a.Typed ∧ b.Typed

/-- Every register the tree reads holds a value of its type. -/
def EnvOk (env : ℕ → W) : Tm → Prop
  | reg t n => Holds t (env n)
  | zero _ | imm _ _ | li _ _ => True
  | un _ _ a => a.EnvOk env
  | bin _ _ a b => a.EnvOk env ∧ b.EnvOk env
  | sel _ c a b => c.EnvOk env ∧ a.EnvOk env ∧ b.EnvOk env
  | selG _ _ l r a b | selA _ _ _ l r a b => l.EnvOk env ∧ r.EnvOk env ∧ a.EnvOk env ∧ b.EnvOk env

/-- Every register of the tree, including the intermediate ones, holds a value of its type. -/
def AllHold (env : ℕ → W) : Tm → Prop
  | reg t n => Holds t (env n)
  | zero _ => True
  | imm t v => Holds t (immW v)
  | li t v => Holds t (immW v)
  | un o t a => (∀ v, (un o t a).eval env = some v → Holds t v) ∧ a.AllHold env
  | bin o t a b => (∀ v, (bin o t a b).eval env = some v → Holds t v) ∧ a.AllHold env ∧ b.AllHold env
  | sel t c a b => (∀ v, (sel t c a b).eval env = some v → Holds t v) ∧
      c.AllHold env ∧ a.AllHold env ∧ b.AllHold env
  | selG c t l r a b => (∀ v, (selG c t l r a b).eval env = some v → Holds t v) ∧
      l.AllHold env ∧ r.AllHold env ∧ a.AllHold env ∧ b.AllHold env
  | selA c o t l r a b => (∀ v, (selA c o t l r a b).eval env = some v → Holds t v) ∧
      l.AllHold env ∧ r.AllHold env ∧ a.AllHold env ∧ b.AllHold env

end Tm

/-! ## Encodable immediates -/

/-- A signed 12-bit immediate (`isOperandImm12`). -/
def imm12 (v : ℤ) : Bool := decide (-2048 ≤ v ∧ v ≤ 2047)
/-- A 32-bit immediate, signed or unsigned (`isOperandImm32`, `RISCV.hpp:62-64`). -/
def imm32 (v : ℤ) : Bool := decide (-2 ^ 31 ≤ v ∧ v < 2 ^ 32)

/-- The immediates the RISC-V instruction has room for; `false` if the instruction has no immediate
form. -/
def immOk : Rv2 → ℤ → Bool
  | .add, v | .addw, v | .and, v | .or, v | .xor, v | .slt, v | .sltu, v => imm12 v
  | .sll, v | .srl, v | .sra, v => decide (0 ≤ v ∧ v < 64)
  | .sllw, v | .srlw, v | .sraw, v => decide (0 ≤ v ∧ v < 32)
  | _, _ => false

/-- An immediate as second operand of instruction `o` fits. -/
def Tm.fits (o : Rv2) : Tm → Bool
  | .imm _ v => immOk o v
  | _ => true

/-- A value `Select_GPR_GPR` can load into its destination: a register, or an immediate `emitImm`
(`RISCVISelInfo.cpp:787-808`) accepts. -/
def Tm.fits32 : Tm → Bool
  | .imm _ v => imm32 v
  | _ => true

/-- All immediates of machine instructions in the tree are encodable, and instructions whose operand
must be a register do not get an immediate. -/
def Tm.Enc : Tm → Prop
  | .reg _ _ | .zero _ | .imm _ _ | .li _ _ => True
  | .un (.r _) _ a => a.isImm = false ∧ a.Enc
  | .un _ _ a => a.Enc
  | .bin (.r o) _ a b => (a.isImm = false ∧ b.fits o = true) ∧ a.Enc ∧ b.Enc
  | .bin _ _ a b => a.Enc ∧ b.Enc
  | .sel _ c a b => c.Enc ∧ a.Enc ∧ b.Enc
  | .selG _ _ l r a b => (l.isImm = false ∧ r.isImm = false ∧ a.fits32 = true ∧ b.fits32 = true) ∧
      l.Enc ∧ r.Enc ∧ a.Enc ∧ b.Enc
  | .selA _ o _ l r a b => (l.isImm = false ∧ r.isImm = false ∧ a.isImm = false ∧ b.fits o = true) ∧
      l.Enc ∧ r.Enc ∧ a.Enc ∧ b.Enc

end Cmmc.Isel
