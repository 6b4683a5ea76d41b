import Verif.Isel.Tree

/-!
# RISC-V code with memory and branches

Blocks of RISC-V instructions as they are between instruction selection and emission, with virtual and
physical registers, memory and stack objects: what the peephole optimizations of
`cmmc/Target/RISCV/RISCVScheduleModel.cpp` work on.  The machine is part of the specification: this file
says what the instructions do, and models no code of the compiler.
-/

namespace Cmmc.Rvp

open Cmmc.Isel

/-- A register: `x0`, which is always zero, a physical register, a virtual register. -/
inductive R
  | x0
  | p (n : ℕ)
  | v (n : ℕ)
  deriving Repr, DecidableEq

/-- The stack pointer. -/
def R.sp : R := .p 2

/-- The widths of loads and stores. -/
inductive Wd
  | b | h | w | d
  deriving Repr, DecidableEq

def Wd.bytes : Wd → ℕ
  | .b => 1 | .h => 2 | .w => 4 | .d => 8

/-- The address operand of a load or a store: a register and an offset, a stack object and an offset, or a symbol
(the low part of the address of a symbol, relative to a register that holds the high part; the two are shown
as one). -/
inductive Ad
  | reg (r : R) (off : ℤ)
  | stk (n : ℕ) (off : ℤ)
  | sym (k : ℕ)
  deriving Repr, DecidableEq

/-- Instructions.  The immediate forms (`ADDI`, `SLLIW`, ...) are `opI` with the operation of the register
form; `li12` is `LoadImm12`; `liN` is `LoadImm32` or `LoadImm64`; `la d k` is the `ADDI` that adds the low part
of the address of a symbol; `mv` is `MoveGPR` and `InstCopy`.  The last operand of a load or a store is the
alignment the compiler knows.  `fcvt` is `FCVT_S_W`; everything else that reads registers and writes one, with no effect on
memory, is `other`; `jr` is the indirect jump of a jump table. -/
inductive PI
  | op2 (o : Rv2) (d a b : R)
  | opI (o : Rv2) (d a : R) (v : ℤ)
  | op1 (o : Rv1) (d a : R)
  | li12 (d : R) (v : ℤ)
  | liN (d : R) (v : ℤ)
  | la (d : R) (k : ℕ)
  | load (sg : Bool) (w : Wd) (d : R) (a : Ad) (al : ℕ)
  | store (w : Wd) (x : R) (a : Ad) (al : ℕ)
  | br (c : CC) (a b : R) (l : ℕ)
  | jump (l : ℕ)
  | jr (a : R)
  | ret
  | call (n : ℕ)
  | fcvt (d a : R)
  | other (n : ℕ) (d : R) (us : List R)
  deriving Repr, DecidableEq

/-- Registers and memory. -/
structure St where
  reg : R → W
  mem : W → BitVec 8

/-- What is fixed during an execution: the offsets of the stack objects from the stack pointer, the addresses of
the symbols, what calls do to the physical registers and the memory, what the other instructions compute, and
the block at an address. -/
structure Env where
  so : ℕ → ℤ
  sym : ℕ → W
  call : ℕ → (ℕ → W) → (W → BitVec 8) → (ℕ → W) × (W → BitVec 8)
  fcvt : BitVec 32 → W
  other : ℕ → List W → W
  table : W → ℕ

def St.get (s : St) : R → W
  | .x0 => 0
  | r => s.reg r

/-- Writing `x0` has no effect. -/
def St.set (s : St) (r : R) (x : W) : St :=
  if r = .x0 then s else { s with reg := fun q => if q = r then x else s.reg q }

def Ad.eval (E : Env) (s : St) : Ad → W
  | .reg r off => s.get r + immW off
  | .stk n off => s.get R.sp + immW (E.so n + off)
  | .sym k => E.sym k

/-- `n` bytes from address `a`, least significant first, as a number. -/
def rdBytes (m : W → BitVec 8) (a : W) : ℕ → ℕ
  | 0 => 0
  | n + 1 => (m a).toNat + 256 * rdBytes m (a + 1) n

/-- Write the `n` low bytes of a number. -/
def wrBytes (m : W → BitVec 8) (a : W) (x : ℕ) : ℕ → W → BitVec 8
  | 0 => m
  | n + 1 => wrBytes (fun q => if q = a then BitVec.ofNat 8 x else m q) (a + 1) (x / 256) n

/-- The value loaded: sign or zero extended. -/
def rdMem (m : W → BitVec 8) (sg : Bool) (w : Wd) (a : W) : W :=
  let x := BitVec.ofNat (8 * w.bytes) (rdBytes m a w.bytes)
  if sg then x.signExtend 64 else x.setWidth 64

/-- An instruction that goes on to the next one. -/
def PI.exec (E : Env) (s : St) : PI → St
  | op2 o d a b => s.set d (o.run (s.get a) (s.get b))
  | opI o d a v => s.set d (o.run (s.get a) (immW v))
  | op1 o d a => s.set d (o.run (s.get a))
  | li12 d v => s.set d (immW v)
  | liN d v => s.set d (immW v)
  | la d k => s.set d (E.sym k)
  | load sg w d a _ => s.set d (rdMem s.mem sg w (a.eval E s))
  | store w x a _ => { s with mem := wrBytes s.mem (a.eval E s) (s.get x).toNat w.bytes }
  | call n =>
    let g := E.call n (fun k => s.reg (.p k)) s.mem
    { reg := fun q => match q with | .p k => g.1 k | q => s.reg q, mem := g.2 }
  | fcvt d a => s.set d (E.fcvt (lo (s.get a)))
  | other n d us => s.set d (E.other n (us.map s.get))
  | br _ _ _ _ | jump _ | jr _ | ret => s

/-- How a block ends: it falls through to the next one, jumps, or returns from the function. -/
inductive Out
  | fall (s : St)
  | jump (l : ℕ) (s : St)
  | ret (s : St)

/-- Execute a block. -/
def run (E : Env) : List PI → St → Out
  | [], s => .fall s
  | .br c a b l :: is, s => if c.run (s.get a) (s.get b) then .jump l s else run E is s
  | .jump l :: _, s => .jump l s
  | .jr a :: _, s => .jump (E.table (s.get a)) s
  | .ret :: _, s => .ret s
  | i :: is, s => run E is (i.exec E s)

/-- A function: its blocks in order, with labels. -/
abbrev Fn := List (ℕ × List PI)

/-- The code from a label on. -/
def Fn.at (f : Fn) (l : ℕ) : Fn := f.dropWhile fun B => B.1 ≠ l

/-- Executions of a function from the first block of a list on: `Runs E f g s t` says that the execution that
starts in state `s` at the first block of `g`, a part of `f`, returns in state `t`. -/
inductive Runs (E : Env) (f : Fn) : Fn → St → St → Prop
  | ret {l is g s t} : run E is s = .ret t → Runs E f ((l, is) :: g) s t
  | fall {l is g s t u} : run E is s = .fall t → Runs E f g t u → Runs E f ((l, is) :: g) s u
  | jump {l is g k s t u} : run E is s = .jump k t → Runs E f (f.at k) t u → Runs E f ((l, is) :: g) s u

/-- The immediates of the instruction fit its encoding. -/
def PI.enc : PI → Bool
  | opI o _ _ v => immOk o v
  | li12 _ v => imm12 v
  | _ => true

/-- The register an instruction writes, if any (calls excepted). -/
def PI.dst : PI → Option R
  | op2 _ d _ _ | opI _ d _ _ | op1 _ d _ | li12 d _ | liN d _ | la d _ | load _ _ d _ _ | fcvt d _ | other _ d _ => some d
  | _ => none

def Ad.uses : Ad → List R
  | .reg r _ => [r]
  | .stk _ _ => [R.sp]
  | .sym _ => []

/-- The registers an instruction reads (calls excepted: they may read every physical register). -/
def PI.uses : PI → List R
  | op2 _ _ a b => [a, b]
  | opI _ _ a _ => [a]
  | op1 _ _ a => [a]
  | load _ _ _ a _ => a.uses
  | store _ x a _ => x :: a.uses
  | br _ a b _ => [a, b]
  | jr a => [a]
  | fcvt _ a => [a]
  | other _ _ us => us
  | _ => []

/-- Calls, memory accesses and everything that may leave the block (`InstFlagSideEffect`,
`cmmc/CodeGen/InstInfo.hpp:55-57`, for the instructions above). -/
def PI.side : PI → Bool
  | load .. | store .. | br .. | jump _ | jr _ | ret | call _ => true
  | _ => false

end Cmmc.Rvp
