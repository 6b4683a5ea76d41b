import Verif.Isel.C55

/-!
# Loading constants, and selects as branches

Straight-line machine code over registers: what remains of `InstLoadImm`, `LoadImm32`, `LoadImm64`,
`Select_GPR_GPR` and `Select_GPR_Arith` before register allocation.
-/

namespace Cmmc.Isel

/-- A source register: `x0`, which reads zero, or a register. -/
inductive Src
  | x0
  | r (n : ℕ)
  deriving Repr, DecidableEq

/-- The instructions used below.  `liBig` is the pseudo instruction `LoadImm64Complex`, which the
assembler expands (trusted, not modelled). -/
inductive MI
  | mv (d : ℕ) (s : Src)
  | li (d : ℕ) (v : ℤ)
  | lui (d : ℕ) (hi : ℤ)
  | addi (d : ℕ) (s : Src) (v : ℤ)
  | addiw (d : ℕ) (s : Src) (v : ℤ)
  | slli (d : ℕ) (s : Src) (k : ℤ)
  | zextw (d : ℕ) (s : Src)
  | liBig (d : ℕ) (v : ℤ)
  /-- Register-register or register-immediate arithmetic. -/
  | op (o : Rv2) (d : ℕ) (s : Src) (b : Src)
  | opI (o : Rv2) (d : ℕ) (s : Src) (v : ℤ)
  deriving Repr, DecidableEq

abbrev Regs := ℕ → W

def Src.get (ρ : Regs) : Src → W
  | .x0 => 0
  | .r n => ρ n

def MI.dst : MI → ℕ
  | mv d _ | li d _ | lui d _ | addi d _ _ | addiw d _ _ | slli d _ _ | zextw d _ | liBig d _
  | op _ d _ _ | opI _ d _ _ => d

/-- The value an instruction computes (`Isel/Rv.lean` for the instructions). -/
def MI.val (ρ : Regs) : MI → W
  | mv _ s => s.get ρ
  | li _ v => immW v
  | lui _ hi => rvLui (BitVec.ofInt 20 hi)
  | addi _ s v => Rv2.add.run (s.get ρ) (immW v)
  | addiw _ s v => Rv2.addw.run (s.get ρ) (immW v)
  | slli _ s k => Rv2.sll.run (s.get ρ) (immW k)
  | zextw _ s => Rv1.zextW.run (s.get ρ)
  | liBig _ v => immW v
  | op o _ s b => o.run (s.get ρ) (b.get ρ)
  | opI o _ s v => o.run (s.get ρ) (immW v)

def MI.run (ρ : Regs) (i : MI) : Regs := Function.update ρ i.dst (i.val ρ)

def runAll (ρ : Regs) (l : List MI) : Regs := l.foldl MI.run ρ

/-- The immediates of the instruction fit its encoding. -/
def MI.enc : MI → Bool
  | li _ v | addi _ _ v | addiw _ _ v => imm12 v
  | lui _ v => decide (0 ≤ v ∧ v < 2 ^ 20)
  | slli _ _ k => decide (0 ≤ k ∧ k < 64)
  | opI o _ _ v => immOk o v
  | _ => true

/-! ## Loading constants -/

/-- `__builtin_ctzll` of a non-zero 64-bit number. -/
def ctz64 (v : ℤ) : ℕ := ((List.range 64).find? fun i => (immW v).getLsbD i).getD 64

/-- `static_cast<int32_t>`. -/
def cast32 (v : ℤ) : ℤ := v.bmod (2 ^ 32)

/-- The low 12 bits as a signed number, and the 20 bits above once the low part is subtracted
(`RISCVISelInfo.cpp:932-938`).  `val32 - lo` overflows `int32_t` in the source for the largest values;
here it wraps. -/
def lo12 (v32 : ℤ) : ℤ :=
  let lo := v32 % 4096
  if lo > 2047 then lo - 4096 else lo
def hi20 (v32 : ℤ) : ℤ := (cast32 (v32 - lo12 v32) / 4096) % 2 ^ 20

/-- `lui` and `addiw`, or only `lui` (`RISCVISelInfo.cpp:931-948`). -/
def luiAddiw (d t : ℕ) (v : ℤ) : List MI :=
  let v32 := cast32 v
  if lo12 v32 ≠ 0 then [.lui t (hi20 v32), .addiw d (.r t) (lo12 v32)] else [.lui d (hi20 v32)]

/-- `preRALegalizeInst` for `LoadImm32` and `LoadImm64` (`RISCVISelInfo.cpp:911-991`), with the fresh
registers `t1` and `t2`. -/
def legalizeLoadImm (d t1 t2 : ℕ) (v : ℤ) : List MI :=
  if imm12 v then [.li d v]
  else if imm12 (v / 2 ^ ctz64 v) then [.li t1 (v / 2 ^ ctz64 v), .slli d (.r t1) (ctz64 v)]
  else if -2 ^ 31 ≤ v ∧ v < 2 ^ 31 then luiAddiw d t1 v
  else if 0 ≤ v ∧ v < 2 ^ 32 then luiAddiw t2 t1 v ++ [.zextw d (.r t2)]
  else
    let hi := v / 2 ^ 32
    let lo := v - hi * 2 ^ 32
    if imm12 hi ∧ imm12 lo then [.li t1 hi, .slli t2 (.r t1) 32, .addi d (.r t2) lo]
    else [.liBig d v]

/-- `selectOperandNonZeroHigh20Bits` (`RISCVISelInfo.cpp:389-402`). -/
def high20 (v : ℤ) : Option ℤ :=
  if v = 0 then none
  else
    let u := (v / 4096) % 2 ^ 20
    if cast32 (u * 4096) = v then some u else none

/-- The patterns for `InstLoadImm` (`RISCV.yml:429-483`), followed by the legalization of the pseudo
instructions. -/
def loadImm (d t1 t2 : ℕ) (v : ℤ) : List MI :=
  if v = 0 then [.mv d .x0]
  else if imm12 v then [.li d v]
  else match high20 v with
    | some u => [.lui d u]
    | none => legalizeLoadImm d t1 t2 v

/-- `emitImm` (`RISCVISelInfo.cpp:797-820`), `none` where it aborts; the `LoadImm32` it leaves is
legalized afterwards. -/
def emitImm (d t1 t2 : ℕ) (v : ℤ) : Option (List MI) :=
  if v = 0 then some [.mv d .x0]
  else if imm12 v then some [.li d v]
  else match high20 v with
    | some u => some [.lui d u]
    | none => if imm32 v then some (legalizeLoadImm d t1 t2 v) else none

/-! ## Selects as branches -/

/-- A block before register allocation: instructions and how it ends. -/
inductive Tail
  /-- Compare two registers: to the first label if it holds, else to the next block, the second label. -/
  | br (c : CC) (l r : Src) (yes no : ℕ)
  | jump (l : ℕ)
  deriving Repr, DecidableEq

structure Blk where
  code : List MI
  tail : Tail
  deriving Repr, DecidableEq

/-- One block of execution. -/
inductive Go (p : ℕ → Option Blk) : ℕ × Regs → ℕ × Regs → Prop
  | br {b ρ code c l r yes no} : p b = some ⟨code, .br c l r yes no⟩ →
      Go p (b, ρ) (if c.run (l.get (runAll ρ code)) (r.get (runAll ρ code)) then yes else no, runAll ρ code)
  | jump {b ρ code l} : p b = some ⟨code, .jump l⟩ → Go p (b, ρ) (l, runAll ρ code)

inductive Gos (p : ℕ → Option Blk) : ℕ × Regs → ℕ × Regs → Prop
  | refl {s} : Gos p s s
  | head {s t u} : Go p s t → Gos p t u → Gos p s u

/-- A value operand of a select: a register or an immediate. -/
inductive Val
  | reg (n : Src)
  | im (v : ℤ)
  deriving Repr, DecidableEq

def Val.get (ρ : Regs) : Val → W
  | .reg s => s.get ρ
  | .im v => immW v

/-- `emitImm` or a move (`RISCVISelInfo.cpp:845-850`). -/
def moveVal (d t1 t2 : ℕ) : Val → Option (List MI)
  | .reg s => some [.mv d s]
  | .im v => emitImm d t1 t2 v

/-- The condition that is true when the given one is false (`getInvertedOp`,
`cmmc/IR/Instruction.hpp:404-452`). -/
def CC.inv : CC → CC
  | .eq => .ne | .ne => .eq | .slt => .sge | .sle => .sgt | .sgt => .sle | .sge => .slt
  | .ult => .uge | .ule => .ugt | .ugt => .ule | .uge => .ult

/-- `Select_GPR_GPR` (`RISCVISelInfo.cpp:825-865`): the block before the select ends with the move of
the true value and a branch to the block after; between them a block that moves the false value.
`pre` is the code before the select. -/
def expandSelect (pre : List MI) (falseB nextB : ℕ) (c : CC) (l r : Src) (d t1 t2 u1 u2 : ℕ) (tv fv : Val) :
    Option (Blk × Blk) :=
  (moveVal d t1 t2 tv).bind fun m1 => (moveVal d u1 u2 fv).bind fun m2 =>
    some (⟨pre ++ m1, .br c l r nextB falseB⟩, ⟨m2, .jump nextB⟩)

/-- The second operand of `Select_GPR_Arith`. -/
def arith (o : Rv2) (d : ℕ) (s : Src) : Val → MI
  | .reg b => .op o d s b
  | .im v => .opI o d s v

/-- `Select_GPR_Arith` (`RISCVISelInfo.cpp:866-910`). -/
def expandArith (pre : List MI) (trueB nextB : ℕ) (c : CC) (l r : Src) (d : ℕ) (o : Rv2) (rs1 : Src)
    (rs2 : Val) : Blk × Blk :=
  (⟨pre ++ [.mv d rs1], .br c.inv (if l = rs1 ∧ l ≠ .x0 then .r d else l)
      (if r = rs1 ∧ r ≠ .x0 then .r d else r) nextB trueB⟩,
   ⟨[arith o d (.r d) rs2], .jump nextB⟩)

end Cmmc.Isel
