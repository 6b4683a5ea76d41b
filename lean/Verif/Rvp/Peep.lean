import Verif.Rvp.Sem
import Verif.Isel.Rules

/-!
# Peephole optimizations of the RISC-V schedule model: constants, zeros, extensions and branches

Models of functions of `cmmc/Target/RISCV/RISCVScheduleModel.cpp`, each on the instructions of one block.
-/

namespace Cmmc.Rvp

open Cmmc.Isel

/-- `simplifyOpWithZero` (`RISCVScheduleModel.cpp:832-967`), one instruction: `resetToZero`, `resetToCopy`,
`resetToSignExtend`, `resetToLoadImm`, `resetToImm`. -/
def zeroOp : PI → PI
  | .op2 .mul d a b => if a = .x0 ∨ b = .x0 then .op1 .mv d .x0 else .op2 .mul d a b
  | .op2 .mulw d a b => if a = .x0 ∨ b = .x0 then .op1 .mv d .x0 else .op2 .mulw d a b
  | .opI .add d a v => if a = .x0 then .li12 d v else .opI .add d a v
  | .opI .addw d a v => if a = .x0 then .li12 d v else .opI .addw d a v
  | .op2 .subw d a b => if b = .x0 then .op1 .sextW d a else .op2 .subw d a b
  | .op2 .remw d a b => if a = .x0 then .op1 .mv d .x0 else .op2 .remw d a b
  | .opI .sll d a v => if a = .x0 then .op1 .mv d .x0 else .opI .sll d a v
  | .opI .sllw d a v => if a = .x0 then .op1 .mv d .x0 else .opI .sllw d a v
  | .opI .srl d a v => if a = .x0 then .op1 .mv d .x0 else .opI .srl d a v
  | .opI .srlw d a v => if a = .x0 then .op1 .mv d .x0 else .opI .srlw d a v
  | .opI .sra d a v => if a = .x0 then .op1 .mv d .x0 else .opI .sra d a v
  | .opI .sraw d a v => if a = .x0 then .op1 .mv d .x0 else .opI .sraw d a v
  | .op2 .sh1add d a b => if a = .x0 then .op1 .mv d b else .op2 .sh1add d a b
  | .op2 .sh2add d a b => if a = .x0 then .op1 .mv d b else .op2 .sh2add d a b
  | .op2 .sh3add d a b => if a = .x0 then .op1 .mv d b else .op2 .sh3add d a b
  | .op2 .add d a b => if a = .x0 then .op1 .mv d b else if b = .x0 then .op1 .mv d a else .op2 .add d a b
  | .op2 .addw d a b =>
    if a = .x0 then .op1 .sextW d b else if b = .x0 then .op1 .sextW d a else .op2 .addw d a b
  | .opI .and d a v => if a = .x0 then .op1 .mv d .x0 else .opI .and d a v
  | .opI .slt d a v =>
    if a = .x0 then (if 0 < v then .li12 d 1 else .op1 .mv d .x0) else .opI .slt d a v
  | .op2 .or d a b => if a = .x0 then .op1 .mv d b else if b = .x0 then .op1 .mv d a else .op2 .or d a b
  | .op1 .sextW d a => if a = .x0 then .op1 .mv d .x0 else .op1 .sextW d a
  | .op2 .addUw d a b =>
    if a = .x0 ∧ b = .x0 then .op1 .mv d .x0
    else if a = .x0 then .op1 .mv d b
    else if b = .x0 then .op1 .zextW d a
    else .op2 .addUw d a b
  | i => i

/-- `simplifyOpWithZero`, a block. -/
def simplifyOpWithZero (is : List PI) : List PI := is.map zeroOp

/-- `isWProvider` (`RISCVScheduleModel.cpp:969-996`). -/
def isWProvider : PI → Bool
  | .opI .addw .. | .op2 .addw .. | .op2 .subw .. | .op2 .mulw .. | .op2 .divw .. | .op2 .divuw ..
  | .op2 .remw .. | .op2 .remuw .. | .op1 .sextW .. | .opI .sllw .. | .opI .sraw .. | .opI .srlw ..
  | .op2 .sllw .. | .op2 .sraw .. | .op2 .srlw .. | .li12 .. => true
  | .load true .w .. | .load true .h .. | .load true .b .. => true
  | .opI .srl _ _ v | .opI .sra _ _ v => decide (32 ≤ v)
  | _ => false

def PI.isCall : PI → Bool
  | .call _ => true
  | _ => false

/-- `defs[op] = &inst` (`RISCVScheduleModel.cpp:1207-1213`). -/
def noteDef (D : R → Option PI) (i : PI) : R → Option PI :=
  match i.dst with
  | some d => fun q => if q = d then some i else D q
  | none => D

/-- `removeSExtW` (`RISCVScheduleModel.cpp:1192-1222`), a block; `D` is the map `defs`. -/
def sextScan (D : R → Option PI) : List PI → List PI
  | [] => []
  | .op1 .sextW d a :: is =>
    let i := if (D a).any isWProvider then .op1 .mv d a else .op1 .sextW d a
    i :: sextScan (noteDef D i) is
  | i :: is => i :: sextScan (if i.isCall then fun _ => none else noteDef D i) is

def removeSExtW (is : List PI) : List PI := sextScan (fun _ => none) is

/-- `invalidateBranches` (`RISCVScheduleModel.cpp:349-360`). -/
def dropBranches (K : List (CC × R × R)) (i : PI) : List (CC × R × R) :=
  if i.isCall then [] else
  match i.dst with
  | some d => K.filter fun k => ¬ (k.2.1 = d ∨ k.2.2 = d)
  | none => K

/-- `removeDeadBranch` (`RISCVScheduleModel.cpp:342-414`), a block; `K` is the list `branches`. -/
def deadScan (K : List (CC × R × R)) : List PI → List PI
  | [] => []
  | .br c a b l :: is =>
    if (c, a, b) ∈ K then deadScan K is else .br c a b l :: deadScan (K ++ [(c, a, b)]) is
  | i :: is => i :: deadScan (dropBranches K i) is

def removeDeadBranch (is : List PI) : List PI := deadScan [] is

/-- The branches that are taken when both operands are equal (`RISCVScheduleModel.cpp:304-320`). -/
def eqTaken : CC → Bool
  | .eq | .sle | .sge | .ule | .uge => true
  | _ => false

/-- `branch2jump` (`RISCVScheduleModel.cpp:292-340`), one instruction; `next` is the block after, given while every
block ends with its only terminator (`endsWithTerminator`). -/
def zeroBr (next : Option ℕ) : PI → PI
  | .br c a b l =>
    if a = .x0 ∧ b = .x0 then
      if eqTaken c then .jump l
      else match next with
        | some n => .jump n
        | none => .op1 .mv .x0 .x0
    else .br c a b l
  | i => i

/-- `branch2jump`, a function; `ends` is `endsWithTerminator`. -/
def branch2jump (ends : Bool) : Fn → Fn
  | [] => []
  | B :: f => (B.1, B.2.map (zeroBr (if ends then f.head?.map Prod.fst else none))) :: branch2jump ends f

/-! ## Large constants -/

/-- `reuseImm` (`RISCVScheduleModel.cpp:427-484`): the instruction that computes `v` from a constant loaded before;
the list has the latest constant first.  Signed overflow is taken to wrap. -/
def reuseImm (v : ℤ) (d : R) : List (ℤ × R) → Option PI
  | [] => none
  | (w, r) :: q =>
    if v = w then some (.op1 .mv d r)
    else match (List.range 8).find? (fun k => wrap64 (w * 2 ^ (k + 1)) = v) with
    | some k => some (.opI .sll d r (k + 1))
    | none => match (List.range 8).find? (fun k => w / 2 ^ (k + 1) = v) with
    | some k => some (.opI .srl d r (k + 1))
    | none =>
      if imm12 (wrap64 (v - w)) then some (.opI .add d r (wrap64 (v - w)))
      else if wrap64 (-w) = v then some (.op2 .sub d .x0 r)
      else if -1 - w = v then some (.opI .xor d r (-1))
      else if wrap64 (w * 3) = v then some (.op2 .sh1add d r r)
      else if wrap64 (w * 5) = v then some (.op2 .sh2add d r r)
      else if wrap64 (w * 9) = v then some (.op2 .sh3add d r r)
      else reuseImm v d q

/-- `addImm` (`RISCVScheduleModel.cpp:420-426`). -/
def addImm (q : List (ℤ × R)) (v : ℤ) : R → List (ℤ × R)
  | .v n => ((v, .v n) :: q).take 4
  | _ => q

/-- `largeImmMaterialize` (`RISCVScheduleModel.cpp:417-500`). -/
def immScan (q : List (ℤ × R)) : List PI → List PI
  | [] => []
  | .li12 d v :: is => .li12 d v :: immScan (addImm q v d) is
  | .liN d v :: is => (reuseImm v d q).getD (.liN d v) :: immScan (addImm q v d) is
  | i :: is => i :: immScan q is

def largeImmMaterialize (is : List PI) : List PI := immScan [] is

end Cmmc.Rvp
