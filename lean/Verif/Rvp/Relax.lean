import Verif.Rvp.Peep

/-!
# 32-bit instructions made 64-bit ones

A model of `relaxWInst` (`cmmc/Target/RISCV/RISCVScheduleModel.cpp:997-1190`).
-/

namespace Cmmc.Rvp

open Cmmc.Isel

/-- A place in a function: the number of the block and of the instruction. -/
abbrev Pos := ℕ × ℕ

def Fn.inst (f : Fn) (p : Pos) : Option PI := f[p.1]?.bind fun B => B.2[p.2]?

/-- All the places of a function. -/
def Fn.places (f : Fn) : List Pos :=
  (List.range f.length).flatMap fun b => (List.range ((f[b]?.map fun B => B.2.length).getD 0)).map fun i => (b, i)

/-- `isWUser` (`RISCVScheduleModel.cpp:1002-1030`). -/
def isWUser : PI → Bool
  | .opI .addw .. | .op2 .addUw .. | .op2 .addw .. | .op2 .subw .. | .op2 .mulw .. | .op2 .divw .. | .op2 .divuw ..
  | .op2 .remw .. | .op2 .remuw .. | .op1 .sextW .. | .opI .sllw .. | .opI .sraw .. | .opI .srlw ..
  | .op2 .sllw .. | .op2 .sraw .. | .op2 .srlw .. => true
  | .store .w .. | .store .h .. | .store .b .. => true
  | .fcvt .. => true
  | _ => false

/-- `isInterestWInst` (`RISCVScheduleModel.cpp:1032-1044`) and the instruction it becomes (`1133-1172`). -/
def relaxI : PI → Option PI
  | .opI .addw d a v => some (.opI .add d a v)
  | .op1 .sextW d a => some (.op1 .mv d a)
  | .opI .sllw d a v => some (.opI .sll d a v)
  | .opI .sraw d a v => some (.opI .sra d a v)
  | _ => none

/-- `needWProvider` (`RISCVScheduleModel.cpp:1045-1061`), for the instructions of `relaxI`. -/
def needW : PI → Bool
  | .opI .addw .. | .opI .sllw .. | .opI .sraw .. => true
  | _ => false

def PI.isSraiw : PI → Bool
  | .opI .sraw .. => true
  | _ => false

/-- `users[inst]` (`RISCVScheduleModel.cpp:1071-1099`): the places that read the register written at `p`. -/
def usersOf (f : Fn) (p : Pos) : List Pos :=
  match (f.inst p).bind PI.dst with
  | some d => f.places.filter fun u => (f.inst u).any fun i => i.uses.contains d
  | none => []

/-- `defs[op]` (`RISCVScheduleModel.cpp:1071-1082`): the instructions that write a register. -/
def defsOf (f : Fn) (r : R) : List PI := f.flatMap fun B => B.2.filter fun i => i.dst = some r

/-- `allWOperand` (`RISCVScheduleModel.cpp:1105-1128`). -/
def allWOperand (f : Fn) (i : PI) : Bool :=
  !needW i || i.uses.all fun r => !(defsOf f r).isEmpty && (defsOf f r).all isWProvider

/-- The state of the last loop of `relaxWInst`: the places whose opcode has been changed, and `noRelax`. -/
structure RelSt where
  done : List Pos
  no : List Pos

/-- The instruction at a place at this point of the loop. -/
def curI (f : Fn) (done : List Pos) (u : Pos) : Option PI :=
  (f.inst u).map fun i => if u ∈ done then (relaxI i).getD i else i

/-- One iteration of the last loop (`RISCVScheduleModel.cpp:1131-1183`). -/
def relaxStep (f : Fn) (st : RelSt) (p : Pos) : RelSt :=
  match curI f st.done p with
  | none => st
  | some i =>
    if p ∈ st.no ∨ relaxI i = none then st
    else if (usersOf f p).all fun u => (curI f st.done u).any isWUser then
      { done := st.done ++ [p], no := if i.isSraiw then st.no else st.no ++ usersOf f p }
    else st

/-- `noRelax` before the last loop (`RISCVScheduleModel.cpp:1101-1129`). -/
def noRelax (f : Fn) : List Pos := f.places.filter fun p => (f.inst p).any fun i => !allWOperand f i

/-- Change the opcodes at some places. -/
def relaxBlk (S : List Pos) (b : ℕ) : ℕ → List PI → List PI
  | _, [] => []
  | k, i :: is => (if (b, k) ∈ S then (relaxI i).getD i else i) :: relaxBlk S b (k + 1) is

def relaxFn (S : List Pos) : ℕ → Fn → Fn
  | _, [] => []
  | b, B :: f => (B.1, relaxBlk S b 0 B.2) :: relaxFn S (b + 1) f

/-- `relaxWInst`; the places are visited in the order `ord`, which the hash map does not specify. -/
def relaxWInst (f : Fn) (ord : List Pos) : Fn :=
  relaxFn (ord.foldl (relaxStep f) { done := [], no := noRelax f }).done 0 f

end Cmmc.Rvp
