import Verif.Mir.Scan
import Mathlib.Data.List.Sort

/-!
# Scheduling instructions after register allocation

`/repo/cmmc/CodeGen/Scheduler.cpp`: build the dependences between the instructions of a block, then list-schedule
them against a model of the processor. The processor model (`ScheduleModel`, `ScheduleClass`, `ScheduleState`;
Target/*/*ScheduleModel.cpp) only decides *when* a ready instruction is issued; it is an arbitrary parameter here.
Instructions are named by their position in the block, as the code names them by their address.
-/

namespace Cmmc.Mir

/-- What is known while the dependences are collected, Scheduler.cpp:250-269: `edges` are the pairs `(u, v)`, `u` must
    come after `v` (`antiDeps[v]` contains `u`); the instructions that touched each register since it was last
    written, the last writer of each register, the last instruction with side effects, the last barrier. -/
structure DepSt where
  edges : List (Nat × Nat) := []
  touch : Reg → List Nat := fun _ => []
  dfn : Reg → Option Nat := fun _ => none
  side : Option Nat := none
  barrier : Option Nat := none

/-- Scheduler.cpp:252-265 `addDep`. -/
def addDep (es : List (Nat × Nat)) (u v : Nat) : List (Nat × Nat) :=
  if u = v then es else if (u, v) ∈ es then es else es ++ [(u, v)]

/-- `addDep` if there is anything to depend on. -/
def depOpt (es : List (Nat × Nat)) (u : Nat) : Option Nat → List (Nat × Nat)
  | some v => addDep es u v
  | none => es

/-- Scheduler.cpp:271-291: an operand that is read. (Simplification: an operand that names a stack object counts as a
    read of the stack pointer; here it is that read.) -/
def DepSt.use (i : Nat) (s : DepSt) (r : Reg) : DepSt :=
  { s with
    edges := depOpt s.edges i (s.dfn r)
    touch := fun q => if q = r then s.touch r ++ [i] else s.touch q }

/-- Scheduler.cpp:292-307: an operand that is written. -/
def DepSt.dfnd (i : Nat) (s : DepSt) (r : Reg) : DepSt :=
  { s with
    edges := (s.touch r).foldl (fun es u => addDep es i u) s.edges
    touch := fun q => if q = r then [i] else s.touch q
    dfn := fun q => if q = r then some i else s.dfn q }

/-- Scheduler.cpp:309-325: order after the last barrier, instructions with side effects one after the other, barriers
    (`InstFlagInOrder | InstFlagCall | InstFlagTerminator`) after everything before them. -/
def DepSt.effects (F : Flags) (inOrder : Nat → Bool) (i : Nat) (x : Inst) (s : DepSt) : DepSt :=
  let s1 : DepSt := { s with edges := depOpt s.edges i s.barrier }
  if F.side x.op then
    let s2 : DepSt := { s1 with edges := depOpt s1.edges i s1.side, side := some i }
    if inOrder x.op then
      { s2 with edges := (List.range i).foldl (fun es v => addDep es i v) s2.edges, barrier := some i }
    else s2
  else s1

/-- Scheduler.cpp:269-326: one instruction. -/
def depStep (F : Flags) (inOrder : Nat → Bool) (s : DepSt) (ix : Inst × Nat) : DepSt :=
  let s1 := ix.1.uses.foldl (DepSt.use ix.2) s
  let s2 := ix.1.defs.foldl (DepSt.dfnd ix.2) s1
  s2.effects F inOrder ix.2 ix.1

/-- Scheduler.cpp:250-326 (and 117-203, the same code): the dependences of a block. -/
def buildDeps (F : Flags) (inOrder : Nat → Bool) (l : List Inst) : List (Nat × Nat) :=
  (l.zipIdx.foldl (depStep F inOrder) {}).edges

/-! ## List scheduling -/

/-- The processor: whether an instruction can be issued now (`ScheduleClass::schedule`), and the next cycle
    (`ScheduleState::nextCycle`), Scheduler.cpp:365-407. -/
structure Proc (S : Type) where
  init : S
  schedule : S → Nat → Bool × S
  next : S → Nat × S
  width : Nat

/-- The choices that do not matter for correctness: the rank of each instruction (Scheduler.cpp:328-356), the penalty
    for waiting, and the order in which the successors of an instruction are visited (an `unordered_set`). -/
structure Heur where
  rank : Nat → Int
  penalty : Int
  visit : Nat → List Nat → List Nat

/-- Scheduler.cpp:29-73: the state of `topDownScheduling`. `out` is `newList`, `fresh` is `newReadyInsts`. -/
structure SchedSt (S : Type) where
  plane : List Nat
  deg : Nat → Nat
  out : List Nat
  fresh : List Nat
  ready : Nat → Nat
  cyc : Nat
  busy : Nat
  s : S

variable {S : Type}

/-- Scheduler.cpp:71-73 `evalRank`. -/
def evalRank (H : Heur) (st : SchedSt S) (i : Nat) : Int :=
  H.rank i + ((st.cyc : Int) - (st.ready i : Int)) * H.penalty

/-- Scheduler.cpp:75-98: try the instructions of the plane in turn, moving those that cannot be issued to the end. -/
def pick (P : Proc S) : Nat → List Nat → S → Option Nat × List Nat × S
  | 0, pl, s => (none, pl, s)
  | _ + 1, [], s => (none, [], s)
  | k + 1, i :: pl, s =>
    if (P.schedule s i).1 then (some i, pl, (P.schedule s i).2)
    else pick P k (pl ++ [i]) (P.schedule s i).2

/-- Scheduler.cpp:85-91: an issued instruction no longer holds up its successors. -/
def relax : List Nat → (Nat → Nat) × List Nat → (Nat → Nat) × List Nat
  | [], p => p
  | v :: vs, (deg, fresh) =>
    relax vs (fun q => if q = v then deg v - 1 else deg q, if deg v - 1 = 0 then fresh ++ [v] else fresh)

/-- `antiDeps[v]`. -/
def antiDeps (es : List (Nat × Nat)) (v : Nat) : List Nat := (es.filter fun e => e.2 = v).map Prod.fst

/-- Scheduler.cpp:66-101: issue up to `w` instructions in this cycle.
    (`std::list::sort` is stable; so is `insertionSort`, and a stable sort has only one result.) -/
def issue (P : Proc S) (H : Heur) (es : List (Nat × Nat)) : Nat → SchedSt S → SchedSt S
  | 0, st => st
  | w + 1, st =>
    let pl := st.plane.insertionSort fun a b => evalRank H st b ≤ evalRank H st a
    match pick P pl.length pl st.s with
    | (none, pl, s) => { st with plane := pl, s := s }
    | (some i, pl, s) =>
      let df := relax (H.visit i (antiDeps es i)) (st.deg, st.fresh)
      issue P H es w { st with plane := pl, s := s, out := st.out ++ [i], deg := df.1, fresh := df.2, busy := 0 }

/-- Scheduler.cpp:65-117: one cycle. -/
def cycleStep (P : Proc S) (H : Heur) (es : List (Nat × Nat)) (st : SchedSt S) : SchedSt S :=
  let st1 := issue P H es P.width { st with fresh := [] }
  let c := P.next st1.s
  { st1 with plane := st1.plane ++ st1.fresh, fresh := [], s := c.2, cyc := c.1, busy := st1.busy + 1,
             ready := fun i => if i ∈ st1.fresh then c.1 else st1.ready i }

inductive Outcome where
  | done (l : List Nat)
  | abort
  | fuel
deriving DecidableEq, Repr

/-- Scheduler.cpp:62-118: until every instruction has been issued; give up (`reportUnreachable`) after 200 cycles
    without issuing anything. `fuel` bounds the number of cycles; see `schedule_not_fuel`. -/
def topDown (P : Proc S) (H : Heur) (es : List (Nat × Nat)) (n : Nat) : Nat → SchedSt S → Outcome
  | fuel, st =>
    if st.out.length = n then .done st.out
    else match fuel with
      | 0 => .fuel
      | fuel + 1 =>
        let st' := cycleStep P H es st
        if st'.busy > 200 then .abort else topDown P H es n fuel st'

def degrees (es : List (Nat × Nat)) (u : Nat) : Nat := es.countP fun e => e.1 = u

def schedInit (P : Proc S) (es : List (Nat × Nat)) (n : Nat) : SchedSt S :=
  { plane := (List.range n).filter fun i => degrees es i = 0, deg := degrees es, out := [], fresh := [],
    ready := fun _ => 0, cyc := 0, busy := 0, s := P.init }

/-- Scheduler.cpp:29-120 `topDownScheduling`: the new order of the instructions. -/
def scheduleOrder (P : Proc S) (H : Heur) (es : List (Nat × Nat)) (n : Nat) : Outcome :=
  topDown P H es n (201 * (n + 1)) (schedInit P es n)

/-- Scheduler.cpp:249-359 `postRAScheduleBlock`; `none` if scheduling gives up. -/
def scheduleBlock (P : Proc S) (H : Heur) (F : Flags) (inOrder : Nat → Bool) (B : Block) : Option Block :=
  match scheduleOrder P H (buildDeps F inOrder B.insts) B.insts.length with
  | .done o => some { B with insts := o.filterMap fun i => B.insts[i]? }
  | _ => none

/-- Scheduler.cpp:361-369 `postRASchedule` (when the target enables it): every block. The processor and the heuristics
    may depend on the block. -/
def postRASchedule (P : Block → Proc S) (H : Block → Heur) (F : Flags) (inOrder : Nat → Bool) : Func → Option Func
  | [] => some []
  | B :: f =>
    match scheduleBlock (P B) (H B) F inOrder B, postRASchedule P H F inOrder f with
    | some B', some f' => some (B' :: f')
    | _, _ => none

end Cmmc.Mir
