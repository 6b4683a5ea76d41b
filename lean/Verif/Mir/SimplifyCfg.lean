import Verif.Mir.Layout
import Verif.SSA.Bfs
import Mathlib.Data.List.DropRight
import Mathlib.Data.List.Dedup

/-!
# Model of `/repo/cmmc/CodeGen/SimplifyCFG.cpp`

Each function returns the new code and the `modified` flag the C++ function returns. A jump table is kept inside its
jump (in the C++ it is an object the jump points to, so that two jumps may share one; retargeting a shared table twice
is not modelled). Branch probabilities and trip counts are not modelled.
-/

namespace Cmmc.Mir

/-- What the passes ask of the target: how to write a jump, and the branch with the opposite condition
    (`emitGoto`, InstInfo.cpp:244-246; `inverseBranch`, InstInfo.hpp:96). -/
structure BrOps where
  goto : Nat → Inst
  inv : Inst → Inst

/-- The instructions of the block with label `t`. -/
def Code.body (f : Code) (t : Nat) : Option (List FInst) := (f.find? fun B => B.1 == t).map Prod.snd

/-- Where a block consisting of a single jump goes (SimplifyCFG.cpp:36-44). -/
def gotoOnly : List FInst → Option Nat
  | [x] => match x.br with
    | .goto t => some t
    | _ => none
  | _ => none

/-- The map `redirect` (SimplifyCFG.cpp:35-44). -/
def Code.forward (f : Code) (t : Nat) : Option Nat := (f.body t).bind gotoOnly

/-- `redirectGoto` (SimplifyCFG.cpp:34-71). -/
def redirectGoto (f : Code) : Code × Bool :=
  (f.retarget fun t => (f.forward t).getD t, f.flat.any fun x => x.targets.any fun t => (f.forward t).isSome)

/-- Everything up to the first instruction control does not pass (SimplifyCFG.cpp:98-130). -/
def cut : List FInst → List FInst
  | [] => []
  | x :: r => if x.noFall then [x] else x :: cut r

/-- Whether control can run off the end of a list of instructions (`stop`, SimplifyCFG.cpp:98, 132). -/
def falls (is : List FInst) : Bool := is.all fun x => !x.noFall

/-- The label of the block after the one with label `u` (`nextMap`, SimplifyCFG.cpp:76-82). -/
def Code.after : Code → Nat → Option Nat
  | (l, _) :: (n, js) :: f, u => if l = u then some n else Code.after ((n, js) :: f) u
  | _, _ => none

/-- The blocks reached from block `u` (SimplifyCFG.cpp:86-134): the targets of the instructions control passes, then
    the next block. -/
def Code.reach1 (f : Code) (u : Nat) : List Nat :=
  match f.body u with
  | none => []
  | some is => (cut is).flatMap FInst.targets ++ (if falls is then (f.after u).toList else [])

/-- `removeUnreachableCode` (SimplifyCFG.cpp:73-141); the work list never needs more rounds than there are blocks. -/
def removeUnreachableCode (f : Code) : Code × Bool :=
  match f with
  | [] => (f, false)
  | B :: _ =>
    match Cmmc.SSA.bfs f.reach1 f.length [B.1] [B.1] with
    | none => (f, false)
    | some seen =>
      let g := (f.filter fun B => seen.contains B.1).map fun B => (B.1, cut B.2)
      (g, decide (g ≠ f))

/-- Append the instructions of a block without a used label to the block before it (SimplifyCFG.cpp:165-183). -/
def mergeUnused (used : List Nat) : Nat × List FInst → Code → Code
  | B, [] => [B]
  | B, C :: f => if used.contains C.1 then B :: mergeUnused used C f else mergeUnused used (B.1, B.2 ++ C.2) f

/-- `removeUnusedLabels` (SimplifyCFG.cpp:143-187). -/
def removeUnusedLabels (f : Code) : Code × Bool :=
  match f with
  | [] => (f, false)
  | B :: r =>
    let used := (B.1 :: f.flat.flatMap FInst.targets).dedup
    if used.length = f.length then (f, false) else (mergeUnused used B r, true)

/-- Is the instruction a jump to `n`? -/
def FInst.isGoto (n : Nat) (x : FInst) : Bool := x.br == .goto n

/-- Remove the jumps to `n` from the end (SimplifyCFG.cpp:199-208). -/
def dropGotos (n : Nat) (is : List FInst) : List FInst := is.rdropWhile (FInst.isGoto n)

/-- Rewrite the end of each block, knowing the label of the next one (the loops over `iter` and `next`,
    SimplifyCFG.cpp:191-196, 265-272, 288-295). -/
def mapEnds (e : Nat → List FInst → List FInst) : Code → Code
  | (l, is) :: (n, js) :: f => (l, e n is) :: mapEnds e ((n, js) :: f)
  | f => f

/-- `removeGotoNext` (SimplifyCFG.cpp:189-212). -/
def removeGotoNext (f : Code) : Code × Bool := (mapEnds dropGotos f, decide (mapEnds dropGotos f ≠ f))

/-- The map `redirects` (SimplifyCFG.cpp:215-235): `pend` are the empty blocks just before. -/
def emptyMap : List Nat → Code → List (Nat × Nat)
  | pend, [] => match pend.getLast? with
    | some l => pend.dropLast.map fun t => (t, l)
    | none => []
  | pend, (l, is) :: f => if is.isEmpty then emptyMap (pend ++ [l]) f else pend.map (fun t => (t, l)) ++ emptyMap [] f

/-- `removeEmptyBlocks` (SimplifyCFG.cpp:214-260). -/
def removeEmptyBlocks (f : Code) : Code × Bool :=
  let m := emptyMap [] f
  (Code.retarget (fun t => (m.lookup t).getD t) (f.filter fun B => (m.lookup B.1).isNone), !m.isEmpty)

/-- A conditional branch to the next block becomes a jump (SimplifyCFG.cpp:271-280). -/
def condEnd (J : BrOps) (n : Nat) (is : List FInst) : List FInst :=
  match is.getLast? with
  | some x => if x.br = .cond n then is.dropLast ++ [⟨J.goto n, .goto n⟩] else is
  | none => is

/-- `conditional2Unconditional` (SimplifyCFG.cpp:262-285). -/
def conditional2Unconditional (J : BrOps) (f : Code) : Code × Bool :=
  (mapEnds (condEnd J) f, decide (mapEnds (condEnd J) f ≠ f))

/-- A branch around a jump becomes the opposite branch (SimplifyCFG.cpp:295-312). -/
def invEnd (J : BrOps) (n : Nat) (is : List FInst) : List FInst :=
  match is.dropLast.getLast?, is.getLast? with
  | some x, some y =>
    match x.br, y.br with
    | .cond t, .goto u => if t = n then is.dropLast.dropLast ++ [⟨J.inv x.inst, .cond u⟩] else is
    | _, _ => is
  | _, _ => is

/-- `reorderBranch` (SimplifyCFG.cpp:286-318). -/
def reorderBranch (J : BrOps) (f : Code) : Code × Bool :=
  (mapEnds (invEnd J) f, decide (mapEnds (invEnd J) f ≠ f))

/-- A branch to a block with one instruction that jumps back to the next block: the instruction is put behind the
    opposite branch (SimplifyCFG.cpp:333-347). -/
def sfbEnd (J : BrOps) (f : Code) (n : Nat) (is : List FInst) : List FInst :=
  match is.getLast? with
  | some x =>
    match x.br with
    | .cond t =>
      match f.body t with
      | some [y, z] => if z.br = .goto n then is.dropLast ++ [⟨J.inv x.inst, .cond n⟩, y] else is
      | _ => is
    | _ => is
  | none => is

/-- The loop of `sfbOpt` (SimplifyCFG.cpp:324-351): blocks already visited, blocks to come. -/
def sfbLoop (J : BrOps) : Code → Code → Code
  | done, (l, is) :: (n, js) :: f =>
    sfbLoop J (done ++ [(l, sfbEnd J (done ++ (l, is) :: (n, js) :: f) n is)]) ((n, js) :: f)
  | done, f => done ++ f

/-- `sfbOpt` (SimplifyCFG.cpp:320-353), once blocks no longer end with their terminators. -/
def sfbOpt (J : BrOps) (f : Code) : Code × Bool := (sfbLoop J [] f, decide (sfbLoop J [] f ≠ f))

/-- One pass after the other, remembering whether any of them changed something. -/
def passes : List (Code → Code × Bool) → Code → Code × Bool
  | [], f => (f, false)
  | p :: ps, f =>
    let a := p f
    let b := passes ps a.1
    (b.1, a.2 || b.2)

/-- Repeat until nothing changes; `none` if that takes more than `n` rounds. -/
def untilSame (p : Code → Code × Bool) : Nat → Code → Option Code
  | 0, _ => none
  | n + 1, f =>
    let a := p f
    if a.2 then untilSame p n a.1 else some a.1

/-- `simplifyCFG` (SimplifyCFG.cpp:355-370); `peep` stands for `genericPeepholeOpt`. -/
def simplifyCFG (J : BrOps) (peep : Code → Code × Bool) : Nat → Code → Option Code :=
  untilSame (passes [removeUnreachableCode, removeGotoNext, redirectGoto, removeEmptyBlocks, removeUnusedLabels,
    reorderBranch J, sfbOpt J, peep])

/-- `simplifyCFGWithUniqueTerminator` (SimplifyCFG.cpp:372-384). -/
def simplifyCFGUnique (J : BrOps) (peep : Code → Code × Bool) : Nat → Code → Option Code :=
  untilSame (passes [conditional2Unconditional J, redirectGoto, removeUnreachableCode, peep])

end Cmmc.Mir
