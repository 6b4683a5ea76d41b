import Verif.Mir.SimplifyCfg

/-!
# Model of `/repo/cmmc/CodeGen/TailDuplication.cpp`, `BlockLayoutOpt.cpp` (applying a layout) and `ICF.cpp`

These passes run while every block still ends with its only terminator. Block frequencies and the heuristics that use
them are not modelled: which blocks are duplicated, and which order the placement algorithm finds, is arbitrary.
-/

namespace Cmmc.Mir

/-- The successors `calcCFG` records for a block (MIRCFGAnalysis.cpp:46-77); `n` is the next block. -/
def endSuccs (n : Option Nat) (is : List FInst) : List Nat :=
  match is.getLast? with
  | none => []
  | some x =>
    match x.br with
    | .goto t => [t]
    | .cond t =>
      match n with
      | some n => if n = t then [t] else [t, n]
      | none => [t]
    | .table ts => ts
    | _ => []

/-- `cfg.successors(block)`. -/
def Code.succs (f : Code) (l : Nat) : List Nat :=
  match f.body l with
  | none => []
  | some is => endSuccs (f.after l) is

/-- Given the recorded successors of a block that branches to `t`, the block control falls through to
    (TailDuplication.cpp:131-141, BlockLayoutOpt.cpp:420-431); `none` is `reportUnreachable`. -/
def otherSucc (t : Nat) : List Nat → Option Nat
  | [a] => some a
  | [a, b] => if t = a then some b else some a
  | _ => none

/-- `ensureNext` (TailDuplication.cpp:119-127, BlockLayoutOpt.cpp:408-415): unless `next` comes next, a new block that
    jumps to it. `i` is the label the new block gets. -/
def ensureNext (J : BrOps) (i next : Nat) (rest : Code) : Code :=
  if rest.head?.map Prod.fst = some next then [] else [(i, [⟨J.goto next, .goto next⟩])]

/-! ## `tailDuplication` -/

/-- What the loop keeps: the recorded successors, the next free label, whether anything changed. -/
structure DupSt where
  succ : Nat → List Nat
  id : Nat
  modified : Bool

/-- One block of the loop (TailDuplication.cpp:98-156): if it ends with a jump to a block worth duplicating, the jump is
    replaced by the instructions of that block. `want` stands for the heuristics (TailDuplication.cpp:103-113). Gives the
    new instructions, the new blocks put behind and the new state. Where the C++ reports an internal error
    (TailDuplication.cpp:141) nothing is changed. -/
def dupBlock (J : BrOps) (want : Code → Nat → Nat → Bool) (st : DupSt) (done : Code) (l : Nat) (is : List FInst)
    (rest : Code) : List FInst × Code × DupSt :=
  match is.getLast? with
  | none => (is, [], st)
  | some x =>
    match x.br with
    | .goto t =>
      if t ≠ l ∧ rest.head?.map Prod.fst ≠ some t ∧ want (done ++ (l, is) :: rest) l t = true then
        match Code.body (done ++ (l, is.dropLast) :: rest) t with
        | none => (is, [], st)
        | some js =>
          match js.getLast? with
          | none => (is, [], st)
          | some y =>
            match y.br with
            | .cond u =>
              match otherSucc u (st.succ t) with
              | none => (is, [], st)
              | some n =>
                let new := ensureNext J st.id n rest
                let next := if new.isEmpty then n else st.id
                (is.dropLast ++ js, new,
                  { succ := fun k => if k = l then (if u ≠ next then [u, next] else [u]) else st.succ k,
                    id := st.id + 1, modified := true })
            | .goto u =>
              (is.dropLast ++ js, [],
                { succ := fun k => if k = l then [u] else st.succ k, id := st.id, modified := true })
            | _ =>
              (is.dropLast ++ js, [],
                { succ := fun k => if k = l then [] else st.succ k, id := st.id, modified := true })
      else (is, [], st)
    | _ => (is, [], st)

/-- The loop over the blocks (TailDuplication.cpp:92-157): blocks done, blocks to come. -/
def dupLoop (J : BrOps) (want : Code → Nat → Nat → Bool) : DupSt → Code → Code → Code × DupSt
  | st, done, [] => (done, st)
  | st, done, (l, is) :: rest =>
    let r := dupBlock J want st done l is rest
    dupLoop J want r.2.2 (done ++ (l, r.1) :: r.2.1) rest

/-- A label no block has. -/
def Code.fresh (f : Code) : Nat := f.labels.foldr max 0 + 1

/-- One iteration (TailDuplication.cpp:35-158) up to the clean-up. -/
def dupRound (J : BrOps) (want : Code → Nat → Nat → Bool) (f : Code) : Code × Bool :=
  let r := dupLoop J want { succ := f.succs, id := f.fresh, modified := false } [] f
  (r.1, r.2.modified)

/-- The iterations (TailDuplication.cpp:35-163); `simp` is `simplifyCFGWithUniqueTerminator`. -/
def dupRounds (J : BrOps) (want : Nat → Code → Nat → Nat → Bool) (simp : Code → Option Code) : Nat → Code → Option Code
  | 0, f => some f
  | k + 1, f =>
    let r := dupRound J (want k) f
    if r.2 then (simp r.1).bind (dupRounds J want simp k) else some r.1

/-- `tailDuplication` (TailDuplication.cpp:30-165). -/
def tailDuplication (J : BrOps) (want : Nat → Code → Nat → Nat → Bool) (simp : Code → Option Code) (iters : Nat)
    (f : Code) : Option Code := (simp f).bind (dupRounds J want simp iters)

/-! ## `optimizeBlockLayout` -/

/-- Make the blocks that fall through do so again (BlockLayoutOpt.cpp:402-435); `f` is the function before. -/
def layoutFix (J : BrOps) (f : Code) : Nat → Code → Code
  | _, [] => []
  | i, (l, is) :: rest =>
    match is.getLast? with
    | none => (l, is) :: layoutFix J f i rest
    | some x =>
      match x.br with
      | .cond t =>
        match otherSucc t (f.succs l) with
        | none => (l, is) :: layoutFix J f i rest
        | some n => (l, is) :: (ensureNext J i n rest ++ layoutFix J f (i + 1) rest)
      | _ => (l, is) :: layoutFix J f i rest

/-- Applying a layout (BlockLayoutOpt.cpp:389-436); `place` is what the placement algorithm gives: positions of blocks. -/
def optimizeBlockLayout (J : BrOps) (place : Code → List Nat) (f : Code) : Code :=
  if f.length ≤ 2 then f else layoutFix J f f.fresh ((place f).filterMap fun i => f[i]?)

/-! ## `identicalCodeFolding` -/

/-- The hash of a block (ICF.cpp:57-59); `hs` and `hp` are the hashes of sizes and of pointers to blocks. -/
def icfHash (hs hp : Nat → Nat) (f : Code) (B : Nat × List FInst) : Nat :=
  (f.succs B.1).foldl (fun h s => h ^^^ hp s) (hs B.2.length)

/-- `isIdentical` (ICF.cpp:26-49). -/
def isIdentical (f : Code) (B D : Nat × List FInst) : Bool :=
  (B.2 == D.2) && (f.succs B.1).all fun s => (f.succs D.1).contains s

/-- The loop that looks for identical blocks (ICF.cpp:56-73): `reps` are the blocks that stand for themselves. -/
def icfFind (hs hp : Nat → Nat) (f : Code) : List (Nat × List FInst) → Code → List (Nat × Nat)
  | _, [] => []
  | reps, B :: r =>
    match reps.find? (fun D => icfHash hs hp f D == icfHash hs hp f B && isIdentical f B D) with
    | some D => (B.1, D.1) :: icfFind hs hp f reps r
    | none => icfFind hs hp f (reps ++ [B]) r

/-- Replaced blocks jump to the block that stands for them (ICF.cpp:78-84). -/
def icfReplace (J : BrOps) (m : List (Nat × Nat)) (f : Code) : Code :=
  f.map fun B => match m.lookup B.1 with
    | some r => (B.1, [⟨J.goto r, .goto r⟩])
    | none => B

/-- `identicalCodeFolding` (ICF.cpp:51-87); `none` if the final loop takes more than `n` rounds. -/
def identicalCodeFolding (J : BrOps) (hs hp : Nat → Nat) (n : Nat) (f : Code) : Option Code :=
  let m := icfFind hs hp f [] f
  if m.isEmpty then some f else untilSame redirectGoto n (icfReplace J m f)

end Cmmc.Mir
