import Verif.Mir.InvisProps

/-!
# Propagating and hoisting constants on machine code in SSA form

`applySSAPropagation` and `machineConstantHoist` of `/repo/cmmc/CodeGen/Peephole.cpp`.
-/

namespace Cmmc.Mir

/-! ## `applySSAPropagation` -/

/-- Peephole.cpp:207-219 `constants`: the virtual registers written once and loaded with a constant. -/
def isConstReg (F : Flags) (f : Func) (r : Reg) : Bool :=
  f.all.any fun (_, x) => F.const x.op && decide (x.defs.head? = some r) && r.isVirt && decide (defCount f r ≤ 1)

/-- Peephole.cpp:225-230: one instruction. -/
def ssaCopyStep (F : Flags) (f : Func) (m : Reg → Option Reg) (x : Inst) : Reg → Option Reg :=
  match matchCopy F x with
  | some (d, s) =>
    if d.isVirt && s.isVirt && isConstReg F f s && decide (defCount f d ≤ 1) && decide (defCount f s ≤ 1) then
      fun q => if q = d then some s else m q
    else m
  | none => m

/-- Peephole.cpp:221-232 `copy`: the virtual registers written once with a copy of such a register. -/
def ssaCopies (F : Flags) (f : Func) : Reg → Option Reg :=
  f.all.foldl (fun m e => ssaCopyStep F f m e.2) fun _ => none

/-- Peephole.cpp:241-250: replace the operands read. -/
def substUses (m : Reg → Option Reg) (x : Inst) : Inst :=
  { x with ops := x.ops.map fun (role, r) => if role = .use then (role, (m r).getD r) else (role, r) }

/-- Peephole.cpp:201-256 `applySSAPropagation`. -/
def applySSAPropagation (F : Flags) (f : Func) : Func :=
  f.scan (fun _ (_ : Unit) x => (some (substUses (ssaCopies F f) x), ())) ()

/-! ## `machineConstantHoist` -/

/-- Peephole.cpp:269-277: how many virtual registers the entry block already loads with constants. -/
def entryConsts (F : Flags) (f : Func) : Nat :=
  match f with
  | [] => 0
  | E :: _ => (E.insts.filter fun x => F.const x.op && (match x.defs with | d :: _ => d.isVirt | [] => false)).length

/-- Peephole.cpp:288-307: the constants that may be moved, outside the entry block and in blocks executed often
    enough. (The block frequencies are arbitrary here.) -/
def hoistable (F : Flags) (f : Func) (freq : Nat → Nat) (thr : Nat) : List Pos :=
  f.all.filterMap fun (p, x) =>
    if p.1 ≠ 0 ∧ thr < freq p.1 ∧ F.const x.op = true then
      match x.defs with
      | [d] => if d.isVirt = true ∧ defCount f d ≤ 1 then some p else none
      | _ => none
    else none

/-- Peephole.cpp:312-323: the constants that are moved: the most frequent ones, until the limit is reached. -/
def hoisted (F : Flags) (f : Func) (freq : Nat → Nat) (thr maxCount : Nat) : List Pos :=
  ((hoistable F f freq thr).mergeSort fun p q => freq q.1 ≤ freq p.1).take (maxCount - entryConsts F f)

/-- Peephole.cpp:318: what is left in place of a constant that is moved: a copy into a fresh register. -/
def leftCopy (copyOp : Nat) (v : Nat) (x : Inst) : Inst :=
  match x.defs with
  | d :: _ => { op := copyOp, ops := [(.dfn, .vr v), (.use, d)] }
  | [] => x

/-- Moving the constants at the positions `sel` to the end of the entry block (before its last instruction);
    `fresh` gives the new registers. -/
def hoistAt (copyOp : Nat) (fresh : Pos → Nat) (sel : List Pos) (f : Func) : Func :=
  f.mapIdx fun b B =>
    if b = 0 then { B with insts := B.insts.dropLast ++ sel.filterMap f.at ++ B.insts.getLast?.toList }
    else { B with insts := B.insts.mapIdx fun i x => if (b, i) ∈ sel then leftCopy copyOp (fresh (b, i)) x else x }

/-- Peephole.cpp:257-323 `machineConstantHoist`; `copyOp` is `InstCopy`, `fresh` is `nextId`. -/
def machineConstantHoist (F : Flags) (copyOp : Nat) (fresh : Pos → Nat) (freq : Nat → Nat) (thr maxCount : Nat)
    (f : Func) : Func :=
  hoistAt copyOp fresh (hoisted F f freq thr maxCount) f

end Cmmc.Mir
