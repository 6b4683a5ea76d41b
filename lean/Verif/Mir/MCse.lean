import Verif.Mir.Copy

/-!
# Common subexpressions on machine code

`deadInstElimination`, `machineInstCSE` and `machineConstantCSE` of `/repo/cmmc/CodeGen/Peephole.cpp`.
-/

namespace Cmmc.Mir

/-- Peephole.cpp:384-392 and 475-483: the versions of the registers. -/
structure VerSt where
  id : Nat
  version : Reg → Option Nat

def VerSt.init : VerSt := { id := 0, version := fun _ => none }

/-- `getVersion`. -/
def VerSt.get (s : VerSt) (r : Reg) : Nat × VerSt :=
  match s.version r with
  | some v => (v, s)
  | none => (s.id + 1, { id := s.id + 1, version := fun q => if q = r then some (s.id + 1) else s.version q })

/-- The versions of some operands, in order. -/
def VerSt.gets (s : VerSt) : List Reg → List Nat × VerSt
  | [] => ([], s)
  | r :: rs =>
    let (v, s) := s.get r
    let (vs, s) := s.gets rs
    (v :: vs, s)

/-- `version[op] = ++versionIdx`. -/
def VerSt.bump (s : VerSt) (r : Reg) : VerSt :=
  { id := s.id + 1, version := fun q => if q = r then some (s.id + 1) else s.version q }

/-! ## `deadInstElimination` -/

/-- Peephole.cpp:475-485: the versions and `lastDefine`. -/
structure DeadSt where
  ver : VerSt
  last : Reg → Option (Inst × List Nat)

def DeadSt.init : DeadSt := { ver := VerSt.init, last := fun _ => none }

/-- Peephole.cpp:487-517: one instruction; `none` deletes it. Only the first register written is looked at. -/
def deadStep (F : Flags) (s : DeadSt) (x : Inst) : Option Inst × DeadSt :=
  let (vs, ver) := s.ver.gets x.uses
  if x.call.isSome then (some x, { ver := ver, last := fun _ => none })
  else
    match x.defs with
    | [] => (some x, { s with ver := ver })
    | d :: _ =>
      let keep : DeadSt :=
        { ver := ver.bump d, last := fun q => if q = d then some (x, vs) else s.last q }
      match s.last d with
      | some (y, vs') =>
        if !(F.side x.op || F.pcrel x.op || F.multi x.op) ∧ y = x ∧ vs' = vs then (none, { s with ver := ver })
        else (some x, keep)
      | none => (some x, keep)

/-- Peephole.cpp:470-521 `deadInstElimination`. -/
def deadInstElimination (F : Flags) (f : Func) : Func :=
  f.scan (fun _ => deadStep F) DeadSt.init

/-! ## `machineInstCSE` -/

/-- Peephole.cpp:384-396: the versions, and the instructions seen with the versions of what they read
    (`verArray`) and of what they wrote. -/
structure MCseSt where
  ver : VerSt
  cache : List (Inst × List Nat × Nat)

def MCseSt.init : MCseSt := { ver := VerSt.init, cache := [] }

/-- Peephole.cpp:400-413 and 440-446: an earlier instruction computes the same value and the register it wrote
    still holds it. `sameTy` compares the types of the two registers. -/
def cseHit (sameTy : Reg → Reg → Bool) (ver : VerSt) (x : Inst) (vs : List Nat) (d : Reg)
    (e : Inst × List Nat × Nat) : Option Reg :=
  match e.1.defs with
  | [d'] =>
    if e.1.op = x.op ∧ e.1.uses = x.uses ∧ e.2.1 = vs ∧ ver.version d' = some e.2.2 ∧
        d.isVirt = true ∧ d'.isVirt = true ∧ sameTy d d' = true then some d'
    else none
  | _ => none

/-- Peephole.cpp:398-461: one instruction. `copyOp` is `InstCopy`. (Simplification: the old version of the
    register written is not numbered; it is replaced by a new number at once.) -/
def cseStep (F : Flags) (copyOp : Nat) (sameTy : Reg → Reg → Bool) (s : MCseSt) (x : Inst) : Option Inst × MCseSt :=
  if x.call.isSome then (some x, { s with cache := [] })
  else if F.side x.op || F.pcrel x.op || F.multi x.op || F.copy x.op || F.const x.op then
    (some x, { s with ver := x.defs.foldl VerSt.bump s.ver })
  else
    let (vs, ver) := s.ver.gets x.uses
    match x.defs with
    | [] => (some x, { s with ver := ver })
    | d :: _ =>
      match s.cache.findSome? (cseHit sameTy ver x vs d) with
      | some d' => (some { op := copyOp, ops := [(.dfn, d), (.use, d')] }, { s with ver := ver.bump d })
      | none => (some x, { ver := ver.bump d, cache := s.cache ++ [(x, vs, ver.id + 1)] })

/-- Peephole.cpp:377-468 `machineInstCSE`. -/
def machineInstCSE (F : Flags) (copyOp : Nat) (sameTy : Reg → Reg → Bool) (f : Func) : Func :=
  f.scan (fun _ => cseStep F copyOp sameTy) MCseSt.init

/-! ## `machineConstantCSE` -/

/-- Peephole.cpp:178-199 `collectDefCount`: how often a register is written. -/
def defCount (f : Func) (r : Reg) : Nat :=
  (f.flatMap fun B => B.insts.flatMap fun x => x.defs).count r

/-- Peephole.cpp:331-342 `commonConstants`: for each constant (opcode and operand) the first virtual register of
    the entry block that is loaded with it and written only there. -/
def commonConst (F : Flags) (f : Func) (op : Nat) : Option Reg :=
  match f with
  | [] => none
  | E :: _ => E.insts.findSome? fun x =>
    if F.const x.op ∧ x.op = op then
      match x.defs with
      | [d] => if d.isVirt ∧ defCount f d ≤ 1 then some d else none
      | _ => none
    else none

/-- Peephole.cpp:347-369: one instruction of block `b`; `sel` is `selectCopyOpcode`. -/
def constStep (F : Flags) (sel : Reg → Reg → Nat) (common : Nat → Option Reg) (b : Nat)
    (s : Nat → Option Reg) (x : Inst) : Option Inst × (Nat → Option Reg) :=
  if F.const x.op then
    match x.defs with
    | [d] =>
      match (if b ≠ 0 then common x.op else none) with
      | some l => (some { op := sel d l, ops := [(.dfn, d), (.use, l)] }, s)
      | none =>
        match s x.op with
        | some l => (some { op := sel d l, ops := [(.dfn, d), (.use, l)] }, s)
        | none => (some x, if d.isVirt then (fun q => if q = x.op then some d else s q) else s)
    | _ => (some x, s)
  else (some x, s)

/-- Peephole.cpp:325-375 `machineConstantCSE`. -/
def machineConstantCSE (F : Flags) (sel : Reg → Reg → Nat) (f : Func) : Func :=
  f.scan (constStep F sel (commonConst F f)) (fun _ => none)

end Cmmc.Mir
