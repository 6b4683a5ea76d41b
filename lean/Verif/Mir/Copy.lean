import Verif.Mir.Scan

/-!
# Copy propagation on machine code

`removeIdentityCopies`, `removeIndirectCopy`, `createIndirectCopy` and `eliminateStackLoads` of
`/repo/cmmc/CodeGen/Peephole.cpp`. What is computed from the instruction as a whole (the opcode with its
immediate operands and operand types) is part of the opcode here, see `Inst`.
-/

namespace Cmmc.Mir

/-- InstInfo.cpp:271-280 `matchCopy`: destination and source of a register copy. (The check that both are integer
    registers or both float registers is part of `copy`: operand types belong to the opcode here.) -/
def matchCopy (F : Flags) (x : Inst) : Option (Reg × Reg) :=
  if F.copy x.op then
    match x.ops with
    | [(.dfn, d), (.use, s)] => some (d, s)
    | _ => none
  else none

def Reg.isVirt : Reg → Bool
  | .vr _ => true
  | .ph _ => false

/-- Peephole.cpp:100-111 `removeIdentityCopies`. -/
def removeIdentityCopies (F : Flags) (f : Func) : Func :=
  f.scan (fun _ (_ : Unit) x =>
    match matchCopy F x with
    | some (d, s) => if d = s then (none, ()) else (some x, ())
    | none => (some x, ())) ()

/-! ## `removeIndirectCopy` -/

/-- The parameters of `removeIndirectCopy`: before register allocation (`ctx.flags.preRA`), the zero registers,
    whether an instruction is legal on the target (`InstInfo::verify`), the generic copy opcode (`InstCopy`)
    and `selectCopyOpcode` (ISelInfo.cpp:437-450). -/
structure CopyCtx where
  preRA : Bool
  zero : Reg → Bool
  verify : Inst → Bool
  copyOp : Nat
  sel : Reg → Reg → Nat

/-- Peephole.cpp:533-536: the version counter, `regValue` and `version`. -/
structure CopySt where
  id : Nat
  value : Reg → Option (Reg × Nat)
  version : Reg → Option Nat

def CopySt.init : CopySt := { id := 0, value := fun _ => none, version := fun _ => none }

/-- Peephole.cpp:538-543 `getVersion`. -/
def CopySt.getVersion (s : CopySt) (r : Reg) : Nat × CopySt :=
  match s.version r with
  | some v => (v, s)
  | none => (s.id + 1, { s with id := s.id + 1, version := fun q => if q = r then some (s.id + 1) else s.version q })

/-- Peephole.cpp:545-550 `defReg`. -/
def CopySt.defReg (s : CopySt) (r : Reg) : CopySt :=
  { id := s.id + 1
    version := fun q => if q = r then some (s.id + 1) else s.version q
    value := fun q => if q = r then none else s.value q }

/-- Peephole.cpp:552-576 `replaceUse`, for operand number `i`. (`getVersion` of a register that is the value of
    another one finds it: it was numbered when the copy was seen.) -/
def replaceUse (C : CopyCtx) (s : CopySt) (x : Inst) (i : Nat) : Inst :=
  match x.ops[i]? with
  | some (.use, r) =>
    match s.value r with
    | some (q, v) =>
      if s.version q = some v then
        if C.preRA && (!q.isVirt && !C.zero q) then x
        else if q = r then x
        else
          let y : Inst := { x with ops := x.ops.set i (.use, q) }
          let z : Inst :=
            if x.op = C.copyOp then
              match x.ops[0]? with
              | some (_, d) => { y with op := C.sel d q }
              | none => y
            else y
          if C.verify z then z else x
      else x
    | none => x
  | _ => x

/-- Peephole.cpp:578-620: one instruction. A call gives every physical register seen so far a new version
    (simplification: all the same new one). -/
def indirectStep (F : Flags) (C : CopyCtx) (s : CopySt) (x : Inst) : Option Inst × CopySt :=
  let y := (List.range x.ops.length).foldl (replaceUse C s) x
  match matchCopy F y with
  | some (d, q) =>
    match s.value d with
    | some (q', v) =>
      if q' = q ∧ s.version q = some v then (none, s)
      else
        let s1 := s.defReg d
        let (v, s2) := s1.getVersion q
        (some y, { s2 with value := fun w => if w = d then some (q, v) else s2.value w })
    | none =>
      let s1 := s.defReg d
      let (v, s2) := s1.getVersion q
      (some y, { s2 with value := fun w => if w = d then some (q, v) else s2.value w })
  | none =>
    let s1 := y.defs.foldl CopySt.defReg s
    let s2 := if y.call.isSome then
        { id := s1.id + 1
          version := fun r => if r.isVirt = false ∧ (s1.version r).isSome then some (s1.id + 1) else s1.version r
          value := fun r => if r.isVirt = false ∧ (s1.version r).isSome then none else s1.value r }
      else s1
    (some y, s2)

/-- Peephole.cpp:523-626 `removeIndirectCopy`. -/
def removeIndirectCopy (F : Flags) (C : CopyCtx) (f : Func) : Func :=
  f.scan (fun _ => indirectStep F C) CopySt.init

/-! ## `createIndirectCopy` -/

/-- Peephole.cpp:636-638: `valueNumber`, `latestVersion`, the counter. -/
structure NumSt where
  id : Nat
  num : Reg → Option Nat
  latest : Nat → List Reg

def NumSt.init : NumSt := { id := 0, num := fun _ => none, latest := fun _ => [] }

/-- Peephole.cpp:640-645 `defReg`. -/
def NumSt.defReg (s : NumSt) (r : Reg) : NumSt :=
  if r.isVirt then
    { id := s.id + 1
      num := fun q => if q = r then some (s.id + 1) else s.num q
      latest := fun n => if n = s.id + 1 then r :: s.latest n else s.latest n }
  else s

/-- Peephole.cpp:649-672: one operand that is read. -/
def latestUse (a : Inst × NumSt) (i : Nat) : Inst × NumSt :=
  let (x, s) := a
  match x.ops[i]? with
  | some (.use, r) =>
    if r.isVirt then
      match s.num r with
      | some n =>
        let st := (s.latest n).dropWhile fun q => s.num q ≠ some n
        let s' := { s with latest := fun k => if k = n then st else s.latest k }
        match st.head? with
        | some q => ({ x with ops := x.ops.set i (.use, q) }, s')
        | none => (x, s')
      | none => a
    else a
  | _ => a

/-- Peephole.cpp:647-690: one instruction. -/
def createStep (F : Flags) (s : NumSt) (x : Inst) : Option Inst × NumSt :=
  let (y, s) := (List.range x.ops.length).foldl latestUse (x, s)
  let dflt : NumSt :=
    let s1 := y.defs.foldl NumSt.defReg s
    if y.call.isSome then { s1 with latest := fun _ => [] } else s1
  match matchCopy F y with
  | some (d, q) =>
    if d.isVirt && q.isVirt then
      match s.num q with
      | some n =>
        (some y, { s with num := fun w => if w = d then some n else s.num w
                          latest := fun k => if k = n then d :: s.latest k else s.latest k })
      | none => (some y, dflt)
    else (some y, dflt)
  | none => (some y, dflt)

/-- Peephole.cpp:628-695 `createIndirectCopy`. -/
def createIndirectCopy (F : Flags) (f : Func) : Func :=
  f.scan (fun _ => createStep F) NumSt.init

/-! ## `eliminateStackLoads` -/

/-- The stack accesses of spilled registers: the opcodes `InstStoreRegToStack` and `InstLoadRegFromStack`, the
    generic copy opcode, and which registers of the model stand for stack slots. Spill slots are accessed in no
    other way, so they are registers here. -/
structure SlotCtx where
  store : Nat → Bool
  load : Nat → Bool
  slot : Reg → Bool
  copyOp : Nat

/-- Peephole.cpp:124-127: the counter, `stack2Reg`, `regVersion`. -/
structure SlotSt where
  id : Nat
  held : Reg → Option (Reg × Nat)
  version : Reg → Option Nat

def SlotSt.init : SlotSt := { id := 0, held := fun _ => none, version := fun _ => none }

/-- Peephole.cpp:128 `defReg`. -/
def SlotSt.defReg (s : SlotSt) (r : Reg) : SlotSt :=
  { s with id := s.id + 1, version := fun q => if q = r then some (s.id + 1) else s.version q }

/-- Peephole.cpp:154-166: the registers written get new versions (a call: every physical register seen so far). -/
def SlotSt.after (C : SlotCtx) (s : SlotSt) (x : Inst) : SlotSt :=
  let s1 := (x.defs.filter fun r => !C.slot r).foldl SlotSt.defReg s
  if x.call.isSome then
    { s1 with id := s1.id + 1
              version := fun r => if r.isVirt = false ∧ (s1.version r).isSome then some (s1.id + 1) else s1.version r }
  else s1

/-- Peephole.cpp:130-171: one instruction. A store to a slot is `slot ← reg`, a load is `reg ← slot` here. -/
def slotStep (C : SlotCtx) (s : SlotSt) (x : Inst) : Option Inst × SlotSt :=
  if C.store x.op then
    match x.ops with
    | [(.dfn, obj), (.use, r)] =>
      let s1 := match s.version r with
        | some v => { s with held := fun q => if q = obj then some (r, v) else s.held q }
        | none => { id := s.id + 1
                    version := fun q => if q = r then some (s.id + 1) else s.version q
                    held := fun q => if q = obj then some (r, s.id + 1) else s.held q }
      (some x, s1.after C x)
    | _ => (some x, s.after C x)
  else if C.load x.op then
    match x.ops with
    | [(.dfn, d), (.use, obj)] =>
      let plain := fun (_ : Unit) =>
        let s1 := s.after C x
        (some x, { s1 with held := fun q => if q = obj then (s1.version d).map fun v => (d, v) else s1.held q })
      match s.held obj with
      | some (r, v) =>
        if s.version r = some v then
          let y : Inst := { op := C.copyOp, ops := [(.dfn, d), (.use, r)] }
          (some y, s.after C y)
        else plain ()
      | none => plain ()
    | _ => (some x, s.after C x)
  else (some x, s.after C x)

/-- Peephole.cpp:113-176 `eliminateStackLoads`. -/
def eliminateStackLoads (C : SlotCtx) (f : Func) : Func :=
  f.scan (fun _ => slotStep C) SlotSt.init

end Cmmc.Mir
