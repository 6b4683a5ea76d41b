import Verif.Mir.MCseProps

/-!
# Removing unused machine instructions

`removeUnusedInsts` and `removeInvisibleInsts` of `/repo/cmmc/CodeGen/Peephole.cpp`.
-/

namespace Cmmc.Mir

/-- A position: block and index. -/
abbrev Pos := Nat × Nat

/-- All instructions with their positions, in order. -/
def Func.all (f : Func) : List (Pos × Inst) :=
  (f.mapIdx fun b B => B.insts.mapIdx fun i x => ((b, i), x)).flatten

def Func.at (f : Func) (p : Pos) : Option Inst := f[p.1]?.bind fun B => B.insts[p.2]?

/-- The registers read by the instruction at a position. -/
def Func.usesAt (f : Func) (p : Pos) : List Reg :=
  match f.at p with
  | some x => x.uses
  | none => []

/-- Peephole.cpp:37 `writers`: for each register the instructions that write it. -/
abbrev Writers := List (Reg × List Pos)

/-- `writers[op].push_back(&inst)`. -/
def addWriter : Writers → Reg → Pos → Writers
  | [], r, p => [(r, [p])]
  | (q, ps) :: w, r, p => if q = r then (q, ps ++ [p]) :: w else (q, ps) :: addWriter w r p

/-- Peephole.cpp:44-49 and 55-56: an instruction that must be kept: it has side effects or writes a physical
    register that can be allocated (`isAllocableType`). -/
def isSpecial (F : Flags) (alloc : Nat → Bool) (x : Inst) : Bool :=
  F.side x.op || x.defs.any fun r => match r with | .ph p => alloc p | .vr _ => false

/-- Peephole.cpp:41-62: collect the writers and the instructions to start from. -/
def collectWriters (F : Flags) (alloc : Nat → Bool) (f : Func) : Writers × List Pos :=
  f.all.foldl (fun (w, q) (p, x) =>
    (x.defs.foldl (fun w r => addWriter w r p) w, if isSpecial F alloc x then q ++ [p] else q)) ([], [])

/-- Peephole.cpp:68-74 `popSrc`: everything that writes the operand is needed. -/
def popSrc (s : Writers × List Pos) (r : Reg) : Writers × List Pos :=
  match s.1.find? fun e => e.1 = r with
  | some e => (s.1.filter fun e => e.1 ≠ r, s.2 ++ e.2)
  | none => s

theorem popSrc_cases (s : Writers × List Pos) (r : Reg) :
    (popSrc s r).1.length < s.1.length ∨ popSrc s r = s := by
  unfold popSrc
  split
  · rename_i e he
    left
    have hm := List.mem_of_find?_eq_some he
    have hp := List.find?_some he
    exact List.length_filter_lt_length_iff_exists.2 ⟨e, hm, by simpa using hp⟩
  · right; rfl

theorem popSrcs_cases (rs : List Reg) : ∀ s : Writers × List Pos,
    (rs.foldl popSrc s).1.length < s.1.length ∨ rs.foldl popSrc s = s := by
  induction rs with
  | nil => intro s; right; rfl
  | cons r rs ih =>
    intro s
    rw [List.foldl_cons]
    rcases popSrc_cases s r with h | h
    · rcases ih (popSrc s r) with h' | h'
      · left; omega
      · left; rw [h']; exact h
    · rw [h]; exact ih s

/-- Peephole.cpp:64-82: the work list. Returns the registers nothing needed reads, with their writers. -/
def workUnused (f : Func) (w : Writers) (q : List Pos) : Writers :=
  match q with
  | [] => w
  | p :: q =>
    let s := (f.usesAt p).foldl popSrc (w, q)
    workUnused f s.1 s.2
termination_by (w.length, q.length)
decreasing_by
  rcases popSrcs_cases (f.usesAt p) (w, q) with h | h
  · exact Prod.Lex.left _ _ h
  · rw [h]; exact Prod.Lex.right _ (by simp)

/-- Peephole.cpp:84-95: which instructions are removed. -/
def unusedPos (F : Flags) (alloc : Nat → Bool) (f : Func) (w : Writers) (p : Pos) : Bool :=
  w.any fun (r, ps) =>
    !(match r with | .ph n => alloc n | .vr _ => false) && decide (p ∈ ps) &&
      (match f.at p with | some x => !(F.side x.op || F.multi x.op) | none => false)

/-- Peephole.cpp:36-98 `removeUnusedInsts`. -/
def removeUnusedInsts (F : Flags) (alloc : Nat → Bool) (f : Func) : Func :=
  let s := collectWriters F alloc f
  let w := workUnused f s.1 s.2
  f.rewrite fun b i x => if unusedPos F alloc f w (b, i) then none else some x

/-! ## `removeInvisibleInsts` -/

/-- Peephole.cpp:708-709: `unusedInsts` and `writer`. -/
structure InvisSt where
  unused : List Nat
  writer : List (Reg × Nat)

/-- Peephole.cpp:718-721 `visitAll`. -/
def InvisSt.visitAll (s : InvisSt) : InvisSt :=
  { s with unused := s.unused.filter fun j => !(s.writer.any fun e => e.2 = j) }

/-- Peephole.cpp:711-716 `use`. -/
def InvisSt.use (s : InvisSt) (r : Reg) : InvisSt :=
  { s with unused := s.unused.filter fun j => !(s.writer.any fun e => e.1 = r ∧ e.2 = j) }

/-- `writer[op] = &inst`. -/
def InvisSt.def (s : InvisSt) (i : Nat) (r : Reg) : InvisSt :=
  if r.isVirt then s else { s with writer := (r, i) :: s.writer.filter fun e => e.1 ≠ r }

/-- Peephole.cpp:723-742: instruction number `i`. -/
def invisStep (F : Flags) (s : InvisSt) (i : Nat) (x : Inst) : InvisSt :=
  let s := x.uses.foldl InvisSt.use s
  let s := if F.branch x.op || x.call.isSome then s.visitAll else s
  let s := x.defs.foldl (fun s r => s.def i r) s
  if F.side x.op then s else { s with unused := i :: s.unused }

/-- The state before instruction `i` of a block. -/
def invisAt (F : Flags) (B : Block) : Nat → InvisSt
  | 0 => { unused := [], writer := [] }
  | i + 1 =>
    match B.insts[i]? with
    | some x => invisStep F (invisAt F B i) i x
    | none => invisAt F B i

/-- Peephole.cpp:707-750: the instructions of a block to remove. -/
def invisible (F : Flags) (B : Block) : List Nat := (invisAt F B B.insts.length).visitAll.unused

/-- Peephole.cpp:697-757 `removeInvisibleInsts`. -/
def removeInvisibleInsts (F : Flags) (f : Func) : Func :=
  f.rewrite fun b i x =>
    match f[b]? with
    | some B => if i ∈ invisible F B then none else some x
    | none => some x

end Cmmc.Mir
