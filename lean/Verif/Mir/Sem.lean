import Mathlib.Data.Finset.Basic
import Mathlib.Data.Finset.Card
import Mathlib.Data.Finset.Union

/-!
# Machine code before register allocation

The machine-level functions the code generator works on after instruction selection
(`/repo/cmmc/CodeGen/MIR.hpp`, `/repo/cmmc/CodeGen/InstInfo.hpp`) and what running them means.

An instruction is its opcode together with everything that is not a register (immediates, relocations,
condition codes: the "metadata" operands), the register operands in the order of the instruction
description, and the registers it reads or overwrites without naming them (a call reads its argument
registers and overwrites the registers its callee does not preserve; a return reads the return register).
What an opcode computes is left open: theorems quantify over every interpretation.
-/

namespace Cmmc.Mir

/-- A register: virtual (`isVirtualReg`) or physical (`isISAReg`), MIR.hpp:60-68. -/
inductive Reg where
  | vr (n : Nat)
  | ph (n : Nat)
deriving DecidableEq, Repr

/-- Whether a register operand is written or read (`OperandFlagDef`/`OperandFlagUse`, InstInfo.hpp:23-28).
    In the instruction descriptions (`Target/*/*.yml`) every register operand has exactly one of the two. -/
inductive Role where
  | dfn
  | use
deriving DecidableEq, Repr

/-- What is known about the callee of a call instruction: the registers it may change if the
    interprocedural register usage is known (`IPRAUsageCache::query`), RegisterAllocator.cpp:96-100. -/
structure CallInfo where
  usage : Option (List Nat)
deriving DecidableEq, Repr

/-- A machine instruction (`MIRInst` with its `InstInfo`, MIR.hpp:297-334, InstInfo.hpp:69-80).
    `args` are the physical registers read without being operands (argument registers of a call, result
    register of a return). -/
structure Inst where
  op : Nat
  ops : List (Role × Reg)
  args : List Nat := []
  call : Option CallInfo := none
deriving DecidableEq, Repr

/-- How a block ends: the shape of its last instruction, as `calcCFG` distinguishes it
    (MIRCFGAnalysis.cpp:50-78): an unconditional branch, a conditional branch that otherwise falls
    through to the next block, an indirect jump through a table, or anything else (return). -/
inductive Term where
  | jmp (t : Nat)
  | cond (t : Nat)
  | table (ts : List Nat)
  | ret
deriving DecidableEq, Repr

/-- A block (`MIRBasicBlock`): its instructions, the last of which is the terminator. -/
structure Block where
  insts : List Inst
  term : Term
deriving Repr

/-- A function: its blocks in layout order; the entry is block 0. -/
abbrev Func := List Block

/-- The target description used by the allocator: the allocation list of each register class
    (`getAllocationList`), the class of each physical and virtual register (`getAllocationClass` of the
    operand type; simplification: a register is always used with types of one class), the zero registers,
    and the registers a call to an unknown function may change. -/
structure Target where
  list : Nat → List Nat
  clsP : Nat → Nat
  clsV : Nat → Nat
  zero : Nat → Bool
  callerSaved : List Nat

def Inst.uses (i : Inst) : List Reg :=
  i.ops.filterMap fun (r, x) => if r = .use then some x else none

def Inst.defs (i : Inst) : List Reg :=
  i.ops.filterMap fun (r, x) => if r = .dfn then some x else none

/-- The registers a call may overwrite. -/
def Inst.clob (T : Target) (i : Inst) : List Nat :=
  match i.call with
  | none => []
  | some c => c.usage.getD T.callerSaved

/-! ## Execution -/

section Exec
variable {Val Mem : Type}

/-- What an opcode does: from the values read and the memory (and the outside world), the values written,
    the new memory and the way out taken if the instruction ends its block. A relation, so that
    instructions may behave nondeterministically. -/
abbrev Interp (Val Mem : Type) := Nat → List Val → Mem → List Val → Mem → Nat → Prop

/-- The values an instruction reads: its use operands and its implicit argument registers. -/
def Inst.reads (i : Inst) (σ : Reg → Val) : List Val :=
  i.uses.map σ ++ i.args.map fun p => σ (.ph p)

/-- The registers an instruction overwrites: its def operands, then everything a call may change. -/
def Inst.dsts (T : Target) (i : Inst) : List Reg :=
  (i.clob T).map .ph ++ i.defs

/-- Assign values to registers one after the other. -/
def writes (σ : Reg → Val) : List Reg → List Val → Reg → Val
  | r :: rs, x :: xs => writes (fun q => if q = r then x else σ q) rs xs
  | _, _ => σ

/-- Where a block ending in `t` goes if its terminator takes way out `k`; `none` leaves the function. -/
def Term.next (t : Term) (n b k : Nat) : Option Nat :=
  match t with
  | .jmp t => some t
  | .cond t => if k = 0 then some t else if b + 1 < n then some (b + 1) else none
  | .table ts => ts[k]?
  | .ret => none

/-- A machine state: about to execute instruction `i` of block `b`. -/
structure St (Val Mem : Type) where
  b : Nat
  i : Nat
  σ : Reg → Val
  m : Mem

/-- One instruction. After the last instruction of a block, control goes to the start of the next block. -/
inductive Step (T : Target) (I : Interp Val Mem) (f : Func) : St Val Mem → St Val Mem → Prop
  | seq {b i σ m B inst vs m' k} :
      f[b]? = some B → B.insts[i]? = some inst → i + 1 < B.insts.length →
      I inst.op (inst.reads σ) m vs m' k → vs.length = (inst.dsts T).length →
      Step T I f ⟨b, i, σ, m⟩ ⟨b, i + 1, writes σ (inst.dsts T) vs, m'⟩
  | jump {b i σ m B inst vs m' k b'} :
      f[b]? = some B → B.insts[i]? = some inst → i + 1 = B.insts.length →
      I inst.op (inst.reads σ) m vs m' k → vs.length = (inst.dsts T).length →
      B.term.next f.length b k = some b' →
      Step T I f ⟨b, i, σ, m⟩ ⟨b', 0, writes σ (inst.dsts T) vs, m'⟩

/-- What can be seen of a run: the instructions executed and the memory after each of them. -/
inductive Run (T : Target) (I : Interp Val Mem) (f : Func) :
    St Val Mem → List (Nat × Nat × Mem) → St Val Mem → Prop
  | nil {s} : Run T I f s [] s
  | cons {s s' s'' tr} : Step T I f s s' → Run T I f s' tr s'' →
      Run T I f s ((s.b, s.i, s'.m) :: tr) s''

/-- The function leaves (returns or jumps out) from its last instruction, having read `reads`. -/
def Leaves (T : Target) (I : Interp Val Mem) (f : Func) (s : St Val Mem) (m' : Mem) : Prop :=
  ∃ B inst vs k, f[s.b]? = some B ∧ B.insts[s.i]? = some inst ∧ s.i + 1 = B.insts.length ∧
    I inst.op (inst.reads s.σ) s.m vs m' k ∧ vs.length = (inst.dsts T).length ∧
    B.term.next f.length s.b k = none

end Exec

/-! ## Liveness, as a property of paths -/

/-- Control can pass from the end of block `b` to block `b'`. -/
def Func.goesTo (f : Func) (b b' : Nat) : Prop :=
  ∃ B k, f[b]? = some B ∧ B.term.next f.length b k = some b'

/-- Virtual register `v` is live just before instruction `i` of block `b`: some path of the control flow
    graph reads it before anything writes it. -/
inductive LiveAt (f : Func) (v : Nat) : Nat → Nat → Prop
  | use {b i B inst} : f[b]? = some B → B.insts[i]? = some inst → Reg.vr v ∈ inst.uses → LiveAt f v b i
  | next {b i B inst} : f[b]? = some B → B.insts[i]? = some inst → Reg.vr v ∉ inst.defs →
      i + 1 < B.insts.length → LiveAt f v b (i + 1) → LiveAt f v b i
  | jump {b i B inst b'} : f[b]? = some B → B.insts[i]? = some inst → Reg.vr v ∉ inst.defs →
      i + 1 = B.insts.length → f.goesTo b b' → LiveAt f v b' 0 → LiveAt f v b i

/-- Live just after instruction `i` of block `b`. -/
def LiveAfter (f : Func) (v b i : Nat) : Prop :=
  ∃ B, f[b]? = some B ∧
    ((i + 1 < B.insts.length ∧ LiveAt f v b (i + 1)) ∨
     (i + 1 = B.insts.length ∧ ∃ b', f.goesTo b b' ∧ LiveAt f v b' 0))

theorem liveAt_iff {f : Func} {v b i : Nat} {B : Block} {inst : Inst} (hB : f[b]? = some B)
    (hi : B.insts[i]? = some inst) :
    LiveAt f v b i ↔ Reg.vr v ∈ inst.uses ∨ (Reg.vr v ∉ inst.defs ∧ LiveAfter f v b i) := by
  constructor
  · intro h
    cases h with
    | use h1 h2 h3 =>
      rw [hB] at h1; cases h1; rw [hi] at h2; cases h2; exact Or.inl h3
    | next h1 h2 h3 h4 h5 =>
      rw [hB] at h1; cases h1; rw [hi] at h2; cases h2
      exact Or.inr ⟨h3, _, hB, Or.inl ⟨h4, h5⟩⟩
    | jump h1 h2 h3 h4 h5 h6 =>
      rw [hB] at h1; cases h1; rw [hi] at h2; cases h2
      exact Or.inr ⟨h3, _, hB, Or.inr ⟨h4, _, h5, h6⟩⟩
  · rintro (h | ⟨h, B', hB', h'⟩)
    · exact .use hB hi h
    · rw [hB] at hB'; cases hB'
      rcases h' with ⟨a, c⟩ | ⟨a, b', c, d⟩
      · exact .next hB hi h a c
      · exact .jump hB hi h a c d

/-- Blocks are not empty and every branch target is a block (what `MIRBasicBlock::verify` and
    `MIRFunction::verify` require, MIR.cpp:26-107). -/
def Func.Wf (f : Func) : Prop :=
  (∀ B ∈ f, B.insts ≠ []) ∧
  ∀ B ∈ f, match B.term with
    | .jmp t => t < f.length
    | .cond t => t < f.length
    | .table ts => ∀ t ∈ ts, t < f.length
    | .ret => True

/-! ## The control-flow graph the code computes -/

/-- MIRCFGAnalysis.cpp:32-80 `calcCFG`: the successor list of each block. -/
def calcCFG (f : Func) (b : Nat) : List Nat :=
  match f[b]? with
  | none => []
  | some B =>
    match B.term with
    | .jmp t => [t]
    | .cond t =>
      if b + 1 < f.length then
        if b + 1 = t then [t] else [t, b + 1]
      else [t]
    | .table ts => ts
    | .ret => []

/-- MIRCFGAnalysis.cpp:32-80: the successors the code computes are exactly the blocks control can go to. -/
theorem calcCFG_iff (f : Func) (b b' : Nat) : b' ∈ calcCFG f b ↔ f.goesTo b b' := by
  unfold calcCFG Func.goesTo
  cases hB : f[b]? with
  | none => simp
  | some B =>
    simp only [Option.some.injEq]
    cases hT : B.term with
    | jmp t =>
      constructor
      · intro h; exact ⟨B, 0, rfl, by simp at h; simp [hT, Term.next, h]⟩
      · rintro ⟨_, k, rfl, h⟩; simp [hT, Term.next] at h; simp [h]
    | cond t =>
      constructor
      · intro h
        simp only at h
        split at h
        · split at h
          · simp at h; exact ⟨B, 0, rfl, by simp [hT, Term.next, h]⟩
          · simp at h
            rcases h with h | h
            · exact ⟨B, 0, rfl, by simp [hT, Term.next, h]⟩
            · exact ⟨B, 1, rfl, by simp [hT, Term.next, h]; omega⟩
        · simp at h; exact ⟨B, 0, rfl, by simp [hT, Term.next, h]⟩
      · rintro ⟨_, k, rfl, h⟩
        simp only [hT, Term.next] at h
        split at h
        · cases h; simp only; split <;> [split; skip] <;> simp
        · split at h
          · cases h; simp only; rw [if_pos (by assumption)]; split <;> simp_all
          · cases h
    | table ts =>
      constructor
      · intro h
        obtain ⟨k, hk⟩ := List.mem_iff_getElem?.1 h
        exact ⟨B, k, rfl, by simpa [hT, Term.next] using hk⟩
      · rintro ⟨_, k, rfl, h⟩
        simp only [hT, Term.next] at h
        exact List.mem_of_getElem? h
    | ret =>
      constructor
      · intro h; simp at h
      · rintro ⟨_, k, rfl, h⟩; simp [hT, Term.next] at h

end Cmmc.Mir
