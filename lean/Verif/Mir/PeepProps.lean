import Verif.Mir.PeepEx

/-!
# C45-C49: the machine-level peephole passes

`Same T I F.vis f g` (Obs.lean): from every initial state of registers and memory, `f` and `g` can show exactly the
same sequences of visible instructions with the memory after each, and leave in the same ways. The theorems hold
for every interpretation `I` of the opcodes of which the instruction flags are true (`Flags.Ok`).
Concrete instances of all hypotheses are in PeepEx.lean.
-/

namespace Cmmc.Mir

section
variable {Val Mem : Type} {T : Target} {I : Interp Val Mem} {F : Flags} {f : Func}

/-- C45: removing identity copies, propagating copies (before and after register allocation) and renaming to the
    latest copy cannot be seen. -/
theorem C45_copies_preserve (hF : F.Ok I) (ht : f.Typed F) {C : CopyCtx} (hC : C.Ok F) :
    Same T I F.vis f (removeIdentityCopies F f) ∧
    Same T I F.vis f (removeIndirectCopy F C f) ∧
    Same T I F.vis f (createIndirectCopy F f) :=
  ⟨removeIdentityCopies_same hF ht, removeIndirectCopy_same hF hC ht, createIndirectCopy_same hF ht⟩

/-- C46: replacing a load of a spill slot by a copy from the register that still holds the value cannot be seen. -/
theorem C46_stack_loads_preserve (hF : F.Ok I) (ht : f.Typed F) {C : SlotCtx} (hC : C.Ok F I T f) :
    Same T I F.vis f (eliminateStackLoads C f) :=
  eliminateStackLoads_same hF hC ht

/-- C47: value numbering of machine instructions cannot be seen. -/
theorem C47_machine_cse (hF : F.Ok I) (ht : f.Typed F) {copyOp : Nat} (hcp : F.copy copyOp = true)
    (sameTy : Reg → Reg → Bool) : Same T I F.vis f (machineInstCSE F copyOp sameTy f) :=
  machineInstCSE_same hF hcp sameTy ht

/-- C47: deleting recomputations cannot be seen if no instruction writes two registers. Missing: functions with such
    instructions, of which the claim is false (`PeepEx.deadInstElimination_multi_witness`). -/
theorem C47_dead_inst_partial (hF : F.Ok I) (ht : f.Typed F)
    (h1 : ∀ B ∈ f, ∀ x ∈ B.insts, x.call = none → x.defs.length ≤ 1) :
    Same T I F.vis f (deadInstElimination F f) :=
  deadInstElimination_same hF ht h1

/-- C47: sharing constants cannot be seen if registers loaded with constants are not overwritten later in the same
    block. Missing: functions that do so, of which the claim is false
    (`PeepEx.machineConstantCSE_overwrite_witness`). -/
theorem C47_constant_cse_partial (hF : F.Ok I) (ht : f.Typed F) {sel : Reg → Reg → Nat}
    (hsel : ∀ d q, F.copy (sel d q) = true) (hk : ConstKept F f) :
    Same T I F.vis f (machineConstantCSE F sel f) :=
  machineConstantCSE_same hF hsel ht hk

/-- C48: removing instructions whose results are unused anywhere in the function (before or after register
    allocation), or overwritten in the same block before being read (after register allocation), cannot be seen. -/
theorem C48_unused_preserve (hF : F.Ok I) (ht : f.Typed F) :
    (∀ alloc : Nat → Bool, (∀ B ∈ f, ∀ x ∈ B.insts, ∀ p ∈ x.args, alloc p = true) →
      Same T I F.vis f (removeUnusedInsts F alloc f)) ∧
    ((∀ B ∈ f, ∀ x ∈ B.insts, ∀ r ∈ x.defs, r.isVirt = false) →
      (∀ B ∈ f, ∀ i x, B.insts[i]? = some x → x.args ≠ [] →
        F.branch x.op = true ∨ x.call.isSome = true ∨ (i + 1 = B.insts.length ∧ x.defs = [])) →
      Same T I F.vis f (removeInvisibleInsts F f)) :=
  ⟨fun _ ha => removeUnusedInsts_same hF ht ha, fun hp ha => removeInvisibleInsts_same hF ht hp ha⟩

/-- C49: using a constant instead of its copy, and moving constants to the entry block, cannot be seen, if no virtual
    register can be read before it is written. -/
theorem C49_constants_preserve (hF : F.Ok I) (ht : f.Typed F) (hl : ∀ v, ¬ LiveAt f v 0 0) :
    Same T I F.vis f (applySSAPropagation F f) ∧
    ∀ (copyOp : Nat) (fresh : Pos → Nat) (freq : Nat → Nat) (thr maxCount : Nat), F.copy copyOp = true →
      (∀ B ∈ f, B.insts ≠ []) →
      (∀ p, ∀ B ∈ f, ∀ x ∈ B.insts, Reg.vr (fresh p) ∉ x.uses ∧ Reg.vr (fresh p) ∉ x.defs) →
      Same T I F.vis f (machineConstantHoist F copyOp fresh freq thr maxCount f) :=
  ⟨applySSAPropagation_same hF ht hl, fun _ _ freq thr maxCount hc hne hfr =>
    machineConstantHoist_same hF ht hl hc freq thr maxCount hne hfr⟩

end

end Cmmc.Mir
