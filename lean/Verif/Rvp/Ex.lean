import Verif.Rvp.BrProps
import Verif.Rvp.ImmProps
import Verif.Rvp.FoldProps
import Mathlib.Tactic.FinCases

/-!
# The RISC-V peephole optimizations on concrete code, and what goes wrong outside their hypotheses
-/

namespace Cmmc.Rvp

open Cmmc.Isel

/-- Stack objects 16 bytes apart, symbols 4096 bytes apart. -/
def E0 : Env where
  so n := 16 * n
  sym k := BitVec.ofNat 64 (4096 * (k + 1))
  call _ g m := (g, m)
  fcvt x := x.setWidth 64
  other _ _ := 0
  table x := x.toNat

/-- Every register holds its number plus 1000, every byte of the memory the low byte of its address. -/
def s0 : St where
  reg r := match r with
    | .x0 => 0
    | .p n => BitVec.ofNat 64 (1000 + n)
    | .v n => BitVec.ofNat 64 (1000 + n)
  mem a := BitVec.ofNat 8 a.toNat

/-- The state at the end. -/
def Out.st : Out → St
  | .fall s | .jump _ s | .ret s => s

/-! ## C57 -/

/-- `simplifyOpWithZero` at work: each instruction becomes a copy, an extension or a small constant. -/
example : simplifyOpWithZero [.opI .add (.v 1) .x0 7, .op2 .addw (.v 2) .x0 (.v 1), .op2 .addUw (.v 3) (.v 2) .x0,
    .opI .slt (.v 4) .x0 3, .op2 .sub (.v 5) .x0 (.v 4)] =
    [.li12 (.v 1) 7, .op1 .sextW (.v 2) (.v 1), .op1 .zextW (.v 3) (.v 2), .li12 (.v 4) 1, .op2 .sub (.v 5) .x0 (.v 4)] := by
  decide

/-- `removeSExtW` at work: the extension of the sum goes, the one of the product stays. -/
example : removeSExtW [.op2 .addw (.v 1) (.v 2) (.v 3), .op1 .sextW (.v 4) (.v 1), .op2 .mul (.v 5) (.v 4) (.v 4),
    .op1 .sextW (.v 6) (.v 5)] =
    [.op2 .addw (.v 1) (.v 2) (.v 3), .op1 .mv (.v 4) (.v 1), .op2 .mul (.v 5) (.v 4) (.v 4), .op1 .sextW (.v 6) (.v 5)] := by
  decide

example : (∀ i ∈ [PI.op2 .addw (.v 1) (.v 2) (.v 3), .op1 .sextW (.v 4) (.v 1), .opI .srl (.v 5) (.v 4) 40, .op1 .sextW (.v 6) (.v 5)],
    i.enc = true ∧ i.srl32 = false) := by decide

/-- A logical shift right by 32 is taken for an instruction that sign extends; `removeSExtW` then drops a `SEXT_W` that is
needed: of `-1`, `0xffffffff` remains. -/
theorem removeSExtW_srl32 : ∃ (is : List PI) (s : St), (∀ i ∈ is, i.enc = true) ∧
    run E0 (removeSExtW is) s ≠ run E0 is s := by
  refine ⟨[.li12 (.v 1) (-1), .opI .srl (.v 2) (.v 1) 32, .op1 .sextW (.v 3) (.v 2)], s0, by decide, fun h => ?_⟩
  have := congrArg (fun o => (o.st.get (.v 3)).toNat) h
  revert this
  decide +kernel

/-- `largeImmMaterialize` at work: a copy, shifts, sums, a difference, a complement, and products by 3, 5 and 9. -/
example : largeImmMaterialize [.liN (.v 1) 100000, .liN (.v 2) 100000, .liN (.v 3) 200000, .liN (.v 4) 50000,
    .liN (.v 5) 50001, .liN (.v 6) (-50001), .liN (.v 7) 150003, .liN (.v 8) 7777777] =
    [.liN (.v 1) 100000, .op1 .mv (.v 2) (.v 1), .opI .sll (.v 3) (.v 2) 1, .opI .srl (.v 4) (.v 3) 2,
    .opI .add (.v 5) (.v 4) 1, .op2 .sub (.v 6) .x0 (.v 5), .op2 .sh1add (.v 7) (.v 5) (.v 5), .liN (.v 8) 7777777] := by
  decide +kernel

example : LoadedOnce [.liN (.v 1) 100000, .liN (.v 2) 100000, .op2 .add (.v 3) (.v 1) (.v 2), .liN (.v 4) (-50001)] := by
  refine ⟨?_, ?_, ?_, ?_, trivial⟩ <;> simp [PI.loadsV, PI.dst]

example : NoNegShift (consts [.liN (.v 1) 100000, .liN (.v 2) 100000, .op2 .add (.v 3) (.v 1) (.v 2), .liN (.v 4) (-50001)]) := by
  unfold NoNegShift; decide

example : ∀ v ∈ consts [.liN (.v 1) 100000, .liN (.v 2) 100000, .op2 .add (.v 3) (.v 1) (.v 2), .liN (.v 4) (-50001)], I64 v := by
  unfold I64; decide

/-- The constant `-10000` is `-20000` shifted right, but not with the logical shift `largeImmMaterialize` emits. -/
theorem largeImm_negative : ∃ is : List PI, LoadedOnce is ∧ (∀ v ∈ consts is, I64 v) ∧
    run E0 (largeImmMaterialize is) s0 ≠ run E0 is s0 := by
  refine ⟨[.liN (.v 1) (-20000), .liN (.v 2) (-10000)], ⟨?_, ?_, trivial⟩, by unfold I64; decide, fun h => ?_⟩
  · simp [PI.loadsV, PI.dst]
  · simp [PI.loadsV]
  · have := congrArg (fun o => (o.st.get (.v 2)).toNat) h
    revert this
    decide +kernel

/-- A register that is written again after the constant was loaded is still used for the constant. -/
theorem largeImm_rewritten : ∃ is : List PI, NoNegShift (consts is) ∧ (∀ v ∈ consts is, I64 v) ∧
    run E0 (largeImmMaterialize is) s0 ≠ run E0 is s0 := by
  refine ⟨[.liN (.v 1) 100000, .opI .add (.v 1) (.v 1) 5, .liN (.v 2) 100000], by unfold NoNegShift; decide, by unfold I64; decide, fun h => ?_⟩
  have := congrArg (fun o => (o.st.get (.v 2)).toNat) h
  revert this
  decide +kernel

/-! ## C58 -/

/-- The second branch is the first again: its operands are as they were.  The third is not: `v1` has changed. -/
example : removeDeadBranch [.br .slt (.v 1) (.v 2) 3, .opI .add (.v 4) (.v 1) 1, .br .slt (.v 1) (.v 2) 5,
    .opI .add (.v 1) (.v 1) 1, .br .slt (.v 1) (.v 2) 3, .jump 6] =
    [.br .slt (.v 1) (.v 2) 3, .opI .add (.v 4) (.v 1) 1, .opI .add (.v 1) (.v 1) 1, .br .slt (.v 1) (.v 2) 3, .jump 6] := by
  decide

/-- Branches on zero: one is always taken, the other never. -/
def fBr : Fn := [(0, [.opI .add (.p 10) (.p 10) 1, .br .slt .x0 .x0 2]), (1, [.br .sge .x0 .x0 3]), (2, [.ret]), (3, [.ret])]

example : fBr.Labelled := by unfold Fn.Labelled; decide
example : ∀ B ∈ fBr, LastOnly B.2 := by unfold LastOnly; decide
example : branch2jump true fBr = [(0, [.opI .add (.p 10) (.p 10) 1, .jump 1]), (1, [.jump 3]), (2, [.ret]), (3, [.ret])] := by decide
example : branch2jump false fBr =
    [(0, [.opI .add (.p 10) (.p 10) 1, .op1 .mv .x0 .x0]), (1, [.jump 3]), (2, [.ret]), (3, [.ret])] := by decide

/-- If a block has an instruction after a branch that is not taken, `branch2jump` with `endsWithTerminator` skips it. -/
theorem branch2jump_middle : ∃ (f : Fn) (s t : St), f.Labelled ∧ Runs E0 (branch2jump true f) (branch2jump true f) s t ∧
    ¬ Runs E0 f f s t := by
  refine ⟨[(0, [.br .slt .x0 .x0 1, .li12 (.p 10) 7]), (1, [.ret])], s0, s0, by unfold Fn.Labelled; decide, ?_, ?_⟩
  · exact .jump (k := 1) (t := s0) rfl (.ret rfl)
  · intro h
    cases h with
    | ret h => cases h
    | fall h1 h2 =>
      cases h1
      cases h2 with
      | ret h =>
        have := congrArg (fun o => (o.st.get (.p 10)).toNat) h
        revert this
        decide +kernel
      | fall h => cases h
      | jump h => cases h
    | jump h => cases h

/-! ## C59 -/

/-- Two 32-bit additions of which the first is only used by the second, a 32-bit store and a shift. -/
def fRelax : Fn := [(0, [.load true .w (.v 1) (.stk 0 0) 4, .opI .addw (.v 2) (.v 1) 3, .opI .addw (.v 3) (.v 2) 4,
  .store .w (.v 3) (.stk 1 0) 4, .opI .sraw (.v 4) (.v 3) 2, .op1 .mv (.p 10) (.v 4), .ret])]

example : relaxWInst fRelax fRelax.places = [(0, [.load true .w (.v 1) (.stk 0 0) 4, .opI .add (.v 2) (.v 1) 3,
  .opI .addw (.v 3) (.v 2) 4, .store .w (.v 3) (.stk 1 0) 4, .opI .sraw (.v 4) (.v 3) 2, .op1 .mv (.p 10) (.v 4), .ret])] := by
  decide +kernel

example : RelaxOk fRelax where
  enc := by decide
  srl := by decide
  strict := by
    refine ⟨fun _ _ => False, ⟨?_, trivial⟩, fun _ _ _ h => h⟩
    simp [fRelax, Flow, PI.uses, PI.dst, Ad.uses, R.sp, R.isV]
  virt := by
    intro B hB i hi h
    simp only [fRelax, List.mem_singleton] at hB
    subst hB
    fin_cases hi <;> first | exact ⟨_, rfl⟩ | (cases h; done)
  phys := by
    intro B hB i hi h
    simp only [fRelax, List.mem_singleton] at hB
    subst hB
    fin_cases hi <;> first | (cases h; done) | (intro n; simp [PI.uses])
  full := by decide

/-- `isWUser` takes a store whose address is the register for a user of its low half. -/
theorem relaxWInst_address : ∃ (f : Fn) (ord : List Pos) (B B' : List PI), f = [(0, B)] ∧ relaxWInst f ord = [(0, B')] ∧
    ∃ a, (run E0 B' s0).st.mem a ≠ (run E0 B s0).st.mem a := by
  refine ⟨[(0, [.liN (.v 9) (-1), .op1 .zextW (.v 1) (.v 9), .op1 .sextW (.v 2) (.v 1), .store .w .x0 (.reg (.v 2) 0) 4, .ret])], [(0, 2)], _, _, rfl, rfl,
    (-1 : W), ?_⟩
  decide +kernel

/-! ## C60 -/

def bStore : List PI := [.la (.v 1) 0, .store .w (.v 2) (.sym 0) 8, .opI .add (.v 3) (.v 2) 1, .store .w (.v 3) (.reg (.v 1) 4) 4,
  .store .w (.v 2) (.stk 0 8) 8, .store .w (.v 3) (.stk 0 12) 4, .ret]

example : earlyFoldStore 10 bStore = [.la (.v 1) 0, .opI .add (.v 3) (.v 2) 1, .opI .sll (.v 10) (.v 3) 32,
  .op2 .addUw (.v 11) (.v 2) (.v 10), .store .d (.v 11) (.sym 0) 8, .opI .sll (.v 12) (.v 3) 32,
  .op2 .addUw (.v 13) (.v 2) (.v 12), .store .d (.v 13) (.stk 0 8) 8, .ret] := by decide

example : (∀ i ∈ bStore, i.old 10) := by
  intro i hi
  fin_cases hi <;> simp [PI.old, PI.uses, PI.dst, Ad.uses, R.newer, R.sp]
example : NoClobberSt bStore := by decide
example : LaOnce bStore := by
  refine ⟨?_, ?_, ?_, ?_, ?_, ?_, ?_, trivial⟩ <;> simp [R.isV, PI.dst]

def bLoad : List PI := [.la (.v 1) 0, .load true .w (.v 2) (.sym 0) 8, .opI .add (.v 3) (.v 2) 1,
  .load true .w (.v 4) (.reg (.v 1) 4) 4, .op2 .add (.p 10) (.v 3) (.v 4), .ret]

example : earlyFoldLoad 10 bLoad = [.la (.v 1) 0, .load true .d (.v 10) (.sym 0) 8, .op1 .sextW (.v 2) (.v 10),
  .opI .add (.v 3) (.v 2) 1, .opI .sra (.v 4) (.v 10) 32, .op2 .add (.p 10) (.v 3) (.v 4), .ret] := by decide

example : (∀ i ∈ bLoad, i.old 10) := by
  intro i hi
  fin_cases hi <;> simp [PI.old, PI.uses, PI.dst, Ad.uses, R.newer]
example : NoClobberLd bLoad := by decide
example : LaOnce bLoad := by
  refine ⟨?_, ?_, ?_, ?_, ?_, ?_, trivial⟩ <;> simp [R.isV, PI.dst]

def bZero : List PI := [.store .w .x0 (.stk 0 0) 4, .li12 (.v 1) 3, .store .w .x0 (.stk 0 4) 4, .store .w .x0 (.reg (.v 2) 0) 8,
  .store .w .x0 (.reg (.v 2) 4) 4, .ret]

example : foldStoreZero E0.so bZero = [.li12 (.v 1) 3, .store .d .x0 (.stk 0 0) 4, .store .d .x0 (.reg (.v 2) 0) 8, .ret] := by decide
example : NoClobberSt bZero := by decide
example : StackPairs E0.so bZero := by
  refine ⟨?_, ?_, ?_, ?_, ?_, ?_, trivial⟩ <;> simp [PI.side, E0]
  rintro _ _ _ _ _ _ rfl rfl _ rfl rfl _
  decide

/-- Two stores of zero to an array on the stack, at offsets 0 and 12: `foldStoreZero` makes them one store to the offsets
0 to 7. -/
theorem foldStoreZero_far : ∃ is : List PI, NoClobberSt is ∧ run E0 (foldStoreZero E0.so is) s0 ≠ run E0 is s0 := by
  refine ⟨[.store .w .x0 (.stk 0 0) 4, .store .w .x0 (.stk 0 12) 4], by decide, fun h => ?_⟩
  have := congrArg (fun o => (o.st.mem (1002 + 12)).toNat) h
  revert this
  decide +kernel

/-- The base register is changed between the two stores. -/
theorem earlyFoldStore_clobber : ∃ is : List PI, LaOnce is ∧ ∃ a,
    (run E0 (earlyFoldStore 10 is) s0).st.mem a ≠ (run E0 is s0).st.mem a := by
  refine ⟨[.store .w (.v 1) (.reg (.v 2) 0) 8, .opI .add (.v 2) (.v 2) 4, .store .w (.v 3) (.reg (.v 2) 4) 4], ?_, (1002 : W), ?_⟩
  · refine ⟨?_, ?_, ?_, trivial⟩ <;> simp
  · decide +kernel

/-- The first load writes its own base register. -/
theorem earlyFoldLoad_clobber : ∃ is : List PI, LaOnce is ∧
    (run E0 (earlyFoldLoad 10 is) s0).st.get (.v 3) ≠ (run E0 is s0).st.get (.v 3) := by
  refine ⟨[.load true .w (.v 2) (.reg (.v 2) 8) 8, .load true .w (.v 3) (.reg (.v 2) 12) 4], ?_, ?_⟩
  · refine ⟨?_, ?_, trivial⟩ <;> simp
  · decide +kernel

end Cmmc.Rvp
