import Verif.Fe.M2
import Verif.Fe.OptEx
/-!
# C67 and C68 on concrete functions
-/
namespace Cmmc.Fe.Ex
open Cmmc Cmmc.Fe

/-- the blocks in the order of the dominator analysis -/
def domOrder (F : SSA.Func Op Cst) : List Nat := match F.dom ords with | some t => SSA.domBlocks t | none => []

def elim (fn : Fn) : Option (SSA.Func Op Cst) := (emitFn sigs .w64 gs fn).bind fun c => SSA.blockEliminate (fun _ => .undef) (finish fn c)

/-- `ScalarMem2Reg` on the function `fn` -/
def promoted (fn : Fn) : Option (SSA.Func Op Cst) :=
  (elim fn).bind fun F => SSA.scalarMem2Reg kindOp id (fun _ l => l) (fun _ => .undef) (domOrder F) F

/-- all operands -/
def allOps (F : SSA.Func Op Cst) : List Opd := F.blocks.flatMap fun B => B.phis.flatMap SSA.Phi.ops ++ B.body.flatMap SSA.Inst.args ++ B.term.args

/-- the loads of the slots `as` -/
def loadsOf (as : List Nat) (F : SSA.Func Op Cst) : List Nat :=
  (F.blocks.flatMap SSA.Block.body).filterMap fun i => if kindOp i.op = .load ∧ (as.any fun a => decide (i.args = [.inst a])) = true then some i.id else none

/-- `int pw(int n) { int s = 1; while (s < n) s = s * 3; return s; }` -/
def pw : Fn where
  params := [("n", i32, false)]
  ret := some i32
  body :=
    .seq (.decl "s" (.int .w32) true false (some (lit 1))) <|
    .seq (.while (.bin .lt (.id "s") (.id "n")) (.expr (.assign (.id "s") (.bin .mul (.id "s") (lit 3)))))
    (.ret (some (.id "s")))

/-- the code of `pw` has 4 loads of the two slots, all used; after the pass no operand is one of them -/
theorem pw_promoted : ((elim pw).bind fun F => (promoted pw).map fun G =>
    let ls := loadsOf (SSA.promotable kindOp F) F
    (ls.length, (ls.filter fun l => decide (.inst l ∈ allOps F)).length, (ls.filter fun l => decide (.inst l ∈ allOps G)).length)) = some (4, 4, 0) := by
  decide +kernel

/-- … and the loop header has a phi 22 for `s`, and a phi 23 for `n` that turned out to be superfluous -/
theorem pw_phis : (promoted pw).map (fun G => G.blocks.flatMap fun B => B.phis.map fun p => (p.id, p.inc)) =
    some [(23, [(0, .cst (.arg 0)), (2, .cst (.arg 0))]), (22, [(0, .cst (.int 32 1)), (2, .inst 17)])] := by decide +kernel

/-- the hypotheses of C67 for the code of `pw` and of `f` -/
theorem hyps (fn : Fn) (h : (emitFn sigs .w64 gs fn).isSome = true) : ∃ F, elim fn = some F ∧ SSA.Proper F ∧ SSA.AllLive F ∧ SSA.SlotUses kindOp F ∧
    ∀ as, SSA.SlotsDiffer (slotsL lib as).slot F := by
  obtain ⟨c, hc⟩ := Option.isSome_iff_exists.1 h
  obtain ⟨A, hA⟩ := inv_emitFn hc
  obtain ⟨G, r, dead, e1, E, PG⟩ := SSA.liveWf_proper (u := fun _ => Cst.undef) (hA.liveWf (fn := fn))
  have em : ∀ b (B : SSA.Block Op Cst), G.blk b = some B → ∀ i ∈ B.body, Emitted i := fun b B hB i hi => emitted_elim hc E hB hi
  exact ⟨G, by unfold elim; rw [hc]; exact e1, PG, E.allLive, emitted_slotUses em, fun as => emitted_differ em lib as⟩

theorem pw_hyps : ∃ F, elim pw = some F ∧ SSA.Proper F ∧ SSA.AllLive F ∧ SSA.SlotUses kindOp F ∧ ∀ as, SSA.SlotsDiffer (slotsL lib as).slot F :=
  hyps pw (by decide +kernel)

/-- C68 applied to `f`: code for `f(10, -2)` with the variables in registers returns 23 and has the effects of the source -/
theorem f_runs_promoted : ∃ c G m', emitFn sigs .w64 gs f = some c ∧
    promoteAndOptimise id (fun _ l => l) SSA.Func.order (fun _ _ => true) (fun _ => .undef) (finish f c) = some G ∧
    SSA.Ends (irL lib [10, 254]) G (fresh (fun _ => 0)) (.ret (some (.int 23)) m' ([4294967295, 1, 5, 13] : List Nat)) := by
  obtain ⟨c, hc⟩ := Option.isSome_iff_exists.1 accepted
  obtain ⟨G, hG, h⟩ := C68_promoted (call := lib) (tc := lib) (by decide) hc (by decide +kernel) separate (fun _ _ _ _ _ => rfl)
    (fun _ _ _ _ _ _ _ _ => constOk _) (ord := id) (fun l => .refl l) (cord := fun _ l => l) (fun _ l => .refl l) (vis := SSA.Func.order) (fun F => .refl _) (fun _ _ => true) (fun _ => .undef)
  have h := h [10, 254] (by decide) (fresh (fun _ => 0)) (constOk _)
  rcases hr : runFn sigs lib (globEnv gs) f 6 [10, 254] (fun _ => 0) with ⟨v, w, tr⟩ | _ | ⟨hh, tr⟩ | tr
  · have hs := source_runs
    rw [hr] at hs
    simp only [FOut.summary, Option.some.injEq] at hs
    have h1 : v = some 23 := congrArg Prod.fst hs
    have h3 : tr = ([4294967295, 1, 5, 13] : List Nat) := congrArg (fun p => p.2.2) hs
    subst h1 h3
    obtain ⟨m', he, _⟩ := h.1 _ _ _ ⟨fun tr hc => by simp at hc, 6, hr⟩
    exact ⟨c, G, m', hc, hG, he⟩
  · have hs := source_runs; rw [hr] at hs; cases hs
  · have hs := source_runs; rw [hr] at hs; cases hs
  · have hs := source_runs; rw [hr] at hs; cases hs

end Cmmc.Fe.Ex
