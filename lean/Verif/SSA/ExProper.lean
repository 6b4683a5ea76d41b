import Verif.SSA.Ssa
/-!
# Checking that concrete functions are proper
-/
namespace Cmmc.SSA
/-- every block can be reached (the state BlockEliminate leaves behind) -/
def AllLive {Op C : Type} (F : Func Op C) : Prop := ∀ b B, F.blk b = some B → Live F b

namespace Ex

/-- the verifier accepts, the blocks exist and are reachable, the entry has no phis -/
def properB (F : Func XOp Int) : Bool :=
  decide F.order.Nodup && F.order.all (fun b => (F.blk b).isSome) && decide (F.entry ∈ F.order) &&
  (match F.blk F.entry with | some B => B.phis.isEmpty | none => true) && decide (F.verify ordId = some true) &&
  (match F.dom ordId with | some t => F.order.all (fun b => t.reachable b) | none => false)

theorem mk_proper (bs : List (Nat × Block XOp Int)) (h : properB (mk bs) = true) : Proper (mk bs) ∧ AllLive (mk bs) := by
  unfold properB at h
  simp only [Bool.and_eq_true, decide_eq_true_eq, List.all_eq_true] at h
  obtain ⟨⟨⟨⟨⟨h1, h2⟩, h3⟩, h4⟩, h5⟩, h6⟩ := h
  have hl := mk_listed bs
  obtain ⟨t, ht, hr, _⟩ := dom_spec ordId h1 hl
  rw [ht] at h6
  simp only [List.all_eq_true] at h6
  have hlive : AllLive (mk bs) := fun b B hB => (hr b).mp (h6 b (hl b B hB))
  obtain ⟨r, hr1, hr2⟩ := C38_verify_iff ordId (mk bs) h1 hl (List.ne_nil_of_mem h3)
  rw [h5] at hr1
  have W := hr2.mp (Option.some.inj hr1).symm
  refine ⟨⟨W, h1, hl, ?_, h3, ?_, ?_⟩, hlive⟩
  · intro b hb
    exact Option.isSome_iff_exists.mp (h2 b hb)
  · intro B hB
    rw [hB] at h4
    simpa using h4
  · intro b B p x d _ _ _ _ hd
    obtain ⟨D, hD, _⟩ := hd
    exact hlive d D hD

end Ex
end Cmmc.SSA
