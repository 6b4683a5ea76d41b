import Verif.SSA.ScevEx
import Verif.SSA.Lsr
/-!
# C89 on a concrete function
-/
namespace Cmmc.SSA.Ex
open Cmmc.SSA

/-- 32-bit integers: `konst` wraps -/
def wStrength : StrengthOps W32 :=
  { wOps with
    konst := fun _ z => wrap32 z
    addOp := XOp.add
    addOp_add := by decide
    konst_num := by
      rintro w ⟨c, z0, h⟩ z
      cases h
      exact ⟨wrap32 z, rfl, Int.bmod_emod⟩
    int_mod := by
      rintro w ⟨c, z0, h⟩ a b hab
      cases h
      show Int.bmod a (2 ^ 32) = Int.bmod b (2 ^ 32)
      have hab : a % ((2 ^ 32 : Nat) : Int) = b % ((2 ^ 32 : Nat) : Int) := hab
      rw [← Int.emod_bmod a, hab, Int.emod_bmod]
    mul_add := by
      intro (op : XOp) h
      have : op = XOp.mul := of_decide_eq_true h
      subst this; rfl }

/-- operands exist -/
def refsB (F : Func XOp Int) : Bool := F.blocks.all (fun B => B.operands.all (fun x => F.blocks.any (fun D => decide (x ∈ D.ids))))

theorem refs_of (bs : List (Nat × Block XOp Int)) (h : refsB (mk bs) = true) (hnd : (bs.map Prod.fst).Nodup) : Func.Refs (mk bs) := by
  intro b B hB x hx
  unfold refsB at h
  have h1 := List.all_eq_true.1 (List.all_eq_true.1 h B ((mk_listed bs).mem hB)) x hx
  obtain ⟨D, hD, hxD⟩ := List.any_eq_true.1 h1
  obtain ⟨d, _, hd⟩ := List.mem_filterMap.1 hD
  exact ⟨d, D, hd, of_decide_eq_true hxD⟩

/-- the pass on a function of the examples -/
def wLsr (F : Func XOp Int) : Option (Func XOp Int) := wStrength.lsr idOrders false (fun _ => 32) F

/-- the phis and the arithmetic of a block; `true` marks instructions -/
def show1 (B : Block XOp Int) : List (Nat × List (Nat × Bool × Int)) × List (Nat × List (Bool × Int)) :=
  let o : Opd Int → Bool × Int := fun o => match o with | .inst x => (true, (x : Int)) | .cst c => (false, c)
  (B.phis.map (fun p => (p.id, p.inc.map (fun e => (e.1, o e.2)))), B.body.map (fun i => (i.id, i.args.map o)))

set_option synthInstance.maxSize 1000 in
set_option synthInstance.maxHeartbeats 200000 in
/-- `i*i = {9,+,16,+,8}` becomes `19` with the increment `17 = {16,+,8}`, and `5*i*i` becomes `23 = {45,+,80,+,40}`; the products 11 and 15
are dead -/
theorem squares_lsr : (wLsr squares).map (fun G => (G.blk 1).map show1) = some (some (
    [(23, [(0, false, 45), (1, true, 24)]), (21, [(0, false, 80), (1, true, 22)]), (19, [(0, false, 9), (1, true, 20)]), (17, [(0, false, 16), (1, true, 18)]), (10, [(0, false, 3), (1, true, 12)])],
    [(18, [(true, 17), (false, 8)]), (20, [(true, 19), (true, 17)]), (11, [(true, 10), (true, 10)]), (12, [(true, 10), (false, 2)]), (22, [(true, 21), (false, 40)]), (24, [(true, 23), (true, 21)]), (15, [(true, 19), (false, 5)]), (16, [(true, 23), (true, 12)]),
     (14, [(true, 12), (false, 9)])])) := by decide +kernel

theorem squares_refs : Func.Refs squares := refs_of _ (by decide +kernel) (by decide +kernel)

/-- C89 applies -/
theorem squares_lsr_ok : ∃ G, wLsr squares = some G ∧ LiveWf (G : W32.F) ∧ Refines W32 squares G :=
  C89_loopStrengthReduction_partial wStrength squares_wf squares_refs (typed_of squares) idOrders false squares_nodiv

/-- both return 49: `i` is 3, 5, 7 -/
theorem squares_lsr_run (m : Int → Int) : Ends W32 squares m (.ret (some (49 : Int)) m []) ∧ ∃ G, wLsr squares = some G ∧ Ends W32 G m (.ret (some (49 : Int)) m []) := by
  refine ⟨⟨5, rfl⟩, ?_⟩
  obtain ⟨G, h1, _, h2⟩ := squares_lsr_ok
  exact ⟨G, h1, (h2 m).1 _ ⟨5, rfl⟩ (by simp)⟩

end Cmmc.SSA.Ex
