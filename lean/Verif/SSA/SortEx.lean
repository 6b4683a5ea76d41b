import Verif.SSA.SinkEx
import Verif.SSA.Sort
/-!
# BlockSort on a concrete function
-/
namespace Cmmc.SSA.Ex

/-- the blocks of `if(1 < 2) print(1); else print(2); return 7;` in an unusual order -/
def zigzag : Func XOp Int := mk
  [(0, ⟨[], [⟨10, .lt, [.cst 1, .cst 2]⟩], .cbr (.inst 10) 1 2⟩),
   (3, ⟨[⟨13, [(1, .cst 7), (2, .cst 8)]⟩], [], .ret (some (.inst 13))⟩),
   (2, ⟨[], [⟨12, .print, [.cst 2]⟩], .br 3⟩),
   (1, ⟨[], [⟨11, .print, [.cst 1]⟩], .br 3⟩)]

theorem zigzag_wf : LiveWf (zigzag : X.F) := (wf_of _ (by decide +kernel)).1

theorem zigzag_small : SmallEnough zigzag := by unfold SmallEnough; decide +kernel

theorem zigzag_weights : sortSearch zigzag 4 [] [0] = some [(0, 2), (1, 100), (2, 101), (3, 210)] := by decide +kernel

theorem zigzag_sorted (m : Int → Int) : ∃ G, sortBlocks zigzag = some G ∧ G.order = [0, 1, 2, 3] ∧ Ends X zigzag m (out 7 m [1]) ∧ Ends X G m (out 7 m [1]) := by
  obtain ⟨G, h1, _, _, _, _, h2, _⟩ := C76_blockSort (L := X) zigzag_wf rfl zigzag_small
  have h : Ends X zigzag m (out 7 m [1]) := ⟨3, rfl⟩
  refine ⟨G, h1, ?_, h, (h2 m).1 _ h nofun⟩
  have ho : (sortBlocks zigzag).map (fun G => G.order) = some [0, 1, 2, 3] := by
    unfold sortBlocks
    rw [show zigzag.order.length = 4 from rfl, show zigzag.entry = 0 from rfl, zigzag_weights]
    simp [zigzag, mk, List.mergeSort, Weights.final, Weights.get, List.merge, List.MergeSort.Internal.splitInTwo]
  have h1' : (sortBlocks zigzag).map (fun G => G.order) = some G.order := by rw [show sortBlocks zigzag = some G from h1]; rfl
  exact Option.some.inj (h1'.symm.trans ho)

end Cmmc.SSA.Ex
