import Verif.SSA.PhiMerge
import Verif.SSA.SinkEx
/-!
# C79 on a concrete function
-/
namespace Cmmc.SSA.Ex
open Cmmc.SSA

/-- `z = 1 < 2 ? (4 < 3 ? 10 : (w = 5, print(w), 20)) : 30; return z + (which way)`: block 4 only merges, block 5 merges again -/
def twoMerges : Func XOp Int := mk
  [(0, ⟨[], [⟨10, .lt, [.cst 1, .cst 2]⟩], .cbr (.inst 10) 1 3⟩),
   (1, ⟨[], [⟨11, .lt, [.cst 4, .cst 3]⟩], .cbr (.inst 11) 2 6⟩),
   (2, ⟨[], [], .br 4⟩),
   (3, ⟨[], [], .br 5⟩),
   (6, ⟨[], [⟨12, .print, [.cst 5]⟩, ⟨13, .add, [.cst 15, .cst 5]⟩], .br 4⟩),
   (4, ⟨[⟨14, [(2, .cst 10), (6, .inst 13)]⟩], [], .br 5⟩),
   (5, ⟨[⟨15, [(3, .cst 30), (4, .inst 14)]⟩, ⟨16, [(3, .cst 7), (4, .inst 11)]⟩], [⟨17, .add, [.inst 15, .inst 16]⟩], .ret (some (.inst 17))⟩)]

theorem twoMerges_wf : LiveWf (twoMerges : X.F) := (mk_proper _ (by decide +kernel)).1.liveWf_of_allLive (L := X) (mk_proper _ (by decide +kernel)).2

theorem twoMerges_complete : PhiComplete twoMerges := PhiComplete.of_allLive (L := X) twoMerges_wf (mk_proper _ (by decide +kernel)).2

/-- block 4 is gone, its entries are in block 5 -/
theorem twoMerges_merged : (phiMerge twoMerges).map look = some [(0, [], [10], [1, 3]), (1, [], [11], [2, 6]), (2, [], [], [5]), (3, [], [], [5]), (6, [], [12, 13], [5]),
    (5, [[3, 2, 6], [3, 2, 6]], [17], [])] := by decide +kernel

theorem twoMerges_same (m : Int → Int) : ∃ G, phiMerge twoMerges = some G ∧ Ends X twoMerges m (out 20 m [5]) ∧ Ends X G m (out 20 m [5]) := by
  obtain ⟨G, h1, _⟩ := (C79_phiMerge (L := X) twoMerges_wf).2 twoMerges_complete
  have h : Ends X twoMerges m (out 20 m [5]) := ⟨5, rfl⟩
  exact ⟨G, h1, h, (((C79_phiMerge (L := X) twoMerges_wf).1 G h1).1 m).1 _ h nofun⟩

/-- a phi with two users keeps its block -/
def usedTwice : Func XOp Int := mk
  [(0, ⟨[], [], .cbr (.cst 1) 1 2⟩),
   (1, ⟨[], [], .br 3⟩),
   (2, ⟨[], [], .br 3⟩),
   (3, ⟨[⟨14, [(1, .cst 10), (2, .cst 20)]⟩], [], .br 4⟩),
   (4, ⟨[⟨15, [(3, .inst 14)]⟩], [⟨16, .add, [.inst 15, .inst 14]⟩], .ret (some (.inst 16))⟩)]

theorem usedTwice_kept : (phiMerge usedTwice).map look = some (look usedTwice) := by decide +kernel

end Cmmc.SSA.Ex
