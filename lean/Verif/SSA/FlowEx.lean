import Verif.SSA.CutEx
import Verif.SSA.Forward
/-!
# C69-C71 on concrete functions, and what ForwardBranch gets wrong
-/
namespace Cmmc.SSA.Ex
open Cmmc.SSA

/-! ## BlockMerge -/

/-- `print(1); x = 7; if(1 < x) y = 3 else y = 4; print(y); return y;` with every statement in its own block -/
def chain : Func XOp Int := mk
  [(0, ⟨[], [⟨10, .print, [.cst 1]⟩], .br 1⟩),
   (1, ⟨[], [⟨11, .add, [.cst 3, .cst 4]⟩], .br 2⟩),
   (2, ⟨[], [⟨12, .lt, [.cst 1, .inst 11]⟩], .cbr (.inst 12) 3 4⟩),
   (3, ⟨[], [], .br 5⟩),
   (4, ⟨[], [], .br 6⟩),
   (5, ⟨[], [⟨13, .print, [.cst 2]⟩], .br 6⟩),
   (6, ⟨[⟨14, [(5, .cst 3), (4, .cst 4)]⟩], [], .br 7⟩),
   (7, ⟨[], [⟨15, .print, [.inst 14]⟩], .ret (some (.inst 14))⟩)]

/-- hypothesis of `C69_blockMerge` -/
theorem chain_wf : LiveWf (chain : X.F) := (mk_proper _ (by decide +kernel)).1.liveWf_of_allLive (L := X) (mk_proper _ (by decide +kernel)).2

/-- four of the eight blocks go; the phi of block 6 is told that control now comes from block 3 -/
theorem chain_merged : (blockMerge ordId chain).map look =
    some [(0, [], [10, 11, 12], [3, 4]), (3, [], [13], [6]), (4, [], [], [6]), (6, [[3, 4]], [15], [])] := by decide +kernel

theorem chain_same (m : Int → Int) : ∃ G, blockMerge ordId chain = some G ∧ Ends X G m (out 3 m [1, 2, 3]) := by
  obtain ⟨G, _, _, h, hr, _⟩ := C69_blockMerge (L := X) ordId chain_wf
  exact ⟨G, h, (hr m).1 (out 3 m [1, 2, 3]) ⟨7, rfl⟩ nofun⟩

/-! ## CombineBranch -/

/-- both sides of the second branch of `if(c) { if(d) ; else ; } else x` are empty blocks -/
def hops : Func XOp Int := mk
  [(0, ⟨[], [⟨10, .lt, [.cst 1, .cst 2]⟩], .cbr (.inst 10) 1 4⟩),
   (1, ⟨[], [], .br 2⟩),
   (2, ⟨[⟨11, [(1, .cst 5), (4, .cst 6)]⟩], [⟨12, .print, [.inst 11]⟩], .cbr (.inst 11) 3 5⟩),
   (3, ⟨[], [], .br 5⟩),
   (4, ⟨[], [⟨13, .print, [.cst 9]⟩], .br 2⟩),
   (5, ⟨[], [], .ret (some (.inst 11))⟩)]

/-- hypothesis of `C70_combineBranch` -/
theorem hops_wf : LiveWf (hops : X.F) := (mk_proper _ (by decide +kernel)).1.liveWf_of_allLive (L := X) (mk_proper _ (by decide +kernel)).2

/-- block 0 goes straight to block 2, whose phi gets an entry for it, and block 2 straight to block 5 -/
theorem hops_combined : (combineBranch hops).blk 0 = some ⟨[], [⟨10, .lt, [.cst 1, .cst 2]⟩], .cbr (.inst 10) 2 4⟩ ∧
    ((combineBranch hops).blk 2).map (fun B => (B.phis.map (fun p => (p.at 0, p.at 4)), B.term.targets)) = some ([(some (.cst 5), some (.cst 6))], [5, 5]) := by
  refine ⟨rfl, ?_⟩
  decide +kernel

theorem hops_same (m : Int → Int) : Ends X (combineBranch hops) m (out 5 m [5]) :=
  ((C70_combineBranch (L := X) hops_wf).1 m).1 (out 5 m [5]) ⟨5, rfl⟩ nofun

/-! ## ForwardBranch -/

/-- truth values of the constants -/
def xtruth (c : Int) : Option Bool := some (decide (c ≠ 0))

/-- hypothesis of `C71_forwardBranch_partial` -/
theorem xtruth_ok : TruthOk X xtruth := fun _ _ h => h

/-- `if(1 < 2 && …)` as the front end writes it: block 2 branches on a phi that is a constant when coming from block 0 -/
def andAnd : Func XOp Int := mk
  [(0, ⟨[], [⟨10, .lt, [.cst 2, .cst 1]⟩], .cbr (.inst 10) 1 2⟩),
   (1, ⟨[], [⟨11, .lt, [.cst 3, .cst 4]⟩], .br 2⟩),
   (2, ⟨[⟨12, [(0, .cst 0), (1, .inst 11)]⟩], [], .cbr (.inst 12) 3 4⟩),
   (3, ⟨[], [], .ret (some (.cst 5))⟩),
   (4, ⟨[], [], .ret (some (.cst 6))⟩)]

theorem andAnd_wf : LiveWf (andAnd : X.F) := (mk_proper _ (by decide +kernel)).1.liveWf_of_allLive (L := X) (mk_proper _ (by decide +kernel)).2

/-- the false side of block 0 goes straight to block 4 -/
theorem andAnd_forwarded : look (forwardBranch xtruth (fun _ => true) true andAnd) =
    [(0, [], [10], [1, 4]), (1, [], [11], [2]), (2, [[1]], [], [3, 4]), (3, [], [], []), (4, [], [], [])] := by decide +kernel

theorem andAnd_same (m : Int → Int) : Ends X (forwardBranch xtruth (fun _ => true) true andAnd) m (out 6 m []) :=
  ((C71_forwardBranch_partial (L := X) (isBool := fun _ => true) xtruth_ok andAnd_wf).1 m).1 (out 6 m []) ⟨3, rfl⟩ nofun

/-- block 1 repeats the test of block 0, block 2 branches on a constant phi -/
def twice : Func XOp Int := mk
  [(0, ⟨[], [⟨10, .lt, [.cst 1, .cst 2]⟩], .cbr (.inst 10) 1 2⟩),
   (1, ⟨[], [], .cbr (.inst 10) 2 3⟩),
   (2, ⟨[⟨12, [(0, .cst 1), (1, .cst 1)]⟩], [], .cbr (.inst 12) 4 3⟩),
   (3, ⟨[], [], .ret (some (.cst 5))⟩),
   (4, ⟨[], [], .ret (some (.cst 6))⟩)]

theorem twice_wf : LiveWf (twice : X.F) := (mk_proper _ (by decide +kernel)).1.liveWf_of_allLive (L := X) (mk_proper _ (by decide +kernel)).2

/-- The pass as written compares the two targets before it forwards the first (ForwardBranch.cpp:118), not before it forwards the second. When both
have become the same block it deletes the phi entry of an edge that is still there: `twice` returns 6, and is not in SSA form and undefined afterwards. -/
theorem C71_forwardBranch_wrong : ∃ F : X.F, LiveWf F ∧ (∀ m, Ends X F m (out 6 m [])) ∧ (∀ m, Ends X (forwardBranch xtruth (fun _ => true) false F) m .ub) ∧
    ¬ Refines X F (forwardBranch xtruth (fun _ => true) false F) ∧ ¬ LiveWf (forwardBranch xtruth (fun _ => true) false F) := by
  have h1 : ∀ m, Ends X twice m (out 6 m []) := fun m => ⟨4, rfl⟩
  have h2 : ∀ m, Ends X (forwardBranch xtruth (fun _ => true) false twice) m .ub := fun m => ⟨2, rfl⟩
  refine ⟨twice, twice_wf, h1, h2, ?_, ?_⟩
  · intro h
    have h3 := (h (fun _ => 0)).1 _ (h1 _) nofun
    obtain ⟨n, hn⟩ := h3
    obtain ⟨k, hk⟩ := h2 (fun _ => 0)
    cases run_det hn hk
  · intro W
    have hB : (forwardBranch xtruth (fun _ => true) false twice).blk 2 = some ⟨[⟨12, []⟩], [], .cbr (.inst 12) 4 3⟩ := rfl
    have h0 : (forwardBranch xtruth (fun _ => true) false twice).blk 0 = some ⟨[], [⟨10, .lt, [.cst 1, .cst 2]⟩], .cbr (.inst 10) 2 4⟩ := rfl
    have e0 : Edge (forwardBranch xtruth (fun _ => true) false twice) 0 2 := ⟨_, h0, by simp [Term.targets]⟩
    have l0 : Live (forwardBranch xtruth (fun _ => true) false twice) 0 := ⟨_, .single _⟩
    obtain ⟨v, hv⟩ := W.phiAll 2 _ _ 0 hB (l0.edge e0) (List.mem_singleton.2 rfl) e0 l0
    simp at hv

end Cmmc.SSA.Ex
