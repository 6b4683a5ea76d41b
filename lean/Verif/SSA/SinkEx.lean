import Verif.SSA.Sink
import Verif.SSA.UnifyRet
/-!
# C73, C74, C75 on concrete functions
-/
namespace Cmmc.SSA.Ex
open Cmmc.SSA

theorem wf_of (bs : List (Nat × Block XOp Int)) (h : properB (mk bs) = true) : LiveWf (mk bs : X.F) ∧ AllLive (mk bs) :=
  ⟨(mk_proper bs h).1.liveWf_of_allLive (L := X) (mk_proper bs h).2, (mk_proper bs h).2⟩

/-- `if(1 < 2) { print(1); return 7; } else { if(…) return 8; return 9; }` -/
def threeRets : Func XOp Int := mk
  [(0, ⟨[], [⟨10, .lt, [.cst 1, .cst 2]⟩], .cbr (.inst 10) 1 2⟩),
   (1, ⟨[], [⟨11, .print, [.cst 1]⟩, ⟨12, .add, [.cst 3, .cst 4]⟩], .ret (some (.inst 12))⟩),
   (2, ⟨[], [], .cbr (.inst 10) 3 4⟩),
   (3, ⟨[], [], .ret (some (.cst 8))⟩),
   (4, ⟨[], [], .ret (some (.cst 9))⟩)]

theorem threeRets_wf : LiveWf (threeRets : X.F) := (wf_of _ (by decide +kernel)).1

/-- hypothesis of `C73_unifyReturn` -/
theorem threeRets_typed : RetTyped true threeRets := by
  intro b B v hB hv
  have h : ∀ B ∈ threeRets.blocks, (match B.term with | .ret v => v.isSome | _ => true) = true := by decide +kernel
  have := h B ((mk_listed _).mem hB)
  rw [hv] at this
  exact this

/-- the new block 5 collects the three results -/
theorem threeRets_unified : look (unifyReturn false true threeRets) =
    [(0, [], [10], [1, 2]), (1, [], [11, 12], [5]), (2, [], [], [3, 4]), (3, [], [], [5]), (4, [], [], [5]), (5, [[1, 3, 4]], [], [])] := by decide +kernel

theorem threeRets_same (m : Int → Int) : Ends X threeRets m (out 7 m [1]) ∧ Ends X (unifyReturn false true threeRets) m (out 7 m [1]) := by
  have h : Ends X threeRets m (out 7 m [1]) := ⟨2, rfl⟩
  exact ⟨h, ((C73_unifyReturn (L := X) false true threeRets_wf threeRets_typed).1 m).1 _ h nofun⟩

/-- `x = 2 * 3; y = x + 1; if(1 < 2) { print(y); return x; } return 0;` -/
def sinkable : Func XOp Int := mk
  [(0, ⟨[], [⟨10, .mul, [.cst 2, .cst 3]⟩, ⟨11, .add, [.inst 10, .cst 1]⟩, ⟨12, .lt, [.cst 1, .cst 2]⟩], .cbr (.inst 12) 1 2⟩),
   (1, ⟨[], [⟨13, .print, [.inst 11]⟩], .ret (some (.inst 10))⟩),
   (2, ⟨[], [], .ret (some (.cst 0))⟩)]

theorem sinkable_wf : LiveWf (sinkable : X.F) ∧ AllLive sinkable := wf_of _ (by decide +kernel)

theorem entryFirst_of (bs : List (Nat × Block XOp Int)) (h : (mk bs).blocks.all (fun B => !(B.term.targets.contains (mk bs).entry)) = true) : EntryFirst (mk bs) := by
  rintro q ⟨B, hB, ht⟩
  rw [List.all_eq_true] at h
  have := h B ((mk_listed bs).mem hB)
  simp only [Bool.not_eq_true', List.contains_eq_mem, decide_eq_false_iff_not] at this
  exact this ht

/-- `codeSink` at the example language, every block hot, every target colder -/
def xsink (F : Func XOp Int) : Option (Func XOp Int) := codeSink (Op := XOp) (C := Int) ordId xmv (fun _ => true) (fun _ _ => true) F

/-- 11 is moved into block 1; 10 is not: when it is looked at, its user 11 is still in block 0 -/
theorem sinkable_sunk : (xsink sinkable).map look = some [(0, [], [10, 12], [1, 2]), (1, [], [11, 13], []), (2, [], [], [])] := by decide +kernel

theorem sinkable_same (m : Int → Int) : ∃ G, xsink sinkable = some G ∧ Ends X sinkable m (out 6 m [7]) ∧ Ends X G m (out 6 m [7]) := by
  obtain ⟨G, h1, h2, _⟩ := C74_codeSink (L := X) ordId x_movable (fun _ => true) (fun _ _ => true) sinkable_wf.1 sinkable_wf.2 (entryFirst_of _ (by decide +kernel))
  have h : Ends X sinkable m (out 6 m [7]) := ⟨2, rfl⟩
  exact ⟨G, h1, h, (h2 m).1 _ h nofun⟩

/-- `do { x = 3; y = x + 5; } while(0); return y;` with the entry as loop header: in SSA form, but a jump to the entry -/
def backToEntry : Func XOp Int := mk
  [(0, ⟨[], [⟨10, .print, [.cst 3]⟩], .br 1⟩),
   (1, ⟨[], [⟨11, .add, [.inst 10, .cst 5]⟩], .cbr (.cst 0) 0 2⟩),
   (2, ⟨[], [], .ret (some (.inst 11))⟩)]

theorem backToEntry_wf : LiveWf (backToEntry : X.F) ∧ AllLive backToEntry := wf_of _ (by decide +kernel)

/-- CodeSink moves the sum in front of its operand: the entry has one predecessor and dominates everything (CodeSink.cpp:61-71, 78). Hence the
hypothesis `EntryFirst` of C74. -/
theorem sink_into_entry : (xsink backToEntry).map look = some [(0, [], [11, 10], [1]), (1, [], [], [0, 2]), (2, [], [], [])] := by decide +kernel

theorem sink_entry_wrong (m : Int → Int) : ∃ G, xsink backToEntry = some G ∧ Ends X backToEntry m (out 5 m [3]) ∧ Ends X G m .ub := by
  have h1 : (xsink backToEntry).isSome = true := by decide +kernel
  obtain ⟨G, hG⟩ := Option.isSome_iff_exists.1 h1
  refine ⟨G, hG, ⟨3, rfl⟩, 1, ?_⟩
  have hb : (xsink backToEntry).map (fun G => G.blk 0) = some (G.blk 0) := by rw [hG]; rfl
  have he : G.entry = 0 := by
    have h : (xsink backToEntry).map (fun G => G.entry) = some 0 := by decide +kernel
    rw [hG] at h; exact Option.some.inj h
  have b0 : G.blk 0 = some ⟨[], [⟨11, .add, [.inst 10, .cst 5]⟩, ⟨10, .print, [.cst 3]⟩], .br 1⟩ := Option.some.inj (hb.symm.trans rfl)
  have s1 : step X G ⟨none, 0, fun _ => none, m, []⟩ = .inr .ub := (step_of (L := X) (s := ⟨none, 0, fun _ => none, m, []⟩) b0).trans rfl
  unfold start
  rw [he]
  simp only [run, s1]

/-- `n = 3 * 4; i = 0; do { print(n * n); k = n * n + 1; i = i + k; } while(i < 100); return i;` -/
def invariant : Func XOp Int := mk
  [(0, ⟨[], [⟨9, .mul, [.cst 3, .cst 4]⟩], .br 1⟩),
   (1, ⟨[⟨10, [(0, .cst 0), (1, .inst 14)]⟩], [⟨11, .mul, [.inst 9, .inst 9]⟩, ⟨12, .print, [.inst 11]⟩, ⟨13, .add, [.inst 11, .cst 1]⟩, ⟨14, .add, [.inst 10, .inst 13]⟩,
      ⟨15, .lt, [.inst 14, .cst 100]⟩], .cbr (.inst 15) 1 2⟩),
   (2, ⟨[], [], .ret (some (.inst 14))⟩)]

theorem invariant_wf : LiveWf (invariant : X.F) ∧ AllLive invariant := wf_of _ (by decide +kernel)

def xmove (F : Func XOp Int) : Option (Func XOp Int) := codeMove (Op := XOp) (C := Int) ordId (fun _ _ => true) xspec (fun _ => true) (fun _ => true) F

/-- 11 and 13 leave the loop -/
theorem invariant_moved : (xmove invariant).map look = some [(0, [], [9, 11, 13], [1]), (1, [[0, 1]], [12, 14, 15], [1, 2]), (2, [], [], [])] := by decide +kernel

theorem invariant_same (m : Int → Int) : ∃ G, xmove invariant = some G ∧ Ends X invariant m (out 145 m [144]) ∧ Ends X G m (out 145 m [144]) := by
  obtain ⟨G, h1, h2, _⟩ := C75_codeMove (L := X) ordId x_movable x_specOk (fun op args h => by simp only [xspec, Bool.and_eq_true] at h; exact h.1) (fun _ _ => true) (fun _ => true) (fun _ => true)
    invariant_wf.1 invariant_wf.2
  have h : Ends X invariant m (out 145 m [144]) := ⟨3, rfl⟩
  exact ⟨G, h1, h, (h2 m).1 _ h nofun⟩

end Cmmc.SSA.Ex
