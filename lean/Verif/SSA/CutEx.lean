import Verif.SSA.Cut
/-!
# C66 on concrete functions
-/
namespace Cmmc.SSA

/-- what the verifier accepts without unreachable blocks -/
theorem Proper.liveWf_of_allLive {L : Lang} {F : L.F} (P : Proper F) (A : AllLive F) : LiveWf F :=
  P.liveWf fun b B p p' q v hB hp hp' hq => by
    have e := P.phiPred b B p hB (A b B hB) hp q v hq
    obtain ⟨Q, hQ, _⟩ := id e
    exact P.phiAll b B p' q hB (A b B hB) hp' e (A q Q hQ)

namespace Ex

theorem step_of {L : Lang} {F : L.F} {s : St L} {B : L.B} (h : F.blk s.cur = some B) : step L F s = stepBlk L B s := by unfold step; rw [h]

def isExit : XOp → Bool
  | .exit => true
  | _ => false

/-- hypothesis of `C66_noReturnCallEliminate` -/
theorem isExit_noReturn : NoReturnOps X isExit := by
  intro op h vs m v m' es hs
  cases op <;> simp only [isExit, Bool.false_eq_true] at h
  cases vs <;> simp [X, xsem] at hs

/-- `if(1 < 2) { print(1); exit(); x = print(2); } else x = 7; return x + 1;` -/
def bye : Func XOp Int := mk
  [(0, ⟨[], [⟨10, .lt, [.cst 1, .cst 2]⟩], .cbr (.inst 10) 1 2⟩),
   (1, ⟨[], [⟨11, .print, [.cst 1]⟩, ⟨12, .exit, []⟩, ⟨13, .print, [.cst 2]⟩], .br 3⟩),
   (2, ⟨[], [], .br 3⟩),
   (3, ⟨[⟨14, [(1, .inst 13), (2, .cst 7)]⟩], [⟨15, .add, [.inst 14, .cst 1]⟩], .ret (some (.inst 15))⟩)]

theorem bye_wf : LiveWf (bye : X.F) := (mk_proper _ (by decide +kernel)).1.liveWf_of_allLive (L := X) (mk_proper _ (by decide +kernel)).2

/-- ids of the instructions, sources of the phis, targets -/
def look (F : Func XOp Int) : List (Nat × List (List Nat) × List Nat × List Nat) :=
  F.order.map fun b => (b, match F.blk b with | some B => (B.phis.map (fun p => p.inc.map Prod.fst), B.body.map Inst.id, B.term.targets) | none => ([], [], []))

/-- prints 1 and exits -/
def bye1 : Beh X := .halt () ([1] : List Int)

def cutBye : Func XOp Int := noReturnCallEliminate (fun _ => 0) isExit bye

/-- the pass ends block 1 behind `exit` … -/
theorem bye_cut : look cutBye =
    [(0, [], [10], [1, 2]), (1, [], [11, 12], []), (2, [], [], [3]), (3, [[2]], [15], [])] := by decide +kernel

/-- … and the program still prints 1 and exits -/
theorem bye_same (m : Int → Int) : Ends X bye m bye1 ∧ Ends X cutBye m bye1 := by
  have h : Ends X bye m bye1 := ⟨2, rfl⟩
  exact ⟨h, ((C66_noReturnCallEliminate (L := X) (fun _ => (0 : Int)) isExit_noReturn bye_wf).1 m).1 _ h nofun⟩

/-- The two passes of the -O3 pipeline (TransformPass.cpp:400 and 438-447) together delete the call of `exit`: the source prints 1 and exits, the
result returns 8. (The comment in front of the second group assumes that all functions return.) -/
theorem exit_lost (m : Int → Int) : Ends X bye m bye1 ∧
    ∃ G, unreachableGroup (fun _ => 0) cutBye = some G ∧ Ends X G m (out 8 m []) := by
  refine ⟨⟨2, rfl⟩, ?_⟩
  have h1 : (unreachableGroup (fun _ => 0) cutBye).isSome = true := by decide +kernel
  obtain ⟨G, hG⟩ := Option.isSome_iff_exists.1 h1
  refine ⟨G, hG, 3, ?_⟩
  have hb : ∀ b, (unreachableGroup (fun _ => 0) cutBye).map (fun G => G.blk b) = some (G.blk b) := by
    intro b; rw [hG]; rfl
  have he : G.entry = 0 := by
    have h : (unreachableGroup (fun _ => 0) cutBye).map (fun G => G.entry) = some 0 := by decide +kernel
    rw [hG] at h; exact Option.some.inj h
  have b0 : G.blk 0 = some ⟨[], [⟨10, .lt, [.cst 1, .cst 2]⟩], .br 2⟩ := Option.some.inj ((hb 0).symm.trans rfl)
  have b2 : G.blk 2 = some ⟨[], [], .br 3⟩ := Option.some.inj ((hb 2).symm.trans rfl)
  have b3 : G.blk 3 = some ⟨[⟨14, [(2, .cst 7)]⟩], [⟨15, .add, [.inst 14, .cst 1]⟩], .ret (some (.inst 15))⟩ := Option.some.inj ((hb 3).symm.trans rfl)
  unfold start
  rw [he]
  have s1 : step X G ⟨none, 0, fun _ => none, m, []⟩ = .inl ⟨some 0, 2, setEnv X (fun _ => none) 10 (1 : Int), m, []⟩ := by
    refine (step_of (L := X) (s := ⟨_, _, _, _, _⟩) b0).trans rfl
  have s2 : step X G ⟨some 0, 2, setEnv X (fun _ => none) 10 (1 : Int), m, []⟩ = .inl ⟨some 2, 3, setEnv X (fun _ => none) 10 (1 : Int), m, []⟩ := by
    refine (step_of (L := X) (s := ⟨_, _, _, _, _⟩) b2).trans rfl
  have s3 : step X G ⟨some 2, 3, setEnv X (fun _ => none) 10 (1 : Int), m, []⟩ = .inr (out 8 m []) := by
    refine (step_of (L := X) (s := ⟨_, _, _, _, _⟩) b3).trans rfl
  simp only [run, s1, s2, s3]

/-- `i = 0; do { print(i); i = i + 1; } while(1 || …)` next to a branch that returns 5 -/
def spin (c : Int) : Func XOp Int := mk
  [(0, ⟨[], [], .cbr (.cst c) 1 2⟩),
   (1, ⟨[⟨10, [(0, .cst 0), (1, .inst 12)]⟩], [⟨11, .print, [.inst 10]⟩, ⟨12, .add, [.inst 10, .cst 1]⟩], .br 1⟩),
   (2, ⟨[], [], .ret (some (.cst 5))⟩)]

theorem spin_wf : LiveWf (spin 0 : X.F) := (mk_proper _ (by decide +kernel)).1.liveWf_of_allLive (L := X) (mk_proper _ (by decide +kernel)).2

/-- the endless loop is dropped, with it block 1 -/
theorem spin_group : (unreachableGroup (fun _ => 0) (spin 0)).map look = some [(0, [], [], [2]), (2, [], [], [])] ∧
    (unreachableGroup (fun _ => 0) (spin 1)).map look = some [(0, [], [], [2]), (2, [], [], [])] := ⟨by decide +kernel, by decide +kernel⟩

/-- the run that returns is kept … -/
theorem spin_returns (m : Int → Int) : ∃ G, unreachableGroup (fun _ => 0) (spin 0) = some G ∧ Ends X G m (out 5 m []) := by
  obtain ⟨G, h1, h2, _⟩ := C66_group (L := X) ordId (fun _ => (0 : Int)) spin_wf
  exact ⟨G, h1, h2 m (some (5 : Int)) m [] ⟨2, rfl⟩⟩

/-- … the endless one, which prints 0, 1, 2, …, is not: only returning runs are preserved -/
theorem spin_diverges (m : Int → Int) : Diverges X (spin 1) m := by
  have main : ∀ n (p : Nat) (s : St X), s.cur = 1 → s.pred = some p → (p = 0 ∨ (p = 1 ∧ ∃ v, s.env 12 = some v)) → ∃ s', run X (spin 1) n s = .inl s' := by
    intro n
    induction n with
    | zero => intro p s _ _ _; exact ⟨s, rfl⟩
    | succ n ih =>
      intro p s hc hp hpp
      obtain ⟨v, hv⟩ : ∃ v : Int, phiVal X (some p) s.env ⟨10, [(0, .cst (0 : Int)), (1, .inst 12)]⟩ = some v := by
        rcases hpp with rfl | ⟨rfl, v, hv⟩
        · exact ⟨(0 : Int), rfl⟩
        · exact ⟨v, hv⟩
      have hst : step X (spin 1) s = .inl ⟨some 1, 1, setEnv X (setEnv X (setEnv X s.env 10 (v : Int)) 11 (0 : Int)) 12 (v + 1 : Int), s.m, ((show List Int from s.tr) ++ [v] ++ [] : List Int)⟩ := by
        have hb : (spin 1).blk s.cur = some ⟨[⟨10, [(0, .cst 0), (1, .inst 12)]⟩], [⟨11, .print, [.inst 10]⟩, ⟨12, .add, [.inst 10, .cst 1]⟩], .br 1⟩ := by rw [hc]; rfl
        rw [step_of (L := X) hb]
        have hphi : enterPhis X s.pred s.env [⟨10, [(0, .cst (0 : Int)), (1, .inst 12)]⟩] s.env = some (setEnv X s.env 10 (v : Int)) := by
          unfold enterPhis
          rw [hp, hv]
          rfl
        unfold stepBlk
        erw [hphi, hc]
        rfl
      simp only [run, hst]
      exact ih 1 _ rfl rfl (.inr ⟨rfl, _, rfl⟩)
  intro n
  cases n with
  | zero => exact ⟨_, rfl⟩
  | succ n =>
    obtain ⟨s', hs'⟩ := main n 0 ⟨some 0, 1, fun _ => none, m, []⟩ rfl rfl (.inl rfl)
    exact ⟨s', hs'⟩

end Ex
end Cmmc.SSA
