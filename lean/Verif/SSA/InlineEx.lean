import Verif.SSA.CutEx
import Verif.SSA.InlinePass
/-!
# C72 on a concrete program
-/
namespace Cmmc.SSA.Ex
open Cmmc.SSA

/-- constants 1000, 1001, ... are parameters; `mul` is a call of function 1; addresses from 1000 on are locals -/
def XV : Conv X where
  param := fun (c : Int) => if 1000 ≤ c then some (c - 1000).toNat else none
  callee := fun | .mul => some 1 | _ => none
  enter := fun (m : Int → Int) (a : Int) => if a < 1000 then m a else 0
  leave := fun (m mc : Int → Int) (a : Int) => if a < 1000 then mc a else m a
  I := fun (mc : Int → Int) => ∀ a : Int, ¬ a < 1000 → mc a = 0
  void := (0 : Int)
  enter_I := by intro m a ha; exact if_neg ha
  leave_enter := by intro m; funext a; dsimp only; split <;> rfl
  enter_leave := by intro m mc _; funext a; dsimp only; split <;> rfl
  leave_leave := by intro m mc mc'; funext a; dsimp only; split <;> rfl
  I_leave := by intro mc mc' h a ha; exact (if_neg ha).trans (h a ha)

/-- `int mul(int p, int q) { int i = 0, s = 0; while(i < q) { s = s + p; i = i + 1; } return s; }` -/
def softMul : Func XOp Int := mk
  [(0, ⟨[], [], .br 1⟩),
   (1, ⟨[⟨10, [(0, .cst 0), (2, .inst 14)]⟩, ⟨11, [(0, .cst 0), (2, .inst 13)]⟩], [⟨12, .lt, [.inst 10, .cst 1001]⟩], .cbr (.inst 12) 2 3⟩),
   (2, ⟨[], [⟨13, .add, [.inst 11, .cst 1000]⟩, ⟨14, .add, [.inst 10, .cst 1]⟩], .br 1⟩),
   (3, ⟨[], [], .ret (some (.inst 11))⟩)]

/-- `int main(int a) { int y = mul(a + 2, 3); print(y); return y; }` -/
def softMain : Func XOp Int := mk
  [(0, ⟨[], [⟨20, .add, [.cst 1000, .cst 2]⟩, ⟨21, .mul, [.inst 20, .cst 3]⟩, ⟨22, .print, [.inst 21]⟩], .ret (some (.inst 21))⟩)]

def softP : Nat → Option X.F
  | 0 => some softMain
  | 1 => some softMul
  | _ => none

def softSig : Sigs := ⟨fun f => if f = 0 then 1 else 2, fun _ => true, fun f => f == 1⟩

/-- what `FnOk` asks for besides SSA form, as a program -/
def fnOkB {L : Lang} (V : Conv L) (sg : Sigs) (f : Nat) (F : L.F) : Bool :=
  F.blocks.all (fun T => !(T.term.targets.contains F.entry) &&
    T.opds.all (fun o => match o with | .inst _ => true | .cst c => match V.param c with | none => true | some j => decide (j < sg.arity f)) &&
    (match T.term with | .ret v => v.isSome == sg.valued f | _ => true) &&
    T.body.all (fun i => match V.callee i.op with
      | none => true
      | some g => decide (i.args.length = sg.arity g) && (sg.valued g || F.blocks.all (fun X => !(X.opds.contains (.inst i.id))))))

theorem fnOk_of {L : Lang} {V : Conv L} {sg : Sigs} {f : Nat} {F : L.F} (W : LiveWf F) (h : fnOkB V sg f F = true) (hn : sg.elig f = true → NoLocals V F) : FnOk V sg f F := by
  unfold fnOkB at h
  rw [List.all_eq_true] at h
  have hb : ∀ {q T}, F.blk q = some T → _ := fun hT => h _ (W.listed.mem hT)
  simp only [Bool.and_eq_true] at hb
  refine ⟨W, ?_, ?_, ?_, ?_, ?_, hn⟩
  · rintro q ⟨T, hT, ht⟩
    have := (hb hT).1.1.1
    simp only [Bool.not_eq_true', List.contains_eq_mem, decide_eq_false_iff_not] at this
    exact this ht
  · rintro q T hT o ho c j rfl hp
    have := List.all_eq_true.1 (hb hT).1.1.2 _ ho
    simp only [hp, decide_eq_true_eq] at this
    exact this
  · intro q T v hT hv
    have := (hb hT).1.2
    rw [hv] at this
    exact eq_of_beq this
  · intro q T i g hT hi hg
    have := List.all_eq_true.1 (hb hT).2 i hi
    simp only [hg, Bool.and_eq_true, decide_eq_true_eq] at this
    exact this.1
  · intro q T i g hT hi hg hv x X' hX' hm
    have := List.all_eq_true.1 (hb hT).2 i hi
    simp only [hg, hv, Bool.and_eq_true, decide_eq_true_eq, Bool.false_or] at this
    have h2 := List.all_eq_true.1 this.2 X' (W.listed.mem hX')
    simp only [Bool.not_eq_true', List.contains_eq_mem, decide_eq_false_iff_not] at h2
    exact h2 hm

theorem softMul_wf : LiveWf (softMul : X.F) := (mk_proper _ (by decide +kernel)).1.liveWf_of_allLive (L := X) (mk_proper _ (by decide +kernel)).2

theorem softMain_wf : LiveWf (softMain : X.F) := (mk_proper _ (by decide +kernel)).1.liveWf_of_allLive (L := X) (mk_proper _ (by decide +kernel)).2

theorem pure_lifts {op : XOp} (h : op = .add ∨ op = .lt) : LiftsOp X XV.leave XV.I op := by
  intro vs m mc hI
  rcases h with rfl | rfl
  · match vs with
    | [a, b] => exact ⟨hI, rfl⟩
    | [] => trivial
    | [_] => trivial
    | _ :: _ :: _ :: _ => trivial
  · match vs with
    | [a, b] => exact ⟨hI, rfl⟩
    | [] => trivial
    | [_] => trivial
    | _ :: _ :: _ :: _ => trivial

theorem softMul_pure : NoLocals XV softMul := by
  intro q T hT i hi hc
  apply pure_lifts
  have h1 : T ∈ softMul.blocks := (mk_listed _).mem hT
  have h2 : ∀ T ∈ softMul.blocks, ∀ i ∈ T.body, i.op = .add ∨ i.op = .lt := by decide +kernel
  exact h2 T h1 i hi

/-- hypothesis of `C72_inlining` -/
theorem soft_ok : ProgOk XV softSig softP := by
  intro f F hF
  match f with
  | 0 => cases hF; exact fnOk_of softMain_wf (by decide +kernel) (fun h => by simp [softSig] at h)
  | 1 => cases hF; exact fnOk_of softMul_wf (by decide +kernel) (fun _ => softMul_pure)
  | _ + 2 => cases hF

/-- the program after the pass -/
def softQ : Nat → Option X.F := inlineModule XV.param XV.callee softSig (fun _ => false) [0, 1] softP

/-- main is now four blocks of `mul` between the two halves of its block: 1 is the second half (with a phi for the result), 2 ... 5 are the copies, 2 has phis for
the two parameters; no call is left -/
theorem soft_inlined : (softQ 0).map look =
    some [(0, [], [20], [2]), (2, [[0], [0]], [], [3]), (3, [[2, 4], [2, 4]], [47], [4, 5]), (4, [], [49, 51], [3]), (5, [], [], [1]), (1, [[5]], [22], [])] := by decide +kernel

theorem softMul_73 (d : Nat) (m : Int → Int) : XV.call softP (d + 1) 1 [(7 : Int), (3 : Int)] m = .ok (21 : Int) m [] := by
  have h : Ends (XV.lang (XV.call softP d) [(7 : Int), (3 : Int)]) softMul (XV.enter m) (.ret (some (21 : Int)) (XV.enter m) []) := ⟨9, rfl⟩
  have h2 := Conv.invoke_eq (V := XV) h
  show XV.invoke (XV.call softP d) softMul [(7 : Int), (3 : Int)] m = _
  rw [h2]
  exact congrArg (fun m' => (Res.ok (21 : Int) m' [] : Res Int (Int → Int) Int Unit)) (XV.leave_enter m)

/-- what main needs to know of its call -/
def only73 : CallSem X := fun f (vs : List Int) m => if f = 1 ∧ vs = [7, 3] then .ok (21 : Int) m [] else .ub

/-- before: `main(5)` prints and returns 21 -/
theorem soft_before (d : Nat) (m : Int → Int) : XV.call softP (d + 2) 0 [(5 : Int)] m = .ok (21 : Int) m [(21 : Int)] := by
  have h : Ends (XV.lang only73 [(5 : Int)]) softMain (XV.enter m) (.ret (some (21 : Int)) (XV.enter m) [(21 : Int)]) := ⟨1, rfl⟩
  have h1 := Conv.invoke_eq (V := XV) h
  have h2 : XV.result only73 [(5 : Int)] m (.ret (some (21 : Int)) (XV.enter m) [(21 : Int)]) = .ok (21 : Int) m [(21 : Int)] := 
    congrArg (fun m' => (Res.ok (21 : Int) m' [(21 : Int)] : Res Int (Int → Int) Int Unit)) (XV.leave_enter m)
  rw [h2] at h1
  show XV.invoke (XV.call softP (d + 1)) softMain [(5 : Int)] m = _
  rw [← h1]
  refine Conv.invoke_le ?_ (by rw [h1]; simp)
  intro f vs m hu
  unfold only73 at hu ⊢
  split at hu
  · rename_i hc
    obtain ⟨rfl, rfl⟩ := hc
    rw [if_pos ⟨rfl, rfl⟩]
    exact softMul_73 d m
  · exact absurd rfl hu

/-- after: the same -/
theorem soft_after (d : Nat) (m : Int → Int) : XV.call softQ (d + 2) 0 [(5 : Int)] m = .ok (21 : Int) m [(21 : Int)] := by
  have := (C72_inlining XV softSig (fun _ => false) [0, 1] softP soft_ok).2 (d + 2) 0 [(5 : Int)] m (by rw [soft_before]; simp)
  rw [soft_before] at this
  exact this

end Cmmc.SSA.Ex
