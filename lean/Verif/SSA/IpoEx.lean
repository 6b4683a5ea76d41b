import Verif.SSA.InlineEx
import Verif.SSA.DiscardRet
/-!
# C83, C84, C85 on a concrete program
-/
namespace Cmmc.SSA.Ex
open Cmmc.SSA

/-- `int g(int p, int q, int r) { int s = p + q; print(s); return s; }` -/
def ipoFn : Func XOp Int := mk [(0, ⟨[], [⟨10, .add, [.cst 1000, .cst 1001]⟩, ⟨11, .print, [.inst 10]⟩], .ret (some (.inst 10))⟩)]

/-- `int main(int a) { g(a, 3, 7); g(a + 1, 3, 8); return a; }` -/
def ipoMain : Func XOp Int := mk
  [(0, ⟨[], [⟨20, .mul, [.cst 1000, .cst 3, .cst 7]⟩, ⟨21, .add, [.cst 1000, .cst 1]⟩, ⟨22, .mul, [.inst 21, .cst 3, .cst 8]⟩], .ret (some (.cst 1000))⟩)]

def ipoP : Nat → Option X.F
  | 0 => some ipoMain
  | 1 => some ipoFn
  | _ => none

def ipoSig : Sigs := ⟨fun f => if f = 0 then 1 else 3, fun _ => true, fun _ => false⟩

/-- main has Global linkage -/
def ipoGlob (f : Nat) : Bool := f == 0

theorem ipoFn_wf : LiveWf (ipoFn : X.F) := (mk_proper _ (by decide +kernel)).1.liveWf_of_allLive (L := X) (mk_proper _ (by decide +kernel)).2

theorem ipoMain_wf : LiveWf (ipoMain : X.F) := (mk_proper _ (by decide +kernel)).1.liveWf_of_allLive (L := X) (mk_proper _ (by decide +kernel)).2

/-- hypothesis of C83, C84, C85 -/
theorem ipo_ok : ProgOk XV ipoSig ipoP := by
  intro f F hF
  match f with
  | 0 => cases hF; exact fnOk_of ipoMain_wf (by decide +kernel) (fun h => by simp [ipoSig] at h)
  | 1 => cases hF; exact fnOk_of ipoFn_wf (by decide +kernel) (fun h => by simp [ipoSig] at h)
  | _ + 2 => cases hF

/-- hypothesis of C83, C85 -/
theorem ipo_covers : ∀ g G, ipoP g = some G → g ∈ [0, 1] := by
  intro f F hF
  match f with
  | 0 => simp
  | 1 => simp
  | _ + 2 => cases hF

/-- hypothesis of C84: the parameter at position `j` is written `1000 + j` -/
def ipoArg (j : Nat) : Int := 1000 + j

theorem ipoArg_param (j : Nat) : XV.param (ipoArg j) = some j := by
  show (if 1000 ≤ (1000 + j : Int) then some ((1000 + j : Int) - 1000).toNat else none) = some j
  rw [if_pos (by omega)]
  congr 1
  omega

/-- operands of the instructions and of the terminators -/
def operands (F : Func XOp Int) : List (List (List (Opd Int)) × List (Opd Int)) := F.blocks.map (fun B => (B.body.map Inst.args, B.term.args))

/-- after `IPConstantPropagation` -/
def ipoQ : Nat → Option X.F := ipcpModule XV.param XV.callee (fun _ => none) ipoSig.arity ipoGlob [0, 1] ipoP

/-- both calls pass 3 for `q`: `s = p + 3`; `p` and `r` differ -/
theorem ipoQ_fn : (ipoQ 1).map operands = some [([[.cst 1000, .cst 3], [.inst 10]], [.inst 10])] := by decide +kernel

theorem ipoQ_ok : ProgOk XV ipoSig ipoQ := (C83_ipConstantPropagation XV ipoSig (fun _ => none) ipoGlob [0, 1] ipoP ipo_ok ipo_covers).1

/-- after `DeadArgEliminate` -/
def ipoR : (Nat → Option X.F) × Sigs := deadArgModule XV.param XV.callee ipoArg ipoGlob [0, 1] (ipoQ, ipoSig)

/-- `q` and `r` are gone -/
theorem ipoR_fn : (ipoR.1 1).map operands = some [([[.cst 1000, .cst 3], [.inst 10]], [.inst 10])] ∧ (ipoR.1 0).map operands = some [([[.cst 1000], [.cst 1000, .cst 1], [.inst 21]], [.cst 1000])] ∧ ipoR.2.arity 1 = 1 := by
  exact ⟨by decide +kernel, by decide +kernel, by decide +kernel⟩

/-- a removed parameter in front: the others move up (`print(p + q)` with `p` replaced by a constant would be the same as here) -/
theorem renumber_front : ((deadArgModule XV.param XV.callee ipoArg ipoGlob [0, 1]
      ((fun f => if f = 1 then some (mk [(0, ⟨[], [⟨10, .add, [.cst 1002, .cst 3]⟩, ⟨11, .print, [.inst 10]⟩], .ret (some (.inst 10))⟩)]) else if f = 0 then some ipoMain else none), ipoSig)).1 1).map operands =
    some [([[.cst 1000, .cst 3], [.inst 10]], [.inst 10])] := by decide +kernel

/-- after `DiscardReturnValue` -/
def ipoS : (Nat → Option X.F) × Sigs := discardModule XV.callee (fun _ => none) ipoGlob [0, 1] ipoR

/-- `g` returns nothing -/
theorem ipoS_fn : (ipoS.1 1).map operands = some [([[.cst 1000, .cst 3], [.inst 10]], [])] ∧ (ipoS.1 0).map operands = some [([[.cst 1000], [.cst 1000, .cst 1], [.inst 21]], [.cst 1000])] ∧ ipoS.2.valued 1 = false := by
  exact ⟨by decide +kernel, by decide +kernel, by decide +kernel⟩

/-- if main uses a result, it is kept -/
theorem discard_used : resultUsed XV.callee (fun _ => none) [0, 1] softP 1 = true := by decide +kernel

/-- if two calls pass different constants, nothing is replaced -/
theorem ipcp_differ : commonArg XV.param (fun _ => none) 1 2 (usersOf XV.callee (fun _ => none) [0, 1] ipoP 1) none = none := by decide +kernel

theorem ipoFn_run (d : Nat) (p q r : Int) (m : Int → Int) : XV.call ipoP (d + 1) 1 [p, q, r] m = .ok (p + q) m [p + q] := by
  have h : Ends (XV.lang (XV.call ipoP d) [p, q, r]) ipoFn (XV.enter m) (.ret (some (p + q)) (XV.enter m) [p + q]) := ⟨1, rfl⟩
  have h2 := Conv.invoke_eq (V := XV) h
  show XV.invoke (XV.call ipoP d) ipoFn [p, q, r] m = _
  rw [h2]
  exact congrArg (fun m' => (Res.ok (p + q) m' [p + q] : Res Int (Int → Int) Int Unit)) (XV.leave_enter m)

/-- what main needs to know of its calls -/
def onlySum : CallSem X := fun f (vs : List Int) m => if f = 1 then (match vs with | [p, q, _] => .ok (p + q) m [p + q] | _ => .ub) else .ub

/-- before: `main(5)` prints 8 and 9 and returns 5 -/
theorem ipo_before (d : Nat) (m : Int → Int) : XV.call ipoP (d + 2) 0 [(5 : Int)] m = .ok (5 : Int) m [(8 : Int), (9 : Int)] := by
  have h : Ends (XV.lang onlySum [(5 : Int)]) ipoMain (XV.enter m) (.ret (some (5 : Int)) (XV.enter m) [(8 : Int), (9 : Int)]) := ⟨1, rfl⟩
  have h1 := Conv.invoke_eq (V := XV) h
  have h2 : XV.result onlySum [(5 : Int)] m (.ret (some (5 : Int)) (XV.enter m) [(8 : Int), (9 : Int)]) = .ok (5 : Int) m [(8 : Int), (9 : Int)] :=
    congrArg (fun m' => (Res.ok (5 : Int) m' [(8 : Int), (9 : Int)] : Res Int (Int → Int) Int Unit)) (XV.leave_enter m)
  rw [h2] at h1
  show XV.invoke (XV.call ipoP (d + 1)) ipoMain [(5 : Int)] m = _
  rw [← h1]
  refine Conv.invoke_le ?_ (by rw [h1]; simp)
  intro f vs m hu
  unfold onlySum at hu ⊢
  by_cases hf : f = 1
  · subst hf
    rw [if_pos rfl] at hu ⊢
    match vs, hu with
    | [p, q, r], _ => exact ipoFn_run d p q r m
    | [], hu => exact absurd rfl hu
    | [_], hu => exact absurd rfl hu
    | [_, _], hu => exact absurd rfl hu
    | _ :: _ :: _ :: _ :: _, hu => exact absurd rfl hu
  · rw [if_neg hf] at hu
    exact absurd rfl hu

/-- after all three passes: the same -/
theorem ipo_after (d : Nat) (m : Int → Int) : XV.call ipoS.1 (d + 2) 0 [(5 : Int)] m = .ok (5 : Int) m [(8 : Int), (9 : Int)] := by
  have h0 : XV.call ipoP (d + 2) 0 [(5 : Int)] m ≠ .ub := by rw [ipo_before]; simp
  have h1 := (C83_ipConstantPropagation XV ipoSig (fun _ => none) ipoGlob [0, 1] ipoP ipo_ok ipo_covers).2 (d + 2) 0 [(5 : Int)] m rfl h0
  obtain ⟨P2, sg2, e2, ok2, _, h2⟩ := C84_deadArgEliminate XV ipoSig ipoArg ipoArg_param ipoGlob [0, 1] ipoQ ipoQ_ok
  have e2' : ipoR = (P2, sg2) := e2
  have h2' := h2 (d + 2) 0 [(5 : Int)] m rfl (by show XV.call ipoQ _ _ _ _ ≠ _; rw [show XV.call ipoQ _ _ _ _ = _ from h1]; exact h0)
  have hcov : ∀ g G, P2 g = some G → g ∈ [0, 1] := by
    intro f F hF
    have hR : ipoR.1 f = some F := by rw [e2']; exact hF
    match f with
    | 0 => simp
    | 1 => simp
    | n + 2 =>
      exfalso
      have : ipoR.1 (n + 2) = none := by rfl
      rw [this] at hR
      cases hR
  obtain ⟨P3, sg3, e3, _, _, h3, _⟩ := C85_discardReturnValue XV sg2 (fun _ => none) ipoGlob [0, 1] P2 ok2 hcov
  have e3' : ipoS = (P3, sg3) := by
    unfold ipoS
    rw [e2']
    exact e3
  rw [e3']
  have h1' : XV.call ipoQ (d + 2) 0 [(5 : Int)] m = XV.call ipoP (d + 2) 0 [(5 : Int)] m := h1
  rw [h3 (d + 2) 0 [(5 : Int)] m (.inl rfl) (by rw [h2', h1']; exact h0), h2', h1', ipo_before]

end Cmmc.SSA.Ex
