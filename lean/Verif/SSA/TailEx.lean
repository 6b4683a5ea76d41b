import Verif.SSA.InlineEx
import Verif.SSA.TailMain
/-!
# C77 on concrete programs
-/
namespace Cmmc.SSA.Ex
open Cmmc.SSA

/-- the example language with `load` as `select` and `exit` as the recursive call (of function 0) -/
def ysem : XOp → List Int → (Int → Int) → Res Int (Int → Int) Int Unit
  | .load, [c, a, b], m => .ok (if c ≠ 0 then a else b) m []
  | .add, [a, b], m => .ok (a + b) m []
  | .mul, [a, b], m => .ok (a * b) m []
  | .lt, [a, b], m => .ok (if a < b then 1 else 0) m []
  | .print, [v], m => .ok 0 m [v]
  | _, _, _ => .ub

def Y : Lang where
  V := Int
  M := Int → Int
  E := Int
  H := Unit
  Op := XOp
  C := Int
  decOp := inferInstance
  decC := inferInstance
  cval := id
  sem := ysem
  truth := fun v => some (decide (v ≠ 0))
  key := some

abbrev sel : XOp := .load
abbrev self : XOp := .exit

/-- constants 1000, 1001, ... are parameters -/
def YV : Conv Y where
  param := fun (c : Int) => if 1000 ≤ c then some (c - 1000).toNat else none
  callee := fun | .exit => some 0 | _ => none
  enter := fun (m : Int → Int) (a : Int) => if a < 1000 then m a else 0
  leave := fun (m mc : Int → Int) (a : Int) => if a < 1000 then mc a else m a
  I := fun (mc : Int → Int) => ∀ a : Int, ¬ a < 1000 → mc a = 0
  void := (0 : Int)
  enter_I := by intro m a ha; exact if_neg ha
  leave_enter := by intro m; funext a; dsimp only; split <;> rfl
  enter_leave := by intro m mc _; funext a; dsimp only; split <;> rfl
  leave_leave := by intro m mc mc'; funext a; dsimp only; split <;> rfl
  I_leave := by intro mc mc' h a ha; exact (if_neg ha).trans (h a ha)

def ySel : TailSel XOp Int := ⟨sel, 0, 1, 0⟩

/-- additions and multiplications are accumulators -/
def yAcc : XOp → Option Int
  | .add => some 0
  | .mul => some 1
  | _ => none

def yMul : XOp → Int → Int → Int
  | .add, a, b => a + b
  | _, a, b => a * b

theorem ysem_pure (op : XOp) (vs : List Int) : (∀ m, ysem op vs m = .ub) ∨ ∃ v es, ∀ m, ysem op vs m = .ok v m es := by
  cases op <;> rcases vs with _ | ⟨a, _ | ⟨b, _ | ⟨c, _ | _⟩⟩⟩ <;> first | exact .inl (fun _ => rfl) | exact .inr ⟨_, _, fun _ => rfl⟩

theorem y_lifts (op : XOp) : LiftsOp Y YV.leave YV.I op := by
  intro vs m mc hI
  rcases ysem_pure op vs with h | ⟨v, es, h⟩
  · have h1 : Y.sem op vs mc = .ub := h mc
    rw [h1]
    trivial
  · have h1 : Y.sem op vs mc = .ok v mc es := h mc
    rw [h1]
    exact ⟨hI, h _⟩

theorem y_sel : ∀ (c : Int) (t : Bool) (a e : Int) (m : Int → Int), some (decide (c ≠ 0)) = some t → ysem sel [c, a, e] m = .ok (if t then a else e) m [] := by
  intro c t a e m h
  cases h
  simp [ysem]

/-- hypothesis of `C77_tailCallEliminate` -/
theorem y_lang : TailLang YV ySel yAcc (fun _ _ => True) yMul where
  sel := { callee := rfl, sem := y_sel, ttP := rfl, ffP := rfl, tt := rfl, ff := rfl }
  undefP := rfl
  selLift := y_lifts sel
  acc op c h := by
    cases op <;> cases h
    · exact { callee := rfl, sem := fun _ _ _ _ _ => rfl, dom := fun _ _ _ _ => trivial, assoc := fun a b c _ _ _ => Int.add_assoc a b c, comm := fun a b _ _ => Int.add_comm a b, param := rfl, idD := trivial, ident := fun a _ => Int.zero_add a }
    · exact { callee := rfl, sem := fun _ _ _ _ _ => rfl, dom := fun _ _ _ _ => trivial, assoc := fun a b c _ _ _ => Int.mul_assoc a b c, comm := fun a b _ _ => Int.mul_comm a b, param := rfl, idD := trivial, ident := fun a _ => Int.one_mul a }

theorem y_typed (F : Y.F) (c : Nat → CallSem Y) : TailTyped YV c yAcc (fun _ _ => True) F := ⟨fun _ _ _ _ _ _ _ _ _ _ _ _ _ _ _ => trivial, fun _ _ _ _ _ _ _ _ _ _ _ _ _ _ _ _ _ _ _ _ _ _ _ _ _ => trivial⟩

/-- one function with one parameter -/
def yP (F : Func XOp Int) : Nat → Option Y.F
  | 0 => some F
  | _ => none

def ySig : Sigs := ⟨fun _ => 1, fun _ => true, fun _ => false⟩

theorem y_param : ∀ c : Int, (if 1000 ≤ c then some (c - 1000).toNat else none) = some 0 → c = 1000 := by
  intro c h
  split at h
  · have := Option.some.inj h; omega
  · cases h

theorem y_args (f : Nat) : ArgsOk YV ySig f [(1000 : Int)] := by
  refine ⟨rfl, ?_⟩
  intro j c
  constructor
  · intro h
    cases j with
    | zero => cases h; exact ⟨rfl, Nat.one_pos⟩
    | succ j => cases h
  · rintro ⟨h1, h2⟩
    have h2 : j < 1 := h2
    have : j = 0 := by omega
    subst this
    rw [y_param c h1]
    rfl

/-- the program after the pass -/
def yQ (F : Func XOp Int) : Nat → Option Y.F := tailPass (C := Y.C) YV.param YV.callee yAcc ySel (fun _ => false) (fun _ => (0 : Int)) (fun _ => [(1000 : Int)]) (yP F) 0

/-- all hypotheses of `C77_tailCallEliminate` hold for a function that passes two checks that can be run -/
theorem y_pass {bs : List (Nat × Block XOp Int)} (h1 : properB (mk bs) = true) (h2 : fnOkB YV ySig 0 (mk bs) = true) :
    ProgOk YV ySig (yQ (mk bs)) ∧ (∀ d g vs m v m' es, YV.call (yP (mk bs)) d g vs m = .ok v m' es → YV.call (yQ (mk bs)) d g vs m = .ok v m' es) ∧
    ((∀ F B i, yP (mk bs) 0 = some F → F.blk F.entry = some B → i ∈ B.body → YV.callee i.op ≠ some 0) →
      ∀ d g vs m, YV.call (yP (mk bs)) d g vs m ≠ .ub → YV.call (yQ (mk bs)) d g vs m = YV.call (yP (mk bs)) d g vs m) := by
  have W : LiveWf (mk bs : Y.F) := (mk_proper _ h1).1.liveWf_of_allLive (L := Y) (mk_proper _ h1).2
  refine C77_tailCallEliminate YV ySig ySel yAcc (fun _ _ => True) yMul (fun _ => false) (fun _ => (0 : Int)) (fun _ => [(1000 : Int)]) (yP (mk bs)) 0 y_lang (fun _ => rfl) ?_ y_args ?_ (fun _ _ => y_typed _ _)
  · intro f F hF
    match f with
    | 0 => cases hF; exact fnOk_of W h2 (fun h => by simp [ySig] at h)
    | _ + 1 => cases hF
  · intro F _ _ q T _ i _ _; exact y_lifts i.op

/-- `int fact(int n) { if(n < 1) return 1; return n * fact(n - 1); }` -/
def fact : Func XOp Int := mk
  [(0, ⟨[], [⟨10, .lt, [.cst 1000, .cst 1]⟩], .cbr (.inst 10) 1 2⟩),
   (1, ⟨[], [], .ret (some (.cst 1))⟩),
   (2, ⟨[], [⟨11, .add, [.cst 1000, .cst (-1)]⟩, ⟨12, self, [.inst 11]⟩, ⟨13, .mul, [.cst 1000, .inst 12]⟩], .ret (some (.inst 13))⟩)]

/-- a loop now: block 3 is the new entry, block 0 has a phi for the accumulator and one for the parameter, the return of 1 goes through the accumulator -/
theorem fact_after : (yQ fact 0).map look = some [(3, [], [], [0]), (0, [[3, 2], [3, 2]], [10], [1, 2]), (1, [], [19], []), (2, [], [11, 13], [0])] := by decide +kernel

/-- a call semantics that knows one call -/
def yonly (a r : Int) (es : List Int) : CallSem Y := fun f (vs : List Int) m => if f = 0 ∧ vs = [a] then .ok r m es else .ub

/-- one level of a recursion -/
theorem y_level {F : Func XOp Int} {d : Nat} {a r a' r' : Int} {es es' : List Int} (h : ∀ m, YV.call (yP F) d 0 [a'] m = .ok r' m es')
    (he : ∀ m, Ends (YV.lang (yonly a' r' es') [a]) F (YV.enter m) (.ret (some r) (YV.enter m) es)) : ∀ m, YV.call (yP F) (d + 1) 0 [a] m = .ok r m es := by
  intro m
  have h1 := Conv.invoke_eq (V := YV) (he m)
  have h2 : YV.result (yonly a' r' es') [a] m (.ret (some r) (YV.enter m) es) = .ok r m es :=
    congrArg (fun m' => (Res.ok r m' es : Res Int (Int → Int) Int Unit)) (YV.leave_enter m)
  rw [h2] at h1
  show YV.invoke (YV.call (yP F) d) F [a] m = _
  rw [← h1]
  refine Conv.invoke_le ?_ (by rw [h1]; simp)
  intro f vs m hu
  unfold yonly at hu ⊢
  split at hu
  · rename_i hc
    obtain ⟨rfl, rfl⟩ := hc
    rw [if_pos ⟨rfl, rfl⟩]
    exact h m
  · exact absurd rfl hu

/-- the end of a recursion -/
theorem y_base {F : Func XOp Int} {d : Nat} {a r : Int} {es : List Int} (he : ∀ m, Ends (YV.lang (YV.call (yP F) d) [a]) F (YV.enter m) (.ret (some r) (YV.enter m) es)) :
    ∀ m, YV.call (yP F) (d + 1) 0 [a] m = .ok r m es := by
  intro m
  have h1 := Conv.invoke_eq (V := YV) (he m)
  show YV.invoke (YV.call (yP F) d) F [a] m = _
  rw [h1]
  exact congrArg (fun m' => (Res.ok r m' es : Res Int (Int → Int) Int Unit)) (YV.leave_enter m)

/-- before: 3! = 6, with four nested calls -/
theorem fact_3 (d : Nat) : ∀ m, YV.call (yP fact) (d + 4) 0 [(3 : Int)] m = .ok (6 : Int) m [] :=
  y_level (r := 6) (y_level (a := 2) (r := 2) (y_level (a := 1) (r := 1) (y_base (a := 0) (r := 1) (fun _ => ⟨2, rfl⟩)) (fun _ => ⟨2, rfl⟩)) (fun _ => ⟨2, rfl⟩)) (fun _ => ⟨2, rfl⟩)

/-- after: the same, by `C77_tailCallEliminate` -/
theorem fact_after_3 (d : Nat) (m : Int → Int) : YV.call (yQ fact) (d + 4) 0 [(3 : Int)] m = .ok (6 : Int) m [] :=
  (y_pass (by decide +kernel) (by decide +kernel)).2.1 _ _ _ _ _ _ _ (fact_3 d m)

/-- `int down(int n) { int r; if(n < 1) r = 7; else { print(n); r = down(n - 1); } return r; }`: the return is behind a phi -/
def down : Func XOp Int := mk
  [(0, ⟨[], [⟨10, .lt, [.cst 1000, .cst 1]⟩], .cbr (.inst 10) 1 2⟩),
   (1, ⟨[], [], .br 3⟩),
   (2, ⟨[], [⟨11, .print, [.cst 1000]⟩, ⟨12, .add, [.cst 1000, .cst (-1)]⟩, ⟨13, self, [.inst 12]⟩], .br 3⟩),
   (3, ⟨[⟨14, [(1, .cst 7), (2, .inst 13)]⟩], [], .ret (some (.inst 14))⟩)]

/-- the call is gone; the phi in front of the return has lost the source 2, and 2 jumps back to 0 -/
theorem down_after : (yQ down 0).map look = some [(4, [], [], [0]), (0, [[4, 2]], [10], [1, 2]), (1, [], [], [3]), (2, [], [11, 12], [0]), (3, [[1]], [], [])] := by decide +kernel

theorem down_after_2 (d : Nat) (m : Int → Int) : YV.call (yQ down) (d + 3) 0 [(2 : Int)] m = .ok (7 : Int) m [(2 : Int), (1 : Int)] :=
  (y_pass (by decide +kernel) (by decide +kernel)).2.1 _ _ _ _ _ _ _
    (y_level (r := 7) (es := [2, 1]) (y_level (a := 1) (r := 7) (es := [1]) (y_base (a := 0) (r := 7) (es := []) (fun _ => ⟨3, rfl⟩)) (fun _ => ⟨3, rfl⟩)) (fun _ => ⟨3, rfl⟩) m)

/-- `int firstOf(int n) { if(n < 1) return 0; print(n); firstOf(n - 1); return n + 5; }`: the value of the call is not used -/
def firstOf : Func XOp Int := mk
  [(0, ⟨[], [⟨10, .lt, [.cst 1000, .cst 1]⟩], .cbr (.inst 10) 1 2⟩),
   (1, ⟨[], [], .ret (some (.cst 0))⟩),
   (2, ⟨[], [⟨11, .print, [.cst 1000]⟩, ⟨12, .add, [.cst 1000, .cst (-1)]⟩, ⟨13, .add, [.cst 1000, .cst 5]⟩, ⟨14, self, [.inst 12]⟩], .ret (some (.inst 13))⟩)]

/-- two more phis and a select in front of the jump back and of the return: the value of the first round is kept -/
theorem firstOf_after : (yQ firstOf 0).map look = some [(3, [], [], [0]), (0, [[3, 2], [3, 2], [3, 2]], [10], [1, 2]), (1, [], [20], []), (2, [], [11, 12, 13, 22], [0])] := by decide +kernel

theorem firstOf_after_2 (d : Nat) (m : Int → Int) : YV.call (yQ firstOf) (d + 3) 0 [(2 : Int)] m = .ok (7 : Int) m [(2 : Int), (1 : Int)] :=
  (y_pass (by decide +kernel) (by decide +kernel)).2.1 _ _ _ _ _ _ _
    (y_level (r := 7) (es := [2, 1]) (y_level (a := 1) (r := 6) (es := [1]) (y_base (a := 0) (r := 0) (es := []) (fun _ => ⟨2, rfl⟩)) (fun _ => ⟨2, rfl⟩)) (fun _ => ⟨2, rfl⟩) m)

/-- `int forever(int n) { print(n); return forever(n); }` -/
def forever : Func XOp Int := mk [(0, ⟨[], [⟨10, .print, [.cst 1000]⟩, ⟨11, self, [.cst 1000]⟩], .ret (some (.inst 11))⟩)]

/-- the call in the entry block is replaced by `unreachable`: what the function printed may be lost (it never returns) -/
theorem forever_after : (yQ forever 0).map look = some [(0, [], [10], [])] := by decide +kernel

end Cmmc.SSA.Ex
