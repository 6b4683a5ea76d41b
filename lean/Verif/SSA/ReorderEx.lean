import Verif.SSA.CutEx
import Verif.SSA.ReorderMain
/-!
# C78 on concrete functions
-/
namespace Cmmc.SSA.Ex
open Cmmc.SSA

/-- arithmetic can be moved -/
def rmov : XOp → Bool
  | .add | .mul | .lt => true
  | _ => false

/-- sums and products are commutative -/
def rcomm : XOp → Option XOp
  | .add => some .add
  | .mul => some .mul
  | _ => none

/-- hypotheses of `C78_instReorder` -/
theorem r_movable : Movable X rmov := by
  intro op hop vs
  cases op <;> simp only [rmov, Bool.false_eq_true] at hop <;> rcases vs with _ | ⟨a, _ | ⟨b, _ | _⟩⟩ <;> first | exact .inl (fun _ => rfl) | exact .inr ⟨_, fun _ => rfl⟩

theorem r_comm : ∀ op op', rcomm op = some op' → ∀ (a b : Int) (m : Int → Int), xsem op' [b, a] m = xsem op [a, b] m := by
  intro op op' h a b m
  cases op <;> cases h
  · show Res.ok (b + a) m [] = Res.ok (a + b) m []; rw [Int.add_comm]
  · show Res.ok (b * a) m [] = Res.ok (a * b) m []; rw [Int.mul_comm]

/-- `do { t = 3 * i; u = t + i; print(i); print(u); i = 1 + i; } while(i < 2); return i;`, scheduled badly -/
def tangle : Func XOp Int := mk
  [(0, ⟨[], [], .br 1⟩),
   (1, ⟨[⟨10, [(0, .cst 0), (1, .inst 15)]⟩],
        [⟨11, .mul, [.cst 3, .inst 10]⟩, ⟨12, .add, [.inst 11, .inst 10]⟩, ⟨13, .print, [.inst 10]⟩, ⟨14, .print, [.inst 12]⟩, ⟨15, .add, [.cst 1, .inst 10]⟩, ⟨16, .lt, [.inst 15, .cst 2]⟩],
        .cbr (.inst 16) 1 2⟩),
   (2, ⟨[], [], .ret (some (.inst 15))⟩)]

theorem tangle_wf : LiveWf (tangle : X.F) := (mk_proper _ (by decide +kernel)).1.liveWf_of_allLive (L := X) (mk_proper _ (by decide +kernel)).2

theorem tangle_order (b : Nat) (B : Block XOp Int) (hB : tangle.blk b = some B) : InOrder B :=
  tangle_wf.inOrder b B hB ((mk_proper _ (by decide +kernel)).2 b B hB)

/-- the pass, with the last or the first node of the queue taken first -/
def tangled (last : Bool) : Func XOp Int := instReorder (C := X.C) rmov (fun _ => false) (fun _ q => if last then q.length - 1 else 0) rcomm (fun _ => none) 0 tangle

/-- the first `print` is now in front of the product; `3 * i` has become `i * 3` -/
theorem tangle_after : ((tangled true).blk 1).map (fun B => B.body.map (fun i => (i.id, i.args))) =
    some [(13, [.inst 10]), (11, [.inst 10, .cst 3]), (12, [.inst 10, .inst 11]), (14, [.inst 12]), (15, [.inst 10, .cst 1]), (16, [.inst 15, .cst 2])] := by decide +kernel

/-- now the increment is early and the comparison is between the two `print` -/
theorem tangle_after' : ((tangled false).blk 1).map (fun B => B.body.map (fun i => (i.id, i.args))) =
    some [(11, [.inst 10, .cst 3]), (15, [.inst 10, .cst 1]), (12, [.inst 10, .inst 11]), (13, [.inst 10]), (16, [.inst 15, .cst 2]), (14, [.inst 12])] := by decide +kernel

/-- it prints 0 0 1 4 before … -/
theorem tangle_prints (m : Int → Int) : Ends X tangle m (out 2 m [0, 0, 1, 4]) := ⟨4, rfl⟩

/-- … and after the pass, by `C78_instReorder` -/
theorem tangle_reordered (last : Bool) (m : Int → Int) : Ends X (tangled last) m (out 2 m [0, 0, 1, 4]) :=
  (C78_instReorder X rmov (fun _ => false) (fun _ q => if last then q.length - 1 else 0) rcomm (fun _ => none) 0 r_movable r_comm tangle tangle_wf tangle_order (fun _ _ _ _ _ h => by cases h)).2.1 m _ _ _ (tangle_prints m)

/-! ## calls that do not come back

Divisions count as movable (`isMovableExpr(inst, false)`): the pass may move a division by zero in front of a call of a function that does not come back. -/

/-- `mul` is a division here -/
def zsem : XOp → List Int → (Int → Int) → Res Int (Int → Int) Int Unit
  | .mul, [a, b], m => if b = 0 then .ub else .ok (a / b) m []
  | op, vs, m => xsem op vs m

def Z : Lang := { X with sem := zsem }

theorem z_div (a b : Int) : (∀ m, zsem .mul [a, b] m = .ub) ∨ ∃ v, ∀ m, zsem .mul [a, b] m = .ok v m [] := by
  by_cases hb : b = 0
  · exact .inl (fun m => if_pos hb)
  · exact .inr ⟨_, fun m => if_neg hb⟩

theorem z_movable : Movable Z rmov := by
  intro op hop vs
  cases op <;> simp only [rmov, Bool.false_eq_true] at hop <;> rcases vs with _ | ⟨a, _ | ⟨b, _ | _⟩⟩ <;>
    first
    | exact .inl (fun _ => rfl)
    | exact .inr ⟨_, fun _ => rfl⟩
    | exact z_div a b

/-- `exit(); return 1 / 0;` -/
def exits : Func XOp Int := mk [(0, ⟨[], [⟨10, .exit, []⟩, ⟨11, .mul, [.cst 1, .cst 0]⟩], .ret (some (.inst 11))⟩)]

def exits' : Func XOp Int := instReorder (C := Z.C) rmov (fun _ => false) (fun _ _ => 0) (fun _ => none) (fun _ => none) 0 exits

deriving instance DecidableEq for Phi, Inst, Term, Block

theorem exits_after : exits'.blk 0 = some (⟨[], [⟨11, .mul, [.cst 1, .cst 0]⟩, ⟨10, .exit, []⟩], .ret (some (.inst 11))⟩ : Block XOp Int) := by decide +kernel

/-- **the last part of C78 needs its hypothesis**: the program that left by `exit` divides by zero after the pass -/
theorem exits_wrong : (∀ m, Ends Z exits m (.halt () [])) ∧ (∀ m, Ends Z exits' m .ub) := by
  have h : ∀ (F : Z.F) (m : Z.M), F.entry = 0 → F.blk 0 = some (⟨[], [⟨11, XOp.mul, [.cst (1 : Int), .cst (0 : Int)]⟩, ⟨10, XOp.exit, []⟩], .ret (some (.inst 11))⟩ : Block XOp Int) → Ends Z F m .ub := by
    intro F m he hb
    refine ⟨1, ?_⟩
    rw [run_one]
    unfold step start
    simp only [he]
    rw [hb]
    rfl
  exact ⟨fun _ => ⟨1, rfl⟩, fun m => h exits' m rfl exits_after⟩

end Cmmc.SSA.Ex
