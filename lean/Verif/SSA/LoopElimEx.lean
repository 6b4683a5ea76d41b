import Verif.SSA.ScevEx
import Verif.SSA.LoopElim
/-!
# C90 on concrete functions
-/
namespace Cmmc.SSA.Ex
open Cmmc.SSA

/-- arithmetic and comparison of the examples -/
def wPure (op : XOp) : Bool := decide (op = XOp.add) || decide (op = XOp.mul) || decide (op = XOp.lt)

attribute [local irreducible] wrap32 in
theorem wPure_movable : Movable W32 wPure := by
  intro (op : XOp) h (vs : List Int)
  cases op <;> first | (exact absurd h (by decide)) | skip
  all_goals
    match vs with
    | [a, b] => exact .inr ⟨_, fun _ => rfl⟩
    | [] => exact .inl fun _ => rfl
    | [_] => exact .inl fun _ => rfl
    | _ :: _ :: _ :: _ => exact .inl fun _ => rfl

/-- 32-bit integers -/
def wExit : ExitOps W32 :=
  { wOps with
    pure := wPure
    movable := wPure_movable
    add_pure := by intro (op : XOp) h; have : op = XOp.add := of_decide_eq_true h; subst this; rfl
    cmp_pure := by
      intro (op : XOp) pr h
      by_cases e : op = XOp.lt
      · subst e; rfl
      · have : (if op = XOp.lt then some ICmp.slt else none) = some pr := h
        simp [e] at this
    cmp_sem := by
      rintro (op : XOp) pr w a b m v m' es ⟨c, z, hw⟩ h hs r hr
      cases hw
      have h' : (if op = XOp.lt then some ICmp.slt else none) = some pr := h
      by_cases e : op = XOp.lt
      · subst e
        have h' : some ICmp.slt = some pr := h'
        cases h'
        have hs' : Res.ok (if wrap32 a < wrap32 b then (1 : Int) else 0) m ([] : List Int) = (Res.ok v m' es : Res Int (Int → Int) Int Unit) := hs
        injection hs' with e1 e2 e3
        rw [← e1]
        have hr' : some (decide (wrap32 a < wrap32 b)) = some r := hr
        rw [← hr']
        show some (decide ((if wrap32 a < wrap32 b then (1 : Int) else 0) ≠ 0)) = _
        by_cases hlt : wrap32 a < wrap32 b
        · rw [if_pos hlt, decide_eq_true hlt]; rfl
        · rw [if_neg hlt, decide_eq_false hlt]; rfl
      · simp [e] at h'
    no := (0 : Int)
    no_false := by decide }

/-- `i = 7; do { s = i * i; i = i + 2; } while(i < 9); return s;` -/
def oneTrip : Func XOp Int := mk
  [(0, ⟨[], [], .br 1⟩),
   (1, ⟨[⟨10, [(0, .cst 7), (1, .inst 12)]⟩],
        [⟨11, .mul, [.inst 10, .inst 10]⟩, ⟨12, .add, [.inst 10, .cst 2]⟩, ⟨14, .lt, [.inst 12, .cst 9]⟩],
        .cbr (.inst 14) 1 2⟩),
   (2, ⟨[], [], .ret (some (.inst 11))⟩)]

theorem oneTrip_wf : LiveWf (oneTrip : W32.F) := (wf_of _ (by decide +kernel)).1

/-- the conditions of the branches -/
def conds (F : Func XOp Int) : List (Option (Bool × Int)) :=
  F.blocks.map (fun B => match B.term with | .cbr (.cst c) _ _ => some (false, c) | .cbr (.inst x) _ _ => some (true, (x : Int)) | _ => none)

/-- the condition becomes `false` -/
theorem oneTrip_elim : (wExit.loopEliminate idOrders oneTrip).map conds = some [none, some (false, 0), none] := by decide +kernel

theorem wCmpTyped (F : Func XOp Int) : CmpTyped (L := W32) wExit.toLoopOps F (fun _ => 32) := by
  intro b B i pr o1 o2 _ _ _ _ t1 t2 h1 h2
  have go : ∀ (o : Opd Int) t, Arith.oty (L := W32) wArith (fun _ => 32) o = some t → t = 32 := by
    intro o t h
    cases o <;> simp [Arith.oty, wArith] at h <;> exact h.symm
  rw [go o1 t1 h1, go o2 t2 h2]

/-- C90 applies … -/
theorem oneTrip_ok : ∃ G, wExit.loopEliminate idOrders oneTrip = some G ∧ LiveWf (G : W32.F) ∧ Refines W32 oneTrip G := by
  refine C90_loopEliminate_partial wExit oneTrip_wf (typed_of oneTrip) (wCmpTyped oneTrip) idOrders ?_
  intro t ht
  have hls : (wLoops oneTrip).map (fun ls => ls.map (fun l => (l.initial, l.bound, l.step))) = some [(.cst 7, .cst 9, 2)] := by decide +kernel
  have hls2 : wLoops oneTrip = some (wOps.loops oneTrip t) := congrArg (Option.map (wOps.loops oneTrip)) ht
  rw [hls2] at hls
  intro li hli _ c0 c1 w w1 iv bv h1 h2 h3 h4
  have hm : (li.initial, li.bound, li.step) ∈ ((wOps.loops oneTrip t).map (fun l => (l.initial, l.bound, l.step)) : List (Opd Int × Opd Int × Int)) := List.mem_map_of_mem hli
  have hls := Option.some.inj hls
  rw [show ((wOps.loops oneTrip t).map (fun l => (l.initial, l.bound, l.step)) : List (Opd Int × Opd Int × Int)) = _ from hls] at hm
  have hm := List.mem_singleton.1 hm
  injection hm with e1 hm
  injection hm with e2 e3
  rw [e1] at h1
  rw [e2] at h3
  cases h1; cases h3; cases h2; cases h4
  rw [e3]
  exact ⟨by unfold Fits; decide, by unfold Fits; decide⟩

/-- … and both functions return 49 -/
theorem oneTrip_run (m : Int → Int) : Ends W32 oneTrip m (.ret (some (49 : Int)) m []) ∧ ∃ G, wExit.loopEliminate idOrders oneTrip = some G ∧ Ends W32 G m (.ret (some (49 : Int)) m []) := by
  refine ⟨⟨3, rfl⟩, ?_⟩
  obtain ⟨G, h1, _, h2⟩ := oneTrip_ok
  exact ⟨G, h1, (h2 m).1 _ ⟨3, rfl⟩ (by simp)⟩

/-! ## wraparound

`initial + loop.step` is computed with 64 bits (LoopEliminate.cpp:43). -/

/-- `i = 2147483647; do { i = i + 1; } while(i < -2147483647); return i;` -/
def wraps : Func XOp Int := mk
  [(0, ⟨[], [], .br 1⟩),
   (1, ⟨[⟨10, [(0, .cst 2147483647), (1, .inst 12)]⟩], [⟨12, .add, [.inst 10, .cst 1]⟩, ⟨14, .lt, [.inst 12, .cst (-2147483647)]⟩], .cbr (.inst 14) 1 2⟩),
   (2, ⟨[], [], .ret (some (.inst 12))⟩)]

def wrapsAfter : Func XOp Int := Func.never wraps (0 : Int) 1

/-- the loop is executed twice, but the pass ends it after the first iteration: the result changes from -2147483647 to -2147483648 -/
theorem wraps_wrong (m : Int → Int) : (wExit.loopEliminate idOrders wraps).map conds = some [none, some (false, 0), none] ∧ (wExit.loopEliminate idOrders wraps).map look = some (look wrapsAfter) ∧
    run W32 wraps 4 (start W32 wraps m) = .inr (.ret (some (-2147483647 : Int)) m []) ∧ run W32 wrapsAfter 3 (start W32 wrapsAfter m) = .inr (.ret (some (-2147483648 : Int)) m []) :=
  ⟨by decide +kernel, by decide +kernel, rfl, rfl⟩

end Cmmc.SSA.Ex
