import Verif.SSA.ToSelectMain
import Verif.SSA.SinkEx
/-!
# C80 on a concrete function
-/
namespace Cmmc.SSA.Ex
open Cmmc.SSA

/-- the example language with `mul` as `select` and `exit` as the allocation of the cell at address 5 -/
def bsem : XOp → List Int → (Int → Int) → Res Int (Int → Int) Int Unit
  | .add, [a, b], m => .ok (a + b) m []
  | .lt, [a, b], m => .ok (if a < b then 1 else 0) m []
  | .mul, [c, a, b], m => .ok (if c ≠ 0 then a else b) m []
  | .load, [p], m => if p < 0 then .ub else .ok (m p) m []
  | .store, [p, v], m => if p < 0 then .ub else .ok 0 (fun q => if q = p then v else m q) []
  | .print, [v], m => .ok 0 m [v]
  | .exit, [], m => .ok 5 m []
  | _, _, _ => .ub

def BL : Lang where
  V := Int
  M := Int → Int
  E := Int
  H := Unit
  Op := XOp
  C := Int
  decOp := inferInstance
  decC := inferInstance
  cval := id
  sem := bsem
  truth := fun v => some (decide (v ≠ 0))
  key := some

/-- constants from 1000 on are addresses of globals -/
def bP : B2S XOp Int where
  sel := .mul
  risky := fun | .store | .print => true | _ => false
  isLoad := fun | .load => true | _ => false
  isAlloc := fun | .exit => true | _ => false
  isGlobal := fun c => decide (1000 ≤ c)

def bar : XOp → Nat
  | .add | .lt | .store => 2
  | .mul => 3
  | .load | .print => 1
  | .exit => 0

theorem b_lang : B2SLang BL bP (fun (v : Int) _ => 0 ≤ v) bar where
  pure op vs m h1 h2 h3 hl := by
    cases op with
    | add => obtain ⟨x, y, rfl⟩ := List.length_eq_two.1 hl; exact ⟨_, rfl⟩
    | lt => obtain ⟨x, y, rfl⟩ := List.length_eq_two.1 hl; exact ⟨_, rfl⟩
    | mul => obtain ⟨x, y, z, rfl⟩ := List.length_eq_three.1 hl; exact ⟨_, rfl⟩
    | load => cases h1
    | store => cases h2
    | print => cases h2
    | exit => cases h3
  load op v m h hv := by
    cases op <;> try cases h
    refine ⟨m v, ?_⟩
    show bsem .load [v] m = _
    simp only [bsem]
    rw [if_neg (Int.not_lt.2 hv)]
    rfl
  loadAr op h := by cases op <;> first | rfl | cases h
  loadNot op h := by cases op <;> first | rfl | cases h
  glob := fun (c : Int) m h => by
    have h : (1000 : Int) ≤ c := of_decide_eq_true h
    show (0 : Int) ≤ c
    omega
  alloc op vs m v m' es h hs := by
    cases op <;> try cases h
    cases vs with
    | nil => cases hs; decide
    | cons => cases hs
  keep op vs m v m' es u _ h := h
  sel := fun (c : Int) t v w m h => by
    have h : decide (c ≠ (0 : Int)) = t := Option.some.inj h
    subst h
    show bsem .mul [c, v, w] m = _
    by_cases hc : c = 0
    · subst hc; rfl
    · simp only [bsem, ne_eq, hc, not_false_eq_true, if_true, decide_true]; rfl
  selAr := rfl

/-- `int x = 3 (at address 5); int y = 7, z = 1; if(x < 4) { y = x + 1; z = c; } print(y); return y + z;`: the branch over block 1 becomes two selects -/
def guarded : Func XOp Int := mk
  [(0, ⟨[], [⟨10, .exit, []⟩, ⟨11, .store, [.inst 10, .cst 3]⟩, ⟨12, .lt, [.cst 3, .cst 4]⟩], .cbr (.inst 12) 1 2⟩),
   (1, ⟨[], [⟨13, .load, [.inst 10]⟩, ⟨14, .add, [.inst 13, .cst 1]⟩], .br 2⟩),
   (2, ⟨[⟨15, [(0, .cst 7), (1, .inst 14)]⟩, ⟨16, [(1, .inst 12), (0, .cst 1)]⟩], [⟨17, .print, [.inst 15]⟩, ⟨18, .add, [.inst 15, .inst 16]⟩], .ret (some (.inst 18))⟩)]

theorem guarded_wf : LiveWf (guarded : BL.F) := (mk_proper _ (by decide +kernel)).1.liveWf_of_allLive (L := BL) (mk_proper _ (by decide +kernel)).2
theorem guarded_first : EntryFirst guarded := entryFirst_of _ (by decide +kernel)
theorem guarded_complete : PhiComplete guarded := PhiComplete.of_allLive (L := BL) guarded_wf (mk_proper _ (by decide +kernel)).2

theorem guarded_arity : Arity bar guarded := by
  have h : guarded.blocks.all (fun B => B.body.all (fun i => i.args.length == bar i.op)) = true := by decide +kernel
  intro b B i hB hi
  rw [List.all_eq_true] at h
  have := h B ((mk_listed _).mem hB)
  rw [List.all_eq_true] at this
  exact eq_of_beq (this i hi)

/-- the selects are 19 and 20 -/
theorem guarded_selected : (branch2Select bP true guarded).map look = some [(0, [], [10, 11, 12], [1]), (1, [], [13, 14, 19, 20], [2]), (2, [[1], [1]], [17, 18], [])] := by decide +kernel

/-- the operands of the selects -/
theorem guarded_operands : (((branch2Select bP true guarded).bind (fun G => G.blk 1)).map (fun B => B.body.map Inst.args)) =
    some [[.inst 10], [.inst 13, .cst 1], [.inst 12, .inst 14, .cst 7], [.inst 12, .inst 12, .cst 1]] := by decide +kernel

theorem guarded_same (m : Int → Int) : ∃ G m', branch2Select bP true guarded = some G ∧ Ends BL guarded m (.ret (some (5 : Int)) m' [(4 : Int)]) ∧ Ends BL G m (.ret (some (5 : Int)) m' [(4 : Int)]) := by
  obtain ⟨G, h1, _⟩ := (C80_branch2Select b_lang true guarded_wf guarded_first guarded_arity).2 guarded_complete
  have h : Ends BL guarded m (.ret (some (5 : Int)) (fun q : Int => if q = 5 then (3 : Int) else m q) [(4 : Int)]) := ⟨5, rfl⟩
  exact ⟨G, _, h1, h, (((C80_branch2Select b_lang true guarded_wf guarded_first guarded_arity).1 G h1).1 m).1 _ h nofun⟩

/-- a load from an address that is not known to be valid stays behind the branch -/
def unguarded : Func XOp Int := mk
  [(0, ⟨[], [⟨10, .add, [.cst (-3), .cst 1]⟩, ⟨12, .lt, [.cst 0, .inst 10]⟩], .cbr (.inst 12) 1 2⟩),
   (1, ⟨[], [⟨13, .load, [.inst 10]⟩], .br 2⟩),
   (2, ⟨[⟨15, [(0, .cst 7), (1, .inst 13)]⟩], [], .ret (some (.inst 15))⟩)]

theorem unguarded_kept : (branch2Select bP true unguarded).map look = some (look unguarded) := by decide +kernel

end Cmmc.SSA.Ex
