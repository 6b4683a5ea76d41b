import Verif.SSA.ScevEx
import Verif.SSA.Licm
/-!
# C91 on concrete functions
-/
namespace Cmmc.SSA.Ex
open Cmmc.SSA

/-- 32-bit arithmetic; `load` is a signed division, and nothing else -/
def d32sem : XOp → List Int → (Int → Int) → Res Int (Int → Int) Int Unit
  | .add, [a, b], m => .ok (wrap32 (a + b)) m []
  | .mul, [a, b], m => .ok (wrap32 (a * b)) m []
  | .load, [a, b], m => if b = 0 then .ub else .ok (wrap32 (a.tdiv b)) m []
  | .load, _, _ => .ub
  | op, vs, m => xsem op vs m

def D32 : Lang := { X with sem := d32sem, cval := wrap32 }

def dOps : LoopOps D32 where
  int _ z := wrap32 z
  num c := some (32, c)
  isAdd := fun (op : XOp) => decide (op = XOp.add)
  isMul := fun (op : XOp) => decide (op = XOp.mul)
  num_val := by intro c w z h; cases h; rfl
  add_sem := by
    intro (op : XOp) w a b m h
    have : op = XOp.add := of_decide_eq_true h
    subst this
    show Res.ok (wrap32 (wrap32 a + wrap32 b)) m [] = Res.ok (wrap32 (a + b)) m []
    unfold wrap32; rw [Int.add_bmod_bmod, Int.bmod_add_bmod]
  mul_sem := by
    intro (op : XOp) w a b m h
    have : op = XOp.mul := of_decide_eq_true h
    subst this
    show Res.ok (wrap32 (wrap32 a * wrap32 b)) m [] = Res.ok (wrap32 (a * b)) m []
    unfold wrap32; rw [Int.mul_bmod_bmod, Int.bmod_mul_bmod]
  isDiv := fun (op : XOp) => decide (op = XOp.load)
  cmp := fun (op : XOp) => if op = XOp.lt then some .slt else none

/-- what may be moved: arithmetic, comparisons and divisions -/
def dMov (op : XOp) : Bool := decide (op = XOp.add) || decide (op = XOp.mul) || decide (op = XOp.lt) || decide (op = XOp.load)

attribute [local irreducible] wrap32 in
theorem dMov_movable : Movable D32 dMov := by
  intro (op : XOp) h (vs : List Int)
  cases op <;> first | (exact absurd h (by decide)) | skip
  case load =>
    match vs with
    | [a, b] =>
      by_cases hb : b = 0
      · exact .inl fun m => if_pos hb
      · exact .inr ⟨wrap32 (a.tdiv b), fun m => if_neg hb⟩
    | [] => exact .inl fun _ => rfl
    | [_] => exact .inl fun _ => rfl
    | _ :: _ :: _ :: _ => exact .inl fun _ => rfl
  all_goals
    match vs with
    | [a, b] => exact .inr ⟨_, fun _ => rfl⟩
    | [] => exact .inl fun _ => rfl
    | [_] => exact .inl fun _ => rfl
    | _ :: _ :: _ :: _ => exact .inl fun _ => rfl

/-- the pass on the examples -/
def dLicm (F : Func XOp Int) : Option (Func XOp Int) := LoopOps.licm (L := D32) dOps dMov idOrders F

/-- `x = 100; y = 7; i = 0; do { print(i); d = x / y; i = i + 14; p = x * y; } while(i < 20); return p + d;` -/
def divs : Func XOp Int := mk
  [(0, ⟨[], [⟨20, .add, [.cst 90, .cst 10]⟩, ⟨21, .add, [.cst 3, .cst 4]⟩], .br 1⟩),
   (1, ⟨[⟨10, [(0, .cst 0), (1, .inst 12)]⟩],
        [⟨17, .print, [.inst 10]⟩, ⟨15, .load, [.inst 20, .inst 21]⟩, ⟨12, .add, [.inst 10, .cst 14]⟩, ⟨16, .mul, [.inst 20, .inst 21]⟩, ⟨14, .lt, [.inst 12, .cst 20]⟩],
        .cbr (.inst 14) 1 2⟩),
   (2, ⟨[], [⟨30, .add, [.inst 16, .inst 15]⟩], .ret (some (.inst 30))⟩)]

theorem divs_wf : LiveWf (divs : D32.F) ∧ AllLive (divs : D32.F) := wf_of _ (by decide +kernel)

/-- the division and the product are moved to the new block 3; the phi of the loop has a value from there -/
theorem divs_licm : (dLicm divs).map look = some [(0, [], [20, 21], [3]), (1, [[1, 3]], [17, 12, 14], [1, 2]), (2, [], [30], []), (3, [[0]], [15, 16], [1])] := by decide +kernel

attribute [local irreducible] wrap32 in
theorem dNoHalt_of (op : XOp) (h : op ≠ XOp.exit) : NoHalt D32 op := by
  intro (vs : List Int) m es hh
  cases op <;> first | exact absurd rfl h | skip
  case load =>
    match vs with
    | [a, b] =>
      show (if b = 0 then Res.ub else Res.ok (wrap32 (a.tdiv b)) m []) ≠ _
      split <;> (intro h; cases h)
    | [] => intro h; cases h
    | [_] => intro h; cases h
    | _ :: _ :: _ :: _ => intro h; cases h
  case store =>
    match vs with
    | [a, b] =>
      show (if a < 0 then Res.ub else Res.ok (0 : Int) (fun q => if q = a then b else m q) []) ≠ _
      split <;> (intro h; cases h)
    | [] => intro h; cases h
    | [_] => intro h; cases h
    | _ :: _ :: _ :: _ => intro h; cases h
  all_goals
    match vs with
    | [] => intro h; cases h
    | [_] => intro h; cases h
    | [_, _] => intro h; cases h
    | _ :: _ :: _ :: _ => intro h; cases h

/-- a function without `exit` -/
theorem hoistable_of (bs : List (Nat × Block XOp Int)) (h : (mk bs).blocks.all (fun B => B.body.all (fun i => !(decide (i.op = XOp.exit)))) = true) :
    ∀ b B i, (mk bs).blk b = some B → Hoistable D32 B i := by
  intro b B i hB
  rw [List.all_eq_true] at h
  have := h B ((mk_listed bs).mem hB)
  rw [List.all_eq_true] at this
  refine .inr ?_
  intro pre post he j hj
  have hj' : j ∈ B.body := by rw [show B.body = pre ++ i :: post from he]; exact List.mem_append_left _ hj
  exact dNoHalt_of j.op (by simpa using this j hj')

/-- C91 applies … -/
theorem divs_ok : ∃ G, dLicm divs = some G ∧ LiveWf (G : D32.F) ∧ AllLive (G : D32.F) ∧ Refines D32 divs G ∧ G.entry = divs.entry :=
  C91_licm_partial dOps dMov_movable idOrders divs_wf.1 divs_wf.2 (fun b B i hB _ _ _ _ => hoistable_of _ (by decide +kernel) b B i hB)

/-- … and both functions print 0, 14 and return 714 -/
theorem divs_run (m : Int → Int) : Ends D32 divs m (.ret (some (714 : Int)) m ([0, 14] : List Int)) ∧ ∃ G, dLicm divs = some G ∧ Ends D32 G m (.ret (some (714 : Int)) m ([0, 14] : List Int)) := by
  have h0 : Ends D32 divs m (.ret (some (714 : Int)) m ([0, 14] : List Int)) := ⟨4, by with_unfolding_all rfl⟩
  obtain ⟨G, h1, _, _, h2, _⟩ := divs_ok
  exact ⟨h0, G, h1, (h2 m).1 _ h0 (by simp)⟩

/-! ## an instruction that ends the program

`isMovable` looks at the instruction that is moved, not at what is in front of it. -/

/-- `x = 0; i = 0; do { exit(); d = 5 / x; i = i + 1; } while(i < 4); return d;` -/
def exitDiv : Func XOp Int := mk
  [(0, ⟨[], [⟨20, .add, [.cst 0, .cst 0]⟩], .br 1⟩),
   (1, ⟨[⟨10, [(0, .cst 0), (1, .inst 12)]⟩], [⟨17, .exit, []⟩, ⟨15, .load, [.cst 5, .inst 20]⟩, ⟨12, .add, [.inst 10, .cst 1]⟩, ⟨14, .lt, [.inst 12, .cst 4]⟩], .cbr (.inst 14) 1 2⟩),
   (2, ⟨[], [], .ret (some (.inst 15))⟩)]

/-- whether the run of `k` blocks fails -/
def divFails (F : Func XOp Int) (k : Nat) : Bool := match run D32 F k (start D32 F (fun _ => (0 : Int))) with | .inr .ub => true | _ => false

theorem exitDiv_wf : LiveWf (exitDiv : D32.F) ∧ AllLive (exitDiv : D32.F) := wf_of _ (by decide +kernel)

/-- the function ends with `exit`; the result of the pass divides by zero before -/
theorem exitDiv_wrong : (dLicm exitDiv).map look = some [(0, [], [20], [3]), (1, [[1, 3]], [17, 12, 14], [1, 2]), (2, [], [], []), (3, [[0]], [15], [1])] ∧
    (∀ m, run D32 exitDiv 2 (start D32 exitDiv m) = .inr (.halt () [])) ∧ (dLicm exitDiv).map (fun G => divFails G 2) = some true :=
  ⟨by decide +kernel, fun _ => rfl, by decide +kernel⟩

/-- so C91 is false without the condition on the instructions in front -/
theorem exitDiv_not : ∃ G, dLicm exitDiv = some G ∧ ¬ Refines D32 exitDiv G := by
  obtain ⟨_, h1, h2⟩ := exitDiv_wrong
  cases hG : dLicm exitDiv with
  | none => rw [hG] at h2; cases h2
  | some G =>
    refine ⟨G, rfl, fun hr => ?_⟩
    rw [hG] at h2
    have h2 : divFails G 2 = true := by simpa using h2
    obtain ⟨k, hk⟩ := (hr (fun _ => (0 : Int))).1 _ ⟨2, h1 _⟩ (by simp)
    unfold divFails at h2
    split at h2
    · rename_i hub
      exact absurd (run_det hub hk) (by simp)
    · cases h2

end Cmmc.SSA.Ex
