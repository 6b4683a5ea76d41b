import Verif.SSA.SinkEx
import Verif.SSA.ScevRun
/-!
# C88 on concrete functions
-/
namespace Cmmc.SSA.Ex
open Cmmc.SSA

/-- the `i32` representative -/
def wrap32 (z : Int) : Int := Int.bmod z (2 ^ 32)

/-- 32-bit arithmetic; `load` is a signed division here -/
def w32sem : XOp → List Int → (Int → Int) → Res Int (Int → Int) Int Unit
  | .add, [a, b], m => .ok (wrap32 (a + b)) m []
  | .mul, [a, b], m => .ok (wrap32 (a * b)) m []
  | .load, [a, b], m => if b = 0 then .ub else .ok (wrap32 (a.tdiv b)) m []
  | op, vs, m => xsem op vs m

def W32 : Lang := { X with sem := w32sem, cval := wrap32 }

/-- all integers of the examples have 32 bits -/
def wArith : Arith W32 where
  int _ z := wrap32 z
  num c := some (32, c)
  isAdd := fun (op : XOp) => decide (op = XOp.add)
  isMul := fun (op : XOp) => decide (op = XOp.mul)
  num_val := by intro c w z h; cases h; rfl
  add_sem := by
    intro (op : XOp) w a b m h
    have : op = XOp.add := of_decide_eq_true h
    subst this
    show Res.ok (wrap32 (wrap32 a + wrap32 b)) m [] = Res.ok (wrap32 (a + b)) m []
    unfold wrap32; rw [Int.add_bmod_bmod, Int.bmod_add_bmod]
  mul_sem := by
    intro (op : XOp) w a b m h
    have : op = XOp.mul := of_decide_eq_true h
    subst this
    show Res.ok (wrap32 (wrap32 a * wrap32 b)) m [] = Res.ok (wrap32 (a * b)) m []
    unfold wrap32; rw [Int.mul_bmod_bmod, Int.bmod_mul_bmod]

def wOps : LoopOps W32 := { wArith with isDiv := fun (op : XOp) => decide (op = XOp.load), cmp := fun (op : XOp) => if op = XOp.lt then some .slt else none }

def idOrders : Orders := ⟨fun _ l => l, fun _ l => l, fun _ l => l, fun _ _ => .refl _, fun _ _ => .refl _, fun _ _ => .refl _⟩

/-- `i = 3; do { s = i * i; i = i + 2; c = s * 5 + i; } while(i < 9); return s;` -/
def squares : Func XOp Int := mk
  [(0, ⟨[], [], .br 1⟩),
   (1, ⟨[⟨10, [(0, .cst 3), (1, .inst 12)]⟩],
        [⟨11, .mul, [.inst 10, .inst 10]⟩, ⟨12, .add, [.inst 10, .cst 2]⟩, ⟨15, .mul, [.inst 11, .cst 5]⟩, ⟨16, .add, [.inst 15, .inst 12]⟩, ⟨14, .lt, [.inst 12, .cst 9]⟩],
        .cbr (.inst 14) 1 2⟩),
   (2, ⟨[], [], .ret (some (.inst 11))⟩)]

theorem squares_wf : LiveWf (squares : W32.F) := (wf_of _ (by decide +kernel)).1

/-- the analysis of a function of the examples -/
def wLoops (F : Func XOp Int) : Option (List (LoopInfo Int)) := (F.dom idOrders).map (wOps.loops F)

def wTab (F : Func XOp Int) : Option ScevTab := (wLoops F).map (wOps.scev F)

/-- one loop, with header and latch 1 -/
theorem squares_loops : (wLoops squares).map (fun ls => ls.map (fun l => (l.header, l.latch, l.indvar, l.step))) = some [(1, 1, 10, 2)] := by decide +kernel

/-- `i = {3,+,2}`, `i*i = {9,+,16,+,8}`, `5*i*i + i + 2 = {50,+,82,+,40}` -/
theorem squares_tab : (wTab squares).map (fun t => [10, 11, 12, 16].map (fun x => (t.get x).bind Scev.flat)) =
    some [some (0, [3, 2]), some (0, [9, 16, 8]), some (0, [5, 2]), some (0, [50, 82, 40])] := by decide +kernel

theorem typed_of (F : Func XOp Int) : Typed wArith F (fun _ => 32) where
  op := by
    intro b B i _ _ _ o _ t h
    cases o <;> simp [Arith.oty, wArith] at h <;> exact h.symm
  phi := by
    intro b B p _ _ q o _ t h
    cases o <;> simp [Arith.oty, wArith] at h <;> exact h.symm

/-- no division in a function -/
theorem nodiv_of (bs : List (Nat × Block XOp Int)) (h : (mk bs).blocks.all (fun B => B.body.all (fun i => !(decide (i.op = XOp.load)))) = true) :
    ∀ b B i, (mk bs).blk b = some B → i ∈ B.body → wOps.isDiv i.op = false := by
  intro b B i hB hi
  rw [List.all_eq_true] at h
  have := h B ((mk_listed bs).mem hB)
  rw [List.all_eq_true] at this
  have h2 := this i hi
  rw [Bool.not_eq_true'] at h2
  exact h2

theorem squares_nodiv : ∀ b B i, squares.blk b = some B → i ∈ B.body → wOps.isDiv i.op = false := nodiv_of _ (by decide +kernel)

/-- a recurrence with constant operands, from `flat` -/
theorem flat_eq {e : Scev} {l : Nat} {cs : List Int} (h : e.flat = some (l, cs)) : e = .addRec (some l) (cs.map .const) := by
  cases e with
  | const _ => simp [Scev.flat] at h
  | addRec lo os =>
    cases lo with
    | none => simp [Scev.flat] at h
    | some lo =>
      simp only [Scev.flat, Option.map_eq_some_iff, Prod.mk.injEq] at h
      obtain ⟨cs', h1, h2, h3⟩ := h
      subst h2 h3
      congr 1
      clear * - h1
      induction os generalizing cs' with
      | nil => simp [Scev.consts] at h1; subst h1; rfl
      | cons o os ih =>
        cases o with
        | addRec _ _ => simp [Scev.consts] at h1
        | const z =>
          simp only [Scev.consts, Option.map_eq_some_iff] at h1
          obtain ⟨ds, h2, h3⟩ := h1
          subst h3
          rw [ih ds h2]; rfl

theorem wInt (w : Nat) (z : Int) : wOps.int w z = wrap32 z := rfl

attribute [local irreducible] wrap32 in
/-- by C88: whenever the loop block has been executed, in iteration `i`, the value of `i * i` is `9 + 16·i + 8·C(i,2)` modulo `2^32` -/
theorem squares_value (m : Int → Int) {n : Nat} {s s' : St W32} (hs : stAt W32 squares m n = some s) (hstep : SSA.step W32 squares s = .inl s') (hcur : s.cur = 1) :
    s'.env 11 = some (wrap32 (poly [9, 16, 8] (iterAt W32 squares m 1 1 n))) := by
  obtain ⟨ls, hls⟩ : ∃ ls, wLoops squares = some ls := by
    have := squares_loops
    cases h : wLoops squares with
    | none => rw [h] at this; simp at this
    | some ls => exact ⟨ls, rfl⟩
  have h1 := squares_loops
  have h2 := squares_tab
  unfold wTab at h2
  rw [hls] at h1 h2
  have h2 : ((wOps.scev squares ls).get 11).bind Scev.flat = some (0, [9, 16, 8]) := (List.cons.inj (List.cons.inj (Option.some.inj h2)).2).1
  have h1 := Option.some.inj h1
  obtain ⟨e, he, hfl⟩ : ∃ e, (wOps.scev squares ls).get 11 = some e ∧ e.flat = some (0, [9, 16, 8]) := by
    have := h2
    cases hh : (wOps.scev squares ls).get 11 with
    | none => rw [hh] at this; simp at this
    | some e => rw [hh] at this; exact ⟨e, rfl, this⟩
  have hd : DefIn squares 11 1 := ⟨_, rfl, by decide⟩
  cases ls with
  | nil => simp at h1
  | cons li ls =>
    simp only [List.map_cons, List.cons.injEq, Prod.mk.injEq] at h1
    have := (C88_scev_partial (L := W32) (O := wOps) squares_wf (typed_of squares) idOrders hls squares_nodiv hs hstep hd (by rw [hcur]; exact fun p hp => path_end hp) he).2 0 _ li (flat_eq hfl) rfl
    rw [h1.1.1, h1.1.2.1] at this
    exact this

/-- and it is executed: step 3 is the third iteration, in which `i = 7` and the value of `i * i` is 49 -/
theorem squares_run (m : Int → Int) : (stAt W32 squares m 4).map (fun s => ((s.env 11 : Option Int), (s.env 10 : Option Int))) = some (some 49, some 7) ∧ (stAt W32 squares m 3).map (fun s => s.cur) = some 1 ∧
    iterAt W32 squares m 1 1 3 = 2 ∧ poly [9, 16, 8] 2 = 49 := ⟨rfl, rfl, rfl, by decide +kernel⟩

/-! ## division

The rule for `sdiv` (SCEVAnalysis.cpp:288-320) divides the initial value and the increment. Division truncates towards zero, so this is wrong
when the initial value is not a multiple of the divisor and the signs change (and when the induction variable wraps around). -/

/-- `i = -1; do { q = i / 2; i = i + 2; } while(i < 9); return q;` -/
def halves : Func XOp Int := mk
  [(0, ⟨[], [], .br 1⟩),
   (1, ⟨[⟨10, [(0, .cst (-1)), (1, .inst 12)]⟩],
        [⟨11, .load, [.inst 10, .cst 2]⟩, ⟨12, .add, [.inst 10, .cst 2]⟩, ⟨14, .lt, [.inst 12, .cst 9]⟩],
        .cbr (.inst 14) 1 2⟩),
   (2, ⟨[], [], .ret (some (.inst 11))⟩)]

/-- the table says `i / 2 = {0,+,1}`; in the second iteration the value is 0, not 1 -/
theorem div_wrong (m : Int → Int) : (wTab halves).map (fun t => (t.get 11).bind Scev.flat) = some (some (0, [0, 1])) ∧
    (wLoops halves).map (fun ls => ls.map (fun l => (l.header, l.latch))) = some [(1, 1)] ∧
    (stAt W32 halves m 3).map (fun s => (s.env 11 : Option Int)) = some (some 0) ∧ iterAt W32 halves m 1 1 2 = 1 ∧ poly [0, 1] 1 = 1 :=
  ⟨by decide +kernel, by decide +kernel, rfl, rfl, by decide +kernel⟩

end Cmmc.SSA.Ex
