import Verif.SSA.Branches
import Verif.SSA.Dce
/-!
# A concrete language and concrete functions

Used to show that the hypotheses of the theorems of this directory are met by non-trivial functions, and for counterexamples.
-/
namespace Cmmc.SSA.Ex
open Cmmc.SSA

/-- opcodes of the example language -/
inductive XOp
  | add | mul | lt | load | store | print | exit
deriving DecidableEq

/-- integers, a memory with one cell per address, `print` emits an event, `exit` does not come back; `load` from a negative address and a
wrong number of operands are undefined -/
def xsem : XOp → List Int → (Int → Int) → Res Int (Int → Int) Int Unit
  | .add, [a, b], m => .ok (a + b) m []
  | .mul, [a, b], m => .ok (a * b) m []
  | .lt, [a, b], m => .ok (if a < b then 1 else 0) m []
  | .load, [p], m => if p < 0 then .ub else .ok (m p) m []
  | .store, [p, v], m => if p < 0 then .ub else .ok 0 (fun q => if q = p then v else m q) []
  | .print, [v], m => .ok 0 m [v]
  | .exit, [], _ => .halt [] ()
  | _, _, _ => .ub

def X : Lang where
  V := Int
  M := Int → Int
  E := Int
  H := Unit
  Op := XOp
  C := Int
  decOp := inferInstance
  decC := inferInstance
  cval := id
  sem := xsem
  truth := fun v => some (decide (v ≠ 0))
  key := some

/-- return `v` with memory `m` after the events `tr` -/
def out (v : Int) (m : Int → Int) (tr : List Int) : Beh X := .ret (some v) m tr

/-- a function from a list of blocks; the first one is the entry -/
def mk (bs : List (Nat × Block XOp Int)) : Func XOp Int :=
  { entry := (bs.map Prod.fst).headD 0
    order := bs.map Prod.fst
    blk := fun b => (bs.find? (fun e => e.1 == b)).map Prod.snd }

theorem mk_listed (bs : List (Nat × Block XOp Int)) : (mk bs).Listed := by
  intro b B h
  simp only [mk, Option.map_eq_some_iff] at h
  obtain ⟨e, he, rfl⟩ := h
  have h1 := List.mem_of_find?_eq_some he
  have h2 : e.1 = b := by simpa using List.find?_some he
  exact List.mem_map.mpr ⟨e, h1, h2⟩

/-- matcher for integer constants of the example language -/
def xuint (c : Int) : Option Nat := if 0 ≤ c then some c.toNat else none

/-- hypothesis of `C37_simplifyBranch` -/
theorem xuint_spec : ∀ c k, xuint c = some k → X.truth (X.cval c) = some (decide (k ≠ 0)) := by
  intro c k h
  unfold xuint at h
  split at h
  · simp only [Option.some.injEq] at h
    simp only [X, id]
    congr 1
    rw [decide_eq_decide]
    constructor <;> intro <;> omega
  · simp at h

/-- loads are not sinks, stores, output and `exit` are -/
def xeff : XOp → Bool
  | .store | .print | .exit => true
  | _ => false

/-- hypothesis of `C31_noSideEffectEliminate` -/
theorem x_pure : PureOps X xeff := by
  intro op vs m h
  cases op <;> simp only [xeff, Bool.true_eq_false] at h <;> simp only [X, xsem] <;>
    (repeat' split) <;> first | exact .inl rfl | exact .inr ⟨_, rfl⟩ | simp_all

/-- `i = 0; do { print(i); dead = i * i; i = i + 1; } while(i < 3); return i;` with a branch on a constant in front -/
def loop : Func XOp Int := mk
  [(0, ⟨[], [], .cbr (.cst 1) 1 2⟩),
   (1, ⟨[⟨10, [(0, .cst 0), (1, .inst 12)]⟩, ⟨20, [(0, .cst 7), (1, .inst 20)]⟩],
        [⟨11, .print, [.inst 10]⟩, ⟨14, .mul, [.inst 10, .inst 20]⟩, ⟨12, .add, [.inst 10, .cst 1]⟩, ⟨13, .lt, [.inst 12, .cst 3]⟩],
        .cbr (.inst 13) 1 2⟩),
   (2, ⟨[⟨15, [(0, .cst (-1)), (1, .inst 12)]⟩], [], .ret (some (.inst 15))⟩)]

/-- it prints 0, 1, 2 and returns 3 -/
example (m : Int → Int) : Ends X loop m (out 3 m [0, 1, 2]) := ⟨5, rfl⟩

/-- SimplifyBranch makes the constant branch unconditional and drops the entry of the phi for the edge that is gone … -/
example : (simplifyBranch xuint loop).blk 0 = some ⟨[], [], .br 1⟩ ∧
    (simplifyBranch xuint loop).blk 2 = some ⟨[⟨15, [(1, .inst 12)]⟩], [], .ret (some (.inst 15))⟩ := ⟨rfl, rfl⟩
/-- … and still prints 0, 1, 2 and returns 3 -/
example (m : Int → Int) : Ends X (simplifyBranch xuint loop) m (out 3 m [0, 1, 2]) :=
  (C37_simplifyBranch xuint_spec loop m).1 (out 3 m [0, 1, 2]) ⟨5, rfl⟩ nofun

/-- NoSideEffectEliminate removes the useless multiplication and the phi feeding it -/
example : ∃ G, noSideEffectEliminate xeff loop = some G ∧
    (G.blk 1).map (fun B => (B.phis.map Phi.id, B.body.map Inst.id)) = some ([10], [11, 12, 13]) ∧ Refines X loop G := by
  obtain ⟨G, hG, _, h⟩ := C31_noSideEffectEliminate x_pure loop (mk_listed _)
  refine ⟨G, hG, ?_, h⟩
  have : (noSideEffectEliminate xeff loop).map (fun G => (G.blk 1).map (fun B => (B.phis.map Phi.id, B.body.map Inst.id))) =
      some (some ([10], [11, 12, 13])) := by decide +kernel
  have hG' : noSideEffectEliminate (Op := XOp) (C := Int) xeff loop = some G := hG
  rw [hG'] at this
  exact Option.some.inj this

end Cmmc.SSA.Ex
