import Verif.SSA.CondPropMain
import Verif.SSA.SinkEx
/-! # C81 on concrete functions -/
namespace Cmmc.SSA.Ex
open Cmmc.SSA

def csem : XOp → List Int → (Int → Int) → Res Int (Int → Int) Int Unit
  | .add, [a, b], m => .ok (a + b) m []
  | .lt, [a, b], m => .ok (if a < b then 1 else 0) m []
  | .load, [p], m => .ok (m p) m []
  | .print, [v], m => .ok 0 m [v]
  | _, _, _ => .ub

/-- a language in which a condition is 0 or 1 -/
def CL : Lang where
  V := Int
  M := Int → Int
  E := Int
  H := Unit
  Op := XOp
  C := Int
  decOp := inferInstance
  decC := inferInstance
  cval := id
  sem := csem
  truth := fun v => if v = 0 then some false else if v = 1 then some true else none
  key := some

theorem cl_bools : Bools CL (1 : Int) (0 : Int) := by
  intro (v : Int) t (h : (if v = 0 then some false else if v = 1 then some true else none) = some t)
  show v = if t then (1 : Int) else 0
  split at h
  · cases h; assumption
  · split at h
    · cases h; assumption
    · cases h

/-- `c = a[1] < 5; if(c) { print(c); if(c) return c; } else print(c); x = c; return x;` with a loop in block 2 -/
def known : Func XOp Int := mk
  [(0, ⟨[], [⟨10, .load, [.cst 1]⟩, ⟨11, .lt, [.inst 10, .cst 5]⟩], .cbr (.inst 11) 1 2⟩),
   (1, ⟨[], [⟨12, .print, [.inst 11]⟩], .cbr (.inst 11) 3 4⟩),
   (2, ⟨[], [⟨13, .print, [.inst 11]⟩, ⟨14, .lt, [.inst 11, .cst 0]⟩], .cbr (.inst 14) 2 4⟩),
   (3, ⟨[], [], .ret (some (.inst 11))⟩),
   (4, ⟨[⟨15, [(1, .inst 11), (2, .inst 14)]⟩], [], .ret (some (.inst 15))⟩)]

theorem known_wf : LiveWf (known : CL.F) := (mk_proper _ (by decide +kernel)).1.liveWf_of_allLive (L := CL) (mk_proper _ (by decide +kernel)).2
theorem known_first : EntryFirst known := entryFirst_of _ (by decide +kernel)

/-- the operands of every block: phis, body, terminator -/
def opnds (F : Func XOp Int) : List (List (List (Opd Int))) := F.blocks.map (fun B => B.phis.map Phi.ops ++ B.body.map Inst.args ++ [B.term.args])

/-- block 1 knows that 11 is true, block 2 that it is false; block 4 is only reached when 11 is false, and its entry for the impossible edge
from 1 becomes false; 14 is not known in block 2, for the branch on it can be reached again -/
theorem known_result : (known.condProp (fun _ l => l) (fun _ l => l) 1 0).map opnds = some
    [[[.cst 1], [.inst 10, .cst 5], [.inst 11]], [[.cst 1], [.cst 1]], [[.cst 0], [.cst 0, .cst 0], [.inst 14]], [[.cst 1]], [[.cst 0, .inst 14], [.inst 15]]] := by decide +kernel

theorem known_same : ∃ G, known.condProp (fun _ l => l) (fun _ l => l) 1 0 = some G ∧
    Ends CL known (fun _ => (3 : Int)) (.ret (some (1 : Int)) (fun _ => (3 : Int)) [(1 : Int)]) ∧ Ends CL G (fun _ => (3 : Int)) (.ret (some (1 : Int)) (fun _ => (3 : Int)) [(1 : Int)]) := by
  obtain ⟨G, h1, h2, _⟩ := C81_conditionalPropagation CL (1 : Int) (0 : Int) cl_bools (fun _ l => l) (fun _ l => l) (fun _ _ => .refl _) (fun _ _ => .refl _) known known_wf known_first
  have h3 : Ends CL known (fun _ => (3 : Int)) (.ret (some (1 : Int)) (fun _ => (3 : Int)) [(1 : Int)]) := ⟨5, rfl⟩
  exact ⟨G, h1, h3, (h2 _).1 _ h3 nofun⟩

end Cmmc.SSA.Ex
