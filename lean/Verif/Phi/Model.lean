import Verif.CallGraph.Model
/-!
# Model of the phi lowering in `emitBranch` (cmmc/CodeGen/Lowering.cpp:762-860)

* A virtual register is its number; `MIROperand` is `Opd`: a virtual register, or something no copy writes (an immediate, a relocation,
  a physical register), identified by a number. `operator==` (MIR.hpp:158) compares exactly this.
* Input: the destinations `ctx.mapOperand(phi)` and the sources `ctx.mapOperand(val)` of the phis at the head of the target block, in
  order (l.763-775), and `next`, the number the next `ctx.newVReg` returns. The code that `mapOperand` itself emits to materialise
  constants precedes the copies and is not modelled.
* Output: the copies emitted by `ctx.emitCopy(dst, src)` in order.
* `dag[u]` is an `unordered_set`; the order l.823 walks it is the parameter `ord`.
-/
namespace Cmmc.Phi
open Cmmc.SCC Cmmc.CallGraph

/-- `MIROperand` -/
inductive Opd where
  | vreg (n : Nat)
  | other (n : Nat)
  deriving DecidableEq

/-- `nodeMap.find(arg)` (l.787-789, 794): the index of the first destination equal to the operand (`emplace` keeps the first) -/
def nodeOf (dst : List Nat) : Opd → Option Nat
  | .other _ => none
  | .vreg r => let i := dst.idxOf r; if i < dst.length then some i else none

/-- the copy graph (l.791-798): `idx → j` when the source of `idx` is the destination `j` -/
def graphOf (dst : List Nat) (src : List Opd) : Graph := src.map (fun s => (nodeOf dst s).toList)

/-- `dag` and `in` (l.801-813): an edge `u → v` between different components puts `cv` in `dag[cu]` and counts in `in[cv]` -/
def buildDag (g : Graph) (col : Nat → Nat) : D :=
  (List.range g.length).foldl (fun d u => (succ g u).foldl (fun d v => addEdge (col v) (col u) d) d)
    { dag := fun _ => [], deg := fun _ => 0 }

/-- the copy order (l.800-829), or `none` if the `assert` of l.831 would fail -/
def copyOrder (ord : Nat → List Nat → List Nat) (dst : List Nat) (src : List Opd) : Option (List Nat) :=
  let g := graphOf dst src
  match calcSCC g with
  | none => none
  | some (ccnt, cols) =>
    let col := fun u => cols.getD u 0
    let d := buildDag g col
    let q0 := (List.range ccnt).filter (fun u => d.deg u = 0)
    match kahn (fun u => ord u (d.dag u)) (ccnt + 1) d.deg q0 [] with
    | none => none
    | some P =>
      let order := P.flatMap (sccOf g.length col)
      if order.length = dst.length then some order else none

/-- state of the emission loop: the next fresh register, `dirtyRegRemapping` (keyed by register), the copies so far -/
structure St where
  next : Nat
  dirty : Nat → Option Nat
  out : List (Nat × Opd)

/-- `dirtyRegRemapping.find(src[idx])` (l.838-841) -/
def remap (dirty : Nat → Option Nat) : Opd → Opd
  | .vreg r => match dirty r with
    | some t => .vreg t
    | none => .vreg r
  | .other n => .other n

/-- one iteration of the emission loop (l.835-856) for destination `d` and source `s`; `src` decides `needStagingRegister` (l.778-782):
a destination needs a staging register when it is also a source -/
def emit1 (src : List Opd) (d : Nat) (s : Opd) (σ : St) : St :=
  let arg := remap σ.dirty s
  if arg = .vreg d then σ
  else if Opd.vreg d ∈ src then
    { next := σ.next + 1,
      dirty := fun r => if r = d then (match σ.dirty d with | some t => some t | none => some σ.next) else σ.dirty r,
      out := σ.out ++ [(σ.next, .vreg d), (d, arg)] }
  else { σ with out := σ.out ++ [(d, arg)] }

/-- the emission loop (l.833-856) over the indices in `order` -/
def emitAll (dst : List Nat) (src : List Opd) : List Nat → St → St
  | [], σ => σ
  | i :: is, σ =>
    match dst[i]?, src[i]? with
    | some d, some s => emitAll dst src is (emit1 src d s σ)
    | _, _ => emitAll dst src is σ

/-- the copies `emitBranch` emits -/
def emitBranch (ord : Nat → List Nat → List Nat) (next : Nat) (dst : List Nat) (src : List Opd) : Option (List (Nat × Opd)) :=
  if src.isEmpty then some []
  else match copyOrder ord dst src with
    | none => none
    | some o => some (emitAll dst src o { next := next, dirty := fun _ => none, out := [] }).out

/-! ## Specification: executing copies -/

/-- register contents; operands that are not virtual registers have a fixed value -/
structure Env (V : Type) where
  reg : Nat → V
  fixed : Nat → V

/-- the value of an operand -/
def Env.eval {V : Type} (ρ : Env V) : Opd → V
  | .vreg r => ρ.reg r
  | .other n => ρ.fixed n

/-- executing the copies in order -/
def exec {V : Type} (ρ : Env V) : List (Nat × Opd) → Env V
  | [] => ρ
  | (d, s) :: cs => exec { ρ with reg := upd ρ.reg d (ρ.eval s) } cs

end Cmmc.Phi
