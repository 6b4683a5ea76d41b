import Verif.SCC.Model
/-!
# Model of `CallGraphSCCAnalysis::run` (cmmc/Analysis/CallGraphSCC.cpp:40-113)

* Functions are numbered in the order of `module.globals()` (l.41-52), so `Function*` is `Nat` and `funcMap[k] = k`.
* The input is, per function, the list of direct callees in program order (indirect callees are skipped by the
  `dynamic_cast`, l.62). A direct callee that is not a global of the module makes `idxMap.at` throw; excluded by `Valid`.
* The `unordered_map` walk of l.56 writes only `graph[u]` for its own `u`, so its order is irrelevant.
* `dag[u]` is an `unordered_set`: the order in which l.104 enumerates it is an arbitrary parameter `ord`.
* the `while(!q.empty())` loop has fuel; `none` = fuel exhausted (shown not to happen).
-/
namespace Cmmc.CallGraph
open Cmmc.SCC

/-- the call graph without self calls (l.55-69) -/
def callGraph (calls : List (List Nat)) : Graph :=
  (List.range calls.length).map (fun u => (calls.getD u []).filter (fun v => u ≠ v))

/-- `dag` and `degreeOut` (l.73-75) -/
structure D where
  dag : Nat → List Nat
  deg : Nat → Nat

/-- one edge `u → v` of the loop at l.79-85: `if(dag[cv].emplace(cu).second) ++degreeOut[cu]` -/
def addEdge (cu cv : Nat) (d : D) : D :=
  if cu = cv then d
  else if cu ∈ d.dag cv then d
  else { dag := upd d.dag cv (cu :: d.dag cv), deg := upd d.deg cu (d.deg cu + 1) }

/-- the loop at l.76-86 -/
def buildDag (g : Graph) (col : Nat → Nat) : D :=
  (List.range g.length).foldl (fun d u => (succ g u).foldl (fun d v => addEdge (col u) (col v) d) d)
    { dag := fun _ => [], deg := fun _ => 0 }

/-- `scc[c]` (l.78): nodes of colour `c` in increasing order -/
def sccOf (n : Nat) (col : Nat → Nat) (c : Nat) : List Nat := (List.range n).filter (fun u => col u = c)

/-- `for(auto v : dag[u]) if(--degreeOut[v] == 0) q.push(v);` (l.104-107) -/
def release : List Nat → (Nat → Nat) → List Nat → (Nat → Nat) × List Nat
  | [], deg, q => (deg, q)
  | v :: vs, deg, q =>
    let deg' := upd deg v (deg v - 1)
    release vs deg' (if deg' v = 0 then q ++ [v] else q)

/-- the queue loop (l.97-108); returns the colours in processing order -/
def kahn (dag : Nat → List Nat) : Nat → (Nat → Nat) → List Nat → List Nat → Option (List Nat)
  | _, _, [], P => some P
  | 0, _, _ :: _, _ => none
  | f + 1, deg, u :: q, P =>
    let r := release (dag u) deg q
    kahn dag f r.1 r.2 (P ++ [u])

/-- `CallGraphSCCAnalysis::run`: the function order (l.40-113) -/
def order (ord : Nat → List Nat → List Nat) (calls : List (List Nat)) : Option (List Nat) :=
  let g := callGraph calls
  match calcSCC g with
  | none => none
  | some (ccnt, cols) =>
    let col := fun u => cols.getD u 0
    let d := buildDag g col
    let q0 := (List.range ccnt).filter (fun u => d.deg u = 0)
    match kahn (fun u => ord u (d.dag u)) (ccnt + 1) d.deg q0 [] with
    | none => none
    | some P => some (P.flatMap (sccOf g.length col))

/-- `getReversedOrder` (l.28-31, 36-38) -/
def reversedOrder (ord : Nat → List Nat → List Nat) (calls : List (List Nat)) : Option (List Nat) :=
  (order ord calls).map List.reverse

end Cmmc.CallGraph
