import Verif.SCC.Model
/-!
# Model of `DominateAnalysis` (cmmc/Analysis/DominateAnalysis.cpp)

* A `Block*` is its number; `cfg.successors(b)` is the function `succ`.
* `std::unordered_map` is a total function: `dfn[x] = 0` stands for an absent key (numbers start at 1, l.103/115), the other maps are only
  read at keys that have been written (`sdom, f, ran` for all of `dfn`, l.141-145), apart from `g`, `tr` whose default is the empty
  container.
* The unordered set `g[blk]` is walked in an arbitrary order `ord` (l.151), as is the map `idom` when the children are collected (l.181).
* The variables `e` and `tree` of l.104 are never read and are left out.
* `std::numeric_limits` bounds: `NodeIndex` (`uint32_t`) is `Nat`.
* Recursions carry fuel; `none` = out of fuel (shown not to happen).
-/
namespace Cmmc.Dom
open Cmmc.SCC (upd)

/-- captured state of `color` (l.103-108) -/
structure CS where
  cnt : Nat
  dfn : Nat → Nat
  fa : Nat → Nat
  g : Nat → List Nat
  dfseq : List Nat

/-- `std::unordered_set::insert` -/
def insertNew (l : List Nat) (x : Nat) : List Nat := if x ∈ l then l else l ++ [x]

/-- `tree[parent].insert(cur), fa[cur] = parent; dfn[cur] = ++cnt; dfseq.push_back(cur);` (l.113-116); `parent = none` is `nullptr` -/
def enterC (cur : Nat) (parent : Option Nat) (s : CS) : CS :=
  { s with
    fa := match parent with | some p => upd s.fa cur p | none => s.fa
    cnt := s.cnt + 1, dfn := upd s.dfn cur (s.cnt + 1), dfseq := s.dfseq ++ [cur] }

/-- `for(auto succBlk : cfg.successors(cur)) { g[succBlk].insert(cur); self(self, succBlk, cur); }` (l.117-120) -/
def colorEdges (rec : Nat → Option Nat → CS → Option CS) (cur : Nat) : List Nat → CS → Option CS
  | [], s => some s
  | v :: vs, s =>
    match rec v (some cur) { s with g := upd s.g v (insertNew (s.g v) cur) } with
    | none => none
    | some s' => colorEdges rec cur vs s'

/-- the recursive lambda `color` (l.109-121) -/
def color (succ : Nat → List Nat) : Nat → Nat → Option Nat → CS → Option CS
  | 0, _, _, _ => none
  | f + 1, cur, parent, s =>
    if s.dfn cur ≠ 0 then some s
    else colorEdges (color succ f) cur (succ cur) (enterC cur parent s)

/-- state of the second phase: `f, ran, sdom, idom, tr` (l.107, 125, 136) -/
structure LS where
  f : Nat → Nat
  ran : Nat → Nat
  sdom : Nat → Nat
  idom : Nat → Nat
  tr : Nat → List Nat

/-- the recursive lambda `merge` (l.126-134): the root, and the updated maps -/
def merge (dfn : Nat → Nat) : Nat → Nat → LS → Option (Nat × LS)
  | 0, _, _ => none
  | n + 1, cur, s =>
    if s.f cur = cur then some (cur, s)
    else
      match merge dfn n (s.f cur) s with
      | none => none
      | some (res, s) =>
        let s := if dfn (s.sdom (s.ran (s.f cur))) < dfn (s.sdom (s.ran cur)) then { s with ran := upd s.ran cur (s.ran (s.f cur)) } else s
        some (res, { s with f := upd s.f cur res })

/-- the loop over the predecessors of `blk` (l.151-157) -/
def semiLoop (dfn : Nat → Nat) (fuel blk : Nat) : List Nat → LS → Option LS
  | [], s => some s
  | v :: vs, s =>
    if dfn v = 0 then semiLoop dfn fuel blk vs s
    else
      match merge dfn fuel v s with
      | none => none
      | some (_, s) =>
        semiLoop dfn fuel blk vs
          (if dfn (s.sdom (s.ran v)) < dfn (s.sdom blk) then { s with sdom := upd s.sdom blk (s.sdom (s.ran v)) } else s)

/-- the loop over `tr[blk]` (l.161-167) -/
def bucketLoop (dfn : Nat → Nat) (fuel p : Nat) : List Nat → LS → Option LS
  | [], s => some s
  | t :: ts, s =>
    match merge dfn fuel t s with
    | none => none
    | some (_, s) =>
      bucketLoop dfn fuel p ts { s with idom := upd s.idom t (if p = s.sdom (s.ran t) then p else s.ran t) }

/-- one iteration of the main loop (l.147-169) -/
def step (dfn : Nat → Nat) (fuel : Nat) (preds : Nat → List Nat) (fa : Nat → Nat) (blk : Nat) (s : LS) : Option LS :=
  match semiLoop dfn fuel blk (preds blk) s with
  | none => none
  | some s =>
    let s := { s with f := upd s.f blk (fa blk), tr := upd s.tr (s.sdom blk) (s.tr (s.sdom blk) ++ [blk]) }
    match bucketLoop dfn fuel (fa blk) (s.tr (fa blk)) s with
    | none => none
    | some s => some { s with tr := upd s.tr (fa blk) [] }

/-- the main loop (l.147-170) over a list of blocks -/
def mainLoop (dfn : Nat → Nat) (fuel : Nat) (preds : Nat → List Nat) (fa : Nat → Nat) (entry : Nat) : List Nat → LS → Option LS
  | [], s => some s
  | b :: bs, s =>
    if b = entry then mainLoop dfn fuel preds fa entry bs s
    else match step dfn fuel preds fa b s with
      | none => none
      | some s => mainLoop dfn fuel preds fa entry bs s

/-- the final pass (l.171-176) -/
def finalPass (entry : Nat) (sdom : Nat → Nat) : List Nat → (Nat → Nat) → (Nat → Nat)
  | [], idom => idom
  | b :: bs, idom =>
    if b = entry then finalPass entry sdom bs idom
    else finalPass entry sdom bs (if idom b ≠ sdom b then upd idom b (idom (idom b)) else idom)

/-- initial state of the second phase (l.138-145) -/
def initLS : LS := { f := id, ran := id, sdom := id, idom := fun _ => 0, tr := fun _ => [] }

/-- initial state of `color` -/
def initCS : CS := { cnt := 0, dfn := fun _ => 0, fa := fun _ => 0, g := fun _ => [], dfseq := [] }

/-- phases one to three (l.99-176): the reachable blocks in depth-first order and the immediate-dominator map. `n` bounds the number of
blocks and serves as fuel. -/
def idoms (ord : Nat → List Nat → List Nat) (n : Nat) (succ : Nat → List Nat) (entry : Nat) : Option (List Nat × (Nat → Nat)) :=
  match color succ (n + 1) entry none initCS with
  | none => none
  | some c =>
    match mainLoop c.dfn (n + 1) (fun b => ord b (c.g b)) c.fa entry c.dfseq.reverse initLS with
    | none => none
    | some s => some (c.dfseq, finalPass entry s.sdom c.dfseq s.idom)

end Cmmc.Dom

namespace Cmmc.Dom
open Cmmc.SCC (upd)

/-! ## The dominator tree (l.178-215) and its queries (l.38-97) -/

/-- `DomTreeNode` (DominateAnalysis.hpp:27-41); `invalidNode` is `none` -/
structure Node where
  block : Nat
  depth : Nat
  anc : Nat → Option Nat
  size : Nat

/-- `DomTreeNode::maxDepth` -/
def maxDepth : Nat := 20

/-- captured state of `dfs`: `cnt, invMap, domTree` (l.184-188) -/
structure TS where
  cnt : Nat
  inv : Nat → Option Nat
  node : Nat → Node

/-- the jump table of a node with parent index `p` (l.198, 201-204); entries above `maxDepth` do not exist in the code and are not read -/
def mkAnc (node : Nat → Node) (p : Option Nat) : Nat → Option Nat
  | 0 => p
  | i + 1 => match mkAnc node p i with
    | none => none
    | some v => (node v).anc i

/-- `p == invalidNode ? 0 : domTree[p].depth + 1` (l.197) -/
def depthOf (node : Nat → Node) : Option Nat → Nat
  | none => 0
  | some q => (node q).depth + 1

/-- the part of `dfs` before its loop (l.192-204) -/
def enterT (cur : Nat) (p : Option Nat) (s : TS) : TS :=
  { cnt := s.cnt + 1, inv := upd s.inv cur (some s.cnt),
    node := upd s.node s.cnt
      { block := cur, depth := depthOf s.node p, anc := mkAnc s.node p, size := 1 } }

/-- `for(auto v : iter->second) { child = self(self, v, u); node.size += domTree[child].size; }` (l.207-210) -/
def tkids (rec : Nat → Option Nat → TS → Option (Nat × TS)) (u : Nat) : List Nat → TS → Option TS
  | [], s => some s
  | v :: vs, s =>
    match rec v (some u) s with
    | none => none
    | some (c, s') =>
      tkids rec u vs { s' with node := upd s'.node u { s'.node u with size := (s'.node u).size + (s'.node c).size } }

/-- the recursive lambda `dfs` (l.191-212) -/
def tdfs (children : Nat → List Nat) : Nat → Nat → Option Nat → TS → Option (Nat × TS)
  | 0, _, _, _ => none
  | f + 1, cur, p, s =>
    match tkids (tdfs children f) s.cnt (children cur) (enterT cur p s) with
    | none => none
    | some s' => some (s.cnt, s')

/-- a node of a freshly resized `domTree`; its contents are never read before being written -/
def blankNode : Node := { block := 0, depth := 0, anc := fun _ => none, size := 0 }

/-- `DominateAnalysis::run` (l.99-230): `ordg` and `ordc` are the orders in which the hash containers `g[b]` and `idom` are walked -/
def run (ordg ordc : Nat → List Nat → List Nat) (n : Nat) (succ : Nat → List Nat) (entry : Nat) : Option TS :=
  match idoms ordg n succ entry with
  | none => none
  | some (seq, idom) =>
    let children := fun v => ordc v (seq.filter (fun u => u ≠ entry && idom u = v))
    match tdfs children (n + 1) entry none { cnt := 0, inv := fun _ => none, node := fun _ => blankNode } with
    | none => none
    | some (_, t) => some t

/-- `DominateAnalysisResult::reachable` (l.55-57) -/
def TS.reachable (t : TS) (b : Nat) : Bool := (t.inv b).isSome

/-- `DominateAnalysisResult::parent` (l.38-46): `none` is `nullptr` -/
def TS.parent (t : TS) (b : Nat) : Option Nat :=
  match t.inv b with
  | none => none
  | some i => ((t.node i).anc 0).map (fun q => (t.node q).block)

/-- `DominateAnalysisResult::dominate` (l.90-97) -/
def TS.dominate (t : TS) (a b : Nat) : Bool :=
  match t.inv a, t.inv b with
  | some u, some v => decide (u ≤ v) && decide (v < u + (t.node u).size)
  | _, _ => false

/-- `for(i = 0; diff; ++i, diff >>= 1) if(diff & 1) v = mDomTree[v].ancestor[i];` (l.74-76); `none`: an invalid index was used -/
def climb (node : Nat → Node) : Nat → Nat → Nat → Option Nat → Option Nat
  | 0, _, _, v => v
  | fuel + 1, i, diff, v =>
    if diff = 0 then v
    else climb node fuel (i + 1) (diff / 2) (if diff % 2 = 1 then (if i ≤ maxDepth then v.bind (fun v => (node v).anc i) else none) else v)

/-- the loop of l.78-81, `i` counting down from `maxDepth`: `i + 1` is the model's argument; `none`: an invalid index would be used -/
def lift2 (node : Nat → Node) : Nat → Nat → Nat → Option (Nat × Nat)
  | 0, u, v => some (u, v)
  | i + 1, u, v =>
    if u = v then some (u, v)
    else if (node u).anc i = (node v).anc i then lift2 node i u v
    else match (node u).anc i, (node v).anc i with
      | some pu, some pv => lift2 node i pu pv
      | _, _ => none

/-- `DominateAnalysisResult::lca` (l.65-88). The loop at l.74 runs at most `diff` times. -/
def TS.lca (t : TS) (a b : Nat) : Option Nat :=
  match t.inv a, t.inv b with
  | some u, some v =>
    let (u, v) := if (t.node u).depth > (t.node v).depth then (v, u) else (u, v)
    let diff := (t.node v).depth - (t.node u).depth
    match climb t.node diff 0 diff (some v) with
    | none => none
    | some v =>
      if u = v then some (t.node u).block
      else
        match lift2 t.node (maxDepth + 1) u v with
        | none => none
        | some (u, _) => ((t.node u).anc 0).map (fun q => (t.node q).block)
  | _, _ => none

end Cmmc.Dom
