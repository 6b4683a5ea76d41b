import Verif.SSA.ReorderMain
import Verif.CallGraph.Proof
/-!
# `ConditionalPropagation` (cmmc/Transforms/Combine/ConditionalPropagation.cpp): model and the sets it computes

Blocks are numbered by their position in the function (`nodeMap`, l.102-105). `calcSCC` (Verif/SCC) and `CFGAnalysis` (Verif/SSA/Cfg) are
the models of the other modules. `std::unordered_set` is a list whose enumeration order is the parameter `ord` where it matters (`dag[u]`,
l.172); `trueSet`/`falseSet` are only filtered and enumerated for replacements by one and the same constant, so their order does not matter.
-/
namespace Cmmc.SSA
section
variable {Op C : Type}

/-- `Condition` (l.33-40); `cond = none` is `nullptr` -/
structure Condition (C : Type) where
  cond : Option (Opd C)
  value : Bool
deriving DecidableEq

/-- `ConditionSet` (l.42-45) -/
structure CondSet (C : Type) where
  ts : List (Opd C)
  fs : List (Opd C)
  empty : Bool

/-- a value-initialised `ConditionSet` (l.43-45) -/
def CondSet.init : CondSet C := { ts := [], fs := [], empty := true }

/-- `(cond.value ? trueSet : falseSet).insert(cond.cond)` for one of the two sets (l.51-52) -/
def Condition.extra (c : Condition C) (v : Bool) : List (Opd C) :=
  match c.cond with
  | some o => if c.value = v then [o] else []
  | none => []

/-- `ConditionSet::merge` (l.47-73) -/
def CondSet.merge [DecidableEq C] (s rhs : CondSet C) (c : Condition C) : CondSet C :=
  if s.empty then { ts := c.extra true ++ rhs.ts, fs := c.extra false ++ rhs.fs, empty := false }
  else
    { s with
      ts := s.ts.filter (fun v => decide (v ∈ rhs.ts) || (c.value && decide (some v = c.cond)))
      fs := s.fs.filter (fun v => decide (v ∈ rhs.fs) || (!c.value && decide (some v = c.cond))) }

/-- `ConditionSet::finalize` (l.75-85) -/
def CondSet.finalize [DecidableEq C] (s : CondSet C) : CondSet C :=
  { s with ts := s.ts.filter (fun v => decide (v ∉ s.fs)), fs := s.fs.filter (fun v => decide (v ∉ s.ts)) }

/-- `nodeMap` (l.103-105) -/
def Func.pos (F : Func Op C) (b : Nat) : Nat := F.order.idxOf b

/-- the graph of l.106-112 -/
def Func.graph (F : Func Op C) (ord : Nat → List Nat → List Nat) : SCC.Graph := F.order.map (fun b => ((F.cfg ord).succ b).map F.pos)

/-- `dag` and `indegree` (l.116-129): the edge `cu → cv` is inserted into `dag[cu]`. The insertion step is the one of `CallGraphSCC`
with the roles exchanged. -/
def condDag (g : SCC.Graph) (col : Nat → Nat) : CallGraph.D :=
  (List.range g.length).foldl (fun d u => (SCC.succ g u).foldl (fun d v => CallGraph.addEdge (col v) (col u) d) d)
    { dag := fun _ => [], deg := fun _ => 0 }

/-- the condition pushed for the edge from block `bu` to `next` (l.143-156) -/
def Func.edgeCond (F : Func Op C) (bu next : Nat) : Condition C :=
  match F.blk bu with
  | some B =>
    match B.term with
    | .cbr c t f => if t = f then ⟨none, false⟩ else ⟨some c, decide (next = t)⟩
    | _ => ⟨none, false⟩
  | none => ⟨none, false⟩

/-- `edges[cu][cv]` after the loop at l.133-158: the conditions in the order of the pushes -/
def Func.edgeConds (F : Func Op C) (ord : Nat → List Nat → List Nat) (col : Nat → Nat) (cu cv : Nat) : List (Condition C) :=
  F.order.flatMap (fun bu => if col (F.pos bu) = cu then
    (((F.cfg ord).succ bu).filter (fun next => decide (col (F.pos next) = cv ∧ cu ≠ cv))).map (F.edgeCond bu) else [])

/-- the condition common to all edges of a list (l.173-181) -/
def common [DecidableEq C] (es : List (Condition C)) : Condition C :=
  match es with
  | [] => ⟨none, false⟩
  | c :: cs => if c.cond.isSome && (c :: cs).all (fun r => decide (c = r)) then c else ⟨none, false⟩

/-- the queue loop (l.165-190): `release` decrements `indegree` and pushes (l.186-188), the fold merges (l.183-184); they touch different
variables, so they are written one after the other. `none`: out of fuel. -/
def condLoop [DecidableEq C] (dag : Nat → List Nat) (ec : Nat → Nat → Condition C) :
    Nat → (Nat → Nat) → List Nat → (Nat → CondSet C) → Option (Nat → CondSet C)
  | _, _, [], color => some color
  | 0, _, _ :: _, _ => none
  | f + 1, deg, u :: q, color =>
    let su := (color u).finalize
    let r := CallGraph.release (dag u) deg q
    condLoop dag ec f r.1 r.2 ((dag u).foldl (fun c v => SCC.upd c v ((c v).merge su (ec u v))) (SCC.upd color u su))

/-- the sets per block (l.101-190) -/
def Func.condSets [DecidableEq C] (F : Func Op C) (cord : Nat → List Nat → List Nat) (dord : Nat → List Nat → List Nat) : Option (Nat → CondSet C) :=
  let g := F.graph cord
  match SCC.calcSCC g with
  | none => none
  | some (ccnt, cols) =>
    let col := fun u => cols.getD u 0
    let d := condDag g col
    let q0 := (List.range ccnt).filter (fun u => d.deg u = 0)
    match condLoop (fun u => dord u (d.dag u)) (fun u v => common (F.edgeConds cord col u v)) (ccnt + 1) d.deg q0 (fun _ => CondSet.init) with
    | none => none
    | some color => some (fun b => color (col (F.pos b)))

/-- what `replaceWithInBlock(block, true)` and `replaceWithInBlock(block, false)` make of a use of instruction `x` in the block (l.192-202;
Instruction.cpp:175-187: every use by an instruction of the block, phis and the terminator included). Only instructions are replaced
(`dynamic_cast`, l.195, 199). -/
def CondSet.subst [DecidableEq C] (s : CondSet C) (tt ff : C) (x : Nat) : Opd C :=
  if Opd.inst x ∈ s.ts then .cst tt else if Opd.inst x ∈ s.fs then .cst ff else .inst x

/-- `ConditionalPropagation::run` (l.97-205) -/
def Func.condProp [DecidableEq C] (F : Func Op C) (cord dord : Nat → List Nat → List Nat) (tt ff : C) : Option (Func Op C) :=
  match F.condSets cord dord with
  | none => none
  | some s => some (F.mapBlocks (fun b B => B.sub ((s b).subst tt ff)))

/-! ## the colours -/

open Cmmc.SCC Cmmc.CallGraph

theorem mem_extra {c : Condition C} {v : Bool} {o : Opd C} : o ∈ c.extra v ↔ c = ⟨some o, v⟩ := by
  unfold Condition.extra
  rcases c with ⟨_ | c, w⟩
  · simp
  · simp only
    split
    · rename_i h; subst h; simp only [List.mem_singleton, Condition.mk.injEq, Option.some.injEq, and_true]; exact eq_comm
    · rename_i h; simp [h]

variable [DecidableEq C]

theorem mem_merge_ts {s rhs : CondSet C} {c : Condition C} {o : Opd C} (h : o ∈ (s.merge rhs c).ts) :
    (s.empty = false → o ∈ s.ts) ∧ (o ∈ rhs.ts ∨ c = ⟨some o, true⟩) := by
  unfold CondSet.merge at h
  split at h
  · rename_i he
    rw [List.mem_append, mem_extra] at h
    exact ⟨by simp [he], h.symm⟩
  · simp only [List.mem_filter, Bool.or_eq_true, decide_eq_true_eq, Bool.and_eq_true] at h
    refine ⟨fun _ => h.1, h.2.imp id (fun h => ?_)⟩
    cases c; simp only at h; rw [h.1, h.2]

theorem mem_merge_fs {s rhs : CondSet C} {c : Condition C} {o : Opd C} (h : o ∈ (s.merge rhs c).fs) :
    (s.empty = false → o ∈ s.fs) ∧ (o ∈ rhs.fs ∨ c = ⟨some o, false⟩) := by
  unfold CondSet.merge at h
  split at h
  · rename_i he
    rw [List.mem_append, mem_extra] at h
    exact ⟨by simp [he], h.symm⟩
  · simp only [List.mem_filter, Bool.or_eq_true, decide_eq_true_eq, Bool.and_eq_true, Bool.not_eq_eq_eq_not, Bool.not_true] at h
    refine ⟨fun _ => h.1, h.2.imp id (fun h => ?_)⟩
    cases c; simp only at h; rw [h.1, h.2]

theorem merge_empty {s rhs : CondSet C} {c : Condition C} : (s.merge rhs c).empty = false := by
  unfold CondSet.merge
  split
  · rfl
  · rename_i h; simpa using h

/-- the merges of one round -/
theorem round_spec {su : CondSet C} {ec : Nat → Condition C} : ∀ (vs : List Nat) (color : Nat → CondSet C), vs.Nodup →
    ∀ v, (vs.foldl (fun c v => upd c v ((c v).merge su (ec v))) color) v = if v ∈ vs then (color v).merge su (ec v) else color v := by
  intro vs
  induction vs with
  | nil => intro color _ v; simp
  | cons w vs ih =>
    intro color hnd v
    rw [List.nodup_cons] at hnd
    rw [List.foldl_cons, ih _ hnd.2]
    by_cases hv : v = w
    · subst hv; simp [hnd.1, upd_same]
    · simp [hv, upd_ne _ _ hv]

/-- the invariant of the colours when the colours of `P` have been processed -/
structure ColInv (dag : Nat → List Nat) (ec : Nat → Nat → Condition C) (P : List Nat) (color : Nat → CondSet C) : Prop where
  ts : ∀ u ∈ P, ∀ v ∈ dag u, ∀ o ∈ (color v).ts, o ∈ (color u).ts ∨ ec u v = ⟨some o, true⟩
  fs : ∀ u ∈ P, ∀ v ∈ dag u, ∀ o ∈ (color v).fs, o ∈ (color u).fs ∨ ec u v = ⟨some o, false⟩
  merged : ∀ u ∈ P, ∀ v ∈ dag u, (color v).empty = false
  free : ∀ v, (∀ u, v ∉ dag u) → (color v).ts = [] ∧ (color v).fs = []

theorem condLoop_spec {n : Nat} {dag : Nat → List Nat} {ec : Nat → Nat → Condition C} (hnd : ∀ x, (dag x).Nodup) (hlt : ∀ d c, c ∈ dag d → d < n ∧ c < n ∧ c ≠ d) :
    ∀ (f : Nat) (deg : Nat → Nat) (q P : List Nat) (color : Nat → CondSet C), KInv n dag deg q P → ColInv dag ec P color → n < f + P.length →
    ∃ P' color', condLoop dag ec f deg q color = some color' ∧ kahn dag f deg q P = some P' ∧ ColInv dag ec P' color' ∧ ∃ deg', KInv n dag deg' [] P' := by
  intro f
  induction f with
  | zero =>
    intro deg q P color K _ hf
    have := nodup_length_le (List.Nodup.sublist (List.sublist_append_left P q) K.nodup) (fun x hx => K.lt x (by simp [hx]))
    omega
  | succ f ih =>
    intro deg q P color K I hf
    cases q with
    | nil => exact ⟨P, color, by simp [condLoop], by simp [kahn], I, deg, K⟩
    | cons u q =>
      -- the queue part
      have hk : ∃ new, (release (dag u) deg q).2 = q ++ new ∧ KInv n dag (release (dag u) deg q).1 (q ++ new) (P ++ [u]) := by
        exact kahn_step hnd (fun d c h => ⟨(hlt d c h).1, (hlt d c h).2.1⟩) K
      obtain ⟨new, e1, K'⟩ := hk
      have huP : u ∉ P := by
        have := K.nodup
        rw [List.nodup_append] at this
        intro h; exact this.2.2 u h u (by simp) rfl
      unfold condLoop kahn
      dsimp only
      rw [e1]
      refine ih _ _ (P ++ [u]) _ K' ?_ (by simp; omega)
      have hval := round_spec (su := (color u).finalize) (ec := ec u) (dag u) (upd color u (color u).finalize) (hnd u)
      have huu : u ∉ dag u := fun h => (hlt u u h).2.2 rfl
      -- processed colours are not changed
      have hP : ∀ w ∈ P, w ∉ dag u := by
        intro w hw hm
        obtain ⟨P1, P2, e⟩ := List.append_of_mem hw
        have := K.before P1 w P2 e u hm
        exact huP (e ▸ by simp [this])
      have hold : ∀ w ∈ P, ((dag u).foldl (fun c v => upd c v ((c v).merge (color u).finalize (ec u v))) (upd color u (color u).finalize)) w = color w := by
        intro w hw
        rw [hval, if_neg (hP w hw), upd_ne]
        rintro rfl; exact huP hw
      have hself : ((dag u).foldl (fun c v => upd c v ((c v).merge (color u).finalize (ec u v))) (upd color u (color u).finalize)) u = (color u).finalize := by
        rw [hval, if_neg huu, upd_same]
      have hnew : ∀ v ∈ dag u, ((dag u).foldl (fun c v => upd c v ((c v).merge (color u).finalize (ec u v))) (upd color u (color u).finalize)) v = (color v).merge (color u).finalize (ec u v) := by
        intro v hv
        rw [hval, if_pos hv, upd_ne]
        rintro rfl; exact huu hv
      have hsh : ∀ v, v ∉ dag u → ∀ o, (o ∈ (((dag u).foldl (fun c v => upd c v ((c v).merge (color u).finalize (ec u v))) (upd color u (color u).finalize)) v).ts → o ∈ (color v).ts) ∧
          (o ∈ (((dag u).foldl (fun c v => upd c v ((c v).merge (color u).finalize (ec u v))) (upd color u (color u).finalize)) v).fs → o ∈ (color v).fs) := by
        intro v hv o
        rw [hval, if_neg hv]
        by_cases hvu : v = u
        · subst hvu; rw [upd_same]; unfold CondSet.finalize; simp only [List.mem_filter]; exact ⟨fun h => h.1, fun h => h.1⟩
        · rw [upd_ne _ _ hvu]; exact ⟨id, id⟩
      refine ⟨?_, ?_, ?_, ?_⟩
      · intro w hw v hv o ho
        rcases List.mem_append.1 hw with hw | hw
        · rw [hold w hw]
          by_cases hvu : v ∈ dag u
          · rw [hnew v hvu] at ho
            exact I.ts w hw v hv o ((mem_merge_ts ho).1 (I.merged w hw v hv))
          · exact I.ts w hw v hv o ((hsh v hvu o).1 ho)
        · obtain rfl := List.mem_singleton.1 hw
          rw [hself]; rw [hnew v hv] at ho
          exact (mem_merge_ts ho).2
      · intro w hw v hv o ho
        rcases List.mem_append.1 hw with hw | hw
        · rw [hold w hw]
          by_cases hvu : v ∈ dag u
          · rw [hnew v hvu] at ho
            exact I.fs w hw v hv o ((mem_merge_fs ho).1 (I.merged w hw v hv))
          · exact I.fs w hw v hv o ((hsh v hvu o).2 ho)
        · obtain rfl := List.mem_singleton.1 hw
          rw [hself]; rw [hnew v hv] at ho
          exact (mem_merge_fs ho).2
      · intro w hw v hv
        by_cases hvu : v ∈ dag u
        · rw [hnew v hvu]; exact merge_empty
        · rcases List.mem_append.1 hw with hw | hw
          · rw [hval, if_neg hvu]
            by_cases e : v = u
            · rw [e, upd_same]; rw [e] at hv; exact I.merged w hw u hv
            · rw [upd_ne _ _ e]; exact I.merged w hw v hv
          · obtain rfl := List.mem_singleton.1 hw
            exact absurd hv hvu
      · intro v hv
        obtain ⟨h1, h2⟩ := I.free v hv
        have h3 := hsh v (hv u)
        exact ⟨List.eq_nil_iff_forall_not_mem.2 fun o ho => by have := (h3 o).1 ho; rw [h1] at this; simp at this,
          List.eq_nil_iff_forall_not_mem.2 fun o ho => by have := (h3 o).2 ho; rw [h2] at this; simp at this⟩

end
end Cmmc.SSA
