import Verif.Mir.Interval
import Verif.Mir.Color
import Mathlib.Data.List.Dedup

/-!
# The interference graph and the allocation

`graphColoringAllocateImpl` up to and including a successful assignment, and the rewriting of the operands
(`/repo/cmmc/CodeGen/GraphColoringRegisterAllocator.cpp:226-420, 455-605, 745-768`).
-/

namespace Cmmc.Mir

/-! ## Interference with physical registers -/

/-- The physical registers an instruction reads, except the zero register. -/
def Inst.physUses (T : Target) (i : Inst) : List Nat :=
  i.uses.filterMap fun
    | .ph p => if T.zero p then none else some p
    | .vr _ => none

/-- GraphColoringRegisterAllocator.cpp:279-299 `collectUnderRenamedISARegs`: the registers of class `c` read
    by the leading group of instructions that read physical registers. -/
def collect (T : Target) (c : Nat) : List Inst → List Nat
  | [] => []
  | i :: rest =>
    if i.physUses T = [] then []
    else (i.physUses T).filter (fun p => T.clsP p = c) ++ collect T c rest

/-- The state of the walk over a block: `liveVRegs`, `underRenamedISAReg`, `lockedISAReg`. -/
structure Scan where
  live : List Nat
  under : List Nat
  locked : List Nat

/-- GraphColoringRegisterAllocator.cpp:326-343: the use operands. -/
def scanUses (T : Target) (c : Nat) (f : Func) (b i : Nat) (inst : Inst) (s : Scan) : Scan :=
  { s with
    under := s.under.filter (fun p => p ∉ inst.physUses T)
    live := s.live.filter (fun v => ¬ (Reg.vr v ∈ inst.uses ∧ T.clsV v = c ∧ deadUse f v b i)) }

/-- GraphColoringRegisterAllocator.cpp:350-361: the registers of the class that a call may change, as far as
    the code adds edges for them (all of the callee's registers if they are known, otherwise the
    caller-saved ones of the allocation list). -/
def callClob (T : Target) (c : Nat) (i : Inst) : List Nat :=
  match i.call with
  | none => []
  | some ci =>
    match ci.usage with
    | some l => l.filter (fun p => T.clsP p = c)
    | none => (T.list c).filter (fun p => p ∈ T.callerSaved)

/-- GraphColoringRegisterAllocator.cpp:344-366: after a call. -/
def scanCall (T : Target) (c : Nat) (inst : Inst) (rest : List Inst) (s : Scan) : Scan :=
  if inst.call.isSome then { s with under := s.under ++ collect T c rest, locked := [] } else s

/-- GraphColoringRegisterAllocator.cpp:367-386: one def operand; the state and the edges added. -/
def scanDef (T : Target) (c : Nat) (s : Scan × List (Reg × Reg)) (r : Reg) : Scan × List (Reg × Reg) :=
  match r with
  | .ph p =>
    if T.clsP p = c ∧ T.zero p = false then
      ({ s.1 with locked := p :: s.1.locked }, s.2 ++ s.1.live.map fun v => (Reg.vr v, Reg.ph p))
    else s
  | .vr v =>
    if T.clsV v = c then
      ({ s.1 with live := v :: s.1.live },
        s.2 ++ (s.1.under ++ s.1.locked).map fun p => (Reg.vr v, Reg.ph p))
    else s

/-- GraphColoringRegisterAllocator.cpp:306-389: one instruction; the state after it and the edges added. -/
def scanInst (T : Target) (c : Nat) (f : Func) (b i : Nat) (inst : Inst) (rest : List Inst) (s : Scan) :
    Scan × List (Reg × Reg) :=
  let s1 := scanUses T c f b i inst s
  let e := (callClob T c inst).flatMap fun p => s1.live.map fun v => (Reg.vr v, Reg.ph p)
  inst.defs.foldl (scanDef T c) (scanCall T c inst rest s1, e)

/-- GraphColoringRegisterAllocator.cpp:301-307: the state before instruction `i` of block `b`. -/
def scanAt (T : Target) (c : Nat) (f : Func) (b : Nat) (B : Block) : Nat → Scan
  | 0 =>
    { live := (List.range (f.vregs.sup id + 1)).filter (fun v => v ∈ ins f b ∧ T.clsV v = c)
      under := collect T c B.insts
      locked := [] }
  | i + 1 =>
    match B.insts[i]? with
    | some inst => (scanInst T c f b i inst (B.insts.drop (i + 1)) (scanAt T c f b B i)).1
    | none => scanAt T c f b B i

/-- The edges added at instruction `i` of block `b`. -/
def edgesAt (T : Target) (c : Nat) (f : Func) (b : Nat) (B : Block) (i : Nat) : List (Reg × Reg) :=
  match B.insts[i]? with
  | some inst => (scanInst T c f b i inst (B.insts.drop (i + 1)) (scanAt T c f b B i)).2
  | none => []

/-- GraphColoringRegisterAllocator.cpp:274-391: all edges with physical registers. -/
def physEdges (T : Target) (c : Nat) (f : Func) : List (Reg × Reg) :=
  (List.range f.length).flatMap fun b =>
    match f[b]? with
    | none => []
    | some B => (List.range B.insts.length).flatMap fun i => edgesAt T c f b B i

/-! ## The whole graph -/

/-- GraphColoringRegisterAllocator.cpp:229-250, 335, 380: the virtual registers of class `c`. -/
def nodes (T : Target) (c : Nat) (f : Func) : List Nat :=
  ((f.flatMap fun B => B.insts.flatMap fun i => i.ops.filterMap fun o =>
    match o.2 with
    | .vr v => if T.clsV v = c then some v else none
    | .ph _ => none)).dedup

/-- GraphColoringRegisterAllocator.cpp:398-416: pairs of virtual registers whose intervals meet. -/
def vregEdges (f : Func) : List Nat → List (Reg × Reg)
  | [] => []
  | u :: l =>
    (l.filter fun v => intersectWith (interval f u) (interval f v)).map (fun v => (Reg.vr u, Reg.vr v)) ++
      vregEdges f l

/-- GraphColoringRegisterAllocator.cpp:268-416: the interference graph of class `c`. -/
def graphOf (T : Target) (c : Nat) (f : Func) : Graph :=
  (physEdges T c f ++ vregEdges f (nodes T c f)).foldl (fun g e => g.addEdge e.1 e.2)
    ((nodes T c f).foldl Graph.touch {})

/-- The heuristic choices of the allocator. -/
structure Choices where
  pickQ : List Nat → Nat
  pickR : Nat → List Nat → Nat

/-- The choices pick something that is offered. -/
def Choices.Ok (h : Choices) : Prop :=
  (∀ q, q ≠ [] → h.pickQ q ∈ q) ∧ ∀ u c, c ≠ [] → h.pickR u c ∈ c

/-- GraphColoringRegisterAllocator.cpp:455-605: the assignment for one class; `none` if a register has to
    be spilled. -/
def allocClass (h : Choices) (T : Target) (f : Func) (c : Nat) (m : Nat → Option Nat) :
    Option (Nat → Option Nat) :=
  let g := graphOf T c f
  match simplify h.pickQ (nodes T c f) (T.list c).length g.keys.card
      (prepare g (nodes T c f) (T.list c).length) with
  | none => none
  | some st => colour h.pickR g (T.list c) st m

/-- GraphColoringRegisterAllocator.cpp:745-750: one class after the other, into one map. -/
def allocate (h : Choices) (T : Target) (f : Func) : Nat → Option (Nat → Option Nat)
  | 0 => some fun _ => none
  | c + 1 =>
    match allocate h T f c with
    | none => none
    | some m => allocClass h T f c m

/-- GraphColoringRegisterAllocator.cpp:757-763: replace a virtual register by the one it was given. -/
def renReg (m : Nat → Option Nat) : Reg → Reg
  | .ph p => .ph p
  | .vr v => match m v with
    | some r => .ph r
    | none => .vr v

def Inst.rename (m : Nat → Option Nat) (i : Inst) : Inst :=
  { i with ops := i.ops.map fun o => (o.1, renReg m o.2) }

/-- GraphColoringRegisterAllocator.cpp:751-766: the function after the allocation. -/
def Func.rename (m : Nat → Option Nat) (f : Func) : Func :=
  f.map fun B => { B with insts := B.insts.map (Inst.rename m) }

/-! ## Edges of the graph -/

theorem touch_fold : ∀ (l : List Nat) (g : Graph), g.Ok →
    (l.foldl Graph.touch g).Ok ∧ (l.foldl Graph.touch g).adj = g.adj ∧
    ∀ v, v ∈ (l.foldl Graph.touch g).keys ↔ v ∈ l ∨ v ∈ g.keys := by
  intro l
  induction l with
  | nil => intro g h; simp [h]
  | cons a l ih =>
    intro g h
    obtain ⟨i1, i2, i3⟩ := ih (g.touch a) (ok_touch h a)
    refine ⟨i1, i2.trans (touch_adj g a), ?_⟩
    intro v
    simp only [List.foldl_cons]
    rw [i3, mem_touch_keys, List.mem_cons]
    tauto

theorem edge_fold : ∀ (l : List (Reg × Reg)) (g : Graph), g.Ok → (∀ e ∈ l, e.1 ≠ e.2) →
    (l.foldl (fun g e => g.addEdge e.1 e.2) g).Ok ∧
    (∀ x y, y ∈ (l.foldl (fun g e => g.addEdge e.1 e.2) g).adj x ↔
      y ∈ g.adj x ∨ (x, y) ∈ l ∨ (y, x) ∈ l) ∧
    ∀ v, v ∈ (l.foldl (fun g e => g.addEdge e.1 e.2) g).keys ↔
      v ∈ g.keys ∨ ∃ e ∈ l, e.1 = .vr v ∨ e.2 = .vr v := by
  intro l
  induction l with
  | nil => intro g h _; simp [h]
  | cons a l ih =>
    intro g h hl
    obtain ⟨i1, i2, i3⟩ := ih (g.addEdge a.1 a.2) (ok_addEdge h (hl a (by simp)))
      (fun e he => hl e (by simp [he]))
    refine ⟨i1, ?_, ?_⟩
    · intro x y
      simp only [List.foldl_cons]
      rw [i2, addEdge_adj h]
      simp only [List.mem_cons, Prod.ext_iff]
      tauto
    · intro v
      simp only [List.foldl_cons]
      rw [i3, mem_addEdge_keys h]
      simp only [List.mem_cons, exists_eq_or_imp]
      rw [or_assoc]

theorem mem_nodes {T : Target} {c : Nat} {f : Func} {v : Nat} :
    v ∈ nodes T c f ↔ T.clsV v = c ∧ ∃ B ∈ f, ∃ i ∈ B.insts, ∃ o ∈ i.ops, o.2 = .vr v := by
  unfold nodes
  rw [List.mem_dedup]
  simp only [List.mem_flatMap, List.mem_filterMap]
  constructor
  · rintro ⟨B, hB, i, hi, o, ho, h⟩
    cases hr : o.2 with
    | vr w =>
      rw [hr] at h
      simp only at h
      split at h
      · cases h; exact ⟨by assumption, B, hB, i, hi, o, ho, hr⟩
      · cases h
    | ph p => rw [hr] at h; cases h
  · rintro ⟨hc, B, hB, i, hi, o, ho, h⟩
    exact ⟨B, hB, i, hi, o, ho, by rw [h]; simp [hc]⟩

theorem vregEdges_mem {f : Func} : ∀ (l : List Nat) (e : Reg × Reg), e ∈ vregEdges f l →
    ∃ u v, e = (.vr u, .vr v) ∧ u ∈ l ∧ v ∈ l ∧ (l.Nodup → u ≠ v) := by
  intro l
  induction l with
  | nil => intro e h; cases h
  | cons a l ih =>
    intro e h
    unfold vregEdges at h
    rw [List.mem_append] at h
    rcases h with h | h
    · simp only [List.mem_map, List.mem_filter] at h
      obtain ⟨v, ⟨hv, -⟩, rfl⟩ := h
      refine ⟨a, v, rfl, by simp, by simp [hv], ?_⟩
      intro hn e
      exact (List.nodup_cons.1 hn).1 (e ▸ hv)
    · obtain ⟨u, v, h1, h2, h3, h4⟩ := ih e h
      exact ⟨u, v, h1, by simp [h2], by simp [h3], fun hn => h4 (List.nodup_cons.1 hn).2⟩

theorem vregEdges_of_meet {f : Func} (hf : f.Wf) {u v : Nat} (huv : u ≠ v) {x : Nat}
    (h1 : Covers (interval f u) x) (h2 : Covers (interval f v) x) : ∀ (l : List Nat), u ∈ l → v ∈ l →
    (Reg.vr u, Reg.vr v) ∈ vregEdges f l ∨ (Reg.vr v, Reg.vr u) ∈ vregEdges f l := by
  intro l
  induction l with
  | nil => intro h; cases h
  | cons a l ih =>
    intro hu hv
    unfold vregEdges
    rcases List.mem_cons.1 hu with hu' | hu'
    · subst hu'
      rcases List.mem_cons.1 hv with hv | hv
      · exact absurd hv.symm huv
      · left
        rw [List.mem_append]; left
        simp only [List.mem_map, List.mem_filter]
        exact ⟨v, ⟨hv, (intersectWith_iff _ _ (interval_sep hf u) (interval_sep hf v)).2 ⟨x, h1, h2⟩⟩, rfl⟩
    · rcases List.mem_cons.1 hv with hv | hv
      · subst hv
        right
        rw [List.mem_append]; left
        simp only [List.mem_map, List.mem_filter]
        exact ⟨u, ⟨hu', (intersectWith_iff _ _ (interval_sep hf v) (interval_sep hf u)).2 ⟨x, h2, h1⟩⟩, rfl⟩
      · rcases ih hu' hv with h | h
        · exact Or.inl (List.mem_append_right _ h)
        · exact Or.inr (List.mem_append_right _ h)

/-- The edges the walk adds are between a virtual and a physical register. -/
theorem scanDef_edges {T : Target} {c : Nat} {P : Nat → Prop} : ∀ (l : List Reg)
    (s : Scan × List (Reg × Reg)), (∀ v ∈ s.1.live, P v) →
    (∀ v, Reg.vr v ∈ l → T.clsV v = c → P v) →
    (∀ e ∈ s.2, ∃ v p, e = (Reg.vr v, Reg.ph p) ∧ P v) →
    (∀ v ∈ (l.foldl (scanDef T c) s).1.live, P v) ∧
    ∀ e ∈ (l.foldl (scanDef T c) s).2, ∃ v p, e = (Reg.vr v, Reg.ph p) ∧ P v := by
  intro l
  induction l with
  | nil => intro s h1 _ h3; exact ⟨h1, h3⟩
  | cons r l ih =>
    intro s h1 h2 h3
    simp only [List.foldl_cons]
    apply ih
    · cases r with
      | ph p => unfold scanDef; simp only; split <;> exact h1
      | vr w =>
        unfold scanDef; simp only
        split
        · rename_i hc
          intro v hv
          simp only [List.mem_cons] at hv
          rcases hv with rfl | hv
          · exact h2 v (by simp) hc
          · exact h1 v hv
        · exact h1
    · intro v hv; exact h2 v (by simp [hv])
    · cases r with
      | ph p =>
        unfold scanDef; simp only
        split
        · intro e he
          simp only [List.mem_append, List.mem_map] at he
          rcases he with he | ⟨v, hv, rfl⟩
          · exact h3 e he
          · exact ⟨v, p, rfl, h1 v hv⟩
        · exact h3
      | vr w =>
        unfold scanDef; simp only
        split
        · rename_i hc
          intro e he
          simp only [List.mem_append, List.mem_map] at he
          rcases he with he | ⟨p, hp, rfl⟩
          · exact h3 e he
          · exact ⟨w, p, rfl, h2 w (by simp) hc⟩
        · exact h3

theorem ins_vregs {f : Func} {b v : Nat} (h : v ∈ ins f b) : v ∈ f.vregs :=
  (solve_fixed (f.length * f.vregs.card + 1) _ (insInv_init f) (by omega)).1.vr b h

theorem block_vregs {B : Block} {v : Nat} (h : v ∈ B.vregs) :
    ∃ i ∈ B.insts, ∃ o ∈ i.ops, o.2 = Reg.vr v := by
  unfold Block.vregs at h
  rw [Finset.mem_union] at h
  rcases h with h | h
  · have := (useDef_fold v B.insts (∅, ∅)).2
    rw [useDef, this] at h
    simp only [Finset.notMem_empty, false_or, not_false_eq_true, true_and] at h
    obtain ⟨i, inst, hi, -, l₁, l₂, h, -⟩ := h
    exact ⟨inst, List.mem_of_getElem? hi, (Role.use, Reg.vr v), by rw [h]; simp, rfl⟩
  · rw [mem_useDef_defs] at h
    obtain ⟨i, hi, hd⟩ := h
    exact ⟨i, hi, _, mem_defs_iff.1 hd, rfl⟩

theorem scan_nodes {T : Target} {c : Nat} {f : Func} {b : Nat} {B : Block} (hB : f[b]? = some B) :
    ∀ i, (∀ v ∈ (scanAt T c f b B i).live, v ∈ nodes T c f) ∧
      ∀ e ∈ edgesAt T c f b B i, ∃ v p, e = (Reg.vr v, Reg.ph p) ∧ v ∈ nodes T c f := by
  have hBf := List.mem_of_getElem? hB
  have step : ∀ i inst, B.insts[i]? = some inst → (∀ v ∈ (scanAt T c f b B i).live, v ∈ nodes T c f) →
      (∀ v ∈ (scanInst T c f b i inst (B.insts.drop (i + 1)) (scanAt T c f b B i)).1.live, v ∈ nodes T c f) ∧
      ∀ e ∈ (scanInst T c f b i inst (B.insts.drop (i + 1)) (scanAt T c f b B i)).2,
        ∃ v p, e = (Reg.vr v, Reg.ph p) ∧ v ∈ nodes T c f := by
    intro i inst hi hl
    unfold scanInst
    have hlive : ∀ v ∈ (scanUses T c f b i inst (scanAt T c f b B i)).live, v ∈ nodes T c f := by
      intro v hv
      unfold scanUses at hv
      exact hl v (List.mem_filter.1 hv).1
    apply scanDef_edges (P := fun v => v ∈ nodes T c f)
    · intro v hv
      apply hlive
      unfold scanCall at hv
      split at hv <;> exact hv
    · intro v hv hc
      exact mem_nodes.2 ⟨hc, B, hBf, inst, List.mem_of_getElem? hi, _, mem_defs_iff.1 hv, rfl⟩
    · intro e he
      simp only [List.mem_flatMap, List.mem_map] at he
      obtain ⟨p, -, v, hv, rfl⟩ := he
      exact ⟨v, p, rfl, hlive v hv⟩
  have hlive : ∀ i, ∀ v ∈ (scanAt T c f b B i).live, v ∈ nodes T c f := by
    intro i
    induction i with
    | zero =>
      intro v hv
      unfold scanAt at hv
      simp only [List.mem_filter, decide_eq_true_eq] at hv
      obtain ⟨-, h1, h2⟩ := hv
      obtain ⟨B', hB', hv'⟩ := mem_vregs.1 (ins_vregs h1)
      obtain ⟨i, hi, o, ho, h⟩ := block_vregs hv'
      exact mem_nodes.2 ⟨h2, B', hB', i, hi, o, ho, h⟩
    | succ i ih =>
      unfold scanAt
      cases hi : B.insts[i]? with
      | none => exact ih
      | some inst => exact (step i inst hi ih).1
  intro i
  refine ⟨hlive i, ?_⟩
  unfold edgesAt
  cases hi : B.insts[i]? with
  | none => simp
  | some inst => exact (step i inst hi (hlive i)).2

theorem physEdges_mem {T : Target} {c : Nat} {f : Func} {e : Reg × Reg} (h : e ∈ physEdges T c f) :
    ∃ v p, e = (Reg.vr v, Reg.ph p) ∧ v ∈ nodes T c f := by
  unfold physEdges at h
  rw [List.mem_flatMap] at h
  obtain ⟨b, -, h⟩ := h
  cases hB : f[b]? with
  | none => rw [hB] at h; cases h
  | some B =>
    rw [hB] at h
    simp only [List.mem_flatMap] at h
    obtain ⟨i, -, h⟩ := h
    exact (scan_nodes hB i).2 e h

theorem physEdges_of_at {T : Target} {c : Nat} {f : Func} {b i : Nat} {B : Block} (hB : f[b]? = some B)
    (hi : i < B.insts.length) {e : Reg × Reg} (h : e ∈ edgesAt T c f b B i) : e ∈ physEdges T c f := by
  unfold physEdges
  rw [List.mem_flatMap]
  refine ⟨b, by simpa using (List.getElem?_eq_some_iff.1 hB).1, ?_⟩
  rw [hB]
  simp only [List.mem_flatMap]
  exact ⟨i, by simpa using hi, h⟩

/-- GraphColoringRegisterAllocator.cpp:268-416: the graph is well formed, its nodes are the virtual
    registers of the class, its edges the ones collected. -/
theorem graphOf_spec (T : Target) (c : Nat) (f : Func) :
    (graphOf T c f).Ok ∧ (∀ v, v ∈ nodes T c f ↔ v ∈ (graphOf T c f).keys) ∧
    (∀ x y, y ∈ (graphOf T c f).adj x ↔
      (x, y) ∈ physEdges T c f ++ vregEdges f (nodes T c f) ∨
      (y, x) ∈ physEdges T c f ++ vregEdges f (nodes T c f)) := by
  obtain ⟨t1, t2, t3⟩ := touch_fold (nodes T c f) {} ok_empty
  have hnd : (nodes T c f).Nodup := List.nodup_dedup _
  have hedge : ∀ e ∈ physEdges T c f ++ vregEdges f (nodes T c f), e.1 ≠ e.2 ∧
      ∀ v, (e.1 = .vr v ∨ e.2 = .vr v) → v ∈ nodes T c f := by
    intro e he
    rw [List.mem_append] at he
    rcases he with he | he
    · obtain ⟨v, p, rfl, hv⟩ := physEdges_mem he
      refine ⟨by simp, ?_⟩
      rintro w (h | h)
      · cases h; exact hv
      · cases h
    · obtain ⟨u, v, rfl, hu, hv, hne⟩ := vregEdges_mem _ _ he
      refine ⟨by simpa using hne hnd, ?_⟩
      rintro w (h | h)
      · cases h; exact hu
      · cases h; exact hv
  obtain ⟨g1, g2, g3⟩ := edge_fold (physEdges T c f ++ vregEdges f (nodes T c f)) _ t1
    (fun e he => (hedge e he).1)
  refine ⟨g1, ?_, ?_⟩
  · intro v
    unfold graphOf
    rw [g3, t3]
    constructor
    · intro h; exact Or.inl (Or.inl h)
    · rintro ((h | h) | ⟨e, he, h⟩)
      · exact h
      · simp at h
      · exact (hedge e he).2 v h
  · intro x y
    unfold graphOf
    rw [g2, t2]
    simp

/-! ## What the assignment satisfies -/

/-- The classes partition the registers, and allocation lists have no repetition. -/
def Target.Ok (T : Target) : Prop :=
  (∀ c r, r ∈ T.list c → T.clsP r = c ∧ T.zero r = false) ∧ ∀ c, (T.list c).Nodup

/-- GraphColoringRegisterAllocator.cpp:455-605: the assignment of a class never gets stuck once the graph
    could be taken apart, leaves the registers of other classes alone, and respects the graph. -/
theorem allocClass_spec {h : Choices} (hh : h.Ok) {T : Target} (hT : T.Ok) {f : Func} {c : Nat}
    {m : Nat → Option Nat} (hm : ∀ v ∈ nodes T c f, m v = none) :
    (∀ st, simplify h.pickQ (nodes T c f) (T.list c).length (graphOf T c f).keys.card
      (prepare (graphOf T c f) (nodes T c f) (T.list c).length) = some st →
      (allocClass h T f c m).isSome) ∧
    ∀ m', allocClass h T f c m = some m' →
      (∀ v, v ∉ nodes T c f → m' v = m v) ∧
      ∀ u ∈ nodes T c f, ∃ r, m' u = some r ∧ r ∈ T.list c ∧ Reg.ph r ∉ (graphOf T c f).adj (.vr u) ∧
        ∀ v, Reg.vr v ∈ (graphOf T c f).adj (.vr u) → m' v ≠ some r := by
  obtain ⟨g1, g2, g3⟩ := graphOf_spec T c f
  have hnd : (nodes T c f).Nodup := List.nodup_dedup _
  have key : ∀ st, simplify h.pickQ (nodes T c f) (T.list c).length (graphOf T c f).keys.card
      (prepare (graphOf T c f) (nodes T c f) (T.list c).length) = some st →
      ∃ m', colour h.pickR (graphOf T c f) (T.list c) st m = some m' ∧
        (∀ x, x ∉ nodes T c f → m' x = m x) ∧
        ∀ u ∈ nodes T c f, ∃ r, m' u = some r ∧ r ∈ T.list c ∧ Reg.ph r ∉ (graphOf T c f).adj (.vr u) ∧
          ∀ v, Reg.vr v ∈ (graphOf T c f).adj (.vr u) → m' v ≠ some r := by
    intro st hs
    obtain ⟨o1, o2⟩ := simplify_ok g1 hnd hh.1 _ _ (inv_prepare g1 g2 hnd _) st hs
    have hst : ∀ v, v ∈ st ↔ v ∈ nodes T c f := fun v => (o2 v).trans (g2 v).symm
    obtain ⟨m', e1, e2, e3⟩ := colour_ok g1 (hT.2 c) hh.2 st m o1
      (fun u hu => hm u ((hst u).1 hu))
      (fun u hu v hv => Or.inl ((o2 v).2 (g1.keys v _ (g1.symm _ _ hv))))
    exact ⟨m', e1, fun x hx => e2 x (fun hx' => hx ((hst x).1 hx')), fun u hu => e3 u ((hst u).2 hu)⟩
  refine ⟨?_, ?_⟩
  · intro st hs
    obtain ⟨m', e1, -⟩ := key st hs
    unfold allocClass
    simp only
    rw [hs]
    simp [e1]
  · intro m' ha
    unfold allocClass at ha
    simp only at ha
    split at ha
    · cases ha
    · rename_i st hs
      obtain ⟨m'', e1, e2, e3⟩ := key st hs
      rw [e1] at ha
      cases ha
      exact ⟨e2, e3⟩

/-- What the final map satisfies for the classes below `n`. -/
structure Assigned (T : Target) (f : Func) (n : Nat) (m : Nat → Option Nat) : Prop where
  none_ : ∀ v, n ≤ T.clsV v → m v = none
  range : ∀ c, c < n → ∀ u ∈ nodes T c f, ∃ r, m u = some r ∧ r ∈ T.list c ∧
    Reg.ph r ∉ (graphOf T c f).adj (.vr u) ∧ ∀ v, Reg.vr v ∈ (graphOf T c f).adj (.vr u) → m v ≠ some r

theorem allocate_spec {h : Choices} (hh : h.Ok) {T : Target} (hT : T.Ok) {f : Func} :
    ∀ n m, allocate h T f n = some m → Assigned T f n m := by
  intro n
  induction n with
  | zero =>
    intro m hm
    cases hm
    exact ⟨fun _ _ => rfl, fun c hc => by omega⟩
  | succ n ih =>
    intro m hm
    unfold allocate at hm
    cases ha : allocate h T f n with
    | none => rw [ha] at hm; cases hm
    | some m₀ =>
      rw [ha] at hm
      simp only at hm
      have h0 := ih m₀ ha
      obtain ⟨-, hs⟩ := allocClass_spec hh hT (f := f) (c := n) (m := m₀)
        (fun v hv => h0.none_ v (by rw [(mem_nodes.1 hv).1]))
      obtain ⟨s1, s2⟩ := hs m hm
      refine ⟨?_, ?_⟩
      · intro v hv
        rw [s1 v (fun hn => by have := (mem_nodes.1 hn).1; omega)]
        exact h0.none_ v (by omega)
      · intro c hc u hu
        by_cases hcn : c = n
        · subst hcn; exact s2 u hu
        · obtain ⟨r, r1, r2, r3, r4⟩ := h0.range c (by omega) u hu
          have huc := (mem_nodes.1 hu).1
          have keep : ∀ v, T.clsV v = c → m v = m₀ v := by
            intro v hv
            exact s1 v (fun hn => by have := (mem_nodes.1 hn).1; omega)
          refine ⟨r, by rw [keep u huc]; exact r1, r2, r3, ?_⟩
          intro v hv
          have hvk : v ∈ nodes T c f :=
            ((graphOf_spec T c f).2.1 v).2 ((graphOf_spec T c f).1.keys v _ ((graphOf_spec T c f).1.symm _ _ hv))
          rw [keep v (mem_nodes.1 hvk).1]
          exact r4 v hv

end Cmmc.Mir
