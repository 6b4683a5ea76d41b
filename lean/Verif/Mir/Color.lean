import Verif.Mir.Sem
import Mathlib.Data.Finset.Card
import Mathlib.Data.List.Nodup
import Mathlib.Data.Finset.Image
import Mathlib.Algebra.Order.BigOperators.Group.Finset

/-!
# Colouring the interference graph

`InterferenceGraph` and the assignment part of `graphColoringAllocateImpl`
(`/repo/cmmc/CodeGen/GraphColoringRegisterAllocator.cpp:51-115, 460-605`).

Which of the registers ready for removal is taken first (the priority queue ordered by spill weight), and
which of the free colours is given to a register (copy hints, hazard avoidance), are heuristics. The model
takes both as arbitrary choice functions, so the theorems hold for every heuristic.
-/

namespace Cmmc.Mir

/-- GraphColoringRegisterAllocator.cpp:51-55: `mAdj` and `mDegree` (whose keys are the virtual registers
    still in the graph). -/
structure Graph where
  adj : Reg → Finset Reg := fun _ => ∅
  deg : Nat → Nat := fun _ => 0
  keys : Finset Nat := ∅

def bump (d : Nat → Nat) : Reg → Nat → Nat
  | .vr v => fun x => if x = v then d x + 1 else d x
  | .ph _ => d

def addKey (s : Finset Nat) : Reg → Finset Nat
  | .vr v => insert v s
  | .ph _ => s

/-- GraphColoringRegisterAllocator.cpp:58-69 `addEdge`. -/
def Graph.addEdge (g : Graph) (a b : Reg) : Graph :=
  if b ∈ g.adj a then g
  else
    let adj1 := fun x => if x = a then insert b (g.adj x) else g.adj x
    { adj := fun x => if x = b then insert a (adj1 x) else adj1 x
      deg := bump (bump g.deg a) b
      keys := addKey (addKey g.keys a) b }

/-- GraphColoringRegisterAllocator.cpp:70-73 `touch`. -/
def Graph.touch (g : Graph) (v : Nat) : Graph :=
  if v ∈ g.keys then g else { g with keys := insert v g.keys, deg := fun x => if x = v then 0 else g.deg x }

/-- The graph while it is being taken apart: the queue of registers with fewer than `k` neighbours, and the
    stack of the registers removed so far. -/
structure Work where
  g : Graph
  queue : List Nat
  stack : List Nat

/-- GraphColoringRegisterAllocator.cpp:74-82 `prepareForAssign`. (The keys are listed in some order.) -/
def prepare (g : Graph) (keys : List Nat) (k : Nat) : Work :=
  { g := g, queue := keys.filter (fun v => g.deg v < k), stack := [] }

/-- GraphColoringRegisterAllocator.cpp:87-109 `pickToAssign` once `u` was taken from the queue: every
    neighbour loses an edge, and one that had exactly `k` joins the queue. The loop over the neighbours
    treats each once, so its effect is written as one simultaneous update. -/
def Work.pick (w : Work) (keys : List Nat) (k u : Nat) : Work :=
  { g :=
      { adj := fun x => if x = .vr u then ∅ else (w.g.adj x).erase (.vr u)
        deg := fun v => if Reg.vr v ∈ w.g.adj (.vr u) then w.g.deg v - 1 else w.g.deg v
        keys := w.g.keys.erase u }
    queue := w.queue.erase u ++
      keys.filter (fun v => v ∈ w.g.keys ∧ Reg.vr v ∈ w.g.adj (.vr u) ∧ w.g.deg v = k)
    stack := u :: w.stack }

/-- GraphColoringRegisterAllocator.cpp:464-477: take registers out of the graph until it is empty; `none`
    if the queue runs dry first (then a register must be spilled). `pickQ` is the choice made by the
    priority queue. -/
def simplify (pickQ : List Nat → Nat) (keys : List Nat) (k : Nat) : Nat → Work → Option (List Nat)
  | n, w =>
    if w.g.keys = ∅ then some w.stack
    else match n with
      | 0 => none
      | n + 1 => if w.queue = [] then none else simplify pickQ keys k n (w.pick keys k (pickQ w.queue))

/-- The physical register a neighbour occupies, if any. -/
def occupied (m : Nat → Option Nat) : Reg → Finset Nat
  | .ph p => {p}
  | .vr v => match m v with
    | some r => {r}
    | none => ∅

/-- GraphColoringRegisterAllocator.cpp:508-520: the registers the neighbours of `u` occupy. -/
def exclude (g : Graph) (m : Nat → Option Nat) (u : Nat) : Finset Nat :=
  (g.adj (.vr u)).biUnion (occupied m)

/-- GraphColoringRegisterAllocator.cpp:505-603: pop the registers and give each one a register of the
    allocation list that no neighbour occupies. `pickR` is the choice among the free ones (the copy hint
    if it gives one, otherwise the first free register or the cheapest one); `none` stands for
    `reportUnreachable`. -/
def colour (pickR : Nat → List Nat → Nat) (g : Graph) (list : List Nat) :
    List Nat → (Nat → Option Nat) → Option (Nat → Option Nat)
  | [], m => some m
  | u :: st, m =>
    match list.filter (fun r => r ∉ exclude g m u) with
    | [] => none
    | c :: cs => colour pickR g list st (fun x => if x = u then some (pickR u (c :: cs)) else m x)

/-! ## Well-formed graphs -/

/-- The graph describes a symmetric relation without self-edges between virtual registers that are keys and
    other registers, with the right degrees. -/
structure Graph.Ok (g : Graph) : Prop where
  symm : ∀ a b, b ∈ g.adj a → a ∈ g.adj b
  irrefl : ∀ a, a ∉ g.adj a
  keys : ∀ v x, x ∈ g.adj (.vr v) → v ∈ g.keys
  deg : ∀ v, g.deg v = (g.adj (.vr v)).card

theorem ok_empty : Graph.Ok {} :=
  ⟨by simp, by simp, by simp, by simp⟩

theorem ok_touch {g : Graph} (h : g.Ok) (v : Nat) : (g.touch v).Ok := by
  unfold Graph.touch
  split
  · exact h
  · rename_i hv
    refine ⟨h.symm, h.irrefl, fun w x hx => by simp [h.keys w x hx], ?_⟩
    intro w
    simp only
    split
    · rename_i e; subst e
      have : g.adj (.vr w) = ∅ := by
        by_contra hne
        obtain ⟨x, hx⟩ := Finset.nonempty_iff_ne_empty.2 hne
        exact hv (h.keys w x hx)
      simp [this]
    · exact h.deg w

theorem touch_adj (g : Graph) (v : Nat) : (g.touch v).adj = g.adj := by
  unfold Graph.touch; split <;> rfl

theorem mem_touch_keys {g : Graph} {v w : Nat} : w ∈ (g.touch v).keys ↔ w = v ∨ w ∈ g.keys := by
  unfold Graph.touch
  split
  · constructor
    · exact Or.inr
    · rintro (rfl | h)
      · assumption
      · exact h
  · simp

theorem addEdge_adj {g : Graph} (h : g.Ok) (a b : Reg) (x y : Reg) :
    y ∈ (g.addEdge a b).adj x ↔ y ∈ g.adj x ∨ (x = a ∧ y = b) ∨ (x = b ∧ y = a) := by
  unfold Graph.addEdge
  split
  · rename_i hb
    constructor
    · exact Or.inl
    · rintro (h' | ⟨rfl, rfl⟩ | ⟨rfl, rfl⟩)
      · exact h'
      · exact hb
      · exact h.symm _ _ hb
  · simp only
    by_cases hxa : x = a <;> by_cases hxb : x = b
    · subst hxa; subst hxb; simp; tauto
    · subst hxa; simp [hxb]; tauto
    · subst hxb; simp [hxa]; tauto
    · simp [hxa, hxb]

theorem mem_addEdge_keys {g : Graph} {a b : Reg} {w : Nat} (h : g.Ok) :
    w ∈ (g.addEdge a b).keys ↔ w ∈ g.keys ∨ a = .vr w ∨ b = .vr w := by
  unfold Graph.addEdge
  split
  · rename_i hb
    constructor
    · exact Or.inl
    · rintro (h' | rfl | rfl)
      · exact h'
      · exact h.keys w _ hb
      · exact h.keys w _ (h.symm _ _ hb)
  · cases a <;> cases b <;> simp [addKey] <;> tauto

theorem ok_addEdge {g : Graph} (h : g.Ok) {a b : Reg} (hab : a ≠ b) : (g.addEdge a b).Ok := by
  refine ⟨?_, ?_, ?_, ?_⟩
  · intro x y hy
    rw [addEdge_adj h] at hy ⊢
    rcases hy with hy | hy | hy
    · exact Or.inl (h.symm _ _ hy)
    · exact Or.inr (Or.inr ⟨hy.2, hy.1⟩)
    · exact Or.inr (Or.inl ⟨hy.2, hy.1⟩)
  · intro x hx
    rw [addEdge_adj h] at hx
    rcases hx with hx | ⟨hx, hy⟩ | ⟨hx, hy⟩
    · exact h.irrefl x hx
    · exact hab (hx.symm.trans hy)
    · exact hab (hy.symm.trans hx)
  · intro v x hx
    rw [addEdge_adj h] at hx
    rw [mem_addEdge_keys h]
    rcases hx with hx | ⟨hx, _⟩ | ⟨hx, _⟩
    · exact Or.inl (h.keys v x hx)
    · exact Or.inr (Or.inl hx.symm)
    · exact Or.inr (Or.inr hx.symm)
  · intro v
    unfold Graph.addEdge
    split
    · exact h.deg v
    · rename_i hb
      have hba : a ∉ g.adj b := fun h' => hb (h.symm _ _ h')
      simp only
      by_cases hva : Reg.vr v = a
      · have hvb : Reg.vr v ≠ b := fun e => hab (hva.symm.trans e)
        rw [if_neg hvb, if_pos hva, Finset.card_insert_of_notMem (by rw [hva]; exact hb), ← h.deg v]
        subst hva
        cases b with
        | vr w =>
          have : v ≠ w := fun e => hvb (by rw [e])
          simp [bump, this]
        | ph p => simp [bump]
      · by_cases hvb : Reg.vr v = b
        · rw [if_pos hvb, if_neg hva, Finset.card_insert_of_notMem (by rw [hvb]; exact hba), ← h.deg v]
          subst hvb
          cases a with
          | vr w =>
            have : v ≠ w := fun e => hva (by rw [e])
            simp [bump, this]
          | ph p => simp [bump]
        · rw [if_neg hvb, if_neg hva, ← h.deg v]
          cases a with
          | vr w =>
            have h1 : v ≠ w := fun e => hva (by rw [e])
            cases b with
            | vr w' =>
              have h2 : v ≠ w' := fun e => hvb (by rw [e])
              simp [bump, h1, h2]
            | ph p => simp [bump, h1]
          | ph p =>
            cases b with
            | vr w' =>
              have h2 : v ≠ w' := fun e => hvb (by rw [e])
              simp [bump, h2]
            | ph p => simp [bump]

/-! ## Taking the graph apart -/

/-- `u :: rest`: when `u` was removed, after everything in `rest`, it had fewer than `k` neighbours left. -/
def OkStack (g : Graph) (k : Nat) : List Nat → Prop
  | [] => True
  | u :: rest => ((g.adj (.vr u)).filter (fun x => ∀ v ∈ rest, x ≠ .vr v)).card < k ∧ u ∉ rest ∧
      OkStack g k rest

/-- What holds while the graph `g` is being taken apart. -/
structure Work.Inv (g : Graph) (keys : List Nat) (k : Nat) (w : Work) : Prop where
  ok : OkStack g k w.stack
  keysL : ∀ v, v ∈ keys ↔ v ∈ g.keys
  adj : ∀ v, v ∉ w.stack → w.g.adj (.vr v) = (g.adj (.vr v)).filter (fun x => ∀ u ∈ w.stack, x ≠ .vr u)
  deg : ∀ v, v ∈ w.g.keys → w.g.deg v = (w.g.adj (.vr v)).card
  mem : ∀ v, v ∈ w.g.keys ↔ v ∈ g.keys ∧ v ∉ w.stack
  stk : ∀ v ∈ w.stack, v ∈ g.keys
  queue : ∀ v, v ∈ w.queue ↔ v ∈ w.g.keys ∧ w.g.deg v < k
  nodup : w.queue.Nodup

theorem inv_prepare {g : Graph} (hg : g.Ok) {keys : List Nat} (hk : ∀ v, v ∈ keys ↔ v ∈ g.keys)
    (hn : keys.Nodup) (k : Nat) : (prepare g keys k).Inv g keys k where
  ok := trivial
  keysL := hk
  adj := by intro v _; simp [prepare]
  deg := by intro v _; exact hg.deg v
  mem := by intro v; simp [prepare]
  stk := by intro v hv; simp [prepare] at hv
  queue := by intro v; simp [prepare, hk]
  nodup := hn.filter _

theorem inv_pick {g : Graph} (hg : g.Ok) {keys : List Nat} (hkn : keys.Nodup) {k : Nat} {w : Work}
    (h : w.Inv g keys k) {u : Nat} (hu : u ∈ w.queue) : (w.pick keys k u).Inv g keys k := by
  obtain ⟨huk, hud⟩ := (h.queue u).1 hu
  obtain ⟨hug, hus⟩ := (h.mem u).1 huk
  have hself : Reg.vr u ∉ w.g.adj (.vr u) := by
    rw [h.adj u hus]; intro hh; exact hg.irrefl _ (Finset.mem_filter.1 hh).1
  -- adjacency among the remaining registers is symmetric
  have hsym : ∀ v, v ∉ w.stack → (Reg.vr v ∈ w.g.adj (.vr u) ↔ Reg.vr u ∈ w.g.adj (.vr v)) := by
    intro v hv
    rw [h.adj u hus, h.adj v hv, Finset.mem_filter, Finset.mem_filter]
    constructor
    · rintro ⟨a, -⟩; exact ⟨hg.symm _ _ a, fun x hx e => by cases e; exact hus hx⟩
    · rintro ⟨a, -⟩; exact ⟨hg.symm _ _ a, fun x hx e => by cases e; exact hv hx⟩
  have hdeg' : ∀ v, v ∈ w.g.keys → v ≠ u → (w.pick keys k u).g.deg v =
      ((w.pick keys k u).g.adj (.vr v)).card := by
    intro v hv hvu
    have hvs := ((h.mem v).1 hv).2
    simp only [Work.pick]
    have hne : ¬ Reg.vr v = Reg.vr u := fun e => hvu (by cases e; rfl)
    rw [if_neg hne]
    by_cases hadj : Reg.vr v ∈ w.g.adj (.vr u)
    · rw [if_pos hadj, Finset.card_erase_of_mem ((hsym v hvs).1 hadj), h.deg v hv]
    · rw [if_neg hadj, Finset.erase_eq_of_notMem (fun hh => hadj ((hsym v hvs).2 hh)), h.deg v hv]
  refine ⟨?_, h.keysL, ?_, ?_, ?_, ?_, ?_, ?_⟩
  · refine ⟨?_, hus, h.ok⟩
    have := h.adj u hus
    rw [← this, ← h.deg u huk]
    exact hud
  · intro v hv
    simp only [Work.pick, List.mem_cons, not_or] at hv
    simp only [Work.pick]
    rw [if_neg (by intro e; cases e; exact hv.1 rfl), h.adj v hv.2]
    ext x
    simp only [Finset.mem_erase, Finset.mem_filter, List.mem_cons, forall_eq_or_imp]
    tauto
  · intro v hv
    simp only [Work.pick, Finset.mem_erase] at hv
    exact hdeg' v hv.2 hv.1
  · intro v
    simp only [Work.pick, Finset.mem_erase, h.mem, List.mem_cons, not_or]
    tauto
  · intro v hv
    simp only [Work.pick, List.mem_cons] at hv
    rcases hv with rfl | hv
    · exact hug
    · exact h.stk v hv
  · intro v
    have hq : v ∈ (w.pick keys k u).queue ↔ (v ∈ w.queue.erase u) ∨
        (v ∈ keys ∧ v ∈ w.g.keys ∧ Reg.vr v ∈ w.g.adj (.vr u) ∧ w.g.deg v = k) := by
      simp [Work.pick]
    rw [hq, h.nodup.mem_erase_iff, h.queue]
    by_cases hvu : v = u
    · subst hvu
      simp [Work.pick, hself]
    · constructor
      · rintro (⟨-, h1, h2⟩ | ⟨-, h1, h2, h3⟩)
        · refine ⟨by simp [Work.pick, hvu, h1], ?_⟩
          simp only [Work.pick]
          split <;> omega
        · refine ⟨by simp [Work.pick, hvu, h1], ?_⟩
          simp only [Work.pick]
          rw [if_pos h2]
          have hpos : 0 < w.g.deg v := by
            rw [h.deg v h1]
            apply Finset.card_pos.2
            exact ⟨_, (hsym v ((h.mem v).1 h1).2).1 h2⟩
          omega
      · rintro ⟨h1, h2⟩
        simp only [Work.pick, Finset.mem_erase] at h1
        simp only [Work.pick] at h2
        by_cases hlt : w.g.deg v < k
        · exact Or.inl ⟨hvu, h1.2, hlt⟩
        · right
          split at h2
          · rename_i hadj
            refine ⟨(h.keysL v).2 ((h.mem v).1 h1.2).1, h1.2, hadj, ?_⟩
            omega
          · exact absurd h2 hlt
  · simp only [Work.pick]
    rw [List.nodup_append]
    refine ⟨h.nodup.erase _, hkn.filter _, ?_⟩
    intro a ha b hb e
    subst e
    have h1 := ((h.queue a).1 (List.mem_of_mem_erase ha)).2
    simp at hb
    omega

/-- If the graph could be emptied, every virtual register is on the stack, and had fewer than `k`
    neighbours left when it was removed. -/
theorem simplify_ok {g : Graph} (hg : g.Ok) {keys : List Nat} (hkn : keys.Nodup) {k : Nat}
    {pickQ : List Nat → Nat} (hq : ∀ q, q ≠ [] → pickQ q ∈ q) :
    ∀ (n : Nat) (w : Work), w.Inv g keys k → ∀ st, simplify pickQ keys k n w = some st →
      OkStack g k st ∧ ∀ v, v ∈ st ↔ v ∈ g.keys := by
  intro n
  induction n with
  | zero =>
    intro w h st hs
    unfold simplify at hs
    split at hs
    · rename_i he
      cases hs
      refine ⟨h.ok, fun v => ⟨h.stk v, ?_⟩⟩
      intro hv
      by_contra hns
      have := (h.mem v).2 ⟨hv, hns⟩
      rw [he] at this; simp at this
    · cases hs
  | succ n ih =>
    intro w h st hs
    unfold simplify at hs
    split at hs
    · rename_i he
      cases hs
      refine ⟨h.ok, fun v => ⟨h.stk v, ?_⟩⟩
      intro hv
      by_contra hns
      have := (h.mem v).2 ⟨hv, hns⟩
      rw [he] at this; simp at this
    · simp only at hs
      split at hs
      · cases hs
      · rename_i hne
        exact ih _ (inv_pick hg hkn h (hq _ hne)) st hs

/-- A register is given up only when every register left has at least `k` neighbours left. -/
theorem simplify_stuck {g : Graph} (hg : g.Ok) {keys : List Nat} (hkn : keys.Nodup) {k : Nat}
    {pickQ : List Nat → Nat} (hq : ∀ q, q ≠ [] → pickQ q ∈ q) :
    ∀ (n : Nat) (w : Work), w.Inv g keys k → w.g.keys.card ≤ n → simplify pickQ keys k n w = none →
      ∃ s : Finset Nat, s ≠ ∅ ∧ s ⊆ g.keys ∧
        ∀ v ∈ s, ∃ N ⊆ g.adj (.vr v), k ≤ N.card ∧ ∀ u, Reg.vr u ∈ N → u ∈ s := by
  intro n
  induction n with
  | zero =>
    intro w h hc hs
    unfold simplify at hs
    split at hs
    · cases hs
    · rename_i hne
      exfalso; apply hne
      exact Finset.card_eq_zero.1 (by omega)
  | succ n ih =>
    intro w h hc hs
    unfold simplify at hs
    split at hs
    · cases hs
    · rename_i hne
      simp only at hs
      split at hs
      · rename_i hqe
        refine ⟨w.g.keys, hne, fun v hv => ((h.mem v).1 hv).1, ?_⟩
        intro v hv
        have hnq : ¬ w.g.deg v < k := by
          intro hlt
          have := (h.queue v).2 ⟨hv, hlt⟩
          rw [hqe] at this; cases this
        have hvs := ((h.mem v).1 hv).2
        rw [h.deg v hv, h.adj v hvs] at hnq
        refine ⟨_, Finset.filter_subset _ _, not_lt.1 hnq, ?_⟩
        intro u hu
        obtain ⟨h1, h2⟩ := Finset.mem_filter.1 hu
        exact (h.mem u).2 ⟨hg.keys u _ (hg.symm _ _ h1), fun hu => h2 u hu rfl⟩
      · rename_i hqne
        have hu := hq _ hqne
        have huk := ((h.queue _).1 hu).1
        apply ih _ (inv_pick hg hkn h hu) _ hs
        simp only [Work.pick]
        rw [Finset.card_erase_of_mem huk]
        omega

/-! ## Colouring -/

/-- Every pop finds a free register, and the registers given respect the graph. -/
theorem colour_ok {g : Graph} (hg : g.Ok) {list : List Nat} (hl : list.Nodup)
    {pickR : Nat → List Nat → Nat} (hr : ∀ u c, c ≠ [] → pickR u c ∈ c) :
    ∀ (st : List Nat) (m : Nat → Option Nat), OkStack g list.length st →
      (∀ u ∈ st, m u = none) →
      (∀ u ∈ st, ∀ v, Reg.vr v ∈ g.adj (.vr u) → v ∈ st ∨ (m v).isSome) →
      ∃ m', colour pickR g list st m = some m' ∧
        (∀ x, x ∉ st → m' x = m x) ∧
        ∀ u ∈ st, ∃ r, m' u = some r ∧ r ∈ list ∧ Reg.ph r ∉ g.adj (.vr u) ∧
          ∀ v, Reg.vr v ∈ g.adj (.vr u) → m' v ≠ some r := by
  intro st
  induction st with
  | nil => intro m _ _ _; exact ⟨m, rfl, fun _ _ => rfl, by simp⟩
  | cons u st ih =>
    intro m hok hm hadj
    obtain ⟨hcard, hust, hok'⟩ := hok
    -- the colours excluded are fewer than the registers
    have hex : (exclude g m u).card < list.length := by
      refine lt_of_le_of_lt ?_ hcard
      have hsub : exclude g m u ⊆
          ((g.adj (.vr u)).filter (fun x => ∀ v ∈ st, x ≠ .vr v)).biUnion (occupied m) := by
        intro r hr
        unfold exclude at hr
        rw [Finset.mem_biUnion] at hr ⊢
        obtain ⟨x, hx, hrx⟩ := hr
        refine ⟨x, Finset.mem_filter.2 ⟨hx, ?_⟩, hrx⟩
        rintro v hv rfl
        simp [occupied, hm v (by simp [hv])] at hrx
      refine le_trans (Finset.card_le_card hsub) (le_trans Finset.card_biUnion_le ?_)
      have : ∀ x ∈ (g.adj (.vr u)).filter (fun x => ∀ v ∈ st, x ≠ .vr v), (occupied m x).card ≤ 1 := by
        intro x _
        cases x with
        | ph p => simp [occupied]
        | vr v => simp only [occupied]; split <;> simp
      have h2 := Finset.sum_le_card_nsmul _ _ 1 this
      simpa using h2
    have hfree : list.filter (fun r => r ∉ exclude g m u) ≠ [] := by
      intro he
      have hall : ∀ r ∈ list, r ∈ exclude g m u := by
        intro r hr
        by_contra hne
        have : r ∈ list.filter (fun r => r ∉ exclude g m u) := by simp [hr, hne]
        rw [he] at this; cases this
      have : list.toFinset.card ≤ (exclude g m u).card :=
        Finset.card_le_card (fun r hr => hall r (by simpa using hr))
      rw [List.toFinset_card_of_nodup hl] at this
      omega
    unfold colour
    cases hcs : list.filter (fun r => r ∉ exclude g m u) with
    | nil => exact absurd hcs hfree
    | cons c cs =>
      simp only
      have hc := hr u (c :: cs) (by simp)
      rw [← hcs] at hc
      rw [List.mem_filter] at hc
      obtain ⟨hcl, hcx⟩ := hc
      simp only [decide_eq_true_eq] at hcx
      rw [hcs] at hcl hcx
      generalize hcol : pickR u (c :: cs) = col at hcl hcx
      obtain ⟨m', e1, e2, e3⟩ := ih (fun x => if x = u then some col else m x) hok'
        (by
          intro w hw
          have : w ≠ u := fun e => hust (e ▸ hw)
          simp [this, hm w (by simp [hw])])
        (by
          intro w hw v hv
          rcases hadj w (by simp [hw]) v hv with h | h
          · rcases List.mem_cons.1 h with rfl | h
            · right; simp
            · exact Or.inl h
          · right
            by_cases hvu : v = u
            · simp [hvu]
            · simpa [hvu] using h)
      refine ⟨m', e1, ?_, ?_⟩
      · intro x hx
        simp only [List.mem_cons, not_or] at hx
        rw [e2 x hx.2]
        simp [hx.1]
      · intro w hw
        have hmu : m' u = some col := by rw [e2 u hust]; simp
        rcases List.mem_cons.1 hw with rfl | hw
        · refine ⟨col, hmu, hcl, ?_, ?_⟩
          · intro hp
            apply hcx
            unfold exclude
            exact Finset.mem_biUnion.2 ⟨_, hp, by simp [occupied]⟩
          · intro v hv hmv
            by_cases hvs : v ∈ st
            · obtain ⟨r, h1, -, -, h4⟩ := e3 v hvs
              rw [h1] at hmv
              cases hmv
              exact h4 w (hg.symm _ _ hv) hmu
            · by_cases hvw : v = w
              · subst hvw; exact hg.irrefl _ hv
              · rw [e2 v hvs] at hmv
                simp only [hvw, if_false] at hmv
                apply hcx
                unfold exclude
                exact Finset.mem_biUnion.2 ⟨_, hv, by simp [occupied, hmv]⟩
        · exact e3 w hw

end Cmmc.Mir
