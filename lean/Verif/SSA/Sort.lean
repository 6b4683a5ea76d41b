import Verif.SSA.BlockElim
/-!
# C76: BlockSort (cmmc/Transforms/Misc/BlockSort.cpp:30-103)

The pass reorders the list of blocks. In the code `entryBlock()` is `blocks().front()` (Function.hpp:109-111), so that a permutation which does not leave the entry in
front changes where the function starts. In the model `Func.entry` is a field of its own; `sortBlocks` therefore sets it to the front of the new list.

* `weight` is an association list in order of insertion; `weight.emplace` does nothing if the key is there. Weights are `uint32_t`: computed modulo 2^32.
* The queue starts with the entry, which gets its weight (0) when it is taken out (`weight[u]`, line 57).
* `std::list::sort` is stable: `List.insertionSort`-like `mergeSort` of the standard library; the result of a stable sort is unique.
-/
namespace Cmmc.SSA
variable {Op C : Type}

/-- `uint32_t` (BlockSort.cpp:36-43) -/
def w32 (n : Nat) : Nat := n % 4294967296

/-- the targets of a terminator with their weights, given the weight of the block (BlockSort.cpp:59-91) -/
def targetWeights (val : Nat) : Term C → List (Nat × Nat)
  | .br t => [(t, w32 (val + 100))]
  | .cbr _ t f => [(t, w32 (val + 100)), (f, w32 (val + 101))]
  | .sw _ d cs => (cs.map Prod.snd ++ [d]).zipIdx.map (fun e => (e.1, w32 (100 + e.2)))
  | .ret _ => []
  | .unreachable => []

/-- what a block adds to its own weight (BlockSort.cpp:62, 69, 80, 84, 88) -/
def ownCost : Term C → Nat
  | .br _ => 0
  | .cbr .. => 2
  | .sw .. => 3
  | .unreachable => 1000000
  | .ret _ => 10

abbrev Weights := List (Nat × Nat)

def Weights.get (w : Weights) (b : Nat) : Option Nat := (w.find? (fun e => e.1 == b)).map Prod.snd

/-- `weight.emplace(block, w).second`, then `q.push(block)` (BlockSort.cpp:46-49) -/
def addTarget (s : Weights × List Nat) (e : Nat × Nat) : Weights × List Nat :=
  match s.1.get e.1 with
  | some _ => s
  | none => (s.1 ++ [e], s.2 ++ [e.1])

/-- `weight[u]`, created as 0 (BlockSort.cpp:54) -/
def Weights.touch (w : Weights) (b : Nat) : Weights :=
  match w.get b with
  | some _ => w
  | none => w ++ [(b, 0)]

/-- `val += cost` through the reference (BlockSort.cpp:62, 69, 80, 84, 88) -/
def Weights.bump (w : Weights) (b c : Nat) : Weights := w.map (fun e => if e.1 = b then (e.1, w32 (e.2 + c)) else e)

/-- the search (BlockSort.cpp:51-92); `none`: the fuel is used up, or a queued block has no contents -/
def sortSearch (F : Func Op C) : Nat → Weights → List Nat → Option Weights
  | _, w, [] => some w
  | 0, _, _ :: _ => none
  | n + 1, w, u :: q =>
    match F.blk u with
    | none => none
    | some B =>
      let w0 := w.touch u
      let s := (targetWeights ((w0.get u).getD 0) B.term).foldl addTarget (w0, q)
      sortSearch F n (s.1.bump u (ownCost B.term)) s.2

/-- weight of a block after line 96: blocks that were not reached get the largest number -/
def Weights.final (w : Weights) (b : Nat) : Nat := (w.get b).getD 4294967295

/-- `sortBlocks` (BlockSort.cpp:32-103) -/
def sortBlocks (F : Func Op C) : Option (Func Op C) :=
  if F.order.length ≤ 1 then some F
  else
    match sortSearch F F.order.length [] [F.entry] with
    | none => none
    | some w =>
      let order := F.order.mergeSort (fun a b => decide (w.final a ≤ w.final b))
      some { F with order := order, entry := order.headD F.entry }

/-! ## the search -/

/-- how much one block can add to the weights that follow -/
def span (F : Func Op C) (b : Nat) : Nat := 101 + (F.succs b).length

/-- the weights stay below 2^32: at least 40 million conditional branches would be needed to violate this -/
def SmallEnough (F : Func Op C) : Prop := (F.order.map (span F)).sum + 1000000 < 4294967296

theorem Weights.get_none {w : Weights} {b : Nat} : w.get b = none ↔ b ∉ w.map Prod.fst := by
  simp [Weights.get, List.find?_eq_none]
  constructor
  · intro h x hx; exact h b x hx rfl
  · intro h a x hx e; exact h x (e ▸ hx)

theorem Weights.get_mem {w : Weights} {b v : Nat} (h : w.get b = some v) : (b, v) ∈ w := by
  unfold Weights.get at h
  rw [Option.map_eq_some_iff] at h
  obtain ⟨⟨a, x⟩, h1, h2⟩ := h
  have h3 := List.find?_some h1
  simp only [beq_iff_eq] at h3
  simp only at h2
  subst h2; subst h3
  exact List.mem_of_find?_eq_some h1

theorem Weights.get_of_mem {w : Weights} (hn : (w.map Prod.fst).Nodup) {b v : Nat} (h : (b, v) ∈ w) : w.get b = some v := by
  cases h' : w.get b with
  | none => exact absurd (List.mem_map_of_mem (f := Prod.fst) h) (Weights.get_none.1 h')
  | some v' =>
    have h2 := Weights.get_mem h'
    have := List.inj_on_of_nodup_map hn h h2 rfl
    simp only [Prod.mk.injEq, true_and] at this
    rw [this]

theorem Weights.bump_keys (w : Weights) (b c : Nat) : (w.bump b c).map Prod.fst = w.map Prod.fst := by
  unfold Weights.bump
  rw [List.map_map]
  apply List.map_congr_left
  intro e _
  simp only [Function.comp]
  split <;> rfl

/-- what holds between two iterations: `done` are the blocks taken out of the queue -/
structure Srch (F : Func Op C) (done : List Nat) (w : Weights) (q : List Nat) : Prop where
  keys : w.map Prod.fst = done ++ q
  nodup : (done ++ q).Nodup
  known : ∀ b ∈ done ++ q, b ∈ F.order
  entry : F.entry ∈ done
  low : w.get F.entry = some (ownCost (((F.blk F.entry).map Block.term).getD .unreachable))
  high : ∀ b v, (b, v) ∈ w → b ≠ F.entry → 100 ≤ v
  bound : ∀ b v, (b, v) ∈ w → b ∈ q → v ≤ (done.map (span F)).sum
  alone : F.succs F.entry = [] → w.map Prod.fst = [F.entry]

theorem targetWeights_spec {F : Func Op C} {u val N : Nat} {B : Block Op C} (hB : F.blk u = some B) (hN : val ≤ N) (hs : N + span F u < 4294967296) :
    ∀ e ∈ targetWeights val B.term, e.1 ∈ F.succs u ∧ 100 ≤ e.2 ∧ e.2 ≤ N + span F u := by
  intro e he
  unfold span at hs ⊢
  have hsu : F.succs u = B.term.targets := by unfold Func.succs; rw [hB]
  rw [hsu] at hs ⊢
  cases ht : B.term with
  | ret v => rw [ht] at he; simp [targetWeights] at he
  | unreachable => rw [ht] at he; simp [targetWeights] at he
  | br t =>
    rw [ht] at he hs
    simp only [targetWeights, List.mem_singleton] at he
    subst he
    simp only [Term.targets, List.length_cons, List.length_nil, List.mem_singleton] at hs ⊢
    have : w32 (val + 100) = val + 100 := Nat.mod_eq_of_lt (by omega)
    rw [this]; exact ⟨by simp, by omega, by omega⟩
  | cbr c t f =>
    rw [ht] at he hs
    simp only [targetWeights, List.mem_cons, List.not_mem_nil, or_false] at he
    simp only [Term.targets, List.length_cons, List.length_nil] at hs ⊢
    have h1 : w32 (val + 100) = val + 100 := Nat.mod_eq_of_lt (by omega)
    have h2 : w32 (val + 101) = val + 101 := Nat.mod_eq_of_lt (by omega)
    rcases he with rfl | rfl
    · rw [h1]; exact ⟨by simp, by omega, by omega⟩
    · rw [h2]; exact ⟨by simp, by omega, by omega⟩
  | sw c d cs =>
    rw [ht] at he hs
    simp only [targetWeights, List.mem_map] at he
    obtain ⟨⟨t, k⟩, hk, rfl⟩ := he
    have hk' := List.mem_zipIdx' hk
    have hlt : k < cs.length + 1 := by have := hk'.1; simpa using this
    simp only [Term.targets, List.length_cons, List.length_map] at hs ⊢
    have h1 : w32 (100 + k) = 100 + k := Nat.mod_eq_of_lt (by omega)
    rw [h1]
    refine ⟨?_, by omega, by omega⟩
    have : t ∈ cs.map Prod.snd ++ [d] := by rw [hk'.2]; exact List.getElem_mem _
    simp only [List.mem_append, List.mem_singleton] at this
    exact List.mem_cons.2 (this.elim .inr .inl)

/-- adding targets to the map and the queue -/
theorem addTargets_spec (N : Nat) : ∀ (l : List (Nat × Nat)) (w : Weights) (q : List Nat), (∀ e ∈ l, 100 ≤ e.2 ∧ e.2 ≤ N) → (w.map Prod.fst).Nodup →
    ∃ nw : Weights, l.foldl addTarget (w, q) = (w ++ nw, q ++ nw.map Prod.fst) ∧ ((w ++ nw).map Prod.fst).Nodup ∧ ∀ e ∈ nw, e.1 ∈ l.map Prod.fst ∧ 100 ≤ e.2 ∧ e.2 ≤ N := by
  intro l
  induction l with
  | nil => intro w q _ hn; exact ⟨[], by simp, by simpa using hn, by simp⟩
  | cons e l ih =>
    intro w q hl hn
    simp only [List.foldl_cons]
    cases hg : w.get e.1 with
    | some v =>
      have : addTarget (w, q) e = (w, q) := by unfold addTarget; simp only [hg]
      rw [this]
      obtain ⟨nw, h1, h2, h3⟩ := ih w q (fun e' h => hl e' (List.mem_cons_of_mem _ h)) hn
      exact ⟨nw, h1, h2, fun e' h => ⟨List.mem_cons_of_mem _ (h3 e' h).1, (h3 e' h).2⟩⟩
    | none =>
      have : addTarget (w, q) e = (w ++ [e], q ++ [e.1]) := by unfold addTarget; simp only [hg]
      rw [this]
      have hn' : ((w ++ [e]).map Prod.fst).Nodup := by
        rw [List.map_append, List.map_cons, List.map_nil]
        exact List.Nodup.append hn (List.nodup_singleton _) (by simpa [List.disjoint_singleton] using Weights.get_none.1 hg)
      obtain ⟨nw, h1, h2, h3⟩ := ih (w ++ [e]) (q ++ [e.1]) (fun e' h => hl e' (List.mem_cons_of_mem _ h)) hn'
      refine ⟨e :: nw, by rw [h1]; simp, by simpa using h2, ?_⟩
      intro e' h
      rcases List.mem_cons.1 h with rfl | h
      · exact ⟨by simp, hl _ (by simp)⟩
      · exact ⟨List.mem_cons_of_mem _ (h3 e' h).1, (h3 e' h).2⟩

theorem sum_span_le {F : Func Op C} {l : List Nat} (hn : l.Nodup) (hl : ∀ b ∈ l, b ∈ F.order) : (l.map (span F)).sum ≤ (F.order.map (span F)).sum := by
  obtain ⟨l', h1, h2⟩ := (List.subperm_of_subset hn hl)
  clear hn hl
  have e : (l'.map (span F)).sum = (l.map (span F)).sum := by
    clear h2
    induction h1 with
    | nil => rfl
    | cons _ _ ih => simp [*]
    | swap => simp; omega
    | trans a b ih1 ih2 => omega
  rw [← e]
  clear e h1
  generalize F.order = o at h2
  induction h2 with
  | slnil => simp
  | cons _ _ ih => simp; omega
  | cons_cons _ _ ih => simp; omega

theorem touch_eq {w : Weights} {u v : Nat} (h : w.get u = some v) : w.touch u = w := by unfold Weights.touch; rw [h]

/-- one iteration after the first -/
theorem Srch.next {F : Func Op C} (S : Shape F) (hs : SmallEnough F) {done : List Nat} {w : Weights} {u : Nat} {q : List Nat} (I : Srch F done w (u :: q)) {B : Block Op C} (hB : F.blk u = some B) :
    let w0 := w.touch u
    let s := (targetWeights ((w0.get u).getD 0) B.term).foldl addTarget (w0, q)
    Srch F (done ++ [u]) (s.1.bump u (ownCost B.term)) s.2 := by
  have hk : (w.map Prod.fst).Nodup := by rw [I.keys]; exact I.nodup
  have hu : u ∈ w.map Prod.fst := by rw [I.keys]; simp
  obtain ⟨⟨u', val⟩, hm, rfl⟩ := List.mem_map.1 hu
  have hg := Weights.get_of_mem hk hm
  simp only at hB hu I hm hg ⊢
  have hd : done.Nodup ∧ u' ∉ done ∧ u' ∉ q := by
    have := I.nodup
    rw [List.nodup_append] at this
    exact ⟨this.1, fun h => this.2.2 u' h u' (by simp) rfl, (List.nodup_cons.1 this.2.1).1⟩
  have hue : u' ≠ F.entry := fun e => hd.2.1 (e ▸ I.entry)
  have hval : val ≤ (done.map (span F)).sum := I.bound _ _ hm (by simp)
  have hsum : (done.map (span F)).sum + span F u' ≤ (F.order.map (span F)).sum := by
    have := sum_span_le (F := F) (l := done ++ [u']) (List.Nodup.append hd.1 (List.nodup_singleton _) (by simpa using hd.2.1))
      (fun b hb => I.known b (by simp only [List.mem_append, List.mem_singleton] at hb; simp only [List.mem_append, List.mem_cons]; exact hb.elim .inl (fun h => .inr (.inl h))))
    simpa using this
  have hT := targetWeights_spec hB hval (by unfold SmallEnough at hs; omega)
  rw [touch_eq hg, hg, Option.getD_some]
  obtain ⟨nw, h1, h2, h3⟩ := addTargets_spec ((done.map (span F)).sum + span F u') (targetWeights val B.term) w q (fun e he => (hT e he).2) hk
  rw [h1]
  simp only
  have hkeys : ((w ++ nw).bump u' (ownCost B.term)).map Prod.fst = (done ++ [u']) ++ (q ++ nw.map Prod.fst) := by
    rw [Weights.bump_keys, List.map_append, I.keys]; simp
  have hmem : ∀ b v, (b, v) ∈ (w ++ nw).bump u' (ownCost B.term) → (b ≠ u' ∧ ((b, v) ∈ w ∨ (b, v) ∈ nw)) ∨ (b = u' ∧ v = w32 (val + ownCost B.term)) := by
    intro b v hb
    obtain ⟨⟨b', v'⟩, hb', he⟩ := List.mem_map.1 hb
    split at he
    · rename_i hx
      simp only at hx
      subst hx
      simp only [Prod.mk.injEq] at he
      refine .inr ⟨he.1.symm, ?_⟩
      have a1 := Weights.get_of_mem h2 hb'
      have a2 := Weights.get_of_mem h2 (List.mem_append_left nw hm)
      rw [a1] at a2
      rw [← Option.some.inj a2, he.2]
    · rename_i hx
      simp only [Prod.mk.injEq] at he hx
      obtain ⟨rfl, rfl⟩ := he
      exact .inl ⟨hx, List.mem_append.1 hb'⟩
  have hnd : ((done ++ [u']) ++ (q ++ nw.map Prod.fst)).Nodup := by rw [← hkeys, Weights.bump_keys]; exact h2
  refine ⟨hkeys, hnd, ?_, by simp [I.entry], ?_, ?_, ?_, ?_⟩
  · intro b hb
    rw [List.mem_append, List.mem_append, List.mem_append, List.mem_singleton] at hb
    rcases hb with (hb | rfl) | hb | hb
    · exact I.known b (by simp [hb])
    · exact I.known b (by simp)
    · exact I.known b (by simp [hb])
    · obtain ⟨e, he, rfl⟩ := List.mem_map.1 hb
      obtain ⟨e', he', heq⟩ := List.mem_map.1 (h3 e he).1
      have := (hT e' he').1
      rw [heq] at this
      exact S.closed _ _ (succs_edge.1 this)
  · apply Weights.get_of_mem (by rw [hkeys]; exact hnd)
    refine List.mem_map.2 ⟨(F.entry, ownCost (((F.blk F.entry).map Block.term).getD .unreachable)), List.mem_append_left _ (Weights.get_mem I.low), ?_⟩
    rw [if_neg (fun h => hue h.symm)]
  · intro b v hb hne
    rcases hmem b v hb with ⟨_, h | h⟩ | ⟨rfl, rfl⟩
    · exact I.high b v h hne
    · exact (h3 _ h).2.1
    · have h100 := I.high _ _ hm hue
      have hc : ownCost B.term ≤ 1000000 := by cases B.term <;> simp [ownCost]
      have : w32 (val + ownCost B.term) = val + ownCost B.term := Nat.mod_eq_of_lt (by unfold SmallEnough at hs; omega)
      rw [this]; omega
  · intro b v hb hq
    have hsp : (List.map (span F) (done ++ [u'])).sum = (done.map (span F)).sum + span F u' := by simp
    rw [hsp]
    rcases hmem b v hb with ⟨_, h | h⟩ | ⟨rfl, _⟩
    · have hb' : b ∈ done ++ u' :: q := by rw [← I.keys]; exact List.mem_map_of_mem (f := Prod.fst) h
      have hbd : b ∉ done := fun h' => (List.nodup_append.1 hnd).2.2 b (by simp [h']) b hq rfl
      have := I.bound b v h (by simpa [hbd] using hb')
      omega
    · exact (h3 _ h).2.2
    · exact absurd rfl ((List.nodup_append.1 hnd).2.2 b (by simp) b hq)
  · intro hal
    have := I.alone hal
    rw [I.keys] at this
    have hlen := congrArg List.length this
    simp only [List.length_append, List.length_cons, List.length_nil] at hlen
    have : 0 < done.length := List.length_pos_of_mem I.entry
    omega

/-- the first iteration -/
theorem Srch.first {F : Func Op C} (S : Shape F) (hs : SmallEnough F) {B : Block Op C} (hB : F.blk F.entry = some B) :
    let w0 := Weights.touch [] F.entry
    let s := (targetWeights ((w0.get F.entry).getD 0) B.term).foldl addTarget (w0, [])
    Srch F [F.entry] (s.1.bump F.entry (ownCost B.term)) s.2 := by
  have hw0 : Weights.touch [] F.entry = [(F.entry, 0)] := rfl
  have hg : Weights.get [(F.entry, 0)] F.entry = some 0 := by simp [Weights.get]
  simp only
  rw [hw0, hg, Option.getD_some]
  have hle : span F F.entry ≤ (F.order.map (span F)).sum := by
    have := sum_span_le (F := F) (l := [F.entry]) (List.nodup_singleton _) (by simp [S.entryIn])
    simpa using this
  have hT := targetWeights_spec (N := 0) hB (Nat.le_refl 0) (by unfold SmallEnough at hs; omega)
  obtain ⟨nw, h1, h2, h3⟩ := addTargets_spec (0 + span F F.entry) (targetWeights 0 B.term) [(F.entry, 0)] [] (fun e he => (hT e he).2) (by simp)
  rw [h1]
  simp only [List.nil_append]
  have hkeys : (Weights.bump ([(F.entry, 0)] ++ nw) F.entry (ownCost B.term)).map Prod.fst = [F.entry] ++ nw.map Prod.fst := by
    rw [Weights.bump_keys, List.map_append]; rfl
  have hnd : ([F.entry] ++ nw.map Prod.fst).Nodup := by rw [← hkeys, Weights.bump_keys]; exact h2
  have hne : ∀ e ∈ nw, e.1 ≠ F.entry := fun e he h => (List.nodup_append.1 hnd).2.2 F.entry (by simp) e.1 (List.mem_map_of_mem he) h.symm
  have hbump : Weights.bump ([(F.entry, 0)] ++ nw) F.entry (ownCost B.term) = (F.entry, ownCost B.term) :: nw := by
    unfold Weights.bump
    have hc : w32 (0 + ownCost B.term) = ownCost B.term := by cases B.term <;> rfl
    rw [List.map_append, List.map_cons, List.map_nil, if_pos rfl, List.singleton_append]
    simp only [hc]
    rw [show nw.map (fun e => if e.1 = F.entry then (e.1, w32 (e.2 + ownCost B.term)) else e) = nw from by
      conv_rhs => rw [← List.map_id nw]
      exact List.map_congr_left (fun e he => by simp [hne e he])]
  refine ⟨hkeys, hnd, ?_, by simp, ?_, ?_, ?_, ?_⟩
  · intro b hb
    rcases List.mem_append.1 hb with hb | hb
    · rw [List.mem_singleton.1 hb]; exact S.entryIn
    · obtain ⟨e, he, rfl⟩ := List.mem_map.1 hb
      obtain ⟨e', he', heq⟩ := List.mem_map.1 (h3 e he).1
      have := (hT e' he').1
      rw [heq] at this
      exact S.closed _ _ (succs_edge.1 this)
  · rw [hbump, hB]; simp [Weights.get]
  · rw [hbump]
    intro b v hb hne'
    rcases List.mem_cons.1 hb with h | h
    · simp only [Prod.mk.injEq] at h; exact absurd h.1 hne'
    · exact (h3 _ h).2.1
  · rw [hbump]
    intro b v hb hq
    rcases List.mem_cons.1 hb with h | h
    · simp only [Prod.mk.injEq] at h
      obtain ⟨e, he, h'⟩ := List.mem_map.1 hq
      exact absurd (h'.trans h.1) (hne e he)
    · have := (h3 _ h).2.2; simpa using this
  · intro hal
    rw [hkeys]
    have : nw = [] := by
      rcases nw with _ | ⟨e, nw⟩
      · rfl
      · obtain ⟨e', he', _⟩ := List.mem_map.1 (h3 e (by simp)).1
        have := (hT e' he').1
        rw [hal] at this; simp at this
    rw [this]; rfl

theorem Srch.runs {F : Func Op C} (S : Shape F) (hs : SmallEnough F) : ∀ (n : Nat) (done : List Nat) (w : Weights) (q : List Nat), Srch F done w q → F.order.length ≤ done.length + n →
    ∃ w' done', sortSearch F n w q = some w' ∧ Srch F done' w' [] := by
  intro n
  induction n with
  | zero =>
    intro done w q I hn
    cases q with
    | nil => exact ⟨w, done, by simp [sortSearch], I⟩
    | cons u q =>
      exfalso
      have := (List.subperm_of_subset I.nodup I.known).length_le
      simp at this; omega
  | succ n ih =>
    intro done w q I hn
    cases q with
    | nil => exact ⟨w, done, by simp [sortSearch], I⟩
    | cons u q =>
      obtain ⟨B, hB⟩ := S.total u (I.known u (by simp))
      obtain ⟨w', d', h1, h2⟩ := ih _ _ _ (I.next S hs hB) (by simp; omega)
      refine ⟨w', d', ?_, h2⟩
      rw [sortSearch]
      simp only [hB]
      exact h1

theorem head_mergeSort {e : Nat} {l : List Nat} {f : Nat → Nat} (hn : (e :: l).Nodup) (h : ∀ b ∈ l, f e ≤ f b) :
    ((e :: l).mergeSort (fun a b => decide (f a ≤ f b))).head? = some e := by
  have hp := List.mergeSort_perm (e :: l) (fun a b => decide (f a ≤ f b))
  cases hs : (e :: l).mergeSort (fun a b => decide (f a ≤ f b)) with
  | nil => rw [hs] at hp; simpa using hp.length_eq
  | cons x t =>
    rw [hs] at hp
    by_cases hx : x = e
    · rw [hx]; rfl
    · exfalso
      have hxl : x ∈ l := by
        have : x ∈ e :: l := hp.subset (by simp)
        simpa [hx] using this
      have hsub : [e, x].Sublist (e :: l) := List.Sublist.cons_cons _ (List.singleton_sublist.2 hxl)
      have := List.sublist_mergeSort (le := fun a b => decide (f a ≤ f b)) (fun a b c h1 h2 => by simp at *; omega) (fun a b => by simp; omega) (by simp [h x hxl]) hsub
      rw [hs] at this
      cases this with
      | cons _ h' => exact (List.nodup_cons.1 (hp.nodup_iff.2 hn)).1 (h'.subset (by simp))
      | cons_cons _ h' => exact hx rfl

/-! ## the pass -/

section
variable {L : Lang}

/-- changing the order of the blocks changes nothing but the order -/
theorem refines_order (F : L.F) (o : List Nat) : Refines L F { F with order := o } :=
  refines_lockstep (fun _ => True) rfl (fun _ => trivial) (fun _ _ => .inr ⟨rfl, fun _ _ => trivial⟩)

theorem live_order {F : Func Op C} {o : List Nat} {b : Nat} : Live { F with order := o } b ↔ Live F b := Iff.rfl

theorem LiveWf.reorder {F : Func Op C} (W : LiveWf F) {o : List Nat} (hp : o.Perm F.order) : LiveWf { F with order := o } where
  nodup := hp.nodup_iff.2 W.nodup
  listed := fun b hb => by rw [hp.mem_iff]; exact W.listed b hb
  total := fun b hb => W.total b (hp.subset hb)
  entryIn := hp.symm.subset W.entryIn
  closed := fun a b h => hp.symm.subset (W.closed a b h)
  unique := by
    rw [allIds_eq]
    exact (hp.flatMap_right _).nodup_iff.2 (by have := W.unique; rwa [allIds_eq] at this)
  entryPhis := W.entryPhis
  inOrder := W.inOrder
  use := W.use
  phiUse := W.phiUse
  phiPred := W.phiPred
  phiAll := W.phiAll
  phiDead := W.phiDead

/-- the entry has the smallest weight -/
theorem Srch.least {F : Func Op C} {done : List Nat} {w : Weights} (I : Srch F done w []) (S : Shape F) (b : Nat) : w.final F.entry ≤ w.final b := by
  obtain ⟨B, hB⟩ := S.total _ S.entryIn
  have hlow := I.low
  rw [hB] at hlow
  simp only [Option.map_some, Option.getD_some] at hlow
  unfold Weights.final
  rw [hlow, Option.getD_some]
  have hc : ownCost B.term ≤ 1000000 := by cases B.term <;> simp [ownCost]
  cases hb : w.get b with
  | none => simp; omega
  | some v =>
    rw [Option.getD_some]
    by_cases hbe : b = F.entry
    · rw [hbe, hlow] at hb; exact Nat.le_of_eq (Option.some.inj hb)
    · have hm := Weights.get_mem hb
      have h100 := I.high b v hm hbe
      have hsu : F.succs F.entry = B.term.targets := by unfold Func.succs; rw [hB]
      cases ht : B.term with
      | br t => simp [ownCost]
      | cbr c t f => simp only [ownCost]; omega
      | sw c d cs => simp only [ownCost]; omega
      | ret v' =>
        rw [ht] at hsu
        have := I.alone hsu
        have hx : b ∈ w.map Prod.fst := List.mem_map_of_mem hm
        rw [this] at hx; exact absurd (List.mem_singleton.1 hx) hbe
      | unreachable =>
        rw [ht] at hsu
        have := I.alone hsu
        have hx : b ∈ w.map Prod.fst := List.mem_map_of_mem hm
        rw [this] at hx; exact absurd (List.mem_singleton.1 hx) hbe

/-- **C76** BlockSort terminates; the function keeps its blocks, starts with the same block, behaves as before, and its live code stays in SSA form. -/
theorem C76_blockSort {F : L.F} (W : LiveWf F) (hf : F.order.head? = some F.entry) (hs : SmallEnough F) :
    ∃ G, sortBlocks F = some G ∧ G.order.Perm F.order ∧ G.blk = F.blk ∧ G.order.head? = some F.entry ∧ G.entry = F.entry ∧ Refines L F G ∧ LiveWf G := by
  unfold sortBlocks
  split
  · exact ⟨F, rfl, List.Perm.refl _, rfl, hf, rfl, Refines.refl F, W⟩
  · rename_i hlen
    obtain ⟨B, hB⟩ := W.total _ W.entryIn
    obtain ⟨n, hn⟩ : ∃ n, F.order.length = n + 1 := ⟨F.order.length - 1, by omega⟩
    obtain ⟨w, done, h1, I⟩ := Srch.runs W.toShape hs n _ _ _ (Srch.first W.toShape hs hB) (by simp; omega)
    have hsrch : sortSearch F F.order.length [] [F.entry] = some w := by
      rw [hn, sortSearch]; simp only [hB]; exact h1
    rw [hsrch]
    have hp := List.mergeSort_perm F.order (fun a b => decide (w.final a ≤ w.final b))
    have hhead : (F.order.mergeSort (fun a b => decide (w.final a ≤ w.final b))).head? = some F.entry := by
      cases ho : F.order with
      | nil => rw [ho] at hf; simp at hf
      | cons e l =>
        rw [ho] at hf
        obtain rfl : e = F.entry := by simpa using hf
        exact head_mergeSort (ho ▸ W.nodup) (fun b _ => I.least W.toShape b)
    have hent : (F.order.mergeSort (fun a b => decide (w.final a ≤ w.final b))).headD F.entry = F.entry := by
      rw [List.headD_eq_head?_getD, hhead]; rfl
    refine ⟨_, rfl, hp, rfl, hhead, hent, ?_, ?_⟩
    · simp only [hent]; exact refines_order F _
    · simp only [hent]; exact W.reorder hp

end

end Cmmc.SSA
