import Verif.CallGraph.Model
import Verif.SCC.Props
import Mathlib.Data.List.Perm.Subperm
namespace Cmmc.CallGraph
open Cmmc.SCC

/-! ### building the component DAG -/

/-- number of colours `d < n` that have `c` as a dependent and satisfy `p` -/
def cnt (n : Nat) (dag : Nat → List Nat) (p : Nat → Bool) (c : Nat) : Nat :=
  ((List.range n).filter (fun d => decide (c ∈ dag d) && p d)).length

structure DInv (n : Nat) (d : D) (E : Nat → Nat → Prop) : Prop where
  nodup : ∀ x, (d.dag x).Nodup
  deg : ∀ c, d.deg c = cnt n d.dag (fun _ => true) c
  mem : ∀ x c, c ∈ d.dag x ↔ E x c

theorem count_single {n cv : Nat} (h : cv < n) {p q : Nat → Bool} (hp : ∀ x, x ≠ cv → p x = q x) (h1 : p cv = true) (h2 : q cv = false) :
    ((List.range n).filter p).length = ((List.range n).filter q).length + 1 := by
  have key : ∀ l : List Nat, l.Nodup → cv ∈ l → (l.filter p).length = (l.filter q).length + 1 := by
    intro l
    induction l with
    | nil => intro _ h; simp at h
    | cons a l ih =>
      intro hnd hm
      rw [List.nodup_cons] at hnd
      by_cases ha : a = cv
      · subst ha
        rw [List.filter_cons_of_pos h1, List.filter_cons_of_neg (by simp [h2])]
        have : l.filter p = l.filter q := List.filter_congr (fun x hx => hp x (fun h => hnd.1 (h ▸ hx)))
        rw [this]; simp
      · have := ih hnd.2 (by simpa [Ne.symm ha] using hm)
        rw [List.filter_cons, List.filter_cons, hp a ha]
        split
        · simp only [List.length_cons]; omega
        · exact this
  exact key _ List.nodup_range (List.mem_range.mpr h)

theorem addEdge_inv {n : Nat} {d : D} {E : Nat → Nat → Prop} (I : DInv n d E) {cu cv : Nat} (h : cv < n) :
    DInv n (addEdge cu cv d) (fun x c => E x c ∨ (x = cv ∧ c = cu ∧ cu ≠ cv)) := by
  unfold addEdge
  split
  · rename_i e
    refine ⟨I.nodup, I.deg, fun x c => ?_⟩
    rw [I.mem]
    constructor
    · exact Or.inl
    · rintro (h | ⟨_, _, h⟩)
      · exact h
      · exact absurd e h
  · rename_i hne
    split
    · rename_i hm
      refine ⟨I.nodup, I.deg, fun x c => ?_⟩
      rw [I.mem]
      constructor
      · exact Or.inl
      · rintro (h | ⟨rfl, rfl, _⟩)
        · exact h
        · exact (I.mem _ _).mp hm
    · rename_i hm
      refine ⟨?_, ?_, ?_⟩
      · intro x
        by_cases hx : x = cv
        · subst hx; show (upd d.dag x _ x).Nodup; rw [upd_same, List.nodup_cons]; exact ⟨hm, I.nodup x⟩
        · show (upd d.dag cv _ x).Nodup; rw [upd_ne _ _ hx]; exact I.nodup x
      · intro c
        show upd d.deg cu _ c = _
        by_cases hc : c = cu
        · subst hc
          rw [upd_same, I.deg]
          unfold cnt
          symm
          apply count_single h
          · intro x hx; show (decide (c ∈ upd d.dag cv _ x) && true) = _; rw [upd_ne _ _ hx]
          · show (decide (c ∈ upd d.dag cv _ cv) && true) = _; rw [upd_same]; simp
          · simp [hm]
        · rw [upd_ne _ _ hc, I.deg]
          unfold cnt
          congr 1
          apply List.filter_congr
          intro x _
          by_cases hx : x = cv
          · subst hx; show _ = (decide (c ∈ upd d.dag x _ x) && true); rw [upd_same]; simp [hc]
          · show _ = (decide (c ∈ upd d.dag cv _ x) && true); rw [upd_ne _ _ hx]
      · intro x c
        show c ∈ upd d.dag cv _ x ↔ _
        by_cases hx : x = cv
        · subst hx; rw [upd_same, List.mem_cons, I.mem]
          constructor
          · rintro (rfl | h)
            · exact Or.inr ⟨rfl, rfl, hne⟩
            · exact Or.inl h
          · rintro (h | ⟨_, rfl, _⟩)
            · exact Or.inr h
            · exact Or.inl rfl
        · rw [upd_ne _ _ hx, I.mem]
          constructor
          · exact Or.inl
          · rintro (h | ⟨h, _⟩)
            · exact h
            · exact absurd h hx

theorem DInv.congr {n : Nat} {d : D} {E E' : Nat → Nat → Prop} (I : DInv n d E) (h : ∀ x c, E x c ↔ E' x c) : DInv n d E' :=
  ⟨I.nodup, I.deg, fun x c => (I.mem x c).trans (h x c)⟩

theorem inner_inv {n : Nat} (col : Nat → Nat) (u : Nat) : ∀ (vs : List Nat) (d : D) (E : Nat → Nat → Prop), DInv n d E →
    (∀ v ∈ vs, col v < n) →
    DInv n (vs.foldl (fun d v => addEdge (col u) (col v) d) d) (fun x c => E x c ∨ ∃ v ∈ vs, x = col v ∧ c = col u ∧ col u ≠ col v) := by
  intro vs
  induction vs with
  | nil => intro d E I _; exact I.congr (by simp)
  | cons v vs ih =>
    intro d E I h
    rw [List.foldl_cons]
    refine (ih _ _ (addEdge_inv I (cu := col u) (h v (by simp))) (fun w hw => h w (by simp [hw]))).congr ?_
    intro x c
    constructor
    · rintro ((h | h) | ⟨w, hw, h⟩)
      · exact Or.inl h
      · exact Or.inr ⟨v, by simp, h⟩
      · exact Or.inr ⟨w, by simp [hw], h⟩
    · rintro (h | ⟨w, hw, h'⟩)
      · exact Or.inl (Or.inl h)
      · rcases List.mem_cons.mp hw with rfl | hw
        · exact Or.inl (Or.inr h')
        · exact Or.inr ⟨w, hw, h'⟩

theorem buildDag_inv {n : Nat} (g : Graph) (col : Nat → Nat) (hcol : ∀ u v, Edge g u v → col v < n) :
    DInv n (buildDag g col) (fun x c => ∃ u v, u < g.length ∧ Edge g u v ∧ x = col v ∧ c = col u ∧ col u ≠ col v) := by
  have key : ∀ (us : List Nat) (d : D) (E : Nat → Nat → Prop), DInv n d E →
      DInv n (us.foldl (fun d u => (succ g u).foldl (fun d v => addEdge (col u) (col v) d) d) d)
        (fun x c => E x c ∨ ∃ u ∈ us, ∃ v, Edge g u v ∧ x = col v ∧ c = col u ∧ col u ≠ col v) := by
    intro us
    induction us with
    | nil => intro d E I; exact I.congr (by simp)
    | cons u us ih =>
      intro d E I
      rw [List.foldl_cons]
      refine (ih _ _ (inner_inv col u (succ g u) d E I (fun v hv => hcol u v hv))).congr ?_
      intro x c
      constructor
      · rintro ((h | ⟨v, hv, h⟩) | ⟨w, hw, h⟩)
        · exact Or.inl h
        · exact Or.inr ⟨u, by simp, v, hv, h⟩
        · exact Or.inr ⟨w, by simp [hw], h⟩
      · rintro (h | ⟨w, hw, v, hv, h⟩)
        · exact Or.inl (Or.inl h)
        · rcases List.mem_cons.mp hw with rfl | hw
          · exact Or.inl (Or.inr ⟨v, hv, h⟩)
          · exact Or.inr ⟨w, hw, v, hv, h⟩
  have base : DInv n { dag := fun _ => [], deg := fun _ => 0 } (fun _ _ => False) :=
    ⟨by simp, by intro c; show 0 = _; unfold cnt; rw [List.filter_eq_nil_iff.mpr (by simp)]; rfl, by simp⟩
  refine (key (List.range g.length) _ _ base).congr ?_
  intro x c
  constructor
  · rintro (h | ⟨u, hu, v, h⟩)
    · exact absurd h id
    · exact ⟨u, v, List.mem_range.mp hu, h⟩
  · rintro ⟨u, v, hu, h⟩
    exact Or.inr ⟨u, List.mem_range.mpr hu, v, h⟩

/-! ### the queue loop -/

theorem release_spec : ∀ (vs : List Nat) (deg : Nat → Nat) (q : List Nat), vs.Nodup →
    (∀ c, (release vs deg q).1 c = if c ∈ vs then deg c - 1 else deg c) ∧
    ∃ new, (release vs deg q).2 = q ++ new ∧ new.Nodup ∧ ∀ c, c ∈ new ↔ (c ∈ vs ∧ deg c - 1 = 0) := by
  intro vs
  induction vs with
  | nil => intro deg q _; exact ⟨by simp [release], [], by simp [release]⟩
  | cons v vs ih =>
    intro deg q hnd
    rw [List.nodup_cons] at hnd
    unfold release
    obtain ⟨h1, new, h2, h3, h4⟩ := ih (upd deg v (deg v - 1)) (if upd deg v (deg v - 1) v = 0 then q ++ [v] else q) hnd.2
    refine ⟨?_, ?_⟩
    · intro c
      rw [h1]
      by_cases hc : c = v
      · subst hc; simp [hnd.1, upd_same]
      · simp [hc, upd_ne _ _ hc]
    · by_cases h0 : deg v - 1 = 0
      · refine ⟨v :: new, ?_, ?_, ?_⟩
        · dsimp only
          rw [h2, if_pos (by rw [upd_same]; exact h0)]; simp
        · rw [List.nodup_cons]
          exact ⟨fun h => hnd.1 ((h4 v).mp h).1, h3⟩
        · intro c
          rw [List.mem_cons, List.mem_cons, h4]
          by_cases hc : c = v
          · subst hc; simp [h0]
          · simp [hc, upd_ne _ _ hc]
      · refine ⟨new, ?_, h3, ?_⟩
        · dsimp only
          rw [h2, if_neg (by rw [upd_same]; exact h0)]
        · intro c
          rw [List.mem_cons, h4]
          by_cases hc : c = v
          · subst hc; simp [hnd.1, h0]
          · simp [hc, upd_ne _ _ hc]

structure KInv (n : Nat) (dag : Nat → List Nat) (deg : Nat → Nat) (q P : List Nat) : Prop where
  nodup : (P ++ q).Nodup
  lt : ∀ c ∈ P ++ q, c < n
  degs : ∀ c, deg c = cnt n dag (fun d => decide (d ∉ P)) c
  zero : ∀ c, c < n → (deg c = 0 ↔ c ∈ P ++ q)
  before : ∀ P1 c P2, P = P1 ++ c :: P2 → ∀ d, c ∈ dag d → d ∈ P1

theorem cnt_zero {n : Nat} {dag : Nat → List Nat} {p : Nat → Bool} {c : Nat} (h : cnt n dag p c = 0) {d : Nat} (hd : d < n)
    (hc : c ∈ dag d) : p d = false := by
  unfold cnt at h
  rw [List.length_eq_zero_iff, List.filter_eq_nil_iff] at h
  have := h d (List.mem_range.mpr hd)
  simpa [hc] using this

theorem nodup_length_le {n : Nat} {l : List Nat} (h : l.Nodup) (hl : ∀ x ∈ l, x < n) : l.length ≤ n := by
  have : l ⊆ List.range n := fun x hx => List.mem_range.mpr (hl x hx)
  have := (List.subperm_of_subset h this).length_le
  simpa using this

/-- one round of the queue loop keeps the invariant -/
theorem kahn_step {n : Nat} {dag : Nat → List Nat} (hnd : ∀ x, (dag x).Nodup) (hlt : ∀ d c, c ∈ dag d → d < n ∧ c < n) {deg : Nat → Nat} {u : Nat} {q P : List Nat}
    (K : KInv n dag deg (u :: q) P) : ∃ new, (release (dag u) deg q).2 = q ++ new ∧ KInv n dag (release (dag u) deg q).1 (q ++ new) (P ++ [u]) := by
  obtain ⟨h1, new, h2, h3, h4⟩ := release_spec (dag u) deg q (hnd u)
  have hun : u < n := K.lt u (by simp)
  have huP : u ∉ P := by
    have := K.nodup
    rw [List.nodup_append] at this
    intro h; exact this.2.2 u h u (by simp) rfl
  have hdeg : ∀ c, (release (dag u) deg q).1 c = cnt n dag (fun d => decide (d ∉ P ++ [u])) c := by
    intro c
    rw [h1, K.degs]
    split
    · rename_i hc
      have : cnt n dag (fun d => decide (d ∉ P)) c = cnt n dag (fun d => decide (d ∉ P ++ [u])) c + 1 := by
        unfold cnt
        apply count_single hun
        · intro x hx; simp [hx]
        · simp [hc, huP]
        · simp
      omega
    · rename_i hc
      unfold cnt
      congr 1
      apply List.filter_congr
      intro x _
      by_cases hx : x = u
      · subst hx; simp [hc]
      · simp [hx]
  -- members of `new` were not yet queued
  have hnew : ∀ c ∈ new, c ∉ P ++ u :: q := by
    intro c hc hm
    obtain ⟨hcu, _⟩ := (h4 c).mp hc
    have hz := (K.zero c (hlt u c hcu).2).mpr hm
    rw [K.degs] at hz
    have := cnt_zero hz hun hcu
    simp [huP] at this
  have e : (P ++ [u]) ++ (q ++ new) = (P ++ u :: q) ++ new := by simp
  have K' : KInv n dag (release (dag u) deg q).1 (q ++ new) (P ++ [u]) := by
    refine ⟨?_, ?_, hdeg, ?_, ?_⟩
    · rw [e, List.nodup_append]
      exact ⟨K.nodup, h3, fun a ha b hb hab => hnew b hb (hab ▸ ha)⟩
    · rw [e]
      intro c hc
      rcases List.mem_append.mp hc with h | h
      · exact K.lt c h
      · exact (hlt u c ((h4 c).mp h).1).2
    · intro c hc
      rw [e, List.mem_append, h4, ← K.zero c hc, h1]
      split
      · rename_i hcu
        constructor
        · intro h; exact Or.inr ⟨hcu, h⟩
        · rintro (h | ⟨_, h⟩) <;> omega
      · rename_i hcu
        constructor
        · exact Or.inl
        · rintro (h | ⟨h, _⟩)
          · exact h
          · exact absurd h hcu
    · intro P1 c P2 eP d hcd
      rcases List.eq_nil_or_concat P2 with rfl | ⟨P2', z, rfl⟩
      · have : P = P1 ∧ u = c := by
          have := List.append_inj' eP (by simp)
          simpa using this
        obtain ⟨rfl, rfl⟩ := this
        have hz := (K.zero u hun).mpr (by simp)
        rw [K.degs] at hz
        have := cnt_zero hz (hlt d u hcd).1 hcd
        simpa using this
      · have eP' : P = P1 ++ c :: P2' := by
          have e2 : P ++ [u] = (P1 ++ c :: P2') ++ [z] := by rw [eP]; simp
          exact (List.append_inj' e2 (by simp)).1
        exact K.before P1 c P2' eP' d hcd
  exact ⟨new, h2, K'⟩

theorem kahn_spec {n : Nat} {dag : Nat → List Nat} (hnd : ∀ x, (dag x).Nodup) (hlt : ∀ d c, c ∈ dag d → d < n ∧ c < n) :
    ∀ (f : Nat) (deg : Nat → Nat) (q P : List Nat), KInv n dag deg q P → n < f + P.length →
    ∃ P', kahn dag f deg q P = some P' ∧ ∃ deg', KInv n dag deg' [] P' := by
  intro f
  induction f with
  | zero =>
    intro deg q P K hf
    have := nodup_length_le (List.Nodup.sublist (List.sublist_append_left P q) K.nodup) (fun x hx => K.lt x (by simp [hx]))
    omega
  | succ f ih =>
    intro deg q P K hf
    cases q with
    | nil => exact ⟨P, by simp [kahn], deg, K⟩
    | cons u q =>
      unfold kahn
      obtain ⟨new, h2, K'⟩ := kahn_step hnd hlt K
      dsimp only
      rw [h2]
      exact ih _ _ _ K' (by simp; omega)

/-- if dependencies always have smaller numbers, the finished queue loop has processed everything -/
theorem kahn_complete {n : Nat} {dag : Nat → List Nat} {deg : Nat → Nat} {P : List Nat} (K : KInv n dag deg [] P)
    (hsmall : ∀ d c, c ∈ dag d → d < c) : ∀ c, c < n → c ∈ P := by
  intro c
  induction c using Nat.strongRecOn with
  | _ c ih =>
    intro hc
    have : deg c = 0 := by
      rw [K.degs]
      unfold cnt
      rw [List.length_eq_zero_iff, List.filter_eq_nil_iff]
      intro d hd
      simp only [Bool.and_eq_true, decide_eq_true_eq, not_and, not_not]
      intro hcd
      have := hsmall d c hcd
      exact ih d this (by omega)
    simpa using (K.zero c hc).mp this

end Cmmc.CallGraph
