import Mathlib.Data.List.Basic
import Mathlib.Data.List.Nodup
import Mathlib.Logic.Relation
import Mathlib.Tactic.ByContra
import Mathlib.Data.List.Perm.Subperm
/-!
# The work-list loop shared by several passes

`std::queue q; std::unordered_set seen; while(!q.empty()) { u = q.front(); q.pop(); for(v : next(u)) if(seen.insert(v).second) q.push(v); }`
(BlockEliminate.cpp:42-71, NoSideEffectEliminate.cpp:62-73, InfiniteEliminate.cpp:45-54). `none` = out of fuel.
-/
namespace Cmmc.SSA

/-- `for(v : next(u)) if(seen.insert(v).second) q.push(v);` -/
def push : List Nat → List Nat × List Nat → List Nat × List Nat
  | [], s => s
  | v :: vs, (q, seen) => push vs (if v ∈ seen then (q, seen) else (q ++ [v], v :: seen))

/-- the loop -/
def bfs (next : Nat → List Nat) : Nat → List Nat → List Nat → Option (List Nat)
  | _, [], seen => some seen
  | 0, _ :: _, _ => none
  | f + 1, u :: q, seen => bfs next f (push (next u) (q, seen)).1 (push (next u) (q, seen)).2

theorem push_spec (U : List Nat) : ∀ (vs q seen : List Nat), (∀ v ∈ vs, v ∈ U) → seen.Nodup → (∀ v ∈ seen, v ∈ U) →
    let r := push vs (q, seen)
    r.2.Nodup ∧ (∀ v ∈ r.2, v ∈ U) ∧ (∀ v, v ∈ r.2 ↔ v ∈ seen ∨ v ∈ vs) ∧ (∀ v, v ∈ r.1 ↔ v ∈ q ∨ (v ∈ vs ∧ v ∉ seen)) ∧
      r.1.length + seen.length = q.length + r.2.length := by
  intro vs
  induction vs with
  | nil => intro q seen _ h1 h2; simp only [push]; exact ⟨h1, h2, by simp, by simp, trivial⟩
  | cons v vs ih =>
    intro q seen hU h1 h2
    by_cases hv : v ∈ seen
    · have e : push (v :: vs) (q, seen) = push vs (q, seen) := by simp [push, hv]
      rw [e]
      obtain ⟨a, b, c, d, l⟩ := ih q seen (fun x hx => hU x (List.mem_cons_of_mem _ hx)) h1 h2
      refine ⟨a, b, ?_, ?_, l⟩
      · intro x; rw [c x, List.mem_cons]
        constructor
        · rintro (h | h) <;> simp [h]
        · rintro (h | rfl | h)
          · exact .inl h
          · exact .inl hv
          · exact .inr h
      · intro x; rw [d x, List.mem_cons]
        constructor
        · rintro (h | ⟨h, h'⟩)
          · exact .inl h
          · exact .inr ⟨.inr h, h'⟩
        · rintro (h | ⟨rfl | h, h'⟩)
          · exact .inl h
          · exact absurd hv h'
          · exact .inr ⟨h, h'⟩
    · have e : push (v :: vs) (q, seen) = push vs (q ++ [v], v :: seen) := by simp [push, hv]
      rw [e]
      obtain ⟨a, b, c, d, l⟩ := ih (q ++ [v]) (v :: seen) (fun x hx => hU x (List.mem_cons_of_mem _ hx))
        (List.nodup_cons.mpr ⟨hv, h1⟩) (by
          intro x hx
          rcases List.mem_cons.mp hx with rfl | hx
          · exact hU _ (List.mem_cons_self ..)
          · exact h2 x hx)
      refine ⟨a, b, ?_, ?_, ?_⟩
      · intro x; rw [c x, List.mem_cons, List.mem_cons]
        constructor
        · rintro ((h | h) | h) <;> simp [h]
        · rintro (h | h | h) <;> simp [h]
      · intro x; rw [d x, List.mem_append, List.mem_singleton, List.mem_cons, List.mem_cons]
        constructor
        · rintro ((h | rfl) | ⟨h, h'⟩)
          · exact .inl h
          · exact .inr ⟨.inl rfl, hv⟩
          · exact .inr ⟨.inr h, fun hs => h' (.inr hs)⟩
        · rintro (h | ⟨rfl | h, h'⟩)
          · exact .inl (.inl h)
          · exact .inl (.inr rfl)
          · by_cases hx : x = v
            · exact .inl (.inr hx)
            · exact .inr ⟨h, by rintro (h1 | h1); exact hx h1; exact h' h1⟩
      · simp only [List.length_append, List.length_nil, List.length_cons] at l
        omega

theorem bfs_spec {next : Nat → List Nat} {U : List Nat} (hU : ∀ u ∈ U, ∀ v ∈ next u, v ∈ U) (S : List Nat) :
    ∀ (fuel : Nat) (q seen : List Nat), seen.Nodup → (∀ v ∈ seen, v ∈ U) → (∀ v ∈ q, v ∈ seen) →
      (∀ v ∈ S, v ∈ seen) → (∀ v ∈ seen, ∃ s ∈ S, Relation.ReflTransGen (fun a b => b ∈ next a) s v) →
      (∀ v ∈ seen, v ∈ q ∨ ∀ w ∈ next v, w ∈ seen) → q.length + (U.length - seen.length) ≤ fuel →
      ∃ r, bfs next fuel q seen = some r ∧ r.Nodup ∧ (∀ v ∈ r, v ∈ U) ∧
        ∀ x, x ∈ r ↔ ∃ s ∈ S, Relation.ReflTransGen (fun a b => b ∈ next a) s x := by
  intro fuel
  induction fuel with
  | zero =>
    intro q seen h1 h2 h3 h4 h5 h6 h7
    have : q = [] := List.eq_nil_of_length_eq_zero (by omega)
    subst this
    refine ⟨seen, rfl, h1, h2, fun x => ⟨h5 x, ?_⟩⟩
    rintro ⟨s, hs, h⟩
    induction h with
    | refl => exact h4 s hs
    | tail _ hb ih =>
      rcases h6 _ ih with h | h
      · simp at h
      · exact h _ hb
  | succ f ih =>
    intro q seen h1 h2 h3 h4 h5 h6 h7
    cases q with
    | nil =>
      refine ⟨seen, rfl, h1, h2, fun x => ⟨h5 x, ?_⟩⟩
      rintro ⟨s, hs, h⟩
      induction h with
      | refl => exact h4 s hs
      | tail _ hb ih =>
        rcases h6 _ ih with h | h
        · simp at h
        · exact h _ hb
    | cons u q =>
      have hu := h3 u (List.mem_cons_self ..)
      obtain ⟨a, b, c, d, l⟩ := push_spec U (next u) q seen (hU u (h2 u hu)) h1 h2
      have hlen : (push (next u) (q, seen)).2.length ≤ U.length := by
        have hs : (push (next u) (q, seen)).2 ⊆ U := fun x hx => b x hx
        exact (List.subperm_of_subset a hs).length_le
      have hlen0 : seen.length ≤ (push (next u) (q, seen)).2.length :=
        (List.subperm_of_subset h1 (fun x hx => (c x).mpr (.inl hx))).length_le
      simp only [bfs]
      refine ih _ _ a b ?_ ?_ ?_ ?_ ?_
      · intro v hv
        rcases (d v).mp hv with h | ⟨h, _⟩
        · exact (c v).mpr (.inl (h3 v (List.mem_cons_of_mem _ h)))
        · exact (c v).mpr (.inr h)
      · intro v hv; exact (c v).mpr (.inl (h4 v hv))
      · intro v hv
        rcases (c v).mp hv with h | h
        · exact h5 v h
        · obtain ⟨s, hs, hr⟩ := h5 u hu
          exact ⟨s, hs, hr.tail h⟩
      · intro v hv
        by_cases hvs : v ∈ seen
        · rcases h6 v hvs with h | h
          · rcases List.mem_cons.mp h with rfl | h
            · exact .inr (fun w hw => (c w).mpr (.inr hw))
            · exact .inl ((d v).mpr (.inl h))
          · exact .inr (fun w hw => (c w).mpr (.inl (h w hw)))
        · rcases (c v).mp hv with h | h
          · exact absurd h hvs
          · exact .inl ((d v).mpr (.inr ⟨h, hvs⟩))
      · simp only [List.length_cons] at h7
        omega

/-- started with a duplicate-free list of sources the loop ends and finds exactly the elements reachable from them -/
theorem bfs_reach {next : Nat → List Nat} {U : List Nat} (hU : ∀ u ∈ U, ∀ v ∈ next u, v ∈ U) {S : List Nat} (hS : S.Nodup)
    (hSU : ∀ v ∈ S, v ∈ U) : ∃ r, bfs next U.length S S = some r ∧ r.Nodup ∧ (∀ v ∈ r, v ∈ U) ∧
      ∀ x, x ∈ r ↔ ∃ s ∈ S, Relation.ReflTransGen (fun a b => b ∈ next a) s x := by
  have hlen : S.length ≤ U.length := (List.subperm_of_subset hS (fun x hx => hSU x hx)).length_le
  exact bfs_spec hU S U.length S S hS hSU (fun _ h => h) (fun _ h => h) (fun v hv => ⟨v, hv, .refl⟩) (fun v hv => .inl hv) (by omega)

end Cmmc.SSA
