import Verif.SCC.Proof
/-! # C10, C11: `calcSCC` computes the strongly connected components, numbered in reverse topological order -/
namespace Cmmc.SCC

theorem calcSCC_core (g : Graph) (hv : Valid g) :
    ∃ s, calcSCC g = some (s.ccnt, (List.range g.length).map s.col) ∧ Inv g s [] ∧ ∀ x, x < g.length → Done s x := by
  obtain ⟨s, e, I, _, h⟩ := roots_spec hv (List.range g.length) init (fun x hx => List.mem_range.mp hx) init_inv
  refine ⟨s, by unfold calcSCC; rw [e], I, ?_⟩
  intro x hx
  refine ⟨h x (List.mem_range.mpr hx), ?_⟩
  intro hst
  obtain ⟨a, ha, _⟩ := I.down x hst
  simp at ha

/-- C10: for every finite directed graph whose edges are in range, `calcSCC` terminates without undefined behaviour and
returns a colouring with one colour per node such that two nodes share a colour iff each is reachable from the other;
the colours used are exactly `0, …, count-1`. -/
theorem C10_calcSCC_correct (g : Graph) (hv : Valid g) :
    ∃ count col, calcSCC g = some (count, col) ∧ col.length = g.length ∧
      (∀ u v, u < g.length → v < g.length → (col[u]? = col[v]? ↔ Reach g u v ∧ Reach g v u)) ∧
      (∀ c, c ∈ col ↔ c < count) := by
  obtain ⟨s, e, I, hd⟩ := calcSCC_core g hv
  refine ⟨_, _, e, by simp, ?_, ?_⟩
  · intro u v hu hv'
    rw [← I.col_iff u v (hd u hu) (hd v hv')]
    simp [hu, hv']
  · intro c
    rw [List.mem_map]
    constructor
    · rintro ⟨x, hx, rfl⟩
      exact I.col_lt x (hd x (List.mem_range.mp hx))
    · intro hc
      obtain ⟨x, hx, e⟩ := I.col_surj c hc
      exact ⟨x, List.mem_range.mpr (I.lt_n x hx.1), e⟩

/-- C11: colours are non-increasing along edges' targets: if `v` is reachable from `u`, `v`'s colour is at most `u`'s. -/
theorem C11_reverse_topological (g : Graph) (hv : Valid g) (count : Nat) (col : List Nat)
    (h : calcSCC g = some (count, col)) (u v cu cv : Nat) (hu : col[u]? = some cu) (hv' : col[v]? = some cv)
    (r : Reach g u v) : cv ≤ cu := by
  obtain ⟨s, e, I, hd⟩ := calcSCC_core g hv
  rw [e] at h
  simp only [Option.some.injEq, Prod.mk.injEq] at h
  obtain ⟨_, rfl⟩ := h
  rw [List.getElem?_map] at hu hv'
  have hul : u < g.length := by
    rcases Nat.lt_or_ge u g.length with h | h
    · exact h
    · rw [List.getElem?_eq_none (by simpa using h)] at hu; simp at hu
  have hvl : v < g.length := by
    rcases Nat.lt_or_ge v g.length with h | h
    · exact h
    · rw [List.getElem?_eq_none (by simpa using h)] at hv'; simp at hv'
  rw [List.getElem?_range hul] at hu
  rw [List.getElem?_range hvl] at hv'
  simp only [Option.map_some, Option.some.injEq] at hu hv'
  rw [← hu, ← hv']
  exact I.col_topo u v (hd u hul) r

/-! non-vacuity: a graph with a 2-cycle `0 ⇄ 1`, a tail `1 → 2` and a self-loop -/
example : Valid [[1], [0, 2], [2]] := by
  intro u v h
  unfold Edge succ at h
  match u with
  | 0 => simp at h; subst h; decide
  | 1 => simp at h; rcases h with rfl | rfl <;> decide
  | 2 => simp at h; subst h; decide
  | n + 3 => simp at h
example : calcSCC [[1], [0, 2], [2]] = some (2, [1, 1, 0]) := by decide

end Cmmc.SCC
