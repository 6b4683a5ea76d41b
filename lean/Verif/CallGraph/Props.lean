import Verif.CallGraph.Proof
import Mathlib.Data.List.Nodup
/-! # C28: the call-graph order lists every function once, callees first -/
namespace Cmmc.CallGraph
open Cmmc.SCC

/-- every direct callee is one of the module's functions (otherwise `idxMap.at` throws) -/
def ValidCalls (calls : List (List Nat)) : Prop := ∀ u v, v ∈ calls.getD u [] → v < calls.length

/-- `u` calls `v` directly -/
def Calls (calls : List (List Nat)) (u v : Nat) : Prop := v ∈ calls.getD u []

/-- `u` calls `v` directly or transitively (or `u = v`) -/
def CallsStar (calls : List (List Nat)) : Nat → Nat → Prop := Relation.ReflTransGen (Calls calls)

theorem callGraph_length (calls : List (List Nat)) : (callGraph calls).length = calls.length := by simp [callGraph]

theorem callGraph_edge (calls : List (List Nat)) (u v : Nat) :
    Edge (callGraph calls) u v ↔ (Calls calls u v ∧ u ≠ v) := by
  unfold Edge SCC.succ callGraph Calls
  rcases Nat.lt_or_ge u calls.length with h | h
  · simp [List.getD_eq_getElem?_getD, List.getElem?_map, List.getElem?_range h]
  · have h2 : (List.range calls.length)[u]? = none := List.getElem?_eq_none (by simpa using h)
    simp [List.getD_eq_getElem?_getD, List.getElem?_map, List.getElem?_eq_none h, h2]

theorem callsStar_iff (calls : List (List Nat)) (u v : Nat) : CallsStar calls u v ↔ Reach (callGraph calls) u v := by
  constructor
  · intro h
    induction h with
    | refl => exact reach_refl _
    | @tail b c _ e ih =>
      by_cases hbc : b = c
      · subst hbc; exact ih
      · exact ih.tail ((callGraph_edge calls _ _).mpr ⟨e, hbc⟩)
  · intro h
    induction h with
    | refl => exact Relation.ReflTransGen.refl
    | tail _ e ih => exact ih.tail ((callGraph_edge calls _ _).mp e).1

/-- C28: whatever order the hash sets are walked in, `CallGraphSCC` terminates, its order is a permutation of the module's
functions, and when `u` calls `v` (directly or transitively) while `v` does not call back into `u`, `v` comes before `u`. -/
theorem C28_order_bottom_up (ord : Nat → List Nat → List Nat) (hord : ∀ u l, (ord u l).Perm l)
    (calls : List (List Nat)) (hv : ValidCalls calls) :
    ∃ o, order ord calls = some o ∧ o.Perm (List.range calls.length) ∧
      ∀ u v, CallsStar calls u v → ¬ CallsStar calls v u →
        ∀ i j : Nat, o[i]? = some u → o[j]? = some v → j < i := by
  have hvg : Valid (callGraph calls) := by
    intro u v e
    rw [callGraph_length]
    exact hv u v ((callGraph_edge calls u v).mp e).1
  obtain ⟨s, es, I, hd⟩ := calcSCC_core (callGraph calls) hvg
  generalize hg : callGraph calls = g at *
  have hlen : g.length = calls.length := by rw [← hg, callGraph_length]
  have hcolEq : ∀ u, u < g.length → (List.map s.col (List.range g.length)).getD u 0 = s.col u := by
    intro u hu
    simp [List.getD_eq_getElem?_getD, List.getElem?_map, List.getElem?_range hu]
  generalize hC : (fun u => (List.map s.col (List.range g.length)).getD u 0) = col
  have hcol : ∀ u, u < g.length → col u = s.col u := by
    intro u hu; rw [← hC]; exact hcolEq u hu
  have hedge_lt : ∀ u v, Edge g u v → u < g.length := by
    intro u v e
    rcases Nat.lt_or_ge u g.length with h | h
    · exact h
    · unfold Edge SCC.succ at e
      simp [List.getD_eq_getElem?_getD, List.getElem?_eq_none h] at e
  have DI := buildDag_inv (n := s.ccnt) g col (fun u v e => by
    have hvl := hvg u v e
    rw [hcol v hvl]; exact I.col_lt v (hd v hvl))
  generalize hD : buildDag g col = d at *
  have hmem : ∀ x c, c ∈ ord x (d.dag x) ↔ c ∈ d.dag x := fun x c => (hord x (d.dag x)).mem_iff
  have hdl : ∀ x c, c ∈ ord x (d.dag x) → x < s.ccnt ∧ c < s.ccnt ∧ x < c := by
    intro x c hc
    rw [hmem, DI.mem] at hc
    obtain ⟨u, v, hu, e, rfl, rfl, hne⟩ := hc
    have hvl := hvg u v e
    rw [hcol u hu, hcol v hvl] at *
    have h1 := I.col_lt u (hd u hu)
    have h2 := I.col_lt v (hd v hvl)
    have h3 := I.col_topo u v (hd u hu) (reach_edge e)
    omega
  have hcnt : ∀ p c, cnt s.ccnt (fun x => ord x (d.dag x)) p c = cnt s.ccnt d.dag p c := by
    intro p c
    unfold cnt
    congr 1
    apply List.filter_congr
    intro x _
    simp only [hmem]
  have hdeg0 : ∀ c, d.deg c = cnt s.ccnt (fun x => ord x (d.dag x)) (fun d => decide (d ∉ ([] : List Nat))) c := by
    intro c
    rw [hcnt, DI.deg]
    simp
  have K0 : KInv s.ccnt (fun x => ord x (d.dag x)) d.deg ((List.range s.ccnt).filter (fun u => d.deg u = 0)) [] := by
    refine ⟨?_, ?_, hdeg0, ?_, ?_⟩
    · exact List.Nodup.filter _ List.nodup_range
    · intro c hc; simp only [List.nil_append, List.mem_filter, List.mem_range] at hc; exact hc.1
    · intro c hc; simp [hc]
    · intro P1 c P2 e; simp at e
  obtain ⟨P, eP, deg', K⟩ := kahn_spec (n := s.ccnt) (dag := fun x => ord x (d.dag x))
    (fun x => (hord x _).nodup_iff.mpr (DI.nodup x)) (fun x c h => ⟨(hdl x c h).1, (hdl x c h).2.1⟩) (s.ccnt + 1) d.deg _ [] K0 (by simp)
  have hall := kahn_complete K (fun x c h => (hdl x c h).2.2)
  have hPnd : P.Nodup := by simpa using K.nodup
  refine ⟨P.flatMap (sccOf g.length col), ?_, ?_, ?_⟩
  · unfold order
    dsimp only
    rw [hg, es]
    dsimp only
    rw [hC, hD, eP]
  · -- permutation of the functions
    rw [← hlen]
    apply (List.perm_ext_iff_of_nodup ?_ List.nodup_range).mpr
    · intro x
      simp only [List.mem_flatMap, sccOf, List.mem_filter, List.mem_range, decide_eq_true_eq]
      constructor
      · rintro ⟨c, _, hx, _⟩; exact hx
      · intro hx
        refine ⟨col x, hall _ ?_, hx, rfl⟩
        rw [hcol x hx]; exact I.col_lt x (hd x hx)
    · rw [List.nodup_flatMap]
      refine ⟨fun c _ => List.Nodup.filter _ List.nodup_range, ?_⟩
      refine hPnd.imp ?_
      intro a b hab
      show List.Disjoint _ _
      intro x hx hx'
      simp only [sccOf, List.mem_filter, decide_eq_true_eq] at hx hx'
      exact hab (hx.2.symm.trans hx'.2)
  · intro u v huv hnvu i j hi hj
    rw [callsStar_iff, hg] at huv hnvu
    -- colours of positions
    have hmemO : ∀ x, x ∈ P.flatMap (sccOf g.length col) → x < g.length := by
      intro x hx
      simp only [List.mem_flatMap, sccOf, List.mem_filter, List.mem_range] at hx
      obtain ⟨_, _, h, _⟩ := hx; exact h
    have hul : u < g.length := hmemO u (List.mem_of_getElem? hi)
    have hvl : v < g.length := hmemO v (List.mem_of_getElem? hj)
    have hcu : col u ∈ P := hall _ (by rw [hcol u hul]; exact I.col_lt u (hd u hul))
    -- along any path, colours already processed: every proper descendant colour precedes
    have key : ∀ w, Reach g u w → col w = col u ∨ ∃ P1 P2, P = P1 ++ col u :: P2 ∧ col w ∈ P1 := by
      obtain ⟨P1, P2, e⟩ := List.append_of_mem hcu
      intro w r
      induction r with
      | refl => exact Or.inl rfl
      | @tail b c _ ebc ih =>
        have hbl := hedge_lt b c ebc
        by_cases hbc : col b = col c
        · rw [← hbc]; exact ih
        · have hdep : col b ∈ ord (col c) (d.dag (col c)) := by
            rw [hmem, DI.mem]
            exact ⟨b, c, hbl, ebc, rfl, rfl, hbc⟩
          rcases ih with hb | ⟨Q1, Q2, eQ, hb⟩
          · right
            rw [hb] at hdep
            exact ⟨P1, P2, e, K.before P1 (col u) P2 e (col c) hdep⟩
          · right
            refine ⟨Q1, Q2, eQ, ?_⟩
            obtain ⟨R1, R2, eR⟩ := List.append_of_mem hb
            have := K.before R1 (col b) (R2 ++ col u :: Q2) (by rw [eQ, eR]; simp) (col c) hdep
            rw [eR]; simp [this]
    have hne : col v ≠ col u := by
      intro h
      rw [hcol u hul, hcol v hvl, eq_comm, I.col_iff u v (hd u hul) (hd v hvl)] at h
      exact hnvu h.2
    obtain ⟨P1, P2, e, hvP⟩ := (key v huv).resolve_left hne
    -- positions: everything from `P1` precedes
    have hsplit : P.flatMap (sccOf g.length col) = P1.flatMap (sccOf g.length col) ++ (col u :: P2).flatMap (sccOf g.length col) := by
      rw [e, List.flatMap_append]
    have hnd1 : ∀ x ∈ P1, x ∉ col u :: P2 := by
      rw [e, List.nodup_append] at hPnd
      intro x hx hx'; exact hPnd.2.2 x hx x hx' rfl
    rw [hsplit] at hi hj
    have hj' : j < (P1.flatMap (sccOf g.length col)).length := by
      rcases Nat.lt_or_ge j (P1.flatMap (sccOf g.length col)).length with h | h
      · exact h
      · exfalso
        rw [List.getElem?_append_right h] at hj
        have := List.mem_of_getElem? hj
        simp only [List.mem_flatMap, sccOf, List.mem_filter, decide_eq_true_eq] at this
        obtain ⟨c, hc, _, hvc⟩ := this
        subst hvc
        exact hnd1 _ hvP hc
    have hi' : (P1.flatMap (sccOf g.length col)).length ≤ i := by
      rcases Nat.lt_or_ge i (P1.flatMap (sccOf g.length col)).length with h | h
      · exfalso
        rw [List.getElem?_append_left h] at hi
        have := List.mem_of_getElem? hi
        simp only [List.mem_flatMap, sccOf, List.mem_filter, decide_eq_true_eq] at this
        obtain ⟨c, hc, _, huc⟩ := this
        subst huc
        exact hnd1 _ hc (by simp)
      · exact h
    omega

/-- the reversed order lists callers first -/
theorem C28_reversed_top_down (ord : Nat → List Nat → List Nat) (hord : ∀ u l, (ord u l).Perm l)
    (calls : List (List Nat)) (hv : ValidCalls calls) :
    ∃ o, reversedOrder ord calls = some o ∧ o.Perm (List.range calls.length) ∧
      ∀ u v, CallsStar calls u v → ¬ CallsStar calls v u →
        ∀ i j : Nat, o[i]? = some u → o[j]? = some v → i < j := by
  obtain ⟨o, e, hp, h⟩ := C28_order_bottom_up ord hord calls hv
  refine ⟨o.reverse, by simp [reversedOrder, e], (List.reverse_perm o).trans hp, ?_⟩
  intro u v h1 h2 i j hi hj
  have hil : i < o.length := by
    rcases Nat.lt_or_ge i o.length with h | h
    · exact h
    · rw [List.getElem?_eq_none (by simpa using h)] at hi; simp at hi
  have hjl : j < o.length := by
    rcases Nat.lt_or_ge j o.length with h | h
    · exact h
    · rw [List.getElem?_eq_none (by simpa using h)] at hj; simp at hj
  rw [List.getElem?_reverse hil] at hi
  rw [List.getElem?_reverse hjl] at hj
  have := h u v h1 h2 _ _ hi hj
  omega

/-! non-vacuity: `main(0) → f(1) ⇄ g(2)`, `g → h(3)`, `main → main` -/
example : ValidCalls [[1, 0], [2], [1, 3], []] := by
  intro u v h
  match u with
  | 0 => simp at h; rcases h with rfl | rfl <;> decide
  | 1 => simp at h; subst h; decide
  | 2 => simp at h; rcases h with rfl | rfl <;> decide
  | 3 => simp at h
  | n + 4 => simp at h
example : order (fun _ l => l) [[1, 0], [2], [1, 3], []] = some [3, 1, 2, 0] := by decide

end Cmmc.CallGraph
