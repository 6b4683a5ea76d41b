import Verif.SSA.CondProp
import Verif.SSA.PhiElim
import Verif.SSA.Sink
/-! # the condition sets of `ConditionalPropagation` are complete and sound along every edge -/
namespace Cmmc.SSA
open Cmmc.SCC Cmmc.CallGraph
section
variable {Op C : Type}

theorem condDag_inv {n : Nat} (g : Graph) (col : Nat → Nat) (hcol : ∀ u v, SCC.Edge g u v → col u < n) :
    DInv n (condDag g col) (fun x c => ∃ u v, u < g.length ∧ SCC.Edge g u v ∧ x = col u ∧ c = col v ∧ col v ≠ col u) := by
  have inner : ∀ (u : Nat) (vs : List Nat) (d : D) (E : Nat → Nat → Prop), DInv n d E → (∀ v ∈ vs, col u < n) →
      DInv n (vs.foldl (fun d v => addEdge (col v) (col u) d) d) (fun x c => E x c ∨ ∃ v ∈ vs, x = col u ∧ c = col v ∧ col v ≠ col u) := by
    intro u vs
    induction vs with
    | nil => intro d E I _; exact I.congr (by simp)
    | cons v vs ih =>
      intro d E I h
      rw [List.foldl_cons]
      refine (ih _ _ (addEdge_inv I (cu := col v) (h v (by simp))) (fun w hw => h w (by simp [hw]))).congr ?_
      intro x c
      constructor
      · rintro ((h | h) | ⟨w, hw, h⟩)
        · exact Or.inl h
        · exact Or.inr ⟨v, by simp, h⟩
        · exact Or.inr ⟨w, by simp [hw], h⟩
      · rintro (h | ⟨w, hw, h'⟩)
        · exact Or.inl (Or.inl h)
        · rcases List.mem_cons.mp hw with rfl | hw
          · exact Or.inl (Or.inr h')
          · exact Or.inr ⟨w, hw, h'⟩
  have key : ∀ (us : List Nat) (d : D) (E : Nat → Nat → Prop), DInv n d E →
      DInv n (us.foldl (fun d u => (succ g u).foldl (fun d v => addEdge (col v) (col u) d) d) d)
        (fun x c => E x c ∨ ∃ u ∈ us, ∃ v, SCC.Edge g u v ∧ x = col u ∧ c = col v ∧ col v ≠ col u) := by
    intro us
    induction us with
    | nil => intro d E I; exact I.congr (by simp)
    | cons u us ih =>
      intro d E I
      rw [List.foldl_cons]
      refine (ih _ _ (inner u (succ g u) d E I (fun v hv => hcol u v hv))).congr ?_
      intro x c
      constructor
      · rintro ((h | ⟨v, hv, h⟩) | ⟨w, hw, h⟩)
        · exact Or.inl h
        · exact Or.inr ⟨u, by simp, v, hv, h⟩
        · exact Or.inr ⟨w, by simp [hw], h⟩
      · rintro (h | ⟨w, hw, v, hv, h⟩)
        · exact Or.inl (Or.inl h)
        · rcases List.mem_cons.mp hw with rfl | hw
          · exact Or.inl (Or.inr ⟨v, hv, h⟩)
          · exact Or.inr ⟨w, hw, v, hv, h⟩
  have base : DInv n { dag := fun _ => [], deg := fun _ => 0 } (fun _ _ => False) :=
    ⟨by simp, by intro c; show 0 = _; unfold cnt; rw [List.filter_eq_nil_iff.mpr (by simp)]; rfl, by simp⟩
  refine (key (List.range g.length) _ _ base).congr ?_
  intro x c
  constructor
  · rintro (h | ⟨u, hu, v, h⟩)
    · exact absurd h id
    · exact ⟨u, v, List.mem_range.mp hu, h⟩
  · rintro ⟨u, v, hu, h⟩
    exact Or.inr ⟨u, List.mem_range.mpr hu, v, h⟩

/-- completeness when dependencies have larger numbers -/
theorem kahn_complete_down {n : Nat} {dag : Nat → List Nat} {deg : Nat → Nat} {P : List Nat} (K : KInv n dag deg [] P)
    (hbig : ∀ d c, c ∈ dag d → c < d) : ∀ c, c < n → c ∈ P := by
  have key : ∀ k c, n - c = k → c < n → c ∈ P := by
    intro k
    induction k using Nat.strongRecOn with
    | _ k ih =>
      intro c hk hc
      have : deg c = 0 := by
        rw [K.degs]
        unfold cnt
        rw [List.length_eq_zero_iff, List.filter_eq_nil_iff]
        intro d hd
        simp only [Bool.and_eq_true, decide_eq_true_eq, not_and, not_not]
        intro hcd
        have := hbig d c hcd
        have hdn := List.mem_range.1 hd
        exact ih (n - d) (by omega) d rfl hdn
      simpa using (K.zero c hc).mp this
  exact fun c hc => key _ c rfl hc

/-! ## the graph of the function -/

variable {F : Func Op C} {cord : Nat → List Nat → List Nat}

theorem pos_lt (b : Nat) (h : b ∈ F.order) : F.pos b < F.order.length := List.idxOf_lt_length_of_mem h

theorem graph_length : (F.graph cord).length = F.order.length := by simp [Func.graph]

theorem order_pos {b : Nat} (h : b ∈ F.order) : F.order[F.pos b]? = some b := by
  unfold Func.pos
  rw [List.getElem?_eq_getElem (List.idxOf_lt_length_of_mem h), List.getElem_idxOf]

theorem graph_edge (hc : ∀ u l, (cord u l).Perm l) (S : Shape F) {u v : Nat} : SCC.Edge (F.graph cord) u v ↔ ∃ a b, a ∈ F.order ∧ u = F.pos a ∧ v = F.pos b ∧ Edge F a b := by
  have hcfg := (C32_cfg (F := F) (ord := cord) hc S.nodup S.listed).1
  unfold SCC.Edge SCC.succ Func.graph
  rw [List.getD_eq_getElem?_getD, List.getElem?_map]
  constructor
  · intro h
    cases e : F.order[u]? with
    | none => rw [e] at h; simp at h
    | some a =>
      rw [e] at h
      simp only [Option.map_some, Option.getD_some, List.mem_map] at h
      obtain ⟨b, hb, rfl⟩ := h
      have ha := List.mem_of_getElem? e
      refine ⟨a, b, ha, ?_, rfl, (hcfg a b).1 hb⟩
      have h2 := order_pos ha
      obtain ⟨hu, _⟩ := List.getElem?_eq_some_iff.1 e
      exact (List.getElem?_inj hu S.nodup).1 (e.trans h2.symm)
  · rintro ⟨a, b, ha, rfl, rfl, e⟩
    rw [order_pos ha]
    simp only [Option.map_some, Option.getD_some, List.mem_map]
    exact ⟨b, (hcfg a b).2 e, rfl⟩

theorem graph_reach (hc : ∀ u l, (cord u l).Perm l) (S : Shape F) {a b : Nat} (h : Dom.Reachable (Edge F) a b) : SCC.Reach (F.graph cord) (F.pos a) (F.pos b) := by
  obtain ⟨p, hp⟩ := h
  induction hp with
  | single a => exact .refl
  | @cons a b c p e _ ih =>
    refine Relation.ReflTransGen.head ((graph_edge hc S).2 ⟨a, b, ?_, rfl, rfl, e⟩) ih
    obtain ⟨B, hB, _⟩ := e
    exact S.listed a B hB

variable [DecidableEq C]

/-- what the sets guarantee: nothing is known at the entry; what is known in a block is known in every predecessor or is the condition of
the branch from it, which then cannot be reached again -/
structure CondSound (F : Func Op C) (s : Nat → CondSet C) : Prop where
  entry : (s F.entry).ts = [] ∧ (s F.entry).fs = []
  ts : ∀ q b, Edge F q b → ∀ o ∈ (s b).ts, o ∈ (s q).ts ∨ (¬ Dom.Reachable (Edge F) b q ∧ ∃ B f, F.blk q = some B ∧ B.term = .cbr o b f ∧ b ≠ f)
  fs : ∀ q b, Edge F q b → ∀ o ∈ (s b).fs, o ∈ (s q).fs ∨ (¬ Dom.Reachable (Edge F) b q ∧ ∃ B t, F.blk q = some B ∧ B.term = .cbr o t b ∧ t ≠ b)

theorem common_all {es : List (Condition C)} {o : Opd C} {v : Bool} (h : common es = ⟨some o, v⟩) : ∀ e ∈ es, e = ⟨some o, v⟩ := by
  unfold common at h
  split at h
  · intro e he; simp at he
  · rename_i c cs
    split at h
    · rename_i hc
      simp only [Bool.and_eq_true, List.all_eq_true, decide_eq_true_eq] at hc
      intro e he
      rw [← hc.2 e he, h]
    · simp at h

theorem edgeConds_mem {ord : Nat → List Nat → List Nat} {col : Nat → Nat} {q b : Nat} (hq : q ∈ F.order) (hb : b ∈ (F.cfg ord).succ q) (hne : col (F.pos q) ≠ col (F.pos b)) :
    F.edgeCond q b ∈ F.edgeConds ord col (col (F.pos q)) (col (F.pos b)) := by
  unfold Func.edgeConds
  rw [List.mem_flatMap]
  refine ⟨q, hq, ?_⟩
  rw [if_pos rfl, List.mem_map]
  exact ⟨b, by simp [hb, hne], rfl⟩

theorem condSets_spec {dord : Nat → List Nat → List Nat} (hc : ∀ u l, (cord u l).Perm l) (hd : ∀ u l, (dord u l).Perm l) (S : Shape F) (E : EntryFirst F) :
    ∃ s, F.condSets cord dord = some s ∧ CondSound F s := by
  have hvg : Valid (F.graph cord) := by
    intro u v e
    obtain ⟨a, b, _, _, rfl, e'⟩ := (graph_edge hc S).1 e
    rw [graph_length]; exact pos_lt b (S.closed a b e')
  obtain ⟨s, es, I, hdn⟩ := calcSCC_core (F.graph cord) hvg
  have hge := @graph_edge _ _ F cord hc S
  have hgr := @graph_reach _ _ F cord hc S
  have hlen : (F.graph cord).length = F.order.length := graph_length
  unfold Func.condSets
  generalize hg : F.graph cord = g at *
  dsimp only
  rw [es]
  dsimp only
  have hcolEq : ∀ u, u < g.length → (List.map s.col (List.range g.length)).getD u 0 = s.col u := by
    intro u hu
    simp [List.getD_eq_getElem?_getD, List.getElem?_map, List.getElem?_range hu]
  generalize hC : (fun u => (List.map s.col (List.range g.length)).getD u 0) = col
  have hcol : ∀ u, u < g.length → col u = s.col u := by
    intro u hu; rw [← hC]; exact hcolEq u hu
  have hedge_lt : ∀ u v, SCC.Edge g u v → u < g.length := by
    intro u v e
    obtain ⟨a, b, ha, rfl, _⟩ := hge.1 e
    rw [hlen]; exact pos_lt a ha
  have DI := condDag_inv (n := s.ccnt) g col (fun u v e => by
    have hul := hedge_lt u v e
    rw [hcol u hul]; exact I.col_lt u (hdn u hul))
  generalize hD : condDag g col = d at *
  have hmem : ∀ x c, c ∈ dord x (d.dag x) ↔ c ∈ d.dag x := fun x c => (hd x (d.dag x)).mem_iff
  have hdl : ∀ x c, c ∈ dord x (d.dag x) → x < s.ccnt ∧ c < s.ccnt ∧ c < x := by
    intro x c hc
    rw [hmem, DI.mem] at hc
    obtain ⟨u, v, hu, e, rfl, rfl, hne⟩ := hc
    have hvl := hvg u v e
    rw [hcol u hu, hcol v hvl] at *
    have h1 := I.col_lt u (hdn u hu)
    have h2 := I.col_lt v (hdn v hvl)
    have h3 := I.col_topo u v (hdn u hu) (reach_edge e)
    omega
  have hcnt : ∀ p c, cnt s.ccnt (fun x => dord x (d.dag x)) p c = cnt s.ccnt d.dag p c := by
    intro p c
    unfold cnt
    congr 1
    apply List.filter_congr
    intro x _
    simp only [hmem]
  have hdeg0 : ∀ c, d.deg c = cnt s.ccnt (fun x => dord x (d.dag x)) (fun d => decide (d ∉ ([] : List Nat))) c := by
    intro c
    rw [hcnt, DI.deg]
    simp
  have K0 : KInv s.ccnt (fun x => dord x (d.dag x)) d.deg ((List.range s.ccnt).filter (fun u => d.deg u = 0)) [] := by
    refine ⟨?_, ?_, hdeg0, ?_, ?_⟩
    · exact List.Nodup.filter _ List.nodup_range
    · intro c hc; simp only [List.nil_append, List.mem_filter, List.mem_range] at hc; exact hc.1
    · intro c hc; simp [hc]
    · intro P1 c P2 e; simp at e
  have I0 : ColInv (fun x => dord x (d.dag x)) (fun u v => common (F.edgeConds cord col u v)) [] (fun _ => CondSet.init) :=
    ⟨by simp, by simp, by simp, fun v _ => ⟨rfl, rfl⟩⟩
  obtain ⟨P, color, e1, _, CI, deg', K⟩ := condLoop_spec (n := s.ccnt) (dag := fun x => dord x (d.dag x))
    (fun x => (hd x _).nodup_iff.mpr (DI.nodup x)) (fun x c h => ⟨(hdl x c h).1, (hdl x c h).2.1, by have := (hdl x c h).2.2; omega⟩) (s.ccnt + 1) d.deg _ [] _ K0 I0 (by simp)
  have hall := kahn_complete_down K (fun x c h => (hdl x c h).2.2)
  rw [e1]
  refine ⟨fun b => color (col (F.pos b)), by rw [← hC], ?_⟩
  -- an edge between different colours
  have hcross : ∀ q b, Edge F q b → col (F.pos q) ≠ col (F.pos b) → q ∈ F.order ∧ col (F.pos q) ∈ P ∧ col (F.pos b) ∈ dord (col (F.pos q)) (d.dag (col (F.pos q))) ∧
      ¬ Dom.Reachable (Edge F) b q ∧ F.edgeCond q b ∈ F.edgeConds cord col (col (F.pos q)) (col (F.pos b)) := by
    intro q b e hne
    have hq : q ∈ F.order := by obtain ⟨B, hB, _⟩ := e; exact S.listed q B hB
    have hb := S.closed q b e
    have hql : F.pos q < g.length := by rw [hlen]; exact pos_lt q hq
    have hbl : F.pos b < g.length := by rw [hlen]; exact pos_lt b hb
    have he : SCC.Edge g (F.pos q) (F.pos b) := hge.2 ⟨q, b, hq, rfl, rfl, e⟩
    refine ⟨hq, hall _ ?_, ?_, ?_, ?_⟩
    · rw [hcol _ hql]; exact I.col_lt _ (hdn _ hql)
    · rw [hmem, DI.mem]; exact ⟨_, _, hql, he, rfl, rfl, hne.symm⟩
    · intro hr
      apply hne
      rw [hcol _ hql, hcol _ hbl]
      exact (I.col_iff _ _ (hdn _ hql) (hdn _ hbl)).2 ⟨reach_edge he, hgr hr⟩
    · exact edgeConds_mem hq ((C32_cfg (F := F) (ord := cord) hc S.nodup S.listed).1 q b |>.2 e) hne
  refine ⟨?_, ?_, ?_⟩
  · apply CI.free
    intro x hx
    rw [hmem, DI.mem] at hx
    obtain ⟨u, v, hu, e, rfl, he, hne⟩ := hx
    have hel : F.pos F.entry < g.length := by rw [hlen]; exact pos_lt _ S.entryIn
    have hvl := hvg u v e
    rw [hcol _ hel, hcol _ hvl] at he
    have hr := ((I.col_iff _ _ (hdn _ hel) (hdn _ hvl)).1 he).2
    have hin : ∃ w, SCC.Edge g w (F.pos F.entry) := by
      rcases Relation.ReflTransGen.cases_tail hr with h | ⟨w, _, h⟩
      · exact ⟨u, h ▸ e⟩
      · exact ⟨w, h⟩
    obtain ⟨w, hw⟩ := hin
    obtain ⟨a, b, _, _, h2, h3⟩ := hge.1 hw
    have h4 := order_pos S.entryIn
    rw [h2, order_pos (S.closed a b h3)] at h4
    obtain rfl := Option.some.inj h4
    exact E a h3
  · intro q b e o ho
    by_cases hne : col (F.pos q) = col (F.pos b)
    · left; rw [hne]; exact ho
    · obtain ⟨hq, hP, hdag, hnr, hec⟩ := hcross q b e hne
      rcases CI.ts _ hP _ hdag o ho with h | h
      · exact .inl h
      · have h2 := common_all h _ hec
        obtain ⟨B, hB, ht⟩ := e
        refine .inr ⟨hnr, B, ?_⟩
        unfold Func.edgeCond at h2
        rw [hB] at h2
        simp only at h2
        split at h2
        · rename_i c t f hbt
          split at h2
          · simp at h2
          · rename_i htf
            simp only [Condition.mk.injEq, Option.some.injEq, decide_eq_true_eq] at h2
            obtain ⟨rfl, rfl⟩ := h2
            exact ⟨f, hB, hbt, htf⟩
        · simp at h2
  · intro q b e o ho
    by_cases hne : col (F.pos q) = col (F.pos b)
    · left; rw [hne]; exact ho
    · obtain ⟨hq, hP, hdag, hnr, hec⟩ := hcross q b e hne
      rcases CI.fs _ hP _ hdag o ho with h | h
      · exact .inl h
      · have h2 := common_all h _ hec
        obtain ⟨B, hB, ht⟩ := e
        refine .inr ⟨hnr, B, ?_⟩
        unfold Func.edgeCond at h2
        rw [hB] at h2
        simp only at h2
        split at h2
        · rename_i c t f hbt
          split at h2
          · simp at h2
          · rename_i htf
            simp only [Condition.mk.injEq, Option.some.injEq, decide_eq_false_iff_not] at h2
            obtain ⟨rfl, h3⟩ := h2
            rw [hbt] at ht
            simp only [Term.targets, List.mem_cons, List.not_mem_nil, or_false] at ht
            rcases ht with rfl | rfl
            · exact absurd rfl h3
            · exact ⟨t, hB, hbt, htf⟩
        · simp at h2

end
end Cmmc.SSA
