import Verif.Phi.Model
import Verif.CallGraph.Proof
import Mathlib.Data.List.Nodup
/-! # C27: the copies emitted on a CFG edge are a parallel copy -/
namespace Cmmc.Phi
open Cmmc.SCC Cmmc.CallGraph

/-! ### the order is a permutation -/

theorem inner_inv' {n : Nat} (col : Nat → Nat) (u : Nat) (hu : col u < n) : ∀ (vs : List Nat) (d : D) (E : Nat → Nat → Prop), DInv n d E →
    DInv n (vs.foldl (fun d v => addEdge (col v) (col u) d) d) (fun x c => E x c ∨ ∃ v ∈ vs, x = col u ∧ c = col v ∧ col v ≠ col u) := by
  intro vs
  induction vs with
  | nil => intro d E I; exact I.congr (by simp)
  | cons v vs ih =>
    intro d E I
    rw [List.foldl_cons]
    refine (ih _ _ (addEdge_inv I (cu := col v) hu)).congr ?_
    intro x c
    constructor
    · rintro ((h | h) | ⟨w, hw, h⟩)
      · exact Or.inl h
      · exact Or.inr ⟨v, by simp, h⟩
      · exact Or.inr ⟨w, by simp [hw], h⟩
    · rintro (h | ⟨w, hw, h'⟩)
      · exact Or.inl (Or.inl h)
      · rcases List.mem_cons.mp hw with rfl | hw
        · exact Or.inl (Or.inr h')
        · exact Or.inr ⟨w, hw, h'⟩

theorem buildDag_inv' {n : Nat} (g : Graph) (col : Nat → Nat) (hcol : ∀ u, u < g.length → col u < n) :
    DInv n (buildDag g col) (fun x c => ∃ u v, u < g.length ∧ Edge g u v ∧ x = col u ∧ c = col v ∧ col v ≠ col u) := by
  have key : ∀ (us : List Nat) (d : D) (E : Nat → Nat → Prop), (∀ u ∈ us, u < g.length) → DInv n d E →
      DInv n (us.foldl (fun d u => (succ g u).foldl (fun d v => addEdge (col v) (col u) d) d) d)
        (fun x c => E x c ∨ ∃ u ∈ us, ∃ v, Edge g u v ∧ x = col u ∧ c = col v ∧ col v ≠ col u) := by
    intro us
    induction us with
    | nil => intro d E _ I; exact I.congr (by simp)
    | cons u us ih =>
      intro d E hus I
      rw [List.foldl_cons]
      refine (ih _ _ (fun w hw => hus w (by simp [hw])) (inner_inv' col u (hcol u (hus u (by simp))) (succ g u) d E I)).congr ?_
      intro x c
      constructor
      · rintro ((h | ⟨v, hv, h⟩) | ⟨w, hw, h⟩)
        · exact Or.inl h
        · exact Or.inr ⟨u, by simp, v, hv, h⟩
        · exact Or.inr ⟨w, by simp [hw], h⟩
      · rintro (h | ⟨w, hw, v, hv, h⟩)
        · exact Or.inl (Or.inl h)
        · rcases List.mem_cons.mp hw with rfl | hw
          · exact Or.inl (Or.inr ⟨v, hv, h⟩)
          · exact Or.inr ⟨w, hw, v, hv, h⟩
  have base : DInv n { dag := fun _ => [], deg := fun _ => 0 } (fun _ _ => False) :=
    ⟨by simp, by intro c; show 0 = _; unfold cnt; rw [List.filter_eq_nil_iff.mpr (by simp)]; rfl, by simp⟩
  refine (key (List.range g.length) _ _ (fun u hu => List.mem_range.mp hu) base).congr ?_
  intro x c
  constructor
  · rintro (h | ⟨u, hu, v, h⟩)
    · exact absurd h id
    · exact ⟨u, v, List.mem_range.mp hu, h⟩
  · rintro ⟨u, v, hu, h⟩
    exact Or.inr ⟨u, List.mem_range.mpr hu, v, h⟩

theorem kahn_complete' {n : Nat} {dag : Nat → List Nat} {deg : Nat → Nat} {P : List Nat} (K : KInv n dag deg [] P)
    (hbig : ∀ d c, c ∈ dag d → c < d ∧ d < n) : ∀ c, c < n → c ∈ P := by
  have : ∀ k c, n - c = k → c < n → c ∈ P := by
    intro k
    induction k using Nat.strongRecOn with
    | _ k ih =>
      intro c hk hc
      have : deg c = 0 := by
        rw [K.degs]
        unfold cnt
        rw [List.length_eq_zero_iff, List.filter_eq_nil_iff]
        intro d hd
        simp only [Bool.and_eq_true, decide_eq_true_eq, not_and, not_not]
        intro hcd
        have := hbig d c hcd
        exact ih (n - d) (by omega) d rfl this.2
      simpa using (K.zero c hc).mp this
  exact fun c hc => this _ c rfl hc

theorem graphOf_valid {dst : List Nat} {src : List Opd} (hl : dst.length = src.length) : Valid (graphOf dst src) := by
  intro u v e
  unfold Edge SCC.succ graphOf at e
  rw [List.getD_eq_getElem?_getD, List.getElem?_map] at e
  simp only [graphOf, List.length_map, ← hl]
  cases hs : src[u]? with
  | none => simp [hs] at e
  | some s =>
    simp only [hs, Option.map_some, Option.getD_some, Option.mem_toList] at e
    cases s with
    | other n => simp [nodeOf] at e
    | vreg r =>
      simp only [nodeOf] at e
      split at e
      · simp at e; omega
      · simp at e

/-- the copy order exists (the assertion holds) and lists every index exactly once -/
theorem copyOrder_perm (ord : Nat → List Nat → List Nat) (hord : ∀ u l, (ord u l).Perm l) {dst : List Nat} {src : List Opd}
    (hl : dst.length = src.length) : ∃ o, copyOrder ord dst src = some o ∧ o.Perm (List.range dst.length) := by
  have hvg := graphOf_valid hl
  obtain ⟨s, es, I, hd⟩ := calcSCC_core (graphOf dst src) hvg
  have hlen : (graphOf dst src).length = dst.length := by simp [graphOf, hl]
  generalize hg : graphOf dst src = g at *
  have hcolEq : ∀ u, u < g.length → (List.map s.col (List.range g.length)).getD u 0 = s.col u := by
    intro u hu
    simp [List.getD_eq_getElem?_getD, List.getElem?_map, List.getElem?_range hu]
  generalize hC : (fun u => (List.map s.col (List.range g.length)).getD u 0) = col
  have hcol : ∀ u, u < g.length → col u = s.col u := by
    intro u hu; rw [← hC]; exact hcolEq u hu
  have hlt : ∀ u, u < g.length → col u < s.ccnt := fun u hu => by rw [hcol u hu]; exact I.col_lt u (hd u hu)
  have DI := buildDag_inv' (n := s.ccnt) g col hlt
  generalize hD : buildDag g col = d at *
  have hmem : ∀ x c, c ∈ ord x (d.dag x) ↔ c ∈ d.dag x := fun x c => (hord x (d.dag x)).mem_iff
  have hdl : ∀ x c, c ∈ ord x (d.dag x) → x < s.ccnt ∧ c < s.ccnt ∧ c < x := by
    intro x c hc
    rw [hmem, DI.mem] at hc
    obtain ⟨u, v, hu, e, rfl, rfl, hne⟩ := hc
    have hvl := hvg u v e
    have h3 := I.col_topo u v (hd u hu) (reach_edge e)
    rw [hcol u hu, hcol v hvl] at *
    have h1 := I.col_lt u (hd u hu)
    have h2 := I.col_lt v (hd v hvl)
    omega
  have hcnt : ∀ p c, cnt s.ccnt (fun x => ord x (d.dag x)) p c = cnt s.ccnt d.dag p c := by
    intro p c
    unfold cnt
    congr 1
    apply List.filter_congr
    intro x _
    simp only [hmem]
  have hdeg0 : ∀ c, d.deg c = cnt s.ccnt (fun x => ord x (d.dag x)) (fun d => decide (d ∉ ([] : List Nat))) c := by
    intro c
    rw [hcnt, DI.deg]
    simp
  have K0 : KInv s.ccnt (fun x => ord x (d.dag x)) d.deg ((List.range s.ccnt).filter (fun u => d.deg u = 0)) [] := by
    refine ⟨?_, ?_, hdeg0, ?_, ?_⟩
    · exact List.Nodup.filter _ List.nodup_range
    · intro c hc; simp only [List.nil_append, List.mem_filter, List.mem_range] at hc; exact hc.1
    · intro c hc; simp [hc]
    · intro P1 c P2 e; simp at e
  obtain ⟨P, eP, deg', K⟩ := kahn_spec (n := s.ccnt) (dag := fun x => ord x (d.dag x))
    (fun x => (hord x _).nodup_iff.mpr (DI.nodup x)) (fun x c h => ⟨(hdl x c h).1, (hdl x c h).2.1⟩) (s.ccnt + 1) d.deg _ [] K0 (by simp)
  have hall := kahn_complete' K (fun x c h => ⟨(hdl x c h).2.2, (hdl x c h).1⟩)
  have hPnd : P.Nodup := by simpa using K.nodup
  have hperm : (P.flatMap (sccOf g.length col)).Perm (List.range dst.length) := by
    rw [← hlen]
    apply (List.perm_ext_iff_of_nodup ?_ List.nodup_range).mpr
    · intro x
      simp only [List.mem_flatMap, sccOf, List.mem_filter, List.mem_range, decide_eq_true_eq]
      constructor
      · rintro ⟨c, _, hx, _⟩; exact hx
      · intro hx
        exact ⟨col x, hall _ (hlt x hx), hx, rfl⟩
    · rw [List.nodup_flatMap]
      refine ⟨fun c _ => List.Nodup.filter _ List.nodup_range, ?_⟩
      refine hPnd.imp ?_
      intro a b hab
      show List.Disjoint _ _
      intro x hx hx'
      simp only [sccOf, List.mem_filter, decide_eq_true_eq] at hx hx'
      exact hab (hx.2.symm.trans hx'.2)
  refine ⟨P.flatMap (sccOf g.length col), ?_, hperm⟩
  unfold copyOrder
  dsimp only
  rw [hg, es]
  dsimp only
  rw [hC, hD, eP]
  dsimp only
  rw [if_pos (by rw [hperm.length_eq]; simp)]

/-! ### the emission loop -/

theorem exec_append {V : Type} (ρ : Env V) (a b : List (Nat × Opd)) : exec ρ (a ++ b) = exec (exec ρ a) b := by
  induction a generalizing ρ with
  | nil => rfl
  | cons p a ih => obtain ⟨d, s⟩ := p; simp only [List.cons_append, exec]; exact ih _

theorem exec_fixed {V : Type} (ρ : Env V) (a : List (Nat × Opd)) : (exec ρ a).fixed = ρ.fixed := by
  induction a generalizing ρ with
  | nil => rfl
  | cons p a ih => obtain ⟨d, s⟩ := p; simp only [exec]; rw [ih]

/-- after processing the destinations in `done`: processed ones hold their new value, the rest their old one, and every processed
destination that is a source and has been overwritten is saved in its staging register -/
structure EInv {V : Type} (ρ : Env V) (next0 : Nat) (pairs : List (Nat × Opd)) (src : List Opd) (done : List (Nat × Opd)) (σ : St) : Prop where
  next : next0 ≤ σ.next
  new : ∀ p ∈ done, (exec ρ σ.out).reg p.1 = ρ.eval p.2
  old : ∀ r, r < next0 → r ∉ done.map Prod.fst → (exec ρ σ.out).reg r = ρ.reg r
  undone : ∀ r, r ∉ done.map Prod.fst → σ.dirty r = none
  saved : ∀ r t, σ.dirty r = some t → next0 ≤ t ∧ t < σ.next ∧ (exec ρ σ.out).reg t = ρ.reg r
  clean : ∀ r, Opd.vreg r ∈ src → σ.dirty r = none → (exec ρ σ.out).reg r = ρ.reg r

theorem emit1_inv {V : Type} {ρ : Env V} {next0 : Nat} {pairs done : List (Nat × Opd)} {src : List Opd} {σ : St}
    (I : EInv ρ next0 pairs src done σ) {d : Nat} {s : Opd} (hs : s ∈ src)
    (hd : d ∉ done.map Prod.fst) (hdlt : d < next0) (hdone : ∀ p ∈ done, p.1 < next0) (hlt : ∀ r, Opd.vreg r ∈ src → r < next0) :
    EInv ρ next0 pairs src (done ++ [(d, s)]) (emit1 src d s σ) := by
  have harg : (exec ρ σ.out).eval (remap σ.dirty s) = ρ.eval s := by
    cases s with
    | other n => simp only [remap, Env.eval, exec_fixed]
    | vreg r =>
      simp only [remap]
      cases hr : σ.dirty r with
      | none => exact I.clean r hs hr
      | some t => exact (I.saved r t hr).2.2
  have hargne : ∀ t, σ.next ≤ t → remap σ.dirty s ≠ .vreg t := by
    intro t ht
    cases s with
    | other n => simp [remap]
    | vreg r =>
      simp only [remap]
      cases hr : σ.dirty r with
      | none => have := hlt r hs; have := I.next; simp; omega
      | some t' => have := (I.saved r t' hr).2.1; simp; omega
  have hdn : σ.dirty d = none := I.undone d hd
  unfold emit1
  dsimp only
  split
  · rename_i he
    refine ⟨I.next, ?_, ?_, ?_, I.saved, I.clean⟩
    · intro p hp
      rcases List.mem_append.mp hp with h | h
      · exact I.new p h
      · simp only [List.mem_singleton] at h; subst h
        rw [he] at harg; exact harg
    · intro r hr hm
      exact I.old r hr (fun h => hm (by simp only [List.map_append, List.mem_append]; exact Or.inl h))
    · intro r hm
      exact I.undone r (fun h => hm (by simp only [List.map_append, List.mem_append]; exact Or.inl h))
  · split
    · rename_i hne hsrc
      have hnd : σ.next ≠ d := by have := I.next; omega
      have e : ∀ r, (exec ρ (σ.out ++ [(σ.next, Opd.vreg d), (d, remap σ.dirty s)])).reg r =
          if r = d then ρ.eval s else if r = σ.next then ρ.reg d else (exec ρ σ.out).reg r := by
        intro r
        rw [exec_append]
        simp only [exec, Env.eval, upd]
        by_cases hr : r = d
        · subst hr
          simp only [if_true]
          cases h : remap σ.dirty s with
          | other n => rw [h] at harg; exact harg
          | vreg t =>
            rw [h] at harg
            have : t ≠ σ.next := fun ht => hargne t (by omega) h
            simp only [this, if_false]; exact harg
        · simp only [hr, if_false]
          split
          · exact I.old d hdlt hd
          · rfl
      refine ⟨Nat.le_succ_of_le I.next, ?_, ?_, ?_, ?_, ?_⟩
      · intro p hp
        rw [e]
        rcases List.mem_append.mp hp with h | h
        · have h1 : p.1 ≠ d := fun hh => hd (hh ▸ List.mem_map_of_mem h)
          have h2 : p.1 ≠ σ.next := by have := hdone p h; have := I.next; omega
          simp only [h1, h2, if_false]; exact I.new p h
        · simp only [List.mem_singleton] at h; subst h; simp
      · intro r hr hm
        simp only [List.map_append, List.mem_append, List.map_cons, List.map_nil, List.mem_singleton, not_or] at hm
        have h2 : r ≠ σ.next := by have := I.next; omega
        rw [e]; simp only [hm.2, h2, if_false]; exact I.old r hr hm.1
      · intro r hm
        simp only [List.map_append, List.mem_append, List.map_cons, List.map_nil, List.mem_singleton, not_or] at hm
        simp only [hm.2, if_false]; exact I.undone r hm.1
      · intro r t hrt
        rw [e]
        simp only at hrt
        by_cases hr : r = d
        · subst hr
          rw [if_pos rfl, hdn] at hrt
          simp only [Option.some.injEq] at hrt
          subst hrt
          refine ⟨I.next, Nat.lt_succ_self _, ?_⟩
          simp [hnd]
        · rw [if_neg hr] at hrt
          obtain ⟨h1, h2, h3⟩ := I.saved r t hrt
          refine ⟨h1, Nat.lt_succ_of_lt h2, ?_⟩
          have k1 : t ≠ d := by omega
          have k2 : t ≠ σ.next := by omega
          simp only [k1, k2, if_false]; exact h3
      · intro r hr hc
        simp only at hc
        by_cases hrd : r = d
        · subst hrd; rw [if_pos rfl, hdn] at hc; simp at hc
        · rw [if_neg hrd] at hc
          have h2 : r ≠ σ.next := by have := hlt r hr; have := I.next; omega
          rw [e]; simp only [hrd, h2, if_false]; exact I.clean r hr hc
    · rename_i hne hsrc
      have e : ∀ r, (exec ρ (σ.out ++ [(d, remap σ.dirty s)])).reg r = if r = d then ρ.eval s else (exec ρ σ.out).reg r := by
        intro r
        rw [exec_append]
        simp only [exec, upd, harg]
      refine ⟨I.next, ?_, ?_, ?_, ?_, ?_⟩
      · intro p hp
        rw [e]
        rcases List.mem_append.mp hp with h | h
        · have h1 : p.1 ≠ d := fun hh => hd (hh ▸ List.mem_map_of_mem h)
          simp only [h1, if_false]; exact I.new p h
        · simp only [List.mem_singleton] at h; subst h; simp
      · intro r hr hm
        simp only [List.map_append, List.mem_append, List.map_cons, List.map_nil, List.mem_singleton, not_or] at hm
        rw [e]; simp only [hm.2, if_false]; exact I.old r hr hm.1
      · intro r hm
        exact I.undone r (fun h => hm (by simp only [List.map_append, List.mem_append]; exact Or.inl h))
      · intro r t hrt
        obtain ⟨h1, h2, h3⟩ := I.saved r t hrt
        refine ⟨h1, h2, ?_⟩
        have k1 : t ≠ d := by omega
        rw [e]; simp only [k1, if_false]; exact h3
      · intro r hr hc
        have hrd : r ≠ d := fun h => hsrc (h ▸ hr)
        rw [e]; simp only [hrd, if_false]; exact I.clean r hr hc

theorem emitAll_inv {V : Type} {ρ : Env V} {next0 : Nat} {dst : List Nat} {src : List Opd} (hl : dst.length = src.length)
    (hnd : dst.Nodup) (hdlt : ∀ d ∈ dst, d < next0) (hlt : ∀ r, Opd.vreg r ∈ src → r < next0) :
    ∀ (is : List Nat) (js : List Nat) (σ : St), (js ++ is).Nodup → (∀ i ∈ js ++ is, i < dst.length) →
      EInv ρ next0 (dst.zip src) src (js.filterMap (fun i => (dst.zip src)[i]?)) σ →
      EInv ρ next0 (dst.zip src) src ((js ++ is).filterMap (fun i => (dst.zip src)[i]?)) (emitAll dst src is σ) := by
  intro is
  induction is with
  | nil => intro js σ _ _ I; simpa [emitAll] using I
  | cons i is ih =>
    intro js σ hjs hr I
    have hi : i < dst.length := hr i (by simp)
    have hi' : i < src.length := hl ▸ hi
    unfold emitAll
    rw [List.getElem?_eq_getElem hi, List.getElem?_eq_getElem hi']
    dsimp only
    have hz : (dst.zip src)[i]? = some (dst[i], src[i]) := by
      rw [List.getElem?_eq_getElem (by rw [List.length_zip]; omega)]; simp
    have e1 : js ++ i :: is = (js ++ [i]) ++ is := by simp
    have key := ih (js ++ [i]) (emit1 src dst[i] src[i] σ) (by rw [← e1]; exact hjs) (by rw [← e1]; exact hr) (by
      rw [List.filterMap_append]
      simp only [List.filterMap_cons, hz, List.filterMap_nil]
      refine emit1_inv I (List.getElem_mem hi') ?_ (hdlt _ (List.getElem_mem hi)) ?_ hlt
      · intro hm
        rw [List.mem_map] at hm
        obtain ⟨p, hp, e⟩ := hm
        rw [List.mem_filterMap] at hp
        obtain ⟨j, hj, hjp⟩ := hp
        have hjl : j < dst.length := hr j (by simp [hj])
        rw [List.getElem?_eq_getElem (by rw [List.length_zip]; omega)] at hjp
        simp only [List.getElem_zip, Option.some.injEq] at hjp
        rw [← hjp] at e
        dsimp only at e
        have : j = i := (List.Nodup.getElem_inj_iff hnd).mp e
        subst this
        rw [List.nodup_append] at hjs
        exact hjs.2.2 j hj j (by simp) rfl
      · intro p hp
        rw [List.mem_filterMap] at hp
        obtain ⟨j, hj, hjp⟩ := hp
        have := List.mem_of_getElem? hjp
        exact hdlt _ (List.of_mem_zip (a := p.1) (b := p.2) this).1)
    rw [e1]; exact key

/-- C27: for any phis with distinct destination registers and any sources, all numbered below the next fresh register, the copies
emitted on the edge exist and, executed from any register contents, leave every destination with the value its source had before,
and every other pre-existing register unchanged. -/
theorem C27_parallel_copy (ord : Nat → List Nat → List Nat) (hord : ∀ u l, (ord u l).Perm l) (next : Nat)
    (dst : List Nat) (src : List Opd) (hl : dst.length = src.length) (hnd : dst.Nodup)
    (hdlt : ∀ d ∈ dst, d < next) (hslt : ∀ r, Opd.vreg r ∈ src → r < next) :
    ∃ copies, emitBranch ord next dst src = some copies ∧
      ∀ {V : Type} (ρ : Env V),
        (∀ i (h : i < dst.length), (exec ρ copies).reg dst[i] = ρ.eval (src[i]'(hl ▸ h))) ∧
        (∀ r, r < next → r ∉ dst → (exec ρ copies).reg r = ρ.reg r) := by
  unfold emitBranch
  split
  · rename_i h
    have : src = [] := by simpa using h
    subst this
    refine ⟨[], rfl, fun ρ => ⟨fun i h => ?_, fun r _ _ => rfl⟩⟩
    simp at hl; subst hl; simp at h
  · obtain ⟨o, eo, hp⟩ := copyOrder_perm ord hord hl
    rw [eo]
    refine ⟨_, rfl, ?_⟩
    intro V ρ
    have hmem : ∀ i, i ∈ o ↔ i < dst.length := fun i => by rw [hp.mem_iff]; simp
    have I0 : EInv ρ next (dst.zip src) src (([] : List Nat).filterMap (fun i => (dst.zip src)[i]?)) { next := next, dirty := fun _ => none, out := [] } :=
      ⟨Nat.le_refl _, by simp, by simp [exec], by simp, by simp, by simp [exec]⟩
    have I := emitAll_inv hl hnd hdlt hslt o [] _ (by simpa using hp.nodup_iff.mpr List.nodup_range)
      (by intro i hi; exact (hmem i).mp (by simpa using hi)) I0
    rw [List.nil_append] at I
    constructor
    · intro i h
      have := I.new (dst[i], src[i]'(hl ▸ h)) (by
        rw [List.mem_filterMap]
        refine ⟨i, (hmem i).mpr h, ?_⟩
        rw [List.getElem?_eq_getElem (by rw [List.length_zip]; omega)]; simp)
      exact this
    · intro r hr hm
      apply I.old r hr
      intro hm'
      rw [List.mem_map] at hm'
      obtain ⟨p, hp, e⟩ := hm'
      rw [List.mem_filterMap] at hp
      obtain ⟨j, _, hjp⟩ := hp
      have := (List.of_mem_zip (a := p.1) (b := p.2) (List.mem_of_getElem? hjp)).1
      exact hm (e ▸ this)

/-! a cyclic permutation `0 → 1 → 2 → 0` with a self copy and a constant -/
example : emitBranch (fun _ l => l) 10 [0, 1, 2, 3, 4] [.vreg 1, .vreg 2, .vreg 0, .vreg 3, .other 7] =
    some [(10, .vreg 0), (0, .vreg 1), (11, .vreg 1), (1, .vreg 2), (12, .vreg 2), (2, .vreg 10), (4, .other 7)] := by decide

end Cmmc.Phi
