import Verif.Mir.Sched
import Mathlib.Data.List.Perm.Basic
import Mathlib.Data.List.Nodup

/-!
# The order computed by the list scheduler
-/

namespace Cmmc.Mir

variable {S : Type} {P : Proc S} {H : Heur} {es : List (Nat × Nat)} {n : Nat}

theorem pick_none {P : Proc S} : ∀ (k : Nat) (pl : List Nat) (s : S) (pl' : List Nat) (s' : S),
    pick P k pl s = (none, pl', s') → pl'.Perm pl := by
  intro k
  induction k with
  | zero => intro pl s pl' s' h; simp [pick] at h; rw [h.1]
  | succ k ih =>
    intro pl s pl' s' h
    cases pl with
    | nil => simp [pick] at h; rw [h.1]
    | cons i pl =>
      unfold pick at h
      split at h
      · simp at h
      · exact (ih _ _ _ _ h).trans (List.perm_append_singleton i pl)

theorem pick_some {P : Proc S} : ∀ (k : Nat) (pl : List Nat) (s : S) (i : Nat) (pl' : List Nat) (s' : S),
    pick P k pl s = (some i, pl', s') → (i :: pl').Perm pl := by
  intro k
  induction k with
  | zero => intro pl s i pl' s' h; simp [pick] at h
  | succ k ih =>
    intro pl s i pl' s' h
    cases pl with
    | nil => simp [pick] at h
    | cons j pl =>
      unfold pick at h
      split at h
      · simp at h
        obtain ⟨rfl, rfl, -⟩ := h
        exact List.Perm.refl _
      · exact (ih _ _ _ _ _ h).trans (List.perm_append_singleton j pl)

theorem relax_deg : ∀ (vs : List Nat), vs.Nodup → ∀ (deg : Nat → Nat) (fr : List Nat) (q : Nat),
    (relax vs (deg, fr)).1 q = if q ∈ vs then deg q - 1 else deg q := by
  intro vs
  induction vs with
  | nil => intro _ deg fr q; simp [relax]
  | cons v vs ih =>
    intro hn deg fr q
    rw [List.nodup_cons] at hn
    unfold relax
    rw [ih hn.2]
    by_cases hq : q = v
    · subst hq; simp [hn.1]
    · simp [hq]

theorem relax_fresh : ∀ (vs : List Nat), vs.Nodup → ∀ (deg : Nat → Nat) (fr : List Nat),
    (relax vs (deg, fr)).2 = fr ++ vs.filter (fun v => deg v - 1 = 0) := by
  intro vs
  induction vs with
  | nil => intro _ deg fr; simp [relax]
  | cons v vs ih =>
    intro hn deg fr
    rw [List.nodup_cons] at hn
    unfold relax
    rw [ih hn.2]
    have e : vs.filter (fun w => decide ((if w = v then deg v - 1 else deg w) - 1 = 0)) = vs.filter (fun w => decide (deg w - 1 = 0)) := by
      apply List.filter_congr
      intro w hw
      have : w ≠ v := fun h => hn.1 (h ▸ hw)
      simp [this]
    rw [e, List.filter_cons]
    split <;> simp_all

theorem mem_antiDeps {u v : Nat} : u ∈ antiDeps es v ↔ (u, v) ∈ es := by
  unfold antiDeps
  rw [List.mem_map]
  constructor
  · rintro ⟨⟨a, b⟩, h, rfl⟩
    rw [List.mem_filter] at h
    simp at h
    obtain ⟨h, rfl⟩ := h
    exact h
  · intro h
    exact ⟨(u, v), List.mem_filter.2 ⟨h, by simp⟩, rfl⟩

theorem nodup_antiDeps (h : es.Nodup) (v : Nat) : (antiDeps es v).Nodup := by
  unfold antiDeps
  refine List.Nodup.map_on ?_ (h.filter _)
  intro a ha b hb e
  rw [List.mem_filter] at ha hb
  simp at ha hb
  exact Prod.ext e (by rw [ha.2, hb.2])

/-- The dependences left: `u` still waits for this many instructions. -/
def waits (es : List (Nat × Nat)) (out : List Nat) (u : Nat) : Nat :=
  es.countP fun e => decide (e.1 = u) && decide (e.2 ∉ out)

theorem waits_zero {out : List Nat} {u : Nat} : waits es out u = 0 ↔ ∀ v, (u, v) ∈ es → v ∈ out := by
  unfold waits
  rw [List.countP_eq_zero]
  constructor
  · intro h v hv
    have := h _ hv
    simpa using this
  · rintro h ⟨a, b⟩ hab
    simp only [Bool.and_eq_true, decide_eq_true_eq, not_and, not_not]
    intro e
    exact h b (by rw [← e]; exact hab)

theorem countP_pair (h : es.Nodup) (u i : Nat) :
    es.countP (fun e => decide (e.1 = u) && decide (e.2 = i)) = if (u, i) ∈ es then 1 else 0 := by
  have e : es.countP (fun e => decide (e.1 = u) && decide (e.2 = i)) = es.count (u, i) := by
    unfold List.count
    apply List.countP_congr
    rintro ⟨a, b⟩ _
    simp
  rw [e, List.Nodup.count h]

theorem waits_snoc (h : es.Nodup) {out : List Nat} {i : Nat} (hi : i ∉ out) (u : Nat) :
    waits es out u = waits es (out ++ [i]) u + if (u, i) ∈ es then 1 else 0 := by
  rw [← countP_pair h]
  unfold waits
  clear h
  induction es with
  | nil => rfl
  | cons e es ih =>
    obtain ⟨a, b⟩ := e
    simp only [List.countP_cons, ih]
    by_cases ha : a = u
    · subst ha
      by_cases hb : b = i
      · subst hb; simp [hi]; omega
      · by_cases hc : b ∈ out
        · simp [hb, hc]
        · simp [hb, hc]; omega
    · simp [ha]

/-- What holds throughout scheduling. -/
structure SchedInv (es : List (Nat × Nat)) (n : Nat) (st : SchedSt S) : Prop where
  nodup : (st.out ++ (st.plane ++ st.fresh)).Nodup
  mem : ∀ u, u ∈ st.out ++ (st.plane ++ st.fresh) ↔ u < n ∧ waits es st.out u = 0
  deg : ∀ u, st.deg u = waits es st.out u
  order : ∀ p u q, st.out = p ++ u :: q → ∀ v, (u, v) ∈ es → v ∈ p

theorem schedInit_inv : SchedInv es n (schedInit P es n) := by
  have hw : ∀ u, degrees es u = waits es [] u := by intro u; simp [degrees, waits]
  refine ⟨?_, ?_, ?_, ?_⟩
  · simp only [schedInit, List.nil_append, List.append_nil]
    exact List.Nodup.filter _ List.nodup_range
  · intro u
    simp [schedInit, hw]
  · intro u; exact hw u
  · intro p u q h; simp [schedInit] at h

theorem issue_some_inv (hv : ∀ i l, (H.visit i l).Perm l) (hes : es.Nodup) (hlt : ∀ u v, (u, v) ∈ es → v < u ∧ u < n)
    {st : SchedSt S} (h : SchedInv es n st) {i : Nat} {pl : List Nat} {s : S} (hp : (i :: pl).Perm st.plane) :
    SchedInv es n { st with plane := pl, s := s, out := st.out ++ [i], deg := (relax (H.visit i (antiDeps es i)) (st.deg, st.fresh)).1, fresh := (relax (H.visit i (antiDeps es i)) (st.deg, st.fresh)).2, busy := 0 } := by
  have hvn : (H.visit i (antiDeps es i)).Nodup := (hv i _).nodup_iff.2 (nodup_antiDeps hes i)
  have hvm : ∀ u, u ∈ H.visit i (antiDeps es i) ↔ (u, i) ∈ es := fun u => by
    rw [(hv i _).mem_iff, mem_antiDeps]
  have hperm : (st.out ++ [i] ++ (pl ++ st.fresh)).Perm (st.out ++ (st.plane ++ st.fresh)) := by
    rw [List.append_assoc]
    refine List.Perm.append_left _ ?_
    exact hp.append_right st.fresh
  have hi : i ∈ st.out ++ (st.plane ++ st.fresh) := by
    rw [← hperm.mem_iff]; simp
  have hi0 := (h.mem i).1 hi
  have hio : i ∉ st.out := by
    have := hperm.nodup_iff.2 h.nodup
    rw [List.append_assoc, List.nodup_append] at this
    intro hc
    exact this.2.2 i hc i (by simp) rfl
  have hw : ∀ u, waits es (st.out ++ [i]) u = if (u, i) ∈ es then waits es st.out u - 1 else waits es st.out u := by
    intro u
    have := waits_snoc hes hio u
    split
    · rw [if_pos (by assumption)] at this; omega
    · rw [if_neg (by assumption)] at this; omega
  have hfr : (relax (H.visit i (antiDeps es i)) (st.deg, st.fresh)).2 =
      st.fresh ++ (H.visit i (antiDeps es i)).filter (fun v => decide (st.deg v - 1 = 0)) := relax_fresh _ hvn _ _
  have hpos : ∀ u, (u, i) ∈ es → 0 < waits es st.out u := by
    intro u hu
    rcases Nat.eq_zero_or_pos (waits es st.out u) with h0 | h0
    · exact absurd (waits_zero.1 h0 i hu) hio
    · exact h0
  refine ⟨?_, ?_, ?_, ?_⟩
  · simp only [hfr]
    rw [← List.append_assoc pl, ← List.append_assoc, List.nodup_append]
    refine ⟨hperm.nodup_iff.2 h.nodup, hvn.filter _, ?_⟩
    intro a ha b hb
    rintro rfl
    rw [hperm.mem_iff, h.mem] at ha
    rw [List.mem_filter, hvm] at hb
    have := hpos a hb.1
    omega
  · intro u
    simp only [hfr]
    rw [← List.append_assoc pl, ← List.append_assoc, List.mem_append, hperm.mem_iff, h.mem, List.mem_filter, hvm, hw]
    simp only [decide_eq_true_eq, h.deg]
    constructor
    · rintro (⟨a, b⟩ | ⟨a, b⟩)
      · refine ⟨a, ?_⟩
        split <;> omega
      · rw [if_pos a]
        exact ⟨(hlt u i a).2, b⟩
    · rintro ⟨a, b⟩
      split at b
      · exact .inr ⟨by assumption, b⟩
      · exact .inl ⟨a, b⟩
  · intro u
    simp only
    rw [relax_deg _ hvn, hw]
    simp only [hvm, h.deg]
  · intro p u q he v huv
    simp only at he
    rcases List.append_eq_append_iff.1 he with ⟨as, h1, h2⟩ | ⟨bs, h1, h2⟩
    · cases as with
      | nil =>
        simp at h2
        obtain ⟨rfl, rfl⟩ := h2
        rw [h1, List.append_nil]
        exact waits_zero.1 hi0.2 v huv
      | cons a as => simp at h2
    · cases bs with
      | nil =>
        simp at h1 h2
        obtain ⟨rfl, rfl⟩ := h2
        rw [← h1]
        exact waits_zero.1 hi0.2 v huv
      | cons b bs =>
        simp at h2
        obtain ⟨rfl, rfl⟩ := h2
        exact h.order p u bs h1 v huv

theorem issue_inv (hv : ∀ i l, (H.visit i l).Perm l) (hes : es.Nodup) (hlt : ∀ u v, (u, v) ∈ es → v < u ∧ u < n) :
    ∀ (w : Nat) (st : SchedSt S), SchedInv es n st → SchedInv es n (issue P H es w st) := by
  intro w
  induction w with
  | zero => intro st h; exact h
  | succ w ih =>
    intro st h
    unfold issue
    simp only
    have hs : (st.plane.insertionSort fun a b => evalRank H st b ≤ evalRank H st a).Perm st.plane :=
      List.perm_insertionSort _ _
    rcases hp : pick P (st.plane.insertionSort fun a b => evalRank H st b ≤ evalRank H st a).length
      (st.plane.insertionSort fun a b => evalRank H st b ≤ evalRank H st a) st.s with ⟨_ | i, pl, s⟩
    · have hp' := (pick_none _ _ _ _ _ hp).trans hs
      have hperm : (st.out ++ (pl ++ st.fresh)).Perm (st.out ++ (st.plane ++ st.fresh)) :=
        List.Perm.append_left _ (hp'.append_right _)
      exact ⟨hperm.nodup_iff.2 h.nodup, fun u => by rw [← h.mem]; exact hperm.mem_iff, h.deg, h.order⟩
    · exact ih _ (issue_some_inv hv hes hlt h ((pick_some _ _ _ _ _ _ hp).trans hs))

theorem cycleStep_inv (hv : ∀ i l, (H.visit i l).Perm l) (hes : es.Nodup) (hlt : ∀ u v, (u, v) ∈ es → v < u ∧ u < n)
    {st : SchedSt S} (h : SchedInv es n st) (hf : st.fresh = []) :
    SchedInv es n (cycleStep P H es st) ∧ (cycleStep P H es st).fresh = [] := by
  have h0 : SchedInv es n { st with fresh := [] } := by rw [← hf]; exact h
  have h1 := issue_inv (P := P) hv hes hlt P.width _ h0
  refine ⟨⟨?_, ?_, h1.deg, h1.order⟩, rfl⟩
  · simp only [cycleStep, List.append_nil]; exact h1.nodup
  · intro u; simp only [cycleStep, List.append_nil]; exact h1.mem u

theorem topDown_spec (hv : ∀ i l, (H.visit i l).Perm l) (hes : es.Nodup) (hlt : ∀ u v, (u, v) ∈ es → v < u ∧ u < n) :
    ∀ (fuel : Nat) (st : SchedSt S) (o : List Nat), SchedInv es n st → st.fresh = [] → topDown P H es n fuel st = .done o →
      o.Perm (List.range n) ∧ ∀ p u q, o = p ++ u :: q → ∀ v, (u, v) ∈ es → v ∈ p := by
  intro fuel
  induction fuel with
  | zero =>
    intro st o h hf hd
    unfold topDown at hd
    split at hd
    · rename_i hl
      cases hd
      refine ⟨?_, h.order⟩
      have hn : st.out.Nodup := (List.nodup_append.1 h.nodup).1
      refine (List.subperm_of_subset hn ?_).perm_of_length_le (by simp [hl])
      intro u hu
      exact List.mem_range.2 ((h.mem u).1 (by simp [hu])).1
    · cases hd
  | succ fuel ih =>
    intro st o h hf hd
    unfold topDown at hd
    split at hd
    · rename_i hl
      cases hd
      refine ⟨?_, h.order⟩
      have hn : st.out.Nodup := (List.nodup_append.1 h.nodup).1
      refine (List.subperm_of_subset hn ?_).perm_of_length_le (by simp [hl])
      intro u hu
      exact List.mem_range.2 ((h.mem u).1 (by simp [hu])).1
    · simp only at hd
      split at hd
      · cases hd
      · obtain ⟨h1, h2⟩ := cycleStep_inv (P := P) hv hes hlt h hf
        exact ih _ _ h1 h2 hd

/-- The new order is a rearrangement in which everything comes after what it depends on. -/
theorem scheduleOrder_spec (hv : ∀ i l, (H.visit i l).Perm l) (hes : es.Nodup)
    (hlt : ∀ u v, (u, v) ∈ es → v < u ∧ u < n) {o : List Nat} (hd : scheduleOrder P H es n = .done o) :
    o.Perm (List.range n) ∧ ∀ p u q, o = p ++ u :: q → ∀ v, (u, v) ∈ es → v ∈ p :=
  topDown_spec hv hes hlt _ _ _ schedInit_inv rfl hd

/-! ## Scheduling does not get stuck -/

/-- As long as something is left to issue, something is ready: no deadlock. -/
theorem plane_ne_nil (hlt : ∀ u v, (u, v) ∈ es → v < u ∧ u < n) {st : SchedSt S} (h : SchedInv es n st)
    (hf : st.fresh = []) (hn : st.out.length ≠ n) : st.plane ≠ [] := by
  have hnd : st.out.Nodup := (List.nodup_append.1 h.nodup).1
  have hex : ∃ u, u < n ∧ u ∉ st.out := by
    by_contra hc
    push Not at hc
    have h1 : (List.range n).Subperm st.out := List.subperm_of_subset List.nodup_range fun u hu => hc u (List.mem_range.1 hu)
    have h2 : st.out.Subperm (List.range n) := List.subperm_of_subset hnd fun u hu =>
      List.mem_range.2 ((h.mem u).1 (by simp [hu])).1
    have a := h1.length_le
    have b := h2.length_le
    simp at a b
    omega
  have key : ∀ u, u < n → u ∉ st.out → ∃ w, w < n ∧ w ∉ st.out ∧ waits es st.out w = 0 := by
    intro u
    induction u using Nat.strong_induction_on with
    | _ u ih =>
      intro hu ho
      by_cases hw : waits es st.out u = 0
      · exact ⟨u, hu, ho, hw⟩
      · rw [waits_zero] at hw
        push Not at hw
        obtain ⟨v, hv, hvo⟩ := hw
        have := hlt u v hv
        exact ih v this.1 (by omega) hvo
  obtain ⟨u, hu, ho⟩ := hex
  obtain ⟨w, hw, hwo, hw0⟩ := key u hu ho
  have := (h.mem w).2 ⟨hw, hw0⟩
  rw [hf, List.append_nil, List.mem_append] at this
  rcases this with h | h
  · exact absurd h hwo
  · intro hc; rw [hc] at h; simp at h

theorem issue_busy : ∀ (w : Nat) (st : SchedSt S),
    st.out.length ≤ (issue P H es w st).out.length ∧
    ((issue P H es w st).busy = 0 ∨ ((issue P H es w st).busy = st.busy ∧ (issue P H es w st).out = st.out)) ∧
    ((issue P H es w st).out.length = st.out.length → (issue P H es w st).busy = st.busy) := by
  intro w
  induction w with
  | zero => intro st; exact ⟨Nat.le_refl _, .inr ⟨rfl, rfl⟩, fun _ => rfl⟩
  | succ w ih =>
    intro st
    unfold issue
    simp only
    rcases hp : pick P (st.plane.insertionSort fun a b => evalRank H st b ≤ evalRank H st a).length
      (st.plane.insertionSort fun a b => evalRank H st b ≤ evalRank H st a) st.s with ⟨_ | i, pl, s⟩
    · exact ⟨Nat.le_refl _, .inr ⟨rfl, rfl⟩, fun _ => rfl⟩
    · simp only
      obtain ⟨a, b, c⟩ := ih { st with plane := pl, s := s, out := st.out ++ [i], deg := (relax (H.visit i (antiDeps es i)) (st.deg, st.fresh)).1, fresh := (relax (H.visit i (antiDeps es i)) (st.deg, st.fresh)).2, busy := 0 }
      refine ⟨?_, ?_, ?_⟩
      · refine Nat.le_trans ?_ a
        simp
      · left
        rcases b with b | ⟨b, -⟩
        · exact b
        · exact b
      · intro he
        simp only [List.length_append, List.length_singleton] at a
        omega

theorem topDown_not_fuel (hv : ∀ i l, (H.visit i l).Perm l) (hes : es.Nodup) (hlt : ∀ u v, (u, v) ∈ es → v < u ∧ u < n) :
    ∀ (fuel : Nat) (st : SchedSt S), SchedInv es n st → st.fresh = [] → st.busy ≤ 200 →
      201 * (n - st.out.length) + (200 - st.busy) < fuel → topDown P H es n fuel st ≠ .fuel := by
  intro fuel
  induction fuel with
  | zero => intro st h hf hb hl; omega
  | succ fuel ih =>
    intro st h hf hb hl
    unfold topDown
    split
    · simp
    · rename_i hne
      simp only
      split
      · simp
      · rename_i hbusy
        obtain ⟨h1, h2⟩ := cycleStep_inv (P := P) hv hes hlt h hf
        refine ih _ h1 h2 (by omega) ?_
        obtain ⟨a, b, c⟩ := issue_busy (P := P) (H := H) (es := es) P.width { st with fresh := [] }
        have hlen : (cycleStep P H es st).out.length ≤ n := by
          have hnd : (cycleStep P H es st).out.Nodup := (List.nodup_append.1 h1.nodup).1
          have h2 : (cycleStep P H es st).out.Subperm (List.range n) := List.subperm_of_subset hnd fun u hu =>
            List.mem_range.2 ((h1.mem u).1 (by simp [hu])).1
          have := h2.length_le
          simpa using this
        have e1 : (cycleStep P H es st).out = (issue P H es P.width { st with fresh := [] }).out := rfl
        have e2 : (cycleStep P H es st).busy = (issue P H es P.width { st with fresh := [] }).busy + 1 := rfl
        rw [e1] at hlen ⊢
        rw [e2] at hbusy ⊢
        simp only at a b c
        by_cases hc : (issue P H es P.width { st with fresh := [] }).out.length = st.out.length
        · have := c hc
          rw [hc]
          omega
        · have h3 : st.out.length + 1 ≤ (issue P H es P.width { st with fresh := [] }).out.length := by omega
          omega

/-- The number of cycles is bounded as `scheduleOrder` says: scheduling either gives an order, or gives up because the
    processor accepted nothing for 200 cycles. -/
theorem schedule_not_fuel (hv : ∀ i l, (H.visit i l).Perm l) (hes : es.Nodup)
    (hlt : ∀ u v, (u, v) ∈ es → v < u ∧ u < n) : scheduleOrder P H es n ≠ .fuel := by
  refine topDown_not_fuel hv hes hlt _ _ schedInit_inv rfl (by simp [schedInit]) ?_
  simp only [schedInit, List.length_nil]
  omega

end Cmmc.Mir
