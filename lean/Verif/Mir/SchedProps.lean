import Verif.Mir.SchedDeps
import Verif.Mir.Swap
import Verif.Mir.PeepEx

/-!
# C50: scheduling instructions after register allocation
-/

namespace Cmmc.Mir

section
variable {Val Mem : Type} {T : Target} {I : Interp Val Mem} {F : Flags} {S : Type}

/-- What the scheduler relies on besides the flags being true: instructions that read or overwrite registers without
    naming them (calls, returns), and the last instruction of each block, are barriers. -/
structure SchedOk (F : Flags) (inOrder : Nat → Bool) (B : Block) : Prop where
  typed : ∀ x ∈ B.insts, x.Typed F
  bar : ∀ x ∈ B.insts, x.args ≠ [] ∨ x.call ≠ none → x.isBar F inOrder
  last : ∃ pre x, B.insts = pre ++ [x] ∧ x.isBar F inOrder

theorem indep_of_not_conf (hF : F.Ok I) {inOrder : Nat → Bool} {B : Block} (h : SchedOk F inOrder B) {x y : Inst}
    (hx : x ∈ B.insts) (hy : y ∈ B.insts) (hc : ¬ Conf F inOrder x y) : Indep T F x y := by
  unfold Conf at hc
  push Not at hc
  obtain ⟨c1, c2, c3, c4, c5⟩ := hc
  have ax : x.args = [] ∧ x.call = none := by
    by_contra hh
    exact c4 (h.bar x hx (by tauto))
  have ay : y.args = [] ∧ y.call = none := by
    by_contra hh
    exact c5 (h.bar y hy (by tauto))
  have dx : x.dsts T = x.defs := dsts_of_bare ax.2
  have dy : y.dsts T = y.defs := dsts_of_bare ay.2
  refine ⟨h.typed x hx, h.typed y hy, ?_, ?_, ?_, ?_⟩
  · by_contra hh
    push Not at hh
    simp only [ne_eq, Bool.not_eq_false] at hh
    exact c3 (hF.sub _ hh.1) (hF.sub _ hh.2)
  · intro r hr hr'
    rw [dx] at hr
    simp [Inst.readRegs, ay.1] at hr'
    exact c1 r hr hr'
  · intro r hr hr'
    rw [dx] at hr
    rw [dy] at hr'
    exact (c2 r hr').2 hr
  · intro r hr hr'
    rw [dy] at hr
    simp [Inst.readRegs, ax.1] at hr'
    exact (c2 r hr).1 hr'

theorem rch_before {es : List (Nat × Nat)} {o : List Nat} (ho : ∀ p u q, o = p ++ u :: q → ∀ v, (u, v) ∈ es → v ∈ p)
    {u v : Nat} (h : Rch es u v) : ∀ p q, o = p ++ u :: q → u = v ∨ v ∈ p := by
  induction h with
  | refl => intro p q _; exact .inl rfl
  | tail _ hs ih =>
    intro p q he
    rcases ih p q he with rfl | hm
    · exact .inr (ho p _ q he _ hs)
    · obtain ⟨p1, p2, rfl⟩ := List.append_of_mem hm
      right
      have := ho p1 _ (p2 ++ u :: q) (by rw [he]; simp) _ hs
      simp [this]

theorem scheduleBlock_same (hF : F.Ok I) {inOrder : Nat → Bool} {P : Proc S} {H : Heur} (hv : ∀ i l, (H.visit i l).Perm l)
    {B B' : Block} (hB : SchedOk F inOrder B) (hs : scheduleBlock P H F inOrder B = some B') :
    B'.insts.Perm B.insts ∧ B'.term = B.term ∧
    ∀ (f : Func) (b : Nat), f[b]? = some B → Same T I F.vis f (f.set b B') := by
  obtain ⟨d1, d2, d3⟩ := buildDeps_cov F inOrder B.insts
  unfold scheduleBlock at hs
  cases ho : scheduleOrder P H (buildDeps F inOrder B.insts) B.insts.length with
  | abort => rw [ho] at hs; cases hs
  | fuel => rw [ho] at hs; cases hs
  | done o =>
    rw [ho] at hs
    cases hs
    obtain ⟨hperm, hord⟩ := scheduleOrder_spec hv d1 d2 ho
    obtain ⟨pre, lst, hl, hbar⟩ := hB.last
    have hn : B.insts.length = pre.length + 1 := by rw [hl]; simp
    have hlst : B.insts[pre.length]? = some lst := by rw [hl]; simp
    -- the last instruction stays last
    obtain ⟨o1, o2, rfl⟩ : ∃ o1 o2, o = o1 ++ pre.length :: o2 :=
      List.append_of_mem (hperm.mem_iff.2 (List.mem_range.2 (by omega)))
    have hnd : (o1 ++ pre.length :: o2).Nodup := hperm.nodup_iff.2 List.nodup_range
    have hmem : ∀ i, i < pre.length → i ∈ o1 := by
      intro i hi
      have hx : B.insts[i]? = some B.insts[i] := List.getElem?_eq_getElem (by omega)
      have hr := d3 i pre.length _ lst hx hlst hi (.inr (.inr (.inr (.inr hbar))))
      rcases rch_before hord hr o1 o2 rfl with hc | hc
      · omega
      · exact hc
    have ho2 : o2 = [] := by
      cases o2 with
      | nil => rfl
      | cons c o2 =>
        exfalso
        have hc : c < B.insts.length := List.mem_range.1 (hperm.mem_iff.1 (by simp))
        rw [List.nodup_append] at hnd
        have hc' : c ≠ pre.length := by
          rintro rfl
          have := hnd.2.1
          simp at this
        exact hnd.2.2 c (hmem c (by omega)) c (by simp) rfl
    subst ho2
    have hperm1 : o1.Perm (List.range pre.length) := by
      have : (o1 ++ [pre.length]).Perm (List.range pre.length ++ [pre.length]) := by
        rw [← List.range_succ, ← Nat.add_one, ← hn]; exact hperm
      exact (List.perm_append_right_iff _).1 this
    have hin : ∀ i ∈ o1, i < pre.length := fun i hi => List.mem_range.1 (hperm1.mem_iff.1 hi)
    -- the instructions by number
    let ins : Nat → Inst := fun i => B.insts[i]?.getD lst
    have hins : ∀ i, i < B.insts.length → B.insts[i]? = some (ins i) := by
      intro i hi
      simp only [ins]
      rw [List.getElem?_eq_getElem hi]; rfl
    have hmap : ∀ (l : List Nat), (∀ i ∈ l, i < B.insts.length) → l.filterMap (fun i => B.insts[i]?) = l.map ins := by
      intro l
      induction l with
      | nil => intro _; rfl
      | cons c l ih =>
        intro hh
        rw [List.filterMap_cons, hins c (hh c (by simp))]
        simp only [List.map_cons]
        rw [ih fun i hi => hh i (by simp [hi])]
    have hnew : (o1 ++ [pre.length]).filterMap (fun i => B.insts[i]?) = o1.map ins ++ [lst] := by
      rw [hmap _ (by intro i hi; have := List.mem_range.1 (hperm.mem_iff.1 hi); exact this)]
      simp [ins, hlst]
    have hold : B.insts = (List.range pre.length).map ins ++ [lst] := by
      apply List.ext_getElem?
      intro i
      rcases Nat.lt_trichotomy i pre.length with h | h | h
      · rw [hins i (by omega), List.getElem?_append_left (by simpa using h)]
        simp [h]
      · subst h
        rw [hlst]
        simp
      · rw [List.getElem?_eq_none (by omega), List.getElem?_eq_none (by simp; omega)]
    refine ⟨?_, rfl, ?_⟩
    · simp only
      rw [hnew]
      conv => rhs; rw [hold]
      exact (hperm1.map ins).append_right _
    · intro f b hf
      have := reorder_same (T := T) (I := I) (F := F) hF (b0 := b) (t0 := B.term) (last := lst) (ins := ins) o1
        (List.range pre.length) [] f (by rw [hf]; simp only [List.nil_append]; rw [← hold]) hperm1 List.nodup_range (by
          intro p u q w r he
          have huw : u < w := by
            have hp := List.pairwise_lt_range (n := pre.length)
            rw [he] at hp
            rw [List.pairwise_append] at hp
            exact hp.2.2 u (by simp) w (by simp)
          have hw : w < pre.length := List.mem_range.1 (by rw [he]; simp)
          by_cases hc : Conf F inOrder (ins u) (ins w)
          · right
            have hr := d3 u w _ _ (hins u (by omega)) (hins w (by omega)) huw hc
            obtain ⟨p1, p2, rfl⟩ := List.append_of_mem (hperm1.mem_iff.2 (List.mem_range.2 hw))
            rcases rch_before hord hr p1 (p2 ++ [pre.length]) (by simp) with h | h
            · omega
            · obtain ⟨p3, p4, rfl⟩ := List.append_of_mem h
              exact ⟨p3, p4, p2, by simp⟩
          · exact .inl (indep_of_not_conf hF hB (List.mem_of_getElem? (hins u (by omega)))
              (List.mem_of_getElem? (hins w (by omega))) hc))
      simp only [List.nil_append] at this
      rw [← hnew] at this
      exact this

theorem postRASchedule_spec (hF : F.Ok I) {inOrder : Nat → Bool} {P : Block → Proc S} {H : Block → Heur}
    (hv : ∀ B i l, ((H B).visit i l).Perm l) :
    ∀ (f done g : Func), (∀ B ∈ f, SchedOk F inOrder B) → postRASchedule P H F inOrder f = some g →
      g.map Block.term = f.map Block.term ∧ List.Forall₂ (fun B B' => B'.insts.Perm B.insts) f g ∧
      Same T I F.vis (done ++ f) (done ++ g) := by
  intro f
  induction f with
  | nil =>
    intro done g _ hs
    simp [postRASchedule] at hs
    subst hs
    exact ⟨rfl, .nil, Same.refl⟩
  | cons B f ih =>
    intro done g hB hs
    unfold postRASchedule at hs
    cases h1 : scheduleBlock (P B) (H B) F inOrder B with
    | none => rw [h1] at hs; simp at hs
    | some B' =>
      cases h2 : postRASchedule P H F inOrder f with
      | none => rw [h1, h2] at hs; simp at hs
      | some g' =>
        rw [h1, h2] at hs
        simp only [Option.some.injEq] at hs
        subst hs
        obtain ⟨a1, a2, a3⟩ := scheduleBlock_same (T := T) hF (hv B) (hB B (by simp)) h1
        obtain ⟨b1, b2, b3⟩ := ih (done ++ [B']) g' (fun C hC => hB C (by simp [hC])) h2
        refine ⟨by simp [a2, b1], .cons a1 b2, ?_⟩
        have := a3 (done ++ B :: f) done.length (by simp)
        have e : (done ++ B :: f).set done.length B' = done ++ [B'] ++ f := by simp
        rw [e] at this
        have := this.trans b3
        simpa using this

/-- C50: whatever the processor model and the heuristics, scheduling either gives up (only when the processor accepts
    nothing for 200 cycles, see `C50_schedule_no_deadlock`) or yields a function whose blocks hold the same
    instructions in another order and that cannot be told from the original. -/
theorem C50_schedule_preserves (hF : F.Ok I) {inOrder : Nat → Bool} {P : Block → Proc S} {H : Block → Heur}
    (hv : ∀ B i l, ((H B).visit i l).Perm l) {f g : Func} (hf : ∀ B ∈ f, SchedOk F inOrder B)
    (hs : postRASchedule P H F inOrder f = some g) :
    List.Forall₂ (fun B B' => B'.insts.Perm B.insts) f g ∧ Same T I F.vis f g := by
  have := postRASchedule_spec (T := T) hF hv f [] g hf hs
  exact ⟨this.2.1, by simpa using this.2.2⟩

/-- The processor accepts ready instructions soon enough: there is a number of cycles, below 200 and smaller after each
    cycle, that has to pass before it accepts everything it is asked for. -/
def Proc.Live (P : Proc S) : Prop :=
  0 < P.width ∧ ∃ d : S → Nat, (∀ s, d s < 200) ∧ (∀ s, d (P.next s).2 ≤ d s - 1) ∧
    ∀ s i, (P.schedule s i).1 = false → 0 < d s ∧ d (P.schedule s i).2 ≤ d s

theorem pick_live {P : Proc S} {d : S → Nat}
    (hd : ∀ s i, (P.schedule s i).1 = false → 0 < d s ∧ d (P.schedule s i).2 ≤ d s) :
    ∀ (k : Nat) (pl : List Nat) (s : S) (pl' : List Nat) (s' : S), pick P k pl s = (none, pl', s') →
      d s' ≤ d s ∧ (k = 0 ∨ pl = [] ∨ 0 < d s) := by
  intro k
  induction k with
  | zero => intro pl s pl' s' h; simp [pick] at h; exact ⟨by rw [h.2], .inl rfl⟩
  | succ k ih =>
    intro pl s pl' s' h
    cases pl with
    | nil => simp [pick] at h; exact ⟨by rw [h.2], .inr (.inl rfl)⟩
    | cons i pl =>
      unfold pick at h
      split at h
      · simp at h
      · rename_i hf
        obtain ⟨h1, h2⟩ := hd s i (by simpa using hf)
        obtain ⟨h3, -⟩ := ih _ _ _ _ h
        exact ⟨by omega, .inr (.inr h1)⟩

theorem topDown_live {P : Proc S} {H : Heur} {es : List (Nat × Nat)} {n : Nat} (hw : 0 < P.width) {d : S → Nat}
    (hd0 : ∀ s, d s < 200) (hd1 : ∀ s, d (P.next s).2 ≤ d s - 1)
    (hd2 : ∀ s i, (P.schedule s i).1 = false → 0 < d s ∧ d (P.schedule s i).2 ≤ d s)
    (hv : ∀ i l, (H.visit i l).Perm l) (hes : es.Nodup) (hlt : ∀ u v, (u, v) ∈ es → v < u ∧ u < n) :
    ∀ (fuel : Nat) (st : SchedSt S), SchedInv es n st → st.fresh = [] → st.busy + d st.s ≤ 200 →
      topDown P H es n fuel st ≠ .abort := by
  intro fuel
  induction fuel with
  | zero =>
    intro st h hf _
    unfold topDown
    split <;> simp
  | succ fuel ih =>
    intro st h hf hbd
    unfold topDown
    split
    · simp
    · rename_i hne
      obtain ⟨h1, h2⟩ := cycleStep_inv (P := P) hv hes hlt h hf
      simp only
      have hpl := plane_ne_nil hlt h hf hne
      have hb : (cycleStep P H es st).busy + d (cycleStep P H es st).s ≤ 200 := by
        show (issue P H es P.width { st with fresh := [] }).busy + 1 +
          d (P.next (issue P H es P.width { st with fresh := [] }).s).2 ≤ 200
        have hdn := hd1 (issue P H es P.width { st with fresh := [] }).s
        have hdl := hd0 (issue P H es P.width { st with fresh := [] }).s
        obtain ⟨w, hww⟩ : ∃ w, P.width = w + 1 := ⟨P.width - 1, by omega⟩
        rw [hww] at hdn hdl ⊢
        unfold issue at hdn hdl ⊢
        simp only at hdn hdl ⊢
        have hs : (st.plane.insertionSort fun a b => evalRank H { st with fresh := [] } b ≤ evalRank H { st with fresh := [] } a).length ≠ 0 := by
          rw [(List.perm_insertionSort _ st.plane).length_eq]
          intro hc
          exact hpl (List.length_eq_zero_iff.1 hc)
        rcases hp : pick P (st.plane.insertionSort fun a b => evalRank H { st with fresh := [] } b ≤ evalRank H { st with fresh := [] } a).length
          (st.plane.insertionSort fun a b => evalRank H { st with fresh := [] } b ≤ evalRank H { st with fresh := [] } a) st.s with ⟨_ | i, pl', s'⟩
        · rw [hp] at hdn hdl
          simp only at hdn hdl ⊢
          obtain ⟨a, c⟩ := pick_live hd2 _ _ _ _ _ hp
          rcases c with c | c | c
          · exact absurd c hs
          · rw [c] at hs; exact absurd rfl hs
          · omega
        · rw [hp] at hdn hdl
          simp only at hdn hdl ⊢
          rcases (issue_busy (P := P) (H := H) (es := es) w { st with plane := pl', s := s', out := st.out ++ [i], deg := (relax (H.visit i (antiDeps es i)) (st.deg, [])).1, fresh := (relax (H.visit i (antiDeps es i)) (st.deg, [])).2, busy := 0 }).2.1 with hb | ⟨hb, -⟩
          · rw [hb]; omega
          · rw [hb]; simp only; omega
      rw [if_neg (by omega)]
      exact ih _ h1 h2 hb

/-- C50: dependences never block scheduling: while instructions are left one of them is ready, so that on a processor
    that accepts ready instructions soon enough, scheduling any block succeeds; and on every processor it stops. -/
theorem C50_schedule_no_deadlock {inOrder : Nat → Bool} {P : Proc S} {H : Heur} (hv : ∀ i l, (H.visit i l).Perm l) (B : Block) :
    scheduleOrder P H (buildDeps F inOrder B.insts) B.insts.length ≠ .fuel ∧
    (P.Live → ∃ B', scheduleBlock P H F inOrder B = some B') := by
  obtain ⟨d1, d2, d3⟩ := buildDeps_cov F inOrder B.insts
  have h1 := schedule_not_fuel (P := P) hv d1 d2
  refine ⟨h1, fun hP => ?_⟩
  have h2 : scheduleOrder P H (buildDeps F inOrder B.insts) B.insts.length ≠ .abort :=
by
    obtain ⟨hw, d, h0, h1, h2⟩ := hP
    refine topDown_live hw h0 h1 h2 hv d1 d2 _ _ schedInit_inv rfl ?_
    have := h0 (schedInit P (buildDeps F inOrder B.insts) B.insts.length).s
    simp only [schedInit] at this ⊢
    omega
  unfold scheduleBlock
  cases ho : scheduleOrder P H (buildDeps F inOrder B.insts) B.insts.length with
  | abort => exact absurd ho h2
  | fuel => exact absurd ho h1
  | done o => exact ⟨_, rfl⟩

end

/-! ## An example -/

namespace SchedEx
open PeepEx

/-- A processor that issues two instructions a cycle; instruction 0 only from the second cycle on. -/
def P : Proc Nat where
  init := 0
  schedule := fun s i => (decide (i ≠ 0 ∨ 0 < s), s)
  next := fun s => (s + 1, s + 1)
  width := 2

def H : Heur := { rank := fun i => -(i : Int), penalty := 0, visit := fun _ l => l }

/-- Calls (8), jumps (6, 11) and the return (0) are barriers. -/
def inOrder (op : Nat) : Bool := op == 0 || op == 6 || op == 8 || op == 11

def B : Block := { insts := [mk 2 [p 3] [], mk 10 [p 4] [], mk 4 [] [p 4], mk 3 [p 5] [p 3, p 4], mk 2 [p 4] [], mk 4 [] [p 5], ret], term := .ret }

theorem B_ok : SchedOk F inOrder B := by
  refine ⟨fun x hx => typed_of_typedB ?_, ?_, ?_⟩
  · have : B.insts.all (typedB F) = true := by decide +kernel
    exact List.all_eq_true.1 this x hx
  · intro x hx ha
    simp only [B, List.mem_cons, List.not_mem_nil, or_false] at hx
    rcases hx with rfl | rfl | rfl | rfl | rfl | rfl | rfl
    all_goals first
      | (exfalso; rcases ha with ha | ha <;> exact ha rfl)
      | exact ⟨rfl, rfl⟩
  · exact ⟨[mk 2 [p 3] [], mk 10 [p 4] [], mk 4 [] [p 4], mk 3 [p 5] [p 3, p 4], mk 2 [p 4] [], mk 4 [] [p 5]], ret, rfl, ⟨rfl, rfl⟩⟩

/-- The scheduler really moves something: the second constant and the output come first. -/
theorem order : scheduleOrder P H (buildDeps F inOrder B.insts) B.insts.length = .done [1, 0, 2, 3, 4, 5, 6] := by
  decide +kernel

theorem live : P.Live :=
  ⟨by decide, fun s => 1 - s, fun s => by simp only; omega, fun s => by simp only [P]; omega, fun s i h => by
    simp only [P, decide_eq_false_iff_not, not_or, Nat.not_lt, Nat.le_zero] at h ⊢
    omega⟩

theorem same : ∃ g, postRASchedule (fun _ => P) (fun _ => H) F inOrder [B] = some g ∧ g ≠ [B] ∧ Same T I F.vis [B] g := by
  have h : ∃ g, postRASchedule (fun _ => P) (fun _ => H) F inOrder [B] = some g ∧ g.map Block.insts ≠ [B.insts] := by
    refine ⟨[{ B with insts := [1, 0, 2, 3, 4, 5, 6].filterMap fun i => B.insts[i]? }], ?_, by decide +kernel⟩
    simp only [postRASchedule, scheduleBlock, order]
  obtain ⟨g, hg, hne⟩ := h
  refine ⟨g, hg, fun hc => hne (by rw [hc]; rfl), ?_⟩
  exact (C50_schedule_preserves PeepEx.ok (fun _ _ _ => List.Perm.refl _) (by
    intro C hC
    simp at hC
    subst hC
    exact B_ok) hg).2

end SchedEx

end Cmmc.Mir
