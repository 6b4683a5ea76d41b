import Verif.Runtime.Futex
import Verif.Runtime.ParFor
/-! # C20: join, absence of deadlock and termination of the worker protocol -/
namespace Cmmc.Futex

theorem blocks_inj {i : Nat} : ∀ {T U : List Chunk}, blocks i T = blocks i U → T = U
  | [], [], _ => rfl
  | [], _ :: _, h => by rw [blocks_nil, blocks_cons] at h; cases h
  | _ :: _, [], h => by rw [blocks_nil, blocks_cons] at h; cases h
  | c :: T, d :: U, h => by
    rw [blocks_cons, blocks_cons] at h
    simp only [List.cons.injEq, Op.setF.injEq, Op.setB.injEq, Op.setE.injEq, true_and] at h
    obtain ⟨h1, h2, h3, h4⟩ := h
    rw [blocks_inj h4]
    cases c; cases d; simp_all

theorem head_calls (calls : List Call) (i : Nat) : (calls.flatMap compile).head? ≠ some (.post i) := by
  cases calls with
  | nil => simp
  | cons c calls => cases c <;> simp [compile, launch]

theorem count_logOf (p : Nat × Chunk) (l : List (Nat × Chunk)) : l.count p = (logOf p.1 l).count p.2 := by
  induction l with
  | nil => rfl
  | cons q l ih =>
    by_cases h : q.1 = p.1
    · have : logOf p.1 (q :: l) = q.2 :: logOf p.1 l := by simp [logOf, h]
      rw [this, List.count_cons, List.count_cons, ih]
      have : (q == p) = (q.2 == p.2) := by
        rw [Bool.eq_iff_iff]
        simp only [beq_iff_eq]
        exact ⟨fun e => by rw [e], fun e => Prod.ext h e⟩
      rw [this]
    · have : logOf p.1 (q :: l) = logOf p.1 l := by simp [logOf, h]
      rw [this, List.count_cons_of_ne (by rintro rfl; exact h rfl), ih]

theorem perm_of_logOf {l m : List (Nat × Chunk)} (h : ∀ i, logOf i l = logOf i m) : l.Perm m := by
  rw [List.perm_iff_count]
  intro p
  rw [count_logOf, count_logOf, h]

/-- C20, join. In every reachable state, under every interleaving and with any spurious wake-ups: when the main thread has returned
from its first `k` calls of `cmmcParallelFor` and not entered the next one, exactly the chunks launched by those `k` calls have been
executed, each exactly once, with the function and bounds they were launched with. Assumption: one call uses each worker at most
once (C19). -/
theorem C20_join (n : Nat) (calls : List Call) (hc : ∀ c ∈ calls, (c.map Prod.fst).Nodup) (s : S) (h : Reach n calls s) (k : Nat)
    (hk : s.ops = (calls.drop k).flatMap compile) : s.log.Perm (calls.take k).flatten := by
  have hI := reach_inv hc h
  apply perm_of_logOf
  intro i
  have hp := hI.ph i
  unfold PhS at hp
  have hnw : ¬ waking s i := by rintro ⟨_, h2⟩; rw [hk] at h2; exact head_calls _ i h2
  rw [rem_of_not_waking hnw, hk, proj_calls (calls.drop k) (fun c hcm => hc c (List.mem_of_mem_drop hcm))] at hp
  have hall : tasksOf i calls = logOf i (calls.take k).flatten ++ tasksOf i (calls.drop k) := by
    unfold tasksOf
    conv_lhs => rw [← List.take_append_drop k calls, List.flatten_append]
    simp only [logOf, List.filter_append, List.map_append]
  have hno : ∀ (o : Op) r, (∀ f, o ≠ .setF i f) → blocks i (tasksOf i (calls.drop k)) ≠ o :: r := by
    intro o r ho e
    rcases blocks_head i (tasksOf i (calls.drop k)) with h | ⟨f, r', h⟩
    · rw [h] at e; cases e
    · rw [h] at e; simp only [List.cons.injEq] at e; exact ho f e.1.symm
  cases hp with
  | quiet T a b c d e =>
    have := blocks_inj a
    subst this
    rw [hall] at e
    exact List.append_cancel_right e
  | set1 c T a => exact absurd a (hno _ _ (by simp))
  | set2 c T a => exact absurd a (hno _ _ (by simp))
  | set3 c T a => exact absurd a (hno _ _ (by simp))
  | posted c T a => exact absurd a (hno _ _ (by simp))
  | running c T a => exact absurd a (hno _ _ (by simp))
  | executed T a => exact absurd a (hno _ _ (by simp))
  | signalled T a => exact absurd a (hno _ _ (by simp))

theorem step_suffix {n : Nat} {s t : S} (h : Step n s t) : t.ops <:+ s.ops := by
  cases h <;> first | exact List.suffix_refl _ | (rename_i e; simp only [e]; exact List.suffix_cons _ _) | (rename_i e _; simp only [e]; exact List.suffix_cons _ _) | (rename_i e _ _; simp only [e]; exact List.suffix_cons _ _)

theorem reach_suffix {n : Nat} {calls : List Call} {s : S} (h : Reach n calls s) : s.ops <:+ calls.flatMap compile := by
  induction h with
  | init => exact List.suffix_refl _
  | step _ hs ih => exact (step_suffix hs).trans ih
  | spurious _ hs ih => cases hs <;> exact ih

theorem wait_mem {calls : List Call} {i : Nat} (h : Op.wait i ∈ calls.flatMap compile) : ∃ c ∈ calls, i ∈ c.map Prod.fst := by
  rw [List.mem_flatMap] at h
  obtain ⟨c, hc, h⟩ := h
  refine ⟨c, hc, ?_⟩
  unfold compile at h
  simp only [List.mem_append, List.mem_flatMap, launch, List.mem_cons, List.mem_nil_iff, or_false, reduceCtorEq, List.mem_map,
    Op.wait.injEq, false_or, and_false, exists_false] at h
  obtain ⟨p, hp, rfl⟩ := h
  exact List.mem_map_of_mem hp

/-- C20, no deadlock and no lost wake-up: as long as the main thread has something left to do, some thread can take a step that is
not a spurious wake-up. -/
theorem C20_no_deadlock (n : Nat) (calls : List Call) (hc : ∀ c ∈ calls, (c.map Prod.fst).Nodup)
    (hw : ∀ c ∈ calls, ∀ p ∈ c, p.1 < n) (s : S) (h : Reach n calls s) (hne : s.ops ≠ []) : ∃ t, Step n s t := by
  have hI := reach_inv hc h
  match ho : s.ops with
  | [] => exact absurd ho hne
  | .setF i f :: ops => exact ⟨_, .setF ho⟩
  | .setB i f :: ops => exact ⟨_, .setB ho⟩
  | .setE i f :: ops => exact ⟨_, .setE ho⟩
  | .ret :: ops => exact ⟨_, .ret ho⟩
  | .post i :: ops =>
    cases hm : s.mode with
    | start =>
      cases hr : (s.w i).ready with
      | false => exact ⟨_, .postOk ho hm hr⟩
      | true => exact ⟨_, .postFail ho hm hr⟩
    | wake => exact ⟨_, .postWake ho hm⟩
    | fut => obtain ⟨j, hj⟩ := hI.mode.2 (Or.inl hm); rw [ho] at hj; simp at hj
    | sleep => obtain ⟨j, hj⟩ := hI.mode.2 (Or.inr hm); rw [ho] at hj; simp at hj
  | .wait i :: ops =>
    have hmode : ∀ d, (s.w i).done = d → s.mode = .start ∨ s.mode = .fut → ∃ t, Step n s t := by
      intro d hd hm
      cases d with
      | true =>
        rcases hm with hm | hm
        · exact ⟨_, .waitOk ho hm hd⟩
        · exact ⟨_, .waitAgain ho hm hd⟩
      | false =>
        rcases hm with hm | hm
        · exact ⟨_, .waitFail ho hm hd⟩
        · exact ⟨_, .waitSleep ho hm hd⟩
    cases hm : s.mode with
    | start => exact hmode _ rfl (Or.inl hm)
    | fut => exact hmode _ rfl (Or.inr hm)
    | wake => obtain ⟨j, hj⟩ := hI.mode.1 hm; rw [ho] at hj; simp at hj
    | sleep =>
      have hin : i < n := by
        have : Op.wait i ∈ calls.flatMap compile := (reach_suffix h).subset (by rw [ho]; simp)
        obtain ⟨c, hcm, hi⟩ := wait_mem this
        obtain ⟨p, hp, rfl⟩ := List.mem_map.1 hi
        exact hw c hcm p hp
      have hp := hI.ph i
      unfold PhS at hp
      have hnw : ¬ waking s i := not_waking_of_mode (by simp [hm])
      rw [rem_of_not_waking hnw, ho, proj_cons_same rfl] at hp
      have hms : msleep s i := ⟨hm, by simp [ho]⟩
      have idleStep : (s.w i).pc = .top ∨ (s.w i).pc = .cas ∨ (s.w i).pc = .fut ∨ (s.w i).pc = .wake → ∃ t, Step n s t := by
        rintro (hpc | hpc | hpc | hpc)
        · exact ⟨_, .wTop hin hpc⟩
        · cases hr : (s.w i).ready with
          | true => exact ⟨_, .wCasOk hin hpc hr⟩
          | false => exact ⟨_, .wCasFail hin hpc hr⟩
        · cases hr : (s.w i).ready with
          | true => exact ⟨_, .wAgain hin hpc hr⟩
          | false => exact ⟨_, .wSleep hin hpc hr⟩
        · exact ⟨_, .wWake hin hpc⟩
      cases hp with
      | quiet T a => rcases blocks_head i T with h | ⟨_, _, h⟩ <;> rw [h] at a <;> simp at a
      | set1 c T a => simp at a
      | set2 c T a => simp at a
      | set3 c T a => simp at a
      | posted c T a b d g k l m o =>
        refine idleStep ?_
        rcases m with m | m | m | m | m
        · exact Or.inl m
        · exact Or.inr (Or.inl m)
        · exact Or.inr (Or.inr (Or.inl m))
        · exact absurd (o m) hnw
        · exact Or.inr (Or.inr (Or.inr m))
      | running c T a b d g k l m =>
        rcases m with m | m | m | m
        · exact ⟨_, .wLdF hin m⟩
        · exact ⟨_, .wLdB hin m⟩
        · exact ⟨_, .wLdE hin m⟩
        · exact ⟨_, .wExec hin m⟩
      | executed T a b c d => exact ⟨_, .wPostOk hin d c⟩
      | signalled T a b c d g => exact ⟨_, .wWake hin (g hms)⟩

/-! ## termination -/

/-- steps left for a worker until it sleeps -/
def wM (x : W) : Nat :=
  match x.pc with
  | .sleep => if x.ready then 16 else 0
  | .fut => if x.ready then 16 else 1
  | .cas => if x.ready then 15 else 2
  | .top => if x.ready then 16 else 3
  | .wake => if x.ready then 20 else 6
  | .post => if x.ready then 40 else 10
  | .exec _ => if x.ready then 41 else 11
  | .ldE _ _ => if x.ready then 42 else 12
  | .ldB _ => if x.ready then 43 else 13
  | .ldF => if x.ready then 44 else 14

def modeM (ops : List Op) (mode : Mode) (w : Nat → W) : Nat :=
  match ops with
  | .post _ :: _ => if mode = .wake then 30 else 80
  | .wait i :: _ =>
    match mode with
    | .start => if (w i).done then 1 else 2
    | .fut => if (w i).done then 2 else 1
    | .sleep => if (w i).done then 2 else 0
    | .wake => 2
  | _ => 0

def sumW (n : Nat) (w : Nat → W) : Nat := ((List.range n).map fun i => wM (w i)).sum

def measure (n : Nat) (s : S) : Nat := 100 * s.ops.length + modeM s.ops s.mode s.w + sumW n s.w

theorem sumW_setW (n : Nat) (w : Nat → W) (i : Nat) (x : W) :
    sumW n (setW w i x) + (if i < n then wM (w i) else 0) = sumW n w + (if i < n then wM x else 0) := by
  induction n with
  | zero => simp [sumW]
  | succ n ih =>
    have e : ∀ v : Nat → W, sumW (n + 1) v = sumW n v + wM (v n) := by
      intro v; simp [sumW, List.range_succ]
    rw [e, e]
    by_cases h : n = i
    · subst h
      simp only [setW_self, Nat.lt_irrefl, if_false, Nat.lt_succ_self, if_true] at ih ⊢
      omega
    · rw [setW_ne _ _ h]
      by_cases h2 : i < n
      · rw [if_pos h2, if_pos h2] at ih
        rw [if_pos (by omega), if_pos (by omega)]; omega
      · rw [if_neg h2, if_neg h2] at ih
        rw [if_neg (by omega), if_neg (by omega)]; omega

theorem modeM_le (ops : List Op) (mode : Mode) (w : Nat → W) : modeM ops mode w ≤ 80 := by
  unfold modeM
  split
  · split <;> omega
  · split <;> (try split) <;> omega
  · omega

theorem modeM_congr (ops : List Op) (mode : Mode) (w w' : Nat → W) (h : ∀ i, (w' i).done = (w i).done) :
    modeM ops mode w' = modeM ops mode w := by
  unfold modeM
  split
  · rfl
  · simp only [h]
  · rfl

theorem setW_done {w : Nat → W} {i : Nat} {x : W} (h : x.done = (w i).done) (j : Nat) : (setW w i x j).done = (w j).done := by
  unfold setW; split
  · rename_i e; rw [h, e]
  · rfl

/-- every step that is not a spurious wake-up decreases the measure -/
theorem step_measure {n : Nat} {s t : S} (h : Step n s t) : measure n t < measure n s := by
  have pop : ∀ (o : Op) (ops : List Op) (m' : Mode) (i : Nat) (x : W), s.ops = o :: ops → wM x ≤ wM (s.w i) + 2 →
      measure n { s with ops := ops, mode := m', w := setW s.w i x } < measure n s := by
    intro o ops m' i x e hx
    unfold measure
    have h1 := sumW_setW n s.w i x
    have h2 := modeM_le ops m' (setW s.w i x)
    simp only [e, List.length_cons]
    have : (if i < n then wM x else 0) ≤ (if i < n then wM (s.w i) else 0) + 2 := by split <;> omega
    omega
  have wst : ∀ (i : Nat) (x : W) (lg), i < n → x.done = (s.w i).done → wM x < wM (s.w i) →
      measure n { s with w := setW s.w i x, log := lg } < measure n s := by
    intro i x lg hi hd hx
    unfold measure
    simp only
    rw [modeM_congr _ _ _ _ (setW_done hd)]
    have h1 := sumW_setW n s.w i x
    rw [if_pos hi, if_pos hi] at h1
    omega
  have gen : ∀ (i : Nat) (x : W) (m' : Mode), (i < n → modeM s.ops m' (setW s.w i x) + wM x < modeM s.ops s.mode s.w + wM (s.w i)) →
      (¬ i < n → modeM s.ops m' (setW s.w i x) < modeM s.ops s.mode s.w) →
      measure n { s with mode := m', w := setW s.w i x } < measure n s := by
    intro i x m' hx hx'
    unfold measure
    simp only
    have h1 := sumW_setW n s.w i x
    by_cases hi : i < n
    · rw [if_pos hi, if_pos hi] at h1
      have := hx hi
      omega
    · rw [if_neg hi, if_neg hi] at h1
      have := hx' hi
      omega
  cases h with
  | setF e => exact pop _ _ _ _ _ e (by simp [wM])
  | setB e => exact pop _ _ _ _ _ e (by simp [wM])
  | setE e => exact pop _ _ _ _ _ e (by simp [wM])
  | @postOk i ops e hm hr =>
    refine gen i _ _ (fun _ => ?_) (fun _ => ?_)
    · have hx : wM { s.w i with ready := true } ≤ wM (s.w i) + 30 := by
        unfold wM; simp only [hr]
        split <;> simp
      simp only [e, modeM, hm, if_true, reduceCtorEq, if_false]
      exact lt_of_le_of_lt (Nat.add_le_add_left hx _) (by omega)
    · simp only [e, modeM, hm, if_true, reduceCtorEq, if_false]; omega
  | @postFail i ops e hm hr =>
    unfold measure
    have h2 := modeM_le ops s.mode s.w
    simp only [e, List.length_cons]
    omega
  | @postWake i ops e hm =>
    refine pop _ _ _ _ _ e ?_
    unfold wakeW
    split
    · rename_i hs; unfold wM; simp only [hs]; split <;> omega
    · omega
  | @waitOk i ops e hm hd => exact pop _ _ _ _ _ e (by simp [wM])
  | @waitFail i ops e hm hd => unfold measure; simp [e, modeM, hm, hd]
  | @waitAgain i ops e hm hd => unfold measure; simp [e, modeM, hm, hd]
  | @waitSleep i ops e hm hd => unfold measure; simp [e, modeM, hm, hd]
  | @ret ops e =>
    unfold measure
    have h2 := modeM_le ops s.mode s.w
    simp only [e, List.length_cons]
    omega
  | @wTop i hi hpc => refine wst i _ _ hi rfl ?_; simp only [wM, hpc]; split <;> omega
  | @wCasOk i hi hpc hr => refine wst i _ _ hi rfl ?_; simp [wM, hpc, hr]
  | @wCasFail i hi hpc hr => refine wst i _ _ hi rfl ?_; simp [wM, hpc, hr]
  | @wAgain i hi hpc hr => refine wst i _ _ hi rfl ?_; simp [wM, hpc, hr]
  | @wSleep i hi hpc hr => refine wst i _ _ hi rfl ?_; simp [wM, hpc, hr]
  | @wLdF i hi hpc => refine wst i _ _ hi rfl ?_; simp only [wM, hpc]; split <;> omega
  | @wLdB i v hi hpc => refine wst i _ _ hi rfl ?_; simp only [wM, hpc]; split <;> omega
  | @wLdE i v v' hi hpc => refine wst i _ _ hi rfl ?_; simp only [wM, hpc]; split <;> omega
  | @wExec i c hi hpc => refine wst i _ _ hi rfl ?_; simp only [wM, hpc]; split <;> omega
  | @wPostOk i hi hpc hd =>
    refine gen i _ _ (fun _ => ?_) (fun h => absurd hi h)
    have hx : wM { s.w i with pc := .wake, done := true } + 4 ≤ wM (s.w i) := by
      simp only [wM, hpc]; split <;> omega
    have hmm : ∀ w', modeM s.ops s.mode w' ≤ modeM s.ops s.mode s.w + 2 := by
      intro w'
      unfold modeM
      split
      · omega
      · split <;> (try split) <;> (try split) <;> omega
      · omega
    have key : ∀ w' y, y + 4 ≤ wM (s.w i) → modeM s.ops s.mode w' + y < modeM s.ops s.mode s.w + wM (s.w i) := by
      intro w' y hy; have := hmm w'; omega
    exact key _ _ hx
  | @wPostFail i hi hpc hd => refine wst i _ _ hi rfl ?_; simp only [wM, hpc]; split <;> omega
  | @wWake i hi hpc =>
    refine gen i _ _ (fun _ => ?_) (fun h => absurd hi h)
    have hx : wM { s.w i with pc := .top } + 3 ≤ wM (s.w i) := by
      simp only [wM, hpc]; split <;> omega
    have hmm : modeM s.ops (wakeMain s i) s.w ≤ modeM s.ops s.mode s.w + 2 := by
      unfold wakeMain
      split
      · rename_i hc
        obtain ⟨hc1, hc2⟩ := hc
        match ho : s.ops, hc2 with
        | .wait j :: ops, hc2 =>
          simp only [modeM, hc1]
          split <;> omega
      · omega
    have key : ∀ x : W, x.done = (s.w i).done → wM x + 3 ≤ wM (s.w i) →
        modeM s.ops (wakeMain s i) (setW s.w i x) + wM x < modeM s.ops s.mode s.w + wM (s.w i) := by
      intro x hd hy
      rw [modeM_congr s.ops (wakeMain s i) s.w _ (setW_done hd)]
      omega
    exact key _ rfl hx

/-- a schedule without spurious wake-ups -/
inductive Steps (n : Nat) : S → Nat → S → Prop
  | refl {s} : Steps n s 0 s
  | tail {s t u k} : Steps n s k t → Step n t u → Steps n s (k + 1) u

/-- C20, termination: from any reachable state there is a bound on the number of steps any schedule without further spurious wake-ups
can take, and when no step is possible any more every call has returned and exactly the launched chunks have been executed. -/
theorem C20_terminates (n : Nat) (calls : List Call) (hc : ∀ c ∈ calls, (c.map Prod.fst).Nodup)
    (hw : ∀ c ∈ calls, ∀ p ∈ c, p.1 < n) (s : S) (h : Reach n calls s) :
    (∃ N, ∀ k t, Steps n s k t → k ≤ N) ∧
    (∀ k t, Steps n s k t → (¬ ∃ u, Step n t u) → t.ops = [] ∧ t.log.Perm calls.flatten) := by
  constructor
  · refine ⟨measure n s, ?_⟩
    intro k t hs
    have : measure n t + k ≤ measure n s := by
      induction hs with
      | refl => omega
      | tail _ h2 ih => have := step_measure h2; omega
    omega
  · intro k t hs hstuck
    have hr : Reach n calls t := by
      clear hstuck
      induction hs with
      | refl => exact h
      | tail _ h2 ih => exact .step ih h2
    have hops : t.ops = [] := by
      by_contra hne
      exact hstuck (C20_no_deadlock n calls hc hw t hr hne)
    refine ⟨hops, ?_⟩
    have := C20_join n calls hc t hr calls.length (by rw [hops]; simp)
    simpa using this

theorem filterMap_fst (f : Nat) : ∀ l : List (Option Nat × Int × Int),
    (l.filterMap fun c => c.1.map fun i => ((i, (⟨f, c.2.1, c.2.2⟩ : Chunk)) : Nat × Chunk)).map Prod.fst = (l.map Prod.fst).filterMap id
  | [] => rfl
  | (none, b, e) :: l => by simpa using filterMap_fst f l
  | (some i, b, e) :: l => by simpa using filterMap_fst f l

/-- C19 and C20 meet: the chunks computed by `spawn` satisfy the assumptions of C20 with the 4 workers of the runtime. -/
theorem C20_assumptions_met (beg e : Int) (threads : Nat) (ht : threads ≤ 2) (f : Nat) (l : List (Option Nat × Int × Int))
    (h : Cmmc.ParFor.parallelFor beg e threads = some l) :
    let call : Call := l.filterMap fun c => c.1.map fun i => (i, ⟨f, c.2.1, c.2.2⟩)
    (call.map Prod.fst).Nodup ∧ ∀ p ∈ call, p.1 < 4 := by
  obtain ⟨_, _, h3, h4⟩ := Cmmc.ParFor.C19_partition beg e threads ht l h
  constructor
  · have e : (l.filterMap fun c => c.1.map fun i => ((i, (⟨f, c.2.1, c.2.2⟩ : Chunk)) : Nat × Chunk)).map Prod.fst =
        (l.map Prod.fst).filterMap id := by
      exact filterMap_fst f l
    simp only [e]
    exact h3.filterMap (by intro a b c ha hb; simp_all)
  · intro p hp
    simp only [List.mem_filterMap] at hp
    obtain ⟨c, hc, hp⟩ := hp
    cases hc1 : c.1 with
    | none => rw [hc1] at hp; simp at hp
    | some i =>
      rw [hc1] at hp
      simp only [Option.map_some, Option.some.injEq] at hp
      subst hp
      exact h4 c hc i hc1

/-- a concrete two-call program meets the hypotheses -/
example : ∀ c ∈ ([[(0, ⟨7, 0, 8⟩), (1, ⟨7, 8, 20⟩)], [(0, ⟨9, 0, 8⟩), (1, ⟨9, 8, 17⟩)]] : List Call),
    (c.map Prod.fst).Nodup ∧ ∀ p ∈ c, p.1 < 4 := by decide

end Cmmc.Futex
