import Mathlib.Tactic.Linarith
/-!
# The thread-count tuner (cmmc/Runtime/cmmc_sysy_rt.cpp:121-216, 266-277): C21

The table `parallelCache` is a function on indices; every access checks the bound 16 and yields `none` (undefined behaviour) outside.
`uint32_t` counters wrap. Function pointers are numbers.
-/
namespace Cmmc.Tuner

/-- `ParallelForEntry` (lines 122-132) -/
structure Entry where
  func : Nat
  size : Nat
  valid : Bool
  hit : Nat
  times : Nat → Int
  best : Nat

/-- `parallelCache` and `lookupPtr` (lines 133-135) -/
structure T where
  cache : Nat → Entry
  ptr : Nat

def inb (i : Nat) : Option Nat := if i < 16 then some i else none

def T.set (s : T) (i : Nat) (e : Entry) : T := { s with cache := fun j => if j = i then e else s.cache j }

def matches_ (e : Entry) (f sz : Nat) : Bool := e.valid && e.func == f && e.size == sz

/-- the lookup loop (lines 137-145) with `k` iterations left; returns the index found, if any -/
def search (f sz : Nat) : Nat → T → Option (Option Nat × T)
  | 0, s => some (none, s)
  | k + 1, s => do
    let s := if s.ptr = 16 then { s with ptr := 0 } else s
    let p ← inb s.ptr
    let e := s.cache p
    if matches_ e f sz then
      return (some p, s.set p { e with hit := (e.hit + 1) % 2 ^ 32 })
    else search f sz k { s with ptr := s.ptr + 1 }

/-- the loop looking for an empty slot (lines 147-157), from index `i` -/
def firstEmpty (s : T) : Nat → Nat → Option Nat
  | 0, _ => none
  | k + 1, i => if (s.cache i).valid then firstEmpty s k (i + 1) else some i

/-- the eviction loop (lines 159-167): index with the first minimal hit count; `(best, minHitCount)` are the loop variables -/
def evict (s : T) : Nat → Nat → Nat × Nat → Nat
  | 0, _, st => st.1
  | k + 1, i, st => evict s k (i + 1) (if (s.cache i).hit < st.2 then (i, (s.cache i).hit) else st)

/-- `selectEntry` (lines 136-174): index of the entry returned and new state -/
def selectEntry (s : T) (f sz : Nat) : Option (Nat × T) := do
  let r ← search f sz 16 s
  match r.1 with
  | some p => return (p, r.2)
  | none =>
    match firstEmpty r.2 16 0 with
    | some i =>
      let i ← inb i
      return (i, { r.2.set i { r.2.cache i with valid := true, func := f, size := sz, hit := 1 } with ptr := i })
    | none =>
      let b ← inb (evict r.2 16 0 (0, 4294967295))
      return (b, { r.2.set b { r.2.cache b with func := f, size := sz, hit := 1 } with ptr := b })

/-- the choice of the best sampled thread count (lines 194-201); `times` has 3 elements -/
def bestOf (e : Entry) : Nat :=
  ([0, 1, 2].foldl (fun (st : Nat × Int) i => if e.times i < st.2 then (i, e.times i) else st) (0, 9223372036854775807)).1

/-- `selectNumberOfThreads` (lines 180-207): (entry index, threads, sample, state) -/
def selectThreads (s : T) (f sz : Nat) : Option (Nat × Nat × Bool × T) := do
  let r ← selectEntry s f sz
  let e := r.2.cache r.1
  if e.hit < 100 then return (r.1, 2, false, r.2)
  else if e.hit < 160 then return (r.1, (e.hit - 100) / 20, true, r.2)
  else if e.best = 0 then
    let b := bestOf e
    return (r.1, b, false, r.2.set r.1 { e with best := b })
  else return (r.1, e.best, false, r.2)

/-- one call of `cmmcParallelFor` as far as the tuner is concerned (lines 266-277): `diff` is the measured time, added to
`entry.times[threads]` (3 elements, bound checked) when sampling -/
def call (s : T) (f sz : Nat) (diff : Int) : Option (Nat × T) := do
  let r ← selectThreads s f sz
  if r.2.2.1 then
    if r.2.1 < 3 then
      let e := r.2.2.2.cache r.1
      return (r.2.1, r.2.2.2.set r.1 { e with times := fun j => if j = r.2.1 then e.times j + diff else e.times j })
    else none
  else return (r.2.1, r.2.2.2)

/-! ## Specification -/

/-- the state at program start: zero-initialised -/
def init : T := { cache := fun _ => ⟨0, 0, false, 0, fun _ => 0, 0⟩, ptr := 0 }

/-- states after some sequence of parallel loops with arbitrary measured times -/
inductive Reach : T → Prop
  | init : Reach init
  | call {s t f sz diff thr} : Reach s → call s f sz diff = some (thr, t) → Reach t

/-- entry `i` is the valid entry for the loop `f` with `sz` iterations -/
def Labelled (s : T) (i f sz : Nat) : Prop := (s.cache i).valid = true ∧ (s.cache i).func = f ∧ (s.cache i).size = sz

/-- no loop has two entries -/
def Unique (s : T) : Prop := ∀ i j f sz, i < 16 → j < 16 → Labelled s i f sz → Labelled s j f sz → i = j

structure Inv (s : T) : Prop where
  ptr : s.ptr ≤ 16
  best : ∀ i, (s.cache i).best ≤ 2
  uniq : Unique s

theorem matches_iff (e : Entry) (f sz : Nat) : matches_ e f sz = true ↔ e.valid = true ∧ e.func = f ∧ e.size = sz := by
  simp [matches_, and_assoc]

theorem search_spec (f sz : Nat) : ∀ (k : Nat) (s : T), s.ptr ≤ 16 →
    (∃ p, p < 16 ∧ Labelled s p f sz ∧
      search f sz k s = some (some p, { (s.set p { s.cache p with hit := ((s.cache p).hit + 1) % 2 ^ 32 }) with ptr := p })) ∨
    (∃ q, q ≤ 16 ∧ search f sz k s = some (none, { s with ptr := q }) ∧ ∀ i < k, ¬ Labelled s ((s.ptr + i) % 16) f sz)
  | 0, s, hp => Or.inr ⟨s.ptr, hp, rfl, by omega⟩
  | k + 1, s, hp => by
    have hq : ∃ q, q < 16 ∧ (if s.ptr = 16 then { s with ptr := 0 } else s) = { s with ptr := q } ∧ q = s.ptr % 16 := by
      by_cases h : s.ptr = 16
      · exact ⟨0, by omega, by rw [if_pos h], by omega⟩
      · exact ⟨s.ptr, by omega, by rw [if_neg h], by omega⟩
    obtain ⟨q, hq1, hq2, hq3⟩ := hq
    rw [search, hq2]
    simp only [inb, hq1, if_true, Option.bind_eq_bind, Option.bind_some]
    by_cases hm : matches_ (s.cache q) f sz = true
    · left
      refine ⟨q, hq1, (matches_iff _ _ _).1 hm, ?_⟩
      rw [if_pos hm]
      simp [T.set]
    · rw [if_neg hm]
      rcases search_spec f sz k { s with ptr := q + 1 } (by simp only; omega) with ⟨p, h1, h2, h3⟩ | ⟨r, h1, h2, h3⟩
      · left
        exact ⟨p, h1, h2, by rw [h3]; simp [T.set]⟩
      · right
        refine ⟨r, h1, by rw [h2], ?_⟩
        intro i hi
        cases i with
        | zero =>
          intro hl
          refine hm ((matches_iff _ _ _).2 ?_)
          rw [hq3]; simpa [Labelled] using hl
        | succ i =>
          have := h3 i (by omega)
          simp only at this
          intro hl
          refine this ?_
          have e : (q + 1 + i) % 16 = (s.ptr + (i + 1)) % 16 := by omega
          unfold Labelled at hl ⊢
          simp only [e]
          exact hl

theorem firstEmpty_spec (s : T) : ∀ (k i : Nat),
    match firstEmpty s k i with
    | some j => i ≤ j ∧ j < i + k ∧ (s.cache j).valid = false
    | none => ∀ j, i ≤ j → j < i + k → (s.cache j).valid = true
  | 0, i => by simp [firstEmpty]; omega
  | k + 1, i => by
    rw [firstEmpty]
    by_cases h : (s.cache i).valid = true
    · rw [if_pos h]
      have ih := firstEmpty_spec s k (i + 1)
      cases hf : firstEmpty s k (i + 1) with
      | some j => rw [hf] at ih; simp only at ih ⊢; exact ⟨by omega, by omega, ih.2.2⟩
      | none =>
        rw [hf] at ih; simp only at ih ⊢
        intro j h1 h2
        by_cases hj : j = i
        · subst hj; exact h
        · exact ih j (by omega) (by omega)
    · rw [if_neg h]
      exact ⟨by omega, by omega, by simpa using h⟩

theorem evict_lt (s : T) (N : Nat) : ∀ (k i : Nat) (st : Nat × Nat), st.1 < N → i + k ≤ N → evict s k i st < N
  | 0, _, st, h, _ => h
  | k + 1, i, st, h, hb => by
    rw [evict]
    refine evict_lt s N k (i + 1) _ ?_ (by omega)
    split
    · simp only; omega
    · exact h

/-- the three outcomes of `selectEntry` -/
theorem selectEntry_spec {s : T} (hI : Inv s) (f sz : Nat) :
    ∃ p t, selectEntry s f sz = some (p, t) ∧ p < 16 ∧ Labelled t p f sz ∧ t.ptr ≤ 16 ∧
      (∀ i, i ≠ p → t.cache i = s.cache i) ∧ (t.cache p).best = (s.cache p).best ∧ Unique t ∧
      (∀ q < 16, Labelled s q f sz → p = q ∧ (t.cache p).hit = ((s.cache p).hit + 1) % 2 ^ 32) := by
  rcases search_spec f sz 16 s hI.ptr with ⟨p, h1, h2, h3⟩ | ⟨q, h1, h2, h3⟩
  · refine ⟨p, _, by simp only [selectEntry, h3]; rfl, h1, ?_, by simp only; omega, ?_, by simp [T.set], ?_, ?_⟩
    · unfold Labelled at h2 ⊢; simpa [T.set] using h2
    · intro i hi; simp [T.set, hi]
    · intro i j f' sz' hi hj hli hlj
      refine hI.uniq i j f' sz' hi hj ?_ ?_
      · unfold Labelled T.set at *; simp only at hli; split at hli <;> simp_all
      · unfold Labelled T.set at *; simp only at hlj; split at hlj <;> simp_all
    · intro q hq hl
      refine ⟨hI.uniq p q f sz h1 hq h2 hl, by simp [T.set]⟩
  · have hno : ∀ j < 16, ¬ Labelled s j f sz := by
      intro j hj hl
      have : ∃ i < 16, (s.ptr + i) % 16 = j := by
        refine ⟨(j + 16 - s.ptr % 16) % 16, by omega, by omega⟩
      obtain ⟨i, hi, e⟩ := this
      exact h3 i hi (by rw [e]; exact hl)
    -- installing a fresh label at index `p`
    have install : ∀ (p : Nat) (e : Entry), p < 16 → e.valid = true → e.func = f → e.size = sz → e.best = (s.cache p).best →
        let t : T := { ({ s with ptr := q } : T).set p e with ptr := p }
        p < 16 ∧ Labelled t p f sz ∧ t.ptr ≤ 16 ∧ (∀ i, i ≠ p → t.cache i = s.cache i) ∧
        (t.cache p).best = (s.cache p).best ∧ Unique t ∧
        (∀ q < 16, Labelled s q f sz → p = q ∧ (t.cache p).hit = ((s.cache p).hit + 1) % 2 ^ 32) := by
      intro p e hp e1 e2 e3 e4
      refine ⟨hp, by simp [Labelled, T.set, e1, e2, e3], by simp only; omega, fun i hi => by simp [T.set, hi], by simp [T.set, e4], ?_,
        fun r hr hl => absurd hl (hno r hr)⟩
      have lab : ∀ i f' sz', Labelled { ({ s with ptr := q } : T).set p e with ptr := p } i f' sz' → i ≠ p → Labelled s i f' sz' := by
        intro i f' sz' hl hi
        unfold Labelled T.set at *; simpa [hi] using hl
      have labp : ∀ f' sz', Labelled { ({ s with ptr := q } : T).set p e with ptr := p } p f' sz' → f' = f ∧ sz' = sz := by
        intro f' sz' hl
        unfold Labelled T.set at hl
        simp only [if_true] at hl
        exact ⟨by rw [← hl.2.1, e2], by rw [← hl.2.2, e3]⟩
      intro i j f' sz' hi hj hli hlj
      by_cases hip : i = p <;> by_cases hjp : j = p
      · rw [hip, hjp]
      · subst hip
        obtain ⟨rfl, rfl⟩ := labp _ _ hli
        exact absurd (lab j _ _ hlj hjp) (hno j hj)
      · subst hjp
        obtain ⟨rfl, rfl⟩ := labp _ _ hlj
        exact absurd (lab i _ _ hli hip) (hno i hi)
      · exact hI.uniq i j f' sz' hi hj (lab i _ _ hli hip) (lab j _ _ hlj hjp)
    have hfe := firstEmpty_spec { s with ptr := q } 16 0
    cases hf : firstEmpty { s with ptr := q } 16 0 with
    | some j =>
      rw [hf] at hfe
      simp only at hfe
      refine ⟨j, _, ?_, install j { s.cache j with valid := true, func := f, size := sz, hit := 1 } (by omega) rfl rfl rfl rfl⟩
      simp only [selectEntry, h2, Option.bind_eq_bind, Option.bind_some, hf, inb]
      rw [if_pos (by omega)]
      rfl
    | none =>
      rw [hf] at hfe
      simp only at hfe
      have hlt := evict_lt { s with ptr := q } 16 16 0 (0, 4294967295) (by simp) (by omega)
      generalize hev : evict { s with ptr := q } 16 0 (0, 4294967295) = b at hlt
      refine ⟨b, _, ?_, install b { s.cache b with func := f, size := sz, hit := 1 } hlt (hfe b (by omega) (by omega)) rfl rfl rfl⟩
      simp only [selectEntry, h2, Option.bind_eq_bind, Option.bind_some, hf, hev, inb]
      rw [if_pos hlt]
      rfl

theorem bestOf_le (e : Entry) : bestOf e ≤ 2 := by
  unfold bestOf
  simp only [List.foldl]
  split <;> split <;> split <;> simp

theorem selectThreads_spec {s : T} (hI : Inv s) (f sz : Nat) :
    ∃ p thr smp t, selectThreads s f sz = some (p, thr, smp, t) ∧ p < 16 ∧ thr ≤ 2 ∧ Labelled t p f sz ∧ Inv t ∧
      (∀ i, i ≠ p → t.cache i = s.cache i) ∧ (∀ q < 16, Labelled s q f sz → p = q) := by
  obtain ⟨p, t, h1, h2, h3, h4, h5, h6, h7, h8⟩ := selectEntry_spec hI f sz
  have hIt : Inv t := by
    refine ⟨h4, fun i => ?_, h7⟩
    by_cases hi : i = p
    · rw [hi, h6]; exact hI.best p
    · rw [h5 i hi]; exact hI.best i
  unfold selectThreads
  simp only [h1, Option.bind_eq_bind, Option.bind_some]
  by_cases c1 : (t.cache p).hit < 100
  · rw [if_pos c1]
    exact ⟨p, _, _, t, rfl, h2, by omega, h3, hIt, h5, fun q hq hl => (h8 q hq hl).1⟩
  rw [if_neg c1]
  by_cases c2 : (t.cache p).hit < 160
  · rw [if_pos c2]
    exact ⟨p, _, _, t, rfl, h2, by omega, h3, hIt, h5, fun q hq hl => (h8 q hq hl).1⟩
  rw [if_neg c2]
  by_cases c3 : (t.cache p).best = 0
  · rw [if_pos c3]
    refine ⟨p, _, _, _, rfl, h2, bestOf_le _, ?_, ⟨h4, ?_, ?_⟩, ?_, fun q hq hl => (h8 q hq hl).1⟩
    · unfold Labelled T.set at *; simpa using h3
    · intro i
      by_cases hi : i = p
      · subst hi; simp only [T.set, if_true]; exact bestOf_le _
      · simp only [T.set, if_neg hi]; exact hIt.best i
    · intro i j f' sz' hi hj hli hlj
      refine h7 i j f' sz' hi hj ?_ ?_
      · unfold Labelled T.set at *; simp only at hli; split at hli <;> simp_all
      · unfold Labelled T.set at *; simp only at hlj; split at hlj <;> simp_all
    · intro i hi
      simp only [T.set, if_neg hi]; exact h5 i hi
  · rw [if_neg c3]
    exact ⟨p, _, _, t, rfl, h2, hIt.best p, h3, hIt, h5, fun q hq hl => (h8 q hq hl).1⟩

theorem call_spec {s : T} (hI : Inv s) (f sz : Nat) (diff : Int) :
    ∃ thr t, call s f sz diff = some (thr, t) ∧ thr ≤ 2 ∧ Inv t := by
  obtain ⟨p, thr, smp, t, h1, h2, h3, h4, h5, h6, h7⟩ := selectThreads_spec hI f sz
  unfold call
  simp only [h1, Option.bind_eq_bind, Option.bind_some]
  cases smp with
  | false => exact ⟨thr, t, rfl, h3, h5⟩
  | true =>
    simp only [if_true]
    rw [if_pos (by omega)]
    refine ⟨thr, _, rfl, h3, ⟨h5.ptr, ?_, ?_⟩⟩
    · intro i
      simp only [T.set]
      split
      · exact h5.best p
      · exact h5.best i
    · intro i j f' sz' hi hj hli hlj
      refine h5.uniq i j f' sz' hi hj ?_ ?_
      · unfold Labelled T.set at *; simp only at hli; split at hli <;> simp_all
      · unfold Labelled T.set at *; simp only at hlj; split at hlj <;> simp_all

theorem reach_inv {s : T} (h : Reach s) : Inv s := by
  induction h with
  | init => exact ⟨by simp [init], fun i => by simp [init], fun i j f sz _ _ h _ => by simp [Labelled, init] at h⟩
  | @call s t f sz diff thr _ hc ih =>
    obtain ⟨thr', t', h1, _, h3⟩ := call_spec ih f sz diff
    rw [hc] at h1
    simp only [Option.some.injEq, Prod.mk.injEq] at h1
    rw [h1.2]; exact h3

/-- C21. After every history of parallel loops (any functions, sizes and measured times), a request for loop `(f, sz)`
* makes no out-of-bounds access (it is defined) and returns an index inside the table,
* whose entry is the valid entry labelled `(f, sz)`; no other loop has two entries,
* reuses the existing entry if there was one and touches no other entry,
* selects `1 << threads` ∈ {1, 2, 4} threads. -/
theorem C21_tuner (s : T) (h : Reach s) (f sz : Nat) :
    (∃ p thr smp t, selectThreads s f sz = some (p, thr, smp, t) ∧ p < 16 ∧ (2 ^ thr = 1 ∨ 2 ^ thr = 2 ∨ 2 ^ thr = 4) ∧
      Labelled t p f sz ∧ Unique t ∧ (∀ i, i ≠ p → t.cache i = s.cache i) ∧ (∀ q < 16, Labelled s q f sz → p = q)) ∧
    (∀ diff, ∃ thr t, call s f sz diff = some (thr, t)) := by
  have hI := reach_inv h
  refine ⟨?_, fun diff => ?_⟩
  · obtain ⟨p, thr, smp, t, h1, h2, h3, h4, h5, h6, h7⟩ := selectThreads_spec hI f sz
    refine ⟨p, thr, smp, t, h1, h2, ?_, h4, h5.uniq, h6, h7⟩
    rcases (by omega : thr = 0 ∨ thr = 1 ∨ thr = 2) with rfl | rfl | rfl <;> simp
  · obtain ⟨thr, t, h1, _⟩ := call_spec hI f sz diff
    exact ⟨thr, t, h1⟩

/-- reachable, non-trivial states exist: after one call for loop 5 with 100 iterations, its entry is found again -/
example : ∃ s, Reach s ∧ Labelled s 0 5 100 := by
  have h : ∃ t, call init 5 100 7 = some (2, t) ∧ Labelled t 0 5 100 := ⟨_, rfl, rfl, rfl, rfl⟩
  obtain ⟨t, h1, h2⟩ := h
  exact ⟨t, .call .init h1, h2⟩

end Cmmc.Tuner
