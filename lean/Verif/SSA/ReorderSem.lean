import Verif.SSA.Reorder
import Verif.SSA.InlineLive
import Verif.SSA.Sort
/-!
# C78: a block in a different order does the same
-/
namespace Cmmc.SSA
section
variable {L : Lang} {mov : L.Op → Bool}

/-- the instructions keep their order if they are locked, and come after their operands -/
structure Resched {Op C : Type} (lk : Inst Op C → Bool) (l l' : List (Inst Op C)) : Prop where
  perm : l'.Perm l
  locked : l'.filter lk = l.filter lk
  topo : ∀ pre i post, l' = pre ++ i :: post → ∀ x, Opd.inst x ∈ i.args → x ∈ l.map Inst.id → x ∈ pre.map Inst.id

/-- the locked instructions alone, when all values are known to be `env` -/
def lockRun (env : Env L) : List (Inst L.Op L.C) → L.M → List L.E → Option (L.M × List L.E)
  | [], m, es => some (m, es)
  | i :: is, m, es =>
    match evals L env i.args with
    | none => none
    | some vs =>
      match L.sem i.op vs m with
      | .ok _ m' es' => lockRun env is m' (es ++ es')
      | _ => none


theorem evals_agree {e e' : Env L} : ∀ {os : List (Opd L.C)}, (∀ x, Opd.inst x ∈ os → e' x = e x) → evals L e' os = evals L e os := by
  intro os
  induction os with
  | nil => intro _; rfl
  | cons o os ih =>
    intro h
    have h1 : eval L e' o = eval L e o := by
      cases o with
      | cst c => rfl
      | inst x => exact h x (by simp)
    simp only [evals, h1, ih (fun x hx => h x (by simp [hx]))]

theorem execBody_other : ∀ {is : List (Inst L.Op L.C)} {e e' : Env L} {m m' : L.M} {es es' : List L.E}, execBody L is e m es = .ok e' m' es' → ∀ x, x ∉ is.map Inst.id → e' x = e x := by
  intro is
  induction is with
  | nil => intro e e' m m' es es' h x _; simp only [execBody, BodyRes.ok.injEq] at h; rw [h.1]
  | cons i is ih =>
    intro e e' m m' es es' h x hx
    simp only [execBody] at h
    split at h
    · cases h
    · split at h
      · rw [ih h x (fun hm => hx (by simp [hm]))]
        unfold setEnv
        rw [if_neg (fun hm => hx (by simp [hm]))]
      · cases h
      · cases h

/-- what is known after a list of instructions has been executed: `lval i` is the value of `i` -/
theorem exec_forward {lk : Inst L.Op L.C → Bool} (hmov : ∀ op, mov op = true → ∀ vs, (∀ m, L.sem op vs m = .ub) ∨ ∃ v, ∀ m, L.sem op vs m = .ok v m [])
    (hlk : ∀ i, lk i = false → mov i.op = true) : ∀ {is : List (Inst L.Op L.C)} {e e' : Env L} {m m' : L.M} {es es' : List L.E}, (is.map Inst.id).Nodup →
      (∀ pre i post, is = pre ++ i :: post → ∀ x, Opd.inst x ∈ i.args → x ∈ is.map Inst.id → x ∈ pre.map Inst.id) → execBody L is e m es = .ok e' m' es' →
      (∀ i ∈ is, lk i = false → ∃ vs v, evals L e' i.args = some vs ∧ e' i.id = some v ∧ ∀ m, L.sem i.op vs m = .ok v m []) ∧
      (∀ pre i post, is.filter lk = pre ++ i :: post → ∃ vs v mi esi mi' esi', lockRun e' pre m es = some (mi, esi) ∧ evals L e' i.args = some vs ∧ e' i.id = some v ∧ L.sem i.op vs mi = .ok v mi' esi') ∧
      lockRun e' (is.filter lk) m es = some (m', es') := by
  intro is
  induction is with
  | nil =>
    intro e e' m m' es es' _ _ h
    simp only [execBody, BodyRes.ok.injEq] at h
    obtain ⟨rfl, rfl, rfl⟩ := h
    refine ⟨by simp, ?_, rfl⟩
    intro pre i post h; simp at h
  | cons i is ih =>
    intro e e' m m' es es' hnd hord h
    simp only [List.map_cons, List.nodup_cons] at hnd
    have hord' : ∀ pre j post, is = pre ++ j :: post → ∀ x, Opd.inst x ∈ j.args → x ∈ is.map Inst.id → x ∈ pre.map Inst.id := by
      intro pre j post hsp x hx hm
      have := hord (i :: pre) j post (by rw [hsp]; rfl) x hx (by simp [List.mem_map.1 hm])
      rcases List.mem_cons.1 this with rfl | h1
      · exact absurd hm hnd.1
      · exact h1
    simp only [execBody] at h
    split at h
    · cases h
    · rename_i vs hvs
      split at h
      · rename_i v m1 es1 hs
        obtain ⟨h1, h2, h3⟩ := ih hnd.2 hord' h
        have hargs : evals L e' i.args = some vs := by
          rw [← hvs]
          refine evals_agree ?_
          intro x hx
          have hxn : x ∉ (i :: is).map Inst.id := fun hm => by simpa using hord [] i is rfl x hx hm
          simp only [List.map_cons, List.mem_cons, not_or] at hxn
          rw [execBody_other h x hxn.2]
          unfold setEnv
          rw [if_neg hxn.1]
        have hval : e' i.id = some v := by
          rw [execBody_other h _ hnd.1]
          unfold setEnv
          rw [if_pos rfl]
        by_cases hl : lk i = true
        · refine ⟨?_, ?_, ?_⟩
          · intro j hj hlj
            rcases List.mem_cons.1 hj with rfl | hj
            · rw [hl] at hlj; cases hlj
            · exact h1 j hj hlj
          · intro pre j post hsp
            rw [List.filter_cons_of_pos hl] at hsp
            cases pre with
            | nil =>
              simp only [List.nil_append, List.cons.injEq] at hsp
              obtain ⟨rfl, _⟩ := hsp
              exact ⟨vs, v, m, es, m1, es1, rfl, hargs, hval, hs⟩
            | cons k pre =>
              simp only [List.cons_append, List.cons.injEq] at hsp
              obtain ⟨rfl, hsp⟩ := hsp
              obtain ⟨ws, w, mi, esi, mi', esi', h4, h5⟩ := h2 pre j post hsp
              refine ⟨ws, w, mi, esi, mi', esi', ?_, h5⟩
              simp only [lockRun, hargs, hs]
              exact h4
          · rw [List.filter_cons_of_pos hl]
            simp only [lockRun, hargs, hs]
            exact h3
        · have hl' : lk i = false := by simpa using hl
          rcases hmov i.op (hlk i hl') vs with hub | ⟨w, hw⟩
          · rw [hub] at hs; cases hs
          · have := hw m
            rw [hs] at this
            cases this
            rw [List.append_nil] at h2 h3
            rw [List.filter_cons_of_neg hl]
            refine ⟨?_, h2, h3⟩
            intro j hj hlj
            rcases List.mem_cons.1 hj with rfl | hj
            · exact ⟨vs, v, hargs, hval, hw⟩
            · exact h1 j hj hlj
      · cases h
      · cases h

/-- with these values, the instructions can be executed in any order that keeps the locked ones in order and operands first -/
theorem exec_backward {lk : Inst L.Op L.C → Bool} {e' : Env L} {m' : L.M} {es' : List L.E} (ids : List Nat)
    : ∀ {is : List (Inst L.Op L.C)} {done : List Nat} {e : Env L} {m : L.M} {es : List L.E},
      (∀ x, x ∈ ids ↔ x ∈ done ∨ x ∈ is.map Inst.id) →
      (∀ pre i post, is = pre ++ i :: post → ∀ x, Opd.inst x ∈ i.args → x ∈ ids → x ∈ done ∨ x ∈ pre.map Inst.id) →
      (∀ x, x ∈ done ∨ x ∉ ids → e x = e' x) →
      (∀ i ∈ is, lk i = false → ∃ vs v, evals L e' i.args = some vs ∧ e' i.id = some v ∧ ∀ m, L.sem i.op vs m = .ok v m []) →
      (∀ pre i post, is.filter lk = pre ++ i :: post → ∃ vs v mi esi mi' esi', lockRun e' pre m es = some (mi, esi) ∧ evals L e' i.args = some vs ∧ e' i.id = some v ∧ L.sem i.op vs mi = .ok v mi' esi') →
      lockRun e' (is.filter lk) m es = some (m', es') → execBody L is e m es = .ok e' m' es' := by
  intro is
  induction is with
  | nil =>
    intro done e m es hids _ hag _ _ hlr
    simp only [List.filter_nil, lockRun, Option.some.injEq, Prod.mk.injEq] at hlr
    obtain ⟨rfl, rfl⟩ := hlr
    have : e = e' := by
      funext x
      apply hag
      by_cases hx : x ∈ ids
      · rcases (hids x).1 hx with h | h
        · exact .inl h
        · simp at h
      · exact .inr hx
    rw [this]; rfl
  | cons i is ih =>
    intro done e m es hids hord hag hfree hlock hlr
    have hargs : evals L e i.args = evals L e' i.args := by
      refine evals_agree ?_
      intro x hx
      apply hag
      by_cases hm : x ∈ ids
      · rcases hord [] i is rfl x hx hm with h | h
        · exact .inl h
        · simp at h
      · exact .inr hm
    have hnext : ∀ (v : L.V) (m1 : L.M) (es1 : List L.E), e' i.id = some v →
        (∀ pre j post, is.filter lk = pre ++ j :: post → ∃ vs v mi esi mi' esi', lockRun e' pre m1 es1 = some (mi, esi) ∧ evals L e' j.args = some vs ∧ e' j.id = some v ∧ L.sem j.op vs mi = .ok v mi' esi') →
        lockRun e' (is.filter lk) m1 es1 = some (m', es') → execBody L is (setEnv L e i.id v) m1 es1 = .ok e' m' es' := by
      intro v m1 es1 hv h1 h2
      refine ih (done := i.id :: done) ?_ ?_ ?_ (fun j hj => hfree j (by simp [hj])) h1 h2
      · intro x; rw [hids x]; simp only [List.map_cons, List.mem_cons]; tauto
      · intro pre j post hsp x hx hm
        rcases hord (i :: pre) j post (by rw [hsp]; rfl) x hx hm with h | h
        · exact .inl (by simp [h])
        · simp only [List.map_cons, List.mem_cons] at h
          rcases h with h | h
          · exact .inl (by simp [h])
          · exact .inr h
      · intro x hx
        unfold setEnv
        by_cases hxi : x = i.id
        · rw [if_pos hxi, hxi, hv]
        · rw [if_neg hxi]
          apply hag
          rcases hx with hx | hx
          · simp only [List.mem_cons, hxi, false_or] at hx; exact .inl hx
          · exact .inr hx
    simp only [execBody]
    rw [hargs]
    by_cases hl : lk i = true
    · rw [List.filter_cons_of_pos hl] at hlock hlr
      obtain ⟨vs, v, mi, esi, mi', esi', h1, h2, h3, h4⟩ := hlock [] i (is.filter lk) rfl
      simp only [lockRun, Option.some.injEq, Prod.mk.injEq] at h1
      obtain ⟨rfl, rfl⟩ := h1
      rw [h2]
      simp only [lockRun, h2, h4] at hlr ⊢
      refine hnext v mi' (es ++ esi') h3 ?_ hlr
      intro pre j post hsp
      obtain ⟨ws, w, mj, esj, mj', esj', g1, g2⟩ := hlock (i :: pre) j post (by rw [hsp]; rfl)
      simp only [lockRun, h2, h4] at g1
      exact ⟨ws, w, mj, esj, mj', esj', g1, g2⟩
    · have hl' : lk i = false := by simpa using hl
      obtain ⟨vs, v, h1, h2, h3⟩ := hfree i (by simp) hl'
      rw [List.filter_cons_of_neg hl] at hlock hlr
      rw [h1]
      simp only [h3 m, List.append_nil]
      exact hnext v m es h2 hlock hlr

/-- **a reordered list of instructions does the same** -/
theorem Resched.exec {lk : Inst L.Op L.C → Bool} (hmov : ∀ op, mov op = true → ∀ vs, (∀ m, L.sem op vs m = .ub) ∨ ∃ v, ∀ m, L.sem op vs m = .ok v m [])
    (hlk : ∀ i, lk i = false → mov i.op = true) {l l' : List (Inst L.Op L.C)} (R : Resched lk l l') (hnd : (l.map Inst.id).Nodup)
    (hord : ∀ pre i post, l = pre ++ i :: post → ∀ x, Opd.inst x ∈ i.args → x ∈ l.map Inst.id → x ∈ pre.map Inst.id) {e e' : Env L} {m m' : L.M} {es es' : List L.E}
    (h : execBody L l e m es = .ok e' m' es') : execBody L l' e m es = .ok e' m' es' := by
  obtain ⟨h1, h2, h3⟩ := exec_forward hmov hlk hnd hord h
  have hp : ∀ x, x ∈ l.map Inst.id ↔ x ∈ l'.map Inst.id := fun x => (R.perm.map Inst.id).mem_iff.symm
  refine exec_backward (lk := lk) (l.map Inst.id) (done := []) ?_ ?_ ?_ ?_ ?_ ?_
  · intro x; rw [hp x]; simp
  · intro pre i post hsp x hx hm; exact .inr (R.topo pre i post hsp x hx hm)
  · intro x hx
    rcases hx with hx | hx
    · simp at hx
    · exact (execBody_other h x hx).symm
  · intro i hi; exact h1 i (R.perm.mem_iff.1 hi)
  · rw [R.locked]; exact h2
  · rw [R.locked]; exact h3

end
end Cmmc.SSA
