import Verif.Mir.Unused

/-!
# Removing unused machine instructions cannot be seen
-/

namespace Cmmc.Mir

def Writers.keys (w : Writers) : List Reg := w.map Prod.fst

theorem mem_all {f : Func} {p : Pos} {x : Inst} : (p, x) ∈ f.all ↔ f.at p = some x := by
  obtain ⟨b, i⟩ := p
  unfold Func.all Func.at
  rw [List.mem_flatten]
  constructor
  · rintro ⟨l, hl, hm⟩
    obtain ⟨b', hb'⟩ := List.mem_iff_getElem?.1 hl
    rw [List.getElem?_mapIdx] at hb'
    cases hB : f[b']? with
    | none => rw [hB] at hb'; cases hb'
    | some B =>
      rw [hB] at hb'
      simp only [Option.map_some, Option.some.injEq] at hb'
      subst hb'
      obtain ⟨i', hi'⟩ := List.mem_iff_getElem?.1 hm
      rw [List.getElem?_mapIdx] at hi'
      cases hx : B.insts[i']? with
      | none => rw [hx] at hi'; cases hi'
      | some y =>
        rw [hx] at hi'
        simp only [Option.map_some, Option.some.injEq, Prod.mk.injEq] at hi'
        obtain ⟨⟨rfl, rfl⟩, rfl⟩ := hi'
        simp [hB, hx]
  · intro h
    cases hB : f[b]? with
    | none => simp [hB] at h
    | some B =>
      simp only [hB, Option.bind_some] at h
      refine ⟨B.insts.mapIdx fun i x => ((b, i), x), List.mem_of_getElem? (i := b) (by rw [List.getElem?_mapIdx, hB]; rfl),
        List.mem_of_getElem? (i := i) (by rw [List.getElem?_mapIdx, h]; rfl)⟩

/-- Every register written by the instructions `D` is a key, with exactly the places that write it. -/
structure Writers.Inv (w : Writers) (D : Pos → Reg → Prop) : Prop where
  nodup : w.keys.Nodup
  key : ∀ r, r ∈ w.keys ↔ ∃ p, D p r
  ent : ∀ r ps, (r, ps) ∈ w → ∀ p, p ∈ ps ↔ D p r

theorem addWriter_keys (r : Reg) (p : Pos) : ∀ w : Writers,
    (addWriter w r p).keys = if r ∈ w.keys then w.keys else w.keys ++ [r] := by
  intro w
  induction w with
  | nil => simp [addWriter, Writers.keys]
  | cons e w ih =>
    obtain ⟨q, ps⟩ := e
    unfold addWriter
    split
    · rename_i h; subst h; simp [Writers.keys]
    · rename_i h
      have : ¬ r = q := fun e => h e.symm
      have e1 : Writers.keys ((q, ps) :: w) = q :: Writers.keys w := rfl
      have e2 : Writers.keys ((q, ps) :: addWriter w r p) = q :: (addWriter w r p).keys := rfl
      rw [e1, e2, ih]
      by_cases hm : r ∈ Writers.keys w
      · rw [if_pos hm, if_pos (List.mem_cons_of_mem _ hm)]
      · rw [if_neg hm, if_neg (by simp [this, hm])]; rfl

theorem addWriter_mem {r : Reg} {p : Pos} : ∀ {w : Writers}, w.keys.Nodup → ∀ {q : Reg} {ps : List Pos},
    (q, ps) ∈ addWriter w r p →
    (q ≠ r ∧ (q, ps) ∈ w) ∨ (q = r ∧ ((∃ ps', (r, ps') ∈ w ∧ ps = ps' ++ [p]) ∨ (r ∉ w.keys ∧ ps = [p]))) := by
  intro w
  induction w with
  | nil => intro _ q ps h; simp [addWriter] at h; exact .inr ⟨h.1, .inr ⟨by simp [Writers.keys], h.2⟩⟩
  | cons e w ih =>
    intro hn q ps h
    obtain ⟨q0, ps0⟩ := e
    simp only [Writers.keys, List.map_cons, List.nodup_cons] at hn
    unfold addWriter at h
    split at h
    · rename_i he
      subst he
      rcases List.mem_cons.1 h with h | h'
      · cases h; exact .inr ⟨rfl, .inl ⟨ps0, by simp, rfl⟩⟩
      · refine .inl ⟨?_, List.mem_cons_of_mem _ h'⟩
        rintro rfl
        replace h := h'
        exact hn.1 (List.mem_map.2 ⟨(q, ps), h, rfl⟩)
    · rename_i he
      rcases List.mem_cons.1 h with h | h
      · cases h; exact .inl ⟨he, by simp⟩
      · rcases ih hn.2 h with ⟨a, b⟩ | ⟨a, ⟨ps', b, c⟩ | ⟨b, c⟩⟩
        · exact .inl ⟨a, List.mem_cons_of_mem _ b⟩
        · exact .inr ⟨a, .inl ⟨ps', List.mem_cons_of_mem _ b, c⟩⟩
        · refine .inr ⟨a, .inr ⟨?_, c⟩⟩
          simp only [Writers.keys, List.map_cons, List.mem_cons, not_or]
          exact ⟨fun e => he e.symm, b⟩

theorem Writers.Inv.congr {w : Writers} {D D' : Pos → Reg → Prop} (h : w.Inv D) (he : ∀ p r, D p r ↔ D' p r) :
    w.Inv D' :=
  ⟨h.nodup, fun r => by rw [h.key]; simp only [he], fun r ps hm p => by rw [h.ent r ps hm, he]⟩

theorem Writers.Inv.add {w : Writers} {D : Pos → Reg → Prop} (h : w.Inv D) (r : Reg) (p : Pos) :
    (addWriter w r p).Inv fun p' r' => D p' r' ∨ (p' = p ∧ r' = r) := by
  refine ⟨?_, ?_, ?_⟩
  · rw [addWriter_keys]
    split
    · exact h.nodup
    · rename_i hr
      exact List.nodup_append.2 ⟨h.nodup, by simp, by simp; intro a ha e; exact hr (e ▸ ha)⟩
  · intro q
    rw [addWriter_keys]
    by_cases hq : q = r
    · subst hq
      constructor
      · intro _; exact ⟨p, .inr ⟨rfl, rfl⟩⟩
      · intro _; split <;> simp_all
    · have e : (∃ p', D p' q ∨ (p' = p ∧ q = r)) ↔ ∃ p', D p' q := by simp [hq]
      rw [e, ← h.key]
      split <;> simp [hq]
  · intro q ps hm p'
    rcases addWriter_mem h.nodup hm with ⟨a, b⟩ | ⟨rfl, ⟨ps', b, rfl⟩ | ⟨b, rfl⟩⟩
    · rw [h.ent q ps b]; simp [a]
    · rw [List.mem_append, h.ent _ ps' b]; simp
    · have : ¬ D p' q := fun hd => b ((h.key q).2 ⟨p', hd⟩)
      simp [this]

theorem Writers.Inv.adds (p : Pos) : ∀ (ds : List Reg) {w : Writers} {D : Pos → Reg → Prop}, w.Inv D →
    (ds.foldl (fun w r => addWriter w r p) w).Inv fun p' r' => D p' r' ∨ (p' = p ∧ r' ∈ ds) := by
  intro ds
  induction ds with
  | nil => intro w D h; exact h.congr (by simp)
  | cons d ds ih =>
    intro w D h
    exact (ih (h.add d p)).congr fun p' r' => by simp only [List.mem_cons]; tauto

theorem collect_inv {F : Flags} {alloc : Nat → Bool} : ∀ (L : List (Pos × Inst)) (w : Writers) (q : List Pos)
    (D : Pos → Reg → Prop), w.Inv D →
    let s := L.foldl (fun (w, q) (p, x) =>
      (x.defs.foldl (fun w r => addWriter w r p) w, if isSpecial F alloc x then q ++ [p] else q)) (w, q)
    (s.1.Inv fun p r => D p r ∨ ∃ x, (p, x) ∈ L ∧ r ∈ x.defs) ∧
    ∀ p, p ∈ q ∨ (∃ x, (p, x) ∈ L ∧ isSpecial F alloc x = true) → p ∈ s.2 := by
  intro L
  induction L with
  | nil => intro w q D h; exact ⟨h.congr (by simp), by simp⟩
  | cons e L ih =>
    intro w q D h
    obtain ⟨p, x⟩ := e
    rw [List.foldl_cons]
    obtain ⟨i1, i2⟩ := ih _ (if isSpecial F alloc x then q ++ [p] else q) _ (h.adds p x.defs)
    refine ⟨i1.congr ?_, ?_⟩
    · intro p' r'
      simp only [List.mem_cons, Prod.mk.injEq]
      constructor
      · rintro ((h | ⟨rfl, h⟩) | ⟨y, h1, h2⟩)
        · exact .inl h
        · exact .inr ⟨x, .inl ⟨rfl, rfl⟩, h⟩
        · exact .inr ⟨y, .inr h1, h2⟩
      · rintro (h | ⟨y, ⟨rfl, rfl⟩ | h1, h2⟩)
        · exact .inl (.inl h)
        · exact .inl (.inr ⟨rfl, h2⟩)
        · exact .inr ⟨y, h1, h2⟩
    · intro p' hp'
      apply i2
      rcases hp' with hp' | ⟨y, hy, hs⟩
      · left; split
        · exact List.mem_append_left _ hp'
        · exact hp'
      · rcases List.mem_cons.1 hy with hy | hy
        · cases hy
          left; rw [if_pos hs]; simp
        · exact .inr ⟨y, hy, hs⟩

/-- The registers written by the instruction at a position. -/
def Func.writesAt (f : Func) (p : Pos) (r : Reg) : Prop := ∃ x, f.at p = some x ∧ r ∈ x.defs

/-- The invariant of the work list: an instruction that must be kept, or that writes something needed, is still
    to be looked at or everything it reads is needed. -/
structure WorkInv (F : Flags) (alloc : Nat → Bool) (f : Func) (w : Writers) (q : List Pos) : Prop where
  ent : ∀ r ps, (r, ps) ∈ w → ∀ p, p ∈ ps ↔ f.writesAt p r
  need : ∀ p x, f.at p = some x → (isSpecial F alloc x = true ∨ ∃ r ∈ x.defs, r ∉ w.keys) →
    p ∈ q ∨ ∀ u ∈ x.uses, u ∉ w.keys

theorem popSrc_spec {f : Func} {w : Writers} {q : List Pos} (he : ∀ r ps, (r, ps) ∈ w → ∀ p, p ∈ ps ↔ f.writesAt p r)
    (r : Reg) : (∀ a, a ∈ (popSrc (w, q) r).1 ↔ a ∈ w ∧ a.1 ≠ r) ∧
      (∀ p, p ∈ q → p ∈ (popSrc (w, q) r).2) ∧
      (r ∈ w.keys → ∀ p, f.writesAt p r → p ∈ (popSrc (w, q) r).2) := by
  unfold popSrc
  split
  · rename_i e hf
    have hm := List.mem_of_find?_eq_some hf
    have hr : e.1 = r := by simpa using List.find?_some hf
    obtain ⟨q0, ps⟩ := e
    simp only at hr; subst hr
    refine ⟨fun a => by simp, fun p hp => List.mem_append_left _ hp, fun _ p hp => List.mem_append_right _ ((he _ _ hm p).2 hp)⟩
  · rename_i hf
    have hk : ∀ a ∈ w, a.1 ≠ r := by simpa using List.find?_eq_none.1 hf
    refine ⟨fun a => ⟨fun h => ⟨h, hk a h⟩, And.left⟩, fun p hp => hp, fun hr => ?_⟩
    obtain ⟨a, ha, rfl⟩ := List.mem_map.1 hr
    exact absurd rfl (hk a ha)

theorem popSrcs_spec {f : Func} : ∀ (rs : List Reg) {w : Writers} {q : List Pos},
    (∀ r ps, (r, ps) ∈ w → ∀ p, p ∈ ps ↔ f.writesAt p r) →
    (∀ a, a ∈ (rs.foldl popSrc (w, q)).1 ↔ a ∈ w ∧ a.1 ∉ rs) ∧
      (∀ p, p ∈ q → p ∈ (rs.foldl popSrc (w, q)).2) ∧
      (∀ r ∈ rs, r ∈ w.keys → ∀ p, f.writesAt p r → p ∈ (rs.foldl popSrc (w, q)).2) := by
  intro rs
  induction rs with
  | nil => intro w q _; simp
  | cons r rs ih =>
    intro w q he
    rw [List.foldl_cons]
    obtain ⟨a1, a2, a3⟩ := popSrc_spec (q := q) he r
    have he' : ∀ r' ps, (r', ps) ∈ (popSrc (w, q) r).1 → ∀ p, p ∈ ps ↔ f.writesAt p r' :=
      fun r' ps h => he r' ps ((a1 _).1 h).1
    obtain ⟨b1, b2, b3⟩ := ih (w := (popSrc (w, q) r).1) (q := (popSrc (w, q) r).2) he'
    refine ⟨fun a => ?_, fun p hp => b2 p (a2 p hp), ?_⟩
    · rw [b1, a1]; simp only [List.mem_cons, not_or]; tauto
    · intro r' hr' hk p hp
      by_cases h : r' = r
      · subst h; exact b2 p (a3 hk p hp)
      · have hr'' : r' ∈ rs := by
          rcases List.mem_cons.1 hr' with h' | h'
          · exact absurd h' h
          · exact h'
        refine b3 r' hr'' ?_ p hp
        obtain ⟨e, he1, rfl⟩ := List.mem_map.1 hk
        exact List.mem_map.2 ⟨e, (a1 e).2 ⟨he1, h⟩, rfl⟩

theorem mem_keys {w : Writers} {r : Reg} : r ∈ w.keys ↔ ∃ ps, (r, ps) ∈ w := by
  unfold Writers.keys
  rw [List.mem_map]
  constructor
  · rintro ⟨⟨a, b⟩, h, rfl⟩; exact ⟨b, h⟩
  · rintro ⟨ps, h⟩; exact ⟨_, h, rfl⟩

theorem work_inv {F : Flags} {alloc : Nat → Bool} {f : Func} (w : Writers) (q : List Pos)
    (h : WorkInv F alloc f w q) : WorkInv F alloc f (workUnused f w q) [] ∧ ∀ a ∈ workUnused f w q, a ∈ w := by
  match q with
  | [] => unfold workUnused; exact ⟨h, fun _ => id⟩
  | p :: q =>
    rw [workUnused]
    generalize hu : f.usesAt p = us
    obtain ⟨a1, a2, a3⟩ := popSrcs_spec (f := f) us (q := q) h.ent
    have hs : WorkInv F alloc f (us.foldl popSrc (w, q)).1 (us.foldl popSrc (w, q)).2 := by
      refine ⟨fun r ps hm => h.ent r ps ((a1 _).1 hm).1, ?_⟩
      intro p' x hx hc
      have hkey : ∀ r, r ∈ Writers.keys (us.foldl popSrc (w, q)).1 ↔ r ∈ w.keys ∧ r ∉ us := by
        intro r
        rw [mem_keys, mem_keys]
        constructor
        · rintro ⟨ps, hp⟩; obtain ⟨x1, x2⟩ := (a1 _).1 hp; exact ⟨⟨ps, x1⟩, x2⟩
        · rintro ⟨⟨ps, hp⟩, x2⟩; exact ⟨ps, (a1 _).2 ⟨hp, x2⟩⟩
      have hc' : p' ∈ (us.foldl popSrc (w, q)).2 ∨ (isSpecial F alloc x = true ∨ ∃ r ∈ x.defs, r ∉ w.keys) := by
        rcases hc with hc | ⟨r, hr, hk⟩
        · exact .inr (.inl hc)
        · by_cases hw : r ∈ w.keys
          · have : r ∈ us := by
              by_contra hn; exact hk ((hkey r).2 ⟨hw, hn⟩)
            exact .inl (a3 r this hw p' ⟨x, hx, hr⟩)
          · exact .inr (.inr ⟨r, hr, hw⟩)
      rcases hc' with hc' | hc'
      · exact .inl hc'
      · rcases h.need p' x hx hc' with hq | hq
        · rcases List.mem_cons.1 hq with rfl | hq
          · right
            intro u hu' hk
            rw [Func.usesAt, hx] at hu
            simp only at hu
            subst hu
            exact ((hkey u).1 hk).2 hu'
          · exact .inl (a2 p' hq)
        · right
          intro u hu' hk
          exact hq u hu' ((hkey u).1 hk).1
    have := work_inv (F := F) (alloc := alloc) (f := f) (us.foldl popSrc (w, q)).1 (us.foldl popSrc (w, q)).2 hs
    exact ⟨this.1, fun a ha => ((a1 a).1 (this.2 a ha)).1⟩
termination_by (w.length, q.length)
decreasing_by
  rcases popSrcs_cases (f.usesAt p) (w, q) with h | h
  · exact Prod.Lex.left _ _ h
  · rw [h]; exact Prod.Lex.right _ (by simp)

section
variable {Val Mem : Type} {T : Target} {I : Interp Val Mem} {F : Flags} {f : Func}

/-- Executing the same instruction in two states that agree on what it reads: the results agree wherever the
    states agreed and on everything written. -/
theorem eff_same_reads {x : Inst} {σ σ' ρ : Reg → Val} {m m' : Mem} {k : Nat} (hr : x.reads σ = x.reads σ')
    (h : Eff T I x σ m ρ m' k) : ∃ ρ', Eff T I x σ' m ρ' m' k ∧ ∀ r, (σ r = σ' r ∨ r ∈ x.dsts T) → ρ r = ρ' r := by
  obtain ⟨vs, h1, h2, rfl⟩ := h
  refine ⟨writes σ' (x.dsts T) vs, ⟨vs, hr ▸ h1, h2, rfl⟩, ?_⟩
  have key : ∀ (ds : List Reg) (vs : List Val) (σ σ' : Reg → Val) (r : Reg), vs.length = ds.length →
      (σ r = σ' r ∨ r ∈ ds) → writes σ ds vs r = writes σ' ds vs r := by
    intro ds
    induction ds with
    | nil => intro vs σ σ' r _ h; simpa [writes] using h
    | cons d ds ih =>
      intro vs σ σ' r hl h
      cases vs with
      | nil => simp at hl
      | cons v vs =>
        unfold writes
        apply ih _ _ _ _ (by simpa using hl)
        by_cases hd : r = d
        · left; simp [hd]
        · rcases h with h | h
          · left; simp [hd, h]
          · right; simpa [hd] using h
  exact fun r hr => key _ _ _ _ r h2 hr

theorem at_eq {b i : Nat} {B : Block} {x : Inst} (hB : f[b]? = some B) (hx : B.insts[i]? = some x) :
    f.at (b, i) = some x := by unfold Func.at; simp [hB, hx]

/-- Removing instructions whose results are never used cannot be seen. The registers read by calls and returns
    without being named are allocable registers. -/
theorem removeUnusedInsts_same (hF : F.Ok I) (ht : f.Typed F) {alloc : Nat → Bool}
    (ha : ∀ B ∈ f, ∀ x ∈ B.insts, ∀ p ∈ x.args, alloc p = true) :
    Same T I F.vis f (removeUnusedInsts F alloc f) := by
  unfold removeUnusedInsts
  simp only
  have h0 := collect_inv (F := F) (alloc := alloc) f.all [] [] (fun _ _ => False)
    ⟨by simp [Writers.keys], by simp [Writers.keys], by simp⟩
  change _ ∧ _ at h0
  obtain ⟨c1, c2⟩ := h0
  change Writers.Inv (collectWriters F alloc f).1 _ at c1
  have hw0 : WorkInv F alloc f (collectWriters F alloc f).1 (collectWriters F alloc f).2 := by
    refine ⟨?_, ?_⟩
    · intro r ps hm p
      rw [c1.ent r ps hm p]
      simp only [false_or, mem_all]; rfl
    · intro p x hx hc
      left
      rcases hc with hc | ⟨r, hr, hk⟩
      · exact c2 p (.inr ⟨x, mem_all.2 hx, hc⟩)
      · exact absurd ((c1.key r).2 ⟨p, .inr ⟨x, mem_all.2 hx, hr⟩⟩) hk
  obtain ⟨hw, -⟩ := work_inv _ _ hw0
  generalize hwe : workUnused f (collectWriters F alloc f).1 (collectWriters F alloc f).2 = w at hw
  have hneed : ∀ p x, f.at p = some x → (isSpecial F alloc x = true ∨ ∃ r ∈ x.defs, r ∉ w.keys) →
      ∀ u ∈ x.uses, u ∉ w.keys := by
    intro p x hx hc
    rcases hw.need p x hx hc with h | h
    · cases h
    · exact h
  have hrem : ∀ p x, f.at p = some x → unusedPos F alloc f w p = true →
      F.side x.op = false ∧ F.multi x.op = false ∧ ∃ r, r ∈ x.defs ∧ r ∈ w.keys ∧ ∀ n, r = .ph n → alloc n = false := by
    intro p x hx hu
    unfold unusedPos at hu
    obtain ⟨⟨r, ps⟩, h1, h2⟩ := List.any_eq_true.1 hu
    simp only [hx, Bool.and_eq_true, Bool.not_eq_true', Bool.or_eq_false_iff, decide_eq_true_eq] at h2
    obtain ⟨⟨h3, h4⟩, h5, h6⟩ := h2
    obtain ⟨y, hy, hr⟩ := (hw.ent r ps h1 p).1 h4
    rw [hx] at hy; cases hy
    exact ⟨h5, h6, r, hr, mem_keys.2 ⟨ps, h1⟩, by rintro n rfl; exact h3⟩
  apply rewrite_same _ (fun _ _ σ σ' => ∀ r, r ∉ w.keys ∨ (∃ n, r = .ph n ∧ alloc n = true) → σ r = σ' r)
  · intro σ r _; rfl
  · exact ht.last
  · intro b B i x hB hx he
    by_cases hu : unusedPos F alloc f w (b, i) = true
    · have := (hrem _ x (at_eq hB hx) hu).1
      rw [hF.sub _ he] at this; cases this
    · simp [hu]
  · intro b B i x hB hx
    have hat := at_eq hB hx
    have hty := ht.inst B (List.mem_of_getElem? hB) x (List.mem_of_getElem? hx)
    have hargs := ha B (List.mem_of_getElem? hB) x (List.mem_of_getElem? hx)
    intro σ σ' hR
    by_cases hu : unusedPos F alloc f w (b, i) = true
    · simp only [hu, if_true]
      obtain ⟨s1, s2, r, s3, s4, s5⟩ := hrem _ x hat hu
      have hv : F.vis x.op = false := by
        cases hv : F.vis x.op with
        | false => rfl
        | true => rw [hF.sub _ hv] at s1; cases s1
      obtain ⟨g, hg⟩ := hF.fn _ hv
      have hb := hty.bare hv
      have hd : x.defs = [r] := by
        have h1 := hF.multi _ s1 s2
        rw [← hb.2.2.2] at h1
        match hx : x.defs, h1, s3 with
        | [d], _, s3 => rw [List.mem_singleton.1 s3]
      refine ⟨hv, fun m k => ⟨_, (quiet_eff hg rfl hb).2 ⟨rfl, rfl⟩⟩, ?_⟩
      intro m ρ m' k hE
      obtain ⟨h1, h2⟩ := (quiet_eff hg rfl hb).1 hE
      refine ⟨h2, ?_⟩
      have hRρ : ∀ q, q ∉ w.keys ∨ (∃ n, q = .ph n ∧ alloc n = true) → ρ q = σ' q := by
        intro q hq
        rw [eff_frame hE (r := q), hR q hq]
        rw [dsts_of_bare hb.2.1, hd, List.mem_singleton]
        rintro rfl
        rcases hq with hq | ⟨n, rfl, hn⟩
        · exact hq s4
        · rw [s5 n rfl] at hn; cases hn
      exact fun _ _ => ⟨fun _ => hRρ, fun _ _ _ => hRρ⟩
    · simp only [hu]
      by_cases hc : isSpecial F alloc x = true ∨ ∃ r ∈ x.defs, r ∉ w.keys
      · have huse := hneed _ x hat hc
        have hrd : x.reads σ = x.reads σ' := by
          unfold Inst.reads
          congr 1
          · exact List.map_congr_left fun u hu => hR u (.inl (huse u hu))
          · exact List.map_congr_left fun p hp => hR _ (.inr ⟨p, rfl, hargs p hp⟩)
        refine ⟨rfl, fun _ => rfl, ?_, ?_⟩
        · intro m ρ m' k hE
          obtain ⟨ρ', e1, e2⟩ := eff_same_reads hrd hE
          exact ⟨ρ', e1, fun _ _ => ⟨fun _ r hr => e2 r (.inl (hR r hr)), fun _ _ _ r hr => e2 r (.inl (hR r hr))⟩⟩
        · intro m ρ' m' k hE
          obtain ⟨ρ, e1, e2⟩ := eff_same_reads hrd.symm hE
          exact ⟨ρ, e1, fun _ _ => ⟨fun _ r hr => (e2 r (.inl (hR r hr).symm)).symm,
            fun _ _ _ r hr => (e2 r (.inl (hR r hr).symm)).symm⟩⟩
      · have hs : isSpecial F alloc x = false := by
          cases h : isSpecial F alloc x with
          | false => rfl
          | true => exact absurd (.inl h) hc
        have hdk : ∀ r ∈ x.defs, r ∈ w.keys := by
          intro r hr; by_contra hn; exact hc (.inr ⟨r, hr, hn⟩)
        unfold isSpecial at hs
        rw [Bool.or_eq_false_iff] at hs
        have hv : F.vis x.op = false := by
          cases hv : F.vis x.op with
          | false => rfl
          | true => rw [hF.sub _ hv] at hs; cases hs.1
        obtain ⟨g, hg⟩ := hF.fn _ hv
        have hb := hty.bare hv
        have hout : ∀ (σ ρ : Reg → Val) m m' k, Eff T I x σ m ρ m' k →
            ∀ q, q ∉ w.keys ∨ (∃ n, q = .ph n ∧ alloc n = true) → ρ q = σ q := by
          intro σ ρ m m' k hE q hq
          apply eff_frame hE
          rw [dsts_of_bare hb.2.1]
          intro hd
          rcases hq with hq | ⟨n, rfl, hn⟩
          · exact hq (hdk q hd)
          · have := hs.2
            rw [List.any_eq_false] at this
            exact this _ hd hn
        refine ⟨rfl, fun _ => rfl, ?_, ?_⟩
        · intro m ρ m' k hE
          obtain ⟨h1, h2⟩ := (quiet_eff hg rfl hb).1 hE
          have hE' : Eff T I x σ' m (writes σ' x.defs (g (x.uses.map σ'))) m' k := (quiet_eff hg rfl hb).2 ⟨rfl, h2⟩
          have hRρ := fun q hq => (hout _ _ _ _ _ hE q hq).trans ((hR q hq).trans (hout _ _ _ _ _ hE' q hq).symm)
          exact ⟨_, hE', fun _ _ => ⟨fun _ => hRρ, fun _ _ _ => hRρ⟩⟩
        · intro m ρ' m' k hE'
          obtain ⟨h1, h2⟩ := (quiet_eff hg rfl hb).1 hE'
          have hE : Eff T I x σ m (writes σ x.defs (g (x.uses.map σ))) m' k := (quiet_eff hg rfl hb).2 ⟨rfl, h2⟩
          have hRρ := fun q hq => (hout _ _ _ _ _ hE q hq).trans ((hR q hq).trans (hout _ _ _ _ _ hE' q hq).symm)
          exact ⟨_, hE, fun _ _ => ⟨fun _ => hRρ, fun _ _ _ => hRρ⟩⟩

end

end Cmmc.Mir
