import Verif.SSA.ToSelect
import Verif.SSA.ReorderSem
/-!
# Branch2Select: executing the code of `A` always
-/
namespace Cmmc.SSA

/-! ## specification of the opcodes -/

/-- what the pass relies on: opcodes that are not risky cannot fail and have no effect; the address of a global or of a stack slot can be loaded from; `select` selects -/
structure B2SLang (L : Lang) (P : B2S L.Op L.C) (slot : L.V → L.M → Prop) (ar : L.Op → Nat) : Prop where
  pure : ∀ op vs m, P.isLoad op = false → P.risky op = false → P.isAlloc op = false → vs.length = ar op → ∃ v, L.sem op vs m = .ok v m []
  load : ∀ op v m, P.isLoad op = true → slot v m → ∃ w, L.sem op [v] m = .ok w m []
  loadAr : ∀ op, P.isLoad op = true → ar op = 1
  loadNot : ∀ op, P.isLoad op = true → P.isAlloc op = false
  glob : ∀ c m, P.isGlobal c = true → slot (L.cval c) m
  alloc : ∀ op vs m v m' es, P.isAlloc op = true → L.sem op vs m = .ok v m' es → slot v m'
  keep : ∀ op vs m v m' es u, L.sem op vs m = .ok v m' es → slot u m → slot u m'
  sel : ∀ c t v w m, L.truth c = some t → L.sem P.sel [c, v, w] m = .ok (if t then v else w) m []
  selAr : ar P.sel = 3

/-- instructions have as many operands as their opcode takes -/
def Arity {Op C : Type} (ar : Op → Nat) (F : Func Op C) : Prop := ∀ b B i, F.blk b = some B → i ∈ B.body → i.args.length = ar i.op

/-! ## general -/
section
variable {Op C : Type}

theorem Shape.inst_unique {F : Func Op C} (S : Shape F) {x y : Nat} {X Y : Block Op C} (hX : F.blk x = some X) (hY : F.blk y = some Y) {i j : Inst Op C} (hi : i ∈ X.body) (hj : j ∈ Y.body) (h : i.id = j.id) : i = j := by
  have h1 : DefIn F i.id x := ⟨X, hX, List.mem_append_right _ (List.mem_map.2 ⟨i, hi, rfl⟩)⟩
  have h2 : DefIn F i.id y := ⟨Y, hY, List.mem_append_right _ (List.mem_map.2 ⟨j, hj, h.symm⟩)⟩
  have := defIn_unique S.listed S.unique h1 h2
  subst this
  have := hX.symm.trans hY
  cases this
  have hn := (List.nodup_append.1 (S.ids_nodup hX)).2.1
  exact List.inj_on_of_nodup_map hn hi hj h

theorem Shape.phi_inst {F : Func Op C} (S : Shape F) {x y : Nat} {X Y : Block Op C} (hX : F.blk x = some X) (hY : F.blk y = some Y) {p : Phi C} {j : Inst Op C} (hi : p ∈ X.phis) (hj : j ∈ Y.body) : p.id ≠ j.id := by
  intro h
  have h1 : DefIn F p.id x := ⟨X, hX, List.mem_append_left _ (List.mem_map.2 ⟨p, hi, rfl⟩)⟩
  have h2 : DefIn F p.id y := ⟨Y, hY, List.mem_append_right _ (List.mem_map.2 ⟨j, hj, h.symm⟩)⟩
  have := defIn_unique S.listed S.unique h1 h2
  subst this
  have := hX.symm.trans hY
  cases this
  exact (List.nodup_append.1 (S.ids_nodup hX)).2.2 _ (List.mem_map.2 ⟨p, hi, rfl⟩) _ (List.mem_map.2 ⟨j, hj, rfl⟩) h

theorem isSlot_iff {P : B2S Op C} {F : Func Op C} (S : Shape F) {x : Nat} : F.isSlot P x = true ↔ ∃ b B i, F.blk b = some B ∧ i ∈ B.body ∧ i.id = x ∧ P.isAlloc i.op = true := by
  unfold Func.isSlot
  simp only [List.any_eq_true, Bool.and_eq_true, beq_iff_eq]
  constructor
  · rintro ⟨B, hB, i, hi, h1, h2⟩
    obtain ⟨b, _, hb⟩ := Func.mem_blocks.1 hB
    exact ⟨b, B, i, hb, hi, h1, h2⟩
  · rintro ⟨b, B, i, hb, hi, h1, h2⟩
    exact ⟨B, Func.mem_blocks.2 ⟨b, S.listed b B hb, hb⟩, i, hi, h1, h2⟩

/-- nothing but `A` is dominated by `A` -/
theorem SelStep.domiA {P : B2S Op C} {F : Func Op C} {s a b : Nat} {S A B : Block Op C} {c : Opd C} {onTrue : Bool} {ps : List (Phi C)} {sels : List (Inst Op C)}
    (T : SelStep P F s a b S A B c onTrue ps sels) (E : EntryFirst F) {x : Nat} (hx : Live F x) (h : Domi F a x) : x = a := by
  have key : ∀ n x p, Dom.Path (Edge F) F.entry x p → p.length ≤ n → (x ≠ a → ∃ p', Dom.Path (Edge F) F.entry x p' ∧ a ∉ p') ∧ (x = a → ∃ p', Dom.Path (Edge F) F.entry s p' ∧ a ∉ p') := by
    intro n
    induction n with
    | zero =>
      intro x p hp hn
      have : p = [] := List.length_eq_zero_iff.1 (by omega)
      rw [this] at hp
      cases hp
    | succ n ih =>
      intro x p hp hn
      rcases path_unsnoc hp with ⟨he, hpe⟩ | ⟨q, p', hp', e, rfl⟩
      · refine ⟨fun hxa => ⟨p, hp, ?_⟩, fun hxa => ?_⟩
        · rw [hpe, he]; simpa using Ne.symm hxa
        · exact absurd T.esa (by rw [← hxa, ← he]; exact E s)
      · have hl : p'.length ≤ n := by simp at hn; omega
        obtain ⟨h1, h2⟩ := ih q p' hp' hl
        refine ⟨fun hxa => ?_, fun hxa => ?_⟩
        · by_cases hq : q = a
          · obtain ⟨p2, k1, k2⟩ := h2 hq
            obtain ⟨Q, hQ, ht⟩ := e
            rw [hq, T.hA] at hQ
            cases hQ
            rw [T.aterm] at ht
            have hxb : x = b := by simpa [Term.targets] using ht
            subst hxb
            refine ⟨_, Dom.path_snoc k1 T.esb, ?_⟩
            simp only [List.mem_append, List.mem_singleton, not_or]
            exact ⟨k2, Ne.symm hxa⟩
          · obtain ⟨p2, k1, k2⟩ := h1 hq
            refine ⟨_, Dom.path_snoc k1 e, ?_⟩
            simp only [List.mem_append, List.mem_singleton, not_or]
            exact ⟨k2, Ne.symm hxa⟩
        · subst hxa
          have hq := T.preds q e
          subst hq
          exact h1 T.sa
  by_contra hne
  obtain ⟨p, hp⟩ := hx
  obtain ⟨p', h1, h2⟩ := (key _ x p hp (Nat.le_refl _)).1 hne
  exact h2 (h p' h1)

end

/-! ## stack slots stay addressable -/
section
variable {L : Lang} {P : B2S L.Op L.C} {slot : L.V → L.M → Prop} {ar : L.Op → Nat}

/-- the values of the allocas are addresses of stack slots -/
def SlotsAt (P : B2S L.Op L.C) (slot : L.V → L.M → Prop) (F : L.F) (env : Env L) (m : L.M) : Prop := ∀ x v, F.isSlot P x = true → env x = some v → slot v m

theorem SlotsAt.phis {F : L.F} (Sh : Shape F) {b : Nat} {B : L.B} (hB : F.blk b = some B) {pr : Option Nat} {old e r : Env L} {m : L.M} (h : SlotsAt P slot F e m) (he : enterPhis L pr old B.phis e = some r) : SlotsAt P slot F r m := by
  intro x v hx hv
  rw [enterPhis_other he x ?_] at hv
  · exact h x v hx hv
  · intro hm
    obtain ⟨p, hp, rfl⟩ := List.mem_map.1 hm
    obtain ⟨b', B', i, hB', hi, h1, _⟩ := (isSlot_iff Sh).1 hx
    exact Sh.phi_inst hB hB' hp hi h1.symm

theorem SlotsAt.body (HL : B2SLang L P slot ar) {F : L.F} (Sh : Shape F) {b : Nat} {B : L.B} (hB : F.blk b = some B) : ∀ {is : List (Inst L.Op L.C)}, (∀ i ∈ is, i ∈ B.body) → ∀ {e r : Env L} {m m' : L.M} {es es' : List L.E},
    SlotsAt P slot F e m → execBody L is e m es = .ok r m' es' → SlotsAt P slot F r m' := by
  intro is
  induction is with
  | nil => intro _ e r m m' es es' h hr; simp only [execBody, BodyRes.ok.injEq] at hr; obtain ⟨rfl, rfl, rfl⟩ := hr; exact h
  | cons i is ih =>
    intro hsub e r m m' es es' h hr
    simp only [execBody] at hr
    split at hr
    · cases hr
    · rename_i vs _
      split at hr
      · rename_i v m1 es1 hs
        refine ih (fun j hj => hsub j (by simp [hj])) ?_ hr
        intro x u hx hu
        unfold setEnv at hu
        split at hu
        · rename_i hxi
          cases hu
          obtain ⟨b', B', j, hB', hj, h1, h2⟩ := (isSlot_iff Sh).1 hx
          have := Sh.inst_unique hB' hB hj (hsub i (by simp)) (h1.trans hxi)
          subst this
          exact HL.alloc _ _ _ _ _ _ h2 hs
        · exact HL.keep _ _ _ _ _ _ _ hs (h x u hx hu)
      · cases hr
      · cases hr

theorem SlotsAt.step (HL : B2SLang L P slot ar) {F : L.F} (Sh : Shape F) {s s' : St L} (h : SlotsAt P slot F s.env s.m) (hs : step L F s = .inl s') : SlotsAt P slot F s'.env s'.m := by
  unfold SSA.step at hs
  split at hs
  · cases hs
  · rename_i B hB
    simp only [stepBlk] at hs
    split at hs
    · cases hs
    · rename_i env he
      split at hs
      · cases hs
      · cases hs
      · rename_i env2 m2 es2 hb
        have := (h.phis Sh hB he).body HL Sh hB (fun i hi => hi) hb
        split at hs
        · cases hs
        · cases hs
        · simp only [Sum.inl.injEq] at hs
          subst hs
          exact this

/-! ## running `A` -/

/-- an instruction the pass accepts does nothing but compute a value -/
theorem instOk_runs (HL : B2SLang L P slot ar) {F : L.F} {i : Inst L.Op L.C} (hok : P.instOk F i = true) (har : i.args.length = ar i.op) {e : Env L} {m : L.M} (hsl : SlotsAt P slot F e m)
    {vs : List L.V} (hv : evals L e i.args = some vs) : ∃ v, L.sem i.op vs m = .ok v m [] := by
  have hlen : ∀ {os : List (Opd L.C)} {vs : List L.V}, evals L e os = some vs → vs.length = os.length := by
    intro os
    induction os with
    | nil => intro vs h; simp only [evals, Option.some.injEq] at h; subst h; rfl
    | cons o os ih =>
      intro vs h
      simp only [evals] at h
      split at h
      · rename_i h2
        cases h
        rw [List.length_cons, List.length_cons, ih h2]
      · cases h
  unfold B2S.instOk at hok
  split at hok
  · rename_i hld
    rw [HL.loadAr _ hld, List.length_eq_one_iff] at har
    obtain ⟨o, ho⟩ := har
    rw [ho] at hok hv
    simp only [evals] at hv
    cases o with
    | cst c =>
      simp only [eval, Option.some.injEq] at hv
      subst hv
      exact HL.load _ _ _ hld (HL.glob c m hok)
    | inst x =>
      simp only [eval] at hv
      cases hx : e x with
      | none => rw [hx] at hv; cases hv
      | some v =>
        rw [hx] at hv
        cases hv
        exact HL.load _ _ _ hld (hsl x v hok hx)
  · rename_i hld
    simp only [Bool.and_eq_true, Bool.not_eq_true'] at hok
    exact HL.pure _ _ _ (by simpa using hld) hok.1 hok.2 ((hlen hv).trans har)

theorem spec_body (HL : B2SLang L P slot ar) {F : L.F} (Sh : Shape F) {a : Nat} {A : L.B} (hA : F.blk a = some A) (hok : ∀ i ∈ A.body, P.instOk F i = true) (har : Arity ar F) :
    ∀ {is : List (Inst L.Op L.C)}, (∀ i ∈ is, i ∈ A.body) → ∀ {e : Env L} {m : L.M} {es : List L.E}, (∀ pre i post, is = pre ++ i :: post → ∀ x, Opd.inst x ∈ i.args → e x ≠ none ∨ x ∈ pre.map Inst.id) →
      SlotsAt P slot F e m → ∃ e', execBody L is e m es = .ok e' m es := by
  intro is
  induction is with
  | nil => intro _ e m es _ _; exact ⟨e, rfl⟩
  | cons i is ih =>
    intro hsub e m es hu hsl
    obtain ⟨vs, hvs⟩ := evals_some (env := e) (os := i.args) (fun x hx => by
      rcases hu [] i is rfl x hx with h | h
      · exact h
      · cases h)
    have hiA := hsub i (by simp)
    obtain ⟨v, hv⟩ := instOk_runs HL (hok i hiA) (har a A i hA hiA) hsl hvs
    simp only [execBody]
    rw [hvs]
    dsimp only
    rw [hv]
    dsimp only
    rw [List.append_nil]
    refine ih (fun j hj => hsub j (by simp [hj])) ?_ ?_
    · intro pre j post hsp x hx
      have := hu (i :: pre) j post (by rw [hsp]; rfl) x hx
      rw [List.map_cons, List.mem_cons] at this
      by_cases hxi : x = i.id
      · left; unfold setEnv; rw [if_pos hxi]; simp
      · rcases this with h | h | h
        · left; unfold setEnv; rw [if_neg hxi]; exact h
        · exact absurd h hxi
        · exact .inr h
    · intro x u hx hu'
      unfold setEnv at hu'
      split at hu'
      · rename_i hxi
        obtain ⟨b', B', j, hB', hj, h1, h2⟩ := (isSlot_iff Sh).1 hx
        have := Sh.inst_unique hB' hA hj hiA (h1.trans hxi)
        subst this
        have hno := hok _ hiA
        unfold B2S.instOk at hno
        split at hno
        · rename_i hld
          rw [HL.loadNot _ hld] at h2
          cases h2
        · rw [h2] at hno
          simp at hno
      · exact hsl x u hx hu'

theorem body_agree : ∀ {is : List (Inst L.Op L.C)} {K : Nat → Prop} {e e' r r' : Env L} {m m1 m2 : L.M} {es es1 es2 : List L.E}, AgreeK K e e' →
    (∀ pre i post, is = pre ++ i :: post → ∀ x, K x → Opd.inst x ∈ i.args → x ∈ pre.map Inst.id) →
    execBody L is e m es = .ok r m1 es1 → execBody L is e' m es = .ok r' m2 es2 → AgreeK (fun x => K x ∧ x ∉ is.map Inst.id) r r' := by
  intro is
  induction is with
  | nil =>
    intro K e e' r r' m m1 m2 es es1 es2 h _ h1 h2
    simp only [execBody, BodyRes.ok.injEq] at h1 h2
    rw [← h1.1, ← h2.1]
    exact h.mono (fun x hx => ⟨hx, by simp⟩)
  | cons i is ih =>
    intro K e e' r r' m m1 m2 es es1 es2 h hu h1 h2
    simp only [execBody] at h1 h2
    rw [h.evals (fun x hx hm => by have := hu [] i is rfl x hx hm; cases this)] at h2
    cases hv : evals L e i.args with
    | none => rw [hv] at h1; cases h1
    | some vs =>
      rw [hv] at h1 h2
      dsimp only at h1 h2
      cases hs : L.sem i.op vs m with
      | ub => rw [hs] at h1; cases h1
      | halt => rw [hs] at h1; cases h1
      | ok v m' es' =>
        rw [hs] at h1 h2
        refine (ih (h.set i.id v) ?_ h1 h2).mono ?_
        · rintro pre j post hsp x ⟨hx, hxi⟩ hm
          have := hu (i :: pre) j post (by rw [hsp]; rfl) x hx hm
          rw [List.map_cons, List.mem_cons] at this
          exact this.resolve_left hxi
        · rintro x ⟨⟨k1, k2⟩, k3⟩
          refine ⟨k1, ?_⟩
          rw [List.map_cons, List.mem_cons, not_or]
          exact ⟨k2, k3⟩

/-- the selects compute the entries of the phis -/
theorem sel_run (HL : B2SLang L P slot ar) {s a : Nat} {c : Opd L.C} {onTrue : Bool} {cv : L.V} {t : Bool} (ht : L.truth cv = some t) : ∀ {l l' : List (Phi L.C)} {is : List (Inst L.Op L.C)}, SelPhis P s a c onTrue l l' is →
    ∀ {e : Env L} {m : L.M} {es : List L.E}, eval L e c = some cv → (∀ p ∈ l, ∀ o, ((a, o) ∈ p.inc ∨ (s, o) ∈ p.inc) → p.at a = some o ∨ p.at s = some o → eval L e o ≠ none) →
    (∀ x ∈ is.map Inst.id, c ≠ .inst x ∧ ∀ p ∈ l, ∀ q, (q, Opd.inst x) ∉ p.inc) → (is.map Inst.id).Nodup →
    ∃ e', execBody L is e m es = .ok e' m es ∧ (∀ x, x ∉ is.map Inst.id → e' x = e x) ∧
      List.Forall₂ (fun p p' => p'.id = p.id ∧ ∃ (i : Inst L.Op L.C) (va vs : Opd L.C), SelPhi P s a c onTrue p p' i va vs ∧ e' i.id = eval L e (if t = onTrue then va else vs)) l l' := by
  intro l l' is h
  induction h with
  | nil => intro e m es _ _ _ _; exact ⟨e, rfl, fun _ _ => rfl, .nil⟩
  | @cons p p' i va vs l l' is hp _ ih =>
    intro e m es hc hev hfr hnd
    have h1 := hev p (by simp) va (.inl (Phi.at_mem hp.pa)) (.inl hp.pa)
    have h2 := hev p (by simp) vs (.inr (Phi.at_mem hp.ps)) (.inr hp.ps)
    obtain ⟨wa, hwa⟩ := Option.ne_none_iff_exists'.1 h1
    obtain ⟨ws, hws⟩ := Option.ne_none_iff_exists'.1 h2
    have hargs : evals L e i.args = some [cv, if onTrue then wa else ws, if onTrue then ws else wa] := by
      rw [hp.args]
      cases onTrue <;> simp [evals, hc, hwa, hws]
    rw [List.map_cons, List.nodup_cons] at hnd
    have hkeep : ∀ o, o ≠ .inst i.id → ∀ v, eval L (setEnv L e i.id v) o = eval L e o := by
      intro o ho v
      cases o with
      | cst => rfl
      | inst x => simp only [eval, setEnv]; rw [if_neg]; rintro rfl; exact ho rfl
    have hfi := hfr i.id (by simp)
    have hval : ∀ v, ∀ p2 ∈ l, ∀ o q, (q, o) ∈ p2.inc → eval L (setEnv L e i.id v) o = eval L e o := by
      intro v p2 hp2 o q hq
      refine hkeep o ?_ v
      rintro rfl
      exact hfi.2 p2 (by simp [hp2]) q hq
    simp only [execBody]
    rw [hargs]
    dsimp only
    rw [hp.op, HL.sel cv t _ _ m ht]
    dsimp only
    rw [List.append_nil]
    obtain ⟨e', k1, k2, k3⟩ := ih (e := setEnv L e i.id (if t then (if onTrue then wa else ws) else (if onTrue then ws else wa))) (m := m) (es := es) (by rw [hkeep c hfi.1]; exact hc) (by
      intro p2 hp2 o ho ho'
      have : eval L (setEnv L e i.id (if t then (if onTrue then wa else ws) else (if onTrue then ws else wa))) o = eval L e o := by
        rcases ho with ho | ho <;> exact hval _ p2 hp2 o _ ho
      rw [this]
      exact hev p2 (by simp [hp2]) o ho ho') (fun x hx => ⟨(hfr x (List.mem_cons_of_mem _ hx)).1, fun p2 hp2 => (hfr x (List.mem_cons_of_mem _ hx)).2 p2 (by simp [hp2])⟩) hnd.2
    refine ⟨e', k1, ?_, ?_⟩
    · intro x hx
      rw [List.map_cons, List.mem_cons, not_or] at hx
      rw [k2 x hx.2]
      unfold setEnv
      rw [if_neg hx.1]
    · refine .cons ⟨hp.id, i, va, vs, hp, ?_⟩ ?_
      · rw [k2 i.id hnd.1]
        unfold setEnv
        rw [if_pos rfl]
        cases t <;> cases onTrue <;> simp [hwa, hws]
      · have hmem : ∀ {l1 l2 : List (Phi L.C)}, List.Forall₂ (fun p p' => p'.id = p.id ∧ ∃ (i_1 : Inst L.Op L.C) (va vs : Opd L.C), SelPhi P s a c onTrue p p' i_1 va vs ∧
            e' i_1.id = eval L (setEnv L e i.id (if t then (if onTrue then wa else ws) else (if onTrue then ws else wa))) (if t = onTrue then va else vs)) l1 l2 → (∀ p ∈ l1, p ∈ l) →
            List.Forall₂ (fun p p' => p'.id = p.id ∧ ∃ (i : Inst L.Op L.C) (va vs : Opd L.C), SelPhi P s a c onTrue p p' i va vs ∧ e' i.id = eval L e (if t = onTrue then va else vs)) l1 l2 := by
          intro l1 l2 hf
          induction hf with
          | nil => intro _; exact .nil
          | @cons p1 p2 l1 l2 h3 _ ih3 =>
            intro hl
            obtain ⟨h4, i4, va4, vs4, h5, h6⟩ := h3
            refine .cons ⟨h4, i4, va4, vs4, h5, h6.trans ?_⟩ (ih3 (fun p hp => hl p (by simp [hp])))
            by_cases htt : t = onTrue
            · rw [if_pos htt]; exact hval _ p1 (hl p1 (by simp)) _ _ (Phi.at_mem h5.pa)
            · rw [if_neg htt]; exact hval _ p1 (hl p1 (by simp)) _ _ (Phi.at_mem h5.ps)
        exact hmem k3 (fun p hp => hp)

end
end Cmmc.SSA
