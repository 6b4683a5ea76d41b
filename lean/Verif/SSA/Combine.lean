import Verif.SSA.Redirect
/-!
# CombineBranch (cmmc/Transforms/ControlFlow/CombineBranch.cpp:47-95): C70

Jumps to blocks that consist of a jump go to the target of that jump.
-/
namespace Cmmc.SSA

section
variable {Op C : Type}

/-- change the terminator of a block -/
def Func.setTerm (F : Func Op C) (b : Nat) (t : Term C) : Func Op C :=
  match F.blk b with
  | none => F
  | some B => F.set b { B with term := t }

/-- `isForwardBlock` (CombineBranch.cpp:48-51) -/
def Func.isForward (F : Func Op C) (b : Nat) : Bool :=
  match F.blk b with
  | some B => B.phis.isEmpty && B.body.isEmpty && (match B.term with | .br t => decide (t ≠ b) | _ => false)
  | none => false

/-- `hasSamePhiValue(target, …)` (BlockUtil.cpp:240-252). It compares pointers to use records, which are different for different
predecessors: it holds only for targets without phis. -/
def Func.noPhis (F : Func Op C) (b : Nat) : Bool := match F.blk b with | some B => B.phis.isEmpty | none => true

/-- `foldForward(source, target, rhs)` (CombineBranch.cpp:53-63): the function with the phis of the new target extended, and that target;
`none` when it returns false -/
def foldForward (F : Func Op C) (source target : Nat) (rhs : Option Nat) : Option (Func Op C × Nat) :=
  match F.blk target with
  | none => none
  | some T =>
    match T.term with
    | .br r =>
      if target = r then none
      else if rhs = some r ∧ F.noPhis r = false then none
      else some (if rhs = some r then F else F.copyTarget r target source, r)
    | _ => none

/-- the true target of a conditional branch (CombineBranch.cpp:85-87): the function and the true target afterwards -/
def combineTrue (fw : List Nat) (F : Func Op C) (b : Nat) (c : Opd C) (t f : Nat) : Func Op C × Nat :=
  if t ≠ b ∧ t ∈ fw then
    match foldForward F b t (some f) with
    | some (G, r) => (G.setTerm b (.cbr c r f), r)
    | none => (F, t)
  else (F, t)

/-- one iteration of the loop over the blocks (CombineBranch.cpp:75-92) -/
def combineAt (fw : List Nat) (F : Func Op C) (b : Nat) : Func Op C :=
  match F.blk b with
  | none => F
  | some B =>
    match B.term with
    | .br t =>
      if t ≠ b ∧ t ∈ fw then
        match foldForward F b t none with
        | some (G, r) => G.setTerm b (.br r)
        | none => F
      else F
    | .cbr c t f =>
      let st := combineTrue fw F b c t f
      if f ≠ b ∧ f ∈ fw then
        match foldForward st.1 b f (some st.2) with
        | some (G, r) => G.setTerm b (.cbr c st.2 r)
        | none => st.1
      else st.1
    | _ => F

/-- `CombineBranch::run` (CombineBranch.cpp:66-94) -/
def combineBranch (F : Func Op C) : Func Op C := F.order.foldl (combineAt (F.order.filter F.isForward)) F

/-! ## one step -/

theorem Func.setTerm_blk (F : Func Op C) (b : Nat) (t : Term C) (x : Nat) : (F.setTerm b t).blk x = (F.blk x).map (fun X => if x = b then { X with term := t } else X) := by
  unfold Func.setTerm
  cases h : F.blk b with
  | none =>
    by_cases hx : x = b
    · rw [hx, h]; rfl
    · simp only [if_neg hx]; cases F.blk x <;> rfl
  | some B =>
    rw [Func.set_blk]
    by_cases hx : x = b
    · rw [if_pos hx, hx, h]; simp
    · rw [if_neg hx]; simp only [if_neg hx]; cases F.blk x <;> rfl

theorem Func.setTerm_fix (F : Func Op C) (b : Nat) (t : Term C) : (F.setTerm b t).entry = F.entry ∧ (F.setTerm b t).order = F.order := by
  unfold Func.setTerm
  split <;> exact ⟨rfl, rfl⟩

theorem copyTarget_noPhis {F : Func Op C} {r f u : Nat} (h : F.noPhis r = true) : F.copyTarget r f u = F := by
  unfold Func.copyTarget Func.mapPhis
  unfold Func.noPhis at h
  cases hR : F.blk r with
  | none => rfl
  | some R =>
    rw [hR] at h
    dsimp only at h ⊢
    have hp : R.phis = [] := by simpa using h
    have : ({ R with phis := copyPhis f u R.phis } : Block Op C) = R := by
      rw [hp]
      show (⟨[], R.body, R.term⟩ : Block Op C) = R
      rw [← hp]
    rw [this]
    unfold Func.set
    have hb : (fun x => if x = r then some R else F.blk x) = F.blk := by
      funext x
      split
      · rename_i h; rw [h, hR]
      · rfl
    rw [hb]

/-- the entry for `u` is that of `f` -/
def copyPhi (f u : Nat) (p : Phi C) : Phi C := match p.at f with | some v => p.addIncoming u v | none => p

theorem copyPhis_eq (f u : Nat) (ps : List (Phi C)) : copyPhis f u ps = ps.map (copyPhi f u) := rfl

theorem Phi.at_none {p : Phi C} {q : Nat} (h : ¬ ∃ v, (q, v) ∈ p.inc) : p.at q = none := by
  cases ha : p.at q with
  | none => rfl
  | some v => exact absurd ⟨v, Phi.at_mem ha⟩ h

theorem Phi.at_ex {p : Phi C} {q : Nat} (h : ∃ v, (q, v) ∈ p.inc) : ∃ v, p.at q = some v := by
  obtain ⟨v, h1, _⟩ := Phi.at_some h
  exact ⟨v, h1⟩

theorem copyPhi_id (f u : Nat) (p : Phi C) : (copyPhi f u p).id = p.id := by
  unfold copyPhi; split <;> rfl

theorem copyPhi_mem {f u : Nat} {p : Phi C} {q : Nat} {v : Opd C} (h : (q, v) ∈ (copyPhi f u p).inc) : (q, v) ∈ p.inc ∨ (q = u ∧ (f, v) ∈ p.inc) := by
  unfold copyPhi at h
  split at h
  · rename_i w hw
    rcases List.mem_append.1 h with h | h
    · exact .inl h
    · simp only [List.mem_singleton, Prod.mk.injEq] at h
      exact .inr ⟨h.1, h.2 ▸ Phi.at_mem hw⟩
  · exact .inl h

theorem copyPhi_old {f u : Nat} {p : Phi C} {q : Nat} {v : Opd C} (h : (q, v) ∈ p.inc) : (q, v) ∈ (copyPhi f u p).inc := by
  unfold copyPhi
  split
  · exact List.mem_append_left _ h
  · exact h

theorem copyPhi_new {f u : Nat} {p : Phi C} (h : ∃ v, (f, v) ∈ p.inc) : ∃ v, (u, v) ∈ (copyPhi f u p).inc := by
  obtain ⟨v, hv⟩ := Phi.at_ex h
  unfold copyPhi
  rw [hv]
  exact ⟨v, List.mem_append_right _ (by simp)⟩

theorem copyPhi_at {f u : Nat} {p : Phi C} (h : ¬ ∃ v, (u, v) ∈ p.inc) : (copyPhi f u p).at u = p.at f := by
  unfold copyPhi
  cases hf : p.at f with
  | none => exact Phi.at_none h
  | some v =>
    have hno := Phi.at_none h
    unfold Phi.at at hno
    rw [Option.map_eq_none_iff] at hno
    unfold Phi.addIncoming Phi.at
    rw [List.find?_append, hno]
    simp

theorem copyPhi_at_ne {f u q : Nat} (h : q ≠ u) (p : Phi C) : (copyPhi f u p).at q = p.at q := by
  unfold copyPhi
  split
  · exact Phi.at_addIncoming h
  · rfl

variable {F : Func Op C} {u f r : Nat}

/-- what one step of the pass requires -/
structure CombineStep (F : Func Op C) (u f r : Nat) (U : Block Op C) (t' : Term C) : Prop where
  hU : F.blk u = some U
  hf : F.blk f = some ⟨[], [], .br r⟩
  fr : f ≠ r
  tf : f ∈ U.term.targets
  args : t'.args = U.term.args
  new : r ∈ t'.targets
  sub : ∀ t ∈ t'.targets, t ∈ U.term.targets ∨ t = r
  keep : ∀ t ∈ U.term.targets, t ∈ t'.targets ∨ t = f
  ok : r ∉ U.term.targets ∨ F.noPhis r = true

/-- the function after the step -/
def stepTo (F : Func Op C) (u f r : Nat) (t' : Term C) : Func Op C := (F.copyTarget r f u).setTerm u t'

theorem stepTo_blk (F : Func Op C) (u f r : Nat) (t' : Term C) (x : Nat) : (stepTo F u f r t').blk x = (F.blk x).map (fun X =>
    let ps := if x = r then X.phis.map (copyPhi f u) else X.phis
    if x = u then ⟨ps, X.body, t'⟩ else ⟨ps, X.body, X.term⟩) := by
  unfold stepTo Func.copyTarget
  rw [Func.setTerm_blk, Func.mapPhis_blk, Option.map_map]
  congr 1
  funext X
  simp only [Function.comp, copyPhis_eq]
  split <;> split <;> rfl

theorem stepTo_fix (F : Func Op C) (u f r : Nat) (t' : Term C) : (stepTo F u f r t').entry = F.entry ∧ (stepTo F u f r t').order = F.order := by
  unfold stepTo Func.copyTarget
  obtain ⟨h1, h2⟩ := Func.setTerm_fix (F.mapPhis r (copyPhis f u)) u t'
  exact ⟨h1.trans (Func.mapPhis_entry _ _ _), h2.trans (Func.mapPhis_order _ _ _)⟩

theorem stepTo_some {u f r x : Nat} {t' : Term C} {X : Block Op C} (hX : F.blk x = some X) : ∃ X', (stepTo F u f r t').blk x = some X' ∧ X'.body = X.body ∧
    X'.phis = (if x = r then X.phis.map (copyPhi f u) else X.phis) ∧ X'.term = if x = u then t' else X.term := by
  rw [stepTo_blk, hX]
  refine ⟨_, rfl, ?_, ?_, ?_⟩ <;> dsimp only <;> split <;> rfl

theorem CombineStep.edge_keep {U : Block Op C} {t' : Term C} (S : CombineStep F u f r U t') {q b : Nat} (e : Edge F q b) (hb : b ≠ f) : Edge (stepTo F u f r t') q b := by
  obtain ⟨Q, hQ, hm⟩ := e
  obtain ⟨Q', hQ', _, _, ht⟩ := stepTo_some (u := u) (f := f) (r := r) (t' := t') hQ
  refine ⟨Q', hQ', ?_⟩
  rw [ht]
  split
  · rename_i h
    subst h
    rw [S.hU] at hQ; cases hQ
    exact (S.keep b hm).resolve_right hb
  · exact hm

theorem CombineStep.redirect {U : Block Op C} {t' : Term C} (S : CombineStep F u f r U t') (W : LiveWf F) : Redirect F (stepTo F u f r t') u f r ⟨[], [], .br r⟩ where
  entry := (stepTo_fix F u f r t').1
  order := (stepTo_fix F u f r t').2
  fr := S.fr
  nob b hb := by rw [stepTo_blk, hb]; rfl
  hf := S.hf
  body := rfl
  euf := ⟨U, S.hU, S.tf⟩
  efr := ⟨_, S.hf, by simp [Term.targets]⟩
  eur := by
    obtain ⟨U', hU', _, _, ht⟩ := stepTo_some (u := u) (f := f) (r := r) (t' := t') S.hU
    exact ⟨U', hU', by rw [ht, if_pos rfl]; exact S.new⟩
  blk b B hB := by
    obtain ⟨B', hB', h1, h2, h3⟩ := stepTo_some (u := u) (f := f) (r := r) (t' := t') hB
    refine ⟨B', hB', h1, ?_, ?_, ?_, ?_⟩
    · rw [h3]
      split
      · rename_i h
        subst h
        rw [S.hU] at hB; cases hB
        exact S.args
      · rfl
    · rw [h2]
      split
      · rw [List.map_map]
        apply List.map_congr_left
        intro p _
        exact copyPhi_id f u p
      · rfl
    · intro hb; rw [h3, if_neg hb]
    · intro t ht
      rw [h3] at ht
      split at ht
      · rename_i h
        subst h
        rw [S.hU] at hB; cases hB
        exact (S.sub t ht).imp id (fun h => ⟨rfl, h⟩)
      · exact .inl ht
  phi b B B' hB hB' hb := by
    obtain ⟨B0, hB0, h1, h2, h3⟩ := stepTo_some (u := u) (f := f) (r := r) (t' := t') hB
    rw [hB'] at hB0; cases hB0
    by_cases hbf : b = f
    · subst hbf
      rw [S.hf] at hB; cases hB
      rw [h2, if_neg S.fr]
      exact .nil
    rw [h2]
    by_cases hbr : b = r
    · rw [if_pos hbr]
      -- a phi: `u` did not jump here
      have key : ∀ p ∈ B.phis, PhiStep F (stepTo F u f r t') u f r b p (copyPhi f u p) := by
        intro p hp
        have hur : ¬ Edge F u b := by
          rintro ⟨U0, hU0, ht⟩
          rw [S.hU] at hU0; cases hU0
          rcases S.ok with h | h
          · exact h (hbr ▸ ht)
          · unfold Func.noPhis at h
            rw [← hbr, hB] at h
            have : B.phis = [] := by simpa using h
            rw [this] at hp; cases hp
        have hnu : ¬ ∃ v, (u, v) ∈ p.inc := fun ⟨v, hv⟩ => hur (W.phiPred b B p hB hb hp u v hv)
        refine ⟨copyPhi_id f u p, ?_, ?_, ?_, fun _ _ => copyPhi_at hnu⟩
        · intro q
          constructor
          · rintro ⟨v, hv⟩
            rcases copyPhi_mem hv with h | ⟨h, h'⟩
            · exact .inl ⟨⟨v, h⟩, S.edge_keep (W.phiPred b B p hB hb hp q v h) hbf⟩
            · exact .inr ⟨h, hbr, v, h'⟩
          · rintro (⟨⟨v, h⟩, _⟩ | ⟨rfl, _, h⟩)
            · exact ⟨v, copyPhi_old h⟩
            · exact copyPhi_new h
        · intro q v hv
          exact (copyPhi_mem hv).imp id (fun h => ⟨h.1, hbr, h.2⟩)
        · intro q e _ _
          refine copyPhi_at_ne ?_ p
          rintro rfl
          exact hur e
      generalize B.phis = ps at key
      induction ps with
      | nil => exact .nil
      | cons p ps ih => exact .cons (key p (by simp)) (ih (fun p hp => key p (List.mem_cons_of_mem _ hp)))
    · rw [if_neg hbr]
      have key : ∀ p ∈ B.phis, PhiStep F (stepTo F u f r t') u f r b p p := by
        intro p hp
        refine ⟨rfl, ?_, fun q v h => .inl h, fun _ _ _ _ => rfl, fun h => absurd h hbr⟩
        intro q
        constructor
        · rintro ⟨v, hv⟩
          exact .inl ⟨⟨v, hv⟩, S.edge_keep (W.phiPred b B p hB hb hp q v hv) hbf⟩
        · rintro (⟨h, _⟩ | ⟨_, h, _⟩)
          · exact h
          · exact absurd h hbr
      generalize B.phis = ps at key
      induction ps with
      | nil => exact .nil
      | cons p ps ih => exact .cons (key p (by simp)) (ih (fun p hp => key p (List.mem_cons_of_mem _ hp)))
  noUse b B x _ hx := by simp at hx

end

section
variable {L : Lang} {F : L.F} {u f r : Nat}

/-- the terminators agree except that one says `f` where the other says `r` -/
def SwapTo (L : Lang) (t t' : Term L.C) (f r : Nat) : Prop := ∀ env : Env L, evalTerm L env t = .ub ∨ evalTerm L env t' = evalTerm L env t ∨ (evalTerm L env t = .goto f ∧ evalTerm L env t' = .goto r)

theorem CombineStep.sound {U : L.B} {t' : Term L.C} (S : CombineStep F u f r U t') (W : LiveWf F) (h : SwapTo L U.term t' f r) :
    Refines L F (stepTo F u f r t') ∧ LiveWf (stepTo F u f r t') := by
  have D := S.redirect W
  refine ⟨D.refines W ?_, D.liveWf W⟩
  intro U0 U' hU0 hU' env
  rw [S.hU] at hU0; cases hU0
  obtain ⟨U1, hU1, _, _, ht⟩ := stepTo_some (u := u) (f := f) (r := r) (t' := t') S.hU
  rw [hU'] at hU1; cases hU1
  rw [ht, if_pos rfl]
  rcases h env with h | h | ⟨h1, h2⟩
  · exact .inl h
  · exact .inr (.inl h)
  · exact .inr (.inr ⟨h1, h2, .inr ⟨env, rfl, .inr rfl⟩⟩)

/-- forward blocks stay forward blocks -/
def Forwards {Op C : Type} (fw : List Nat) (F : Func Op C) : Prop := ∀ x ∈ fw, ∃ r, F.blk x = some ⟨[], [], .br r⟩

theorem foldForward_some {Op C : Type} {F G : Func Op C} {u f r : Nat} {rhs : Option Nat} (h : foldForward F u f rhs = some (G, r)) (hf : ∃ r, F.blk f = some ⟨[], [], .br r⟩) :
    F.blk f = some ⟨[], [], .br r⟩ ∧ f ≠ r ∧ G = F.copyTarget r f u ∧ (rhs = some r → F.noPhis r = true) := by
  obtain ⟨r0, hf⟩ := hf
  unfold foldForward at h
  rw [hf] at h
  dsimp only at h
  split at h
  · cases h
  · rename_i h1
    split at h
    · cases h
    · rename_i h2
      simp only [Option.some.injEq, Prod.mk.injEq] at h
      obtain ⟨h3, rfl⟩ := h
      have h4 : rhs = some r0 → F.noPhis r0 = true := by
        intro hr
        cases hn : F.noPhis r0 with
        | true => rfl
        | false => exact absurd ⟨hr, hn⟩ h2
      refine ⟨hf, h1, ?_, h4⟩
      rw [← h3]
      split
      · rename_i hr; exact (copyTarget_noPhis (h4 hr)).symm
      · rfl

theorem Forwards.step {Op C : Type} {fw : List Nat} {F : Func Op C} (hw : Forwards fw F) {u f r : Nat} {U : Block Op C} {t' : Term C} (hU : F.blk u = some U)
    (ht : u ∈ fw → ∃ r', t' = .br r') : Forwards fw (stepTo F u f r t') := by
  intro x hx
  obtain ⟨r0, h0⟩ := hw x hx
  rw [stepTo_blk, h0]
  by_cases hxu : x = u
  · obtain ⟨r', hr'⟩ := ht (hxu ▸ hx)
    refine ⟨r', ?_⟩
    simp [hxu, hr']
  · refine ⟨r0, ?_⟩
    simp [hxu]

theorem combineAt_sound {fw : List Nat} (W : LiveWf F) (hw : Forwards fw F) (b : Nat) :
    Refines L F (combineAt fw F b) ∧ LiveWf (combineAt fw F b) ∧ Forwards fw (combineAt fw F b) := by
  have triv : Refines L F F ∧ LiveWf F ∧ Forwards fw F := ⟨Refines.refl F, W, hw⟩
  unfold combineAt
  cases hB : F.blk b with
  | none => exact triv
  | some B =>
    dsimp only
    cases ht : B.term with
    | br t =>
      dsimp only
      split
      · rename_i hc
        cases hff : foldForward F b t none with
        | none => exact triv
        | some Gr =>
          obtain ⟨G, r⟩ := Gr
          dsimp only
          obtain ⟨h1, h2, rfl, _⟩ := foldForward_some hff (hw t hc.2)
          have S : CombineStep F b t r B (.br r) := ⟨hB, h1, h2, by rw [ht]; simp [Term.targets], by rw [ht]; rfl, by simp [Term.targets],
            fun x hx => .inr (by simpa [Term.targets] using hx), fun x hx => .inr (by rw [ht] at hx; simpa [Term.targets] using hx),
            .inl (by rw [ht]; simpa [Term.targets] using Ne.symm h2)⟩
          obtain ⟨k1, k2⟩ := S.sound W (fun env => .inr (.inr ⟨by rw [ht]; rfl, rfl⟩))
          exact ⟨k1, k2, hw.step hB (fun _ => ⟨r, rfl⟩)⟩
      · exact triv
    | cbr c t f =>
      dsimp only
      have hnb : b ∉ fw := by
        intro hb
        obtain ⟨r, hr⟩ := hw b hb
        rw [hB] at hr; cases hr; cases ht
      -- the true target
      obtain ⟨F1, t1, hst, r1, W1, w1, ⟨B1, hB1, ht1⟩⟩ : ∃ (F1 : L.F) (t1 : Nat), combineTrue fw F b c t f = (F1, t1) ∧ Refines L F F1 ∧ LiveWf F1 ∧ Forwards fw F1 ∧ ∃ B1, F1.blk b = some B1 ∧ B1.term = .cbr c t1 f := by
        unfold combineTrue
        split
        · rename_i hc
          cases hff : foldForward F b t (some f) with
          | none => exact ⟨F, t, rfl, triv.1, W, hw, B, hB, ht⟩
          | some Gr =>
            obtain ⟨G, r⟩ := Gr
            dsimp only
            obtain ⟨h1, h2, rfl, h3⟩ := foldForward_some hff (hw t hc.2)
            have S : CombineStep F b t r B (.cbr c r f) := by
              refine ⟨hB, h1, h2, by rw [ht]; simp [Term.targets], by rw [ht]; rfl, by simp [Term.targets], ?_, ?_, ?_⟩
              · intro x hx
                rw [ht]
                simp only [Term.targets, List.mem_cons, List.not_mem_nil, or_false] at hx ⊢
                rcases hx with h | h
                · exact .inr h
                · exact .inl (.inr h)
              · intro x hx
                rw [ht] at hx
                simp only [Term.targets, List.mem_cons, List.not_mem_nil, or_false] at hx ⊢
                rcases hx with h | h
                · exact .inr h
                · exact .inl (.inr h)
              · by_cases hfr : f = r
                · exact .inr (h3 (by rw [hfr]))
                · left
                  rw [ht]
                  simp only [Term.targets, List.mem_cons, List.not_mem_nil, or_false, not_or]
                  exact ⟨Ne.symm h2, Ne.symm hfr⟩
            obtain ⟨k1, k2⟩ := S.sound W (fun env => by
              rw [ht]
              simp only [evalTerm]
              split
              · exact .inl rfl
              · exact .inr (.inr ⟨rfl, rfl⟩)
              · exact .inr (.inl rfl))
            obtain ⟨B1, hB1, _, _, hBt⟩ := stepTo_some (u := b) (f := t) (r := r) (t' := .cbr c r f) hB
            exact ⟨_, r, rfl, k1, k2, hw.step hB (fun h => absurd h hnb), B1, hB1, by rw [hBt, if_pos rfl]⟩
        · exact ⟨F, t, rfl, triv.1, W, hw, B, hB, ht⟩
      rw [hst]
      dsimp only
      split
      · rename_i hc
        cases hff : foldForward F1 b f (some t1) with
        | none => exact ⟨r1, W1, w1⟩
        | some Gr =>
          obtain ⟨G, r⟩ := Gr
          dsimp only
          obtain ⟨h1, h2, rfl, h3⟩ := foldForward_some hff (w1 f hc.2)
          have S : CombineStep F1 b f r B1 (.cbr c t1 r) := by
            refine ⟨hB1, h1, h2, by rw [ht1]; simp [Term.targets], by rw [ht1]; rfl, by simp [Term.targets], ?_, ?_, ?_⟩
            · intro x hx
              rw [ht1]
              simp only [Term.targets, List.mem_cons, List.not_mem_nil, or_false] at hx ⊢
              rcases hx with h | h
              · exact .inl (.inl h)
              · exact .inr h
            · intro x hx
              rw [ht1] at hx
              simp only [Term.targets, List.mem_cons, List.not_mem_nil, or_false] at hx ⊢
              rcases hx with h | h
              · exact .inl (.inl h)
              · exact .inr h
            · by_cases hfr : t1 = r
              · exact .inr (h3 (by rw [hfr]))
              · left
                rw [ht1]
                simp only [Term.targets, List.mem_cons, List.not_mem_nil, or_false, not_or]
                exact ⟨Ne.symm hfr, Ne.symm h2⟩
          obtain ⟨k1, k2⟩ := S.sound W1 (fun env => by
            rw [ht1]
            simp only [evalTerm]
            split
            · exact .inl rfl
            · exact .inr (.inl rfl)
            · exact .inr (.inr ⟨rfl, rfl⟩))
          exact ⟨r1.trans k1, k2, w1.step hB1 (fun h => absurd h hnb)⟩
      · exact ⟨r1, W1, w1⟩
    | _ => exact triv

/-- CombineBranch keeps behaviour and SSA form -/
theorem C70_combineBranch (W : LiveWf F) : Refines L F (combineBranch F) ∧ LiveWf (combineBranch F) := by
  have h0 : Forwards (F.order.filter F.isForward) F := by
    intro x hx
    have := (List.mem_filter.1 hx).2
    unfold Func.isForward at this
    cases hB : F.blk x with
    | none => rw [hB] at this; cases this
    | some B =>
      rw [hB] at this
      obtain ⟨ps, is, t⟩ := B
      simp only [Bool.and_eq_true, List.isEmpty_iff] at this
      obtain ⟨⟨rfl, rfl⟩, h⟩ := this
      cases t with
      | br t => exact ⟨t, rfl⟩
      | _ => cases h
  unfold combineBranch
  generalize F.order.filter F.isForward = fw at h0
  generalize F.order = l
  induction l generalizing F with
  | nil => exact ⟨Refines.refl F, W⟩
  | cons b l ih =>
    rw [List.foldl_cons]
    obtain ⟨h1, h2, h3⟩ := combineAt_sound W h0 b
    obtain ⟨h4, h5⟩ := ih h2 h3
    exact ⟨h1.trans h4, h5⟩

end
end Cmmc.SSA
