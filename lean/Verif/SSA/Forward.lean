import Verif.SSA.Combine
/-!
# ForwardBranch (cmmc/Transforms/ControlFlow/ForwardBranch.cpp:31-137): C71

A conditional branch to a block that only branches on the same condition, or on a phi whose value is known when coming from here, goes
straight to where that second branch goes.
-/
namespace Cmmc.SSA

section
variable {Op C : Type}

/-- the number of uses of an instruction (`hasExactlyOneUse`, Value.cpp) -/
def Func.useCount (F : Func Op C) (x : Nat) : Nat := (F.order.flatMap (fun b => match F.blk b with | some B => B.operands | none => [])).count x

/-- the first half of `tryForward` (ForwardBranch.cpp:36-69): where a run that comes from `u` with condition `dir` goes after `f`, and the phi of
`f` if there is one. `cint` gives the truth value of integer constants, `isBool` says which instructions have boolean type. -/
def fwdTarget [DecidableEq C] (cint : C → Option Bool) (isBool : Nat → Bool) (F : Func Op C) (u : Nat) (cond : Opd C) (dir : Bool) (f : Nat) : Option (Nat × Option (Phi C)) :=
  match F.blk f with
  | none => none
  | some T =>
    match T.phis, T.body, T.term with
    | [], [], .cbr c a b => if c = cond then some (if dir then a else b, none) else none
    | [p], [], .cbr c a b =>
      if F.useCount p.id = 1 ∧ isBool p.id = true then
        match p.at u with
        | none => none
        | some v =>
          match (if v = cond then some dir else match v with | .cst k => cint k | .inst _ => none) with
          | none => none
          | some d => if c = .inst p.id then some (if d then a else b, some p) else none
      else none
    | _, _, _ => none

/-- the value of a phi of the new target (ForwardBranch.cpp:81-83, 92-94) -/
def fwdVal [DecidableEq C] (u f : Nat) (ph : Option (Phi C)) (p : Phi C) : Option (Opd C) :=
  match p.at f with
  | none => none
  | some v =>
    match ph with
    | some q => if v = .inst q.id then q.at u else some v
    | none => some v

/-- `phiInst->addIncoming(block, val)` (ForwardBranch.cpp:95) -/
def fwdPhi [DecidableEq C] (u f : Nat) (ph : Option (Phi C)) (p : Phi C) : Phi C := match fwdVal u f ph p with | some v => p.addIncoming u v | none => p

/-- `phi->removeSource(block)` (ForwardBranch.cpp:103-104); the phi is the only one of its block -/
def dropPhi (u f : Nat) (ph : Option (Phi C)) (F : Func Op C) : Func Op C := match ph with | some _ => F.mapPhis f (List.map (fun p => p.removeSource u)) | none => F

/-- whether the target has a phi, and the first one has an entry for `u` (ForwardBranch.cpp:73-76) -/
def frontHas (u : Nat) (ps : List (Phi C)) : Bool := ps.head?.any (fun p => p.has u)

/-- `tryForward` (ForwardBranch.cpp:32-106): the function with phis adapted and the new target; `none` when it returns false -/
def tryForward [DecidableEq C] (cint : C → Option Bool) (isBool : Nat → Bool) (F : Func Op C) (u : Nat) (cond : Opd C) (dir : Bool) (f : Nat) : Option (Func Op C × Nat) :=
  if f = u then none
  else
    match fwdTarget cint isBool F u cond dir f with
    | none => none
    | some (r, ph) =>
      if f = r then none
      else
        match F.blk r with
        | none => none
        | some R =>
          if frontHas u R.phis then
            if R.phis.all (fun p => decide (p.at u = fwdVal u f ph p)) then some (dropPhi u f ph F, r) else none
          else some (dropPhi u f ph (F.mapPhis r (List.map (fwdPhi u f ph))), r)

/-- the true target (ForwardBranch.cpp:121-123): the function and the true target afterwards -/
def forwardTrue [DecidableEq C] (cint : C → Option Bool) (isBool : Nat → Bool) (F : Func Op C) (b : Nat) (c : Opd C) (t f : Nat) : Func Op C × Nat :=
  match tryForward cint isBool F b c true t with
  | some (G, r) => (G.setTerm b (.cbr c r f), r)
  | none => (F, t)

/-- one iteration of the loop over the blocks (ForwardBranch.cpp:112-128). The code is `recheck = false`; with `recheck` the two targets are
compared again before the false target is looked at. -/
def forwardAt [DecidableEq C] (cint : C → Option Bool) (isBool : Nat → Bool) (recheck : Bool) (F : Func Op C) (b : Nat) : Func Op C :=
  match F.blk b with
  | none => F
  | some B =>
    match B.term with
    | .cbr c t f =>
      if t = f then F
      else
        let st := forwardTrue cint isBool F b c t f
        if recheck = true ∧ st.2 = f then st.1
        else
          match tryForward cint isBool st.1 b c false f with
          | some (G, r) => G.setTerm b (.cbr c st.2 r)
          | none => st.1
    | _ => F

/-- `ForwardBranch::run` (ForwardBranch.cpp:109-131) -/
def forwardBranch [DecidableEq C] (cint : C → Option Bool) (isBool : Nat → Bool) (recheck : Bool) (F : Func Op C) : Func Op C := F.order.foldl (forwardAt cint isBool recheck) F

/-! ## the only use -/

theorem count_flatMap_two {g : Nat → List Nat} {x : Nat} : ∀ {l : List Nat}, l.Nodup → ∀ a ∈ l, (g a).count x ≤ (l.flatMap g).count x ∧
    ∀ b ∈ l, a ≠ b → (g a).count x + (g b).count x ≤ (l.flatMap g).count x := by
  intro l
  induction l with
  | nil => intro _ a ha; cases ha
  | cons y l ih =>
    intro hn a ha
    rw [List.flatMap_cons, List.count_append]
    have hn' := (List.nodup_cons.1 hn).2
    refine ⟨?_, ?_⟩
    · rcases List.mem_cons.1 ha with rfl | ha
      · omega
      · have := (ih hn' a ha).1; omega
    · intro b hb hne
      rcases List.mem_cons.1 ha with rfl | ha'
      · rcases List.mem_cons.1 hb with rfl | hb
        · exact absurd rfl hne
        · have := (ih hn' b hb).1; omega
      · rcases List.mem_cons.1 hb with rfl | hb
        · have := (ih hn' a (by assumption)).1; omega
        · have := (ih hn' a (by assumption)).2 b hb hne; omega

theorem oneUse {F : Func Op C} (S : Shape F) {x f : Nat} {T : Block Op C} (hT : F.blk f = some T) (hx : Opd.inst x ∈ T.term.args) (h1 : F.useCount x = 1)
    {b : Nat} {B : Block Op C} (hB : F.blk b = some B) : (∀ p ∈ B.phis, Opd.inst x ∉ p.ops) ∧ (∀ i ∈ B.body, Opd.inst x ∉ i.args) ∧ (b ≠ f → Opd.inst x ∉ B.term.args) := by
  unfold Func.useCount at h1
  have hT1 : 1 ≤ (instIds T.term.args).count x := List.one_le_count_iff.2 (mem_instIds.2 hx)
  have key : ∀ (hn : x ∈ B.operands), b = f := by
    intro hn
    by_contra hne
    have h2 := (count_flatMap_two (g := fun b => match F.blk b with | some B => B.operands | none => []) (x := x) S.nodup f (S.listed f T hT)).2 b (S.listed b B hB) (Ne.symm hne)
    simp only [hT, hB] at h2
    have h3 : 1 ≤ B.operands.count x := List.one_le_count_iff.2 hn
    have h4 : 1 ≤ T.operands.count x := List.one_le_count_iff.2 (mem_operands.2 (.inr (.inr hx)))
    omega
  have self : b = f → (∀ p ∈ B.phis, Opd.inst x ∉ p.ops) ∧ (∀ i ∈ B.body, Opd.inst x ∉ i.args) := by
    rintro rfl
    have hTB : T = B := Option.some.inj (hT.symm.trans hB)
    rw [hTB] at hT1
    have h2 := (count_flatMap_two (g := fun b => match F.blk b with | some B => B.operands | none => []) (x := x) S.nodup b (S.listed b B hB)).1
    simp only [hB] at h2
    rw [h1] at h2
    unfold Block.operands at h2
    rw [List.count_append, List.count_append] at h2
    refine ⟨fun p hp hm => ?_, fun i hi hm => ?_⟩
    · have : 1 ≤ (B.phis.flatMap (fun p => instIds p.ops)).count x := List.one_le_count_iff.2 (List.mem_flatMap.2 ⟨p, hp, mem_instIds.2 hm⟩)
      omega
    · have : 1 ≤ (B.body.flatMap (fun i => instIds i.args)).count x := List.one_le_count_iff.2 (List.mem_flatMap.2 ⟨i, hi, mem_instIds.2 hm⟩)
      omega
  refine ⟨fun p hp hm => ?_, fun i hi hm => ?_, fun hne hm => hne (key (mem_operands.2 (.inr (.inr hm))))⟩
  · exact (self (key (mem_operands.2 (.inl ⟨p, hp, hm⟩)))).1 p hp hm
  · exact (self (key (mem_operands.2 (.inr (.inl ⟨i, hi, hm⟩))))).2 i hi hm

/-! ## one step -/

variable [DecidableEq C] {F : Func Op C} {u f r : Nat}

/-- the function after a step: `add` says whether the phis of the new target were extended -/
def fwdTo (F : Func Op C) (u f r : Nat) (ph : Option (Phi C)) (add : Bool) (t' : Term C) : Func Op C :=
  (dropPhi u f ph (if add then F.mapPhis r (List.map (fwdPhi u f ph)) else F)).setTerm u t'

theorem fwdTo_some {ph : Option (Phi C)} {add : Bool} {t' : Term C} (hfr : f ≠ r) (x : Nat) : ((fwdTo F u f r ph add t').blk x = none ↔ F.blk x = none) ∧
    ∀ X, F.blk x = some X → ∃ X', (fwdTo F u f r ph add t').blk x = some X' ∧ X'.body = X.body ∧
      X'.phis = (if x = r ∧ add = true then X.phis.map (fwdPhi u f ph) else if x = f ∧ ph.isSome then X.phis.map (fun p => p.removeSource u) else X.phis) ∧
      X'.term = if x = u then t' else X.term := by
  have h1 : ∀ G : Func Op C, ∀ x, (dropPhi u f ph G).blk x = (G.blk x).map (fun X => if x = f ∧ ph.isSome then { X with phis := X.phis.map (fun p => p.removeSource u) } else X) := by
    intro G x
    unfold dropPhi
    cases ph with
    | none => simp
    | some q => simp [Func.mapPhis_blk]
  unfold fwdTo
  rw [Func.setTerm_blk, h1]
  have h2 : (if add then F.mapPhis r (List.map (fwdPhi u f ph)) else F).blk x = (F.blk x).map (fun X => if x = r ∧ add = true then { X with phis := X.phis.map (fwdPhi u f ph) } else X) := by
    cases add with
    | false => simp
    | true => simp [Func.mapPhis_blk]
  rw [h2]
  refine ⟨by simp, ?_⟩
  intro X hX
  rw [hX]
  refine ⟨_, rfl, ?_, ?_, ?_⟩
  · split <;> split <;> split <;> rfl
  · by_cases hr : x = r ∧ add = true
    · have hxf : ¬ (x = f ∧ ph.isSome = true) := fun h => hfr (h.1.symm.trans hr.1)
      simp only [if_pos hr, if_neg hxf]
      split <;> rfl
    · simp only [if_neg hr]
      split <;> split <;> rfl
  · by_cases hu : x = u
    · simp only [if_pos hu]
    · simp only [if_neg hu]
      split <;> split <;> rfl

theorem fwdTo_fix {ph : Option (Phi C)} {add : Bool} {t' : Term C} : (fwdTo F u f r ph add t').entry = F.entry ∧ (fwdTo F u f r ph add t').order = F.order := by
  have h1 : ∀ G : Func Op C, (dropPhi u f ph G).entry = G.entry ∧ (dropPhi u f ph G).order = G.order := by
    intro G
    unfold dropPhi
    cases ph with
    | none => exact ⟨rfl, rfl⟩
    | some q => exact ⟨Func.mapPhis_entry _ _ _, Func.mapPhis_order _ _ _⟩
  have h2 : (if add then F.mapPhis r (List.map (fwdPhi u f ph)) else F).entry = F.entry ∧ (if add then F.mapPhis r (List.map (fwdPhi u f ph)) else F).order = F.order := by
    cases add with
    | false => exact ⟨rfl, rfl⟩
    | true => exact ⟨Func.mapPhis_entry _ _ _, Func.mapPhis_order _ _ _⟩
  unfold fwdTo
  exact ⟨((Func.setTerm_fix _ _ _).1.trans (h1 _).1).trans h2.1, ((Func.setTerm_fix _ _ _).2.trans (h1 _).2).trans h2.2⟩

/-- what one step requires; `tgt` are the old and new targets -/
structure ForwardStep (F : Func Op C) (u f r : Nat) (U T : Block Op C) (ph : Option (Phi C)) (add : Bool) (t' : Term C) : Prop where
  hU : F.blk u = some U
  hT : F.blk f = some T
  fr : f ≠ r
  body : T.body = []
  phis : T.phis = ph.toList
  tfr : r ∈ T.term.targets
  tf : f ∈ U.term.targets
  args : t'.args = U.term.args
  new : r ∈ t'.targets
  nof : f ∉ t'.targets
  sub : ∀ t ∈ t'.targets, t ∈ U.term.targets ∨ t = r
  keep : ∀ t ∈ U.term.targets, t ∈ t'.targets ∨ t = f
  use : ∀ q, ph = some q → F.useCount q.id = 1 ∧ Opd.inst q.id ∈ T.term.args
  ok : ∀ R, F.blk r = some R → if add then (∀ p, R.phis.head? = some p → p.has u = false) else ∀ p ∈ R.phis, p.at u = fwdVal u f ph p

theorem ForwardStep.edge_keep {U T : Block Op C} {ph : Option (Phi C)} {add : Bool} {t' : Term C} (S : ForwardStep F u f r U T ph add t') {q b : Nat} (e : Edge F q b) (hb : b ≠ f ∨ q ≠ u) :
    Edge (fwdTo F u f r ph add t') q b := by
  obtain ⟨Q, hQ, hm⟩ := e
  obtain ⟨Q', hQ', _, _, ht⟩ := (fwdTo_some (F := F) (u := u) (ph := ph) (add := add) (t' := t') S.fr q).2 Q hQ
  refine ⟨Q', hQ', ?_⟩
  rw [ht]
  split
  · rename_i h
    subst h
    rw [S.hU] at hQ; cases hQ
    exact (S.keep b hm).resolve_right (hb.resolve_right (fun h => h rfl))
  · exact hm

theorem ForwardStep.edge_gone {U T : Block Op C} {ph : Option (Phi C)} {add : Bool} {t' : Term C} (S : ForwardStep F u f r U T ph add t') : ¬ Edge (fwdTo F u f r ph add t') u f := by
  rintro ⟨Q, hQ, hm⟩
  obtain ⟨Q', hQ', _, _, ht⟩ := (fwdTo_some (F := F) (u := u) (ph := ph) (add := add) (t' := t') S.fr u).2 U S.hU
  rw [hQ] at hQ'; cases hQ'
  rw [ht, if_pos rfl] at hm
  exact S.nof hm

theorem fwdVal_eq {ph : Option (Phi C)} {p : Phi C} (h : ∀ q, ph = some q → Opd.inst q.id ∉ p.ops) : fwdVal u f ph p = p.at f := by
  unfold fwdVal
  cases ha : p.at f with
  | none => rfl
  | some v =>
    cases ph with
    | none => rfl
    | some q =>
      dsimp only
      rw [if_neg]
      rintro rfl
      exact h q rfl (mem_ops.2 ⟨f, Phi.at_mem ha⟩)

theorem Phi.mem_removeSource {p : Phi C} {s q : Nat} {v : Opd C} : (q, v) ∈ (p.removeSource s).inc ↔ (q, v) ∈ p.inc ∧ q ≠ s := by
  unfold Phi.removeSource
  simp [List.mem_filter]

theorem forall₂_map_self {α : Type} {R : α → α → Prop} {g : α → α} : ∀ {l : List α}, (∀ x ∈ l, R x (g x)) → List.Forall₂ R l (l.map g) := by
  intro l
  induction l with
  | nil => intro _; exact .nil
  | cons x l ih => intro h; exact .cons (h x (by simp)) (ih (fun y hy => h y (List.mem_cons_of_mem _ hy)))

theorem ForwardStep.redirect {U T : Block Op C} {ph : Option (Phi C)} {add : Bool} {t' : Term C} (S : ForwardStep F u f r U T ph add t') (W : LiveWf F) :
    Redirect F (fwdTo F u f r ph add t') u f r T where
  entry := fwdTo_fix.1
  order := fwdTo_fix.2
  fr := S.fr
  nob b hb := (fwdTo_some S.fr b).1.2 hb
  hf := S.hT
  body := S.body
  euf := ⟨U, S.hU, S.tf⟩
  efr := ⟨T, S.hT, S.tfr⟩
  eur := by
    obtain ⟨U', hU', _, _, ht⟩ := (fwdTo_some (F := F) (u := u) (ph := ph) (add := add) (t' := t') S.fr u).2 U S.hU
    exact ⟨U', hU', by rw [ht, if_pos rfl]; exact S.new⟩
  blk b B hB := by
    obtain ⟨B', hB', h1, h2, h3⟩ := (fwdTo_some (F := F) (u := u) (ph := ph) (add := add) (t' := t') S.fr b).2 B hB
    refine ⟨B', hB', h1, ?_, ?_, ?_, ?_⟩
    · rw [h3]
      split
      · rename_i h
        subst h
        rw [S.hU] at hB; cases hB
        exact S.args
      · rfl
    · rw [h2]
      split
      · rw [List.map_map]
        apply List.map_congr_left
        intro p _
        simp only [Function.comp, fwdPhi]
        split <;> rfl
      · split
        · rw [List.map_map]; rfl
        · rfl
    · intro hb; rw [h3, if_neg hb]
    · intro t ht
      rw [h3] at ht
      split at ht
      · rename_i h
        subst h
        rw [S.hU] at hB; cases hB
        exact (S.sub t ht).imp id (fun h => ⟨rfl, h⟩)
      · exact .inl ht
  phi b B B' hB hB' hb := by
    obtain ⟨B0, hB0, h1, h2, h3⟩ := (fwdTo_some (F := F) (u := u) (ph := ph) (add := add) (t' := t') S.fr b).2 B hB
    rw [hB'] at hB0; cases hB0
    rw [h2]
    have hval : ∀ p ∈ B.phis, fwdVal u f ph p = p.at f := by
      intro p hp
      refine fwdVal_eq (fun q hq => ?_)
      obtain ⟨k1, k2⟩ := S.use q hq
      exact (oneUse W.toShape S.hT k2 k1 hB).1 p hp
    by_cases hbf : b = f
    · have hbr : ¬ (b = r ∧ add = true) := fun h => S.fr (hbf ▸ h.1)
      rw [if_neg hbr]
      cases ph with
      | none =>
        have hp0 : B.phis = [] := by
          rw [hbf, S.hT] at hB; cases hB
          exact S.phis
        rw [if_neg (by simp), hp0]
        exact .nil
      | some p0 =>
        rw [if_pos ⟨hbf, rfl⟩]
        refine forall₂_map_self (fun p hp => ⟨rfl, ?_, ?_, ?_, ?_⟩)
        · intro q
          constructor
          · rintro ⟨v, hv⟩
            obtain ⟨k1, k2⟩ := Phi.mem_removeSource.1 hv
            exact .inl ⟨⟨v, k1⟩, S.edge_keep (W.phiPred b B p hB hb hp q v k1) (.inr k2)⟩
          · rintro (⟨⟨v, k1⟩, e⟩ | ⟨_, h, _⟩)
            · refine ⟨v, Phi.mem_removeSource.2 ⟨k1, ?_⟩⟩
              rintro rfl
              exact S.edge_gone (hbf ▸ e)
            · exact absurd (hbf.symm.trans h) S.fr
        · intro q v hv
          exact .inl (Phi.mem_removeSource.1 hv).1
        · intro q _ e _
          refine Phi.at_removeSource ?_
          rintro rfl
          exact S.edge_gone (hbf ▸ e)
        · intro h; exact absurd (hbf.symm.trans h) S.fr
    · rw [if_neg (c := b = f ∧ _) (fun h => hbf h.1)]
      by_cases hbr : b = r
      · have hok := S.ok B (hbr ▸ hB)
        cases add with
        | true =>
          rw [if_pos ⟨hbr, rfl⟩]
          simp only [if_true] at hok
          refine forall₂_map_self (fun p hp => ?_)
          have hnu : ¬ ∃ v, (u, v) ∈ p.inc := by
            rintro ⟨v, hv⟩
            cases hps : B.phis with
            | nil => rw [hps] at hp; cases hp
            | cons p0 ps =>
              have hno := hok p0 (by rw [hps]; rfl)
              obtain ⟨v', hv'⟩ := W.phiDead b B p p0 u v hB hb hp (by rw [hps]; simp) hv
              rw [Phi.has_iff.2 ⟨v', hv'⟩] at hno
              cases hno
          have hcp : fwdPhi u f ph p = copyPhi f u p := by unfold fwdPhi copyPhi; rw [hval p hp]; cases p.at f <;> rfl
          rw [hcp]
          refine ⟨copyPhi_id f u p, ?_, ?_, ?_, fun _ _ => copyPhi_at hnu⟩
          · intro q
            constructor
            · rintro ⟨v, hv⟩
              rcases copyPhi_mem hv with h | ⟨h, h'⟩
              · exact .inl ⟨⟨v, h⟩, S.edge_keep (W.phiPred b B p hB hb hp q v h) (.inl hbf)⟩
              · exact .inr ⟨h, hbr, v, h'⟩
            · rintro (⟨⟨v, h⟩, _⟩ | ⟨rfl, _, h⟩)
              · exact ⟨v, copyPhi_old h⟩
              · exact copyPhi_new h
          · intro q v hv
            exact (copyPhi_mem hv).imp id (fun h => ⟨h.1, hbr, h.2⟩)
          · intro q e _ hq
            refine copyPhi_at_ne ?_ p
            rintro rfl
            exact hnu (W.phiAll b B p q hB hb hp e hq)
        | false =>
          rw [if_neg (by simp)]
          simp only [Bool.false_eq_true, if_false] at hok
          rw [← List.map_id' B.phis]
          rw [List.map_id' B.phis]
          have : B.phis = B.phis.map (fun p => p) := (List.map_id' _).symm
          conv => rhs; rw [this]
          refine forall₂_map_self (fun p hp => ?_)
          have hpv : p.at u = p.at f := (hok p hp).trans (hval p hp)
          refine ⟨rfl, ?_, fun q v h => .inl h, fun _ _ _ _ => rfl, fun _ _ => hpv⟩
          intro q
          constructor
          · rintro ⟨v, hv⟩
            exact .inl ⟨⟨v, hv⟩, S.edge_keep (W.phiPred b B p hB hb hp q v hv) (.inl hbf)⟩
          · rintro (⟨h, _⟩ | ⟨rfl, _, h⟩)
            · exact h
            · obtain ⟨v, hv⟩ := Phi.at_ex h
              exact ⟨v, Phi.at_mem (hpv.trans hv)⟩
      · rw [if_neg (fun h => hbr h.1)]
        have : B.phis = B.phis.map (fun p => p) := (List.map_id' _).symm
        conv => rhs; rw [this]
        refine forall₂_map_self (fun p hp => ⟨rfl, ?_, fun q v h => .inl h, fun _ _ _ _ => rfl, fun h => absurd h hbr⟩)
        intro q
        constructor
        · rintro ⟨v, hv⟩
          exact .inl ⟨⟨v, hv⟩, S.edge_keep (W.phiPred b B p hB hb hp q v hv) (.inl hbf)⟩
        · rintro (⟨h, _⟩ | ⟨_, h, _⟩)
          · exact h
          · exact absurd h hbr
  noUse b B x hB hx := by
    rw [S.phis] at hx
    cases ph with
    | none => simp at hx
    | some q =>
      simp only [Option.toList_some, List.map_cons, List.map_nil, List.mem_singleton] at hx
      subst hx
      obtain ⟨k1, k2⟩ := S.use q rfl
      exact oneUse W.toShape S.hT k2 k1 hB

/-- what `tryForward` has checked when it succeeds -/
theorem tryForward_some {cint : C → Option Bool} {isBool : Nat → Bool} {cond : Opd C} {dir : Bool} {G : Func Op C} (h : tryForward cint isBool F u cond dir f = some (G, r)) :
    f ≠ u ∧ f ≠ r ∧ ∃ T ph add, F.blk f = some T ∧ T.body = [] ∧ T.phis = ph.toList ∧ fwdTarget cint isBool F u cond dir f = some (r, ph) ∧ (∃ R, F.blk r = some R) ∧
      (∀ t', G.setTerm u t' = fwdTo F u f r ph add t') ∧
      (∀ R, F.blk r = some R → if add then (∀ p, R.phis.head? = some p → p.has u = false) else ∀ p ∈ R.phis, p.at u = fwdVal u f ph p) := by
  unfold tryForward at h
  split at h
  · cases h
  · rename_i hfu
    cases hw : fwdTarget cint isBool F u cond dir f with
    | none => rw [hw] at h; cases h
    | some rp =>
      obtain ⟨r0, ph⟩ := rp
      rw [hw] at h
      dsimp only at h
      split at h
      · cases h
      · rename_i hfr
        have hT : ∃ T, F.blk f = some T ∧ T.body = [] ∧ T.phis = ph.toList := by
          unfold fwdTarget at hw
          split at hw
          · cases hw
          · rename_i T hT
            refine ⟨T, hT, ?_⟩
            obtain ⟨ps, is, t⟩ := T
            dsimp only at hw ⊢
            split at hw
            · split at hw
              · cases hw; exact ⟨rfl, rfl⟩
              · cases hw
            · split at hw
              · split at hw
                · cases hw
                · split at hw
                  · cases hw
                  · split at hw
                    · cases hw; exact ⟨rfl, rfl⟩
                    · cases hw
              · cases hw
            · cases hw
        obtain ⟨T, hT, hb, hp⟩ := hT
        cases hR : F.blk r0 with
        | none => rw [hR] at h; cases h
        | some R =>
          rw [hR] at h
          dsimp only at h
          split at h
          · split at h
            · rename_i hall
              simp only [Option.some.injEq, Prod.mk.injEq] at h
              obtain ⟨rfl, rfl⟩ := h
              refine ⟨hfu, hfr, T, ph, false, hT, hb, hp, rfl, ⟨R, hR⟩, fun t' => rfl, ?_⟩
              intro R0 hR0
              rw [hR] at hR0; cases hR0
              simp only [Bool.false_eq_true, if_false]
              intro p hp
              exact of_decide_eq_true (List.all_eq_true.1 hall p hp)
            · cases h
          · rename_i hn
            simp only [Option.some.injEq, Prod.mk.injEq] at h
            obtain ⟨rfl, rfl⟩ := h
            refine ⟨hfu, hfr, T, ph, true, hT, hb, hp, rfl, ⟨R, hR⟩, fun t' => rfl, ?_⟩
            intro R0 hR0
            rw [hR] at hR0; cases hR0
            simp only [if_true]
            intro p hp
            unfold frontHas at hn
            rw [hp] at hn
            simpa using hn

theorem fwdTarget_some {cint : C → Option Bool} {isBool : Nat → Bool} {cond : Opd C} {dir : Bool} {ph : Option (Phi C)} {T : Block Op C} (hT : F.blk f = some T)
    (h : fwdTarget cint isBool F u cond dir f = some (r, ph)) :
    (ph = none ∧ ∃ a b, T = ⟨[], [], .cbr cond a b⟩ ∧ r = if dir then a else b) ∨
    ∃ p a b v d, ph = some p ∧ T = ⟨[p], [], .cbr (.inst p.id) a b⟩ ∧ F.useCount p.id = 1 ∧ p.at u = some v ∧ (r = if d then a else b) ∧
      ((v = cond ∧ d = dir) ∨ ∃ k, v = .cst k ∧ cint k = some d) := by
  unfold fwdTarget at h
  rw [hT] at h
  obtain ⟨ps, is, t⟩ := T
  dsimp only at h
  split at h
  · rename_i c a b
    split at h
    · rename_i hc
      subst hc
      cases h
      exact .inl ⟨rfl, a, b, rfl, rfl⟩
    · cases h
  · rename_i p c a b
    split at h
    · rename_i hu
      cases hv : p.at u with
      | none => rw [hv] at h; cases h
      | some v =>
        rw [hv] at h
        dsimp only at h
        split at h
        · cases h
        · rename_i d hd
          split at h
          · rename_i hc
            subst hc
            cases h
            refine .inr ⟨p, a, b, v, d, rfl, rfl, hu.1, hv, rfl, ?_⟩
            split at hd
            · rename_i hvc
              cases hd
              exact .inl ⟨hvc, rfl⟩
            · cases v with
              | inst i => cases hd
              | cst k => exact .inr ⟨k, rfl, hd⟩
          · cases h
    · cases h
  · cases h

end

section
variable {L : Lang} {F : L.F} {u f r : Nat} {cint : L.C → Option Bool} {isBool : Nat → Bool}

/-- the truth value the pass computes for integer constants is that of the language -/
def TruthOk (L : Lang) (cint : L.C → Option Bool) : Prop := ∀ k d, cint k = some d → L.truth (L.cval k) = some d

theorem jumpsOver {T : L.B} (hc : TruthOk L cint) {cond : Opd L.C} {dir : Bool} {ph : Option (Phi L.C)} (hT : F.blk f = some T)
    (h : fwdTarget cint isBool F u cond dir f = some (r, ph)) {U U' : L.B}
    (hev : ∀ env : Env L, evalTerm L env U.term = .ub ∨ evalTerm L env U'.term = evalTerm L env U.term ∨
      (evalTerm L env U.term = .goto f ∧ evalTerm L env U'.term = .goto r ∧ (eval L env cond).bind L.truth = some dir)) : JumpsOver L U U' T u f r := by
  intro env
  rcases hev env with h1 | h1 | ⟨h1, h2, h3⟩
  · exact .inl h1
  · exact .inr (.inl h1)
  · refine .inr (.inr ⟨h1, h2, ?_⟩)
    rcases fwdTarget_some hT h with ⟨_, a, b, rfl, hr⟩ | ⟨p, a, b, v, d, _, rfl, _, hv, hr, hd⟩
    · refine .inr ⟨env, rfl, .inr ?_⟩
      simp only [evalTerm, h3]
      cases dir <;> simp [hr]
    · simp only [enterPhis, phiVal, hv]
      cases he : eval L env v with
      | none => exact .inl rfl
      | some w =>
        refine .inr ⟨_, rfl, .inr ?_⟩
        have hw : L.truth w = some d := by
          rcases hd with ⟨rfl, rfl⟩ | ⟨k, rfl, hk⟩
          · rw [he] at h3; exact h3
          · simp only [eval, Option.some.injEq] at he
            rw [← he]; exact hc k d hk
        have : eval L (setEnv L env p.id w) (.inst p.id) = some w := by simp [eval, setEnv]
        simp only [evalTerm, this, Option.bind_some, hw]
        cases d <;> simp [hr]

/-- one forwarded target keeps behaviour and SSA form -/
theorem tryForward_sound (hc : TruthOk L cint) (W : LiveWf F) {cond : Opd L.C} {dir : Bool} {G : L.F} (h : tryForward cint isBool F u cond dir f = some (G, r)) {U : L.B} (hU : F.blk u = some U)
    {t t' : Nat} (hterm : U.term = .cbr cond t t') (hdir : f = if dir then t else t') (hne : t ≠ t') :
    Refines L F (G.setTerm u (if dir then .cbr cond r t' else .cbr cond t r)) ∧ LiveWf (G.setTerm u (if dir then .cbr cond r t' else .cbr cond t r)) ∧
      ∃ U', (G.setTerm u (if dir then .cbr cond r t' else .cbr cond t r)).blk u = some U' ∧ U'.term = (if dir then .cbr cond r t' else .cbr cond t r) := by
  obtain ⟨h1, h2, T, ph, add, hT, hb, hp, hw, _, hG, hok⟩ := tryForward_some h
  rw [hG]
  have hfw := fwdTarget_some hT hw
  have S : ForwardStep F u f r U T ph add (if dir then .cbr cond r t' else .cbr cond t r) := by
    refine ⟨hU, hT, h2, hb, hp, ?_, ?_, ?_, ?_, ?_, ?_, ?_, ?_, hok⟩
    · rcases hfw with ⟨_, a, b, rfl, hr⟩ | ⟨p, a, b, v, d, _, rfl, _, _, hr, _⟩
      · rw [hr]; cases dir <;> simp [Term.targets]
      · rw [hr]; cases d <;> simp [Term.targets]
    · rw [hterm, hdir]; cases dir <;> simp [Term.targets]
    · rw [hterm]; cases dir <;> rfl
    · cases dir <;> simp [Term.targets]
    · cases dir
      · simp only [Bool.false_eq_true, if_false] at hdir ⊢
        subst hdir
        simp [Term.targets, Ne.symm hne, h2]
      · simp only [if_true] at hdir ⊢
        subst hdir
        simp [Term.targets, hne, h2]
    · intro x hx
      rw [hterm]
      cases dir <;> simp [Term.targets] at hx ⊢ <;> tauto
    · intro x hx
      rw [hterm] at hx
      cases dir
      · simp only [Bool.false_eq_true, if_false] at hdir ⊢
        subst hdir
        simp [Term.targets] at hx ⊢; tauto
      · simp only [if_true] at hdir ⊢
        subst hdir
        simp [Term.targets] at hx ⊢; tauto
    · intro q hq
      rcases hfw with ⟨h, _⟩ | ⟨p, a, b, v, d, h, rfl, hu, _⟩
      · rw [h] at hq; cases hq
      · rw [h] at hq; cases hq
        exact ⟨hu, by simp [Term.args]⟩
  have D := S.redirect W
  obtain ⟨U', hU', _, _, ht⟩ := (fwdTo_some (F := F) (u := u) (ph := ph) (add := add) (t' := if dir then .cbr cond r t' else .cbr cond t r) h2 u).2 U hU
  rw [if_pos rfl] at ht
  refine ⟨D.refines W ?_, D.liveWf W, U', hU', ht⟩
  intro U0 U1 hU0 hU1
  rw [hU] at hU0; cases hU0
  rw [hU'] at hU1; cases hU1
  refine jumpsOver hc hT hw (fun env => ?_)
  rw [hterm, ht]
  cases dir
  · simp only [Bool.false_eq_true, if_false] at hdir ⊢
    subst hdir
    simp only [evalTerm]
    split
    · exact .inl rfl
    · exact .inr (.inl rfl)
    · rename_i e
      exact .inr (.inr ⟨rfl, rfl, e⟩)
  · simp only [if_true] at hdir ⊢
    subst hdir
    simp only [evalTerm]
    split
    · exact .inl rfl
    · rename_i e
      exact .inr (.inr ⟨rfl, rfl, e⟩)
    · exact .inr (.inl rfl)

theorem forwardAt_sound (hc : TruthOk L cint) (W : LiveWf F) (b : Nat) : Refines L F (forwardAt cint isBool true F b) ∧ LiveWf (forwardAt cint isBool true F b) := by
  have triv : Refines L F F ∧ LiveWf F := ⟨Refines.refl F, W⟩
  unfold forwardAt
  cases hB : F.blk b with
  | none => exact triv
  | some B =>
    dsimp only
    cases ht : B.term with
    | cbr c t f =>
      dsimp only
      split
      · exact triv
      · rename_i hne
        obtain ⟨F1, t1, hst, r1, W1, B1, hB1, ht1⟩ : ∃ (F1 : L.F) (t1 : Nat), forwardTrue cint isBool F b c t f = (F1, t1) ∧ Refines L F F1 ∧ LiveWf F1 ∧
            ∃ B1, F1.blk b = some B1 ∧ B1.term = .cbr c t1 f := by
          unfold forwardTrue
          cases hff : tryForward cint isBool F b c true t with
          | none => exact ⟨F, t, rfl, triv.1, W, B, hB, ht⟩
          | some Gr =>
            obtain ⟨G, r⟩ := Gr
            obtain ⟨k1, k2, U', k3, k4⟩ := tryForward_sound hc W hff hB ht rfl hne
            exact ⟨_, r, rfl, k1, k2, U', k3, k4⟩
        rw [hst]
        dsimp only
        split
        · exact ⟨r1, W1⟩
        · rename_i hrc
          have hne1 : t1 ≠ f := fun h => hrc ⟨rfl, h⟩
          cases hff : tryForward cint isBool F1 b c false f with
          | none => exact ⟨r1, W1⟩
          | some Gr =>
            obtain ⟨G, r⟩ := Gr
            obtain ⟨k1, k2, _⟩ := tryForward_sound hc W1 hff hB1 ht1 rfl hne1
            exact ⟨r1.trans k1, k2⟩
    | _ => exact triv

/-- ForwardBranch keeps behaviour and SSA form provided that it compares the two targets again after the first has been forwarded
(the code does not: `C71_forwardBranch_wrong`) -/
theorem C71_forwardBranch_partial (hc : TruthOk L cint) (W : LiveWf F) : Refines L F (forwardBranch cint isBool true F) ∧ LiveWf (forwardBranch cint isBool true F) := by
  unfold forwardBranch
  generalize F.order = l
  induction l generalizing F with
  | nil => exact ⟨Refines.refl F, W⟩
  | cons b l ih =>
    rw [List.foldl_cons]
    obtain ⟨h1, h2⟩ := forwardAt_sound (isBool := isBool) hc W b
    obtain ⟨h4, h5⟩ := ih h2
    exact ⟨h1.trans h4, h5⟩

end
end Cmmc.SSA
