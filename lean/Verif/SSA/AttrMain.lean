import Verif.SSA.Attr
import Verif.SSA.ToSelectRun
import Verif.SSA.Cse
/-!
# C86: the attributes that FunctionAttrInfer gives to functions are true
-/
namespace Cmmc.SSA

/-! ## tags -/
section
variable {Op C : Type} {callee : Op → Option Nat} {kind : Op → OpKind} {F : Func Op C}

/-- every tag has a reason -/
def TagJust (callee : Op → Option Nat) (kind : Op → OpKind) (F : Func Op C) (T : List Nat) : Prop :=
  ∀ x ∈ T, (∃ b B i, F.blk b = some B ∧ i ∈ B.body ∧ i.id = x ∧ tagInst callee kind T i = true) ∨
    ∃ b B p, F.blk b = some B ∧ p ∈ B.phis ∧ p.id = x ∧ tagPhi T p = true

theorem TagJust.grow {T T' : List Nat} (hsub : ∀ x ∈ T, x ∈ T') (h : TagJust callee kind F T)
    (hn : ∀ x ∈ T', x ∉ T → (∃ b B i, F.blk b = some B ∧ i ∈ B.body ∧ i.id = x ∧ tagInst callee kind T i = true) ∨
      ∃ b B p, F.blk b = some B ∧ p ∈ B.phis ∧ p.id = x ∧ tagPhi T p = true) : TagJust callee kind F T' := by
  intro x hx
  have h1 : (∃ b B i, F.blk b = some B ∧ i ∈ B.body ∧ i.id = x ∧ tagInst callee kind T i = true) ∨
      ∃ b B p, F.blk b = some B ∧ p ∈ B.phis ∧ p.id = x ∧ tagPhi T p = true := by
    by_cases hT : x ∈ T
    · exact h x hT
    · exact hn x hx hT
  rcases h1 with ⟨b, B, i, h1, h2, h3, h4⟩ | ⟨b, B, p, h1, h2, h3, h4⟩
  · exact .inl ⟨b, B, i, h1, h2, h3, tagInst_mono hsub h4⟩
  · exact .inr ⟨b, B, p, h1, h2, h3, tagPhi_mono hsub h4⟩

theorem TagJust.block {b : Nat} {B : Block Op C} (hB : F.blk b = some B) {T : List Nat} (h : TagJust callee kind F T) : TagJust callee kind F (tagBlock callee kind T B) := by
  have hphis : ∀ (ps : List (Phi C)), (∀ p ∈ ps, p ∈ B.phis) → ∀ T, TagJust callee kind F T → TagJust callee kind F (ps.foldl (fun T p => if tagPhi T p then p.id :: T else T) T) := by
    intro ps
    induction ps with
    | nil => intro _ T h; exact h
    | cons p ps ih =>
      intro hp T h
      simp only [List.foldl_cons]
      refine ih (fun q hq => hp q (by simp [hq])) _ ?_
      by_cases ht : tagPhi T p = true
      · rw [if_pos ht]
        refine h.grow (fun x hx => by simp [hx]) ?_
        intro x hx hxT
        have : p.id = x := by
          rcases List.mem_cons.1 hx with h | h
          · exact h.symm
          · exact absurd h hxT
        exact .inr ⟨b, B, p, hB, hp p (by simp), this, ht⟩
      · rw [if_neg ht]; exact h
  have hbody : ∀ (is : List (Inst Op C)), (∀ i ∈ is, i ∈ B.body) → ∀ T, TagJust callee kind F T → TagJust callee kind F (is.foldl (fun T i => if tagInst callee kind T i then i.id :: T else T) T) := by
    intro is
    induction is with
    | nil => intro _ T h; exact h
    | cons p ps ih =>
      intro hp T h
      simp only [List.foldl_cons]
      refine ih (fun q hq => hp q (by simp [hq])) _ ?_
      by_cases ht : tagInst callee kind T p = true
      · rw [if_pos ht]
        refine h.grow (fun x hx => by simp [hx]) ?_
        intro x hx hxT
        have : p.id = x := by
          rcases List.mem_cons.1 hx with h | h
          · exact h.symm
          · exact absurd h hxT
        exact .inl ⟨b, B, p, hB, hp p (by simp), this, ht⟩
      · rw [if_neg ht]; exact h
  exact hbody _ (fun _ h => h) _ (hphis _ (fun _ h => h) _ h)

theorem tagRounds_just (ord : List Nat) : ∀ (n : Nat) (T : List Nat), TagJust callee kind F T → TagJust callee kind F (tagRounds callee kind ord F n T) := by
  intro n
  induction n with
  | zero => intro T h; exact h
  | succ n ih =>
    intro T h
    refine ih _ ?_
    have : ∀ (bs : List Nat) (T : List Nat), TagJust callee kind F T → TagJust callee kind F (bs.foldl (fun T b => match F.blk b with | some B => tagBlock callee kind T B | none => T) T) := by
      intro bs
      induction bs with
      | nil => intro T h; exact h
      | cons b bs ih =>
        intro T h
        simp only [List.foldl_cons]
        refine ih _ ?_
        cases hB : F.blk b with
        | none => exact h
        | some B => exact h.block hB
    exact this ord T h

theorem Shape.phi_unique {F : Func Op C} (S : Shape F) {x y : Nat} {X Y : Block Op C} (hX : F.blk x = some X) (hY : F.blk y = some Y) {i j : Phi C} (hi : i ∈ X.phis) (hj : j ∈ Y.phis) (h : i.id = j.id) : i = j := by
  obtain rfl := defIn_unique S.listed S.unique (i := i.id) ⟨X, hX, List.mem_append_left _ (List.mem_map_of_mem hi)⟩ ⟨Y, hY, List.mem_append_left _ (h ▸ List.mem_map_of_mem hj)⟩
  obtain rfl := Option.some.inj (hX.symm.trans hY)
  have hn := S.ids_nodup hX
  unfold Block.ids at hn
  exact List.inj_on_of_nodup_map (List.nodup_append.1 hn).1 hi hj h

theorem TagJust.ok (S : Shape F) {T : List Nat} (h : TagJust callee kind F T) : TagsOk callee kind F T := by
  constructor
  · intro b B i hB hi hT
    rcases h _ hT with ⟨b', B', i', h1, h2, h3, h4⟩ | ⟨b', B', p, h1, h2, h3, h4⟩
    · rw [← S.inst_unique h1 hB h2 hi h3]; exact h4
    · exact absurd h3 (S.phi_inst h1 hB h2 hi)
  · intro b B i hB hi hT
    rcases h _ hT with ⟨b', B', i', h1, h2, h3, h4⟩ | ⟨b', B', p, h1, h2, h3, h4⟩
    · exact absurd h3.symm (S.phi_inst hB h1 hi h2)
    · rw [← S.phi_unique h1 hB h2 hi h3]; exact h4

theorem tagRounds_ok (S : Shape F) (ord : List Nat) (n : Nat) : TagsOk callee kind F (tagRounds callee kind ord F n []) :=
  (tagRounds_just ord n [] (fun x hx => by cases hx)).ok S

theorem anyInst_false {q : Inst Op C → Bool} (hl : F.Listed) (h : F.anyInst q = false) {b : Nat} {B : Block Op C} (hB : F.blk b = some B) {i : Inst Op C} (hi : i ∈ B.body) : q i = false := by
  unfold Func.anyInst at h
  rw [List.any_eq_false] at h
  have := h B (hl.mem hB)
  rw [Bool.not_eq_true, List.any_eq_false] at this
  simpa using this i hi

end

/-! ## addresses along a run -/
section
variable {L : Lang} {V : Frames L} {kind : L.Op → OpKind} (S : Spaces L V kind) {P : Nat → Option L.F} {F : L.F}

/-- tagged values are addresses in the frame -/
def TagInv (T : List Nat) (fr : S.Fr) (e : Nat → Option L.V) : Prop := ∀ x ∈ T, ∀ v, e x = some v → S.Stack fr v

variable {S}

theorem TagInv.opd {T : List Nat} {fr : S.Fr} {call : CallSem L} {vs : List L.V} {e : Env (V.lang call vs)} (h : TagInv S T fr e) {o : Opd L.C} (ho : tagOpd T o = true) {v : L.V} (hv : eval (V.lang call vs) e o = some v) : S.Stack fr v := by
  cases o with
  | cst c => cases ho
  | inst x =>
    simp only [tagOpd, List.contains_eq_mem, decide_eq_true_eq] at ho
    exact h x ho v hv

theorem TagInv.phis {T : List Nat} {fr : S.Fr} {call : CallSem L} {vs : List L.V} (Sh : Shape F) (hT : TagsOk V.callee kind F T) {b : Nat} {B : Block L.Op L.C} (hB : F.blk b = some B) {q : Option Nat} {e e' : Env (V.lang call vs)}
    (h : TagInv S T fr e) (hp : enterPhis (V.lang call vs) q e B.phis e = some e') : TagInv S T fr e' := by
  intro x hx v hv
  by_cases hm : x ∈ B.phis.map Phi.id
  · obtain ⟨p, hpm, rfl⟩ := List.mem_map.1 hm
    have hn := Sh.ids_nodup hB
    unfold Block.ids at hn
    have h1 := (enterPhis_val hp (List.nodup_append.1 hn).1 p hpm).1
    rw [hv] at h1
    unfold phiVal at h1
    cases q with
    | none => simp at h1
    | some q =>
      simp only at h1
      cases ha : p.at q with
      | none => rw [ha] at h1; simp at h1
      | some o =>
        rw [ha] at h1
        simp only at h1
        have ho := hT.phi b B p hB hpm hx
        unfold tagPhi at ho
        rw [List.all_eq_true] at ho
        exact h.opd (ho o (List.mem_map.2 ⟨(q, o), Phi.at_mem ha, rfl⟩)) h1.symm
  · rw [enterPhis_other hp x hm] at hv
    exact h x hx v hv

theorem evals_getLast {l : Lang} {e : Env l} : ∀ {os : List (Opd l.C)} {vs : List l.V}, evals l e os = some vs → ∀ {o : Opd l.C}, os.getLast? = some o → ∃ v, vs.getLast? = some v ∧ eval l e o = some v := by
  intro os vs h o ho
  rw [List.getLast?_eq_getElem?] at ho
  have h1 := evals_length h
  obtain ⟨v, hv, he⟩ := evals_getElem (L := l) (c1 := l.cval) (s1 := l.sem) (e := e) h ho
  refine ⟨v, ?_, he⟩
  rw [List.getLast?_eq_getElem?, h1]
  exact hv

theorem TagInv.inst {T : List Nat} {fr : S.Fr} {call : CallSem L} {vs : List L.V} (hT : TagsOk V.callee kind F T) {b : Nat} {B : Block L.Op L.C} (hB : F.blk b = some B) {i : Inst L.Op L.C} (hi : i ∈ B.body)
    {e : Env (V.lang call vs)} (h : TagInv S T fr e) {m m' : L.M} (hf : S.frame m = fr) {us : List L.V} (hus : evals (V.lang call vs) e i.args = some us) {v : L.V} {es : List L.E} (hs : V.sem call i.op us m = .ok v m' es) :
    TagInv S T fr (setEnv (V.lang call vs) e i.id v) := by
  intro x hx w hw
  by_cases hxi : x = i.id
  · subst hxi
    simp only [setEnv, if_pos] at hw
    obtain rfl := Option.some.inj hw
    have ht := hT.inst b B i hB hi hx
    unfold tagInst at ht
    cases hc : V.callee i.op with
    | some g => rw [hc] at ht; cases ht
    | none =>
      unfold Frames.sem at hs
      rw [hc] at ht hs
      simp only at ht hs
      cases hk : kind i.op with
      | alloc => rw [← hf]; exact S.alloc _ _ _ _ _ _ hc hk hs
      | gep =>
        rw [hk] at ht
        simp only at ht
        cases hl : i.args.getLast? with
        | none => rw [hl] at ht; cases ht
        | some o =>
          rw [hl] at ht
          obtain ⟨a, ha, hoa⟩ := evals_getLast hus hl
          subst hf
          exact S.gep _ _ _ _ _ _ a hc hk hs ha (h.opd ht hoa)
      | ptrCast =>
        rw [hk] at ht
        simp only at ht
        cases hl : i.args[0]? with
        | none => rw [hl] at ht; cases ht
        | some o =>
          rw [hl] at ht
          obtain ⟨a, ha, hoa⟩ := evals_getElem hus hl
          subst hf
          exact S.cast _ _ _ _ _ _ a hc (.inl hk) hs ha (h.opd ht hoa)
      | ptrAdd =>
        rw [hk] at ht
        simp only at ht
        cases hl : i.args[0]? with
        | none => rw [hl] at ht; cases ht
        | some o =>
          rw [hl] at ht
          obtain ⟨a, ha, hoa⟩ := evals_getElem hus hl
          subst hf
          exact S.cast _ _ _ _ _ _ a hc (.inr hk) hs ha (h.opd ht hoa)
      | select =>
        rw [hk] at ht
        simp only at ht
        cases h1 : i.args[1]? with
        | none => rw [h1] at ht; simp at ht
        | some o =>
          cases h2 : i.args[2]? with
          | none => rw [h1, h2] at ht; simp at ht
          | some o' =>
            rw [h1, h2] at ht
            simp only [Bool.and_eq_true] at ht
            obtain ⟨a, ha, hoa⟩ := evals_getElem hus h1
            obtain ⟨a', ha', hoa'⟩ := evals_getElem hus h2
            rcases S.select _ _ _ _ _ _ hc hk hs with hv | hv
            · rw [ha] at hv; obtain rfl := Option.some.inj hv; exact h.opd ht.1 hoa
            · rw [ha'] at hv; obtain rfl := Option.some.inj hv; exact h.opd ht.2 hoa'
      | load => rw [hk] at ht; cases ht
      | store => rw [hk] at ht; cases ht
      | atomic => rw [hk] at ht; cases ht
      | ext a => rw [hk] at ht; cases ht
      | indirect => rw [hk] at ht; cases ht
      | other => rw [hk] at ht; cases ht
  · simp only [setEnv, if_neg hxi] at hw
    exact h x hx w hw

/-- an operand 0 that is tagged is an address in the frame -/
theorem TagInv.arg0 {T : List Nat} {fr : S.Fr} {call : CallSem L} {vs : List L.V} {i : Inst L.Op L.C} {e : Env (V.lang call vs)} (h : TagInv S T fr e) {us : List L.V} (hus : evals (V.lang call vs) e i.args = some us)
    (ho : outside T i = false) : ∃ a, us[0]? = some a ∧ S.Stack fr a := by
  unfold outside at ho
  cases hl : i.args[0]? with
  | none => rw [hl] at ho; cases ho
  | some o =>
    rw [hl] at ho
    simp only [Bool.not_eq_false'] at ho
    obtain ⟨a, ha, hoa⟩ := evals_getElem hus hl
    exact ⟨a, ha, h.opd ho hoa⟩

theorem Frames.call_ok {d f : Nat} {vs : List L.V} {m m' : L.M} {v : L.V} {es : List L.E} (h : V.call P d f vs m = .ok v m' es) :
    ∃ d' F, d = d' + 1 ∧ P f = some F ∧ ∃ w mc, Ends (V.lang (V.call P d') vs) F (V.enter m) (.ret w mc es) ∧ v = w.getD V.void ∧ m' = V.leave m mc := by
  cases d with
  | zero => simp [Frames.call] at h
  | succ d =>
    simp only [Frames.call] at h
    cases hF : P f with
    | none => rw [hF] at h; simp at h
    | some F =>
      rw [hF] at h
      simp only at h
      obtain ⟨b, hb, _, h2⟩ := Frames.invoke_ends (V := V) (call := V.call P d) (F := F) (vs := vs) (m := m) (by rw [h]; simp)
      rw [h] at h2
      cases b with
      | ub => simp [Frames.result] at h2
      | halt h es => simp [Frames.result] at h2
      | ret w mc es' =>
        simp only [Frames.result, Res.ok.injEq] at h2
        obtain ⟨rfl, rfl, rfl⟩ := h2
        exact ⟨d, F, rfl, rfl, w, mc, hb, rfl, rfl⟩

theorem Frames.call_halt {d f : Nat} {vs : List L.V} {m : L.M} {es : List L.E} {h' : L.H} (h : V.call P d f vs m = .halt es h') :
    ∃ d' F, d = d' + 1 ∧ P f = some F ∧ Ends (V.lang (V.call P d') vs) F (V.enter m) (.halt h' es) := by
  cases d with
  | zero => simp [Frames.call] at h
  | succ d =>
    simp only [Frames.call] at h
    cases hF : P f with
    | none => rw [hF] at h; simp at h
    | some F =>
      rw [hF] at h
      simp only at h
      obtain ⟨b, hb, _, h2⟩ := Frames.invoke_ends (V := V) (call := V.call P d) (F := F) (vs := vs) (m := m) (by rw [h]; simp)
      rw [h] at h2
      cases b with
      | ub => simp [Frames.result] at h2
      | ret w mc es' => simp [Frames.result] at h2
      | halt h es =>
        simp only [Frames.result, Res.halt.injEq] at h2
        obtain ⟨rfl, rfl⟩ := h2
        exact ⟨d, F, rfl, rfl, hb⟩

theorem Spaces.frame_step (S : Spaces L V kind) {d : Nat} {op : L.Op} {us : List L.V} {m m' : L.M} {v : L.V} {es : List L.E} (h : V.sem (V.call P d) op us m = .ok v m' es) : S.frame m' = S.frame m := by
  unfold Frames.sem at h
  cases hc : V.callee op with
  | none => rw [hc] at h; exact S.frame_sem _ _ _ _ _ _ hc h
  | some f =>
    rw [hc] at h
    obtain ⟨_, _, _, _, w, mc, _, _, rfl⟩ := Frames.call_ok h
    exact S.frame_leave m mc


theorem lang_ends_inv {call : CallSem L} {vs : List L.V} {mm : L.M} {r : Beh (V.lang call vs)} (I : (Nat → Option L.V) → L.M → List L.E → Prop) (h0 : I (fun _ => none) mm [])
    (hphi : ∀ b B q (e e' : Env (V.lang call vs)) m es, F.blk b = some B → I e m es → enterPhis (V.lang call vs) q e B.phis e = some e' → I e' m es)
    (hok : ∀ b B i, F.blk b = some B → i ∈ B.body → ∀ (e : Env (V.lang call vs)) m es us v m' es', I e m es → evals (V.lang call vs) e i.args = some us → V.sem call i.op us m = .ok v m' es' → I (setEnv (V.lang call vs) e i.id v) m' (es ++ es'))
    (hr : Ends (V.lang call vs) F mm r) :
      match (generalizing := false) r with
      | .ret _ m es => (∃ e, I e m es) ∧ ∃ b B o, F.blk b = some B ∧ B.term = .ret o
      | .halt h _ => ∃ b B i, ∃ e : Env (V.lang call vs), ∃ m es us es', F.blk b = some B ∧ i ∈ B.body ∧ I e m es ∧ evals (V.lang call vs) e i.args = some us ∧ V.sem call i.op us m = .halt es' h
      | .ub => True := by
  obtain ⟨n, hn⟩ := hr
  have := run_inv (L := V.lang call vs) I hphi hok n _ r h0 hn
  cases r <;> exact this

/-- no block returns (FunctionAttrInfer.cpp:33-39) -/
theorem noReturn_of (Sh : Shape F) {f : Nat} (hF : P f = some F) (h : neverReturns F = true) : NoReturnSem V P f := by
  intro d vs m v m' es hc
  obtain ⟨d', F', rfl, hF', w, mc, he, _, _⟩ := Frames.call_ok hc
  obtain rfl := Option.some.inj (hF.symm.trans hF')
  have := lang_ends_inv (fun _ _ _ => True) trivial (fun _ _ _ _ _ _ _ _ _ _ => trivial) (fun _ _ _ _ _ _ _ _ _ _ _ _ _ _ _ => trivial) he
  obtain ⟨_, b, B, o, hB, ht⟩ := this
  unfold neverReturns at h
  rw [List.all_eq_true] at h
  have := h B (Sh.listed.mem hB)
  rw [ht] at this
  cases this

/-- no stores outside of the frame -/
theorem noWrite_of {A : Nat → Attrs} (hA : AttrsOk S P A) (Sh : Shape F) {T : List Nat} (hT : TagsOk V.callee kind F T) {f : Nat} (hF : P f = some F) (h : hasWrite V.callee kind A T f F = false) : NoWriteSem V P f := by
  intro d
  induction d with
  | zero => intro vs m v m' es hc; simp [Frames.call] at hc
  | succ d ih =>
    intro vs m v m' es hc
    obtain ⟨d', F', hd, hF', w, mc, he, _, rfl⟩ := Frames.call_ok hc
    obtain rfl := Option.some.inj (hF.symm.trans hF')
    obtain rfl : d = d' := by omega
    have := lang_ends_inv (fun e mc _ => TagInv S T (S.frame (V.enter m)) e ∧ S.frame mc = S.frame (V.enter m) ∧ S.same (V.enter m) mc)
      ⟨fun x _ v hv => by (cases hv), rfl, S.same_refl _⟩
      (fun b B q e e' m1 es hB hI hp => ⟨hI.1.phis Sh hT hB hp, hI.2⟩)
      (by
        intro b B i hB hi e m1 es1 us v1 m2 es2 hI hus hs
        refine ⟨hI.1.inst hT hB hi hI.2.1 hus hs, (S.frame_step hs).trans hI.2.1, S.same_trans _ _ _ hI.2.2 ?_⟩
        have hq := anyInst_false Sh.listed h hB hi
        unfold Frames.sem at hs
        cases hcl : V.callee i.op with
        | some g =>
          rw [hcl] at hs hq
          simp only [Bool.and_eq_false_iff, bne_eq_false_iff_eq, Bool.not_eq_false'] at hs hq
          rcases hq with rfl | hq
          · rw [ih _ _ _ _ _ hs]; exact S.same_refl _
          · rw [hA.noWrite g hq _ _ _ _ _ _ hs]; exact S.same_refl _
        | none =>
          rw [hcl] at hs hq
          simp only at hs hq
          refine S.writes _ _ _ _ _ _ hcl hs ?_ ?_ ?_
          · rintro (hk | hk) <;> (rw [hk] at hq; rw [hI.2.1]; exact hI.1.arg0 hus hq)
          · intro a hk; rw [hk] at hq; simpa using hq
          · intro hk; rw [hk] at hq; cases hq)
      he
    obtain ⟨⟨e, hI⟩, _⟩ := this
    exact S.same_leave _ _ hI.2.2

/-- no calls with effects -/
theorem noEffect_of {A : Nat → Attrs} (hA : AttrsOk S P A) (Sh : Shape F) {f : Nat} (hF : P f = some F) (hw : NoWriteSem V P f) (h : hasSideEffect V.callee kind A f F = false) : NoEffectSem V P f := by
  have key : ∀ d, (∀ vs m v m' es, V.call P d f vs m = .ok v m' es → es = []) ∧ ∀ vs m es h', V.call P d f vs m ≠ .halt es h' := by
    intro d
    induction d with
    | zero => exact ⟨fun vs m v m' es hc => by simp [Frames.call] at hc, fun vs m es h' hc => by simp [Frames.call] at hc⟩
    | succ d ih =>
      have hsil : ∀ b B i, F.blk b = some B → i ∈ B.body → ∀ us m, (∀ v m' es, V.sem (V.call P d) i.op us m = .ok v m' es → es = []) ∧ ∀ es h', V.sem (V.call P d) i.op us m ≠ .halt es h' := by
        intro b B i hB hi us m
        have hq := anyInst_false Sh.listed h hB hi
        unfold Frames.sem
        cases hcl : V.callee i.op with
        | some g =>
          rw [hcl] at hq
          simp only [Bool.and_eq_false_iff, bne_eq_false_iff_eq, Bool.not_eq_false'] at hq ⊢
          rcases hq with rfl | hq
          · exact ⟨fun v m' es hs => ih.1 _ _ _ _ _ hs, fun es h' => ih.2 _ _ _ _⟩
          · constructor
            · intro v m' es hs
              obtain ⟨w, hw⟩ := hA.noEffect g hq d us m (by rw [hs]; simp)
              rw [hs] at hw
              simp only [Res.ok.injEq] at hw
              exact hw.2.2
            · intro es h' hs
              obtain ⟨w, hw⟩ := hA.noEffect g hq d us m (by rw [hs]; simp)
              rw [hs] at hw
              cases hw
        | none =>
          rw [hcl] at hq
          simp only at hq ⊢
          refine S.silent _ _ _ hcl ?_ ?_
          · intro a hk; rw [hk] at hq; simpa using hq
          · intro hk; rw [hk] at hq; cases hq
      constructor
      · intro vs m v m' es hc
        obtain ⟨d', F', hd, hF', w, mc, he, _, _⟩ := Frames.call_ok hc
        obtain rfl := Option.some.inj (hF.symm.trans hF')
        obtain rfl : d = d' := by omega
        have := lang_ends_inv (fun _ _ es => es = []) rfl (fun _ _ _ _ _ _ _ _ hI _ => hI)
          (by
            intro b B i hB hi e m1 es1 us v1 m2 es2 hI hus hs
            rw [hI, (hsil b B i hB hi us m1).1 _ _ _ hs]
            rfl) he
        exact this.1.choose_spec
      · intro vs m es h' hc
        obtain ⟨d', F', hd, hF', he⟩ := Frames.call_halt hc
        obtain rfl := Option.some.inj (hF.symm.trans hF')
        obtain rfl : d = d' := by omega
        have := lang_ends_inv (fun _ _ _ => True) trivial (fun _ _ _ _ _ _ _ _ _ _ => trivial) (fun _ _ _ _ _ _ _ _ _ _ _ _ _ _ _ => trivial) he
        obtain ⟨b, B, i, e, m1, es1, us, es', hB, hi, _, _, hs⟩ := this
        exact (hsil b B i hB hi us m1).2 _ _ hs
  intro d vs m hne
  cases hc : V.call P d f vs m with
  | ub => exact absurd hc hne
  | halt es h' => exact absurd hc ((key d).2 _ _ _ _)
  | ok v m' es => exact ⟨v, by rw [hw d _ _ _ _ _ hc, (key d).1 _ _ _ _ _ hc]⟩

/-- no loads from outside of the frame -/
theorem noRead_of {A : Nat → Attrs} (hA : AttrsOk S P A) (hind : NoIndirect kind P) (Sh : Shape F) {T : List Nat} (hT : TagsOk V.callee kind F T) {f : Nat} (hF : P f = some F) (h : hasLoad V.callee kind A T f F = false) : NoReadSem S P f := by
  intro d
  induction d with
  | zero => intro vs m m' r _; exact ⟨fun v m' es hc => by simp [Frames.call] at hc, fun es h' hc => by simp [Frames.call] at hc⟩
  | succ d ih =>
    intro vs m m' r hr
    have two : ∀ (r0 : Beh (V.lang (V.call P d) vs)), Ends (V.lang (V.call P d) vs) F (V.enter m) r0 →
        match r0 with
        | .ret v m1 es => ∃ m1', Ends (V.lang (V.call P d) vs) F (V.enter m') (.ret v m1' es) ∧ S.frame m1 = S.frame (V.enter m) ∧ S.eqv (S.own (S.frame (V.enter m)) r) m1 m1'
        | .halt h es => Ends (V.lang (V.call P d) vs) F (V.enter m') (.halt h es)
        | .ub => True := by
      rintro r0 ⟨n, hn⟩
      have := run_two (L := V.lang (V.call P d) vs) (F := F) (fun e mc mc' => TagInv S T (S.frame (V.enter m)) e ∧ S.frame mc = S.frame (V.enter m) ∧ S.eqv (S.own (S.frame (V.enter m)) r) mc mc')
        (fun b B q e e' m1 m1' hB hI hp => ⟨hI.1.phis Sh hT hB hp, hI.2⟩)
        (by
          intro b B i hB hi e m1 m1' us hI hus
          have hq := anyInst_false Sh.listed h hB hi
          have hsem : (∀ v m2 es, V.sem (V.call P d) i.op us m1 = .ok v m2 es → ∃ m2', V.sem (V.call P d) i.op us m1' = .ok v m2' es ∧ S.eqv (S.own (S.frame (V.enter m)) r) m2 m2') ∧
              ∀ es h', V.sem (V.call P d) i.op us m1 = .halt es h' → V.sem (V.call P d) i.op us m1' = .halt es h' := by
            unfold Frames.sem
            cases hcl : V.callee i.op with
            | some g =>
              rw [hcl] at hq
              simp only [Bool.and_eq_false_iff, bne_eq_false_iff_eq, Bool.not_eq_false'] at hq ⊢
              rcases hq with rfl | hq
              · exact ih us m1 m1' _ hI.2.2
              · exact hA.noRead hind g hq d us m1 m1' _ hI.2.2
            | none =>
              rw [hcl] at hq
              simp only at hq ⊢
              refine S.reads _ _ _ _ _ hcl hI.2.2 ?_ ?_ (hind f F hF b B hB i hi)
              · intro hk
                refine ⟨?_, r, by rw [hI.2.1]⟩
                rw [hI.2.1]
                rcases hk with hk | hk <;> (rw [hk] at hq; exact hI.1.arg0 hus hq)
              · intro a hk; rw [hk] at hq; simpa using hq
          refine ⟨?_, hsem.2⟩
          intro v m2 es hs
          obtain ⟨m2', h1, h2⟩ := hsem.1 v m2 es hs
          exact ⟨m2', h1, hI.1.inst hT hB hi hI.2.1 hus hs, (S.frame_step hs).trans hI.2.1, h2⟩)
        n none F.entry (fun _ => none) (V.enter m) (V.enter m') [] r0 ⟨fun x _ v hv => by (cases hv), rfl, S.eqv_enter r m m' hr⟩ hn
      cases r0 with
      | ub => trivial
      | halt h es => exact ⟨n, this⟩
      | ret v m1 es =>
        obtain ⟨m1', h1, e, h2⟩ := this
        exact ⟨m1', ⟨n, h1⟩, h2.2⟩
    constructor
    · intro v m1 es hc
      obtain ⟨d', F', hd, hF', w, mc, he, rfl, rfl⟩ := Frames.call_ok hc
      obtain rfl := Option.some.inj (hF.symm.trans hF')
      obtain rfl : d = d' := by omega
      obtain ⟨m1', h1, h2, h3⟩ := two _ he
      refine ⟨V.leave m' m1', ?_, S.eqv_leave r m m' _ _ hr h2 h3⟩
      simp only [Frames.call, hF]
      rw [Frames.invoke_eq h1]
      rfl
    · intro es h' hc
      obtain ⟨d', F', hd, hF', he⟩ := Frames.call_halt hc
      obtain rfl := Option.some.inj (hF.symm.trans hF')
      obtain rfl : d = d' := by omega
      have h1 := two _ he
      simp only [Frames.call, hF]
      rw [Frames.invoke_eq h1]
      rfl

/-! ## the pass -/

/-- one function -/
theorem AttrsOk.infer {A : Nat → Attrs} (hA : AttrsOk S P A) (Sh : ∀ f F, P f = some F → Shape F) (rounds : Nat → Nat) (ord : Nat → List Nat) (f : Nat) : AttrsOk S P (inferFn V.callee kind rounds ord P A f) := by
  unfold inferFn
  cases hF : P f with
  | none => exact hA
  | some F =>
    have hT : TagsOk V.callee kind F (tagRounds V.callee kind (ord f) F (rounds f) []) := tagRounds_ok (Sh f F hF) (ord f) (rounds f)
    dsimp only
    generalize htt : tagRounds V.callee kind (ord f) F (rounds f) [] = T at hT ⊢
    have hw : (inferAttrs V.callee kind A T f F).noWrite = true → NoWriteSem V P f := by
      intro h
      simp only [inferAttrs, Bool.or_eq_true, Bool.not_eq_true'] at h
      rcases h with h | h
      · exact hA.noWrite f h
      · exact noWrite_of hA (Sh f F hF) hT hF h
    have hr : NoIndirect kind P → (inferAttrs V.callee kind A T f F).noRead = true → NoReadSem S P f := by
      intro hi h
      simp only [inferAttrs, Bool.or_eq_true, Bool.not_eq_true'] at h
      rcases h with h | h
      · exact hA.noRead hi f h
      · exact noRead_of hA hi (Sh f F hF) hT hF h
    have he : (inferAttrs V.callee kind A T f F).noEffect = true → NoEffectSem V P f := by
      intro h
      simp only [inferAttrs, Bool.or_eq_true, Bool.and_eq_true, Bool.not_eq_true'] at h
      rcases h with h | ⟨h1, h2⟩
      · exact hA.noEffect f h
      · exact noEffect_of hA (Sh f F hF) hF (hw (by simpa [inferAttrs] using h1)) h2
    constructor
    · intro g hg
      by_cases hgf : g = f
      · subst hgf
        simp only [if_pos, inferAttrs, Bool.or_eq_true] at hg
        rcases hg with h | h
        · exact hA.noReturn _ h
        · exact noReturn_of (Sh _ F hF) hF h
      · rw [if_neg hgf] at hg; exact hA.noReturn g hg
    · intro g hg
      by_cases hgf : g = f
      · subst hgf; rw [if_pos rfl] at hg; exact hw hg
      · rw [if_neg hgf] at hg; exact hA.noWrite g hg
    · intro g hg
      by_cases hgf : g = f
      · subst hgf; rw [if_pos rfl] at hg; exact he hg
      · rw [if_neg hgf] at hg; exact hA.noEffect g hg
    · intro hi g hg
      by_cases hgf : g = f
      · subst hgf; rw [if_pos rfl] at hg; exact hr hi hg
      · rw [if_neg hgf] at hg; exact hA.noRead hi g hg
    · intro hi g hg
      by_cases hgf : g = f
      · subst hgf
        rw [if_pos rfl] at hg
        have hg' := hg
        simp only [inferAttrs, Bool.or_eq_true] at hg'
        rcases hg' with h | h
        · exact hA.stateless hi _ h
        · rw [Bool.and_eq_true] at h
          exact ⟨he (by simpa [inferAttrs] using h.2), hr hi (by simpa [inferAttrs] using h.1)⟩
      · rw [if_neg hgf] at hg; exact hA.stateless hi g hg
    · intro g G hG hg
      by_cases hgf : g = f
      · subst hgf
        obtain rfl := Option.some.inj (hF.symm.trans hG)
        simp only [if_pos, inferAttrs, Bool.or_eq_true, Bool.not_eq_true'] at hg
        rcases hg with h | h
        · exact hA.noRecurse _ F hF h
        · intro b B hB i hi hc
          have := anyInst_false (Sh _ F hF).listed h hB hi
          simp only [hc, decide_true] at this
          cases this
      · rw [if_neg hgf] at hg; exact hA.noRecurse g G hG hg

/-- **C86**: if the attributes of all functions are true (there may be none), then those that `FunctionAttrInfer` adds, on any list of functions in any order, are true -/
theorem C86_functionAttrInfer (S : Spaces L V kind) {P : Nat → Option L.F} (Sh : ∀ f F, P f = some F → Shape F) (rounds : Nat → Nat) (ord : Nat → List Nat) (fs : List Nat) {A : Nat → Attrs} (hA : AttrsOk S P A) :
    AttrsOk S P (inferModule V.callee kind rounds ord fs P A) := by
  unfold inferModule
  induction fs generalizing A with
  | nil => exact hA
  | cons f fs ih => exact ih (hA.infer Sh rounds ord f)

end
end Cmmc.SSA
