import Verif.SSA.Ipo
/-!
# Programs with frames, and invariants of runs (for C86)
-/
namespace Cmmc.SSA

/-! ## runs -/
section
variable {L : Lang} {F : L.F}

/-- what is kept by phis and instructions holds at the end; a run that returns has come to a `ret`, one that halts to an instruction that halts -/
theorem run_inv (I : Env L → L.M → List L.E → Prop)
    (hphi : ∀ b B q e e' m es, F.blk b = some B → I e m es → enterPhis L q e B.phis e = some e' → I e' m es)
    (hok : ∀ b B i, F.blk b = some B → i ∈ B.body → ∀ e m es vs v m' es', I e m es → evals L e i.args = some vs → L.sem i.op vs m = .ok v m' es' → I (setEnv L e i.id v) m' (es ++ es')) :
    ∀ (n : Nat) (s : St L) (r : Beh L), I s.env s.m s.tr → run L F n s = .inr r →
      match r with
      | .ret _ m es => (∃ e, I e m es) ∧ ∃ b B o, F.blk b = some B ∧ B.term = .ret o
      | .halt h _ => ∃ b B i e m es vs es', F.blk b = some B ∧ i ∈ B.body ∧ I e m es ∧ evals L e i.args = some vs ∧ L.sem i.op vs m = .halt es' h
      | .ub => True := by
  have hbody : ∀ b B, F.blk b = some B → ∀ (is : List (Inst L.Op L.C)), (∀ i ∈ is, i ∈ B.body) → ∀ e m es, I e m es →
      match execBody L is e m es with
      | .ok e' m' es' => I e' m' es'
      | .halt _ h => ∃ i e m es vs es', i ∈ B.body ∧ I e m es ∧ evals L e i.args = some vs ∧ L.sem i.op vs m = .halt es' h
      | .ub => True := by
    intro b B hB is
    induction is with
    | nil => intro _ e m es h; exact h
    | cons i is ih =>
      intro hi e m es h
      simp only [execBody]
      cases hv : evals L e i.args with
      | none => trivial
      | some vs =>
        simp only
        cases hs : L.sem i.op vs m with
        | ub => trivial
        | halt es' h' => exact ⟨i, e, m, es, vs, es', hi i (by simp), h, hv, hs⟩
        | ok v m' es' => exact ih (fun k hk => hi k (by simp [hk])) _ _ _ (hok b B i hB (hi i (by simp)) e m es vs v m' es' h hv hs)
  intro n
  induction n with
  | zero => intro s r _ h; simp [run] at h
  | succ n ih =>
    intro s r hI h
    simp only [run] at h
    unfold step at h
    cases hB : F.blk s.cur with
    | none => rw [hB] at h; simp only [Sum.inr.injEq] at h; subst h; trivial
    | some B =>
      rw [hB] at h
      simp only [stepBlk] at h
      cases hp : enterPhis L s.pred s.env B.phis s.env with
      | none => rw [hp] at h; simp only [Sum.inr.injEq] at h; subst h; trivial
      | some e1 =>
        rw [hp] at h
        simp only at h
        have hb := hbody s.cur B hB B.body (fun _ h => h) e1 s.m s.tr (hphi s.cur B s.pred s.env e1 s.m s.tr hB hI hp)
        cases hx : execBody L B.body e1 s.m s.tr with
        | ub => rw [hx] at h; simp only [Sum.inr.injEq] at h; subst h; trivial
        | halt es h' =>
          rw [hx] at h hb
          simp only [Sum.inr.injEq] at h
          subst h
          obtain ⟨i, e, m, es, vs, es', h1⟩ := hb
          exact ⟨s.cur, B, i, e, m, es, vs, es', hB, h1⟩
        | ok e2 m2 es2 =>
          rw [hx] at h hb
          simp only at h
          cases ht : evalTerm L e2 B.term with
          | ub => rw [ht] at h; simp only [Sum.inr.injEq] at h; subst h; trivial
          | goto b => rw [ht] at h; simp only at h; exact ih _ r hb h
          | ret v =>
            rw [ht] at h
            simp only [Sum.inr.injEq] at h
            subst h
            refine ⟨⟨e2, hb⟩, s.cur, B, ?_⟩
            cases htm : B.term with
            | ret o => exact ⟨o, hB, rfl⟩
            | br t => rw [htm] at ht; simp [evalTerm] at ht
            | unreachable => rw [htm] at ht; simp [evalTerm] at ht
            | cbr c t f =>
              rw [htm] at ht
              simp only [evalTerm] at ht
              split at ht <;> cases ht
            | sw c d cs =>
              rw [htm] at ht
              simp only [evalTerm] at ht
              split at ht
              · cases ht
              · split at ht <;> cases ht

/-- two runs from different memories that make the same steps -/
theorem run_two (J : Env L → L.M → L.M → Prop)
    (hphi : ∀ b B q e e' m m', F.blk b = some B → J e m m' → enterPhis L q e B.phis e = some e' → J e' m m')
    (hok : ∀ b B i, F.blk b = some B → i ∈ B.body → ∀ e m m' vs, J e m m' → evals L e i.args = some vs →
      (∀ v m1 es, L.sem i.op vs m = .ok v m1 es → ∃ m1', L.sem i.op vs m' = .ok v m1' es ∧ J (setEnv L e i.id v) m1 m1') ∧ ∀ es h, L.sem i.op vs m = .halt es h → L.sem i.op vs m' = .halt es h) :
    ∀ (n : Nat) (p : Option Nat) (c : Nat) (e : Env L) (m m' : L.M) (tr : List L.E) (r : Beh L), J e m m' → run L F n ⟨p, c, e, m, tr⟩ = .inr r →
      match r with
      | .ret v m1 es => ∃ m1', run L F n ⟨p, c, e, m', tr⟩ = .inr (.ret v m1' es) ∧ ∃ e, J e m1 m1'
      | .halt h es => run L F n ⟨p, c, e, m', tr⟩ = .inr (.halt h es)
      | .ub => True := by
  have hbody : ∀ b B, F.blk b = some B → ∀ (is : List (Inst L.Op L.C)), (∀ i ∈ is, i ∈ B.body) → ∀ e m m' es, J e m m' →
      match execBody L is e m es with
      | .ok e1 m1 es1 => ∃ m1', execBody L is e m' es = .ok e1 m1' es1 ∧ J e1 m1 m1'
      | .halt es1 h => execBody L is e m' es = .halt es1 h
      | .ub => True := by
    intro b B hB is
    induction is with
    | nil => intro _ e m m' es h; exact ⟨m', rfl, h⟩
    | cons i is ih =>
      intro hi e m m' es h
      simp only [execBody]
      cases hv : evals L e i.args with
      | none => trivial
      | some vs =>
        simp only
        obtain ⟨h1, h2⟩ := hok b B i hB (hi i (by simp)) e m m' vs h hv
        cases hs : L.sem i.op vs m with
        | ub => trivial
        | halt es' h' => rw [h2 es' h' hs]
        | ok v m1 es' =>
          obtain ⟨m1', h3, h4⟩ := h1 v m1 es' hs
          rw [h3]
          exact ih (fun k hk => hi k (by simp [hk])) _ _ _ _ h4
  intro n
  induction n with
  | zero => intro p c e m m' tr r _ h; simp [run] at h
  | succ n ih =>
    intro p c e m m' tr r hJ h
    simp only [run] at h ⊢
    unfold step at h ⊢
    simp only at h ⊢
    cases hB : F.blk c with
    | none => rw [hB] at h; simp only [Sum.inr.injEq] at h; subst h; trivial
    | some B =>
      rw [hB] at h
      simp only [stepBlk] at h ⊢
      cases hp : enterPhis L p e B.phis e with
      | none => rw [hp] at h; simp only [Sum.inr.injEq] at h; subst h; trivial
      | some e1 =>
        rw [hp] at h
        simp only at h ⊢
        have hb := hbody c B hB B.body (fun _ h => h) e1 m m' tr (hphi c B p e e1 m m' hB hJ hp)
        cases hx : execBody L B.body e1 m tr with
        | ub => rw [hx] at h; simp only [Sum.inr.injEq] at h; subst h; trivial
        | halt es h' =>
          rw [hx] at h hb
          simp only [Sum.inr.injEq] at h
          simp only at hb
          subst h
          simp only
          rw [hb]
        | ok e2 m2 es2 =>
          rw [hx] at h hb
          obtain ⟨m2', h1, h2⟩ := hb
          rw [h1]
          simp only at h ⊢
          cases ht : evalTerm L e2 B.term with
          | ub => rw [ht] at h; simp only [Sum.inr.injEq] at h; subst h; trivial
          | goto b => rw [ht] at h; simp only at h ⊢; exact ih _ _ _ _ _ _ r h2 h
          | ret v =>
            rw [ht] at h
            simp only [Sum.inr.injEq] at h
            subst h
            exact ⟨m2', rfl, e2, h2⟩

end

/-! ## programs -/

/-- how functions are called: like `Conv`, without any assumption on what a callee sees of the frames of its callers -/
structure Frames (L : Lang) where
  /-- parameters, with their positions -/
  param : L.C → Option Nat
  /-- call instructions of functions with a body -/
  callee : L.Op → Option Nat
  /-- the memory a callee starts in: with a new frame -/
  enter : L.M → L.M
  /-- the memory of the caller `m` after the callee has returned in the second: the new frame is gone -/
  leave : L.M → L.M → L.M
  /-- the value of a call of a void function -/
  void : L.V

section
variable {L : Lang} (V : Frames L)

/-- the opcodes, when calls do `call` -/
def Frames.sem (call : CallSem L) (op : L.Op) (vs : List L.V) (m : L.M) : Res L.V L.M L.E L.H :=
  match V.callee op with
  | some f => call f vs m
  | none => L.sem op vs m

/-- the language of an invocation with arguments `vs` -/
@[reducible] def Frames.lang (call : CallSem L) (vs : List L.V) : Lang :=
  L.upd (fun c => match V.param c with | some j => (vs[j]?).getD (L.cval c) | none => L.cval c) (V.sem call)

/-- what a caller sees of the run of a callee -/
def Frames.result (call : CallSem L) (vs : List L.V) (m : L.M) : Beh (V.lang call vs) → Res L.V L.M L.E L.H
  | .ret v mc es => .ok (v.getD V.void) (V.leave m mc) es
  | .halt h es => .halt es h
  | .ub => .ub

open Classical in
/-- a call of the function `F`, when the calls it makes do `call`; no claim (`ub`) if the run does not end -/
noncomputable def Frames.invoke (call : CallSem L) (F : L.F) (vs : List L.V) (m : L.M) : Res L.V L.M L.E L.H :=
  if h : ∃ b, Ends (V.lang call vs) F (V.enter m) b then V.result call vs m h.choose else .ub

/-- what a call does in the program `P` if calls are nested at most `d` deep; no claim otherwise -/
noncomputable def Frames.call (P : Nat → Option L.F) : Nat → CallSem L
  | 0, _, _, _ => .ub
  | d + 1, f, vs, m =>
    match P f with
    | none => .ub
    | some F => V.invoke (Frames.call P d) F vs m

variable {V}

theorem Frames.invoke_eq {call : CallSem L} {F : L.F} {vs : List L.V} {m : L.M} {b : Beh (V.lang call vs)} (h : Ends (V.lang call vs) F (V.enter m) b) :
    V.invoke call F vs m = V.result call vs m b := by
  have hex : ∃ b, Ends (V.lang call vs) F (V.enter m) b := ⟨b, h⟩
  unfold Frames.invoke
  rw [dif_pos hex, ends_det' hex.choose_spec h]

theorem Frames.invoke_ends {call : CallSem L} {F : L.F} {vs : List L.V} {m : L.M} (h : V.invoke call F vs m ≠ .ub) :
    ∃ b, Ends (V.lang call vs) F (V.enter m) b ∧ b ≠ .ub ∧ V.invoke call F vs m = V.result call vs m b := by
  by_cases hex : ∃ b, Ends (V.lang call vs) F (V.enter m) b
  · obtain ⟨b, hb⟩ := hex
    refine ⟨b, hb, ?_, Frames.invoke_eq hb⟩
    rintro rfl
    exact h (Frames.invoke_eq hb)
  · exfalso
    apply h
    unfold Frames.invoke
    rw [dif_neg hex]

/-- the calls of C72, C83-C85 are calls with frames -/
def Conv.frames (V : Conv L) : Frames L := ⟨V.param, V.callee, V.enter, V.leave, V.void⟩

theorem Conv.frames_call (V : Conv L) (P : Nat → Option L.F) : ∀ d, V.frames.call P d = V.call P d := by
  intro d
  induction d with
  | zero => funext f vs m; rfl
  | succ d ih =>
    funext f vs m
    simp only [Frames.call, Conv.call]
    cases P f with
    | none => rfl
    | some F =>
      simp only
      rw [ih]
      by_cases hex : ∃ b, Ends (V.lang (V.call P d) vs) F (V.enter m) b
      · obtain ⟨b, hb⟩ := hex
        rw [Conv.invoke_eq hb, Frames.invoke_eq (V := V.frames) (b := b) hb]
        cases b <;> rfl
      · unfold Conv.invoke Frames.invoke
        rw [dif_neg hex]
        exact dif_neg hex

end
end Cmmc.SSA
