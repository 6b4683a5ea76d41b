import Verif.SSA.InlineLive
/-!
# Programs: functions that call each other, and what inlining a call does to a program
-/
namespace Cmmc.SSA

/-- the language with another meaning of constants and opcodes -/
@[reducible] def Lang.upd (L : Lang) (cval : L.C → L.V) (sem : L.Op → List L.V → L.M → Res L.V L.M L.E L.H) : Lang := { L with cval := cval, sem := sem }

/-- how a run ends: the same under another meaning of constants and opcodes -/
def Beh.re {L : Lang} {c1 c2 : L.C → L.V} {s1 s2 : L.Op → List L.V → L.M → Res L.V L.M L.E L.H} : Beh (L.upd c1 s1) → Beh (L.upd c2 s2)
  | .ret v m tr => .ret v m tr
  | .halt h tr => .halt h tr
  | .ub => .ub

/-! ## runs of one function under two meanings of the opcodes -/
section
variable {L : Lang} {c1 c2 : L.C → L.V} {s1 s2 : L.Op → List L.V → L.M → Res L.V L.M L.E L.H}

theorem upd_eval {o : Opd L.C} (hc : ∀ c, o = .cst c → c1 c = c2 c) (env : Env L) : eval (L.upd c2 s2) env o = eval (L.upd c1 s1) env o := by
  cases o with
  | inst i => rfl
  | cst c => exact congrArg some (hc c rfl).symm

theorem upd_evals {os : List (Opd L.C)} (hc : ∀ o ∈ os, ∀ c, o = .cst c → c1 c = c2 c) (env : Env L) : evals (L.upd c2 s2) env os = evals (L.upd c1 s1) env os := by
  induction os with
  | nil => rfl
  | cons o os ih =>
    simp only [evals]
    rw [upd_eval (s1 := s1) (s2 := s2) (hc o (by simp)) env, ih (fun o ho => hc o (by simp [ho]))]
    cases eval (L.upd c1 s1) env o <;> cases evals (L.upd c1 s1) env os <;> rfl

theorem upd_term {t : Term L.C} (hc : ∀ o ∈ t.args, ∀ c, o = .cst c → c1 c = c2 c) (env : Env L) :
    match evalTerm (L.upd c1 s1) env t with
    | .goto b => evalTerm (L.upd c2 s2) env t = .goto b
    | .ret v => evalTerm (L.upd c2 s2) env t = .ret v
    | .ub => True := by
  have he : ∀ o ∈ t.args, eval (L.upd c2 s2) env o = eval (L.upd c1 s1) env o := fun o ho => upd_eval (hc o ho) env
  cases t with
  | ret v =>
    cases v with
    | none => rfl
    | some o =>
      simp only [evalTerm]; rw [he o (by simp [Term.args])]
      cases eval (L.upd c1 s1) env o with
      | none => trivial
      | some v => rfl
  | br t => rfl
  | cbr c t f =>
    simp only [evalTerm]; rw [he c (by simp [Term.args])]
    cases (eval (L.upd c1 s1) env c).bind L.truth with
    | none => trivial
    | some v => cases v <;> rfl
  | sw c d cs =>
    simp only [evalTerm]; rw [he c (by simp [Term.args])]
    cases (eval (L.upd c1 s1) env c).bind L.key with
    | none => trivial
    | some v =>
      simp only
      cases cs.find? (fun e => e.1 == v) <;> rfl
  | unreachable => trivial

theorem upd_phis {pred : Option Nat} {old : Env L} {ps : List (Phi L.C)} (hc : ∀ p ∈ ps, ∀ o ∈ p.ops, ∀ c, o = .cst c → c1 c = c2 c) :
    ∀ env : Env L, enterPhis (L.upd c2 s2) pred old ps env = enterPhis (L.upd c1 s1) pred old ps env := by
  induction ps with
  | nil => intro env; rfl
  | cons p ps ih =>
    intro env
    have hv : phiVal (L.upd c2 s2) pred old p = phiVal (L.upd c1 s1) pred old p := by
      cases pred with
      | none => rfl
      | some q =>
        simp only [phiVal]
        cases ho : p.at q with
        | none => rfl
        | some o => exact upd_eval (hc p (by simp) o (mem_ops.2 ⟨q, Phi.at_mem ho⟩)) old
    simp only [enterPhis]
    rw [hv]
    cases phiVal (L.upd c1 s1) pred old p with
    | none => rfl
    | some v => exact ih (fun p hp => hc p (by simp [hp])) _

theorem upd_body (hs : ∀ op vs m, s1 op vs m ≠ .ub → s2 op vs m = s1 op vs m) {is : List (Inst L.Op L.C)} (hc : ∀ i ∈ is, ∀ o ∈ i.args, ∀ c, o = .cst c → c1 c = c2 c) :
    ∀ (env : Env L) (m : L.M) (es : List L.E),
      match execBody (L.upd c1 s1) is env m es with
      | .ok e m' es' => execBody (L.upd c2 s2) is env m es = .ok e m' es'
      | .halt es' h => execBody (L.upd c2 s2) is env m es = .halt es' h
      | .ub => True := by
  induction is with
  | nil => intro env m es; rfl
  | cons i is ih =>
    intro env m es
    simp only [execBody]
    rw [upd_evals (s1 := s1) (s2 := s2) (hc i (by simp)) env]
    cases evals (L.upd c1 s1) env i.args with
    | none => trivial
    | some vs =>
      simp only
      have h2 := hs i.op vs m
      cases h1 : s1 i.op vs m with
      | ub => trivial
      | halt es' h => rw [h1] at h2; rw [h2 (by simp)]
      | ok v m' es' =>
        rw [h1] at h2; rw [h2 (by simp)]
        exact ih (fun i hi => hc i (by simp [hi])) _ _ _

theorem upd_step {F : L.F} (hs : ∀ op vs m, s1 op vs m ≠ .ub → s2 op vs m = s1 op vs m) (hc : ∀ b B, F.blk b = some B → ∀ o ∈ B.opds, ∀ c, o = .cst c → c1 c = c2 c)
    (pred : Option Nat) (cur : Nat) (env : Env L) (m : L.M) (tr : List L.E) :
    match step (L.upd c1 s1) F ⟨pred, cur, env, m, tr⟩ with
    | .inl s => step (L.upd c2 s2) F ⟨pred, cur, env, m, tr⟩ = .inl ⟨s.pred, s.cur, s.env, s.m, s.tr⟩
    | .inr r => r ≠ .ub → step (L.upd c2 s2) F ⟨pred, cur, env, m, tr⟩ = .inr r.re := by
  unfold step
  simp only
  cases hB : F.blk cur with
  | none => intro h; exact absurd rfl h
  | some B =>
    simp only
    unfold stepBlk
    have hp := upd_phis (c1 := c1) (c2 := c2) (s1 := s1) (s2 := s2) (pred := pred) (old := env) (ps := B.phis)
      (fun p hp o ho => hc cur B hB o (by unfold Block.opds; exact List.mem_append_left _ (List.mem_append_left _ (List.mem_flatMap.2 ⟨p, hp, ho⟩)))) env
    simp only
    rw [hp]
    cases enterPhis (L.upd c1 s1) pred env B.phis env with
    | none => intro h; exact absurd rfl h
    | some env1 =>
      have hb := upd_body (c1 := c1) (c2 := c2) hs (is := B.body) (fun i hi o ho => hc cur B hB o (mem_opds_use (.inl ⟨i, hi, ho⟩))) env1 m tr
      simp only
      cases hx : execBody (L.upd c1 s1) B.body env1 m tr with
      | ub => intro h; exact absurd rfl h
      | halt es h => rw [hx] at hb; simp only at hb; rw [hb]; intro _; rfl
      | ok e m' es =>
        rw [hx] at hb; simp only at hb; rw [hb]
        have ht := upd_term (c1 := c1) (c2 := c2) (s1 := s1) (s2 := s2) (t := B.term) (fun o ho => hc cur B hB o (mem_opds_use (.inr ho))) e
        simp only
        cases hn : evalTerm (L.upd c1 s1) e B.term with
        | ub => intro h; exact absurd rfl h
        | goto b => rw [hn] at ht; simp only at ht; rw [ht]
        | ret v => rw [hn] at ht; simp only at ht; rw [ht]; intro _; rfl

theorem upd_run {F : L.F} (hs : ∀ op vs m, s1 op vs m ≠ .ub → s2 op vs m = s1 op vs m) (hc : ∀ b B, F.blk b = some B → ∀ o ∈ B.opds, ∀ c, o = .cst c → c1 c = c2 c) :
    ∀ (n : Nat) (pred : Option Nat) (cur : Nat) (env : Env L) (m : L.M) (tr : List L.E) (r : Beh (L.upd c1 s1)), run (L.upd c1 s1) F n ⟨pred, cur, env, m, tr⟩ = .inr r → r ≠ .ub →
      run (L.upd c2 s2) F n ⟨pred, cur, env, m, tr⟩ = .inr r.re := by
  intro n
  induction n with
  | zero => intro pred cur env m tr r h; simp [run] at h
  | succ n ih =>
    intro pred cur env m tr r h hr
    have hst := upd_step (F := F) hs hc pred cur env m tr
    simp only [run] at h ⊢
    cases hs1 : step (L.upd c1 s1) F ⟨pred, cur, env, m, tr⟩ with
    | inl s =>
      rw [hs1] at h hst
      simp only at h hst
      rw [hst]
      exact ih _ _ _ _ _ r h hr
    | inr r' =>
      rw [hs1] at h hst
      simp only [Sum.inr.injEq] at h hst
      subst h
      rw [hst hr]

theorem upd_ends {F : L.F} (hs : ∀ op vs m, s1 op vs m ≠ .ub → s2 op vs m = s1 op vs m) (hc : ∀ b B, F.blk b = some B → ∀ o ∈ B.opds, ∀ c, o = .cst c → c1 c = c2 c)
    {m : L.M} {r : Beh (L.upd c1 s1)} (h : Ends (L.upd c1 s1) F m r) (hr : r ≠ .ub) : Ends (L.upd c2 s2) F m r.re := by
  obtain ⟨n, h⟩ := h
  exact ⟨n, upd_run hs hc n _ _ _ _ _ r h hr⟩

end

/-! ## programs -/

/-- how functions are called -/
structure Conv (L : Lang) where
  /-- parameters, with their positions -/
  param : L.C → Option Nat
  /-- call instructions of functions with a body -/
  callee : L.Op → Option Nat
  /-- what the callee finds in memory (no locals) -/
  enter : L.M → L.M
  /-- what the caller finds when the callee is done (its own locals) -/
  leave : L.M → L.M → L.M
  /-- memory without locals -/
  I : L.M → Prop
  /-- the value of a call of a void function -/
  void : L.V
  enter_I : ∀ m, I (enter m)
  leave_enter : ∀ m, leave m (enter m) = m
  enter_leave : ∀ m mc, I mc → enter (leave m mc) = enter mc
  leave_leave : ∀ m mc mc', leave (leave m mc) mc' = leave m (leave mc mc')
  I_leave : ∀ mc mc', I mc → I (leave mc mc')

abbrev CallSem (L : Lang) := Nat → List L.V → L.M → Res L.V L.M L.E L.H

section
variable {L : Lang} (V : Conv L)

/-- the opcodes, when calls do `call` -/
def Conv.sem (call : CallSem L) (op : L.Op) (vs : List L.V) (m : L.M) : Res L.V L.M L.E L.H :=
  match V.callee op with
  | some f => call f vs m
  | none => L.sem op vs m

/-- the language of an invocation with arguments `vs` -/
@[reducible] def Conv.lang (call : CallSem L) (vs : List L.V) : Lang :=
  L.upd (fun c => match V.param c with | some j => (vs[j]?).getD (L.cval c) | none => L.cval c) (V.sem call)

/-- what a caller sees of the run of a callee -/
def Conv.result (call : CallSem L) (vs : List L.V) (m : L.M) : Beh (V.lang call vs) → Res L.V L.M L.E L.H
  | .ret v mc es => .ok (v.getD V.void) (V.leave m mc) es
  | .halt h es => .halt es h
  | .ub => .ub

open Classical in
/-- a call of the function `F`, when the calls it makes do `call`; no claim (`ub`) if the run does not end -/
noncomputable def Conv.invoke (call : CallSem L) (F : L.F) (vs : List L.V) (m : L.M) : Res L.V L.M L.E L.H :=
  if h : ∃ b, Ends (V.lang call vs) F (V.enter m) b then V.result call vs m h.choose else .ub

/-- what a call does in the program `P` if calls are nested at most `d` deep; no claim otherwise -/
noncomputable def Conv.call (P : Nat → Option L.F) : Nat → CallSem L
  | 0, _, _, _ => .ub
  | d + 1, f, vs, m =>
    match P f with
    | none => .ub
    | some F => V.invoke (Conv.call P d) F vs m

variable {V}

theorem ends_det' {L : Lang} {F : L.F} {m : L.M} {b b' : Beh L} (h : Ends L F m b) (h' : Ends L F m b') : b = b' := by
  obtain ⟨n, h⟩ := h
  obtain ⟨n', h'⟩ := h'
  exact run_det h h'

theorem Conv.invoke_eq {call : CallSem L} {F : L.F} {vs : List L.V} {m : L.M} {b : Beh (V.lang call vs)} (h : Ends (V.lang call vs) F (V.enter m) b) :
    V.invoke call F vs m = V.result call vs m b := by
  have hex : ∃ b, Ends (V.lang call vs) F (V.enter m) b := ⟨b, h⟩
  unfold Conv.invoke
  rw [dif_pos hex, ends_det' hex.choose_spec h]

theorem Conv.invoke_ends {call : CallSem L} {F : L.F} {vs : List L.V} {m : L.M} (h : V.invoke call F vs m ≠ .ub) :
    ∃ b, Ends (V.lang call vs) F (V.enter m) b ∧ b ≠ .ub ∧ V.invoke call F vs m = V.result call vs m b := by
  by_cases hex : ∃ b, Ends (V.lang call vs) F (V.enter m) b
  · obtain ⟨b, hb⟩ := hex
    refine ⟨b, hb, ?_, Conv.invoke_eq hb⟩
    rintro rfl
    exact h (Conv.invoke_eq hb)
  · exfalso
    apply h
    unfold Conv.invoke
    rw [dif_neg hex]

theorem Conv.sem_le {c1 c2 : CallSem L} (h : ∀ f vs m, c1 f vs m ≠ .ub → c2 f vs m = c1 f vs m) (op : L.Op) (vs : List L.V) (m : L.M) (hu : V.sem c1 op vs m ≠ .ub) :
    V.sem c2 op vs m = V.sem c1 op vs m := by
  unfold Conv.sem at hu ⊢
  cases hc : V.callee op with
  | none => rfl
  | some f => rw [hc] at hu; exact h f vs m hu

theorem Conv.result_re {c1 c2 : CallSem L} {vs : List L.V} {m : L.M} (b : Beh (V.lang c1 vs)) : V.result c2 vs m b.re = V.result c1 vs m b := by cases b <;> rfl

/-- better calls, better function -/
theorem Conv.invoke_le {c1 c2 : CallSem L} (h : ∀ f vs m, c1 f vs m ≠ .ub → c2 f vs m = c1 f vs m) {F : L.F} {vs : List L.V} {m : L.M} (hu : V.invoke c1 F vs m ≠ .ub) :
    V.invoke c2 F vs m = V.invoke c1 F vs m := by
  obtain ⟨b, hb, hne, he⟩ := Conv.invoke_ends hu
  have := upd_ends (F := F) (Conv.sem_le (V := V) h) (fun _ _ _ _ _ _ _ => rfl) hb hne
  rw [Conv.invoke_eq this, he, Conv.result_re]

/-- deeper nesting changes nothing -/
theorem Conv.call_le (P : Nat → Option L.F) : ∀ d f vs m, V.call P d f vs m ≠ .ub → V.call P (d + 1) f vs m = V.call P d f vs m := by
  intro d
  induction d with
  | zero => intro f vs m h; exact absurd rfl h
  | succ d ih =>
    intro f vs m h
    simp only [Conv.call] at h ⊢
    cases hF : P f with
    | none => rfl
    | some F =>
      rw [hF] at h
      simp only at h ⊢
      exact Conv.invoke_le ih h

/-- a callee's call in the caller's memory -/
theorem Conv.invoke_lift {c : CallSem L} {F : L.F} {vs : List L.V} {m mc : L.M} (hI : V.I mc) :
    match V.invoke c F vs mc with
    | .ok v mc' es => V.I mc' ∧ V.invoke c F vs (V.leave m mc) = .ok v (V.leave m mc') es
    | .halt es h => V.invoke c F vs (V.leave m mc) = .halt es h
    | .ub => True := by
  by_cases hu : V.invoke c F vs mc = .ub
  · rw [hu]; trivial
  · obtain ⟨b, hb, hne, he⟩ := Conv.invoke_ends hu
    have hb' : Ends (V.lang c vs) F (V.enter (V.leave m mc)) b := by rw [V.enter_leave m mc hI]; exact hb
    rw [he, Conv.invoke_eq hb']
    cases b with
    | ub => trivial
    | halt h es => rfl
    | ret v m' es =>
      refine ⟨V.I_leave _ _ hI, ?_⟩
      simp only [Conv.result]
      rw [V.leave_leave]

theorem Conv.call_lift (P : Nat → Option L.F) (d f : Nat) {vs : List L.V} {m mc : L.M} (hI : V.I mc) :
    match V.call P d f vs mc with
    | .ok v mc' es => V.I mc' ∧ V.call P d f vs (V.leave m mc) = .ok v (V.leave m mc') es
    | .halt es h => V.call P d f vs (V.leave m mc) = .halt es h
    | .ub => True := by
  cases d with
  | zero => trivial
  | succ d =>
    simp only [Conv.call]
    cases P f with
    | none => trivial
    | some F => exact Conv.invoke_lift hI

/-- a program with one function exchanged -/
def setFn {Op C : Type} (P : Nat → Option (Func Op C)) (f : Nat) (F : Func Op C) : Nat → Option (Func Op C) := fun g => if g = f then some F else P g

/-- Exchanging a function: enough that it refines the old one whatever the calls in the *new* program do at this depth. -/
theorem Conv.exchange {P : Nat → Option L.F} {f : Nat} {F F' : L.F} (hF : P f = some F) (h : ∀ d vs, Refines (V.lang (V.call (setFn P f F') d) vs) F F') :
    ∀ d g vs m, V.call P d g vs m ≠ .ub → V.call (setFn P f F') d g vs m = V.call P d g vs m := by
  intro d
  induction d with
  | zero => intro g vs m hu; exact absurd rfl hu
  | succ d ih =>
    intro g vs m hu
    simp only [Conv.call] at hu ⊢
    by_cases hg : g = f
    · subst hg
      rw [hF] at hu ⊢
      simp only at hu ⊢
      have h1 := Conv.invoke_le (V := V) ih hu
      rw [← h1] at hu ⊢
      obtain ⟨b, hb, hne, he⟩ := Conv.invoke_ends hu
      have hb' := (h d vs (V.enter m)).1 b hb hne
      have hset : setFn P g F' g = some F' := if_pos rfl
      rw [hset]
      simp only
      rw [Conv.invoke_eq hb', he]
    · have : setFn P f F' g = P g := if_neg hg
      rw [this]
      cases hG : P g with
      | none => rfl
      | some G =>
        rw [hG] at hu
        simp only at hu ⊢
        exact Conv.invoke_le ih hu

/-- what a callee may do itself: nothing that depends on the locals of the caller (no `alloca`) -/
def NoLocals (V : Conv L) (G : L.F) : Prop := ∀ q T, G.blk q = some T → ∀ i ∈ T.body, V.callee i.op = none → LiftsOp L V.leave V.I i.op

theorem Conv.callOf {P : Nat → Option L.F} {g : Nat} {G : L.F} (hG : P g = some G) {op : L.Op} (hop : V.callee op = some g) {n : Nat} (hno : NoLocals V G)
    (hpar : ∀ q T, G.blk q = some T → ∀ o ∈ T.opds, ∀ c j, o = .cst c → V.param c = some j → j < n) (d : Nat) (ws : List L.V) :
    CallOf (V.lang (V.call P d) ws) op n V.param G V.enter V.leave V.I := by
  refine ⟨V.enter_I, V.leave_enter, ?_, ?_⟩
  · intro q T hT i hi vs m mc hI
    cases hc : V.callee i.op with
    | none =>
      have e : ∀ m, (V.lang (V.call P d) ws).sem i.op vs m = L.sem i.op vs m := by
        intro m
        show V.sem _ _ _ _ = _
        unfold Conv.sem
        rw [hc]
      rw [e, e]
      have := hno q T hT i hi hc vs m mc hI
      revert this
      cases L.sem i.op vs mc <;> exact id
    | some f =>
      have e : ∀ m, (V.lang (V.call P d) ws).sem i.op vs m = V.call P d f vs m := by
        intro m
        show V.sem _ _ _ _ = _
        unfold Conv.sem
        rw [hc]
      rw [e, e]
      have := Conv.call_lift (V := V) P d f (vs := vs) (m := m) hI
      revert this
      cases V.call P d f vs mc <;> exact id
  · intro vs m hlen
    have e : (V.lang (V.call P d) ws).sem op vs m = V.call P d g vs m := by
      show V.sem _ _ _ _ = _
      unfold Conv.sem
      rw [hop]
    rw [e]
    by_cases hu : V.call P d g vs m = .ub
    · exact .inl hu
    · right
      cases d with
      | zero => exact absurd rfl hu
      | succ d =>
        have hcall : V.call P (d + 1) g vs m = V.invoke (V.call P d) G vs m := by simp only [Conv.call, hG]
        rw [hcall] at hu ⊢
        obtain ⟨b, hb, hne, he⟩ := Conv.invoke_ends hu
        have hb' := upd_ends (L := L) (F := G) (c2 := ((V.lang (V.call P (d + 1)) ws).withArgs V.param vs).cval) (Conv.sem_le (V := V) (Conv.call_le (V := V) P d)) (by
          intro q T hT o ho c hc
          simp only
          cases hp : V.param c with
          | none => rfl
          | some j =>
            have := hpar q T hT o ho c j hc hp
            rw [← hlen] at this
            simp only [List.getElem?_eq_getElem this, Option.getD_some]) hb hne
        refine ⟨b.re, hb', ?_⟩
        rw [he]
        cases b with
        | ub => exact absurd rfl hne
        | halt h es => rfl
        | ret v mc es =>
          refine ⟨v.getD V.void, rfl, ?_⟩
          rintro x rfl
          rfl

/-- **One call inlined, in a program**: every call that ends in the program ends the same way in the new program. -/
theorem inline_program {P : Nat → Option L.F} {K : Copy} {f g : Nat} {F G : L.F} {b k : Nat} {valued : Bool} {B : L.B} {call : Inst L.Op L.C} (hF : P f = some F) (hG : P g = some G)
    (hfg : g ≠ f) (hcall : V.callee call.op = some g) (hno : NoLocals V G) (S : Shape F) (h : InlineOk K V.param F G b k valued B call) :
    ∀ d e vs m, V.call P d e vs m ≠ .ub → V.call (setFn P f (F.inline K V.param b k valued G)) d e vs m = V.call P d e vs m := by
  refine Conv.exchange hF (fun d vs => ?_)
  exact inline_refines h S (Conv.callOf (by unfold setFn; rw [if_neg hfg]; exact hG) hcall hno h.params d vs)

end
end Cmmc.SSA
