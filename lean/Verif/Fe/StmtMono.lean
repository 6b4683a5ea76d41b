import Verif.Fe.ExprMain3
/-!
# Statements: inversion, emission only adds code
-/
namespace Cmmc.Fe
open Cmmc

section
variable {sigs : Sigs} {P : Wd} {rt : Option IT}

/-- emission of statements: adds code, keeps the loop targets -/
structure SM (c c' : Ctx) : Prop extends Mono c c' where
  loops : c'.loops = c.loops

theorem EM.sm {c c' : Ctx} (h : EM c c') : SM c c' := ⟨h.mono, h.same.loops⟩
theorem SM.trans {a b c : Ctx} (h : SM a b) (h' : SM b c) : SM a c := ⟨h.toMono.trans h'.toMono, h'.loops.trans h.loops⟩
theorem SM.refl (c : Ctx) : SM c c := ⟨Mono.refl c, rfl⟩

theorem sm_setCur {a c : Ctx} (h : SM a c) {b : Nat} (hb : b = a.cur ∨ a.nb ≤ b) (hn : b < c.nb) : SM a (c.setCur b) :=
  ⟨mono_setCur h.toMono hb hn, h.loops⟩

/-- states that differ only in variables -/
theorem sm_vars {c c' : Ctx} (h1 : c'.nb = c.nb) (h2 : c'.nv = c.nv) (h3 : c'.slots = c.slots) (h4 : c'.cur = c.cur) (h5 : c'.code = c.code)
    (h6 : c'.loops = c.loops) : SM c c' where
  nb := by rw [h1]
  nv := by rw [h2]
  slots := by rw [h3]
  code b := by rw [h5]
  fix _ _ _ := by rw [h5]
  cur := Or.inl h4
  wf w := ⟨by rw [h1, h4]; exact w.cur, by rw [h1, h5]; exact w.empty, by rw [h5]; exact w.phi, by rw [h5]; exact w.zero⟩
  loops := h6

theorem sm_alloc (c : Ctx) (z : Int) : SM c (c.alloc z).2 where
  nb := le_rfl
  nv := le_rfl
  slots := List.prefix_append _ _
  code _ := List.prefix_rfl
  fix _ _ _ := rfl
  cur := Or.inl rfl
  wf w := ⟨w.cur, w.empty, w.phi, w.zero⟩
  loops := rfl

theorem addId_eq {c c' : Ctx} {x : String} {q : QVal} (h : c.addId x q = some c') :
    ∃ sc scs, c.scopes = sc :: scs ∧ x ∉ sc ∧
      c' = { c with scopes := (x :: sc) :: scs, vars := fun y => if y = x then q :: c.vars y else c.vars y } := by
  unfold Ctx.addId at h
  split at h
  · cases h
  · rename_i sc scs hs
    split at h
    · cases h
    · rename_i hx
      simp only [Option.some.injEq] at h
      exact ⟨sc, scs, hs, fun hc => hx (Or.inr hc), h.symm⟩

theorem sm_addId {c c' : Ctx} {x : String} {q : QVal} (h : c.addId x q = some c') : SM c c' := by
  obtain ⟨sc, scs, _, _, rfl⟩ := addId_eq h
  exact sm_vars rfl rfl rfl rfl rfl rfl

theorem popScope_eq {c c' : Ctx} (h : c.popScope = some c') :
    ∃ sc scs, c.scopes = sc :: scs ∧ c' = { c with scopes := scs, vars := (popNames sc (c.vars, c.cb)).1, cb := (popNames sc (c.vars, c.cb)).2 } := by
  unfold Ctx.popScope at h
  split at h
  · cases h
  · rename_i sc scs hs
    simp only [Option.some.injEq] at h
    exact ⟨sc, scs, hs, h.symm⟩

theorem sm_popScope {c c' : Ctx} (h : c.popScope = some c') : SM c c' := by
  obtain ⟨sc, scs, _, rfl⟩ := popScope_eq h
  exact sm_vars rfl rfl rfl rfl rfl rfl

theorem sm_pushScope (c : Ctx) : SM c c.pushScope := sm_vars rfl rfl rfl rfl rfl rfl

theorem sm_addConst (c : Ctx) (o : Opd) (w : Wd) (n : Nat) : SM c (c.addConst o w n) := by
  unfold Ctx.addConst
  split
  · exact SM.refl c
  · exact sm_vars rfl rfl rfl rfl rfl rfl

theorem mono_loops {c c' : Ctx} (h : Mono c c') (l : List (Nat × Nat)) : Mono c { c' with loops := l } :=
  ⟨⟨h.nb, h.nv, h.slots, h.code⟩, h.fix, h.cur, fun w => ⟨(h.wf w).cur, (h.wf w).empty, (h.wf w).phi, (h.wf w).zero⟩⟩

/-! ## inversion -/

theorem emitS_seq {a b : Stmt} {c c' : Ctx} (h : emitS sigs P rt (.seq a b) c = some c') :
    ∃ c1, emitS sigs P rt a c = some c1 ∧ emitS sigs P rt b c1 = some c' := by
  rw [emitS] at h; exact bind_some' h

theorem emitS_expr {e : Expr} {c c' : Ctx} (h : emitS sigs P rt (.expr e) c = some c') : ∃ q, emitE sigs P e c = some (q, c') := by
  rw [emitS] at h
  obtain ⟨⟨q, c1⟩, h1, h⟩ := bind_some' h
  simp only [Option.some.injEq] at h
  exact ⟨q, by rw [h1, h]⟩

/-- the constant binding of a declaration -/
def bindConst (c : Ctx) (slot o : Opd) (w : Wd) (cst : Bool) : Ctx :=
  match isCInt o, cst with
  | some n, true => c.addConst slot w n
  | _, _ => c

theorem sm_bindConst (c : Ctx) (slot o : Opd) (w : Wd) (cst : Bool) : SM c (bindConst c slot o w cst) := by
  unfold bindConst
  split
  · exact sm_addConst _ _ _ _
  · exact SM.refl c

theorem emitS_declI {x : String} {w : Wd} {sg cst : Bool} {e : Expr} {c c' : Ctx}
    (h : emitS sigs P rt (.decl x (.int w) sg cst (some e)) c = some c') :
    ∃ q c1 o t c2, emitE sigs P e (c.alloc 1).2 = some (q, c1) ∧ getRValue c1 q = some (o, t, c2) ∧
      let v := convertTo c2 o t ⟨w, sg⟩
      let s := v.2.op (.store w.bits) [.inst (2 * c.slots.length), v.1]
      (bindConst s.2 (.inst (2 * c.slots.length)) v.1 w cst).addId x ⟨.inst (2 * c.slots.length), .lv (.int w) sg cst⟩ = some c' := by
  rw [emitS] at h
  simp only [Ty.ok, if_true] at h
  obtain ⟨⟨q, c1⟩, h1, h⟩ := bind_some' h
  obtain ⟨⟨o, t, c2⟩, h2, h⟩ := bind_some' h
  exact ⟨q, c1, o, t, c2, h1, h2, h⟩

theorem emitS_declN {x : String} {w : Wd} {sg cst : Bool} {c c' : Ctx} (h : emitS sigs P rt (.decl x (.int w) sg cst none) c = some c') :
    ((c.alloc 1).2.op (.store w.bits) [.inst (2 * c.slots.length), cint w 0]).2.addId x ⟨.inst (2 * c.slots.length), .lv (.int w) sg cst⟩ = some c' := by
  rw [emitS] at h
  simp only [Ty.ok, if_true] at h
  exact h

theorem emitS_declA {x : String} {k : Nat} {ty : Ty} {sg cst : Bool} {i : Option Expr} {c c' : Ctx}
    (h : emitS sigs P rt (.decl x (.arr k ty) sg cst i) c = some c') :
    (Ty.arr k ty).ok = true ∧ i = none ∧
      (c.alloc (Ty.arr k ty).cnt).2.addId x ⟨.inst (2 * c.slots.length), .lv (.arr k ty) sg cst⟩ = some c' := by
  rw [emitS] at h
  split at h
  · rename_i hok
    cases i with
    | none => exact ⟨hok, rfl, h⟩
    | some e => cases h
  · cases h

theorem emitS_scope {a : Stmt} {c c' : Ctx} (h : emitS sigs P rt (.scope a) c = some c') :
    ∃ c1, emitS sigs P rt a c.pushScope = some c1 ∧ c1.popScope = some c' := by
  rw [emitS] at h; exact bind_some' h

theorem emitS_ifThen {k : Expr} {a : Stmt} {c c' : Ctx} (h : emitS sigs P rt (.ifThen k a) c = some c') :
    ∃ o c1 c2, emitC sigs P k c = some (o, c1) ∧ emitS sigs P rt a (c1.newBlock.2.newBlock.2.setCur c1.nb) = some c2 ∧
      c' = (((c2.term (.br (c1.nb + 1))).setCur c1.cur).term (.cbr o c1.nb (c1.nb + 1))).setCur (c1.nb + 1) := by
  rw [emitS] at h
  obtain ⟨⟨o, c1⟩, h1, h⟩ := bind_some' h
  obtain ⟨c2, h2, h⟩ := bind_some' h
  simp only [Option.some.injEq] at h
  exact ⟨o, c1, c2, h1, h2, h.symm⟩

theorem emitS_ifElse {k : Expr} {a b : Stmt} {c c' : Ctx} (h : emitS sigs P rt (.ifElse k a b) c = some c') :
    ∃ o c1 c2 c3, emitC sigs P k c = some (o, c1) ∧ emitS sigs P rt a (c1.newBlock.2.newBlock.2.setCur c1.nb) = some c2 ∧
      emitS sigs P rt b ((((c2.term (.br (c1.nb + 1))).newBlock.2.setCur c1.cur).term (.cbr o c1.nb c2.nb)).setCur c2.nb) = some c3 ∧
      c' = (c3.term (.br (c1.nb + 1))).setCur (c1.nb + 1) := by
  rw [emitS] at h
  obtain ⟨⟨o, c1⟩, h1, h⟩ := bind_some' h
  obtain ⟨c2, h2, h⟩ := bind_some' h
  obtain ⟨c3, h3, h⟩ := bind_some' h
  simp only [Option.some.injEq] at h
  exact ⟨o, c1, c2, c3, h1, h2, h3, h.symm⟩

theorem emitS_while {k : Expr} {a : Stmt} {c c' : Ctx} (h : emitS sigs P rt (.while k a) c = some c') :
    ∃ o c1 c2, emitC sigs P k ((c.newBlock.2.term (.br c.nb)).setCur c.nb) = some (o, c1) ∧
      emitS sigs P rt a (({ c1.newBlock.2.newBlock.2.term (.cbr o c1.nb (c1.nb + 1)) with loops := (c.nb, c1.nb + 1) :: c1.loops } : Ctx).setCur c1.nb) = some c2 ∧
      c' = ({ c2.term (.br c.nb) with loops := c2.loops.tail } : Ctx).setCur (c1.nb + 1) := by
  rw [emitS] at h
  obtain ⟨⟨o, c1⟩, h1, h⟩ := bind_some' h
  obtain ⟨c2, h2, h⟩ := bind_some' h
  simp only [Option.some.injEq] at h
  exact ⟨o, c1, c2, h1, h2, h.symm⟩

theorem emitS_doWhile {k : Expr} {a : Stmt} {c c' : Ctx} (h : emitS sigs P rt (.doWhile a k) c = some c') :
    ∃ c1 o c2, emitS sigs P rt a (({ c.newBlock.2.newBlock.2.newBlock.2.term (.br c.nb) with loops := (c.nb + 1, c.nb + 2) :: c.loops } : Ctx).setCur c.nb) = some c1 ∧
      emitC sigs P k (({ c1.term (.br (c.nb + 1)) with loops := c1.loops.tail } : Ctx).setCur (c.nb + 1)) = some (o, c2) ∧
      c' = (c2.term (.cbr o c.nb (c.nb + 2))).setCur (c.nb + 2) := by
  rw [emitS] at h
  obtain ⟨c1, h1, h⟩ := bind_some' h
  obtain ⟨⟨o, c2⟩, h2, h⟩ := bind_some' h
  simp only [Option.some.injEq] at h
  exact ⟨c1, o, c2, h1, h2, h.symm⟩

/-- the condition of a `for` loop with its branch -/
def emitFC (sigs : Sigs) (P : Wd) (k : Option Expr) (body next : Nat) (c : Ctx) : Option Ctx :=
  match k with
  | some k => (emitC sigs P k c).bind fun p => some (p.2.term (.cbr p.1 body next))
  | none => some (c.term (.br body))

/-- its iteration expression -/
def emitFI (sigs : Sigs) (P : Wd) (it : Option Expr) (c : Ctx) : Option Ctx :=
  match it with
  | some e => (emitE sigs P e c).bind fun p => some p.2
  | none => some c

theorem emitS_for {i : Stmt} {k it : Option Expr} {a : Stmt} {c c' : Ctx} (h : emitS sigs P rt (.for i k it a) c = some c') :
    ∃ c0 c1 c2 c3, emitS sigs P rt i c.pushScope = some c0 ∧
      emitFC sigs P k (c0.nb + 1) (c0.nb + 3) ((c0.newBlock.2.newBlock.2.newBlock.2.newBlock.2.term (.br c0.nb)).setCur c0.nb) = some c1 ∧
      emitS sigs P rt a ({ c1.setCur (c0.nb + 1) with loops := (c0.nb + 2, c0.nb + 3) :: c1.loops } : Ctx) = some c2 ∧
      emitFI sigs P it (({ c2.term (.br (c0.nb + 2)) with loops := c2.loops.tail } : Ctx).setCur (c0.nb + 2)) = some c3 ∧
      ((c3.term (.br c0.nb)).setCur (c0.nb + 3)).popScope = some c' := by
  rw [emitS] at h
  obtain ⟨c0, h0, h⟩ := bind_some' h
  cases k with
  | none =>
    obtain ⟨c1, h1, h⟩ := bind_some' h
    obtain ⟨c2, h2, h⟩ := bind_some' h
    cases it with
    | none =>
      obtain ⟨c3, h3, h⟩ := bind_some' h
      exact ⟨c0, c1, c2, c3, h0, h1, h2, h3, h⟩
    | some e =>
      obtain ⟨⟨q, c3⟩, h3, h⟩ := bind_some' h
      obtain ⟨c3', h3', h⟩ := bind_some' h
      exact ⟨c0, c1, c2, c3', h0, h1, h2, Option.bind_eq_some_iff.2 ⟨(q, c3), h3, h3'⟩, h⟩
  | some k =>
    obtain ⟨⟨o, c1⟩, h1, h⟩ := bind_some' h
    obtain ⟨c1', h1', h⟩ := bind_some' h
    obtain ⟨c2, h2, h⟩ := bind_some' h
    cases it with
    | none =>
      obtain ⟨c3, h3, h⟩ := bind_some' h
      exact ⟨c0, c1', c2, c3, h0, Option.bind_eq_some_iff.2 ⟨(o, c1), h1, h1'⟩, h2, h3, h⟩
    | some e =>
      obtain ⟨⟨q, c3⟩, h3, h⟩ := bind_some' h
      obtain ⟨c3', h3', h⟩ := bind_some' h
      exact ⟨c0, c1', c2, c3', h0, Option.bind_eq_some_iff.2 ⟨(o, c1), h1, h1'⟩, h2, Option.bind_eq_some_iff.2 ⟨(q, c3), h3, h3'⟩, h⟩

theorem emitS_ret {e : Expr} {c c' : Ctx} (h : emitS sigs P rt (.ret (some e)) c = some c') :
    ∃ t q c1 o s c2, rt = some t ∧ emitE sigs P e c = some (q, c1) ∧ getRValue c1 q = some (o, s, c2) ∧
      c' = (convertTo c2 o s t).2.term (.ret (some (convertTo c2 o s t).1)) := by
  cases rt with
  | none => rw [emitS] at h; cases h
  | some t =>
    rw [emitS] at h
    obtain ⟨⟨q, c1⟩, h1, h⟩ := bind_some' h
    obtain ⟨⟨o, s, c2⟩, h2, h⟩ := bind_some' h
    simp only [Option.some.injEq] at h
    exact ⟨t, q, c1, o, s, c2, rfl, h1, h2, h.symm⟩

theorem em_emitFC {k : Option Expr} {b n : Nat} {c c' : Ctx} (w : Wf c) (h : emitFC sigs P k b n c = some c') : EM c c' := by
  cases k with
  | none =>
    simp only [emitFC, Option.some.injEq] at h
    rw [← h]; exact em_term _ _
  | some k =>
    obtain ⟨⟨o, c1⟩, h1, h⟩ := bind_some' h
    simp only [Option.some.injEq] at h
    rw [← h]
    exact (em_emitC w h1).trans (em_term _ _)

theorem em_emitFI {k : Option Expr} {c c' : Ctx} (w : Wf c) (h : emitFI sigs P k c = some c') : EM c c' := by
  cases k with
  | none =>
    simp only [emitFI, Option.some.injEq] at h
    rw [← h]; exact EM.refl c
  | some k =>
    obtain ⟨⟨o, c1⟩, h1, h⟩ := bind_some' h
    simp only [Option.some.injEq] at h
    rw [← h]
    exact em_emitE _ _ _ _ w h1

/-! ## monotonicity -/

theorem sm_emitS : ∀ (s : Stmt) (c c' : Ctx), Wf c → emitS sigs P rt s c = some c' → SM c c'
  | .skip, c, c', w, h => by rw [emitS] at h; cases h; exact SM.refl c
  | .seq a b, c, c', w, h => by
    obtain ⟨c1, h1, h2⟩ := emitS_seq h
    have e1 := sm_emitS a _ _ w h1
    exact e1.trans (sm_emitS b _ _ (e1.wf w) h2)
  | .expr e, c, c', w, h => by
    obtain ⟨q, h1⟩ := emitS_expr h
    exact (em_emitE _ _ _ _ w h1).sm
  | .decl x (.int wd) sg cst (some e), c, c', w, h => by
    obtain ⟨q, c1, o, t, c2, h1, h2, h3⟩ := emitS_declI h
    have a0 := sm_alloc c 1
    have e1 := (em_emitE _ _ _ _ (a0.wf w) h1).trans (em_getRValue h2)
    exact (((a0.trans e1.sm).trans ((em_convertTo _ _ _ _).trans (em_op _ _ _)).sm).trans (sm_bindConst _ _ _ _ _)).trans (sm_addId h3)
  | .decl x (.int wd) sg cst none, c, c', w, h => ((sm_alloc c 1).trans (em_op _ _ _).sm).trans (sm_addId (emitS_declN h))
  | .decl x (.arr k ty) sg cst i, c, c', w, h => (sm_alloc c _).trans (sm_addId (emitS_declA h).2.2)
  | .scope a, c, c', w, h => by
    obtain ⟨c1, h1, h2⟩ := emitS_scope h
    exact ((sm_pushScope c).trans (sm_emitS a _ _ ((sm_pushScope c).wf w) h1)).trans (sm_popScope h2)
  | .ifThen k a, c, c', w, h => by
    obtain ⟨o, c1, c2, h1, h2, rfl⟩ := emitS_ifThen h
    have e1 := (em_emitC w h1).sm
    have n1 : c.nb ≤ c1.nb := e1.nb
    have w1 := e1.wf w
    have e2 := e1.trans ((em_newBlock c1).trans (em_newBlock _)).sm
    have e3 := sm_setCur e2 (b := c1.nb) (Or.inr n1) (by show c1.nb < c1.nb + 1 + 1; omega)
    have ea := sm_emitS a _ _ (e3.wf w) h2
    have n2 : c1.nb + 1 + 1 ≤ c2.nb := ea.nb
    have hc1 := w1.cur
    have k1 := e1.cur
    have e4 := (e3.trans ea).trans (em_term c2 (.br (c1.nb + 1))).sm
    have e5 := (sm_setCur e4 (b := c1.cur) k1 (by show c1.cur < c2.nb; omega)).trans (em_term _ (.cbr o c1.nb (c1.nb + 1))).sm
    exact sm_setCur e5 (Or.inr (by omega)) (by show c1.nb + 1 < c2.nb; omega)
  | .ifElse k a b, c, c', w, h => by
    obtain ⟨o, c1, c2, c3, h1, h2, h3, rfl⟩ := emitS_ifElse h
    have e1 := (em_emitC w h1).sm
    have n1 : c.nb ≤ c1.nb := e1.nb
    have w1 := e1.wf w
    have e2 := e1.trans ((em_newBlock c1).trans (em_newBlock _)).sm
    have e3 := sm_setCur e2 (b := c1.nb) (Or.inr n1) (by show c1.nb < c1.nb + 1 + 1; omega)
    have ea := sm_emitS a _ _ (e3.wf w) h2
    have n2 : c1.nb + 1 + 1 ≤ c2.nb := ea.nb
    have hc1 := w1.cur
    have k1 := e1.cur
    have e4 := ((e3.trans ea).trans (em_term c2 (.br (c1.nb + 1))).sm).trans (em_newBlock _).sm
    have e5 := (sm_setCur e4 (b := c1.cur) k1 (by show c1.cur < c2.nb + 1; omega)).trans (em_term _ (.cbr o c1.nb c2.nb)).sm
    have e6 := sm_setCur e5 (b := c2.nb) (Or.inr (by omega)) (by show c2.nb < c2.nb + 1; omega)
    have eb := sm_emitS b _ _ (e6.wf w) h3
    have n3 : c2.nb + 1 ≤ c3.nb := eb.nb
    have e7 := (e6.trans eb).trans (em_term c3 (.br (c1.nb + 1))).sm
    exact sm_setCur e7 (Or.inr (by omega)) (by show c1.nb + 1 < c3.nb; omega)
  | .while k a, c, c', w, h => by
    obtain ⟨o, c1, c2, h1, h2, rfl⟩ := emitS_while h
    have e0 := (em_newBlock c).trans (em_term c.newBlock.2 (.br c.nb))
    have e1 := em_setCur e0 (b := c.nb) (Or.inr le_rfl) (by show c.nb < c.nb + 1; omega)
    have ek := em_emitC (e1.wf w) h1
    have n1 : c.nb + 1 ≤ c1.nb := ek.nb
    have e2 := (e1.trans ek).trans (((em_newBlock c1).trans (em_newBlock _)).trans (em_term _ (.cbr o c1.nb (c1.nb + 1))))
    have e3 := mono_setCur (mono_loops e2.mono ((c.nb, c1.nb + 1) :: c1.loops)) (b := c1.nb) (Or.inr (by omega)) (by show c1.nb < c1.nb + 1 + 1; omega)
    have ea := sm_emitS a _ _ (e3.wf w) h2
    have n2 : c1.nb + 1 + 1 ≤ c2.nb := ea.nb
    have hl : c2.loops = (c.nb, c1.nb + 1) :: c1.loops := ea.loops
    have e4 := (e3.trans ea.toMono).trans (em_term c2 (.br c.nb)).mono
    refine ⟨mono_setCur (mono_loops e4 _) (Or.inr (by omega)) (by show c1.nb + 1 < c2.nb; omega), ?_⟩
    show c2.loops.tail = c.loops
    rw [hl]
    exact (e1.trans ek).loops
  | .doWhile a k, c, c', w, h => by
    obtain ⟨c1, o, c2, h1, h2, rfl⟩ := emitS_doWhile h
    have e0 := (((em_newBlock c).trans (em_newBlock _)).trans (em_newBlock _)).trans (em_term c.newBlock.2.newBlock.2.newBlock.2 (.br c.nb))
    have e1 := mono_setCur (mono_loops e0.mono ((c.nb + 1, c.nb + 2) :: c.loops)) (b := c.nb) (Or.inr le_rfl) (by show c.nb < c.nb + 1 + 1 + 1; omega)
    have ea := sm_emitS a _ _ (e1.wf w) h1
    have n1 : c.nb + 1 + 1 + 1 ≤ c1.nb := ea.nb
    have hl : c1.loops = (c.nb + 1, c.nb + 2) :: c.loops := ea.loops
    have e2 := (e1.trans ea.toMono).trans (em_term c1 (.br (c.nb + 1))).mono
    have e3 := mono_setCur (mono_loops e2 c1.loops.tail) (b := c.nb + 1) (Or.inr (by omega)) (by show c.nb + 1 < c1.nb; omega)
    have ek := em_emitC (e3.wf w) h2
    have n2 : c1.nb ≤ c2.nb := ek.nb
    have e4 := (e3.trans ek.mono).trans (em_term c2 (.cbr o c.nb (c.nb + 2))).mono
    refine ⟨mono_setCur e4 (Or.inr (by omega)) (by show c.nb + 2 < c2.nb; omega), ?_⟩
    show c2.loops = c.loops
    rw [ek.loops]
    show c1.loops.tail = c.loops
    rw [hl]; rfl
  | .for i k it a, c, c', w, h => by
    obtain ⟨c0, c1, c2, c3, h0, h1, h2, h3, h4⟩ := emitS_for h
    have p0 := sm_pushScope c
    have ei := p0.trans (sm_emitS i _ _ (p0.wf w) h0)
    have n0 : c.nb ≤ c0.nb := ei.nb
    have e0 := ei.toMono.trans ((((em_newBlock c0).trans (em_newBlock _)).trans (em_newBlock _)).trans (em_newBlock _)).mono
    have e1 := e0.trans (em_term c0.newBlock.2.newBlock.2.newBlock.2.newBlock.2 (.br c0.nb)).mono
    have e2 := mono_setCur e1 (b := c0.nb) (Or.inr n0) (by show c0.nb < c0.nb + 1 + 1 + 1 + 1; omega)
    have ek := em_emitFC (e2.wf w) h1
    have n1 : c0.nb + 1 + 1 + 1 + 1 ≤ c1.nb := ek.nb
    have e3 := mono_setCur (e2.trans ek.mono) (b := c0.nb + 1) (Or.inr (by omega)) (by omega)
    have e4 := mono_loops e3 ((c0.nb + 2, c0.nb + 3) :: c1.loops)
    have ea := sm_emitS a _ _ (e4.wf w) h2
    have n2 : c1.nb ≤ c2.nb := ea.nb
    have hl : c2.loops = (c0.nb + 2, c0.nb + 3) :: c1.loops := ea.loops
    have e5 := (e4.trans ea.toMono).trans (em_term c2 (.br (c0.nb + 2))).mono
    have e6 := mono_setCur (mono_loops e5 c2.loops.tail) (b := c0.nb + 2) (Or.inr (by omega)) (by show c0.nb + 2 < c2.nb; omega)
    have et := em_emitFI (e6.wf w) h3
    have n3 : c2.nb ≤ c3.nb := et.nb
    have e7 := (e6.trans et.mono).trans (em_term c3 (.br c0.nb)).mono
    have e8 := mono_setCur e7 (b := c0.nb + 3) (Or.inr (by omega)) (by show c0.nb + 3 < c3.nb; omega)
    have ep := sm_popScope h4
    refine ⟨e8.trans ep.toMono, ?_⟩
    rw [ep.loops]
    show c3.loops = c.loops
    rw [et.loops]
    show c2.loops.tail = c.loops
    rw [hl]
    show c1.loops = c.loops
    rw [ek.loops]
    exact ei.loops
  | .brk, c, c', w, h => by
    rw [emitS] at h
    split at h
    · cases h; exact (em_term _ _).sm
    · cases h
  | .cont, c, c', w, h => by
    rw [emitS] at h
    split at h
    · cases h; exact (em_term _ _).sm
    · cases h
  | .ret none, c, c', w, h => by
    rw [emitS] at h
    split at h
    · cases h; exact (em_term _ _).sm
    · cases h
  | .ret (some e), c, c', w, h => by
    obtain ⟨t, q, c1, o, s, c2, _, h1, h2, rfl⟩ := emitS_ret h
    exact ((((em_emitE _ _ _ _ w h1).trans (em_getRValue h2)).trans (em_convertTo _ _ _ _)).trans (em_term _ _)).sm

end
end Cmmc.Fe
