import Verif.Fe.EmitInv
/-!
# Emission only adds code: at the end of the current block and in new blocks
-/
namespace Cmmc.Fe
open Cmmc

/-- the state of the builder is sensible -/
structure Wf (c : Ctx) : Prop where
  cur : c.cur < c.nb
  empty : ∀ b, c.nb ≤ b → c.code b = []
  phi : ∀ b, PhiOk (c.code b)
  zero : ∀ r ∈ c.code 0, r.isPhi = false

/-- `c'` is a later state than `c` -/
structure Ext' (c c' : Ctx) : Prop where
  nb : c.nb ≤ c'.nb
  nv : c.nv ≤ c'.nv
  slots : c.slots <+: c'.slots
  code : ∀ b, c.code b <+: c'.code b

/-- `c'` is reached from `c` by emitting something at the insert point -/
structure Mono (c c' : Ctx) : Prop extends Ext' c c' where
  fix : ∀ b, b < c.nb → b ≠ c.cur → c'.code b = c.code b
  cur : c'.cur = c.cur ∨ c.nb ≤ c'.cur
  wf : Wf c → Wf c'

/-- what expressions do not change -/
structure Same (c c' : Ctx) : Prop where
  vars : c'.vars = c.vars
  scopes : c'.scopes = c.scopes
  loops : c'.loops = c.loops
  cb : c'.cb = c.cb
  slotsEq : c'.slots = c.slots

theorem Ext'.refl (c : Ctx) : Ext' c c := ⟨le_rfl, le_rfl, List.prefix_rfl, fun _ => List.prefix_rfl⟩
theorem Ext'.trans {a b c : Ctx} (h : Ext' a b) (h' : Ext' b c) : Ext' a c :=
  ⟨h.nb.trans h'.nb, h.nv.trans h'.nv, h.slots.trans h'.slots, fun b => (h.code b).trans (h'.code b)⟩

theorem Mono.refl (c : Ctx) : Mono c c := ⟨Ext'.refl c, fun _ _ _ => rfl, Or.inl rfl, id⟩

theorem Mono.trans {a b c : Ctx} (h : Mono a b) (h' : Mono b c) : Mono a c where
  toExt' := h.toExt'.trans h'.toExt'
  fix x hx hc := by
    have h1 : x < b.nb := lt_of_lt_of_le hx h.nb
    have h2 : x ≠ b.cur := by rcases h.cur with e | e <;> omega
    rw [h'.fix x h1 h2, h.fix x hx hc]
  cur := by
    have := h.nb
    rcases h'.cur with e | e <;> rcases h.cur with e' | e' <;> omega
  wf := fun w => h'.wf (h.wf w)

theorem Same.refl (c : Ctx) : Same c c := ⟨rfl, rfl, rfl, rfl, rfl⟩
theorem Same.trans {a b c : Ctx} (h : Same a b) (h' : Same b c) : Same a c :=
  ⟨h'.vars.trans h.vars, h'.scopes.trans h.scopes, h'.loops.trans h.loops, h'.cb.trans h.cb, h'.slotsEq.trans h.slotsEq⟩

/-- both -/
structure EM (c c' : Ctx) : Prop extends Mono c c', Same c c'

theorem EM.mono {c c' : Ctx} (h : EM c c') : Mono c c' := h.toMono
theorem EM.same {c c' : Ctx} (h : EM c c') : Same c c' := h.toSame
theorem EM.refl (c : Ctx) : EM c c := ⟨Mono.refl c, Same.refl c⟩
theorem EM.trans {a b c : Ctx} (h : EM a b) (h' : EM b c) : EM a c := ⟨h.mono.trans h'.mono, h.same.trans h'.same⟩

theorem PhiOk.append {rs : List Raw} (h : PhiOk rs) {r : Raw} (hr : r.isPhi = false ∨ rs = []) : PhiOk (rs ++ [r]) := by
  cases rs with
  | nil => intro x hx; simp at hx
  | cons a rs =>
    rcases hr with hr | hr
    · intro x hx
      simp only [List.cons_append, List.tail_cons, List.mem_append, List.mem_singleton] at hx
      rcases hx with hx | rfl
      · exact h x hx
      · exact hr
    · cases hr

theorem wf_push {c : Ctx} (w : Wf c) {r : Raw} (hr : r.isPhi = false ∨ (c.code c.cur = [] ∧ c.cur ≠ 0)) : Wf (c.push r) where
  cur := w.cur
  empty b hb := by
    have h1 := w.cur
    have h2 : c.nb ≤ b := hb
    have : b ≠ c.cur := by omega
    simp only [Ctx.push, this, if_false]
    exact w.empty b h2
  phi b := by
    by_cases hb : b = c.cur
    · simp only [Ctx.push, hb, if_true]
      exact (w.phi _).append (hr.imp id And.left)
    · simp only [Ctx.push, hb, if_false]
      exact w.phi b
  zero x hx := by
    by_cases hb : 0 = c.cur
    · simp only [Ctx.push, hb, if_true, List.mem_append, List.mem_singleton] at hx
      rcases hx with hx | rfl
      · exact w.zero x (by rw [hb]; exact hx)
      · rcases hr with hr | hr
        · exact hr
        · exact absurd hb.symm hr.2
    · simp only [Ctx.push, hb, if_false] at hx
      exact w.zero x hx

theorem push_code (c : Ctx) (r : Raw) (b : Nat) : c.code b <+: (c.push r).code b := by
  by_cases hb : b = c.cur
  · simp [Ctx.push, hb]
  · simp [Ctx.push, hb]

theorem push_fix (c : Ctx) (r : Raw) {b : Nat} (hb : b ≠ c.cur) : (c.push r).code b = c.code b := by simp [Ctx.push, hb]

theorem em_term (c : Ctx) (t : SSA.Term Cst) : EM c (c.term t) where
  nb := le_rfl
  nv := le_rfl
  slots := List.prefix_rfl
  code := push_code c _
  fix _ _ hb := push_fix c _ hb
  cur := Or.inl rfl
  wf w := wf_push w (Or.inl rfl)
  toSame := ⟨rfl, rfl, rfl, rfl, rfl⟩

theorem em_op (c : Ctx) (o : Op) (as : List Opd) : EM c (c.op o as).2 where
  nb := le_rfl
  nv := Nat.le_succ _
  slots := List.prefix_rfl
  code := push_code c _
  fix _ _ hb := push_fix c _ hb
  cur := Or.inl rfl
  wf w := by
    have := wf_push w (r := .inst ⟨2 * c.nv + 1, o, as⟩) (Or.inl rfl)
    exact ⟨this.cur, this.empty, this.phi, this.zero⟩
  toSame := ⟨rfl, rfl, rfl, rfl, rfl⟩

theorem em_newBlock (c : Ctx) : EM c c.newBlock.2 where
  nb := Nat.le_succ _
  nv := le_rfl
  slots := List.prefix_rfl
  code := fun _ => List.prefix_rfl
  fix _ _ _ := rfl
  cur := Or.inl rfl
  wf w := ⟨Nat.lt_succ_of_lt w.cur, fun b hb => w.empty b (Nat.le_of_succ_le hb), w.phi, w.zero⟩
  toSame := ⟨rfl, rfl, rfl, rfl, rfl⟩

theorem mono_setCur {a c : Ctx} (h : Mono a c) {b : Nat} (hb : b = a.cur ∨ a.nb ≤ b) (hn : b < c.nb) : Mono a (c.setCur b) where
  toExt' := ⟨h.nb, h.nv, h.slots, h.code⟩
  fix := h.fix
  cur := hb
  wf w := ⟨hn, (h.wf w).empty, (h.wf w).phi, (h.wf w).zero⟩

theorem em_setCur {a c : Ctx} (h : EM a c) {b : Nat} (hb : b = a.cur ∨ a.nb ≤ b) (hn : b < c.nb) : EM a (c.setCur b) :=
  ⟨mono_setCur h.mono hb hn, ⟨h.vars, h.scopes, h.loops, h.cb, h.slotsEq⟩⟩

theorem em_phi {a c c' : Ctx} (h : EM a c) {inc : List (Nat × Opd)} {o : Opd} (hp : c.phi inc = some (o, c')) (hc : c.cur ≠ 0) : EM a c' := by
  unfold Ctx.phi at hp
  split at hp
  · rename_i he
    simp only [Option.some.injEq, Prod.mk.injEq] at hp
    obtain ⟨_, rfl⟩ := hp
    apply h.trans
    exact { nb := le_rfl, nv := Nat.le_succ _, slots := List.prefix_rfl, code := push_code c _, fix := fun _ _ hb => push_fix c _ hb,
            cur := Or.inl rfl,
            wf := fun w => by
              have := wf_push w (r := .phi ⟨2 * c.nv + 1, inc⟩) (Or.inr ⟨by simpa using he, hc⟩)
              exact ⟨this.cur, this.empty, this.phi, this.zero⟩,
            toSame := ⟨rfl, rfl, rfl, rfl, rfl⟩ }
  · cases hp

theorem em_convertTo (c : Ctx) (o : Opd) (s d : IT) : EM c (convertTo c o s d).2 := by
  unfold convertTo
  split
  · exact EM.refl c
  · split
    · exact EM.refl c
    · split
      · exact em_op _ _ _
      · exact em_op _ _ _

theorem em_getRValue {c : Ctx} {q : QVal} {o : Opd} {t : IT} {c' : Ctx} (h : getRValue c q = some (o, t, c')) : EM c c' := by
  unfold getRValue at h
  split at h
  · simp only [Option.some.injEq, Prod.mk.injEq] at h; rw [← h.2.2]; exact EM.refl c
  · split at h
    · simp only [Option.some.injEq, Prod.mk.injEq] at h; rw [← h.2.2]; exact EM.refl c
    · simp only [Option.some.injEq, Prod.mk.injEq] at h; rw [← h.2.2]; exact em_op _ _ _
  · cases h

theorem em_makeBinaryOp (c : Ctx) (op : BOp) (t : IT) (l r : Opd) : EM c (makeBinaryOp c op t l r).2 := by
  unfold makeBinaryOp
  split
  · exact EM.refl c
  · split
    · exact em_op _ _ _
    · exact (em_op _ _ _).trans (em_op _ _ _)

theorem em_emitArith (c : Ctx) (op : BOp) (l : Opd) (lt : IT) (r : Opd) (rt : IT) : EM c (emitArith c op l lt r rt).2.2 :=
  ((em_convertTo _ _ _ _).trans (em_convertTo _ _ _ _)).trans (em_makeBinaryOp _ _ _ _ _)

theorem em_emitUn (c : Ctx) (op : UOp) (o : Opd) (t : IT) : EM c (emitUn c op o t).2.2 := by
  unfold emitUn
  have h : EM c (if t.w.bits / 8 < 4 then convertTo c o t (applyPromotion t) else (o, c)).2 := by
    split
    · exact em_convertTo _ _ _ _
    · exact EM.refl c
  dsimp only
  split
  · exact h
  · exact h
  · exact h.trans (em_op _ _ _)
  · exact h
  · exact h.trans (em_op _ _ _)
  · exact h.trans (((em_op _ _ _).trans (em_op _ _ _)).trans (em_op _ _ _))

theorem em_incdec (pre inc : Bool) (w : Wd) (sg : Bool) (o : Opd) (c : Ctx) : EM c (incdecOps pre inc w sg o c).2 := by
  unfold incdecOps
  dsimp only
  split
  · exact ((((em_op _ _ _).trans (em_convertTo _ _ _ _)).trans (em_op _ _ _)).trans (em_op _ _ _)).trans (em_op _ _ _)
  · exact ((em_op _ _ _).trans (em_op _ _ _)).trans (em_op _ _ _)

theorem em_pos {c c' : Ctx} (h : EM c c') (w : Wf c) : 0 < c'.nb := lt_of_le_of_lt (Nat.zero_le _) (h.wf w).cur

/-- `EM` for builders in a sensible state -/
def EMw (c c' : Ctx) : Prop := Wf c → EM c c'

section
variable {sigs : Sigs} {P : Wd}

theorem em_logic {and : Bool} {a b : Expr} {c : Ctx} {q : QVal} {c' : Ctx} (w : Wf c)
    (iha : ∀ c q c', Wf c → emitE sigs P a c = some (q, c') → EM c c')
    (ihb : ∀ c q c', Wf c → emitE sigs P b c = some (q, c') → EM c c') (h : Logic sigs P and a b c q c') : EM c c' := by
  obtain ⟨qa, c1, oa, ta, c2, qb, c3, ob, tb, c4, o, c5, h1, h2, h3, h4, h5, _, rfl⟩ := h
  have e1 := (iha _ _ _ w h1).trans (em_getRValue h2)
  have e2 : EM c (toBool c2 oa ta).2 := e1.trans (em_op _ _ _)
  generalize hT : toBool c2 oa ta = T at *
  have w2 := e2.wf w
  have e3 : EM c ((T.2.newBlock).2.newBlock.2.term (if and then .cbr T.1 T.2.nb (T.2.nb + 1) else .cbr T.1 (T.2.nb + 1) T.2.nb)) :=
    ((e2.trans (em_newBlock _)).trans (em_newBlock _)).trans (em_term _ _)
  have e4 : EM c ((((T.2.newBlock).2.newBlock.2.term (if and then .cbr T.1 T.2.nb (T.2.nb + 1) else .cbr T.1 (T.2.nb + 1) T.2.nb)).setCur T.2.nb)) :=
    em_setCur e3 (Or.inr e2.nb) (by show T.2.nb < T.2.nb + 1 + 1; omega)
  have e5 := (ihb _ _ _ (e4.wf w) h3).trans (em_getRValue h4)
  have e6 := (e5.trans (em_op _ _ _ : EM c4 (toBool c4 ob tb).2)).trans (em_term _ (.br (T.2.nb + 1)))
  have hnb : T.2.nb + 1 + 1 ≤ (toBool c4 ob tb).2.nb := (e5.trans (em_op _ _ _ : EM c4 (toBool c4 ob tb).2)).nb
  have hb2 := e2.nb
  have e7 := em_phi (em_setCur (e4.trans e6) (b := T.2.nb + 1) (Or.inr (by omega)) (by show _ < (toBool c4 ob tb).2.nb; omega)) h5
    (by show T.2.nb + 1 ≠ 0; omega)
  exact e7.trans (em_op _ _ _)

mutual
theorem em_emitE : ∀ (e : Expr) (c : Ctx) (q : QVal) (c' : Ctx), Wf c → emitE sigs P e c = some (q, c') → EM c c'
  | .lit v t, c, q, c', w, h => by
    rw [emitE] at h; simp only [Option.some.injEq, Prod.mk.injEq] at h; rw [← h.2]; exact EM.refl c
  | .id x, c, q, c', w, h => by
    rw [emitE] at h
    split at h
    · simp only [Option.some.injEq, Prod.mk.injEq] at h; rw [← h.2]; exact EM.refl c
    · cases h
  | .idx a i, c, q, c', w, h => by
    obtain ⟨qa, c1, qi, c2, oi, ti, c3, n, e, sg, cst, h1, h2, h3, _, _, rfl⟩ := emitE_idx h
    have e1 := em_emitE a _ _ _ w h1
    have e2 := em_emitE i _ _ _ (e1.wf w) h2
    exact (((e1.trans e2).trans (em_getRValue h3)).trans (em_convertTo _ _ _ _)).trans (em_op _ _ _)
  | .bin op a b, c, q, c', w, h => by
    obtain ⟨qa, c1, oa, ta, c2, qb, c3, ob, tb, c4, h1, h2, h3, h4, _, rfl⟩ := emitE_bin h
    have e1 := (em_emitE a _ _ _ w h1).trans (em_getRValue h2)
    have e2 := (em_emitE b _ _ _ (e1.wf w) h3).trans (em_getRValue h4)
    exact (e1.trans e2).trans (em_emitArith _ _ _ _ _ _)
  | .land a b, c, q, c', w, h => em_logic w (fun c q c' w h => em_emitE a c q c' w h) (fun c q c' w h => em_emitE b c q c' w h) (emitE_land h)
  | .lor a b, c, q, c', w, h => em_logic w (fun c q c' w h => em_emitE a c q c' w h) (fun c q c' w h => em_emitE b c q c' w h) (emitE_lor h)
  | .assign a b, c, q, c', w, h => by
    obtain ⟨qa, c1, qb, c2, ob, tb, c3, wd, sg, h1, _, h2, h3, _, rfl⟩ := emitE_assign h
    have e1 := em_emitE a _ _ _ w h1
    have e2 := (em_emitE b _ _ _ (e1.wf w) h2).trans (em_getRValue h3)
    exact ((e1.trans e2).trans (em_convertTo _ _ _ _)).trans (em_op _ _ _)
  | .cassign op a b, c, q, c', w, h => by
    obtain ⟨qa, c1, qb, c2, ob, tb, c3, wd, sg, h1, _, h2, h3, _, rfl⟩ := emitE_cassign h
    have e1 := (em_emitE a _ _ _ w h1).trans (em_op c1 (.load wd.bits) [qa.o])
    have e2 := (em_emitE b _ _ _ (e1.wf w) h2).trans (em_getRValue h3)
    exact (((e1.trans e2).trans (em_emitArith _ _ _ _ _ _)).trans (em_convertTo _ _ _ _)).trans (em_op _ _ _)
  | .un op a, c, q, c', w, h => by
    obtain ⟨qa, c1, oa, ta, c2, h1, h2, _, rfl⟩ := emitE_un h
    exact ((em_emitE a _ _ _ w h1).trans (em_getRValue h2)).trans (em_emitUn _ _ _ _)
  | .incdec pre inc a, c, q, c', w, h => by
    obtain ⟨qa, c1, wd, sg, h1, _, _, rfl⟩ := emitE_incdec h
    exact (em_emitE a _ _ _ w h1).trans (em_incdec _ _ _ _ _ _)
  | .sel k a b, c, q, c', w, h => by
    obtain ⟨qk, c1, ok, tk, c2, qa, c3, qb, c4, oa, ta, c5, ob, tb, c6, o, h1, h2, h3, h4, h5, h6, h7, _⟩ := emitE_sel h
    have e0 : EM c c.newBlock.2.newBlock.2 := (em_newBlock _).trans (em_newBlock _)
    have e1 := (em_emitE k _ _ _ (e0.wf w) h1).trans (em_getRValue h2)
    have e2 : EM c.newBlock.2.newBlock.2 (toBool c2 ok tk).2 := e1.trans (em_op _ _ _)
    have e3 := (e0.trans e2).trans (em_term _ (.cbr (toBool c2 ok tk).1 c.nb (c.nb + 1)))
    have n2 : c.nb + 1 + 1 ≤ (toBool c2 ok tk).2.nb := e2.nb
    have e4 := em_setCur e3 (b := c.nb) (Or.inr le_rfl) (by show _ < (toBool c2 ok tk).2.nb; omega)
    have e5 := em_emitE a _ _ _ (e4.wf w) h3
    have n5 : (toBool c2 ok tk).2.nb ≤ c3.nb := e5.nb
    have e5' := e4.trans e5
    have e6 := em_setCur e5' (b := c.nb + 1) (Or.inr (by omega)) (by omega)
    have e7 := e6.trans (em_emitE b _ _ _ (e6.wf w) h4)
    have n7 : c3.nb ≤ c4.nb := (em_emitE b _ _ _ (e6.wf w) h4).nb
    have k3 : c.nb ≤ c3.cur ∧ c3.cur < c3.nb := by
      refine ⟨?_, (e5'.wf w).cur⟩
      rcases e5.cur with e | e
      · rw [e]; exact le_rfl
      · have e : (toBool c2 ok tk).2.nb ≤ c3.cur := e
        omega
    have k4 : c.nb ≤ c4.cur ∧ c4.cur < c4.nb := by
      refine ⟨?_, (e7.wf w).cur⟩
      rcases (em_emitE b _ _ _ (e6.wf w) h4).cur with e | e
      · rw [e]; show c.nb ≤ c.nb + 1; omega
      · have e : c3.nb ≤ c4.cur := e
        omega
    have e8 := em_setCur (e7.trans (em_newBlock _)) (b := c3.cur) (Or.inr k3.1) (by show _ < c4.nb + 1; omega)
    have e9 := e8.trans (em_getRValue h5)
    have n9 : c4.nb + 1 ≤ c5.nb := (em_getRValue h5).nb
    have e10 := (em_setCur e9 (b := c4.cur) (Or.inr k4.1) (by omega)).trans (em_getRValue h6)
    have n10 : c5.nb ≤ c6.nb := (em_getRValue h6).nb
    have e11 := ((em_setCur e10 (b := c3.cur) (Or.inr k3.1) (by omega)).trans (em_convertTo _ oa ta (implicitTarget none ta tb))).trans
      (em_term _ (.br c4.nb))
    have n11 : c6.nb ≤ (convertTo (c6.setCur c3.cur) oa ta (implicitTarget none ta tb)).2.nb :=
      (em_convertTo (c6.setCur c3.cur) oa ta (implicitTarget none ta tb)).nb
    have e12 := ((em_setCur e11 (b := c4.cur) (Or.inr k4.1) (by show _ < (convertTo (c6.setCur c3.cur) oa ta (implicitTarget none ta tb)).2.nb; omega)).trans (em_convertTo _ ob tb (implicitTarget none ta tb))).trans
      (em_term _ (.br c4.nb))
    refine em_phi (em_setCur e12 (b := c4.nb) (Or.inr (by omega)) ?_) h7 (by show c4.nb ≠ 0; omega)
    have := (em_convertTo ((((convertTo (c6.setCur c3.cur) oa ta (implicitTarget none ta tb)).2.term (.br c4.nb)).setCur c4.cur)) ob tb (implicitTarget none ta tb)).nb
    refine lt_of_lt_of_le ?_ this
    show c4.nb < (convertTo (c6.setCur c3.cur) oa ta (implicitTarget none ta tb)).2.nb
    omega
  | .cast t a, c, q, c', w, h => by
    obtain ⟨qa, c1, oa, ta, c2, h1, h2, _, rfl⟩ := emitE_cast h
    exact ((em_emitE a _ _ _ w h1).trans (em_getRValue h2)).trans (em_convertTo _ _ _ _)
  | .comma a b, c, q, c', w, h => by
    obtain ⟨qa, c1, h1, h2⟩ := emitE_comma h
    have e1 := em_emitE a _ _ _ w h1
    exact e1.trans (em_emitE b _ _ _ (e1.wf w) h2)
  | .call f as, c, q, c', w, h => by
    obtain ⟨ps, r, os, c1, _, _, h1, _, rfl⟩ := emitE_call h
    exact (em_emitArgs ps as _ _ _ w h1).trans (em_op _ _ _)
theorem em_emitArgs : ∀ (ts : List IT) (as : Args) (c : Ctx) (os : List Opd) (c' : Ctx), Wf c → emitArgs sigs P ts as c = some (os, c') → EM c c'
  | [], .nil, c, os, c', w, h => by
    rw [emitArgs] at h; simp only [Option.some.injEq, Prod.mk.injEq] at h; rw [← h.2]; exact EM.refl c
  | t :: ts, .cons a as, c, os, c', w, h => by
    obtain ⟨qa, c1, oa, ta, c2, os', h1, h2, h3, _⟩ := emitArgs_cons h
    have e1 := ((em_emitE a _ _ _ w h1).trans (em_getRValue h2)).trans (em_convertTo _ oa ta t)
    exact e1.trans (em_emitArgs ts as _ _ _ (e1.wf w) h3)
  | [], .cons a as, c, os, c', w, h => by simp [emitArgs] at h
  | t :: ts, .nil, c, os, c', w, h => by simp [emitArgs] at h
end

theorem em_emitC {e : Expr} {c : Ctx} {o : Opd} {c' : Ctx} (w : Wf c) (h : emitC sigs P e c = some (o, c')) : EM c c' := by
  obtain ⟨q, c1, o1, t, c2, h1, h2, _, rfl⟩ := emitC_inv h
  exact ((em_emitE _ _ _ _ w h1).trans (em_getRValue h2)).trans (em_op _ _ _)

end
end Cmmc.Fe
