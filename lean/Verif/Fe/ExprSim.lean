import Verif.Fe.State
/-!
# Expressions: the emitted code computes what the specification says
-/
namespace Cmmc.Fe
open Cmmc

section
variable {X : Ext} {K : Cfg X} {Γ : List (List SE)} {ob : Opd → Obj}

/-! ## static types -/

/-- an lvalue is a computed address or a variable -/
def QS (Γ : List (List SE)) (q : QVal) : Prop :=
  ∀ ty sg cst, q.t = .lv ty sg cst → (∃ j, q.o = .inst (2 * j + 1)) ∨ ∃ e ∈ Γ.flatten, q = e.q

theorem lookup_mem {α β : Type} [BEq α] [LawfulBEq α] {l : List (α × β)} {a : α} {b : β} (h : l.lookup a = some b) : (a, b) ∈ l := by
  induction l with
  | nil => simp at h
  | cons p l ih =>
    rcases p with ⟨x, y⟩
    rw [List.lookup_cons] at h
    split at h
    · rename_i heq
      have : a = x := by simpa using heq
      subst this
      simp only [Option.some.injEq] at h
      simp [h]
    · exact List.mem_cons_of_mem _ (ih h)

theorem lookup_odd {c : Ctx} (hs : Stat K.consts Γ c) (j : Nat) : c.cb.lookup (.inst (2 * j + 1)) = none := by
  rcases h : c.cb.lookup (.inst (2 * j + 1)) with _ | p
  · exact h
  · rcases hs.cbk _ (lookup_mem h) with ⟨g, hg⟩ | ⟨k, _, hk⟩
    · cases hg
    · simp only [SSA.Opd.inst.injEq] at hk; omega

theorem getRValue_val {c : Ctx} {q : QVal} {o : Opd} {t : IT} {c' : Ctx} (hs : Stat K.consts Γ c) (hq : QS Γ q)
    (h : getRValue c q = some (o, t, c')) : q.t.val = some t := by
  unfold getRValue at h
  split at h
  · rename_i t' ht
    simp only [Option.some.injEq, Prod.mk.injEq] at h
    rw [ht, ← h.2.1]; rfl
  · rename_i w sg cst ht
    split at h
    · rename_i w' n hl
      simp only [Option.some.injEq, Prod.mk.injEq] at h
      rcases hq _ _ _ ht with ⟨j, hj⟩ | ⟨e, he, hqe⟩
      · rw [hj, lookup_odd hs] at hl; cases hl
      · have ho : q.o = e.o := by rw [hqe]; rfl
        rw [ho, hs.cv e he] at hl
        have h2 := (hs.cvt e he _ hl).2
        have h3 : q.t = .lv e.ty e.sg e.cst := by rw [hqe]; rfl
        rw [ht, h2] at h3
        simp only [CT.lv.injEq, Ty.int.injEq] at h3
        rw [ht, ← h.2.1, h3.1]
        rfl
    · simp only [Option.some.injEq, Prod.mk.injEq] at h
      rw [ht, ← h.2.1]; rfl
  · cases h

theorem qs_rv {o : Opd} {t : IT} : QS Γ ⟨o, .rv t⟩ := fun _ _ _ h => by cases h

theorem typeOf_emit : ∀ (e : Expr) (c : Ctx) (q : QVal) (c' : Ctx), Wf c → Stat K.consts Γ c → emitE K.sigs K.P e c = some (q, c') →
    typeOf K.sigs (den Γ ob) e = some q.t ∧ QS Γ q
  | .lit v t, c, q, c', w, hs, h => by
    rw [emitE] at h
    simp only [Option.some.injEq, Prod.mk.injEq] at h
    rw [← h.1]
    exact ⟨rfl, qs_rv⟩
  | .id x, c, q, c', w, hs, h => by
    rw [emitE, hs.vars x] at h
    rw [typeOf, den_find]
    rcases hf : Γ.flatten.filter (fun e => e.name == x) with _ | ⟨e, l⟩
    · rw [hf] at h; cases h
    · rw [hf] at h
      simp only [List.map_cons, Option.some.injEq, Prod.mk.injEq] at h
      rw [← h.1]
      have he : e ∈ Γ.flatten.filter (fun e => e.name == x) := by rw [hf]; simp
      exact ⟨by rw [hf]; rfl, fun _ _ _ _ => Or.inr ⟨e, (List.mem_filter.1 he).1, rfl⟩⟩
  | .idx a i, c, q, c', w, hs, h => by
    obtain ⟨qa, c1, qi, c2, oi, ti, c3, n, e, sg, cst, h1, h2, h3, ht, rfl, _⟩ := emitE_idx h
    obtain ⟨t1, _⟩ := typeOf_emit a _ _ _ w hs h1
    refine ⟨?_, fun _ _ _ _ => Or.inl ⟨_, rfl⟩⟩
    rw [typeOf, t1, ht]
  | .bin op a b, c, q, c', w, hs, h => by
    obtain ⟨qa, c1, oa, ta, c2, qb, c3, obb, tb, c4, h1, h2, h3, h4, rfl, _⟩ := emitE_bin h
    have e1 := em_emitE a _ _ _ w h1
    have e2 := e1.trans (em_getRValue h2)
    have e3 := e2.trans (em_emitE b _ _ _ (e2.wf w) h3)
    obtain ⟨t1, s1⟩ := typeOf_emit a _ _ _ w hs h1
    obtain ⟨t2, s2⟩ := typeOf_emit b _ _ _ (e2.wf w) (hs.same e2.same) h3
    have v1 := getRValue_val (hs.same e1.same) s1 h2
    have v2 := getRValue_val (hs.same e3.same) s2 h4
    refine ⟨?_, qs_rv⟩
    rw [typeOf, t1, t2]
    simp only [Option.bind_eq_bind, Option.bind_some, v1, v2, Option.pure_def, emitArith_ty]
  | .land a b, c, q, c', w, hs, h => by
    obtain ⟨qa, c1, oa, ta, c2, qb, c3, obb, tb, c4, o, c5, h1, h2, h3, h4, h5, rfl, _⟩ := emitE_land h
    exact ⟨rfl, qs_rv⟩
  | .lor a b, c, q, c', w, hs, h => by
    obtain ⟨qa, c1, oa, ta, c2, qb, c3, obb, tb, c4, o, c5, h1, h2, h3, h4, h5, rfl, _⟩ := emitE_lor h
    exact ⟨rfl, qs_rv⟩
  | .assign a b, c, q, c', w, hs, h => by
    obtain ⟨qa, c1, qb, c2, obb, tb, c3, wd, sg, h1, ht, h2, h3, rfl, _⟩ := emitE_assign h
    obtain ⟨t1, _⟩ := typeOf_emit a _ _ _ w hs h1
    refine ⟨?_, qs_rv⟩
    rw [typeOf, t1, ht]
  | .cassign op a b, c, q, c', w, hs, h => by
    obtain ⟨qa, c1, qb, c2, obb, tb, c3, wd, sg, h1, ht, h2, h3, rfl, _⟩ := emitE_cassign h
    obtain ⟨t1, s1⟩ := typeOf_emit a _ _ _ w hs h1
    have hq : (⟨qa.o, .lv (.int wd) sg false⟩ : QVal) = qa := by rw [← ht]
    rw [hq]
    refine ⟨?_, s1⟩
    rw [typeOf, t1, ht]
  | .un op a, c, q, c', w, hs, h => by
    obtain ⟨qa, c1, oa, ta, c2, h1, h2, rfl, _⟩ := emitE_un h
    have e1 := em_emitE a _ _ _ w h1
    obtain ⟨t1, s1⟩ := typeOf_emit a _ _ _ w hs h1
    have v1 := getRValue_val (hs.same e1.same) s1 h2
    refine ⟨?_, qs_rv⟩
    rw [typeOf, t1]
    simp only [Option.bind_eq_bind, Option.bind_some, v1, Option.pure_def, emitUn_ty]
  | .incdec pre inc a, c, q, c', w, hs, h => by
    obtain ⟨qa, c1, wd, sg, h1, ht, rfl, _⟩ := emitE_incdec h
    obtain ⟨t1, _⟩ := typeOf_emit a _ _ _ w hs h1
    refine ⟨?_, qs_rv⟩
    rw [typeOf, t1, ht]
  | .sel k a b, c, q, c', w, hs, h => by
    obtain ⟨qk, c1, ok, tk, c2, qa, c3, qb, c4, oa, ta, c5, obb, tb, c6, o, h1, h2, h3, h4, h5, h6, h7, rfl⟩ := emitE_sel h
    have e0 : EM c c.newBlock.2.newBlock.2 := (em_newBlock _).trans (em_newBlock _)
    have e1 := (em_emitE k _ _ _ (e0.wf w) h1).trans (em_getRValue h2)
    have e2 : EM c.newBlock.2.newBlock.2 (toBool c2 ok tk).2 := e1.trans (em_op _ _ _)
    have e3 := (e0.trans e2).trans (em_term _ (.cbr (toBool c2 ok tk).1 c.nb (c.nb + 1)))
    have n2 : c.nb + 1 + 1 ≤ (toBool c2 ok tk).2.nb := e2.nb
    have e4 := em_setCur e3 (b := c.nb) (Or.inr le_rfl) (by show _ < (toBool c2 ok tk).2.nb; omega)
    have e5 := e4.trans (em_emitE a _ _ _ (e4.wf w) h3)
    have n5 : (toBool c2 ok tk).2.nb ≤ c3.nb := (em_emitE a _ _ _ (e4.wf w) h3).nb
    have e6 := em_setCur e5 (b := c.nb + 1) (Or.inr (by omega)) (by omega)
    have e7 := e6.trans (em_emitE b _ _ _ (e6.wf w) h4)
    obtain ⟨t1, s1⟩ := typeOf_emit a _ _ _ (e4.wf w) (hs.same e4.same) h3
    obtain ⟨t2, s2⟩ := typeOf_emit b _ _ _ (e6.wf w) (hs.same e6.same) h4
    have m5 : Same c (c4.newBlock.2.setCur c3.cur) := (e7.trans (em_newBlock c4)).same.trans ⟨rfl, rfl, rfl, rfl, rfl⟩
    have v1 := getRValue_val (hs.same m5) s1 h5
    have m6 : Same c (c5.setCur c4.cur) := (m5.trans (em_getRValue h5).same).trans ⟨rfl, rfl, rfl, rfl, rfl⟩
    have v2 := getRValue_val (hs.same m6) s2 h6
    refine ⟨?_, qs_rv⟩
    rw [typeOf, t1, t2]
    simp only [Option.bind_eq_bind, Option.bind_some, v1, v2, Option.pure_def, implicitTarget_none]
  | .cast t a, c, q, c', w, hs, h => by
    obtain ⟨qa, c1, oa, ta, c2, h1, h2, rfl, _⟩ := emitE_cast h
    exact ⟨rfl, qs_rv⟩
  | .comma a b, c, q, c', w, hs, h => by
    obtain ⟨qa, c1, h1, h2⟩ := emitE_comma h
    have e1 := em_emitE a _ _ _ w h1
    rw [typeOf]
    exact typeOf_emit b _ _ _ (e1.wf w) (hs.same e1.same) h2
  | .call f as, c, q, c', w, hs, h => by
    obtain ⟨ps, r, os, c1, hv, hf, h1, rfl, _⟩ := emitE_call h
    rw [typeOf, hf]
    cases r with
    | some t => exact ⟨rfl, qs_rv⟩
    | none => exact ⟨rfl, fun _ _ _ h => by cases h⟩

/-! ## memory accesses -/

theorem meets_load {c : Ctx} {o : Opd} {e : SE} {off : Int} {w : Wd} {S : SSt X} {env : Env} {m : Mem X} {pred : Option Nat}
    (he : Ext' (c.op (.load w.bits) [o]).2 K.Fc) (hs : Stat K.consts Γ c) (hd : Dyn K Γ ob S env m) (h : LRel Γ c.nv env o e off (.int w)) :
    K.Meets Γ ob (K.pt c pred env m S.tr) c.nv env (c.op (.load w.bits) [o]).2 (readObj S (ob e.o) off ⟨w, e.sg⟩)
      (fun env' p => p.1 = ⟨w, e.sg⟩ ∧ RRel (c.nv + 1) env' (.inst (2 * c.nv + 1)) ⟨w, e.sg⟩ p.2) := by
  have hsl : c.slots <+: K.Fc.slots := he.slots
  rcases read_ok h hs hd hsl with ⟨v, hr, hh, hm⟩ | hr
  · rw [hr]
    have hl := lead_op he (evals_one (h.eval hs hd hsl)) hm pred S.tr
    rw [List.append_nil] at hl
    exact ⟨0, pred, _, m, hl, hd.agree (Agree.set (K := K) c.nv env _), Agree.set c.nv env _, rfl, RRel.new (t := ⟨w, e.sg⟩) hh⟩
  · rw [hr]; trivial

theorem meets_store {c : Ctx} {o ov : Opd} {e : SE} {off : Int} {w : Wd} {S : SSt X} {env : Env} {m : Mem X} {pred : Option Nat} {v : Int}
    (he : Ext' (c.op (.store w.bits) [o, ov]).2 K.Fc) (hs : Stat K.consts Γ c) (hd : Dyn K Γ ob S env m) (h : LRel Γ c.nv env o e off (.int w))
    (hc : e.cst = false) (hv : RRel c.nv env ov ⟨w, e.sg⟩ v) :
    K.Meets Γ ob (K.pt c pred env m S.tr) c.nv env (c.op (.store w.bits) [o, ov]).2 (writeObj S (ob e.o) off ⟨w, e.sg⟩ v)
      (fun _ _ => True) := by
  have hsl : c.slots <+: K.Fc.slots := he.slots
  rcases write_ok h hs hd hsl hc hv.has with ⟨S', m', hr, htr, hd', hm⟩ | hr
  · rw [hr]
    have hl := lead_op he (evals_two (h.eval hs hd hsl) hv.eval) hm pred S.tr
    rw [List.append_nil] at hl
    exact ⟨0, pred, _, m', by rw [htr]; exact hl, hd'.agree (Agree.set (K := K) c.nv env _), Agree.set c.nv env _, trivial⟩
  · rw [hr]; trivial

/-- lvalue conversion -/
theorem meets_rval {c : Ctx} {q : QVal} {o : Opd} {t : IT} {c' : Ctx} {qv : QV} {S : SSt X} {env : Env} {m : Mem X} {pred : Option Nat}
    (hg : getRValue c q = some (o, t, c')) (he : Ext' c' K.Fc) (hs : Stat K.consts Γ c) (hd : Dyn K Γ ob S env m)
    (hq : QRel Γ ob c.nv env q qv) :
    K.Meets Γ ob (K.pt c pred env m S.tr) c.nv env c' (rval qv S) (fun env' p => p.1 = t ∧ RRel c'.nv env' o t p.2) := by
  cases hq with
  | rv h =>
    simp only [getRValue, Option.some.injEq, Prod.mk.injEq] at hg
    obtain ⟨rfl, rfl, rfl⟩ := hg
    exact Meets.ok hd ⟨rfl, h⟩
  | void => simp [getRValue] at hg
  | @lv o' e off ty h =>
    cases ty with
    | arr n ty => simp [getRValue] at hg
    | int w =>
      simp only [getRValue] at hg
      split at hg
      · rename_i w' n hl
        simp only [Option.some.injEq, Prod.mk.injEq] at hg
        obtain ⟨rfl, rfl, rfl⟩ := hg
        rcases h.val with ⟨rfl, rfl, hty⟩ | ⟨j, _, rfl, _⟩
        · rw [hs.cv e h.mem] at hl
          have h2 := (hs.cvt e h.mem _ hl).2
          rw [h2] at hty
          have hw : w = w' := by simpa using hty
          subst hw
          have hsl : c.slots <+: K.Fc.slots := he.slots
          rcases read_ok h hs hd hsl with ⟨v, hr, hh, hm⟩ | hr
          · have hr' : rval (.lv (ob e.o) 0 (.int w) e.sg e.cst) S = .ok (⟨w, e.sg⟩, v) S := hr
            rw [hr']
            refine Meets.ok hd ⟨rfl, hh, Or.inl ?_⟩
            -- the stored value is the constant
            have hn : raw w v = n := by
              rcases hs.opd e h.mem with ⟨k, hk, hz⟩ | ⟨g, hg⟩
              · obtain ⟨l, hl', _⟩ := hd.obl e h.mem _ hk
                rw [hl'] at hr
                simp only [readObj] at hr
                split at hr
                · rename_i v' hv'
                  simp only [Out.ok.injEq, Prod.mk.injEq, true_and, and_true] at hr
                  subst hr
                  exact hd.cv e h.mem l _ v' hl hl' hv'
                · cases hr
              · have hl' := hd.obg e h.mem _ hg
                rw [hl'] at hr
                simp only [readObj] at hr
                split at hr
                · rename_i n' hv'
                  simp only [Out.ok.injEq, Prod.mk.injEq, true_and, and_true] at hr
                  subst hr
                  have h5 := K.ird _ _ _ _ _ hd.inv ((hs.glob e h.mem g hg).2 _ hl) hv'
                  have h6 : raw w (conv ⟨w, e.sg⟩ n') = raw w n' := raw_conv ⟨w, e.sg⟩ n'
                  rw [h6, ← h5]
                  zify
                  rw [raw_cast]
                · cases hr
            rw [← hn]
          · have hr' : rval (.lv (ob e.o) 0 (.int w) e.sg e.cst) S = .ub := hr
            rw [hr']; trivial
        · rw [lookup_odd hs] at hl; cases hl
      · simp only [Option.some.injEq, Prod.mk.injEq] at hg
        obtain ⟨rfl, rfl, rfl⟩ := hg
        exact meets_load he hs hd h

theorem Ty.cnt_nonneg : ∀ t : Ty, 0 ≤ t.cnt
  | .int _ => by simp [Ty.cnt]
  | .arr n e => by have := Ty.cnt_nonneg e; simp only [Ty.cnt]; positivity

theorem idx_val {P : Wd} (hP : 32 ≤ P.bits) {v : Int} {n : Nat} (h0 : 0 ≤ v) (h1 : v < n) (hn : n < 2 ^ 30) :
    (BitVec.ofNat P.bits (raw P v)).toInt = v := by
  have hh : IT.has ⟨P, true⟩ v = true := by
    rw [has_iff]
    cases P <;> simp [IT.lo, IT.hi, Wd.bits] at hP ⊢ <;> omega
  exact sx_raw (t := ⟨P, true⟩) rfl hh

/-- element of an array -/
theorem lrel_idx {nv nv' : Nat} {env env' : Env} {o : Opd} {e : SE} {off v : Int} {n : Nat} {ty : Ty} (h : LRel Γ nv env o e off (.arr n ty))
    (h0 : 0 ≤ v) (h1 : v < n) {j : Nat} (hj : j < nv') (hv : env' (2 * j + 1) = some (.ptr (tob e.o) (off + v * ty.cnt))) :
    LRel Γ nv' env' (.inst (2 * j + 1)) e (off + v * ty.cnt) ty where
  mem := h.mem
  base := h.base
  ok := by have := h.ok; simp only [Ty.ok, Bool.and_eq_true] at this; exact this.2
  lo := by have := h.lo; have := ty.cnt_nonneg; positivity
  hi := by
    have h2 := h.hi
    simp only [Ty.cnt] at h2
    have h3 := ty.cnt_nonneg
    have h4 : (v + 1) * ty.cnt ≤ n * ty.cnt := Int.mul_le_mul_of_nonneg_right (by omega) h3
    have h5 : (v + 1) * ty.cnt = v * ty.cnt + ty.cnt := by rw [Int.add_mul, Int.one_mul]
    omega
  val := Or.inr ⟨j, hj, rfl, hv⟩

end
end Cmmc.Fe
