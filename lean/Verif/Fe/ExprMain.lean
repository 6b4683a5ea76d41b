import Verif.Fe.ExprSim
/-!
# Expressions: simulation theorem
-/
namespace Cmmc.Fe
open Cmmc

section
variable {X : Ext} {K : Cfg X} {Γ : List (List SE)} {ob : Opd → Obj}

variable (K Γ ob)

/-- the code of expression `e` does what `evalE` says -/
def EOk (e : Expr) : Prop :=
  ∀ (c : Ctx) (q : QVal) (c' : Ctx), Wf c → Stat K.consts Γ c → emitE K.sigs K.P e c = some (q, c') → Ext' c' K.Fc →
    ∀ (pred : Option Nat) (env : Env) (m : Mem X) (S : SSt X), Dyn K Γ ob S env m →
      K.Meets Γ ob (K.pt c pred env m S.tr) c.nv env c' (evalE K.sigs K.sc (den Γ ob) e S) (fun env' qv => QRel Γ ob c'.nv env' q qv)

def AOk (as : Args) : Prop :=
  ∀ (ts : List IT) (c : Ctx) (os : List Opd) (c' : Ctx), Wf c → Stat K.consts Γ c → emitArgs K.sigs K.P ts as c = some (os, c') → Ext' c' K.Fc →
    ∀ (pred : Option Nat) (env : Env) (m : Mem X) (S : SSt X), Dyn K Γ ob S env m →
      K.Meets Γ ob (K.pt c pred env m S.tr) c.nv env c' (evalArgs K.sigs K.sc (den Γ ob) ts as S)
        (fun env' vs => ∀ env'', Agree c'.nv env' env'' → SSA.evals K.L env'' os = some (vs.map V.int))

variable {K Γ ob}

theorem Meets.goto {α : Type} {c c2 c' : Ctx} {t : SSA.Term Cst} {r : Out X α} {R : Env → α → Prop} {pred : Option Nat} {env : Env} {m : Mem X}
    {tr : List X.E} {nv nv' : Nat} (he : Ext' (c.term t) K.Fc) (ht : SSA.evalTerm K.L env t = .goto c2.cur) (h0 : c2.cur ≠ 0)
    (hn : c2.cur < K.Fc.nb) (hc : c2.code c2.cur = []) (hnv : nv ≤ nv') (h : K.Meets Γ ob (K.pt c2 (some c.cur) env m tr) nv' env c' r R) :
    K.Meets Γ ob (K.pt c pred env m tr) nv env c' r R := by
  have h1 := goto_term he ht pred m tr
  rw [bdry_pt h0 hn hc] at h1
  exact Meets.lead (leads_of_run h1) (Agree.refl _ _) hnv h

theorem ofOpt_bind {α β : Type} (v : α) (S : SSt X) (f : α → SSt X → Out X β) : (ofOpt (some v) S).bind f = f v S := rfl

theorem eok_lit (v : Nat) (t : IT) : EOk K Γ ob (.lit v t) := by
  intro c q c' w hs h he pred env m S hd
  rw [emitE] at h
  simp only [Option.some.injEq, Prod.mk.injEq] at h
  obtain ⟨rfl, rfl⟩ := h
  rw [evalE]
  exact Meets.ok hd (.rv (step_cint _ _ (raw_conv t v).symm (conv_has _ _)))

theorem eok_id (x : String) : EOk K Γ ob (.id x) := by
  intro c q c' w hs h he pred env m S hd
  rw [emitE, hs.vars x] at h
  rw [evalE, den_find]
  rcases hf : Γ.flatten.filter (fun e => e.name == x) with _ | ⟨e, l⟩
  · rw [hf] at h; cases h
  · rw [hf] at h
    simp only [List.map_cons, Option.some.injEq, Prod.mk.injEq] at h
    obtain ⟨rfl, rfl⟩ := h
    have hm : e ∈ Γ.flatten.filter (fun e => e.name == x) := by rw [hf]; simp
    have hm' := (List.mem_filter.1 hm).1
    rw [hf]
    exact Meets.ok hd (QRel.lv ⟨hm', rfl, hs.ok e hm', le_rfl, by omega, Or.inl ⟨rfl, rfl, rfl⟩⟩)

theorem eok_bin {op : BOp} {a b : Expr} (iha : EOk K Γ ob a) (ihb : EOk K Γ ob b) : EOk K Γ ob (.bin op a b) := by
  intro c q c' w hs h he pred env m S hd
  obtain ⟨qa, c1, oa, ta, c2, qb, c3, o2, tb, c4, h1, h2, h3, h4, rfl, rfl⟩ := emitE_bin h
  have e1 := em_emitE a _ _ _ w h1
  have r1 := em_getRValue h2
  have w2 := (e1.trans r1).wf w
  have e3 := em_emitE b _ _ _ w2 h3
  have r3 := em_getRValue h4
  have x4 := (em_emitArith c4 op oa ta o2 tb).toExt'.trans he
  have x3 := r3.toExt'.trans x4
  have x2 := e3.toExt'.trans x3
  have x1 := r1.toExt'.trans x2
  have s1 := hs.same e1.same
  have s2 := s1.same r1.same
  have s3 := s2.same e3.same
  rw [evalE]
  refine Meets.bind (iha _ _ _ w hs h1 x1 pred env m S hd) e1.nv (fun qa' S1 p1 env1 m1 _ hd1 _ hq1 => ?_)
  refine Meets.bind (meets_rval h2 x2 s1 hd1 hq1) r1.nv (fun va S2 p2 env2 m2 _ hd2 _ hr2 => ?_)
  obtain ⟨hta, hr2⟩ := hr2
  refine Meets.bind (ihb _ _ _ w2 s2 h3 x3 p2 env2 m2 S2 hd2) e3.nv (fun qb' S3 p3 env3 m3 _ hd3 ha3 hq3 => ?_)
  refine Meets.bind (meets_rval h4 x4 s3 hd3 hq3) r3.nv (fun vb S4 p4 env4 m4 _ hd4 ha4 hr4 => ?_)
  obtain ⟨htb, hr4⟩ := hr4
  rw [hta, htb]
  rcases hb : binary op ta va.2 tb vb.2 with _ | v
  · trivial
  · refine Meets.last hd4 (step_emitArith he ((hr2.agree ha3 e3.nv).agree ha4 r3.nv) hr4 hb) (em_emitArith _ _ _ _ _ _).nv (fun e hR => ?_)
    rw [emitArith_ty]
    exact .rv hR

theorem eok_un {op : UOp} {a : Expr} (iha : EOk K Γ ob a) : EOk K Γ ob (.un op a) := by
  intro c q c' w hs h he pred env m S hd
  obtain ⟨qa, c1, oa, ta, c2, h1, h2, rfl, rfl⟩ := emitE_un h
  have e1 := em_emitE a _ _ _ w h1
  have r1 := em_getRValue h2
  have x2 := (em_emitUn c2 op oa ta).toExt'.trans he
  have x1 := r1.toExt'.trans x2
  have s1 := hs.same e1.same
  rw [evalE]
  refine Meets.bind (iha _ _ _ w hs h1 x1 pred env m S hd) e1.nv (fun qa' S1 p1 env1 m1 _ hd1 _ hq1 => ?_)
  refine Meets.bind (meets_rval h2 x2 s1 hd1 hq1) r1.nv (fun va S2 p2 env2 m2 _ hd2 _ hr2 => ?_)
  obtain ⟨hta, hr2⟩ := hr2
  rw [hta]
  rcases hb : unary op ta va.2 with _ | v
  · trivial
  · refine Meets.last hd2 (step_emitUn he hr2 hb) (em_emitUn _ _ _ _).nv (fun e hR => ?_)
    rw [emitUn_ty]
    exact .rv hR

theorem eok_cast {t : IT} {a : Expr} (iha : EOk K Γ ob a) : EOk K Γ ob (.cast t a) := by
  intro c q c' w hs h he pred env m S hd
  obtain ⟨qa, c1, oa, ta, c2, h1, h2, rfl, rfl⟩ := emitE_cast h
  have e1 := em_emitE a _ _ _ w h1
  have r1 := em_getRValue h2
  have x2 := (em_convertTo c2 oa ta t).toExt'.trans he
  have x1 := r1.toExt'.trans x2
  have s1 := hs.same e1.same
  rw [evalE]
  refine Meets.bind (iha _ _ _ w hs h1 x1 pred env m S hd) e1.nv (fun qa' S1 p1 env1 m1 _ hd1 _ hq1 => ?_)
  refine Meets.bind (meets_rval h2 x2 s1 hd1 hq1) r1.nv (fun va S2 p2 env2 m2 _ hd2 _ hr2 => ?_)
  exact Meets.last hd2 (step_convertTo he hr2.2) (em_convertTo _ _ _ _).nv (fun e hR => .rv hR)

theorem eok_comma {a b : Expr} (iha : EOk K Γ ob a) (ihb : EOk K Γ ob b) : EOk K Γ ob (.comma a b) := by
  intro c q c' w hs h he pred env m S hd
  obtain ⟨qa, c1, h1, h2⟩ := emitE_comma h
  have e1 := em_emitE a _ _ _ w h1
  have e2 := em_emitE b _ _ _ (e1.wf w) h2
  rw [evalE]
  refine Meets.bind (iha _ _ _ w hs h1 (e2.toExt'.trans he) pred env m S hd) e1.nv (fun qa' S1 p1 env1 m1 _ hd1 _ hq1 => ?_)
  exact ihb _ _ _ (e1.wf w) (hs.same e1.same) h2 he p1 env1 m1 S1 hd1

theorem eok_idx {a i : Expr} (iha : EOk K Γ ob a) (ihi : EOk K Γ ob i) : EOk K Γ ob (.idx a i) := by
  intro c q c' w hs h he pred env m S hd
  obtain ⟨qa, c1, qi, c2, oi, ti, c3, n, ty, sg, cst, h1, h2, h3, ht, rfl, rfl⟩ := emitE_idx h
  have e1 := em_emitE a _ _ _ w h1
  have w1 := e1.wf w
  have e2 := em_emitE i _ _ _ w1 h2
  have r2 := em_getRValue h3
  have e4 := em_convertTo c3 oi ti ⟨K.P, false⟩
  have x4 := (em_op (convertTo c3 oi ti ⟨K.P, false⟩).2 (.gep ty.cnt K.P.bits) [qa.o, (convertTo c3 oi ti ⟨K.P, false⟩).1]).toExt'.trans he
  have x3 := e4.toExt'.trans x4
  have x2 := r2.toExt'.trans x3
  have x1 := e2.toExt'.trans x2
  have s1 := hs.same e1.same
  have s2 := s1.same e2.same
  have s4 := (s2.same r2.same).same e4.same
  rw [evalE]
  refine Meets.bind (iha _ _ _ w hs h1 x1 pred env m S hd) e1.nv (fun qa' S1 p1 env1 m1 _ hd1 _ hq1 => ?_)
  refine Meets.bind (ihi _ _ _ w1 s1 h2 x2 p1 env1 m1 S1 hd1) e2.nv (fun qi' S2 p2 env2 m2 _ hd2 ha2 hq2 => ?_)
  refine Meets.bind (meets_rval h3 x3 s2 hd2 hq2) r2.nv (fun vi S3 p3 env3 m3 _ hd3 ha3 hr3 => ?_)
  have hqa := (hq1.agree ha2 e2.nv).agree ha3 r2.nv
  cases hqa with
  | rv h => cases ht
  | void => cases ht
  | @lv o e off ty' hl =>
    simp only [CT.lv.injEq] at ht
    obtain ⟨rfl, rfl, rfl⟩ := ht
    dsimp only
    split
    · rename_i hin
      refine Meets.step hd3 (step_convertTo x4 hr3.2) e4.nv (fun env4 hd4 ha4 hr4 => ?_)
      have hl4 := hl.agree ha4 e4.nv
      have hn : n < 2 ^ 30 := by
        have := hl.ok
        simp only [Ty.ok, Bool.and_eq_true, decide_eq_true_eq] at this
        exact this.1.2
      refine Meets.last hd4 (step_op he (evals_two (hl4.eval s4 hd4 x4.slots) hr4.eval)
        (v := .ptr (tob e.o) (off + vi.2 * ty.cnt)) (fun m => ?_) (R := fun env' => env' (2 * (convertTo c3 oi ti ⟨K.P, false⟩).2.nv + 1) = some (.ptr (tob e.o) (off + vi.2 * ty.cnt))) (by simp [SSA.setEnv]; rfl)) (em_op _ _ _).nv (fun env' hR => ?_)
      · have hc : raw K.P (conv ⟨K.P, false⟩ vi.2) = raw K.P vi.2 := raw_conv ⟨K.P, false⟩ vi.2
        simp only [irSem, hc, idx_val K.hP hin.1 hin.2 hn]
      · exact .lv (lrel_idx hl4 hin.1 hin.2 (Nat.lt_succ_self _) hR)
    · trivial

theorem eok_assign {a b : Expr} (iha : EOk K Γ ob a) (ihb : EOk K Γ ob b) : EOk K Γ ob (.assign a b) := by
  intro c q c' w hs h he pred env m S hd
  obtain ⟨qa, c1, qb, c2, o2, tb, c3, wd, sg, h1, ht, h2, h3, rfl, rfl⟩ := emitE_assign h
  have e1 := em_emitE a _ _ _ w h1
  have w1 := e1.wf w
  have e2 := em_emitE b _ _ _ w1 h2
  have r2 := em_getRValue h3
  have e4 := em_convertTo c3 o2 tb ⟨wd, sg⟩
  have x4 := (em_op (convertTo c3 o2 tb ⟨wd, sg⟩).2 (.store wd.bits) [qa.o, (convertTo c3 o2 tb ⟨wd, sg⟩).1]).toExt'.trans he
  have x3 := e4.toExt'.trans x4
  have x2 := r2.toExt'.trans x3
  have x1 := e2.toExt'.trans x2
  have s1 := hs.same e1.same
  have s2 := s1.same e2.same
  have s4 := (s2.same r2.same).same e4.same
  rw [evalE]
  refine Meets.bind (iha _ _ _ w hs h1 x1 pred env m S hd) e1.nv (fun qa' S1 p1 env1 m1 _ hd1 _ hq1 => ?_)
  refine Meets.bind (ihb _ _ _ w1 s1 h2 x2 p1 env1 m1 S1 hd1) e2.nv (fun qi' S2 p2 env2 m2 _ hd2 ha2 hq2 => ?_)
  refine Meets.bind (meets_rval h3 x3 s2 hd2 hq2) r2.nv (fun vb S3 p3 env3 m3 _ hd3 ha3 hr3 => ?_)
  have hqa := (hq1.agree ha2 e2.nv).agree ha3 r2.nv
  cases hqa with
  | rv h => cases ht
  | void => cases ht
  | @lv o e off ty' hl =>
    simp only [CT.lv.injEq] at ht
    obtain ⟨rfl, rfl, hc⟩ := ht
    simp only [hc]
    refine Meets.step hd3 (step_convertTo x4 hr3.2) e4.nv (fun env4 hd4 ha4 hr4 => ?_)
    refine Meets.bind (meets_store he s4 hd4 (hl.agree ha4 e4.nv) hc hr4) (em_op _ _ _).nv (fun _ S5 p5 env5 m5 _ hd5 ha5 _ => ?_)
    exact Meets.ok hd5 (.rv (hr4.agree ha5 (em_op _ _ _).nv))

theorem eok_cassign {op : BOp} {a b : Expr} (iha : EOk K Γ ob a) (ihb : EOk K Γ ob b) : EOk K Γ ob (.cassign op a b) := by
  intro c q c' w hs h he pred env m S hd
  obtain ⟨qa, c1, qb, c2, o2, tb, c3, wd, sg, h1, ht, h2, h3, rfl, rfl⟩ := emitE_cassign h
  have e1 := em_emitE a _ _ _ w h1
  have w1 := e1.wf w
  have l1 := em_op c1 (.load wd.bits) [qa.o]
  have e2 := em_emitE b _ _ _ (l1.wf w1) h2
  have r2 := em_getRValue h3
  have a3 := em_emitArith c3 op (c1.op (.load wd.bits) [qa.o]).1 ⟨wd, sg⟩ o2 tb
  have ty3 := emitArith_ty c3 op (c1.op (.load wd.bits) [qa.o]).1 ⟨wd, sg⟩ o2 tb
  have st3 : ∀ {env x y v}, Ext' (emitArith c3 op (c1.op (.load wd.bits) [qa.o]).1 ⟨wd, sg⟩ o2 tb).2.2 K.Fc →
    RRel c3.nv env (c1.op (.load wd.bits) [qa.o]).1 ⟨wd, sg⟩ x → RRel c3.nv env o2 tb y → binary op ⟨wd, sg⟩ x tb y = some v → _ :=
    fun {env x y v} he hl hr hb => step_emitArith (K := K) (env := env) (x := x) (y := y) (v := v) he hl hr hb
  generalize emitArith c3 op (c1.op (.load wd.bits) [qa.o]).1 ⟨wd, sg⟩ o2 tb = A at *
  rcases A with ⟨ao, at', ac⟩
  dsimp only at *
  subst ty3
  have e4 := em_convertTo ac ao (resTy op ⟨wd, sg⟩ tb) ⟨wd, sg⟩
  have x5 := (em_op (convertTo ac ao (resTy op ⟨wd, sg⟩ tb) ⟨wd, sg⟩).2 (.store wd.bits)
    [qa.o, (convertTo ac ao (resTy op ⟨wd, sg⟩ tb) ⟨wd, sg⟩).1]).toExt'.trans he
  have x4 := e4.toExt'.trans x5
  have x3 := a3.toExt'.trans x4
  have x2 := r2.toExt'.trans x3
  have xl := e2.toExt'.trans x2
  have x1 := l1.toExt'.trans xl
  have s1 := hs.same e1.same
  have sl := s1.same l1.same
  have s2 := sl.same e2.same
  have s5 := ((s2.same r2.same).same a3.same).same e4.same
  rw [evalE]
  refine Meets.bind (iha _ _ _ w hs h1 x1 pred env m S hd) e1.nv (fun qa' S1 p1 env1 m1 _ hd1 _ hq1 => ?_)
  cases hq1 with
  | rv h => cases ht
  | void => cases ht
  | @lv o e off ty' hl =>
    simp only [CT.lv.injEq] at ht
    obtain ⟨rfl, rfl, hc⟩ := ht
    simp only [hc]
    refine Meets.bind (meets_load xl s1 hd1 hl) l1.nv (fun va S2 p2 env2 m2 _ hd2 ha2 hr2 => ?_)
    have hr2' := hr2.2
    refine Meets.bind (ihb _ _ _ (l1.wf w1) sl h2 x2 p2 env2 m2 S2 hd2) e2.nv (fun qi' S3 p3 env3 m3 _ hd3 ha3 hq3 => ?_)
    refine Meets.bind (meets_rval h3 x3 s2 hd3 hq3) r2.nv (fun vb S4 p4 env4 m4 _ hd4 ha4 hr4 => ?_)
    obtain ⟨htb, hr4⟩ := hr4
    rw [htb]
    rcases hb : binary op ⟨wd, e.sg⟩ va.2 tb vb.2 with _ | v
    · trivial
    · rw [ofOpt_bind]
      refine Meets.step hd4 (st3 x4 (((hr2'.agree (nv' := (c1.op (.load wd.bits) [o]).2.nv) (Agree.refl _ _) le_rfl).agree ha3 e2.nv).agree ha4 r2.nv) hr4 hb) a3.nv (fun env5 hd5 ha5 hr5 => ?_)
      refine Meets.step hd5 (step_convertTo x5 hr5) e4.nv (fun env6 hd6 ha6 hr6 => ?_)
      have hl6 := ((((hl.agree ha2 l1.nv).agree ha3 e2.nv).agree ha4 r2.nv).agree ha5 a3.nv).agree ha6 e4.nv
      refine Meets.bind (meets_store he s5 hd6 hl6 hc hr6) (em_op _ _ _).nv (fun _ S7 p7 env7 m7 _ hd7 ha7 _ => ?_)
      refine Meets.ok hd7 ?_
      have h8 := hl6.agree (nv' := (convertTo ac ao (resTy op ⟨wd, e.sg⟩ tb) ⟨wd, e.sg⟩).2.nv + 1) ha7 (Nat.le_succ _)
      have := QRel.lv (ob := ob) h8
      rw [hc] at this
      exact this

end
end Cmmc.Fe
