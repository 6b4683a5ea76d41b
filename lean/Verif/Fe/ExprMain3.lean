import Verif.Fe.ExprMain2
/-!
# Expressions: `?:`, calls, all expressions
-/
namespace Cmmc.Fe
open Cmmc

section
variable {X : Ext} {K : Cfg X} {Γ : List (List SE)} {ob : Opd → Obj}

/-- two builder states with the same insert point -/
theorem Meets.shift {α : Type} {c c1 c' : Ctx} {pred : Option Nat} {env : Env} {m : Mem X} {tr : List X.E} {r : Out X α} {R : Env → α → Prop}
    {nv nv' : Nat} (hc : c.cur = c1.cur) (hk : c.code c.cur = c1.code c.cur) (hn : nv ≤ nv')
    (h : K.Meets Γ ob (K.pt c1 pred env m tr) nv' env c' r R) : K.Meets Γ ob (K.pt c pred env m tr) nv env c' r R := by
  rw [pt_congr hc hk]
  exact Meets.lead (Leads.refl _) (Agree.refl _ _) hn h

theorem getRValue_cur {c : Ctx} {q : QVal} {o : Opd} {t : IT} {c' : Ctx} (h : getRValue c q = some (o, t, c')) : c'.cur = c.cur ∧ c'.nb = c.nb := by
  unfold getRValue at h
  split at h
  · simp only [Option.some.injEq, Prod.mk.injEq] at h; rw [← h.2.2]; exact ⟨rfl, rfl⟩
  · split at h
    · simp only [Option.some.injEq, Prod.mk.injEq] at h; rw [← h.2.2]; exact ⟨rfl, rfl⟩
    · simp only [Option.some.injEq, Prod.mk.injEq] at h; rw [← h.2.2]; exact ⟨rfl, rfl⟩
  · cases h

theorem convertTo_cur (c : Ctx) (o : Opd) (s d : IT) : (convertTo c o s d).2.cur = c.cur ∧ (convertTo c o s d).2.nb = c.nb := by
  unfold convertTo
  split
  · exact ⟨rfl, rfl⟩
  · split
    · exact ⟨rfl, rfl⟩
    · split
      · exact ⟨rfl, rfl⟩
      · exact ⟨rfl, rfl⟩

theorem ext_setCur {c F : Ctx} {b : Nat} (h : Ext' (c.setCur b) F) : Ext' c F := ⟨h.nb, h.nv, h.slots, h.code⟩

theorem phi_empty {c c' : Ctx} {inc : List (Nat × Opd)} {o : Opd} (h : c.phi inc = some (o, c')) : c.code c.cur = [] := by
  unfold Ctx.phi at h
  split at h
  · rename_i hh; exact List.isEmpty_iff.1 hh
  · cases h

theorem sel_tail {c c' : Ctx} {inc : List (Nat × Opd)} {o : Opd} (h5 : c.phi inc = some (o, c')) (he : Ext' c' K.Fc)
    {env : Env} {p : Nat} {x : Opd} {t : IT} {v : Int} {nv : Nat} (hx : inc.find? (fun e => e.1 == p) = some (p, x))
    (hv : RRel nv env x t v) {m : Mem X} {S : SSt X} (hd : Dyn K Γ ob S env m) :
    K.Meets Γ ob (K.pt c (some p) env m S.tr) c.nv env c' (.ok (.rv t v) S) (fun env' qv => QRel Γ ob c'.nv env' ⟨o, .rv t⟩ qv) := by
  obtain ⟨ho, hn, hl⟩ := lead_phi h5 he hx (hv.eval (K := K)) m S.tr
  have ha : Agree c.nv env (SSA.setEnv K.L env (2 * c.nv + 1) (.int (raw t.w v))) := Agree.set (K := K) c.nv env _
  refine Meets.lead (nv' := c'.nv) hl ha (by rw [hn]; omega) ?_
  refine Meets.ok (hd.agree ha) (.rv ?_)
  rw [ho, hn]
  exact RRel.new hv.has

theorem eok_sel {k a b : Expr} (ihk : EOk K Γ ob k) (iha : EOk K Γ ob a) (ihb : EOk K Γ ob b) : EOk K Γ ob (.sel k a b) := by
  intro c q c' w hs h he pred env m S hd
  have htyp := (typeOf_emit (ob := ob) (.sel k a b) c q c' w hs h).1
  obtain ⟨qk, c1, ok, tk, c2, qa, c3, qb, c4, oa, ta, c5, o2, tb, c6, o, h1, h2, h3, h4, h5, h6, h7, rfl⟩ := emitE_sel h
  have e0 : EM c c.newBlock.2.newBlock.2 := (em_newBlock _).trans (em_newBlock _)
  have w0 := e0.wf w
  have e1 := em_emitE k _ _ _ w0 h1
  have r1 := em_getRValue h2
  have t1 : EM c2 (toBool c2 ok tk).2 := em_op _ _ _
  have stT : ∀ {env v}, Ext' (toBool c2 ok tk).2 K.Fc → RRel c2.nv env ok tk v → _ := fun {env v} he h => step_toBool (K := K) (env := env) (v := v) he h
  generalize toBool c2 ok tk = T at *
  rcases T with ⟨tO, tC⟩
  dsimp only at *
  have e2 := (e1.trans r1).trans t1
  have wT := e2.wf w0
  have nT : c.nb + 1 + 1 ≤ tC.nb := e2.nb
  have cT : c.cur < c.nb := w.cur
  have emp : ∀ b, b = c.nb ∨ b = c.nb + 1 → tC.code b = [] ∧ b ≠ tC.cur := by
    intro b hb
    have hb1 : b < c.newBlock.2.newBlock.2.nb := by show b < c.nb + 1 + 1; omega
    have hb2 : b ≠ c.newBlock.2.newBlock.2.cur := by show b ≠ c.cur; omega
    refine ⟨by rw [e2.fix b hb1 hb2]; exact w.empty b (by omega), ?_⟩
    have h8 : tC.cur = c.cur ∨ c.nb + 1 + 1 ≤ tC.cur := e2.cur
    omega
  have d0 : EM tC (tC.term (.cbr tO c.nb (c.nb + 1))) := em_term _ _
  have dcode : ∀ b, b = c.nb ∨ b = c.nb + 1 → (tC.term (.cbr tO c.nb (c.nb + 1))).code b = [] := fun b hb => by
    have := emp b hb
    show (tC.push _).code b = []
    rw [push_fix _ _ this.2, this.1]
  have dsame : Same tC ((tC.term (.cbr tO c.nb (c.nb + 1))).setCur c.nb) := ⟨rfl, rfl, rfl, rfl, rfl⟩
  have wD : Wf ((tC.term (.cbr tO c.nb (c.nb + 1))).setCur c.nb) :=
    ⟨by show c.nb < tC.nb; omega, (d0.wf wT).empty, (d0.wf wT).phi, (d0.wf wT).zero⟩
  have dnb : (tC.term (.cbr tO c.nb (c.nb + 1))).nb = tC.nb := rfl
  have dnv : (tC.term (.cbr tO c.nb (c.nb + 1))).nv = tC.nv := rfl
  generalize hD : tC.term (.cbr tO c.nb (c.nb + 1)) = D at *
  have e3 := em_emitE a _ _ _ wD h3
  have n3 : D.nb ≤ c3.nb := e3.nb
  have w3 := e3.wf wD
  have cur3 : c3.cur = c.nb ∨ D.nb ≤ c3.cur := e3.cur
  have c3e : c3.code (c.nb + 1) = [] := by
    rw [e3.fix (c.nb + 1) (by show _ < D.nb; omega) (by show c.nb + 1 ≠ c.nb; omega)]
    exact dcode _ (Or.inr rfl)
  have wE : Wf (c3.setCur (c.nb + 1)) := ⟨by show c.nb + 1 < c3.nb; omega, w3.empty, w3.phi, w3.zero⟩
  have e4 := em_emitE b _ _ _ wE h4
  have n4 : c3.nb ≤ c4.nb := e4.nb
  have w4 := e4.wf wE
  have cur4 : c4.cur = c.nb + 1 ∨ c3.nb ≤ c4.cur := e4.cur
  have hc3 := w3.cur
  have hc4 := w4.cur
  have hne : c3.cur ≠ c4.cur := by omega
  have r5 := em_getRValue h5
  obtain ⟨cur5, nb5⟩ := getRValue_cur h5
  have r6 := em_getRValue h6
  obtain ⟨cur6, nb6⟩ := getRValue_cur h6
  have cur5 : c5.cur = c3.cur := cur5
  have cur6 : c6.cur = c4.cur := cur6
  have nb5 : c5.nb = c4.nb + 1 := nb5
  have nb6 : c6.nb = c5.nb := nb6
  have y1 := em_convertTo (c6.setCur c3.cur) oa ta (implicitTarget none ta tb)
  have y1c := convertTo_cur (c6.setCur c3.cur) oa ta (implicitTarget none ta tb)
  have stX : ∀ {env v}, Ext' (convertTo (c6.setCur c3.cur) oa ta (implicitTarget none ta tb)).2 K.Fc → RRel (c6.setCur c3.cur).nv env oa ta v → _ :=
    fun {env v} he h => step_convertTo (K := K) (env := env) (v := v) he h
  generalize convertTo (c6.setCur c3.cur) oa ta (implicitTarget none ta tb) = Y at *
  rcases Y with ⟨xO, xC⟩
  dsimp only at *
  have y1cur : xC.cur = c3.cur := y1c.1
  have y1nb : xC.nb = c6.nb := y1c.2
  have z1 := em_term xC (.br c4.nb)
  have y2 := em_convertTo ((xC.term (.br c4.nb)).setCur c4.cur) o2 tb (implicitTarget none ta tb)
  have y2c := convertTo_cur ((xC.term (.br c4.nb)).setCur c4.cur) o2 tb (implicitTarget none ta tb)
  have stY : ∀ {env v}, Ext' (convertTo ((xC.term (.br c4.nb)).setCur c4.cur) o2 tb (implicitTarget none ta tb)).2 K.Fc →
      RRel ((xC.term (.br c4.nb)).setCur c4.cur).nv env o2 tb v → _ :=
    fun {env v} he h => step_convertTo (K := K) (env := env) (v := v) he h
  generalize convertTo ((xC.term (.br c4.nb)).setCur c4.cur) o2 tb (implicitTarget none ta tb) = Y at *
  rcases Y with ⟨yO, yC⟩
  dsimp only at *
  have y2cur : yC.cur = c4.cur := y2c.1
  have y2nb : yC.nb = xC.nb := y2c.2
  have z2 := em_term yC (.br c4.nb)
  have hphiE : (yC.term (.br c4.nb)).code c4.nb = [] := phi_empty h7
  have p7 : EM ((yC.term (.br c4.nb)).setCur c4.nb) c' := em_phi (EM.refl _) h7 (by show c4.nb ≠ 0; omega)
  -- the later states
  have xZ2 : Ext' (yC.term (.br c4.nb)) K.Fc := ext_setCur (p7.toExt'.trans he)
  have xY := z2.toExt'.trans xZ2
  have xZ1 : Ext' (xC.term (.br c4.nb)) K.Fc := ext_setCur (y2.toExt'.trans xY)
  have xX := z1.toExt'.trans xZ1
  have x6 : Ext' c6 K.Fc := ext_setCur (y1.toExt'.trans xX)
  have x5 : Ext' c5 K.Fc := ext_setCur (r6.toExt'.trans x6)
  have xN : Ext' c4.newBlock.2 K.Fc := ext_setCur (r5.toExt'.trans x5)
  have x4 : Ext' c4 K.Fc := (em_newBlock _).toExt'.trans xN
  have x3 : Ext' c3 K.Fc := ext_setCur (e4.toExt'.trans x4)
  have xD : Ext' D K.Fc := ext_setCur (e3.toExt'.trans x3)
  have xT := d0.toExt'.trans xD
  have x2 := t1.toExt'.trans xT
  have x1 := r1.toExt'.trans x2
  have hnbF : D.nb ≤ K.Fc.nb := xD.nb
  have hnbF4 : c4.nb + 1 ≤ K.Fc.nb := xN.nb
  -- static information
  have s0 := hs.same e0.same
  have s1 := s0.same e1.same
  have s2 := s1.same r1.same
  have sT := s2.same t1.same
  have sD := sT.same dsame
  have s3 := sD.same e3.same
  have sE : Stat K.consts Γ (c3.setCur (c.nb + 1)) := s3.same ⟨rfl, rfl, rfl, rfl, rfl⟩
  have s4 := sE.same e4.same
  have sN : Stat K.consts Γ (c4.newBlock.2.setCur c3.cur) := s4.same ⟨rfl, rfl, rfl, rfl, rfl⟩
  have s5 := sN.same r5.same
  have s5' : Stat K.consts Γ (c5.setCur c4.cur) := s5.same ⟨rfl, rfl, rfl, rfl, rfl⟩
  have nv34 : c3.nv ≤ c4.nv := e4.nv
  have nv45 : c4.nv ≤ c5.nv := r5.nv
  have nv56 : c5.nv ≤ c6.nv := r6.nv
  have nv6x : c6.nv ≤ xC.nv := y1.nv
  have nvxy : xC.nv ≤ yC.nv := y2.nv
  obtain ⟨ta', tb', hta, htb, htyeq⟩ : ∃ ta' tb', (typeOf K.sigs (den Γ ob) a).bind CT.val = some ta' ∧
      (typeOf K.sigs (den Γ ob) b).bind CT.val = some tb' ∧ usual ta' tb' = implicitTarget none ta tb := by
    rw [typeOf] at htyp
    obtain ⟨v1, hv1, htyp⟩ := bind_some' htyp
    obtain ⟨v2, hv2, htyp⟩ := bind_some' htyp
    obtain ⟨v3, hv3, htyp⟩ := bind_some' htyp
    obtain ⟨v4, hv4, htyp⟩ := bind_some' htyp
    simp only [Option.pure_def, Option.some.injEq, CT.rv.injEq] at htyp
    exact ⟨v2, v4, by rw [hv1]; exact hv2, by rw [hv3]; exact hv4, htyp⟩
  rw [evalE, hta, htb]
  dsimp only
  rw [htyeq]
  refine Meets.shift (c1 := c.newBlock.2.newBlock.2) (nv' := c.nv) rfl rfl le_rfl ?_
  refine Meets.bind (ihk _ _ _ w0 s0 h1 x1 pred env m S hd) e1.nv (fun qk' S1 p1 env1 m1 _ hd1 _ hq1 => ?_)
  refine Meets.bind (meets_rval h2 x2 s1 hd1 hq1) r1.nv (fun vk S2 p2 env2 m2 _ hd2 _ hr2 => ?_)
  refine Meets.step hd2 (stT xT hr2.2) t1.nv (fun env3 hd3 _ hb3 => ?_)
  have hterm := evalTerm_cbr (K := K) hb3
  by_cases hgo : vk.2 ≠ 0
  · rw [if_pos hgo]
    refine Meets.goto (c := tC) (c2 := D.setCur c.nb) (t := .cbr tO c.nb (c.nb + 1)) (nv' := D.nv) (by rw [hD]; exact xD) ?_ ?_ ?_ ?_ (by omega) ?_
    · exact (hterm _ _).trans (by simp [hgo]; rfl)
    · show c.nb ≠ 0
      omega
    · show c.nb < _
      omega
    · exact dcode _ (Or.inl rfl)
    · refine Meets.bind (iha _ _ _ wD sD h3 x3 _ env3 m2 S2 hd3) e3.nv (fun qa' S4 p4 env4 m4 _ hd4 _ hq4 => ?_)
      refine Meets.shift (c1 := c4.newBlock.2.setCur c3.cur) (nv' := c4.nv) rfl ?_ nv34 ?_
      · show c3.code c3.cur = c4.code c3.cur
        rw [e4.fix c3.cur hc3 (by show c3.cur ≠ c.nb + 1; omega)]
        rfl
      refine Meets.bind (meets_rval h5 x5 sN hd4 (hq4.agree (Agree.refl _ _) nv34)) r5.nv (fun va S5 p5 env5 m5 _ hd5 _ hr5 => ?_)
      refine Meets.shift (c1 := c6.setCur c3.cur) (nv' := c6.nv) cur5 ?_ nv56 ?_
      · show c5.code c5.cur = c6.code c5.cur
        rw [r6.fix c5.cur (by show c5.cur < c5.nb; omega) (by show c5.cur ≠ c4.cur; omega)]
        rfl
      refine Meets.step hd5 (stX xX (hr5.2.agree (Agree.refl _ _) nv56)) y1.nv (fun env6 hd6 _ hr6 => ?_)
      refine Meets.goto (c := xC) (c2 := (yC.term (.br c4.nb)).setCur c4.nb) (t := .br c4.nb) (nv' := yC.nv) xZ1 rfl ?_ ?_ hphiE nvxy ?_
      · show c4.nb ≠ 0
        omega
      · show c4.nb < _
        omega
      · refine sel_tail h7 he ?_ hr6 hd6
        rw [y1cur, List.find?_cons_of_pos (by simp)]
  · rw [if_neg hgo]
    refine Meets.goto (c := tC) (c2 := c3.setCur (c.nb + 1)) (t := .cbr tO c.nb (c.nb + 1)) (nv' := c3.nv) (by rw [hD]; exact xD) ?_ ?_ ?_ ?_ ?_ ?_
    · exact (hterm _ _).trans (by simp only [hgo]; rfl)
    · show c.nb + 1 ≠ 0
      omega
    · show c.nb + 1 < _
      omega
    · exact c3e
    · have : D.nv ≤ c3.nv := e3.nv
      omega
    · refine Meets.bind (ihb _ _ _ wE sE h4 x4 _ env3 m2 S2 hd3) e4.nv (fun qb' S4 p4 env4 m4 _ hd4 _ hq4 => ?_)
      refine Meets.shift (c1 := c5.setCur c4.cur) (nv' := c5.nv) rfl ?_ nv45 ?_
      · show c4.code c4.cur = c5.code c4.cur
        rw [r5.fix c4.cur (by show c4.cur < c4.nb + 1; omega) (by show c4.cur ≠ c3.cur; omega)]
        rfl
      refine Meets.bind (meets_rval h6 x6 s5' hd4 (hq4.agree (Agree.refl _ _) nv45)) r6.nv (fun vb S5 p5 env5 m5 _ hd5 _ hr5 => ?_)
      refine Meets.shift (c1 := (xC.term (.br c4.nb)).setCur c4.cur) (nv' := xC.nv) cur6 ?_ nv6x ?_
      · show c6.code c6.cur = (xC.term (.br c4.nb)).code c6.cur
        have h9 := (y1.trans z1).fix c6.cur (by show c6.cur < c6.nb; omega) (by show c6.cur ≠ c3.cur; omega)
        rw [h9]
        rfl
      refine Meets.step hd5 (stY xY (hr5.2.agree (Agree.refl _ _) nv6x)) y2.nv (fun env6 hd6 _ hr6 => ?_)
      refine Meets.goto (c := yC) (c2 := (yC.term (.br c4.nb)).setCur c4.nb) (t := .br c4.nb) (nv' := yC.nv) xZ2 rfl ?_ ?_ hphiE le_rfl ?_
      · show c4.nb ≠ 0
        omega
      · show c4.nb < _
        omega
      · refine sel_tail h7 he ?_ hr6 hd6
        rw [y2cur, List.find?_cons_of_neg (by simpa using hne), List.find?_cons_of_pos (by simp)]

/-! ## calls -/

theorem aok_nil : AOk K Γ ob .nil := by
  intro ts c os c' w hs h he pred env m S hd
  cases ts with
  | nil =>
    rw [emitArgs] at h
    simp only [Option.some.injEq, Prod.mk.injEq] at h
    obtain ⟨rfl, rfl⟩ := h
    rw [evalArgs]
    exact Meets.ok hd (fun env'' _ => rfl)
  | cons t ts => simp [emitArgs] at h

theorem aok_cons {a : Expr} {as : Args} (iha : EOk K Γ ob a) (ihs : AOk K Γ ob as) : AOk K Γ ob (.cons a as) := by
  intro ts c os c' w hs h he pred env m S hd
  cases ts with
  | nil => simp [emitArgs] at h
  | cons t ts =>
    obtain ⟨qa, c1, oa, ta, c2, os', h1, h2, h3, rfl⟩ := emitArgs_cons h
    have e1 := em_emitE a _ _ _ w h1
    have r1 := em_getRValue h2
    have v1 := em_convertTo c2 oa ta t
    have w3 := ((e1.trans r1).trans v1).wf w
    have e3 := em_emitArgs ts as _ _ _ w3 h3
    have x3 := e3.toExt'.trans he
    have x2 := v1.toExt'.trans x3
    have x1 := r1.toExt'.trans x2
    have s1 := hs.same e1.same
    have s3 := (s1.same r1.same).same v1.same
    rw [evalArgs]
    refine Meets.bind (iha _ _ _ w hs h1 x1 pred env m S hd) e1.nv (fun qa' S1 p1 env1 m1 _ hd1 _ hq1 => ?_)
    refine Meets.bind (meets_rval h2 x2 s1 hd1 hq1) r1.nv (fun va S2 p2 env2 m2 _ hd2 _ hr2 => ?_)
    refine Meets.step hd2 (step_convertTo x3 hr2.2) v1.nv (fun env3 hd3 _ hr3 => ?_)
    refine Meets.bind (ihs _ _ _ _ w3 s3 h3 he p2 env3 m2 S2 hd3) e3.nv (fun vs S4 p4 env4 m4 _ hd4 ha4 hr4 => ?_)
    refine Meets.ok hd4 (fun env'' ha => ?_)
    have h5 := ((hr3.agree ha4 e3.nv).agree ha le_rfl).eval (K := K)
    have h6 := hr4 env'' ha
    simp only [SSA.evals, h5, h6]
    rfl

theorem mapM_nat (vs : List Nat) : (vs.map V.int).mapM V.nat = some vs := by
  induction vs with
  | nil => rfl
  | cons v vs ih =>
    rw [List.map_cons, List.mapM_cons, ih]
    rfl

theorem eok_call {f : String} {as : Args} (ihs : AOk K Γ ob as) : EOk K Γ ob (.call f as) := by
  intro c q c' w hs h he pred env m S hd
  obtain ⟨ps, r, os, c1, _, hf, h1, rfl, rfl⟩ := emitE_call h
  have e1 := em_emitArgs ps as _ _ _ w h1
  have o1 := em_op c1 (.call f (r.map (fun t => t.w.bits))) os
  have x1 := o1.toExt'.trans he
  rw [evalE, hf]
  dsimp only
  refine Meets.bind (ihs _ _ _ _ w hs h1 x1 pred env m S hd) e1.nv (fun vs S1 p1 env1 m1 _ hd1 _ hr1 => ?_)
  have hev := hr1 env1 (Agree.refl _ _)
  have hsem : irSem K.tc (.call f (r.map (fun t => t.w.bits))) (vs.map V.int) m1 =
      match K.tc f vs m1.w with
      | .ub => .ub
      | .halt es h => .halt es h
      | .ok n w' es => .ok (match r.map (fun t => t.w.bits) with | some w => .int (n % 2 ^ w) | none => .undef) { m1 with w := w' } es := by
    simp only [irSem, mapM_nat]
    rcases K.tc f vs m1.w with ⟨n, w', es⟩ | _ | ⟨es, hh⟩ <;> cases r <;> rfl
  rw [hd1.w] at hsem
  rcases hc : K.sc f vs S1.w with ⟨n, w', es⟩ | _ | ⟨es, hh⟩
  · have href := K.ref f vs S1.w hd1.inv (by rw [hc]; simp)
    rw [href, hc] at hsem
    dsimp only at hsem
    have hl := lead_op he hev hsem p1 S1.tr
    dsimp only
    have hinv := K.icall _ _ _ _ _ _ hd1.inv hc
    have hd2 : Dyn K Γ ob { S1 with w := w', tr := S1.tr ++ es } env1 { m1 with w := w' } :=
      { hd1 with w := rfl, inv := hinv }
    refine ⟨0, p1, _, _, hl, hd2.agree (Agree.set (K := K) c1.nv env1 _), Agree.set (K := K) c1.nv env1 _, ?_⟩
    cases r with
    | none => exact .void
    | some t =>
      refine .rv ?_
      have : n % 2 ^ t.w.bits = raw t.w (conv t n) := by
        rw [raw_conv]
        zify
        rw [raw_cast]
      show RRel (c1.nv + 1) _ _ _ _
      have h8 := RRel.new (K := K) (nv := c1.nv) (env := env1) (conv_has t n)
      rw [← this] at h8
      exact h8
  · trivial
  · have href := K.ref f vs S1.w hd1.inv (by rw [hc]; simp)
    rw [href, hc] at hsem
    exact ⟨1, halt_op he hev hsem p1 S1.tr⟩

mutual
/-- every expression -/
theorem emitE_ok : ∀ e : Expr, EOk K Γ ob e
  | .lit v t => eok_lit v t
  | .id x => eok_id x
  | .idx a i => eok_idx (emitE_ok a) (emitE_ok i)
  | .bin _ a b => eok_bin (emitE_ok a) (emitE_ok b)
  | .land a b => eok_land (emitE_ok a) (emitE_ok b)
  | .lor a b => eok_lor (emitE_ok a) (emitE_ok b)
  | .assign a b => eok_assign (emitE_ok a) (emitE_ok b)
  | .cassign _ a b => eok_cassign (emitE_ok a) (emitE_ok b)
  | .un _ a => eok_un (emitE_ok a)
  | .incdec _ _ a => eok_incdec (emitE_ok a)
  | .sel c a b => eok_sel (emitE_ok c) (emitE_ok a) (emitE_ok b)
  | .cast _ a => eok_cast (emitE_ok a)
  | .comma a b => eok_comma (emitE_ok a) (emitE_ok b)
  | .call _ as => eok_call (emitArgs_ok as)
theorem emitArgs_ok : ∀ as : Args, AOk K Γ ob as
  | .nil => aok_nil
  | .cons a as => aok_cons (emitE_ok a) (emitArgs_ok as)
end

/-- conditions -/
theorem emitC_ok {e : Expr} {c : Ctx} {o : Opd} {c' : Ctx} (w : Wf c) (hs : Stat K.consts Γ c) (h : emitC K.sigs K.P e c = some (o, c'))
    (he : Ext' c' K.Fc) (pred : Option Nat) (env : Env) (m : Mem X) (S : SSt X) (hd : Dyn K Γ ob S env m) :
    K.Meets Γ ob (K.pt c pred env m S.tr) c.nv env c' (evalC K.sigs K.sc (den Γ ob) e S) (fun env' b => BRel c'.nv env' o b) := by
  obtain ⟨q, c1, o1, t, c2, h1, h2, rfl, rfl⟩ := emitC_inv h
  have e1 := em_emitE e _ _ _ w h1
  have r1 := em_getRValue h2
  have t1 : EM c2 (toBool c2 o1 t).2 := em_op _ _ _
  have x2 := t1.toExt'.trans he
  have x1 := r1.toExt'.trans x2
  have s1 := hs.same e1.same
  unfold evalC
  refine Meets.bind (emitE_ok e _ _ _ w hs h1 x1 pred env m S hd) e1.nv (fun qa' S1 p1 env1 m1 _ hd1 _ hq1 => ?_)
  refine Meets.bind (meets_rval h2 x2 s1 hd1 hq1) r1.nv (fun va S2 p2 env2 m2 _ hd2 _ hr2 => ?_)
  exact Meets.last hd2 (step_toBool he hr2.2) t1.nv (fun e hR => hR)

end
end Cmmc.Fe
