import Verif.Fe.ExprMain
/-!
# Expressions: `++`/`--`, `&&`/`||`
-/
namespace Cmmc.Fe
open Cmmc

section
variable {X : Ext} {K : Cfg X} {Γ : List (List SE)} {ob : Opd → Obj}

theorem opTy_wide {w : Wd} {sg : Bool} (hw : ¬ w.bits / 8 < 4) (inc : Bool) :
    opTy (if inc then .add else .sub) ⟨w, sg⟩ .int = ⟨w, sg⟩ := by
  cases w <;> simp [Wd.bits] at hw <;> cases sg <;> cases inc <;> rfl

theorem opTy_narrow {w : Wd} {sg : Bool} (hw : w.bits / 8 < 4) (inc : Bool) :
    opTy (if inc then .add else .sub) ⟨w, sg⟩ .int = .int := by
  cases w <;> simp [Wd.bits] at hw <;> cases sg <;> cases inc <;> rfl

theorem narrow_has {w : Wd} {sg : Bool} (hw : w.bits / 8 < 4) {v : Int} (h : IT.has ⟨w, sg⟩ v = true) :
    IT.int.has v = true ∧ IT.has ⟨.w32, sg⟩ v = true := by
  rw [has_iff] at h
  rw [has_iff, has_iff]
  cases w <;> simp [Wd.bits] at hw <;> cases sg <;> revert h <;> simp [IT.lo, IT.hi, Wd.bits, IT.int] <;> omega

theorem incdec_op {inc : Bool} {t : IT} {x v : Int} (hx : t.has x = true)
    (h : binop (if inc then .add else .sub) t x 1 = some v) :
    IR.binDef false (if inc then .add else .sub) (BitVec.ofInt t.w.bits x) (BitVec.ofInt t.w.bits 1) ∧
    (IR.binVal (if inc then .add else .sub) (BitVec.ofInt t.w.bits x) (BitVec.ofInt t.w.bits 1)).toNat = raw t.w v ∧ t.has v = true := by
  have h1 := small_has t (v := 1) (by omega) (by omega)
  cases inc
  · exact bin_ok hx h1 h rfl
  · exact bin_ok hx h1 h rfl

theorem binary_incdec {inc : Bool} {s t : IT} {x v : Int} (ht : opTy (if inc then .add else .sub) s .int = t) (hx : t.has x = true)
    (h : binary (if inc then .add else .sub) s x .int 1 = some v) : binop (if inc then .add else .sub) t x 1 = some v := by
  unfold binary at h
  dsimp only at h
  rw [ht, conv_of_has hx, conv_of_has (small_has t (v := 1) (by omega) (by omega))] at h
  cases inc <;> exact h

theorem eok_incdec {pre inc : Bool} {a : Expr} (iha : EOk K Γ ob a) : EOk K Γ ob (.incdec pre inc a) := by
  intro c q c' w hs h he pred env m S hd
  obtain ⟨qa, c1, wd, sg, h1, ht, rfl, rfl⟩ := emitE_incdec h
  have e1 := em_emitE a _ _ _ w h1
  have x1 := (em_incdec pre inc wd sg qa.o c1).toExt'.trans he
  have s1 := hs.same e1.same
  rw [evalE]
  refine Meets.bind (iha _ _ _ w hs h1 x1 pred env m S hd) e1.nv (fun qa' S1 p1 env1 m1 _ hd1 _ hq1 => ?_)
  cases hq1 with
  | rv h => cases ht
  | void => cases ht
  | @lv o e off ty' hl =>
    simp only [CT.lv.injEq] at ht
    obtain ⟨rfl, rfl, hc⟩ := ht
    simp only [hc]
    have l1 := em_op c1 (.load wd.bits) [o]
    have sl := s1.same l1.same
    by_cases hw : wd.bits / 8 < 4
    · have hI : incdecOps pre inc wd e.sg o c1 =
          (let l := c1.op (.load wd.bits) [o]
           let v := convertTo l.2 l.1 ⟨wd, e.sg⟩ ⟨.w32, e.sg⟩
           let n := v.2.op (.bin (if inc then .add else .sub) 32) [v.1, cint .w32 1]
           let n := n.2.op (.cast (if e.sg then .strunc else .ztrunc) 32 wd.bits) [n.1]
           (if pre then n.1 else l.1, (n.2.op (.store wd.bits) [o, n.1]).2)) := by
        unfold incdecOps; dsimp only; rw [if_pos hw]
      rw [hI] at he ⊢
      dsimp only at he ⊢
      have e2 := em_convertTo (c1.op (.load wd.bits) [o]).2 (c1.op (.load wd.bits) [o]).1 ⟨wd, e.sg⟩ ⟨.w32, e.sg⟩
      have st2 : ∀ {env v}, _ → _ → _ := fun {env v} => step_convertTo (K := K) (c := (c1.op (.load wd.bits) [o]).2) (o := (c1.op (.load wd.bits) [o]).1)
        (s := ⟨wd, e.sg⟩) (d := ⟨.w32, e.sg⟩) (env := env) (v := v)
      generalize convertTo (c1.op (.load wd.bits) [o]).2 (c1.op (.load wd.bits) [o]).1 ⟨wd, e.sg⟩ ⟨.w32, e.sg⟩ = V at *
      rcases V with ⟨vo, vc⟩
      dsimp only at *
      have e3 := em_op vc (.bin (if inc then .add else .sub) 32) [vo, cint .w32 1]
      have e4 := em_op (vc.op (.bin (if inc then .add else .sub) 32) [vo, cint .w32 1]).2 (.cast (if e.sg then .strunc else .ztrunc) 32 wd.bits)
        [(vc.op (.bin (if inc then .add else .sub) 32) [vo, cint .w32 1]).1]
      have x4 := (em_op _ _ _).toExt'.trans he
      have x3 := e4.toExt'.trans x4
      have x2 := e3.toExt'.trans x3
      have xl := e2.toExt'.trans x2
      have s4 := ((sl.same e2.same).same e3.same).same e4.same
      refine Meets.bind (meets_load xl s1 hd1 hl) l1.nv (fun va S2 p2 env2 m2 _ hd2 ha2 hr2 => ?_)
      have hr2' := hr2.2
      rcases hb : binary (if inc then .add else .sub) ⟨wd, e.sg⟩ va.2 .int 1 with _ | v
      · trivial
      · rw [ofOpt_bind]
        obtain ⟨hi1, hi2⟩ := narrow_has hw hr2'.has
        have hb' : binop (if inc then .add else .sub) .int va.2 1 = some v := by
          exact binary_incdec (opTy_narrow hw inc) hi1 hb
        obtain ⟨b1, b2, b3⟩ := incdec_op hi1 hb'
        refine Meets.step hd2 (st2 x2 hr2') e2.nv (fun env3 hd3 ha3 hr3 => ?_)
        rw [conv_of_has hi2] at hr3
        have hone : SSA.eval K.L env3 (cint .w32 1) = some (.int (raw .w32 1)) := rfl
        refine Meets.step (R1 := fun e' => RRel (vc.nv + 1) e' (.inst (2 * vc.nv + 1)) .int v) hd3
          (step_op x3 (evals_two hr3.eval hone) (v := .int (raw .w32 v)) (fun m => ?_) (RRel.new (t := .int) b3)) e3.nv (fun env4 hd4 ha4 hr4 => ?_)
        · have b1' : IR.binDef false (if inc then .add else .sub) (BitVec.ofInt 32 va.2) (BitVec.ofInt 32 1) := b1
          have b2' : (IR.binVal (if inc then .add else .sub) (BitVec.ofInt 32 va.2) (BitVec.ofInt 32 1)).toNat = raw .w32 v := b2
          have q1 : BitVec.ofNat 32 (raw .w32 va.2) = BitVec.ofInt 32 va.2 := ofNat_raw .w32 va.2
          have q2 : BitVec.ofNat 32 (raw .w32 1) = BitVec.ofInt 32 1 := ofNat_raw .w32 1
          simp only [irSem, q1, q2, if_pos b1', b2']
        refine Meets.step (R1 := fun e' => RRel (vc.nv + 1 + 1) e' (.inst (2 * (vc.nv + 1) + 1)) ⟨wd, e.sg⟩ (conv ⟨wd, e.sg⟩ v)) hd4
          (step_op x4 (evals_one hr4.eval) (v := .int (raw wd (conv ⟨wd, e.sg⟩ v))) (fun m => ?_) (RRel.new (t := ⟨wd, e.sg⟩) (conv_has _ _))) e4.nv (fun env5 hd5 ha5 hr5 => ?_)
        · have q1 : BitVec.ofNat 32 (raw .w32 v) = BitVec.ofInt 32 v := ofNat_raw .w32 v
          have q2 := trunc_ok (src := .w32) (dst := ⟨wd, e.sg⟩) e.sg v (by cases wd <;> simp [Wd.bits] at hw ⊢)
          have q2' : (IR.castVal wd.bits (if e.sg then .strunc else .ztrunc) (BitVec.ofInt 32 v)).toNat = raw wd v := q2
          have q3 : raw wd (conv ⟨wd, e.sg⟩ v) = raw wd v := raw_conv ⟨wd, e.sg⟩ v
          show irSem K.tc _ [V.int (raw .w32 v)] m = _
          simp only [irSem, q1, q2', q3]
        have hl5 := (((hl.agree ha2 l1.nv).agree ha3 e2.nv).agree ha4 e3.nv).agree ha5 e4.nv
        have ho5 := ((hr2'.agree (nv' := vc.nv) ha3 e2.nv).agree ha4 e3.nv).agree ha5 e4.nv
        refine Meets.bind (meets_store he s4 hd5 hl5 hc hr5) (em_op _ _ _).nv (fun _ S7 p7 env7 m7 _ hd7 ha7 _ => ?_)
        refine Meets.ok hd7 (.rv ?_)
        cases pre
        · exact ho5.agree ha7 (Nat.le_succ _)
        · exact hr5.agree ha7 (Nat.le_succ _)
    · have hI : incdecOps pre inc wd e.sg o c1 =
          (let l := c1.op (.load wd.bits) [o]
           let n := l.2.op (.bin (if inc then .add else .sub) wd.bits) [l.1, cint wd 1]
           (if pre then n.1 else l.1, (n.2.op (.store wd.bits) [o, n.1]).2)) := by
        unfold incdecOps; dsimp only; rw [if_neg hw]
      rw [hI] at he ⊢
      dsimp only at he ⊢
      have e3 := em_op (c1.op (.load wd.bits) [o]).2 (.bin (if inc then .add else .sub) wd.bits) [(c1.op (.load wd.bits) [o]).1, cint wd 1]
      have x3 := (em_op _ _ _).toExt'.trans he
      have xl := e3.toExt'.trans x3
      have s4 := sl.same e3.same
      refine Meets.bind (meets_load xl s1 hd1 hl) l1.nv (fun va S2 p2 env2 m2 _ hd2 ha2 hr2 => ?_)
      have hr2' := hr2.2
      rcases hb : binary (if inc then .add else .sub) ⟨wd, e.sg⟩ va.2 .int 1 with _ | v
      · trivial
      · rw [ofOpt_bind]
        have hb' : binop (if inc then .add else .sub) ⟨wd, e.sg⟩ va.2 1 = some v := by
          exact binary_incdec (opTy_wide hw inc) hr2'.has hb
        obtain ⟨b1, b2, b3⟩ := incdec_op hr2'.has hb'
        dsimp only at b1 b2
        have hone : SSA.eval K.L env2 (cint wd 1) = some (.int (raw wd 1)) := rfl
        refine Meets.step (R1 := fun e' => RRel (c1.nv + 1 + 1) e' (.inst (2 * (c1.nv + 1) + 1)) ⟨wd, e.sg⟩ v) hd2
          (step_op x3 (evals_two hr2'.eval hone) (v := .int (raw wd v)) (fun m => ?_) (RRel.new (t := ⟨wd, e.sg⟩) b3)) e3.nv (fun env4 hd4 ha4 hr4 => ?_)
        · show irSem K.tc _ [V.int (raw wd va.2), V.int (raw wd 1)] m = _
          simp only [irSem, ofNat_raw, if_pos b1, b2]
        rw [conv_of_has b3]
        have hl5 := (hl.agree ha2 l1.nv).agree ha4 e3.nv
        have ho5 := hr2'.agree (nv' := c1.nv + 1 + 1) ha4 (by omega)
        refine Meets.bind (meets_store he s4 hd4 hl5 hc hr4) (em_op _ _ _).nv (fun _ S7 p7 env7 m7 _ hd7 ha7 _ => ?_)
        refine Meets.ok hd7 (.rv ?_)
        cases pre
        · exact ho5.agree ha7 (Nat.le_succ _)
        · exact hr4.agree ha7 (Nat.le_succ _)

/-! ## `&&` and `||` -/

theorem logic_tail {c c5 : Ctx} {inc : List (Nat × Opd)} {o : Opd} (h5 : c.phi inc = some (o, c5)) (he : Ext' (boolToInt c5 o).2 K.Fc)
    {env : Env} {p : Nat} {x : Opd} {b : Bool} (hx : inc.find? (fun e => e.1 == p) = some (p, x))
    (hv : SSA.eval K.L env x = some (.int b.toNat)) {m : Mem X} {S : SSt X} (hd : Dyn K Γ ob S env m) :
    K.Meets Γ ob (K.pt c (some p) env m S.tr) c.nv env (boolToInt c5 o).2 (.ok (.rv .int (b2i b)) S)
      (fun env' qv => QRel Γ ob (boolToInt c5 o).2.nv env' ⟨(boolToInt c5 o).1, .rv ⟨.w32, true⟩⟩ qv) := by
  have e5 : EM c5 (boolToInt c5 o).2 := em_op _ _ _
  obtain ⟨ho, hn, hl⟩ := lead_phi h5 (e5.toExt'.trans he) hx hv m S.tr
  have ha : Agree c.nv env (SSA.setEnv K.L env (2 * c.nv + 1) (.int b.toNat)) := Agree.set (K := K) c.nv env _
  refine Meets.lead (nv' := c5.nv) hl ha (by rw [hn]; omega) ?_
  have hB : BRel c5.nv (SSA.setEnv K.L env (2 * c.nv + 1) (.int b.toNat)) o b := by
    rw [ho, hn]; exact BRel.new
  exact Meets.last (hd.agree ha) (step_boolToInt he hB) e5.nv (fun e hR => .rv hR)

/-- what `&&` (`and`) and `||` do -/
theorem meets_logic {and : Bool} {a b : Expr} (iha : EOk K Γ ob a) (ihb : EOk K Γ ob b) {c : Ctx} {q : QVal} {c' : Ctx} (w : Wf c)
    (hs : Stat K.consts Γ c) (h : Logic K.sigs K.P and a b c q c') (he : Ext' c' K.Fc) (pred : Option Nat) (env : Env) (m : Mem X) (S : SSt X)
    (hd : Dyn K Γ ob S env m) :
    K.Meets Γ ob (K.pt c pred env m S.tr) c.nv env c'
      ((evalE K.sigs K.sc (den Γ ob) a S).bind fun qa s => (rval qa s).bind fun va s =>
        if decide (va.2 ≠ 0) = and then
          (evalE K.sigs K.sc (den Γ ob) b s).bind fun qb s => (rval qb s).bind fun vb s => .ok (.rv .int (b2i (vb.2 ≠ 0))) s
        else .ok (.rv .int (b2i (!and))) s) (fun env' qv => QRel Γ ob c'.nv env' q qv) := by
  obtain ⟨qa, c1, oa, ta, c2, qb, c3, o2, tb, c4, o, c5, h1, h2, h3, h4, h5, rfl, rfl⟩ := h
  have e1 := em_emitE a _ _ _ w h1
  have r1 := em_getRValue h2
  have t1 : EM c2 (toBool c2 oa ta).2 := em_op _ _ _
  have stT : ∀ {env v}, Ext' (toBool c2 oa ta).2 K.Fc → RRel c2.nv env oa ta v → _ := fun {env v} he h => step_toBool (K := K) (env := env) (v := v) he h
  have wT := ((e1.trans r1).trans t1).wf w
  generalize toBool c2 oa ta = T at *
  rcases T with ⟨tO, tC⟩
  dsimp only at *
  have n0 : EM tC (tC.newBlock.2.newBlock.2.term (if and then .cbr tO tC.nb (tC.nb + 1) else .cbr tO (tC.nb + 1) tC.nb)) :=
    ((em_newBlock _).trans (em_newBlock _)).trans (em_term _ _)
  have n1 := em_setCur n0 (b := tC.nb) (Or.inr le_rfl) (by show tC.nb < tC.nb + 1 + 1; omega)
  have hemp : ((tC.newBlock.2.newBlock.2.term (if and then .cbr tO tC.nb (tC.nb + 1) else .cbr tO (tC.nb + 1) tC.nb)).setCur tC.nb).code tC.nb = [] := by
    have hne : tC.nb ≠ tC.cur := by have := wT.cur; omega
    show (if tC.nb = tC.cur then tC.code tC.nb ++ [_] else tC.code tC.nb) = []
    rw [if_neg hne]
    exact wT.empty _ le_rfl
  generalize hD : tC.newBlock.2.newBlock.2.term (if and then .cbr tO tC.nb (tC.nb + 1) else .cbr tO (tC.nb + 1) tC.nb) = D at *
  have hDnb : D.nb = tC.nb + 1 + 1 := by rw [← hD]; rfl
  have w3 := n1.wf wT
  have e3 := em_emitE b _ _ _ w3 h3
  have r3 := em_getRValue h4
  have u3 : EM c4 (toBool c4 o2 tb).2 := em_op _ _ _
  have stU : ∀ {env v}, Ext' (toBool c4 o2 tb).2 K.Fc → RRel c4.nv env o2 tb v → _ := fun {env v} he h => step_toBool (K := K) (env := env) (v := v) he h
  generalize toBool c4 o2 tb = U at *
  rcases U with ⟨uO, uC⟩
  dsimp only at *
  have eU := (e3.trans r3).trans u3
  have hcurU : uC.cur ≠ tC.cur := by
    have h7 : uC.cur = tC.nb ∨ D.nb ≤ uC.cur := eU.cur
    have := wT.cur
    omega
  have hnbU : tC.nb + 1 + 1 ≤ uC.nb := by rw [← hDnb]; exact eU.nb
  have b5 : EM c5 (boolToInt c5 o).2 := em_op _ _ _
  have x5 := b5.toExt'.trans he
  have p5 : EM ((uC.term (.br (tC.nb + 1))).setCur (tC.nb + 1)) c5 := em_phi (EM.refl _) h5 (by show tC.nb + 1 ≠ 0; omega)
  have x4' : Ext' (uC.term (.br (tC.nb + 1))) K.Fc := by
    have := p5.toExt'.trans x5
    exact ⟨this.nb, this.nv, this.slots, this.code⟩
  have xU : Ext' uC K.Fc := (em_term _ _).toExt'.trans x4'
  have x4 := u3.toExt'.trans xU
  have x3 := r3.toExt'.trans x4
  have xD' := e3.toExt'.trans x3
  have xD : Ext' D K.Fc := ⟨xD'.nb, xD'.nv, xD'.slots, xD'.code⟩
  have xT := n0.toExt'.trans xD
  have x2 := t1.toExt'.trans xT
  have x1 := r1.toExt'.trans x2
  have s1 := hs.same e1.same
  have s2 := s1.same r1.same
  have sT := s2.same t1.same
  have sD := sT.same n1.same
  have s3 := sD.same e3.same
  have hnbF : uC.nb ≤ K.Fc.nb := xU.nb
  have hphiE : ((uC.term (.br (tC.nb + 1))).setCur (tC.nb + 1)).code (tC.nb + 1) = [] := by
    unfold Ctx.phi at h5
    split at h5
    · rename_i hh; exact List.isEmpty_iff.1 hh
    · cases h5
  refine Meets.bind (iha _ _ _ w hs h1 x1 pred env m S hd) e1.nv (fun qa' S1 p1 env1 m1 _ hd1 _ hq1 => ?_)
  refine Meets.bind (meets_rval h2 x2 s1 hd1 hq1) r1.nv (fun va S2 p2 env2 m2 _ hd2 _ hr2 => ?_)
  refine Meets.step hd2 (stT xT hr2.2) t1.nv (fun env3 hd3 _ hb3 => ?_)
  have hterm := evalTerm_cbr (K := K) hb3
  by_cases hgo : decide (va.2 ≠ 0) = and
  · rw [if_pos hgo]
    refine Meets.goto (c := tC.newBlock.2.newBlock.2) (c2 := D.setCur tC.nb)
      (t := if and then .cbr tO tC.nb (tC.nb + 1) else .cbr tO (tC.nb + 1) tC.nb) (by rw [hD]; exact xD) ?_ ?_ ?_ hemp n1.nv ?_
    · show _ = SSA.Next.goto tC.nb
      cases and
      · exact (hterm _ _).trans (by rw [hgo]; rfl)
      · exact (hterm _ _).trans (by rw [hgo]; rfl)
    · show tC.nb ≠ 0
      have := wT.cur; omega
    · show tC.nb < _
      omega
    · refine Meets.bind (ihb _ _ _ w3 sD h3 x3 _ env3 m2 S2 hd3) e3.nv (fun qb' S4 p4 env4 m4 _ hd4 _ hq4 => ?_)
      refine Meets.bind (meets_rval h4 x4 s3 hd4 hq4) r3.nv (fun vb S5 p5 env5 m5 _ hd5 _ hr5 => ?_)
      refine Meets.step hd5 (stU xU hr5.2) u3.nv (fun env6 hd6 _ hb6 => ?_)
      refine Meets.goto (c := uC) (c2 := (uC.term (.br (tC.nb + 1))).setCur (tC.nb + 1)) (t := .br (tC.nb + 1)) x4' rfl ?_ ?_ hphiE le_rfl ?_
      · show tC.nb + 1 ≠ 0
        omega
      · show tC.nb + 1 < _
        omega
      · refine logic_tail h5 he ?_ hb6.eval hd6
        have : (tC.cur == uC.cur) = false := by simpa using fun h => hcurU h.symm
        simp [List.find?, this]
  · rw [if_neg hgo]
    have hgo' : decide (va.2 ≠ 0) = !and := by revert hgo; cases decide (va.2 ≠ 0) <;> cases and <;> simp
    refine Meets.goto (c := tC.newBlock.2.newBlock.2) (c2 := (uC.term (.br (tC.nb + 1))).setCur (tC.nb + 1))
      (t := if and then .cbr tO tC.nb (tC.nb + 1) else .cbr tO (tC.nb + 1) tC.nb) (by rw [hD]; exact xD) ?_ ?_ ?_ hphiE (n1.nv.trans eU.nv) ?_
    · show _ = SSA.Next.goto (tC.nb + 1)
      cases and
      · exact (hterm _ _).trans (by rw [hgo']; rfl)
      · exact (hterm _ _).trans (by rw [hgo']; rfl)
    · show tC.nb + 1 ≠ 0
      omega
    · show tC.nb + 1 < _
      omega
    · refine logic_tail (b := !and) (x := .cst (.int 1 (if and then 0 else 1))) h5 he ?_ ?_ hd3
      · show List.find? (fun e => e.1 == tC.cur) _ = some (tC.cur, _)
        rw [List.find?_cons_of_pos (by simp)]
      · cases and <;> rfl

theorem eok_land {a b : Expr} (iha : EOk K Γ ob a) (ihb : EOk K Γ ob b) : EOk K Γ ob (.land a b) := by
  intro c q c' w hs h he pred env m S hd
  have := meets_logic iha ihb w hs (emitE_land h) he pred env m S hd
  rw [evalE]
  convert this using 6
  rename_i va
  funext s
  by_cases hz : va.2 = 0
  · simp [hz, b2i]
  · simp [hz]

theorem eok_lor {a b : Expr} (iha : EOk K Γ ob a) (ihb : EOk K Γ ob b) : EOk K Γ ob (.lor a b) := by
  intro c q c' w hs h he pred env m S hd
  have := meets_logic iha ihb w hs (emitE_lor h) he pred env m S hd
  rw [evalE]
  convert this using 6
  rename_i va
  funext s
  by_cases hz : va.2 = 0
  · simp [hz]
  · simp [hz, b2i]

end
end Cmmc.Fe
