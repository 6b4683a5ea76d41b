import Verif.Fe.StmtMain
/-!
# Statements: branches and loops
-/
namespace Cmmc.Fe
open Cmmc

section
variable {X : Ext} {K : Cfg X} {rt : Option IT}

theorem ext_loops {c F : Ctx} {l : List (Nat × Nat)} (h : Ext' { c with loops := l } F) : Ext' c F := ⟨h.nb, h.nv, h.slots, h.code⟩

theorem Stat.congr {k : String → Option (Wd × Nat)} {Γ : List (List SE)} {c c' : Ctx} (h : Stat k Γ c) (h1 : c'.vars = c.vars)
    (h2 : c'.scopes = c.scopes) (h3 : c'.cb = c.cb) (h4 : c'.slots = c.slots) : Stat k Γ c' :=
  Stat.same (c := { c with loops := c'.loops }) ⟨h.scopes, h.vars, h.nodup, h.ok, h.opd, h.inj, h.cv, h.cvt, h.cbk, h.glob⟩ ⟨h1, h2, rfl, h3, h4⟩

theorem sok_ifThen {k : Expr} {a : Stmt} (iha : SOk K rt a) : SOk K rt (.ifThen k a) := by
  refine sok_of (fun c c' Γ hwf w hs h => ?_)
  simp only [Stmt.wf, Bool.and_eq_true] at hwf
  obtain ⟨o, c1, c2, h1, h2, rfl⟩ := emitS_ifThen h
  have e1 := em_emitC w h1
  have w1 := e1.wf w
  have hc1 := w1.cur
  have eB := em_setCur ((em_newBlock c1).trans (em_newBlock _)) (b := c1.nb) (Or.inr le_rfl) (by show c1.nb < c1.nb + 1 + 1; omega)
  have wB := eB.wf w1
  have sB := (hs.same e1.same).same eB.same
  have ea := sm_emitS a _ _ wB h2
  have n2 : c1.nb + 1 + 1 ≤ c2.nb := ea.nb
  obtain ⟨sa, sim⟩ := iha.noDecl hwf.2 hwf.1 wB sB h2
  refine ⟨sa.congr rfl rfl rfl rfl, fun he ob pred env m S n hd => ?_⟩
  have xT := ext_setCur he
  have x3 := (em_term _ _).toExt'.trans xT
  have x2 := ext_setCur x3
  have xa := (em_term _ _).toExt'.trans x2
  have xB := ea.toExt'.trans xa
  have x1 := eB.toExt'.trans xB
  have nF : c2.nb ≤ K.Fc.nb := xa.nb
  have mB := ea.toMono.trans (em_term c2 (.br (c1.nb + 1))).mono
  have hold : (c2.term (.br (c1.nb + 1))).code c1.cur = c1.code c1.cur :=
    mB.fix c1.cur (by show c1.cur < c1.nb + 1 + 1; omega) (by show c1.cur ≠ c1.nb; omega)
  have hnew : ((((c2.term (.br (c1.nb + 1))).setCur c1.cur).term (.cbr o c1.nb (c1.nb + 1))).setCur (c1.nb + 1)).code (c1.nb + 1) = [] := by
    have h3 := push_fix ((c2.term (.br (c1.nb + 1))).setCur c1.cur) (.term (.cbr o c1.nb (c1.nb + 1))) (b := c1.nb + 1) (by show c1.nb + 1 ≠ c1.cur; omega)
    have h4 := mB.fix (c1.nb + 1) (by show c1.nb + 1 < c1.nb + 1 + 1; omega) (by show c1.nb + 1 ≠ c1.nb; omega)
    exact h3.trans (h4.trans (w1.empty _ (by omega)))
  have hl : (c1.newBlock.2.newBlock.2.setCur c1.nb).loops = c.loops := e1.loops
  rw [hl] at sim
  rw [exec]
  refine Meets.bindS (emitC_ok w hs h1 x1 pred env m S hd) (fun t S1 p1 env1 m1 _ hd1 hb => ?_)
  have hpt : K.pt c1 p1 env1 m1 S1.tr = K.pt ((c2.term (.br (c1.nb + 1))).setCur c1.cur) p1 env1 m1 S1.tr :=
    pt_congr (c' := (c2.term (.br (c1.nb + 1))).setCur c1.cur) (by rfl) (by exact hold.symm) _ _ _ _
  rw [hpt]
  have hev := evalTerm_cbr (K := K) hb c1.nb (c1.nb + 1)
  cases t with
  | false =>
    refine SMeets.goto (c2 := (((c2.term (.br (c1.nb + 1))).setCur c1.cur).term (.cbr o c1.nb (c1.nb + 1))).setCur (c1.nb + 1)) xT hev (Nat.succ_ne_zero _) (show c1.nb + 1 < K.Fc.nb by omega) hnew ?_
    exact SMeets.done (Leads.refl _) hd1 (fun _ _ => rfl)
  | true =>
    refine SMeets.goto (c2 := c1.newBlock.2.newBlock.2.setCur c1.nb) xT hev (show c1.nb ≠ 0 by omega) (show c1.nb < K.Fc.nb by omega)
      (w1.empty c1.nb le_rfl) ?_
    refine SMeets.leave (sim xa ob _ env1 m1 S1 n hd1) (fun S2 p2 env2 m2 ob2 hd2 ho => ?_)
    refine SMeets.goto x2 rfl (Nat.succ_ne_zero _) (show c1.nb + 1 < K.Fc.nb by omega) hnew ?_
    exact SMeets.done (Leads.refl _) (hd2.sub (fun _ h => h) ho) (fun _ _ => rfl)

theorem sok_ifElse {k : Expr} {a b : Stmt} (iha : SOk K rt a) (ihb : SOk K rt b) : SOk K rt (.ifElse k a b) := by
  refine sok_of (fun c c' Γ hwf w hs h => ?_)
  simp only [Stmt.wf, Bool.and_eq_true] at hwf
  obtain ⟨⟨⟨wfa, wfb⟩, da⟩, db⟩ := hwf
  obtain ⟨o, c1, c2, c3, h1, h2, h3, rfl⟩ := emitS_ifElse h
  have e1 := em_emitC w h1
  have w1 := e1.wf w
  have hc1 := w1.cur
  have eB := em_setCur ((em_newBlock c1).trans (em_newBlock _)) (b := c1.nb) (Or.inr le_rfl) (by show c1.nb < c1.nb + 1 + 1; omega)
  have wB := eB.wf w1
  have sB := (hs.same e1.same).same eB.same
  have ea := sm_emitS a _ _ wB h2
  have n2 : c1.nb + 1 + 1 ≤ c2.nb := ea.nb
  obtain ⟨sa, sima⟩ := iha.noDecl da wfa wB sB h2
  have e4 := ((eB.sm.trans ea).trans (em_term c2 (.br (c1.nb + 1))).sm).trans (em_newBlock _).sm
  have e5 := (sm_setCur e4 (b := c1.cur) (Or.inl rfl) (by show c1.cur < c2.nb + 1; omega)).trans (em_term _ (.cbr o c1.nb c2.nb)).sm
  have e6 := sm_setCur e5 (b := c2.nb) (Or.inr (by omega)) (by show c2.nb < c2.nb + 1; omega)
  have wE := e6.wf w1
  have sE : Stat K.consts Γ (((((c2.term (.br (c1.nb + 1))).newBlock.2.setCur c1.cur).term (.cbr o c1.nb c2.nb))).setCur c2.nb) := sa.congr rfl rfl rfl rfl
  have eb := sm_emitS b _ _ wE h3
  have n3 : c2.nb + 1 ≤ c3.nb := eb.nb
  obtain ⟨sb, simb⟩ := ihb.noDecl db wfb wE sE h3
  refine ⟨sb.congr rfl rfl rfl rfl, fun he ob pred env m S n hd => ?_⟩
  have x6 := ext_setCur he
  have xb := (em_term _ _).toExt'.trans x6
  have xE := ext_setCur (eb.toExt'.trans xb)
  have x4 := ext_setCur ((em_term _ _).toExt'.trans xE)
  have x2 := (em_newBlock _).toExt'.trans x4
  have xa := (em_term _ _).toExt'.trans x2
  have xB := ea.toExt'.trans xa
  have x1 := eB.toExt'.trans xB
  have nF : c3.nb ≤ K.Fc.nb := xb.nb
  have mB := ea.toMono.trans (em_term c2 (.br (c1.nb + 1))).mono
  have hold : (c2.term (.br (c1.nb + 1))).code c1.cur = c1.code c1.cur :=
    mB.fix c1.cur (by show c1.cur < c1.nb + 1 + 1; omega) (by show c1.cur ≠ c1.nb; omega)
  have hnew : ((c3.term (.br (c1.nb + 1))).setCur (c1.nb + 1)).code (c1.nb + 1) = [] := by
    have h4 := mB.fix (c1.nb + 1) (by show c1.nb + 1 < c1.nb + 1 + 1; omega) (by show c1.nb + 1 ≠ c1.nb; omega)
    have h5 := push_fix ((c2.term (.br (c1.nb + 1))).newBlock.2.setCur c1.cur) (.term (.cbr o c1.nb c2.nb)) (b := c1.nb + 1) (by show c1.nb + 1 ≠ c1.cur; omega)
    have h6 := (eb.toMono.trans (em_term c3 (.br (c1.nb + 1))).mono).fix (c1.nb + 1) (by show c1.nb + 1 < c2.nb + 1; omega) (by show c1.nb + 1 ≠ c2.nb; omega)
    exact h6.trans (h5.trans (h4.trans (w1.empty _ (by omega))))
  have helse : (((((c2.term (.br (c1.nb + 1))).newBlock.2.setCur c1.cur).term (.cbr o c1.nb c2.nb))).setCur c2.nb).code c2.nb = [] := by
    have h5 := push_fix ((c2.term (.br (c1.nb + 1))).newBlock.2.setCur c1.cur) (.term (.cbr o c1.nb c2.nb)) (b := c2.nb) (by show c2.nb ≠ c1.cur; omega)
    exact h5.trans (((eB.mono.trans mB).wf w1).empty _ le_rfl)
  have hl : (c1.newBlock.2.newBlock.2.setCur c1.nb).loops = c.loops := e1.loops
  rw [hl] at sima
  have hl2 : (((((c2.term (.br (c1.nb + 1))).newBlock.2.setCur c1.cur).term (.cbr o c1.nb c2.nb))).setCur c2.nb).loops = c.loops := ea.loops.trans hl
  rw [hl2] at simb
  rw [exec]
  refine Meets.bindS (emitC_ok w hs h1 x1 pred env m S hd) (fun t S1 p1 env1 m1 _ hd1 hb => ?_)
  have hpt : K.pt c1 p1 env1 m1 S1.tr = K.pt ((c2.term (.br (c1.nb + 1))).newBlock.2.setCur c1.cur) p1 env1 m1 S1.tr :=
    pt_congr (c' := (c2.term (.br (c1.nb + 1))).newBlock.2.setCur c1.cur) (by rfl) (by exact hold.symm) _ _ _ _
  rw [hpt]
  have hev := evalTerm_cbr (K := K) hb c1.nb c2.nb
  cases t with
  | false =>
    refine SMeets.goto (c2 := ((((c2.term (.br (c1.nb + 1))).newBlock.2.setCur c1.cur).term (.cbr o c1.nb c2.nb))).setCur c2.nb) xE hev
      (show c2.nb ≠ 0 by omega) (show c2.nb < K.Fc.nb by omega) helse ?_
    refine SMeets.leave (simb xb ob _ env1 m1 S1 n hd1) (fun S2 p2 env2 m2 ob2 hd2 ho => ?_)
    refine SMeets.goto x6 rfl (Nat.succ_ne_zero _) (show c1.nb + 1 < K.Fc.nb by omega) hnew ?_
    exact SMeets.done (Leads.refl _) (hd2.sub (fun _ h => h) ho) (fun _ _ => rfl)
  | true =>
    refine SMeets.goto (c2 := c1.newBlock.2.newBlock.2.setCur c1.nb) xE hev (show c1.nb ≠ 0 by omega) (show c1.nb < K.Fc.nb by omega)
      (w1.empty c1.nb le_rfl) ?_
    refine SMeets.leave (sima xa ob _ env1 m1 S1 n hd1) (fun S2 p2 env2 m2 ob2 hd2 ho => ?_)
    refine SMeets.goto x2 rfl (Nat.succ_ne_zero _) (show c1.nb + 1 < K.Fc.nb by omega) hnew ?_
    exact SMeets.done (Leads.refl _) (hd2.sub (fun _ h => h) ho) (fun _ _ => rfl)

theorem sok_while {k : Expr} {a : Stmt} (iha : SOk K rt a) : SOk K rt (.while k a) := by
  refine sok_of (fun c c' Γ hwf w hs h => ?_)
  simp only [Stmt.wf, Bool.and_eq_true] at hwf
  obtain ⟨o, c1, c2, h1, h2, rfl⟩ := emitS_while h
  have hc := w.cur
  have e0 := (em_newBlock c).trans (em_term c.newBlock.2 (.br c.nb))
  have eH := em_setCur e0 (b := c.nb) (Or.inr le_rfl) (by show c.nb < c.nb + 1; omega)
  have wH := eH.wf w
  have sH := hs.same eH.same
  have ek := em_emitC wH h1
  have n1 : c.nb + 1 ≤ c1.nb := ek.nb
  have w1 := ek.wf wH
  have hc1 := w1.cur
  have eT := ((em_newBlock c1).trans (em_newBlock _)).trans (em_term _ (.cbr o c1.nb (c1.nb + 1)))
  have mB := mono_setCur (mono_loops eT.mono ((c.nb, c1.nb + 1) :: c1.loops)) (b := c1.nb) (Or.inr le_rfl) (by show c1.nb < c1.nb + 1 + 1; omega)
  have wB := mB.wf w1
  have sB : Stat K.consts Γ (({ c1.newBlock.2.newBlock.2.term (.cbr o c1.nb (c1.nb + 1)) with loops := (c.nb, c1.nb + 1) :: c1.loops } : Ctx).setCur c1.nb) :=
    (sH.same ek.same).congr rfl rfl rfl rfl
  have ea := sm_emitS a _ _ wB h2
  have n2 : c1.nb + 1 + 1 ≤ c2.nb := ea.nb
  obtain ⟨sa, sim⟩ := iha.noDecl hwf.2 hwf.1 wB sB h2
  refine ⟨sa.congr rfl rfl rfl rfl, fun he ob pred env m S n hd => ?_⟩
  have x2 := ext_loops (ext_setCur he)
  have xa := (em_term _ _).toExt'.trans x2
  have xT := ext_loops (ext_setCur (ea.toExt'.trans xa))
  have x1 := ((em_newBlock c1).trans (em_newBlock _)).toExt'.trans ((em_term _ _).toExt'.trans xT)
  have xH := ek.toExt'.trans x1
  have xJ := ext_setCur xH
  have nF : c2.nb ≤ K.Fc.nb := xa.nb
  have hhead : ((c.newBlock.2.term (.br c.nb)).setCur c.nb).code c.nb = [] :=
    (push_fix c.newBlock.2 (.term (.br c.nb)) (b := c.nb) (by show c.nb ≠ c.cur; omega)).trans (w.empty _ le_rfl)
  have hT : ∀ b, c1.nb ≤ b → (c1.newBlock.2.newBlock.2.term (.cbr o c1.nb (c1.nb + 1))).code b = [] := fun b hb =>
    (push_fix c1.newBlock.2.newBlock.2 (.term (.cbr o c1.nb (c1.nb + 1))) (b := b) (by show b ≠ c1.cur; omega)).trans (w1.empty _ hb)
  have hnew : (({ c2.term (.br c.nb) with loops := c2.loops.tail } : Ctx).setCur (c1.nb + 1)).code (c1.nb + 1) = [] := by
    have h6 := (ea.toMono.trans (em_term c2 (.br c.nb)).mono).fix (c1.nb + 1) (by show c1.nb + 1 < c1.nb + 1 + 1; omega) (by show c1.nb + 1 ≠ c1.nb; omega)
    exact h6.trans (hT _ (by omega))
  rw [exec]
  have hC : ∀ pred env m S, Dyn K Γ ob S env m →
      K.Od Γ ob (K.bdry c.nb pred env m S.tr) 1 (fun t => if t then c1.nb else c1.nb + 1) (evalC K.sigs K.sc (den Γ ob) k S) := by
    intro pred env m S hd
    rw [show K.bdry c.nb pred env m S.tr = K.pt ((c.newBlock.2.term (.br c.nb)).setCur c.nb) pred env m S.tr from
      bdry_pt (c := (c.newBlock.2.term (.br c.nb)).setCur c.nb) (show c.nb ≠ 0 by omega) (show c.nb < K.Fc.nb by omega) hhead _ _ _ _]
    exact Meets.od (c1 := c1.newBlock.2.newBlock.2) (Meets.endc (emitC_ok wH sH h1 x1 pred env m S hd) rfl rfl) xT
  have hB : ∀ pred env m S, Dyn K Γ ob S env m →
      K.Bd rt Γ ob (K.bdry c1.nb pred env m S.tr) n (bodyDst c.nb (c1.nb + 1)) (exec K.sigs K.sc rt n (den Γ ob) a S) := by
    intro pred env m S hd
    have h5 := sim xa ob pred env m S n hd
    rw [show K.bdry c1.nb pred env m S.tr = K.pt _ pred env m S.tr from
      bdry_pt (c := (({ c1.newBlock.2.newBlock.2.term (.cbr o c1.nb (c1.nb + 1)) with loops := (c.nb, c1.nb + 1) :: c1.loops } : Ctx).setCur c1.nb))
        (show c1.nb ≠ 0 by omega) (show c1.nb < K.Fc.nb by omega) (hT _ le_rfl) _ _ _ _]
    exact SMeets.body h5 x2
  have hI : ∀ pred env m S, Dyn K Γ ob S env m →
      K.Od Γ ob (K.bdry c.nb pred env m S.tr) 0 (fun _ => c.nb) ((fun s => Out.ok QV.void s) S) :=
    fun pred env m S hd => ⟨0, pred, env, m, le_rfl, rfl, hd⟩
  have hloop := loop_ok (rt := rt) (ρ := den Γ ob) hC hB hI n le_rfl (some c.cur) env m S hd
  have hj := goto_term (c := c.newBlock.2) (t := .br c.nb) (env := env) xJ rfl pred m S.tr
  exact Bd.smeets (k := 1) hj (by omega) hloop rfl
    (fun pred env m tr => bdry_pt (c := (({ c2.term (.br c.nb) with loops := c2.loops.tail } : Ctx).setCur (c1.nb + 1))) (Nat.succ_ne_zero _)
      (show c1.nb + 1 < K.Fc.nb by omega) hnew _ _ _ _)

theorem sok_doWhile {k : Expr} {a : Stmt} (iha : SOk K rt a) : SOk K rt (.doWhile a k) := by
  refine sok_of (fun c c' Γ hwf w hs h => ?_)
  simp only [Stmt.wf, Bool.and_eq_true] at hwf
  obtain ⟨c1, o, c2, h1, h2, rfl⟩ := emitS_doWhile h
  have hc := w.cur
  have e0 := (((em_newBlock c).trans (em_newBlock _)).trans (em_newBlock _)).trans (em_term c.newBlock.2.newBlock.2.newBlock.2 (.br c.nb))
  have mB := mono_setCur (mono_loops e0.mono ((c.nb + 1, c.nb + 2) :: c.loops)) (b := c.nb) (Or.inr le_rfl) (by show c.nb < c.nb + 1 + 1 + 1; omega)
  have wB := mB.wf w
  have sB : Stat K.consts Γ (({ c.newBlock.2.newBlock.2.newBlock.2.term (.br c.nb) with loops := (c.nb + 1, c.nb + 2) :: c.loops } : Ctx).setCur c.nb) :=
    hs.congr rfl rfl rfl rfl
  have ea := sm_emitS a _ _ wB h1
  have n1 : c.nb + 1 + 1 + 1 ≤ c1.nb := ea.nb
  have e2 := ea.toMono.trans (em_term c1 (.br (c.nb + 1))).mono
  have mH := mono_setCur (mono_loops (mB.trans e2) c1.loops.tail) (b := c.nb + 1) (Or.inr (by omega)) (by show c.nb + 1 < c1.nb; omega)
  have wH := mH.wf w
  obtain ⟨sa, sim⟩ := iha.noDecl hwf.2 hwf.1 wB sB h1
  have sH : Stat K.consts Γ (({ c1.term (.br (c.nb + 1)) with loops := c1.loops.tail } : Ctx).setCur (c.nb + 1)) := sa.congr rfl rfl rfl rfl
  have ek := em_emitC wH h2
  have n2 : c1.nb ≤ c2.nb := ek.nb
  refine ⟨(sH.same ek.same).congr rfl rfl rfl rfl, fun he ob pred env m S n hd => ?_⟩
  have xT := ext_setCur he
  have x2 := (em_term _ _).toExt'.trans xT
  have xH := ek.toExt'.trans x2
  have x1 := ext_loops (ext_setCur xH)
  have xa := (em_term _ _).toExt'.trans x1
  have xJ := ext_loops (ext_setCur (ea.toExt'.trans xa))
  have nF : c2.nb ≤ K.Fc.nb := x2.nb
  have hT : ∀ b, c.nb ≤ b → (c.newBlock.2.newBlock.2.newBlock.2.term (.br c.nb)).code b = [] := fun b hb =>
    (push_fix c.newBlock.2.newBlock.2.newBlock.2 (.term (.br c.nb)) (b := b) (by show b ≠ c.cur; omega)).trans (w.empty _ hb)
  have hhead : (c1.term (.br (c.nb + 1))).code (c.nb + 1) = [] :=
    (e2.fix (c.nb + 1) (by show c.nb + 1 < c.nb + 1 + 1 + 1; omega) (by show c.nb + 1 ≠ c.nb; omega)).trans (hT _ (by omega))
  have hnew : ((c2.term (.cbr o c.nb (c.nb + 2))).setCur (c.nb + 2)).code (c.nb + 2) = [] := by
    have h5 := (ek.trans (em_term c2 (.cbr o c.nb (c.nb + 2)))).fix (c.nb + 2) (by show c.nb + 2 < c1.nb; omega) (by show c.nb + 2 ≠ c.nb + 1; omega)
    have h6 := e2.fix (c.nb + 2) (by show c.nb + 2 < c.nb + 1 + 1 + 1; omega) (by show c.nb + 2 ≠ c.nb; omega)
    exact h5.trans (h6.trans (hT _ (by omega)))
  rw [exec]
  have hC : ∀ pred env m S, Dyn K Γ ob S env m →
      K.Od Γ ob (K.bdry (c.nb + 1) pred env m S.tr) 1 (fun t => if t then c.nb else c.nb + 2) (evalC K.sigs K.sc (den Γ ob) k S) := by
    intro pred env m S hd
    rw [show K.bdry (c.nb + 1) pred env m S.tr = K.pt _ pred env m S.tr from
      bdry_pt (c := ({ c1.term (.br (c.nb + 1)) with loops := c1.loops.tail } : Ctx).setCur (c.nb + 1)) (Nat.succ_ne_zero _)
        (show c.nb + 1 < K.Fc.nb by omega) hhead _ _ _ _]
    exact Meets.od (emitC_ok wH sH h2 x2 pred env m S hd) xT
  have hB : ∀ pred env m S, Dyn K Γ ob S env m →
      K.Bd rt Γ ob (K.bdry c.nb pred env m S.tr) n (bodyDst (c.nb + 1) (c.nb + 2)) (exec K.sigs K.sc rt n (den Γ ob) a S) := by
    intro pred env m S hd
    have h5 := sim xa ob pred env m S n hd
    rw [show K.bdry c.nb pred env m S.tr = K.pt _ pred env m S.tr from
      bdry_pt (c := (({ c.newBlock.2.newBlock.2.newBlock.2.term (.br c.nb) with loops := (c.nb + 1, c.nb + 2) :: c.loops } : Ctx).setCur c.nb))
        (show c.nb ≠ 0 by omega) (show c.nb < K.Fc.nb by omega) (hT _ le_rfl) _ _ _ _]
    exact SMeets.body h5 x1
  have hloop := dloop_ok (rt := rt) (ρ := den Γ ob) hC hB n le_rfl (some c.cur) env m S hd
  have hj := goto_term (c := c.newBlock.2.newBlock.2.newBlock.2) (t := .br c.nb) (env := env) xJ rfl pred m S.tr
  exact Bd.smeets (k := 1) hj (by omega) hloop rfl
    (fun pred env m tr => bdry_pt (c := (c2.term (.cbr o c.nb (c.nb + 2))).setCur (c.nb + 2)) (Nat.succ_ne_zero _)
      (show c.nb + 2 < K.Fc.nb by omega) hnew _ _ _ _)

end
end Cmmc.Fe
