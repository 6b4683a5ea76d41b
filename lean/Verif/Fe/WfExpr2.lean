import Verif.Fe.WfExpr
/-!
# Emitted code is SSA: the conditional operator, all expressions
-/
namespace Cmmc.Fe
open Cmmc
section
variable {sigs : Sigs} {P : Wd}

/-- block `b` is a place at which emission can go on after `c` -/
structure Pos (G : Gh) (c : Ctx) (G' : Gh) (c' : Ctx) (b : Nat) : Prop where
  back : LiveB G' c' b → Live G c
  mono : LiveB G' c' b → ∀ i, Av G c i → AvB G' c' b i
  fwd : Live G c → LiveB G' c' b

theorem Pos.same {G G' G'' : Gh} {c c' c'' : Ctx} {b : Nat} (h : Pos G c G' c' b) (hc : c''.code b = c'.code b)
    (hg : G''.A b = G'.A b ∧ G''.D b = G'.D b) : Pos G c G'' c'' b where
  back hl := h.back ((liveB_same hc hg.2).1 hl)
  mono hl i hi := (avB_same hc hg.1 i).2 (h.mono ((liveB_same hc hg.2).1 hl) i hi)
  fwd hl := (liveB_same hc hg.2).2 (h.fwd hl)

/-- a new block annotated with what holds at `c` -/
theorem pos_new {G G' : Gh} {c c' : Ctx} {b : Nat} (hA : G'.A b = Av G c ∧ G'.D b = ¬ Live G c) (hc : c'.code b = []) : Pos G c G' c' b where
  back hl := by have := hl.1; rw [hA.2, not_not] at this; exact this
  mono _ i hi := Or.inl (by rw [hA.1]; exact hi)
  fwd hl := ⟨by rw [hA.2, not_not]; exact hl, by rw [hc]; rfl⟩

theorem Res.goto {G G1 : Gh} {c c1 : Ctx} (h : Res G c G1 c1) {b : Nat} (hb : b = c.cur ∨ c.nb ≤ b) (hn : b < c1.nb) (hp : Pos G c G1 c1 b) :
    ER G c G1 (c1.setCur b) := ⟨h.setCur hb hn (fun hl => ⟨hp.back hl, hp.mono hl⟩), hp.fwd⟩

/-- jumping to a block annotated with what holds at `c` -/
theorem ER.jump {G G1 : Gh} {c c1 : Ctx} (h : ER G c G1 c1) {y : Nat} (hy : c.nb ≤ y) (hn : y < c1.nb) (h0 : y ≠ 0) (hc : c1.code y = [])
    (hA : G1.A y = Av G c ∧ G1.D y = ¬ Live G c) : Res G c G1 (c1.term (.br y)) := by
  refine h.toRes.term (by intro x hx; simp [SSA.Term.args] at hx) ?_
  intro z hz
  simp only [SSA.Term.targets, List.mem_singleton] at hz
  subst hz
  refine ⟨Or.inl hy, hn, h0, by rw [hc]; intro p hp; simp at hp, fun hl => ?_⟩
  rw [hA.1, hA.2]
  exact ⟨not_not.2 (h.back hl), fun i hi => h.mono hl i hi⟩

theorem wf_sel {k a b : Expr} {G : Gh} {c : Ctx} {q : QVal} {c' : Ctx} (hi : Inv G c)
    (ihk : ∀ (G : Gh) (c : Ctx) (q : QVal) (c' : Ctx), Inv G c → emitE sigs P k c = some (q, c') → ∃ G', ER G c G' c' ∧ OkO G' c' q.o)
    (iha : ∀ (G : Gh) (c : Ctx) (q : QVal) (c' : Ctx), Inv G c → emitE sigs P a c = some (q, c') → ∃ G', ER G c G' c' ∧ OkO G' c' q.o)
    (ihb : ∀ (G : Gh) (c : Ctx) (q : QVal) (c' : Ctx), Inv G c → emitE sigs P b c = some (q, c') → ∃ G', ER G c G' c' ∧ OkO G' c' q.o)
    (h : emitE sigs P (.sel k a b) c = some (q, c')) : ∃ G', ER G c G' c' ∧ OkO G' c' q.o := by
  obtain ⟨qk, c1, ok, tk, c2, qa, c3, qb, c4, oa, ta, c5, ob, tb, c6, o, h1, h2, h3, h4, h5, h6, h7, rfl⟩ := emitE_sel h
  have hcur := hi.wf.cur
  -- two blocks
  have r1 : Res G c (G.add c.nb (Av G c) (¬ Live G c)) c.newBlock.2 := (Res.refl hi).newBlock _ (fun i hi' => hi.av_odd hi')
  have r2 : Res G c ((G.add c.nb (Av G c) (¬ Live G c)).add c.newBlock.2.nb (Av G c) (¬ Live G c)) c.newBlock.2.newBlock.2 :=
    r1.newBlock _ (fun i hi' => hi.av_odd hi')
  have hA2 : ∀ b, b = c.nb ∨ b = c.nb + 1 →
      ((G.add c.nb (Av G c) (¬ Live G c)).add c.newBlock.2.nb (Av G c) (¬ Live G c)).A b = Av G c ∧
      ((G.add c.nb (Av G c) (¬ Live G c)).add c.newBlock.2.nb (Av G c) (¬ Live G c)).D b = ¬ Live G c := by
    rintro b (rfl | rfl)
    · simp only [Gh.add, Ctx.newBlock]; simp
    · simp only [Gh.add, Ctx.newBlock]; simp
  have f2 : Live G c → Live ((G.add c.nb (Av G c) (¬ Live G c)).add c.newBlock.2.nb (Av G c) (¬ Live G c)) c.newBlock.2.newBlock.2 :=
    fun hl => (newBlock_live r1.inv.wf).2 ((newBlock_live hi.wf).2 hl)
  generalize ((G.add c.nb (Av G c) (¬ Live G c)).add c.newBlock.2.nb (Av G c) (¬ Live G c)) = G2 at r2 hA2 f2
  have hcode2 : ∀ b, b = c.nb ∨ b = c.nb + 1 → c.newBlock.2.newBlock.2.code b = [] := fun b hb => hi.wf.empty b (by omega)
  have hnb2 : c.newBlock.2.newBlock.2.nb = c.nb + 2 := rfl
  have hcur2 : c.newBlock.2.newBlock.2.cur = c.cur := rfl
  generalize c.newBlock.2.newBlock.2 = c0 at h1 r2 f2 hcode2 hnb2 hcur2
  -- the condition
  obtain ⟨G3, e1, k1⟩ := ihk G2 c0 qk c1 r2.inv h1
  obtain ⟨e2, k2⟩ := er_getRValue e1.inv k1 h2
  obtain ⟨et, kt⟩ := er_toBool e2.inv k2 tk
  have Ek := (e1.trans e2).trans et
  have Rk : ER G c G3 (toBool c2 ok tk).2 := ⟨r2.trans Ek.toRes, fun hl => Ek.fwd (f2 hl)⟩
  generalize toBool c2 ok tk = t at h3 et kt Ek Rk
  have hA3 : ∀ b, b = c.nb ∨ b = c.nb + 1 → G3.A b = Av G c ∧ G3.D b = ¬ Live G c := by
    intro b hb
    have := Ek.agree b (by omega)
    rw [this.1, this.2]
    exact hA2 b hb
  have hcode3 : ∀ b, b = c.nb ∨ b = c.nb + 1 → t.2.code b = [] := by
    intro b hb
    rw [Ek.sm.fix b (by omega) (by omega)]
    exact hcode2 b hb
  have htcur : ∀ b, b = c.nb ∨ b = c.nb + 1 → b ≠ t.2.cur := by
    intro b hb
    rcases Ek.sm.cur with e | e <;> omega
  have htnb : c.nb + 2 ≤ t.2.nb := by have := Ek.sm.nb; omega
  have Rd : Res G c G3 (t.2.term (.cbr t.1 c.nb (c.nb + 1))) := by
    refine Rk.toRes.term ?_ ?_
    · intro x hx
      simp only [SSA.Term.args, List.mem_singleton] at hx
      rw [hx]; exact kt
    · intro y hy
      have hy' : y = c.nb ∨ y = c.nb + 1 := by simpa [SSA.Term.targets] using hy
      refine ⟨Or.inl (by omega), by omega, by omega, by rw [hcode3 y hy']; intro p hp; simp at hp, fun hl => ?_⟩
      rw [(hA3 y hy').1, (hA3 y hy').2]
      exact ⟨not_not.2 (Rk.back hl), fun i hi => Rk.mono hl i hi⟩
  have hcode4 : ∀ b, b = c.nb ∨ b = c.nb + 1 → (t.2.term (.cbr t.1 c.nb (c.nb + 1))).code b = [] := by
    intro b hb
    show (t.2.push _).code b = []
    rw [push_fix _ _ (htcur b hb)]
    exact hcode3 b hb
  have hdnb : (t.2.term (.cbr t.1 c.nb (c.nb + 1))).nb = t.2.nb := rfl
  have hOd : True := trivial
  generalize (t.2.term (.cbr t.1 c.nb (c.nb + 1))) = d at h3 Rd hcode4 hdnb
  have Ea0 : ER G c G3 (d.setCur c.nb) := Rd.goto (Or.inr le_rfl) (by omega) (pos_new (hA3 _ (Or.inl rfl)) (hcode4 _ (Or.inl rfl)))
  obtain ⟨G4, ea, ka⟩ := iha G3 (d.setCur c.nb) qa c3 Ea0.inv h3
  have Ea := Ea0.trans ea
  have hea_nb : d.nb ≤ c3.nb := ea.sm.nb
  have hAn : G4.A (c.nb + 1) = Av G c ∧ G4.D (c.nb + 1) = ¬ Live G c := by
    have := ea.agree (c.nb + 1) (by show _ < d.nb; omega)
    rw [this.1, this.2]
    exact hA3 _ (Or.inr rfl)
  have hcn : c3.code (c.nb + 1) = [] := by
    rw [ea.sm.fix (c.nb + 1) (by show _ < d.nb; omega) (by show _ ≠ c.nb; omega)]
    exact hcode4 _ (Or.inr rfl)
  have hp1 : c3.cur = c.nb ∨ c.nb + 2 ≤ c3.cur := by
    rcases ea.sm.cur with e | e
    · exact Or.inl e
    · change d.nb ≤ _ at e; omega
  have hp1n : c3.cur < c3.nb := ea.inv.wf.cur
  have Eb0 : ER G c G4 (c3.setCur (c.nb + 1)) := Ea.toRes.goto (Or.inr (by omega)) (by omega) (pos_new hAn hcn)
  obtain ⟨G5, eb, kb⟩ := ihb G4 (c3.setCur (c.nb + 1)) qb c4 Eb0.inv h4
  have Eb := Eb0.trans eb
  have heb_nb : c3.nb ≤ c4.nb := eb.sm.nb
  have hp2 : c4.cur = c.nb + 1 ∨ c3.nb ≤ c4.cur := eb.sm.cur
  have hp2n : c4.cur < c4.nb := eb.inv.wf.cur
  have hne : c3.cur ≠ c4.cur := by omega
  -- places at the end of the two branches
  have P1 : Pos G c G5 c4 c3.cur := by
    have : Pos G c G4 c3 c3.cur := ⟨Ea.back, Ea.mono, Ea.fwd⟩
    exact this.same (eb.sm.fix c3.cur hp1n (by show _ ≠ c.nb + 1; omega)) (eb.agree _ hp1n)
  have K1 : okOB G5 c4 c3.cur qa.o :=
    okOB_same (eb.sm.fix c3.cur hp1n (by show _ ≠ c.nb + 1; omega)) (eb.agree _ hp1n) eb.sm.slots.length_le (G := G4) (c := c3) ka
  have P2 : Pos G c G5 c4 c4.cur := ⟨Eb.back, Eb.mono, Eb.fwd⟩
  -- the join block
  have Rn : Res G c (G5.add c4.nb (Av G c) (¬ Live G c)) c4.newBlock.2 := Eb.toRes.newBlock _ (fun i hi' => by
    obtain ⟨j, hj, e⟩ := hi.av_odd hi'
    exact ⟨j, lt_of_lt_of_le hj Eb.sm.nv, e⟩)
  have hag : ∀ b < c4.nb, (G5.add c4.nb (Av G c) (¬ Live G c)).A b = G5.A b ∧ (G5.add c4.nb (Av G c) (¬ Live G c)).D b = G5.D b := by
    intro b hb
    have : b ≠ c4.nb := by omega
    simp [Gh.add, this]
  have hAm : (G5.add c4.nb (Av G c) (¬ Live G c)).A c4.nb = Av G c ∧ (G5.add c4.nb (Av G c) (¬ Live G c)).D c4.nb = ¬ Live G c := by simp [Gh.add]
  have P1n := P1.same (c'' := c4.newBlock.2) rfl (hag c3.cur (by omega))
  have P2n := P2.same (c'' := c4.newBlock.2) rfl (hag c4.cur hp2n)
  have K1n : okOB _ c4.newBlock.2 c3.cur qa.o := okOB_same (c := c4) rfl (hag c3.cur (by omega)) le_rfl K1
  have K2n : okOB _ c4.newBlock.2 c4.cur qb.o := okOB_same (c := c4) rfl (hag c4.cur hp2n) le_rfl kb
  have hm0 : c4.newBlock.2.code c4.nb = [] := eb.inv.wf.empty _ le_rfl
  have hmnb : c4.newBlock.2.nb = c4.nb + 1 := rfl
  generalize (G5.add c4.nb (Av G c) (¬ Live G c)) = G6 at Rn hAm P1n P2n K1n K2n
  have O0 : Only c4.newBlock.2 c4.nb [] := fun b t ht hb => Only.new eb.inv le_rfl b t ht hb
  have hnl : ∀ c'' : Ctx, c''.loops = c.loops → ¬ lpT c'' c4.nb := by
    rintro c'' hc'' ⟨p, hp, he⟩
    rw [hc''] at hp
    have := hi.lpn p hp
    have := Eb.sm.nb
    rcases he with he | he <;> omega
  have hcle : c.nb + 2 ≤ c4.nb := by omega
  generalize hcn4 : c4.newBlock.2 = cn at h5 Rn P1n P2n K1n K2n hm0 hmnb O0
  -- loads at the ends
  have E5a : ER G c G6 (cn.setCur c3.cur) := Rn.goto (by omega) (by omega) P1n
  obtain ⟨s5, k5⟩ := er_getRValue (c := cn.setCur c3.cur) E5a.inv K1n h5
  obtain ⟨u5, v5⟩ := getRValue_cur h5
  have E5 := E5a.trans s5
  have fix5 : ∀ b, b < cn.nb → b ≠ c3.cur → c5.code b = cn.code b := fun b hb hne => s5.sm.fix b hb hne
  change c5.cur = c3.cur at u5
  change c5.nb = cn.nb at v5
  have P1_5 : Pos G c G6 c5 c3.cur := by rw [← u5]; exact ⟨E5.back, E5.mono, E5.fwd⟩
  have K1_5 : okOB G6 c5 c3.cur oa := by rw [← u5]; exact k5
  have P2_5 := P2n.same (c'' := c5) (fix5 c4.cur (by omega) (by omega)) ⟨rfl, rfl⟩
  have K2_5 : okOB G6 c5 c4.cur qb.o := okOB_same (c := cn) (fix5 c4.cur (by omega) (by omega)) ⟨rfl, rfl⟩ s5.sm.slots.length_le K2n
  have hm5 : c5.code c4.nb = [] := by rw [fix5 c4.nb (by omega) (by omega)]; exact hm0
  have O5 : Only c5 c4.nb [] := Only.res s5.toRes (c := cn.setCur c3.cur) O0 (by show _ < cn.nb; omega) (hnl _ E5a.sm.loops)
  have E6a : ER G c G6 (c5.setCur c4.cur) := E5.toRes.goto (by omega) (by omega) P2_5
  obtain ⟨s6, k6⟩ := er_getRValue (c := c5.setCur c4.cur) E6a.inv K2_5 h6
  obtain ⟨u6, v6⟩ := getRValue_cur h6
  have E6 := E6a.trans s6
  have fix6 : ∀ b, b < c5.nb → b ≠ c4.cur → c6.code b = c5.code b := fun b hb hne => s6.sm.fix b hb hne
  change c6.cur = c4.cur at u6
  change c6.nb = c5.nb at v6
  have P2_6 : Pos G c G6 c6 c4.cur := by rw [← u6]; exact ⟨E6.back, E6.mono, E6.fwd⟩
  have K2_6 : okOB G6 c6 c4.cur ob := by rw [← u6]; exact k6
  have P1_6 := P1_5.same (c'' := c6) (fix6 c3.cur (by omega) (by omega)) ⟨rfl, rfl⟩
  have K1_6 : okOB G6 c6 c3.cur oa := okOB_same (c := c5) (fix6 c3.cur (by omega) (by omega)) ⟨rfl, rfl⟩ s6.sm.slots.length_le K1_5
  have hm6 : c6.code c4.nb = [] := by rw [fix6 c4.nb (by omega) (by omega)]; exact hm5
  have O6 : Only c6 c4.nb [] := Only.res s6.toRes (c := c5.setCur c4.cur) O5 (by show _ < c5.nb; omega) (hnl _ E6a.sm.loops)
  -- left branch: conversion and jump
  generalize implicitTarget none ta tb = ty at h7
  have E7a : ER G c G6 (c6.setCur c3.cur) := E6.toRes.goto (by omega) (by omega) P1_6
  obtain ⟨s7, k7⟩ := er_convertTo (c := c6.setCur c3.cur) E7a.inv K1_6 ta ty
  obtain ⟨u7, v7⟩ := convertTo_cur (c6.setCur c3.cur) oa ta ty
  have E7 := E7a.trans s7
  generalize convertTo (c6.setCur c3.cur) oa ta ty = x at h7 s7 k7 u7 v7 E7
  have fix7 : ∀ b, b < c6.nb → b ≠ c3.cur → x.2.code b = c6.code b := fun b hb hne => s7.sm.fix b hb hne
  change x.2.cur = c3.cur at u7
  change x.2.nb = c6.nb at v7
  have hm7 : x.2.code c4.nb = [] := by rw [fix7 c4.nb (by omega) (by omega)]; exact hm6
  have O7 : Only x.2 c4.nb [] := Only.res s7.toRes (c := c6.setCur c3.cur) O6 (by show _ < c6.nb; omega) (hnl _ E7a.sm.loops)
  have R8 : Res G c G6 (x.2.term (.br c4.nb)) := E7.jump (by omega) (by omega) (by omega) hm7 hAm
  have O8 := O7.term (.br c4.nb)
  have L7 : Live G c → firstTerm ((x.2.term (.br c4.nb)).code c3.cur) = some (.br c4.nb) := fun hl => by
    have := firstTerm_term (E7.fwd hl) (.br c4.nb)
    rw [u7] at this
    exact this
  have A7 : Live G c → avOB G6 (x.2.term (.br c4.nb)) c3.cur x.1 := fun hl y hy => by
    rcases k7 (E7.fwd hl) y hy with h | h
    · exact Or.inl h
    · right
      rw [u7] at h
      exact h.imp id (idsT_prefix (push_code _ _ _))
  have fix8 : ∀ b, b ≠ c3.cur → (x.2.term (.br c4.nb)).code b = x.2.code b := fun b hb => push_fix x.2 _ (by omega)
  have hnb8 : (x.2.term (.br c4.nb)).nb = x.2.nb := rfl
  have hsl8 : x.2.slots.length ≤ (x.2.term (.br c4.nb)).slots.length := le_rfl
  rw [u7] at O8
  generalize (x.2.term (.br c4.nb)) = y at h7 R8 O8 L7 A7 fix8 hnb8 hsl8
  have P2_8 : Pos G c G6 y c4.cur := P2_6.same (by rw [fix8 _ (by omega), fix7 _ (by omega) (by omega)]) ⟨rfl, rfl⟩
  have K2_8 : okOB G6 y c4.cur ob :=
    okOB_same (c := c6) (by rw [fix8 _ (by omega), fix7 _ (by omega) (by omega)]) ⟨rfl, rfl⟩ (s7.sm.slots.length_le.trans hsl8) K2_6
  have hm8 : y.code c4.nb = [] := by rw [fix8 c4.nb (by omega)]; exact hm7
  -- right branch
  have E9a : ER G c G6 (y.setCur c4.cur) := R8.goto (by omega) (by omega) P2_8
  obtain ⟨s9, k9⟩ := er_convertTo (c := y.setCur c4.cur) E9a.inv K2_8 tb ty
  obtain ⟨u9, v9⟩ := convertTo_cur (y.setCur c4.cur) ob tb ty
  have E9 := E9a.trans s9
  generalize convertTo (y.setCur c4.cur) ob tb ty = z at h7 s9 k9 u9 v9 E9
  have fix9 : ∀ b, b < y.nb → b ≠ c4.cur → z.2.code b = y.code b := fun b hb hne => s9.sm.fix b hb hne
  have ext9 : ∀ b, y.code b <+: z.2.code b := s9.sm.code
  change z.2.cur = c4.cur at u9
  change z.2.nb = y.nb at v9
  have hm9 : z.2.code c4.nb = [] := by rw [fix9 c4.nb (by omega) (by omega)]; exact hm8
  have O9 : Only z.2 c4.nb [c3.cur] := Only.res s9.toRes (c := y.setCur c4.cur) O8 (by show _ < y.nb; omega) (hnl _ E9a.sm.loops)
  have R10 : Res G c G6 (z.2.term (.br c4.nb)) := E9.jump (by omega) (by omega) (by omega) hm9 hAm
  have O10 := O9.term (.br c4.nb)
  rw [u9] at O10
  have L9 : Live G c → firstTerm ((z.2.term (.br c4.nb)).code c4.cur) = some (.br c4.nb) := fun hl => by
    have := firstTerm_term (E9.fwd hl) (.br c4.nb)
    rw [u9] at this
    exact this
  have A9 : Live G c → avOB G6 (z.2.term (.br c4.nb)) c4.cur z.1 := fun hl w hw => by
    rcases k9 (E9.fwd hl) w hw with h | h
    · exact Or.inl h
    · right
      rw [u9] at h
      exact h.imp id (idsT_prefix (push_code _ _ _))
  have ext10 : ∀ b, y.code b <+: (z.2.term (.br c4.nb)).code b := fun b => (ext9 b).trans (push_code _ _ b)
  have hsl10 : y.slots.length ≤ (z.2.term (.br c4.nb)).slots.length := s9.sm.slots.length_le
  have hnb10 : (z.2.term (.br c4.nb)).nb = z.2.nb := rfl
  have hm10 : (z.2.term (.br c4.nb)).code c4.nb = [] := by
    show (z.2.push _).code _ = []
    rw [push_fix _ _ (by omega)]
    exact hm9
  generalize (z.2.term (.br c4.nb)) = w at h7 R10 O10 L9 A9 ext10 hsl10 hnb10 hm10
  have E11 : ER G c G6 (w.setCur c4.nb) := R10.goto (Or.inr (by omega)) (by omega) (pos_new hAm hm10)
  obtain ⟨R12, k12⟩ := E11.toRes.phi h7 (by show _ ≤ c4.nb; omega) (by show c4.nb ≠ 0; omega) (fun kk hD => by
    have hl : Live G c := by
      change ¬ G6.D c4.nb at hD
      rw [hAm.2, not_not] at hD; exact hD
    refine ⟨fun q o hq => ?_, fun q t' ht' hb => ?_⟩
    · rcases List.mem_cons.1 hq with e | hq
      · cases e
        refine ⟨by show c3.cur < w.nb; omega, (P1_6.fwd hl).1, ⟨.br c4.nb, firstTerm_prefix (ext10 _) (L7 hl), ?_⟩, fun v hv => ?_⟩
        · show c4.nb ∈ _; simp [SSA.Term.targets]
        · rcases A7 hl v hv with h | h
          · exact Or.inl (slot_mono hsl10 h)
          · exact Or.inr (h.imp id (idsT_prefix (ext10 _)))
      · have e := List.mem_singleton.1 hq
        cases e
        exact ⟨by show c4.cur < w.nb; omega, (P2_6.fwd hl).1, ⟨.br c4.nb, L9 hl, by show c4.nb ∈ _; simp [SSA.Term.targets]⟩, A9 hl⟩
    · have := O10 q t' ht' hb
      rcases List.mem_cons.1 this with rfl | this
      · exact ⟨_, List.mem_cons_of_mem _ (List.mem_singleton.2 rfl)⟩
      · rw [List.mem_singleton.1 this]
        exact ⟨_, List.mem_cons_self ..⟩)
  exact ⟨G6, ⟨R12, fun hl => Res.phiLive h7 (E11.fwd hl)⟩, k12⟩

mutual
theorem wf_emitE : ∀ (e : Expr) (G : Gh) (c : Ctx) (q : QVal) (c' : Ctx), Inv G c → emitE sigs P e c = some (q, c') → ∃ G', ER G c G' c' ∧ OkO G' c' q.o
  | .lit v t, G, c, q, c', hi, h => by
    simp only [emitE, Option.some.injEq, Prod.mk.injEq] at h
    obtain ⟨rfl, rfl⟩ := h
    exact ⟨G, ER.refl hi, okO_cst _ _ _⟩
  | .id x, G, c, q, c', hi, h => by
    simp only [emitE] at h
    split at h
    · rename_i q' l hv
      simp only [Option.some.injEq, Prod.mk.injEq] at h
      obtain ⟨rfl, rfl⟩ := h
      exact ⟨G, ER.refl hi, okO_slot (hi.vars x _ (by rw [hv]; simp))⟩
    · cases h
  | .idx a i, G, c, q, c', hi, h => by
    obtain ⟨qa, c1, qi, c2, oi, ti, c3, n, e, sg, cst, h1, h2, h3, _, rfl, rfl⟩ := emitE_idx h
    obtain ⟨G1, r1, k1⟩ := wf_emitE a G c qa c1 hi h1
    obtain ⟨G2, r2, k2⟩ := wf_emitE i G1 c1 qi c2 r1.inv h2
    obtain ⟨r3, k3⟩ := er_getRValue r2.inv k2 h3
    obtain ⟨r4, k4⟩ := er_convertTo r3.inv k3 ti ⟨P, false⟩
    obtain ⟨r5, k5⟩ := er_op r4.inv (.gep e.cnt P.bits) (mem2 (((r2.trans r3).trans r4).lift k1) k4)
    exact ⟨G2, ((((r1.trans r2).trans r3).trans r4).trans r5), k5⟩
  | .bin op a b, G, c, q, c', hi, h => by
    obtain ⟨qa, c1, oa, ta, c2, qb, c3, ob, tb, c4, h1, h2, h3, h4, rfl, rfl⟩ := emitE_bin h
    obtain ⟨G1, r1, k1⟩ := wf_emitE a G c qa c1 hi h1
    obtain ⟨r2, k2⟩ := er_getRValue r1.inv k1 h2
    obtain ⟨G3, r3, k3⟩ := wf_emitE b G1 c2 qb c3 r2.inv h3
    obtain ⟨r4, k4⟩ := er_getRValue r3.inv k3 h4
    obtain ⟨r5, k5⟩ := er_emitArith r4.inv op ta tb ((r3.trans r4).lift k2) k4
    exact ⟨G3, ((((r1.trans r2).trans r3).trans r4).trans r5), k5⟩
  | .land a b, G, c, q, c', hi, h => wf_logic hi (fun G c q c' => wf_emitE a G c q c') (fun G c q c' => wf_emitE b G c q c') (emitE_land h)
  | .lor a b, G, c, q, c', hi, h => wf_logic hi (fun G c q c' => wf_emitE a G c q c') (fun G c q c' => wf_emitE b G c q c') (emitE_lor h)
  | .assign a b, G, c, q, c', hi, h => by
    obtain ⟨qa, c1, qb, c2, ob, tb, c3, w, sg, h1, _, h3, h4, rfl, rfl⟩ := emitE_assign h
    obtain ⟨G1, r1, k1⟩ := wf_emitE a G c qa c1 hi h1
    obtain ⟨G2, r2, k2⟩ := wf_emitE b G1 c1 qb c2 r1.inv h3
    obtain ⟨r3, k3⟩ := er_getRValue r2.inv k2 h4
    obtain ⟨r4, k4⟩ := er_convertTo r3.inv k3 tb ⟨w, sg⟩
    obtain ⟨r5, _⟩ := er_op r4.inv (.store w.bits) (mem2 (((r2.trans r3).trans r4).lift k1) k4)
    exact ⟨G2, ((((r1.trans r2).trans r3).trans r4).trans r5), r5.lift k4⟩
  | .cassign op a b, G, c, q, c', hi, h => by
    obtain ⟨qa, c1, qb, c2, ob, tb, c3, w, sg, h1, _, h3, h4, rfl, rfl⟩ := emitE_cassign h
    obtain ⟨G1, r1, k1⟩ := wf_emitE a G c qa c1 hi h1
    obtain ⟨r2, k2⟩ := er_op r1.inv (.load w.bits) (mem1 k1)
    obtain ⟨G2, r3, k3⟩ := wf_emitE b G1 _ qb c2 r2.inv h3
    obtain ⟨r4, k4⟩ := er_getRValue r3.inv k3 h4
    obtain ⟨r5, k5⟩ := er_emitArith r4.inv op ⟨w, sg⟩ tb ((r3.trans r4).lift k2) k4
    obtain ⟨r6, k6⟩ := er_convertTo r5.inv k5 (emitArith c3 op (c1.op (.load w.bits) [qa.o]).1 ⟨w, sg⟩ ob tb).2.1 ⟨w, sg⟩
    obtain ⟨r7, _⟩ := er_op r6.inv (.store w.bits) (mem2 (((((r2.trans r3).trans r4).trans r5).trans r6).lift k1) k6)
    exact ⟨G2, ((((((r1.trans r2).trans r3).trans r4).trans r5).trans r6).trans r7), (((((r2.trans r3).trans r4).trans r5).trans r6).trans r7).lift k1⟩
  | .un op a, G, c, q, c', hi, h => by
    obtain ⟨qa, c1, oa, ta, c2, h1, h2, rfl, rfl⟩ := emitE_un h
    obtain ⟨G1, r1, k1⟩ := wf_emitE a G c qa c1 hi h1
    obtain ⟨r2, k2⟩ := er_getRValue r1.inv k1 h2
    obtain ⟨r3, k3⟩ := er_emitUn r2.inv op ta k2
    exact ⟨G1, ((r1.trans r2).trans r3), k3⟩
  | .incdec pre inc a, G, c, q, c', hi, h => by
    obtain ⟨qa, c1, w, sg, h1, _, rfl, rfl⟩ := emitE_incdec h
    obtain ⟨G1, r1, k1⟩ := wf_emitE a G c qa c1 hi h1
    obtain ⟨r2, k2⟩ := er_incdec r1.inv pre inc w sg k1
    exact ⟨G1, r1.trans r2, k2⟩
  | .sel k a b, G, c, q, c', hi, h =>
    wf_sel hi (fun G c q c' => wf_emitE k G c q c') (fun G c q c' => wf_emitE a G c q c') (fun G c q c' => wf_emitE b G c q c') h
  | .cast t a, G, c, q, c', hi, h => by
    obtain ⟨qa, c1, oa, ta, c2, h1, h2, rfl, rfl⟩ := emitE_cast h
    obtain ⟨G1, r1, k1⟩ := wf_emitE a G c qa c1 hi h1
    obtain ⟨r2, k2⟩ := er_getRValue r1.inv k1 h2
    obtain ⟨r3, k3⟩ := er_convertTo r2.inv k2 ta t
    exact ⟨G1, ((r1.trans r2).trans r3), k3⟩
  | .comma a b, G, c, q, c', hi, h => by
    obtain ⟨qa, c1, h1, h2⟩ := emitE_comma h
    obtain ⟨G1, r1, _⟩ := wf_emitE a G c qa c1 hi h1
    obtain ⟨G2, r2, k2⟩ := wf_emitE b G1 c1 q c' r1.inv h2
    exact ⟨G2, r1.trans r2, k2⟩
  | .call f as, G, c, q, c', hi, h => by
    obtain ⟨ps, r, os, c1, _, _, h3, rfl, rfl⟩ := emitE_call h
    obtain ⟨G1, r1, k1⟩ := wf_emitArgs ps as G c os c1 hi h3
    obtain ⟨r2, k2⟩ := er_op r1.inv (.call f (r.map (fun t => t.w.bits))) k1
    exact ⟨G1, r1.trans r2, k2⟩
theorem wf_emitArgs : ∀ (ts : List IT) (as : Args) (G : Gh) (c : Ctx) (os : List Opd) (c' : Ctx), Inv G c → emitArgs sigs P ts as c = some (os, c') →
    ∃ G', ER G c G' c' ∧ ∀ o ∈ os, OkO G' c' o
  | [], .nil, G, c, os, c', hi, h => by
    simp only [emitArgs, Option.some.injEq, Prod.mk.injEq] at h
    obtain ⟨rfl, rfl⟩ := h
    exact ⟨G, ER.refl hi, by simp⟩
  | t :: ts, .cons a as, G, c, os, c', hi, h => by
    obtain ⟨qa, c1, oa, ta, c2, os', h1, h2, h3, rfl⟩ := emitArgs_cons h
    obtain ⟨G1, r1, k1⟩ := wf_emitE a G c qa c1 hi h1
    obtain ⟨r2, k2⟩ := er_getRValue r1.inv k1 h2
    obtain ⟨r3, k3⟩ := er_convertTo r2.inv k2 ta t
    obtain ⟨G4, r4, k4⟩ := wf_emitArgs ts as G1 _ os' c' r3.inv h3
    refine ⟨G4, (((r1.trans r2).trans r3).trans r4), ?_⟩
    intro o ho
    rcases List.mem_cons.1 ho with rfl | ho
    · exact r4.lift k3
    · exact k4 o ho
  | [], .cons _ _, G, c, os, c', hi, h => by simp [emitArgs] at h
  | _ :: _, .nil, G, c, os, c', hi, h => by simp [emitArgs] at h
end

theorem wf_emitC {e : Expr} {G : Gh} {c : Ctx} {o : Opd} {c' : Ctx} (hi : Inv G c) (h : emitC sigs P e c = some (o, c')) : ∃ G', ER G c G' c' ∧ OkO G' c' o := by
  obtain ⟨q, c1, o1, t, c2, h1, h2, rfl, rfl⟩ := emitC_inv h
  obtain ⟨G1, r1, k1⟩ := wf_emitE e G c q c1 hi h1
  obtain ⟨r2, k2⟩ := er_getRValue r1.inv k1 h2
  obtain ⟨r3, k3⟩ := er_toBool r2.inv k2 t
  exact ⟨G1, (r1.trans r2).trans r3, k3⟩

end
end Cmmc.Fe
