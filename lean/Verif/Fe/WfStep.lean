import Verif.Fe.WfInv
/-!
# Emitted code is SSA: steps of the builder
-/
namespace Cmmc.Fe
open Cmmc

/-- if the insert point can be reached the operand can be used there -/
def OkO (G : Gh) (c : Ctx) (o : Opd) : Prop := Live G c → avO G c o

theorem Res.lift {G G' : Gh} {c c' : Ctx} (h : Res G c G' c') {o : Opd} (ho : OkO G c o) : OkO G' c' o := by
  intro hl x hx
  rcases ho (h.back hl) x hx with h1 | h1
  · exact Or.inl (slot_mono h.sm.slots.length_le h1)
  · exact Or.inr (h.mono hl x h1)

theorem okO_cst (G : Gh) (c : Ctx) (k : Cst) : OkO G c (.cst k) := by intro _ x hx; cases hx

theorem okO_slot {G : Gh} {c : Ctx} {o : Opd} (h : ∀ i, o = .inst i → slot c.slots.length i) : OkO G c o := fun _ x hx => Or.inl (h x hx)

theorem Inv.avB_odd {G : Gh} {c : Ctx} (h : Inv G c) {b : Nat} (hb : b < c.nb) {i : Nat} (hi : AvB G c b i) : ∃ j < c.nv, i = 2 * j + 1 := by
  rcases hi with hi | hi
  · exact (h.av b hb i hi).1
  · exact h.idb b i (idsT_sub hi)

theorem Inv.av_odd {G : Gh} {c : Ctx} (h : Inv G c) {i : Nat} (hi : Av G c i) : ∃ j < c.nv, i = 2 * j + 1 := h.avB_odd h.wf.cur hi

theorem Res.op {G G1 : Gh} {c c1 : Ctx} (h : Res G c G1 c1) (o : Op) {as : List Opd} (ha : ∀ a ∈ as, OkO G1 c1 a) :
    Res G c G1 (c1.op o as).2 ∧ OkO G1 (c1.op o as).2 (c1.op o as).1 := by
  have hl : Live G1 (c1.op o as).2 ↔ Live G1 c1 := live_push (by intro t ht; cases ht)
  have hinv : Inv G1 (c1.op o as).2 := by
    refine inv_push h.inv (Nat.le_succ _) (wf_push h.inv.wf (Or.inl rfl)) ?_ ?_ (by intro t ht; cases ht) (by intro t ht; cases ht) (by simp [ids])
    · intro i hi; simp only [ids, List.mem_singleton] at hi; exact ⟨hi, Nat.lt_succ_self _⟩
    · intro hl
      refine ⟨fun x hx => ?_, trivial⟩
      exact ha _ hx hl x rfl
  have key : Res G c G1 (c1.op o as).2 :=
    h.trans { sm := (em_op c1 o as).sm
              agree := fun _ _ => ⟨rfl, rfl⟩
              inv := hinv
              back := hl.1
              mono := fun _ i hi => AvB.push hi _ _
              tg := fun b t ht => by
                rcases mem_push.1 (show _ ∈ (c1.push _).code b from ht) with ht | ⟨_, ht⟩
                · exact Or.inl ht
                · cases ht
              ph := fun b _ p hp => by
                rcases mem_push.1 (show _ ∈ (c1.push _).code b from hp) with hp | ⟨_, hp⟩
                · exact hp
                · cases hp }
  refine ⟨key, fun hl' x hx => Or.inr (Or.inr ?_)⟩
  have hx' : x = 2 * c1.nv + 1 := by simpa [Ctx.op] using hx.symm
  subst hx'
  show _ ∈ idsT ((c1.push _).code c1.cur)
  rw [push_cur, idsT_append_none _ (hl.1 hl').2]
  simp [idsT]

theorem Res.term {G G1 : Gh} {c c1 : Ctx} (h : Res G c G1 c1) {t : SSA.Term Cst} (ha : ∀ x, SSA.Opd.inst x ∈ t.args → OkO G1 c1 (.inst x))
    (ht : ∀ y ∈ t.targets, (c.nb ≤ y ∨ lpT c y) ∧ y < c1.nb ∧ y ≠ 0 ∧ (∀ p, Raw.phi p ∉ c1.code y) ∧
      (Live G1 c1 → ¬ G1.D y ∧ ∀ i, G1.A y i → Av G1 c1 i)) : Res G c G1 (c1.term t) where
  sm := h.sm.trans (em_term c1 t).sm
  agree := h.agree
  inv := by
    refine inv_push h.inv le_rfl (wf_push h.inv.wf (Or.inl rfl)) (by intro i hi; simp [ids] at hi) ?_ ?_ (by intro p hp; cases hp) (by simp [ids])
    · intro hl
      exact ⟨fun x hx => ha x hx hl x rfl, fun y hy => (ht y hy).2.2.2.2 hl⟩
    · intro t' e y hy
      cases e
      exact ⟨(ht y hy).2.1, (ht y hy).2.2.1, (ht y hy).2.2.2.1⟩
  back hl := absurd hl not_live_term
  mono hl := absurd hl not_live_term
  tg b t' hb := by
    rcases mem_push.1 (show _ ∈ (c1.push _).code b from hb) with hb | ⟨_, e⟩
    · exact h.tg b t' hb
    · cases e
      exact Or.inr fun y hy => (ht y hy).1
  ph b hb p hp := by
    rcases mem_push.1 (show _ ∈ (c1.push _).code b from hp) with hp | ⟨_, e⟩
    · exact h.ph b hb p hp
    · cases e

theorem Res.newBlock {G G1 : Gh} {c c1 : Ctx} (h : Res G c G1 c1) {S : Nat → Prop} (d : Prop) (hS : ∀ i, S i → ∃ j < c1.nv, i = 2 * j + 1) :
    Res G c (G1.add c1.nb S d) c1.newBlock.2 := by
  have hag : ∀ b < c1.nb, (G1.add c1.nb S d).A b = G1.A b ∧ (G1.add c1.nb S d).D b = G1.D b := by
    intro b hb
    have : b ≠ c1.nb := by omega
    simp [Gh.add, this]
  have h0 := inv_ghost h.inv hag
  have hcur := hag _ h.inv.wf.cur
  have hemp : c1.code c1.nb = [] := h.inv.wf.empty _ le_rfl
  have hA : (G1.add c1.nb S d).A c1.nb = S := by simp [Gh.add]
  refine h.trans
    { sm := (em_newBlock c1).sm, agree := hag, inv := ?_, back := ?_, mono := ?_, tg := fun _ _ h => Or.inl h, ph := fun _ _ _ h => h }
  · exact {
      wf := (em_newBlock c1).wf h.inv.wf
      tgt := fun b t ht y hy => ⟨Nat.lt_succ_of_lt (h0.tgt b t ht y hy).1, (h0.tgt b t ht y hy).2⟩
      lpn := fun p hp => ⟨Nat.lt_succ_of_lt (h0.lpn p hp).1, Nat.lt_succ_of_lt (h0.lpn p hp).2⟩
      chk := fun b hb hd => by
        rcases Nat.lt_succ_iff_lt_or_eq.1 hb with hb | rfl
        · exact h0.chk b hb hd
        · show Fe.chk _ _ _ (c1.code c1.nb)
          rw [hemp]; trivial
      phi := fun b p hb hd hp => by
        rcases Nat.lt_succ_iff_lt_or_eq.1 hb with hb | rfl
        · have := h0.phi b p hb hd hp
          exact ⟨fun q o hq => ⟨Nat.lt_succ_of_lt (this.src q o hq).1, (this.src q o hq).2⟩, this.all⟩
        · replace hp : _ ∈ c1.code c1.nb := hp
          rw [hemp] at hp; cases hp
      idn := h0.idn
      idb := h0.idb
      idd := h0.idd
      av := fun b hb i hi => by
        rcases Nat.lt_succ_iff_lt_or_eq.1 hb with hb | rfl
        · exact h0.av b hb i hi
        · rw [hA] at hi
          refine ⟨hS i hi, ?_⟩
          show i ∉ ids (c1.code c1.nb)
          rw [hemp]; simp [ids]
      vars := h0.vars
      ent := h0.ent }
  · intro hl
    unfold Live LiveB at hl ⊢
    rw [← hcur.2]
    exact hl
  · intro _ i hi
    exact (avB_ghost hcur.1 i).2 hi

theorem Res.setCur {G G1 : Gh} {c c1 : Ctx} (h : Res G c G1 c1) {b : Nat} (hb : b = c.cur ∨ c.nb ≤ b) (hn : b < c1.nb)
    (hl : LiveB G1 c1 b → Live G c ∧ ∀ i, Av G c i → AvB G1 c1 b i) : Res G c G1 (c1.setCur b) where
  sm := sm_setCur h.sm hb hn
  agree := h.agree
  inv := { h.inv with wf := ⟨hn, h.inv.wf.empty, h.inv.wf.phi, h.inv.wf.zero⟩, phi := fun b p hb hd hp => ⟨(h.inv.phi b p hb hd hp).src, (h.inv.phi b p hb hd hp).all⟩ }
  back h' := (hl h').1
  mono h' i hi := (hl h').2 i hi
  tg := h.tg
  ph := h.ph

theorem Res.phi {G G1 : Gh} {c c1 c2 : Ctx} (h : Res G c G1 c1) {inc : List (Nat × Opd)} {o : Opd} (hp : c1.phi inc = some (o, c2))
    (hcur : c.nb ≤ c1.cur) (h0 : c1.cur ≠ 0) (hc : ∀ k, ¬ G1.D c1.cur → PhiC G1 c1 c1.cur ⟨k, inc⟩) : Res G c G1 c2 ∧ OkO G1 c2 o := by
  have hem := em_phi (EM.refl c1) hp h0
  unfold Ctx.phi at hp
  split at hp
  · rename_i he
    simp only [Option.some.injEq, Prod.mk.injEq] at hp
    obtain ⟨rfl, rfl⟩ := hp
    have hl : Live G1 { c1.push (.phi ⟨2 * c1.nv + 1, inc⟩) with nv := c1.nv + 1 } ↔ Live G1 c1 := live_push (by intro t ht; cases ht)
    have hinv : Inv G1 { c1.push (.phi ⟨2 * c1.nv + 1, inc⟩) with nv := c1.nv + 1 } := by
      refine inv_push h.inv (Nat.le_succ _) (wf_push h.inv.wf (Or.inr ⟨by simpa using he, h0⟩)) ?_ ?_ (by intro t ht; cases ht) ?_ (by simp [ids])
      · intro i hi; simp only [ids, List.mem_singleton] at hi; exact ⟨hi, Nat.lt_succ_self _⟩
      · intro _; trivial
      · intro p hp hd
        cases hp
        exact hc _ hd
    refine ⟨⟨h.sm.trans hem.sm, h.agree, hinv, fun hl' => h.back (hl.1 hl'), fun hl' i hi => AvB.push (h.mono (hl.1 hl') i hi) _ _, ?_, ?_⟩, ?_⟩
    · intro b t ht
      rcases mem_push.1 (show _ ∈ (c1.push _).code b from ht) with ht | ⟨_, ht⟩
      · exact h.tg b t ht
      · cases ht
    · intro b hb p hp
      rcases mem_push.1 (show _ ∈ (c1.push _).code b from hp) with hp | ⟨e, _⟩
      · exact h.ph b hb p hp
      · omega
    · intro hl' x hx
      refine Or.inr (Or.inr ?_)
      have hx' : x = 2 * c1.nv + 1 := by simpa using hx.symm
      subst hx'
      show _ ∈ idsT ((c1.push _).code c1.cur)
      rw [push_cur, idsT_append_none _ (hl.1 hl').2]
      simp [idsT]
  · cases hp

/-! ## straight-line code -/

/-- emission that cannot lose the insert point -/
structure ER (G : Gh) (c : Ctx) (G' : Gh) (c' : Ctx) : Prop extends Res G c G' c' where
  fwd : Live G c → Live G' c'

theorem ER.refl {G : Gh} {c : Ctx} (h : Inv G c) : ER G c G c := ⟨Res.refl h, id⟩
theorem ER.trans {G G1 G2 : Gh} {c c1 c2 : Ctx} (h : ER G c G1 c1) (h' : ER G1 c1 G2 c2) : ER G c G2 c2 :=
  ⟨h.toRes.trans h'.toRes, fun hl => h'.fwd (h.fwd hl)⟩

theorem er_op {G : Gh} {c : Ctx} (h : Inv G c) (o : Op) {as : List Opd} (ha : ∀ a ∈ as, OkO G c a) :
    ER G c G (c.op o as).2 ∧ OkO G (c.op o as).2 (c.op o as).1 :=
  ⟨⟨((Res.refl h).op o ha).1, fun hl => (live_push (by intro t ht; cases ht)).2 hl⟩, ((Res.refl h).op o ha).2⟩

theorem mem1 {α : Type} {Q : α → Prop} {a : α} (h : Q a) : ∀ x ∈ [a], Q x := by intro x hx; rw [List.mem_singleton.1 hx]; exact h
theorem mem2 {α : Type} {Q : α → Prop} {a b : α} (h : Q a) (h' : Q b) : ∀ x ∈ [a, b], Q x := by
  intro x hx
  rcases List.mem_cons.1 hx with rfl | hx
  · exact h
  · rw [List.mem_singleton.1 hx]; exact h'

theorem er_convertTo {G : Gh} {c : Ctx} (h : Inv G c) {o : Opd} (ho : OkO G c o) (s d : IT) :
    ER G c G (convertTo c o s d).2 ∧ OkO G (convertTo c o s d).2 (convertTo c o s d).1 := by
  unfold convertTo
  split
  · exact ⟨ER.refl h, ho⟩
  · split
    · exact ⟨ER.refl h, okO_cst _ _ _⟩
    · split
      · exact er_op h _ (mem1 ho)
      · exact er_op h _ (mem1 ho)

theorem er_toBool {G : Gh} {c : Ctx} (h : Inv G c) {o : Opd} (ho : OkO G c o) (s : IT) :
    ER G c G (toBool c o s).2 ∧ OkO G (toBool c o s).2 (toBool c o s).1 := er_op h _ (mem2 ho (okO_cst _ _ _))

theorem er_boolToInt {G : Gh} {c : Ctx} (h : Inv G c) {o : Opd} (ho : OkO G c o) :
    ER G c G (boolToInt c o).2 ∧ OkO G (boolToInt c o).2 (boolToInt c o).1 := er_op h _ (mem1 ho)

theorem er_getRValue {G : Gh} {c : Ctx} (h : Inv G c) {q : QVal} (ho : OkO G c q.o) {o : Opd} {t : IT} {c' : Ctx}
    (hr : getRValue c q = some (o, t, c')) : ER G c G c' ∧ OkO G c' o := by
  unfold getRValue at hr
  split at hr
  · simp only [Option.some.injEq, Prod.mk.injEq] at hr
    obtain ⟨rfl, _, rfl⟩ := hr
    exact ⟨ER.refl h, ho⟩
  · split at hr
    · simp only [Option.some.injEq, Prod.mk.injEq] at hr
      obtain ⟨rfl, _, rfl⟩ := hr
      exact ⟨ER.refl h, okO_cst _ _ _⟩
    · simp only [Option.some.injEq, Prod.mk.injEq] at hr
      obtain ⟨rfl, _, rfl⟩ := hr
      exact er_op h _ (mem1 ho)
  · cases hr

theorem er_makeBinaryOp {G : Gh} {c : Ctx} (h : Inv G c) (op : BOp) (t : IT) {l r : Opd} (hl : OkO G c l) (hr : OkO G c r) :
    ER G c G (makeBinaryOp c op t l r).2 ∧ OkO G (makeBinaryOp c op t l r).2 (makeBinaryOp c op t l r).1 := by
  unfold makeBinaryOp
  split
  · rename_i o hf
    refine ⟨ER.refl h, ?_⟩
    unfold foldBin at hf
    split at hf
    · dsimp only at hf
      rw [Option.map_eq_some_iff] at hf
      obtain ⟨v, _, rfl⟩ := hf
      exact okO_cst _ _ _
    · cases hf
  · split
    · exact er_op h _ (mem2 hl hr)
    · obtain ⟨h1, h2⟩ := er_op h (.icmp (getCompareOp op t.sg) t.w.bits) (mem2 hl hr)
      obtain ⟨h3, h4⟩ := er_boolToInt h1.inv h2
      exact ⟨h1.trans h3, h4⟩

theorem er_emitArith {G : Gh} {c : Ctx} (h : Inv G c) (op : BOp) {l r : Opd} (lt rt : IT) (hl : OkO G c l) (hr : OkO G c r) :
    ER G c G (emitArith c op l lt r rt).2.2 ∧ OkO G (emitArith c op l lt r rt).2.2 (emitArith c op l lt r rt).1 := by
  unfold emitArith
  dsimp only
  obtain ⟨h1, h2⟩ := er_convertTo h hl lt (implicitTarget (some op) lt rt)
  obtain ⟨h3, h4⟩ := er_convertTo h1.inv (h1.lift hr) rt (implicitTarget (some op) lt rt)
  obtain ⟨h5, h6⟩ := er_makeBinaryOp h3.inv op (implicitTarget (some op) lt rt) (h3.lift h2) h4
  exact ⟨(h1.trans h3).trans h5, h6⟩

theorem er_emitUn {G : Gh} {c : Ctx} (h : Inv G c) (op : UOp) {o : Opd} (t : IT) (ho : OkO G c o) :
    ER G c G (emitUn c op o t).2.2 ∧ OkO G (emitUn c op o t).2.2 (emitUn c op o t).1 := by
  have key : ∀ (c1 : Ctx) (o1 : Opd) (t1 : IT), ER G c G c1 → OkO G c1 o1 →
      let r : Opd × IT × Ctx := match op, o1 with
        | .neg, .cst (.int w n) => (cint t1.w (-(sx w n)), t1, c1)
        | .plus, .cst (.int w n) => (cint t1.w (sx w n), t1, c1)
        | .neg, _ => let p := c1.op (.neg t1.w.bits) [o1]; (p.1, t1, p.2)
        | .plus, _ => (o1, t1, c1)
        | .bnot, _ => let p := c1.op (.bin .xor t1.w.bits) [o1, cint t1.w (-1)]; (p.1, t1, p.2)
        | .lnot, _ =>
          let p := toBool c1 o1 t1
          let p := p.2.op (.bin .xor 1) [p.1, .cst (.int 1 1)]
          let p := boolToInt p.2 p.1
          (p.1, ⟨.w32, true⟩, p.2)
      ER G c G r.2.2 ∧ OkO G r.2.2 r.1 := by
    intro c1 o1 t1 h1 h2
    split
    · exact ⟨h1, okO_cst _ _ _⟩
    · exact ⟨h1, okO_cst _ _ _⟩
    · obtain ⟨h3, h4⟩ := er_op h1.inv (.neg t1.w.bits) (mem1 h2)
      exact ⟨h1.trans h3, h4⟩
    · exact ⟨h1, h2⟩
    · obtain ⟨h3, h4⟩ := er_op h1.inv (.bin .xor t1.w.bits) (mem2 h2 (okO_cst G c1 _))
      exact ⟨h1.trans h3, h4⟩
    · obtain ⟨h3, h4⟩ := er_toBool h1.inv h2 t1
      obtain ⟨h5, h6⟩ := er_op h3.inv (.bin .xor 1) (mem2 h4 (okO_cst G _ (.int 1 1)))
      obtain ⟨h7, h8⟩ := er_boolToInt h5.inv h6
      exact ⟨((h1.trans h3).trans h5).trans h7, h8⟩
  have hp : ER G c G (if t.w.bits / 8 < 4 then convertTo c o t (applyPromotion t) else (o, c)).2 ∧
      OkO G (if t.w.bits / 8 < 4 then convertTo c o t (applyPromotion t) else (o, c)).2
        (if t.w.bits / 8 < 4 then convertTo c o t (applyPromotion t) else (o, c)).1 := by
    split
    · exact er_convertTo h ho t (applyPromotion t)
    · exact ⟨ER.refl h, ho⟩
  exact key _ _ _ hp.1 hp.2

theorem er_incdec {G : Gh} {c : Ctx} (h : Inv G c) (pre inc : Bool) (w : Wd) (sg : Bool) {o : Opd} (ho : OkO G c o) :
    ER G c G (incdecOps pre inc w sg o c).2 ∧ OkO G (incdecOps pre inc w sg o c).2 (incdecOps pre inc w sg o c).1 := by
  unfold incdecOps
  dsimp only
  obtain ⟨h1, h2⟩ := er_op h (.load w.bits) (mem1 ho)
  split
  · obtain ⟨h3, h4⟩ := er_convertTo h1.inv h2 ⟨w, sg⟩ ⟨.w32, sg⟩
    obtain ⟨h5, h6⟩ := er_op h3.inv (.bin (if inc then .add else .sub) 32) (mem2 h4 (okO_cst G _ (.int _ _)))
    obtain ⟨h7, h8⟩ := er_op h5.inv (.cast (if sg then .strunc else .ztrunc) 32 w.bits) (mem1 h6)
    obtain ⟨h9, _⟩ := er_op h7.inv (.store w.bits) (mem2 ((((h1.trans h3).trans h5).trans h7).lift ho) h8)
    refine ⟨(((h1.trans h3).trans h5).trans h7).trans h9, ?_⟩
    cases pre
    · exact (((h3.trans h5).trans h7).trans h9).lift h2
    · exact h9.lift h8
  · obtain ⟨h5, h6⟩ := er_op h1.inv (.bin (if inc then .add else .sub) w.bits) (mem2 h2 (okO_cst G _ (.int _ _)))
    obtain ⟨h9, _⟩ := er_op h5.inv (.store w.bits) (mem2 ((h1.trans h5).lift ho) h6)
    refine ⟨(h1.trans h5).trans h9, ?_⟩
    cases pre
    · exact (h5.trans h9).lift h2
    · exact h9.lift h6

end Cmmc.Fe
