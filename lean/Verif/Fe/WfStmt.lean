import Verif.Fe.WfExpr2
/-!
# Emitted code is SSA: statements
-/
namespace Cmmc.Fe
open Cmmc
section
variable {sigs : Sigs} {P : Wd} {rt : Option IT}

/-- block `y` was created after `c` and annotated with what holds there; it has no phi -/
structure FreshB (G : Gh) (c : Ctx) (G1 : Gh) (c1 : Ctx) (y : Nat) : Prop where
  ge : c.nb ≤ y
  lt : y < c1.nb
  np : ∀ p, Raw.phi p ∉ c1.code y
  A : G1.A y = Av G c
  D : G1.D y = ¬ Live G c

theorem FreshB.step {G G1 G2 : Gh} {c c1 c2 : Ctx} {y : Nat} (h : FreshB G c G1 c1 y) (hn : c1.nb ≤ c2.nb)
    (ha : G2.A y = G1.A y ∧ G2.D y = G1.D y) (hp : ∀ p, Raw.phi p ∈ c2.code y → Raw.phi p ∈ c1.code y) : FreshB G c G2 c2 y :=
  ⟨h.ge, lt_of_lt_of_le h.lt hn, fun p hm => h.np p (hp p hm), ha.1.trans h.A, ha.2.trans h.D⟩

theorem FreshB.res {G G1 G2 : Gh} {c c1 c2 : Ctx} {y : Nat} (h : FreshB G c G1 c1 y) (r : Res G1 c1 G2 c2) : FreshB G c G2 c2 y :=
  h.step r.sm.nb (r.agree y h.lt) (r.ph y h.lt)

theorem FreshB.term {G G1 : Gh} {c c1 : Ctx} {y : Nat} (h : FreshB G c G1 c1 y) (t : SSA.Term Cst) : FreshB G c G1 (c1.term t) y :=
  h.step le_rfl ⟨rfl, rfl⟩ (fun p hp => by
    rcases mem_push.1 (show _ ∈ (c1.push _).code y from hp) with hp | ⟨_, e⟩
    · exact hp
    · cases e)

theorem FreshB.setCur {G G1 : Gh} {c c1 : Ctx} {y : Nat} (h : FreshB G c G1 c1 y) (b : Nat) : FreshB G c G1 (c1.setCur b) y :=
  h.step le_rfl ⟨rfl, rfl⟩ (fun _ => id)

theorem Res.new {G G1 : Gh} {c c1 : Ctx} (h : Res G c G1 c1) (hi : Inv G c) :
    Res G c (G1.add c1.nb (Av G c) (¬ Live G c)) c1.newBlock.2 ∧ FreshB G c (G1.add c1.nb (Av G c) (¬ Live G c)) c1.newBlock.2 c1.nb := by
  refine ⟨h.newBlock _ (fun i hi' => ?_), h.sm.nb, Nat.lt_succ_self _, ?_, by simp [Gh.add], by simp [Gh.add]⟩
  · obtain ⟨j, hj, e⟩ := hi.av_odd hi'
    exact ⟨j, lt_of_lt_of_le hj h.sm.nv, e⟩
  · intro p hp
    replace hp : _ ∈ c1.code c1.nb := hp
    rw [h.inv.wf.empty _ le_rfl] at hp
    cases hp

theorem FreshB.new {G G1 : Gh} {c c1 : Ctx} {y : Nat} (h : FreshB G c G1 c1 y) (S : Nat → Prop) (d : Prop) :
    FreshB G c (G1.add c1.nb S d) c1.newBlock.2 y :=
  h.step (Nat.le_succ _) (by have := h.lt; have : y ≠ c1.nb := by omega
                             simp [Gh.add, this]) (fun _ => id)

theorem Inv.nb_pos {G : Gh} {c : Ctx} (h : Inv G c) : 0 < c.nb := lt_of_le_of_lt (Nat.zero_le _) h.wf.cur

theorem FreshB.tgt {G G1 : Gh} {c c1 : Ctx} {y : Nat} (f : FreshB G c G1 c1 y) (hi : Inv G c) (h : Res G c G1 c1) :
    (c.nb ≤ y ∨ lpT c y) ∧ y < c1.nb ∧ y ≠ 0 ∧ (∀ p, Raw.phi p ∉ c1.code y) ∧ (Live G1 c1 → ¬ G1.D y ∧ ∀ i, G1.A y i → Av G1 c1 i) := by
  have := hi.nb_pos
  have := f.ge
  refine ⟨Or.inl f.ge, f.lt, by omega, f.np, fun hl => ?_⟩
  rw [f.A, f.D]
  exact ⟨not_not.2 (h.back hl), fun i hi' => h.mono hl i hi'⟩

/-- jump to an annotated block -/
theorem Res.br {G G1 : Gh} {c c1 : Ctx} (h : Res G c G1 c1) (hi : Inv G c) {y : Nat} (f : FreshB G c G1 c1 y) : Res G c G1 (c1.term (.br y)) := by
  refine h.term (by intro x hx; simp [SSA.Term.args] at hx) ?_
  intro z hz
  simp only [SSA.Term.targets, List.mem_singleton] at hz
  subst hz
  exact f.tgt hi h

theorem Res.cbr {G G1 : Gh} {c c1 : Ctx} (h : Res G c G1 c1) (hi : Inv G c) {o : Opd} (ho : OkO G1 c1 o) {y z : Nat} (f : FreshB G c G1 c1 y)
    (g : FreshB G c G1 c1 z) : Res G c G1 (c1.term (.cbr o y z)) := by
  refine h.term (by intro x hx; simp only [SSA.Term.args, List.mem_singleton] at hx; rw [hx]; exact ho) ?_
  intro u hu
  simp only [SSA.Term.targets, List.mem_cons, List.not_mem_nil, or_false] at hu
  rcases hu with rfl | rfl
  · exact f.tgt hi h
  · exact g.tgt hi h

/-- go to an annotated block -/
theorem Res.at {G G1 : Gh} {c c1 : Ctx} (h : Res G c G1 c1) {y : Nat} (f : FreshB G c G1 c1 y) : Res G c G1 (c1.setCur y) := by
  refine h.setCur (Or.inr f.ge) f.lt (fun hl => ⟨?_, fun i hi => Or.inl (by rw [f.A]; exact hi)⟩)
  have := hl.1
  rw [f.D, not_not] at this
  exact this

/-- `break` and `continue` targets -/
def Lp (G : Gh) (c : Ctx) : Prop := ∀ y, lpT c y → y ≠ 0 ∧ (∀ p, Raw.phi p ∉ c.code y) ∧ (Live G c → ¬ G.D y ∧ ∀ i, G.A y i → Av G c i)

theorem Inv.lpT_lt {G : Gh} {c : Ctx} (h : Inv G c) {y : Nat} (hy : lpT c y) : y < c.nb := by
  obtain ⟨p, hp, e⟩ := hy
  have := h.lpn p hp
  rcases e with rfl | rfl
  · exact this.1
  · exact this.2

theorem Lp.res {G G' : Gh} {c c' : Ctx} (h : Lp G c) (hi : Inv G c) (r : Res G c G' c') : Lp G' c' := by
  intro y hy
  have hy' : lpT c y := by
    obtain ⟨p, hp, e⟩ := hy
    rw [r.sm.loops] at hp
    exact ⟨p, hp, e⟩
  have hlt := hi.lpT_lt hy'
  obtain ⟨h0, h1, h2⟩ := h y hy'
  refine ⟨h0, fun p hp => h1 p (r.ph y hlt p hp), fun hl => ?_⟩
  rw [(r.agree y hlt).1, (r.agree y hlt).2]
  exact ⟨(h2 (r.back hl)).1, fun i hi' => r.mono hl i ((h2 (r.back hl)).2 i hi')⟩

theorem Inv.setLoops {G : Gh} {c : Ctx} (h : Inv G c) {l : List (Nat × Nat)} (hl : ∀ p ∈ l, p.1 < c.nb ∧ p.2 < c.nb) : Inv G { c with loops := l } :=
  { h with
    lpn := hl
    wf := ⟨h.wf.cur, h.wf.empty, h.wf.phi, h.wf.zero⟩
    phi := fun b p hb hd hp => ⟨(h.phi b p hb hd hp).src, (h.phi b p hb hd hp).all⟩ }

/-- the body of a loop -/
theorem Res.body {G G1 G2 : Gh} {c c1 c2 : Ctx} (h : Res G c G1 c1) {p : Nat × Nat} (hp : c.nb ≤ p.1 ∧ c.nb ≤ p.2)
    (hb : Res G1 { c1 with loops := p :: c1.loops } G2 c2) : Res G c G2 { c2 with loops := c2.loops.tail } := by
  have hl : c2.loops = p :: c1.loops := hb.sm.loops
  have hm : Mono c c2 := h.sm.toMono.trans ((mono_loops (Mono.refl c1) (p :: c1.loops)).trans hb.sm.toMono)
  refine ⟨⟨mono_loops hm _, by show c2.loops.tail = c.loops; rw [hl]; exact h.sm.loops⟩, fun b hbn => ?_, ?_, fun hl => h.back (hb.back hl),
    fun hl i hi => hb.mono hl i (h.mono (hb.back hl) i hi), fun b t ht => ?_, fun b hbn q hq => ?_⟩
  · have h1 := hb.agree b (lt_of_lt_of_le hbn h.sm.nb)
    have h2 := h.agree b hbn
    exact ⟨h1.1.trans h2.1, h1.2.trans h2.2⟩
  · exact hb.inv.setLoops (fun q hq => hb.inv.lpn q (List.mem_of_mem_tail hq))
  · rcases hb.tg b t ht with h1 | h1
    · exact h.tg b t h1
    · right
      intro y hy
      rcases h1 y hy with h2 | ⟨q, hq, h2⟩
      · exact Or.inl (h.sm.nb.trans h2)
      · replace hq : q ∈ p :: c1.loops := hq
        rcases List.mem_cons.1 hq with rfl | hq
        · left
          rcases h2 with rfl | rfl
          · exact hp.1
          · exact hp.2
        · exact Or.inr ⟨q, by rw [← h.sm.loops]; exact hq, h2⟩
  · exact h.ph b hbn q (hb.ph b (lt_of_lt_of_le hbn h.sm.nb) q hq)

theorem Lp.cons {G G0 : Gh} {c c0 : Ctx} (h : Lp G c) {a b : Nat} (h0 : 0 < c0.nb)
    (hA : Live G c → Live G0 c0 ∧ ∀ i, Av G0 c0 i → Av G c i) {G0' : Gh} {c0' : Ctx} (hA' : Live G c → Live G0' c0' ∧ ∀ i, Av G0' c0' i → Av G c i) (h0' : 0 < c0'.nb)
    (fa : FreshB G0 c0 G c a) (fb : FreshB G0' c0' G c b) : Lp G { c with loops := (a, b) :: c.loops } := by
  rintro y ⟨p, hp, e⟩
  replace hp : p ∈ (a, b) :: c.loops := hp
  rcases List.mem_cons.1 hp with rfl | hp
  · rcases e with rfl | rfl
    · refine ⟨by have := fa.ge; omega, fa.np, fun hl => ?_⟩
      show ¬ G.D y ∧ _
      rw [fa.A, fa.D]
      exact ⟨not_not.2 (hA hl).1, (hA hl).2⟩
    · refine ⟨by have := fb.ge; omega, fb.np, fun hl => ?_⟩
      show ¬ G.D y ∧ _
      rw [fb.A, fb.D]
      exact ⟨not_not.2 (hA' hl).1, (hA' hl).2⟩
  · exact h y ⟨p, hp, e⟩

/-! ## declarations and scopes -/

theorem inv_alloc {G : Gh} {c : Ctx} (h : Inv G c) (z : Int) : Inv G (c.alloc z).2 where
  wf := (sm_alloc c z).wf h.wf
  tgt := h.tgt
  lpn := h.lpn
  chk b hb hd := chk_slots (by simp [Ctx.alloc]) (h.chk b hb hd)
  phi b p hb hd hp := ⟨fun q o hq => by
    obtain ⟨h1, h2, h3, h4⟩ := (h.phi b p hb hd hp).src q o hq
    exact ⟨h1, h2, h3, fun x hx => (h4 x hx).imp (slot_mono (by simp [Ctx.alloc])) id⟩, (h.phi b p hb hd hp).all⟩
  idn := h.idn
  idb := h.idb
  idd := h.idd
  av := h.av
  vars x q hq i hi := slot_mono (by simp [Ctx.alloc]) (h.vars x q hq i hi)
  ent := h.ent

theorem er_alloc {G : Gh} {c : Ctx} (h : Inv G c) (z : Int) : ER G c G (c.alloc z).2 where
  sm := sm_alloc c z
  agree _ _ := ⟨rfl, rfl⟩
  inv := inv_alloc h z
  back := id
  mono _ _ := id
  tg _ _ := Or.inl
  ph _ _ _ := id
  fwd := id

theorem slot_alloc (c : Ctx) (z : Int) : slot (c.alloc z).2.slots.length (2 * c.slots.length) := ⟨c.slots.length, by simp [Ctx.alloc], rfl⟩

/-- states that differ only in variables -/
theorem er_vars {G : Gh} {c c' : Ctx} (h : Inv G c) (h1 : c'.nb = c.nb) (h2 : c'.nv = c.nv) (h3 : c'.slots = c.slots) (h4 : c'.cur = c.cur)
    (h5 : c'.code = c.code) (h6 : c'.loops = c.loops) (hv : ∀ x, ∀ q ∈ c'.vars x, ∀ i, q.o = .inst i → slot c.slots.length i) : ER G c G c' := by
  have sm := sm_vars h1 h2 h3 h4 h5 h6
  cases c'; cases c
  subst h1; subst h2; subst h3; subst h4; subst h5; subst h6
  exact { sm := sm
          agree := fun _ _ => ⟨rfl, rfl⟩
          inv := ⟨sm.wf h.wf, h.tgt, h.lpn, h.chk, fun b p hb hd hp => ⟨(h.phi b p hb hd hp).src, (h.phi b p hb hd hp).all⟩, h.idn, h.idb, h.idd, h.av, hv, h.ent⟩
          back := id
          mono := fun _ _ => id
          tg := fun _ _ => Or.inl
          ph := fun _ _ _ => id
          fwd := id }

theorem er_addId {G : Gh} {c c' : Ctx} (hi : Inv G c) {x : String} {q : QVal} (h : c.addId x q = some c') (hq : ∀ i, q.o = .inst i → slot c.slots.length i) :
    ER G c G c' := by
  obtain ⟨sc, scs, _, _, rfl⟩ := addId_eq h
  refine er_vars hi rfl rfl rfl rfl rfl rfl ?_
  intro y r hr i he
  replace hr : r ∈ (if y = x then q :: c.vars y else c.vars y) := hr
  split at hr
  · rcases List.mem_cons.1 hr with rfl | hr
    · exact hq i he
    · exact hi.vars y r hr i he
  · exact hi.vars y r hr i he

theorem popNames_vars : ∀ (xs : List String) (p : (String → List QVal) × List (Opd × Wd × Nat)) (y : String) (q : QVal), q ∈ (popNames xs p).1 y → q ∈ p.1 y
  | [], _, _, _, h => h
  | x :: xs, (vars, cb), y, q, h => by
    rw [popNames] at h
    have := popNames_vars xs _ y q h
    simp only at this
    split at this
    · exact List.mem_of_mem_tail this
    · exact this

theorem er_popScope {G : Gh} {c c' : Ctx} (hi : Inv G c) (h : c.popScope = some c') : ER G c G c' := by
  obtain ⟨sc, scs, _, rfl⟩ := popScope_eq h
  exact er_vars hi rfl rfl rfl rfl rfl rfl (fun x q hq i he => hi.vars x q (popNames_vars _ _ _ _ hq) i he)

theorem er_pushScope {G : Gh} {c : Ctx} (hi : Inv G c) : ER G c G c.pushScope := er_vars hi rfl rfl rfl rfl rfl rfl hi.vars

theorem er_bindConst {G : Gh} {c : Ctx} (hi : Inv G c) (s o : Opd) (w : Wd) (cst : Bool) : ER G c G (bindConst c s o w cst) := by
  unfold bindConst
  split
  · unfold Ctx.addConst
    split
    · exact ER.refl hi
    · exact er_vars hi rfl rfl rfl rfl rfl rfl hi.vars
  · exact ER.refl hi

theorem bindConst_slots (c : Ctx) (s o : Opd) (w : Wd) (cst : Bool) : (bindConst c s o w cst).slots = c.slots := by
  unfold bindConst Ctx.addConst
  split
  · split <;> rfl
  · rfl

/-! ## statements -/

theorem wf_ifThen {k : Expr} {a : Stmt} {G : Gh} {c c' : Ctx} (hi : Inv G c) (hl : Lp G c)
    (ih : ∀ (G : Gh) (c c' : Ctx), Inv G c → Lp G c → emitS sigs P rt a c = some c' → ∃ G', Res G c G' c')
    (h : emitS sigs P rt (.ifThen k a) c = some c') : ∃ G', Res G c G' c' := by
  obtain ⟨o, c1, c2, h1, h2, rfl⟩ := emitS_ifThen h
  obtain ⟨G1, e1, k1⟩ := wf_emitC hi h1
  have i1 := e1.inv
  have l1 := hl.res hi e1.toRes
  obtain ⟨r2, f2⟩ := (Res.refl i1).new i1
  obtain ⟨r3, f3⟩ := r2.new i1
  have f2 := f2.new (Av G1 c1) (¬ Live G1 c1)
  have r4 := r3.at f2
  obtain ⟨G2, rb⟩ := ih _ _ _ r4.inv (l1.res i1 r4) h2
  have r5 := r4.trans rb
  have fb := (f2.setCur c1.nb).res rb
  have fn := (f3.setCur c1.nb).res rb
  have r6 := r5.br i1 fn
  have hfix : (c2.term (.br (c1.nb + 1))).code c1.cur = c1.code c1.cur := by
    have hc := i1.wf.cur
    have hcur : c1.cur ≠ c2.cur := by
      rcases rb.sm.cur with h | h
      · have : c2.cur = c1.nb := h
        omega
      · have : c1.nb + 1 + 1 ≤ c2.cur := h
        omega
    show (c2.push _).code c1.cur = _
    rw [push_fix c2 _ hcur, rb.sm.fix c1.cur (by show _ < c1.nb + 1 + 1; omega) (by show c1.cur ≠ c1.nb; omega)]
    rfl
  have hag := r6.agree _ i1.wf.cur
  have r7 := r6.setCur (b := c1.cur) (Or.inl rfl) (lt_of_lt_of_le i1.wf.cur r6.sm.nb) (fun hlb =>
    ⟨(liveB_same hfix hag.2).1 hlb, fun i hi' => (avB_same hfix hag.1 i).2 hi'⟩)
  have fb7 := (fb.term (.br (c1.nb + 1))).setCur c1.cur
  have fn7 := (fn.term (.br (c1.nb + 1))).setCur c1.cur
  have r8 := r7.cbr i1 (r7.lift k1) fb7 fn7
  have r9 := r8.at (fn7.term _)
  exact ⟨G2, e1.toRes.trans r9⟩

theorem wf_ifElse {k : Expr} {a b : Stmt} {G : Gh} {c c' : Ctx} (hi : Inv G c) (hl : Lp G c)
    (ih : ∀ (G : Gh) (c c' : Ctx), Inv G c → Lp G c → emitS sigs P rt a c = some c' → ∃ G', Res G c G' c')
    (ih' : ∀ (G : Gh) (c c' : Ctx), Inv G c → Lp G c → emitS sigs P rt b c = some c' → ∃ G', Res G c G' c')
    (h : emitS sigs P rt (.ifElse k a b) c = some c') : ∃ G', Res G c G' c' := by
  obtain ⟨o, c1, c2, c3, h1, h2, h3, rfl⟩ := emitS_ifElse h
  obtain ⟨G1, e1, k1⟩ := wf_emitC hi h1
  have i1 := e1.inv
  have l1 := hl.res hi e1.toRes
  obtain ⟨r2, f2⟩ := (Res.refl i1).new i1
  obtain ⟨r3, f3⟩ := r2.new i1
  have f2 := f2.new (Av G1 c1) (¬ Live G1 c1)
  have r4 := r3.at f2
  obtain ⟨G2, rb⟩ := ih _ _ _ r4.inv (l1.res i1 r4) h2
  have r5 := r4.trans rb
  have fb := (f2.setCur c1.nb).res rb
  have fn := (f3.setCur c1.nb).res rb
  have r6 := r5.br i1 fn
  obtain ⟨r6', fe⟩ := r6.new i1
  have hfix : (c2.term (.br (c1.nb + 1))).newBlock.2.code c1.cur = c1.code c1.cur := by
    have hc := i1.wf.cur
    have hcur : c1.cur ≠ c2.cur := by
      rcases rb.sm.cur with h | h
      · have : c2.cur = c1.nb := h
        omega
      · have : c1.nb + 1 + 1 ≤ c2.cur := h
        omega
    show (c2.push _).code c1.cur = _
    rw [push_fix c2 _ hcur, rb.sm.fix c1.cur (by show _ < c1.nb + 1 + 1; omega) (by show c1.cur ≠ c1.nb; omega)]
    rfl
  have hag := r6'.agree _ i1.wf.cur
  have r7 := r6'.setCur (b := c1.cur) (Or.inl rfl) (lt_of_lt_of_le i1.wf.cur r6'.sm.nb) (fun hlb =>
    ⟨(liveB_same hfix hag.2).1 hlb, fun i hi' => (avB_same hfix hag.1 i).2 hi'⟩)
  have fb7 := ((fb.term (.br (c1.nb + 1))).new (Av G1 c1) (¬ Live G1 c1)).setCur c1.cur
  have fn7 := ((fn.term (.br (c1.nb + 1))).new (Av G1 c1) (¬ Live G1 c1)).setCur c1.cur
  have fe7 := fe.setCur c1.cur
  have r8 := r7.cbr i1 (r7.lift k1) fb7 fe7
  have r9 := r8.at (fe7.term _)
  obtain ⟨G3, re⟩ := ih' _ _ _ r9.inv (l1.res i1 r9) h3
  have r10 := r9.trans re
  have fn10 := ((fn7.term (.cbr o c1.nb c2.nb)).setCur c2.nb).res re
  have r11 := r10.br i1 fn10
  exact ⟨G3, e1.toRes.trans (r11.at (fn10.term _))⟩

theorem wf_while {k : Expr} {a : Stmt} {G : Gh} {c c' : Ctx} (hi : Inv G c) (hl : Lp G c)
    (ih : ∀ (G : Gh) (c c' : Ctx), Inv G c → Lp G c → emitS sigs P rt a c = some c' → ∃ G', Res G c G' c')
    (h : emitS sigs P rt (.while k a) c = some c') : ∃ G', Res G c G' c' := by
  obtain ⟨o, c1, c2, h1, h2, rfl⟩ := emitS_while h
  obtain ⟨r1, fh⟩ := (Res.refl hi).new hi
  have r2 := r1.br hi fh
  have fh := fh.term (.br c.nb)
  have r3 := r2.at fh
  have fh := fh.setCur c.nb
  obtain ⟨G1, e1, k1⟩ := wf_emitC r3.inv h1
  have i1 := e1.inv
  have fh := fh.res e1.toRes
  have r4 := r3.trans e1.toRes
  obtain ⟨q1, fa⟩ := (Res.refl i1).new i1
  obtain ⟨q2, fn⟩ := q1.new i1
  have fa := fa.new (Av G1 c1) (¬ Live G1 c1)
  have fh := (fh.new (Av G1 c1) (¬ Live G1 c1)).new (Av G1 c1) (¬ Live G1 c1)
  have q3 := q2.cbr i1 (q2.lift k1) fa fn
  have q4 := q3.at (fa.term _)
  have fn := (fn.term (.cbr o c1.nb (c1.nb + 1))).setCur c1.nb
  have fh := (fh.term (.cbr o c1.nb (c1.nb + 1))).setCur c1.nb
  have r5 := r4.trans q4
  have l5 := hl.res hi r5
  have l5' := l5.cons (a := c.nb) (b := c1.nb + 1) hi.nb_pos (fun hl' => ⟨r5.back hl', fun i => r5.mono hl' i⟩)
    (fun hl' => ⟨q4.back hl', fun i => q4.mono hl' i⟩) i1.nb_pos fh fn
  have i5' := r5.inv.setLoops (l := (c.nb, c1.nb + 1) :: c1.loops) (by
    intro p hp
    rcases List.mem_cons.1 hp with rfl | hp
    · exact ⟨fh.lt, fn.lt⟩
    · exact r5.inv.lpn p hp)
  obtain ⟨G2, rb⟩ := ih _ _ _ i5' l5' h2
  have r6 := r5.body (p := (c.nb, c1.nb + 1)) ⟨le_rfl, r4.sm.nb.trans (Nat.le_succ _)⟩ rb
  have fh' : FreshB G c G2 { c2 with loops := c2.loops.tail } c.nb := fh.step rb.sm.nb (rb.agree _ fh.lt) (rb.ph _ fh.lt)
  have fn' : FreshB G1 c1 G2 { c2 with loops := c2.loops.tail } (c1.nb + 1) := fn.step rb.sm.nb (rb.agree _ fn.lt) (rb.ph _ fn.lt)
  have r7 := r6.br hi fh'
  have fn7 := fn'.term (.br c.nb)
  refine ⟨G2, r7.setCur (b := c1.nb + 1) (Or.inr (r4.sm.nb.trans (Nat.le_succ _))) fn7.lt (fun hlb => ?_)⟩
  have hl1 : Live G1 c1 := by
    have := hlb.1
    rw [fn7.D, not_not] at this
    exact this
  exact ⟨r4.back hl1, fun i hi' => Or.inl (by rw [fn7.A]; exact r4.mono hl1 i hi')⟩

theorem wf_doWhile {k : Expr} {a : Stmt} {G : Gh} {c c' : Ctx} (hi : Inv G c) (hl : Lp G c)
    (ih : ∀ (G : Gh) (c c' : Ctx), Inv G c → Lp G c → emitS sigs P rt a c = some c' → ∃ G', Res G c G' c')
    (h : emitS sigs P rt (.doWhile a k) c = some c') : ∃ G', Res G c G' c' := by
  obtain ⟨c1, o, c2, h1, h2, rfl⟩ := emitS_doWhile h
  obtain ⟨r1, fb⟩ := (Res.refl hi).new hi
  obtain ⟨r2, fh⟩ := r1.new hi
  obtain ⟨r3, fn⟩ := r2.new hi
  have fh := fh.new (Av G c) (¬ Live G c)
  have fb := (fb.new (Av G c) (¬ Live G c)).new (Av G c) (¬ Live G c)
  have r4 := r3.br hi fb
  have fb := fb.term (.br c.nb)
  have fh := fh.term (.br c.nb)
  have fn := fn.term (.br c.nb)
  have r5 := r4.at fb
  have fb := fb.setCur c.nb
  have fh := fh.setCur c.nb
  have fn := fn.setCur c.nb
  have l5 := hl.res hi r5
  have l5' := l5.cons (a := c.nb + 1) (b := c.nb + 2) hi.nb_pos (fun hl' => ⟨r5.back hl', fun i => r5.mono hl' i⟩)
    (fun hl' => ⟨r5.back hl', fun i => r5.mono hl' i⟩) hi.nb_pos fh fn
  have i5' := r5.inv.setLoops (l := (c.nb + 1, c.nb + 2) :: c.loops) (by
    intro p hp
    rcases List.mem_cons.1 hp with rfl | hp
    · exact ⟨fh.lt, fn.lt⟩
    · exact r5.inv.lpn p hp)
  obtain ⟨G2, rb⟩ := ih _ _ _ i5' l5' h1
  have r6 := r5.body (p := (c.nb + 1, c.nb + 2)) ⟨Nat.le_succ _, Nat.le_add_right _ _⟩ rb
  have fb' : FreshB G c G2 { c1 with loops := c1.loops.tail } c.nb := fb.step rb.sm.nb (rb.agree _ fb.lt) (rb.ph _ fb.lt)
  have fh' : FreshB G c G2 { c1 with loops := c1.loops.tail } (c.nb + 1) := fh.step rb.sm.nb (rb.agree _ fh.lt) (rb.ph _ fh.lt)
  have fn' : FreshB G c G2 { c1 with loops := c1.loops.tail } (c.nb + 2) := fn.step rb.sm.nb (rb.agree _ fn.lt) (rb.ph _ fn.lt)
  have r7 := r6.br hi fh'
  have r8 := r7.at (fh'.term _)
  have fb8 := (fb'.term (.br (c.nb + 1))).setCur (c.nb + 1)
  have fn8 := (fn'.term (.br (c.nb + 1))).setCur (c.nb + 1)
  obtain ⟨G3, e3, k3⟩ := wf_emitC r8.inv h2
  have r9 := r8.trans e3.toRes
  have r10 := r9.cbr hi k3 (fb8.res e3.toRes) (fn8.res e3.toRes)
  exact ⟨G3, r10.at ((fn8.res e3.toRes).term _)⟩

theorem wf_emitFC {k : Option Expr} {b n : Nat} {G G0 : Gh} {c c0 c' : Ctx} (hi0 : Inv G0 c0) (r : Res G0 c0 G c) (fb : FreshB G0 c0 G c b) (fn : FreshB G0 c0 G c n)
    (h : emitFC sigs P k b n c = some c') : ∃ G', Res G0 c0 G' c' ∧ (∀ y, FreshB G0 c0 G c y → FreshB G0 c0 G' c' y) := by
  cases k with
  | none =>
    simp only [emitFC, Option.some.injEq] at h
    rw [← h]
    exact ⟨G, r.br hi0 fb, fun y hy => hy.term _⟩
  | some k =>
    obtain ⟨⟨o, c1⟩, h1, h⟩ := bind_some' h
    simp only [Option.some.injEq] at h
    rw [← h]
    obtain ⟨G1, e1, k1⟩ := wf_emitC r.inv h1
    exact ⟨G1, (r.trans e1.toRes).cbr hi0 k1 (fb.res e1.toRes) (fn.res e1.toRes), fun y hy => (hy.res e1.toRes).term _⟩

theorem wf_emitFI {k : Option Expr} {G : Gh} {c c' : Ctx} (hi : Inv G c) (h : emitFI sigs P k c = some c') : ∃ G', Res G c G' c' := by
  cases k with
  | none =>
    simp only [emitFI, Option.some.injEq] at h
    rw [← h]; exact ⟨G, Res.refl hi⟩
  | some k =>
    obtain ⟨⟨o, c1⟩, h1, h⟩ := bind_some' h
    simp only [Option.some.injEq] at h
    rw [← h]
    obtain ⟨G1, e1, _⟩ := wf_emitE _ _ _ _ _ hi h1
    exact ⟨G1, e1.toRes⟩

theorem wf_for {i a : Stmt} {k it : Option Expr} {G : Gh} {c c' : Ctx} (hi : Inv G c) (hl : Lp G c)
    (ihi : ∀ (G : Gh) (c c' : Ctx), Inv G c → Lp G c → emitS sigs P rt i c = some c' → ∃ G', Res G c G' c')
    (ih : ∀ (G : Gh) (c c' : Ctx), Inv G c → Lp G c → emitS sigs P rt a c = some c' → ∃ G', Res G c G' c')
    (h : emitS sigs P rt (.for i k it a) c = some c') : ∃ G', Res G c G' c' := by
  obtain ⟨c0, c1, c2, c3, h0, h1, h2, h3, h4⟩ := emitS_for h
  have p0 := (er_pushScope hi).toRes
  obtain ⟨G0, r0⟩ := ihi _ _ _ p0.inv (hl.res hi p0) h0
  have r0 := p0.trans r0
  have l0 := hl.res hi r0
  have i0 := r0.inv
  suffices hs : ∃ G', Res G0 c0 G' c' by
    obtain ⟨G', r'⟩ := hs
    exact ⟨G', r0.trans r'⟩
  obtain ⟨r1, fh⟩ := (Res.refl i0).new i0
  obtain ⟨r2, fb⟩ := r1.new i0
  obtain ⟨r3, fi⟩ := r2.new i0
  obtain ⟨r4, fn⟩ := r3.new i0
  have fi := fi.new (Av G0 c0) (¬ Live G0 c0)
  have fb := (fb.new (Av G0 c0) (¬ Live G0 c0)).new (Av G0 c0) (¬ Live G0 c0)
  have fh := ((fh.new (Av G0 c0) (¬ Live G0 c0)).new (Av G0 c0) (¬ Live G0 c0)).new (Av G0 c0) (¬ Live G0 c0)
  have r5 := r4.br i0 fh
  have r6 := r5.at (fh.term _)
  have fh := (fh.term (.br c0.nb)).setCur c0.nb
  have fb := (fb.term (.br c0.nb)).setCur c0.nb
  have fi := (fi.term (.br c0.nb)).setCur c0.nb
  have fn := (fn.term (.br c0.nb)).setCur c0.nb
  obtain ⟨G1, r7, hf⟩ := wf_emitFC i0 r6 fb fn h1
  have fh := (hf _ fh).setCur (c0.nb + 1)
  have fi := (hf _ fi).setCur (c0.nb + 1)
  have fn := (hf _ fn).setCur (c0.nb + 1)
  have r8 := r7.at (hf _ fb)
  have l8 := l0.res i0 r8
  have l8' := l8.cons (a := c0.nb + 2) (b := c0.nb + 3) i0.nb_pos (fun hl' => ⟨r8.back hl', fun i => r8.mono hl' i⟩)
    (fun hl' => ⟨r8.back hl', fun i => r8.mono hl' i⟩) i0.nb_pos fi fn
  have i8' := r8.inv.setLoops (l := (c0.nb + 2, c0.nb + 3) :: c1.loops) (by
    intro p hp
    rcases List.mem_cons.1 hp with rfl | hp
    · exact ⟨fi.lt, fn.lt⟩
    · exact r8.inv.lpn p hp)
  obtain ⟨G2, rb⟩ := ih _ _ _ i8' l8' h2
  have r9 := r8.body (p := (c0.nb + 2, c0.nb + 3)) ⟨Nat.le_add_right _ _, Nat.le_add_right _ _⟩ rb
  have fh' : FreshB G0 c0 G2 { c2 with loops := c2.loops.tail } c0.nb := fh.step rb.sm.nb (rb.agree _ fh.lt) (rb.ph _ fh.lt)
  have fi' : FreshB G0 c0 G2 { c2 with loops := c2.loops.tail } (c0.nb + 2) := fi.step rb.sm.nb (rb.agree _ fi.lt) (rb.ph _ fi.lt)
  have fn' : FreshB G0 c0 G2 { c2 with loops := c2.loops.tail } (c0.nb + 3) := fn.step rb.sm.nb (rb.agree _ fn.lt) (rb.ph _ fn.lt)
  have r10 := r9.br i0 fi'
  have r11 := r10.at (fi'.term _)
  obtain ⟨G3, e3⟩ := wf_emitFI r11.inv h3
  have r12 := r11.trans e3
  have fh12 := ((fh'.term (.br (c0.nb + 2))).setCur (c0.nb + 2)).res e3
  have fn12 := ((fn'.term (.br (c0.nb + 2))).setCur (c0.nb + 2)).res e3
  have r13 := r12.br i0 fh12
  have r14 := r13.at (fn12.term _)
  exact ⟨G3, r14.trans (er_popScope r14.inv h4).toRes⟩

/-- a jump to a loop target -/
theorem wf_loopJump {G : Gh} {c : Ctx} (hi : Inv G c) (hl : Lp G c) {y : Nat} (hy : lpT c y) : Res G c G (c.term (.br y)) := by
  refine (Res.refl hi).term (by intro x hx; simp [SSA.Term.args] at hx) ?_
  intro z hz
  simp only [SSA.Term.targets, List.mem_singleton] at hz
  subst hz
  obtain ⟨h0, h1, h2⟩ := hl z hy
  exact ⟨Or.inr hy, hi.lpT_lt hy, h0, h1, h2⟩

theorem wf_ret {G : Gh} {c : Ctx} (hi : Inv G c) {o : Option Opd} (ho : ∀ p, o = some p → OkO G c p) : Res G c G (c.term (.ret o)) := by
  refine (Res.refl hi).term ?_ (by intro y hy; simp [SSA.Term.targets] at hy)
  intro x hx
  cases o with
  | none => simp [SSA.Term.args] at hx
  | some p =>
    simp only [SSA.Term.args, Option.toList, List.mem_singleton] at hx
    rw [hx]; exact ho p rfl

theorem wf_emitS : ∀ (s : Stmt) (G : Gh) (c c' : Ctx), Inv G c → Lp G c → emitS sigs P rt s c = some c' → ∃ G', Res G c G' c'
  | .skip, G, c, c', hi, hl, h => by rw [emitS] at h; cases h; exact ⟨G, Res.refl hi⟩
  | .seq a b, G, c, c', hi, hl, h => by
    obtain ⟨c1, h1, h2⟩ := emitS_seq h
    obtain ⟨G1, r1⟩ := wf_emitS a _ _ _ hi hl h1
    obtain ⟨G2, r2⟩ := wf_emitS b _ _ _ r1.inv (hl.res hi r1) h2
    exact ⟨G2, r1.trans r2⟩
  | .expr e, G, c, c', hi, hl, h => by
    obtain ⟨q, h1⟩ := emitS_expr h
    obtain ⟨G1, e1, _⟩ := wf_emitE _ _ _ _ _ hi h1
    exact ⟨G1, e1.toRes⟩
  | .decl x (.int wd) sg cst (some e), G, c, c', hi, hl, h => by
    obtain ⟨q, c1, o, t, c2, h1, h2, h3⟩ := emitS_declI h
    have e0 := er_alloc hi 1
    obtain ⟨G1, e1, k1⟩ := wf_emitE _ _ _ _ _ e0.inv h1
    obtain ⟨e2, k2⟩ := er_getRValue e1.inv k1 h2
    obtain ⟨e3, k3⟩ := er_convertTo e2.inv k2 t ⟨wd, sg⟩
    have e03 := ((e1.trans e2).trans e3)
    have hs : slot (convertTo c2 o t ⟨wd, sg⟩).2.slots.length (2 * c.slots.length) := slot_mono e03.sm.slots.length_le (slot_alloc c 1)
    obtain ⟨e4, _⟩ := er_op e3.inv (.store wd.bits) (as := [.inst (2 * c.slots.length), (convertTo c2 o t ⟨wd, sg⟩).1])
      (mem2 (okO_slot (by intro i hi'; cases hi'; exact hs)) k3)
    have e5 := er_bindConst e4.inv (.inst (2 * c.slots.length)) (convertTo c2 o t ⟨wd, sg⟩).1 wd cst
    have e6 := er_addId e5.inv h3 (by intro i hi'; cases hi'; exact slot_mono (e4.trans e5).sm.slots.length_le hs)
    exact ⟨G1, (((e0.trans e03).trans e4).trans (e5.trans e6)).toRes⟩
  | .decl x (.int wd) sg cst none, G, c, c', hi, hl, h => by
    have h3 := emitS_declN h
    have e0 := er_alloc hi 1
    obtain ⟨e4, _⟩ := er_op e0.inv (.store wd.bits) (as := [.inst (2 * c.slots.length), cint wd 0])
      (mem2 (okO_slot (by intro i hi'; cases hi'; exact slot_alloc c 1)) (okO_cst _ _ _))
    have e6 := er_addId e4.inv h3 (by intro i hi'; cases hi'; exact slot_mono e4.sm.slots.length_le (slot_alloc c 1))
    exact ⟨G, ((e0.trans e4).trans e6).toRes⟩
  | .decl x (.arr k ty) sg cst i, G, c, c', hi, hl, h => by
    have h3 := (emitS_declA h).2.2
    have e0 := er_alloc hi (Ty.arr k ty).cnt
    have e6 := er_addId e0.inv h3 (by intro i hi'; cases hi'; exact slot_alloc c _)
    exact ⟨G, (e0.trans e6).toRes⟩
  | .scope a, G, c, c', hi, hl, h => by
    obtain ⟨c1, h1, h2⟩ := emitS_scope h
    have p0 := (er_pushScope hi).toRes
    obtain ⟨G1, r1⟩ := wf_emitS a _ _ _ p0.inv (hl.res hi p0) h1
    exact ⟨G1, (p0.trans r1).trans (er_popScope r1.inv h2).toRes⟩
  | .ifThen k a, G, c, c', hi, hl, h => wf_ifThen hi hl (wf_emitS a) h
  | .ifElse k a b, G, c, c', hi, hl, h => wf_ifElse hi hl (wf_emitS a) (wf_emitS b) h
  | .while k a, G, c, c', hi, hl, h => wf_while hi hl (wf_emitS a) h
  | .doWhile a k, G, c, c', hi, hl, h => wf_doWhile hi hl (wf_emitS a) h
  | .for i k it a, G, c, c', hi, hl, h => wf_for hi hl (wf_emitS i) (wf_emitS a) h
  | .brk, G, c, c', hi, hl, h => by
    rw [emitS] at h
    split at h
    · rename_i x b l hb
      cases h; exact ⟨G, wf_loopJump hi hl ⟨(x, b), by rw [hb]; simp, Or.inr rfl⟩⟩
    · cases h
  | .cont, G, c, c', hi, hl, h => by
    rw [emitS] at h
    split at h
    · rename_i b x l hb
      cases h; exact ⟨G, wf_loopJump hi hl ⟨(b, x), by rw [hb]; simp, Or.inl rfl⟩⟩
    · cases h
  | .ret none, G, c, c', hi, hl, h => by
    rw [emitS] at h
    split at h
    · cases h; exact ⟨G, wf_ret hi (by intro p hp; cases hp)⟩
    · cases h
  | .ret (some e), G, c, c', hi, hl, h => by
    obtain ⟨t, q, c1, o, s, c2, _, h1, h2, rfl⟩ := emitS_ret h
    obtain ⟨G1, e1, k1⟩ := wf_emitE _ _ _ _ _ hi h1
    obtain ⟨e2, k2⟩ := er_getRValue e1.inv k1 h2
    obtain ⟨e3, k3⟩ := er_convertTo e2.inv k2 s t
    exact ⟨G1, (((e1.trans e2).trans e3).toRes).trans (wf_ret e3.inv (by intro p hp; cases hp; exact k3))⟩

end
end Cmmc.Fe
