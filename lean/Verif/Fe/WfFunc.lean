import Verif.Fe.WfStmt
import Verif.Fe.FuncSim
import Verif.SSA.BlockElim
/-!
# Emitted functions are in SSA form

From the annotation (`Inv`) to the conditions on live code that BlockEliminate needs (`SSA.LiveWf`).
-/
namespace Cmmc.Fe
open Cmmc

/-! ## the whole function -/

theorem inv_ctx0 (gs : List Glob) : Inv ⟨fun _ _ => False, fun _ => False⟩ (ctx0 gs) where
  wf := wf_ctx0 gs
  tgt b t ht := by cases ht
  lpn p hp := by cases hp
  chk b _ _ := trivial
  phi b p _ _ hp := by cases hp
  idn b := List.nodup_nil
  idb b i hi := by cases hi
  idd b b' _ i hi := by cases hi
  av b _ i hi := hi.elim
  vars x q hq i hi := by
    simp only [ctx0, List.mem_map] at hq
    obtain ⟨g, _, rfl⟩ := hq
    cases hi
  ent := ⟨id, fun _ => id⟩

theorem lp_nil {G : Gh} {c : Ctx} (h : c.loops = []) : Lp G c := by
  rintro y ⟨p, hp, _⟩
  rw [h] at hp; cases hp

theorem er_emitParams : ∀ (ps : List (String × IT × Bool)) (i : Nat) (G : Gh) (c c' : Ctx), Inv G c → emitParams i ps c = some c' → ER G c G c'
  | [], i, G, c, c', hi, h => by
    rw [emitParams] at h; cases h; exact ER.refl hi
  | (x, t, cst) :: ps, i, G, c, c', hi, h => by
    obtain ⟨c1, h1, h2⟩ := emitParams_cons h
    have e1 := er_alloc hi 1
    have e2 := (er_op e1.inv (.store t.w.bits) (as := [.inst (2 * c.slots.length), .cst (.arg i)])
      (mem2 (okO_slot (fun j hj => by cases hj; exact slot_alloc c 1)) (okO_cst _ _ _))).1
    have e3 := er_addId (e1.trans e2).inv h1 (fun j hj => by cases hj; exact slot_alloc c 1)
    have e := (e1.trans e2).trans e3
    exact e.trans (er_emitParams ps (i + 1) G c1 c' e.inv h2)

theorem inv_emitFn {sigs : Sigs} {P : Wd} {gs : List Glob} {fn : Fn} {c : Ctx} (h : emitFn sigs P gs fn = some c) : ∃ G, Inv G c := by
  unfold emitFn at h
  split at h
  · obtain ⟨c1, h1, h2⟩ : ∃ c1, emitParams 0 fn.params (ctx0 gs) = some c1 ∧ emitS sigs P fn.ret fn.body c1 = some c := bind_some' h
    have e := er_emitParams _ _ _ _ _ (inv_ctx0 gs) h1
    obtain ⟨G', r⟩ := wf_emitS fn.body _ c1 c e.inv (lp_nil (by rw [e.sm.loops]; rfl)) h2
    exact ⟨G', r.inv⟩
  · cases h

/-! ## lists and blocks -/

theorem term_firstTerm (fb : SSA.Term Cst) : ∀ rs : List Raw, (splitTerm fb rs).2 = (firstTerm rs).getD fb
  | [] => rfl
  | .inst _ :: rs => term_firstTerm fb rs
  | .phi _ :: rs => term_firstTerm fb rs
  | .term _ :: _ => rfl

theorem ids_noPhi (fb : SSA.Term Cst) : ∀ rs : List Raw, (∀ r ∈ rs, r.isPhi = false) → (splitTerm fb rs).1.map SSA.Inst.id = idsT rs
  | [], _ => rfl
  | .inst i :: rs, h => by
    simp only [splitTerm, idsT, List.map_cons]
    rw [ids_noPhi fb rs (fun r hr => h r (by simp [hr]))]
  | .phi p :: rs, h => by
    have := h (.phi p) (by simp)
    cases this
  | .term _ :: _, _ => rfl

theorem leadPhis_noPhi : ∀ rs : List Raw, (∀ r ∈ rs, r.isPhi = false) → leadPhis rs = []
  | [], _ => rfl
  | .inst i :: rs, _ => rfl
  | .phi p :: rs, h => by
    have := h (.phi p) (by simp)
    cases this
  | .term _ :: _, _ => rfl

theorem ids_mkBlock (fb : SSA.Term Cst) {rs : List Raw} (h : PhiOk rs) : (mkBlock fb rs).ids = idsT rs := by
  unfold SSA.Block.ids mkBlock
  cases rs with
  | nil => rfl
  | cons r rs =>
    have h : ∀ r ∈ rs, r.isPhi = false := h
    cases r with
    | phi p =>
      simp only [leadPhis, splitTerm, idsT]
      rw [leadPhis_noPhi rs h, ids_noPhi fb rs h]; rfl
    | inst i =>
      simp only [leadPhis, splitTerm, idsT, List.map_nil, List.nil_append, List.map_cons]
      rw [ids_noPhi fb rs h]
    | term t => rfl

theorem leadPhis_mem : ∀ {rs : List Raw} {p : SSA.Phi Cst}, p ∈ leadPhis rs → Raw.phi p ∈ rs
  | [], _, h => by cases h
  | .inst i :: rs, _, h => by cases h
  | .phi p :: rs, q, h => by
    rcases List.mem_cons.1 h with rfl | h
    · simp
    · exact List.mem_cons_of_mem _ (leadPhis_mem h)
  | .term _ :: _, _, h => by cases h

theorem chk_mono {G : Gh} {n : Nat} : ∀ {S S' : Nat → Prop} {rs : List Raw}, (∀ i, S i → S' i) → chk G n S rs → chk G n S' rs := by
  intro S S' rs
  induction rs generalizing S S' with
  | nil => intros; trivial
  | cons r rs ih =>
    intro h hc
    cases r with
    | phi p => exact ih (fun i => Or.imp (h i) id) hc
    | inst j => exact ⟨fun x hx => (hc.1 x hx).imp id (h x), ih (fun i => Or.imp (h i) id) hc.2⟩
    | term t => exact ⟨fun x hx => (hc.1 x hx).imp id (h x), fun y hy => ⟨(hc.2 y hy).1, fun i hi => h i ((hc.2 y hy).2 i hi)⟩⟩

/-- operands of the instructions of a list -/
theorem chk_body {G : Gh} {n : Nat} (fb : SSA.Term Cst) : ∀ {rs : List Raw} {S : Nat → Prop}, (∀ r ∈ rs, r.isPhi = false) → chk G n S rs →
    ∀ pre i post, (splitTerm fb rs).1 = pre ++ i :: post → ∀ x, SSA.Opd.inst x ∈ i.args → slot n x ∨ S x ∨ x ∈ pre.map SSA.Inst.id := by
  intro rs
  induction rs with
  | nil => intro S _ _ pre i post h; simp [splitTerm] at h
  | cons r rs ih =>
    intro S hn hc pre i post h x hx
    have hn' : ∀ r ∈ rs, r.isPhi = false := fun r hr => hn r (by simp [hr])
    cases r with
    | phi p => have := hn (.phi p) (by simp); cases this
    | term t => simp [splitTerm] at h
    | inst j =>
      simp only [splitTerm] at h
      cases pre with
      | nil =>
        simp only [List.nil_append, List.cons.injEq] at h
        obtain ⟨rfl, _⟩ := h
        rcases hc.1 x hx with h | h
        · exact .inl h
        · exact .inr (.inl h)
      | cons k pre =>
        simp only [List.cons_append, List.cons.injEq] at h
        obtain ⟨rfl, h⟩ := h
        rcases ih hn' hc.2 pre i post h x hx with h | (h | h) | h
        · exact .inl h
        · exact .inr (.inl h)
        · exact .inr (.inr (by simp [h]))
        · exact .inr (.inr (by simp only [List.map_cons, List.mem_cons]; exact .inr h))

/-- operands and targets of the terminator -/
theorem chk_term {G : Gh} {n : Nat} : ∀ {rs : List Raw} {S : Nat → Prop} {t : SSA.Term Cst}, chk G n S rs → firstTerm rs = some t →
    (∀ x, SSA.Opd.inst x ∈ t.args → slot n x ∨ S x ∨ x ∈ idsT rs) ∧ ∀ y ∈ t.targets, ¬ G.D y ∧ ∀ i, G.A y i → S i ∨ i ∈ idsT rs := by
  intro rs
  induction rs with
  | nil => intro S t _ h; cases h
  | cons r rs ih =>
    intro S t hc h
    cases r with
    | term u =>
      simp only [firstTerm, Option.some.injEq] at h
      subst h
      refine ⟨fun x hx => ?_, fun y hy => ⟨(hc.2 y hy).1, fun i hi => .inl ((hc.2 y hy).2 i hi)⟩⟩
      rcases hc.1 x hx with h | h
      · exact .inl h
      · exact .inr (.inl h)
    | phi p =>
      obtain ⟨h1, h2⟩ := ih (t := t) hc h
      refine ⟨fun x hx => ?_, fun y hy => ⟨(h2 y hy).1, fun i hi => ?_⟩⟩
      · rcases h1 x hx with h | (h | h) | h
        · exact .inl h
        · exact .inr (.inl h)
        · exact .inr (.inr (by simp [idsT, h]))
        · exact .inr (.inr (by simp [idsT, h]))
      · rcases (h2 y hy).2 i hi with (h | h) | h
        · exact .inl h
        · exact .inr (by simp [idsT, h])
        · exact .inr (by simp [idsT, h])
    | inst j =>
      obtain ⟨h1, h2⟩ := ih (t := t) hc.2 h
      refine ⟨fun x hx => ?_, fun y hy => ⟨(h2 y hy).1, fun i hi => ?_⟩⟩
      · rcases h1 x hx with h | (h | h) | h
        · exact .inl h
        · exact .inr (.inl h)
        · exact .inr (.inr (by simp [idsT, h]))
        · exact .inr (.inr (by simp [idsT, h]))
      · rcases (h2 y hy).2 i hi with (h | h) | h
        · exact .inl h
        · exact .inr (by simp [idsT, h])
        · exact .inr (by simp [idsT, h])

theorem idsT_sublist : ∀ rs : List Raw, (idsT rs).Sublist (ids rs)
  | [] => .slnil
  | .inst i :: rs => (idsT_sublist rs).cons_cons _
  | .phi p :: rs => (idsT_sublist rs).cons_cons _
  | .term _ :: rs => List.nil_sublist _

/-! ## the slots -/

theorem allocas_mem {ss : List Int} {r : Raw} (h : r ∈ allocas ss) : ∃ k z, k < ss.length ∧ r = .inst ⟨2 * k, .alloca k z, []⟩ := by
  unfold allocas at h
  rw [List.mem_reverse, List.mem_map] at h
  obtain ⟨⟨z, k⟩, hp, rfl⟩ := h
  have := List.mem_zipIdx hp
  exact ⟨k, z, by omega, rfl⟩

theorem firstTerm_none {rs : List Raw} (h : ∀ r ∈ rs, ∃ i, r = .inst i) : firstTerm rs = none := by
  induction rs with
  | nil => rfl
  | cons r rs ih =>
    obtain ⟨i, rfl⟩ := h r (by simp)
    exact ih (fun r hr => h r (by simp [hr]))

theorem allocas_inst {ss : List Int} : ∀ r ∈ allocas ss, ∃ i, r = .inst i := by
  intro r hr
  obtain ⟨k, z, _, rfl⟩ := allocas_mem hr
  exact ⟨_, rfl⟩

theorem idsT_allocas (ss : List Int) : idsT (allocas ss) = ((List.range ss.length).map (fun k => 2 * k)).reverse := by
  rw [allocas_eq]
  have : ∀ l : List (Int × Nat), idsT (l.map (fun p => Raw.inst ⟨2 * p.2, .alloca p.2 p.1, []⟩)) = (l.map Prod.snd).map (fun k => 2 * k) := by
    intro l
    induction l with
    | nil => rfl
    | cons p l ih => simp [idsT, ih]
  rw [this, List.map_reverse, List.zipIdx_map_snd, List.map_reverse, List.range_eq_range']

theorem mem_idsT_allocas {ss : List Int} {x : Nat} : x ∈ idsT (allocas ss) ↔ slot ss.length x := by
  rw [idsT_allocas]
  simp only [List.mem_reverse, List.mem_map, List.mem_range, slot]
  constructor
  · rintro ⟨k, h, rfl⟩; exact ⟨k, h, rfl⟩
  · rintro ⟨k, h, rfl⟩; exact ⟨k, h, rfl⟩

theorem nodup_idsT_allocas (ss : List Int) : (idsT (allocas ss)).Nodup := by
  rw [idsT_allocas, List.nodup_reverse]
  exact List.nodup_range.map (fun a b h => by simpa using h)

theorem chk_allocas {G : Gh} {n : Nat} {S : Nat → Prop} : ∀ {rs : List Raw}, (∀ r ∈ rs, ∃ i, r = .inst i ∧ i.args = []) → chk G n S rs := by
  intro rs
  induction rs generalizing S with
  | nil => intro _; trivial
  | cons r rs ih =>
    intro h
    obtain ⟨i, rfl, hi⟩ := h r (by simp)
    exact ⟨fun x hx => (by rw [hi] at hx; cases hx), ih (fun r hr => h r (by simp [hr]))⟩

/-! ## the finished function -/

/-- the instruction list of block `b` -/
def Ctx.raws (c : Ctx) (b : Nat) : List Raw := if b = 0 then allocas c.slots ++ c.code 0 else c.code b

section
variable {G : Gh} {c : Ctx} {fn : Fn}

theorem finish_blk (b : Nat) (B : SSA.Block Op Cst) : (finish fn c).blk b = some B ↔ b < c.nb ∧ B = mkBlock (fallback fn) (c.raws b) := by
  unfold finish Ctx.full Ctx.raws
  simp only
  split
  · rename_i h; simp [h, eq_comm]
  · rename_i h; simp [h]

theorem Inv.phiOk (h : Inv G c) (b : Nat) : PhiOk (c.raws b) := by
  unfold Ctx.raws
  split
  · intro r hr
    have : r ∈ allocas c.slots ++ c.code 0 := List.mem_of_mem_tail hr
    rcases List.mem_append.1 this with h1 | h1
    · obtain ⟨i, rfl⟩ := allocas_inst r h1; rfl
    · exact h.wf.zero r h1
  · exact h.wf.phi b

theorem Inv.rawsT (h : Inv G c) (b : Nat) : idsT (c.raws b) = if b = 0 then idsT (allocas c.slots) ++ idsT (c.code 0) else idsT (c.code b) := by
  unfold Ctx.raws
  split
  · exact idsT_append_none _ (firstTerm_none allocas_inst)
  · rfl

theorem raws_firstTerm (c : Ctx) (b : Nat) : firstTerm (c.raws b) = firstTerm (c.code b) := by
  unfold Ctx.raws
  split
  · rename_i h; subst h; exact firstTerm_append_none _ (firstTerm_none allocas_inst)
  · rfl

theorem Inv.rawsChk (h : Inv G c) {b : Nat} (hb : b < c.nb) (hd : ¬ G.D b) : Fe.chk G c.slots.length (G.A b) (c.raws b) := by
  unfold Ctx.raws
  split
  · rename_i e
    subst e
    refine chk_append (chk_allocas (fun r hr => ?_)) (fun _ => chk_mono (fun i => Or.inl) (h.chk 0 hb hd))
    obtain ⟨k, z, _, rfl⟩ := allocas_mem hr
    exact ⟨_, rfl, rfl⟩
  · exact h.chk b hb hd

/-- the instructions of the blocks -/
theorem Inv.ids_blk (h : Inv G c) {b : Nat} {B : SSA.Block Op Cst} (hB : (finish fn c).blk b = some B) : B.ids = idsT (c.raws b) := by
  obtain ⟨_, rfl⟩ := (finish_blk b B).1 hB
  exact ids_mkBlock _ (h.phiOk b)

theorem Inv.defIn (h : Inv G c) {b i : Nat} : SSA.DefIn (finish fn c) i b ↔ b < c.nb ∧ i ∈ idsT (c.raws b) := by
  constructor
  · rintro ⟨B, hB, hi⟩
    rw [h.ids_blk hB] at hi
    exact ⟨((finish_blk b B).1 hB).1, hi⟩
  · rintro ⟨hb, hi⟩
    have hB := (finish_blk (fn := fn) (c := c) b _).2 ⟨hb, rfl⟩
    exact ⟨_, hB, by rw [h.ids_blk hB]; exact hi⟩

theorem Inv.odd (h : Inv G c) {b i : Nat} (hi : i ∈ idsT (c.code b)) : ∃ j < c.nv, i = 2 * j + 1 := h.idb b i (idsT_sub hi)

theorem Inv.nodup_raws (h : Inv G c) (b : Nat) : (idsT (c.raws b)).Nodup := by
  rw [h.rawsT]
  split
  · rw [List.nodup_append]
    refine ⟨nodup_idsT_allocas _, (h.idn 0).sublist (idsT_sublist _), ?_⟩
    intro x hx y hy e
    subst e
    obtain ⟨k, _, e1⟩ := mem_idsT_allocas.1 hx
    obtain ⟨j, _, e2⟩ := h.odd hy
    omega
  · exact (h.idn b).sublist (idsT_sublist _)

theorem Inv.disj_raws (h : Inv G c) {a b x : Nat} (ha : x ∈ idsT (c.raws a)) (hb : x ∈ idsT (c.raws b)) : a = b := by
  by_contra hne
  have key : ∀ a b, a ≠ b → x ∈ idsT (c.raws a) → x ∈ idsT (c.code b) → False := by
    intro a b hne ha hb
    rw [h.rawsT] at ha
    split at ha
    · rename_i e
      subst e
      rcases List.mem_append.1 ha with ha | ha
      · obtain ⟨k, _, e1⟩ := mem_idsT_allocas.1 ha
        obtain ⟨j, _, e2⟩ := h.odd hb
        omega
      · exact h.idd _ _ hne x (idsT_sub ha) (idsT_sub hb)
    · exact h.idd _ _ hne x (idsT_sub ha) (idsT_sub hb)
  by_cases hb0 : b = 0
  · have ha0 : a ≠ 0 := fun e => hne (e.trans hb0.symm)
    have ha' := ha
    rw [h.rawsT, if_neg ha0] at ha'
    exact key b a (Ne.symm hne) hb ha'
  · have hb' := hb
    rw [h.rawsT, if_neg hb0] at hb'
    exact key a b hne ha hb'

theorem Inv.edge (h : Inv G c) {a b : Nat} : SSA.Edge (finish fn c) a b ↔ a < c.nb ∧ ∃ t, firstTerm (c.code a) = some t ∧ b ∈ t.targets := by
  have hfb : ∀ y, y ∉ (fallback fn).targets := by
    intro y hy
    unfold fallback at hy
    split at hy <;> simp [SSA.Term.targets] at hy
  constructor
  · rintro ⟨B, hB, hb⟩
    obtain ⟨ha, rfl⟩ := (finish_blk a B).1 hB
    refine ⟨ha, ?_⟩
    have e : (mkBlock (fallback fn) (c.raws a)).term = (firstTerm (c.raws a)).getD (fallback fn) := term_firstTerm _ _
    rw [e, raws_firstTerm] at hb
    cases ht : firstTerm (c.code a) with
    | none => rw [ht] at hb; exact absurd hb (hfb b)
    | some t => rw [ht] at hb; exact ⟨t, rfl, hb⟩
  · rintro ⟨ha, t, ht, hb⟩
    refine ⟨_, (finish_blk (fn := fn) (c := c) a _).2 ⟨ha, rfl⟩, ?_⟩
    have e : (mkBlock (fallback fn) (c.raws a)).term = (firstTerm (c.raws a)).getD (fallback fn) := term_firstTerm _ _
    rw [e, raws_firstTerm, ht]
    exact hb

theorem Inv.tgt_lt (h : Inv G c) {a b : Nat} (e : SSA.Edge (finish fn c) a b) : b < c.nb := by
  obtain ⟨_, t, ht, hb⟩ := h.edge.1 e
  exact (h.tgt a t (firstTerm_mem ht) b hb).1

/-- what the annotation says about paths -/
theorem Inv.path (h : Inv G c) {a b : Nat} {p : List Nat} (hp : Dom.Path (SSA.Edge (finish fn c)) a b p) (ha : ¬ G.D a) :
    ¬ G.D b ∧ ∀ i, G.A b i → G.A a i ∨ ∃ d ∈ p, d < c.nb ∧ i ∈ idsT (c.raws d) := by
  induction hp with
  | single a => exact ⟨ha, fun i hi => .inl hi⟩
  | @cons a b e p he hp ih =>
    obtain ⟨hlt, t, ht, hb⟩ := h.edge.1 he
    obtain ⟨_, h2⟩ := chk_term (h.rawsChk hlt ha) (by rw [raws_firstTerm]; exact ht)
    obtain ⟨h3, h4⟩ := ih (h2 b hb).1
    refine ⟨h3, fun i hi => ?_⟩
    rcases h4 i hi with h5 | ⟨d, hd, h5⟩
    · rcases (h2 b hb).2 i h5 with h6 | h6
      · exact .inl h6
      · exact .inr ⟨a, by simp, hlt, h6⟩
    · exact .inr ⟨d, by simp [hd], h5⟩

theorem Inv.live (h : Inv G c) {b : Nat} (hb : SSA.Live (finish fn c) b) : ¬ G.D b := by
  obtain ⟨p, hp⟩ := hb
  exact (h.path hp h.ent.1).1

/-- an annotated instruction dominates the block -/
theorem Inv.domi (h : Inv G c) {b : Nat} (hb : SSA.Live (finish fn c) b) {i : Nat} (hi : G.A b i) :
    ∃ d, SSA.DefIn (finish fn c) i d ∧ SSA.Domi (finish fn c) d b := by
  obtain ⟨p, hp⟩ := hb
  have key : ∀ p, Dom.Path (SSA.Edge (finish fn c)) (finish fn c).entry b p → ∃ d ∈ p, d < c.nb ∧ i ∈ idsT (c.raws d) := by
    intro p hp
    rcases (h.path hp h.ent.1).2 i hi with h1 | h1
    · exact absurd h1 (h.ent.2 i)
    · exact h1
  obtain ⟨d, _, h1, h2⟩ := key p hp
  refine ⟨d, h.defIn.2 ⟨h1, h2⟩, fun p' hp' => ?_⟩
  obtain ⟨d', hd', _, h4⟩ := key p' hp'
  rw [h.disj_raws h2 h4]; exact hd'

theorem entry_domi {Op C : Type} (F : SSA.Func Op C) (b : Nat) : SSA.Domi F F.entry b := by
  intro p hp
  cases hp <;> simp

theorem Inv.slotDef (h : Inv G c) {x : Nat} (hs : slot c.slots.length x) : SSA.DefIn (finish fn c) x 0 :=
  h.defIn.2 ⟨h.nb_pos, by rw [h.rawsT, if_pos rfl]; exact List.mem_append_left _ (mem_idsT_allocas.2 hs)⟩

/-- operands of the body and the terminator -/
theorem Inv.operand (h : Inv G c) {b : Nat} {B : SSA.Block Op Cst} (hB : (finish fn c).blk b = some B) (hd : ¬ G.D b) :
    (∀ pre i post, B.body = pre ++ i :: post → ∀ x, SSA.Opd.inst x ∈ i.args →
      slot c.slots.length x ∧ (b = 0 → x ∈ pre.map SSA.Inst.id) ∨ G.A b x ∨ x ∈ B.phis.map SSA.Phi.id ∨ x ∈ pre.map SSA.Inst.id) ∧
    ∀ x, SSA.Opd.inst x ∈ B.term.args → slot c.slots.length x ∨ G.A b x ∨ x ∈ B.phis.map SSA.Phi.id ∨ x ∈ B.body.map SSA.Inst.id := by
  have hids := h.ids_blk hB
  obtain ⟨hb, rfl⟩ := (finish_blk b B).1 hB
  have hc := h.rawsChk hb hd
  constructor
  · intro pre i post he x hx
    by_cases h0 : b = 0
    · subst h0
      have hnp : ∀ r ∈ c.raws 0, r.isPhi = false := by
        intro r hr
        unfold Ctx.raws at hr
        rw [if_pos rfl] at hr
        rcases List.mem_append.1 hr with h1 | h1
        · obtain ⟨i, rfl⟩ := allocas_inst r h1; rfl
        · exact h.wf.zero r h1
      have hsplit : ∀ (ss rs : List Raw), (∀ r ∈ ss, ∃ i, r = .inst i ∧ i.args = []) → ∀ pre i post, (splitTerm (fallback fn) (ss ++ rs)).1 = pre ++ i :: post →
          ∀ x, SSA.Opd.inst x ∈ i.args → ∃ pre', pre.map SSA.Inst.id = idsT ss ++ pre' := by
        intro ss
        induction ss with
        | nil => intro rs _ pre i post _ x _; exact ⟨_, rfl⟩
        | cons r ss ih =>
          intro rs hss pre i post he x hx
          obtain ⟨j, rfl, hj⟩ := hss r (by simp)
          simp only [List.cons_append, splitTerm] at he
          cases pre with
          | nil =>
            simp only [List.nil_append, List.cons.injEq] at he
            obtain ⟨rfl, _⟩ := he
            rw [hj] at hx; cases hx
          | cons k pre =>
            simp only [List.cons_append, List.cons.injEq] at he
            obtain ⟨rfl, he⟩ := he
            obtain ⟨pre', h1⟩ := ih rs (fun r hr => hss r (by simp [hr])) pre i post he x hx
            exact ⟨pre', by simp [idsT, h1]⟩
      rcases chk_body (fallback fn) hnp hc pre i post he x hx with h1 | h1 | h1
      · left
        refine ⟨h1, fun _ => ?_⟩
        obtain ⟨pre', h2⟩ := hsplit (allocas c.slots) (c.code 0) (fun r hr => by
          obtain ⟨k, z, _, rfl⟩ := allocas_mem hr
          exact ⟨_, rfl, rfl⟩) pre i post (by have : c.raws 0 = allocas c.slots ++ c.code 0 := rfl; rw [← this]; exact he) x hx
        rw [h2]
        exact List.mem_append_left _ (mem_idsT_allocas.2 h1)
      · exact .inr (.inl h1)
      · exact .inr (.inr (.inr h1))
    · have hp := h.phiOk b
      revert hc hp he
      show Fe.chk _ _ _ _ → (splitTerm (fallback fn) (c.raws b)).1 = _ → _ → _ ∨ _ ∨ x ∈ (leadPhis (c.raws b)).map _ ∨ _
      generalize c.raws b = rs
      intro hc he hp
      cases rs with
      | nil => simp [splitTerm] at he
      | cons r rs =>
        have hp' : ∀ r ∈ rs, r.isPhi = false := hp
        cases r with
        | phi p =>
          rcases chk_body (fallback fn) hp' hc pre i post he x hx with h1 | (h1 | h1) | h1
          · exact .inl ⟨h1, fun e => absurd e h0⟩
          · exact .inr (.inl h1)
          · exact .inr (.inr (.inl (by simp [leadPhis, h1])))
          · exact .inr (.inr (.inr h1))
        | inst j =>
          rcases chk_body (fallback fn) (rs := .inst j :: rs) (by
            intro r hr
            rcases List.mem_cons.1 hr with rfl | hr
            · rfl
            · exact hp' r hr) hc pre i post he x hx with h1 | h1 | h1
          · exact .inl ⟨h1, fun e => absurd e h0⟩
          · exact .inr (.inl h1)
          · exact .inr (.inr (.inr h1))
        | term t => simp [splitTerm] at he
  · intro x hx
    have e : (mkBlock (fallback fn) (c.raws b)).term = (firstTerm (c.raws b)).getD (fallback fn) := term_firstTerm _ _
    rw [e] at hx
    cases ht : firstTerm (c.raws b) with
    | none =>
      rw [ht] at hx
      simp only [Option.getD_none] at hx
      unfold fallback at hx
      split at hx <;> simp [SSA.Term.args] at hx
    | some t =>
      rw [ht] at hx
      rcases (chk_term hc ht).1 x hx with h1 | h1 | h1
      · exact .inl h1
      · exact .inr (.inl h1)
      · right; right
        rw [← hids] at h1
        exact List.mem_append.1 h1

theorem Inv.avDef (h : Inv G c) {q x : Nat} (hq : q < c.nb) (hl : SSA.Live (finish fn c) q) (hx : slot c.slots.length x ∨ AvB G c q x) :
    ∃ d, SSA.DefIn (finish fn c) x d ∧ SSA.Domi (finish fn c) d q := by
  rcases hx with hx | hx | hx
  · exact ⟨0, h.slotDef hx, entry_domi _ _⟩
  · exact h.domi hl hx
  · refine ⟨q, h.defIn.2 ⟨hq, ?_⟩, fun p hp => SSA.path_end hp⟩
    rw [h.rawsT]
    split
    · rename_i e; subst e; exact List.mem_append_right _ hx
    · exact hx

/-- the phis of a live block -/
theorem Inv.phiC (h : Inv G c) {b : Nat} {B : SSA.Block Op Cst} (hB : (finish fn c).blk b = some B) (hb : SSA.Live (finish fn c) b)
    {p : SSA.Phi Cst} (hp : p ∈ B.phis) : PhiC G c b p := by
  obtain ⟨hlt, rfl⟩ := (finish_blk b B).1 hB
  have h1 : Raw.phi p ∈ c.raws b := leadPhis_mem hp
  unfold Ctx.raws at h1
  split at h1
  · rename_i e
    subst e
    rcases List.mem_append.1 h1 with h1 | h1
    · obtain ⟨i, hi⟩ := allocas_inst _ h1; cases hi
    · have := h.wf.zero _ h1; cases this
  · exact h.phi b p hlt (h.live hb) h1

/-- live code of an emitted function is in SSA form -/
theorem Inv.liveWf (h : Inv G c) : SSA.LiveWf (finish fn c) where
  nodup := List.nodup_range
  listed b B hB := List.mem_range.2 ((finish_blk b B).1 hB).1
  total b hb := ⟨_, (finish_blk (fn := fn) (c := c) b _).2 ⟨List.mem_range.1 hb, rfl⟩⟩
  entryIn := List.mem_range.2 h.nb_pos
  closed a b e := List.mem_range.2 (h.tgt_lt e)
  unique := by
    rw [SSA.allIds_eq]
    refine SSA.nodup_flatMap_of_disjoint List.nodup_range (fun b _ => ?_) (fun a _ b _ x ha hb => ?_)
    · cases hB : (finish fn c).blk b with
      | none => exact List.nodup_nil
      | some B => show B.ids.Nodup; rw [h.ids_blk hB]; exact h.nodup_raws b
    · cases hA : (finish fn c).blk a with
      | none => rw [hA] at ha; cases ha
      | some A =>
        cases hB : (finish fn c).blk b with
        | none => rw [hB] at hb; cases hb
        | some B =>
          rw [hA] at ha; rw [hB] at hb
          exact h.disj_raws (by rw [← h.ids_blk hA]; exact ha) (by rw [← h.ids_blk hB]; exact hb)
  entryPhis B hB := by
    obtain ⟨_, rfl⟩ := (finish_blk _ B).1 hB
    refine leadPhis_noPhi _ (fun r hr => ?_)
    have hr : r ∈ allocas c.slots ++ c.code 0 := hr
    rcases List.mem_append.1 hr with h1 | h1
    · obtain ⟨i, rfl⟩ := allocas_inst r h1; rfl
    · exact h.wf.zero r h1
  inOrder b B hB hb := by
    obtain ⟨h1, h2⟩ := h.operand hB (h.live hb)
    have hlt := ((finish_blk b B).1 hB).1
    have hA : ∀ x, G.A b x → x ∉ B.ids := by
      intro x hx hx'
      rw [h.ids_blk hB, h.rawsT] at hx'
      obtain ⟨⟨j, _, e⟩, h3⟩ := h.av b hlt x hx
      split at hx'
      · rename_i e0
        subst e0
        rcases List.mem_append.1 hx' with h4 | h4
        · obtain ⟨k, _, e2⟩ := mem_idsT_allocas.1 h4; omega
        · exact h3 (idsT_sub h4)
      · exact h3 (idsT_sub hx')
    have hS : ∀ x, b ≠ 0 → slot c.slots.length x → x ∉ B.ids := by
      intro x h0 hs hx'
      rw [h.ids_blk hB, h.rawsT, if_neg h0] at hx'
      obtain ⟨k, _, e1⟩ := hs
      obtain ⟨j, _, e2⟩ := h.odd hx'
      omega
    constructor
    · intro pre i post he x hx hxi
      rcases h1 pre i post he x hx with ⟨h3, h4⟩ | h3 | h3
      · by_cases h0 : b = 0
        · exact .inr (h4 h0)
        · exact absurd hxi (hS x h0 h3)
      · exact absurd hxi (hA x h3)
      · exact h3
    · intro x hx hxi
      exact List.mem_append.1 hxi
  use b B x hB hb hx := by
    obtain ⟨h1, h2⟩ := h.operand hB (h.live hb)
    have hlt := ((finish_blk b B).1 hB).1
    have hin : x ∈ B.ids → ∃ d, SSA.DefIn (finish fn c) x d ∧ SSA.Domi (finish fn c) d b := fun hi => ⟨b, ⟨B, hB, hi⟩, fun p hp => SSA.path_end hp⟩
    have hall : slot c.slots.length x ∨ G.A b x ∨ x ∈ B.ids := by
      rcases hx with ⟨i, hi, hx⟩ | hx
      · obtain ⟨pre, post, he⟩ := List.append_of_mem hi
        rcases h1 pre i post he x hx with h3 | h3 | h3 | h3
        · exact .inl h3.1
        · exact .inr (.inl h3)
        · exact .inr (.inr (List.mem_append_left _ h3))
        · refine .inr (.inr (List.mem_append_right _ ?_))
          rw [he, List.map_append]; exact List.mem_append_left _ h3
      · rcases h2 x hx with h3 | h3 | h3
        · exact .inl h3
        · exact .inr (.inl h3)
        · exact .inr (.inr (List.mem_append.2 h3))
    rcases hall with h3 | h3 | h3
    · exact ⟨0, h.slotDef h3, entry_domi _ _⟩
    · exact h.domi hb h3
    · exact hin h3
  phiUse b B p q x hB hb hp hq hql := by
    obtain ⟨h1, _, _, h3⟩ := (h.phiC hB hb hp).src q _ hq
    exact h.avDef h1 hql (h3 x rfl)
  phiPred b B p hB hb hp q v hq := by
    obtain ⟨h1, _, h2, _⟩ := (h.phiC hB hb hp).src q _ hq
    exact h.edge.2 ⟨h1, h2⟩
  phiAll b B p q hB hb hp he _ := by
    obtain ⟨_, t, ht, hm⟩ := h.edge.1 he
    exact (h.phiC hB hb hp).all q t (firstTerm_mem ht) hm
  phiDead b B p p' q v hB hb hp hp' hq := by
    obtain ⟨_, _, ⟨t, ht, hm⟩, _⟩ := (h.phiC hB hb hp).src q _ hq
    exact (h.phiC hB hb hp').all q t (firstTerm_mem ht) hm

end
end Cmmc.Fe
