import Verif.SSA.ToSelectRun
/-!
# Branch2Select: the pass
-/
namespace Cmmc.SSA
section
variable {L : Lang} {P : B2S L.Op L.C} {slot : L.V → L.M → Prop} {ar : L.Op → Nat}

/-- registers the two runs may disagree on -/
def selK (A : L.B) (sels : List (Inst L.Op L.C)) (x : Nat) : Prop := x ∈ A.body.map Inst.id ∨ x ∈ sels.map Inst.id

structure SelRel (P : B2S L.Op L.C) (slot : L.V → L.M → Prop) (F : L.F) (s a b : Nat) (A B : L.B) (ps : List (Phi L.C)) (sels : List (Inst L.Op L.C)) (x x' : St L) : Prop where
  cur : x'.cur = x.cur
  ne : x.cur ≠ a
  env : AgreeK (selK A sels) x.env x'.env
  m : x'.m = x.m
  tr : x'.tr = x.tr
  filled : Filled F x
  slots : SlotsAt P slot F x.env x.m
  pred : (x.pred = none ∧ x'.pred = none ∧ x.cur = F.entry) ∨ (∃ q, x.pred = some q ∧ x'.pred = some q ∧ Edge F q x.cur ∧ q ≠ a ∧ ¬ (q = s ∧ x.cur = b)) ∨
    (x.cur = b ∧ x'.pred = some a ∧ List.Forall₂ (fun p p' => p'.id = p.id ∧ phiVal L (some a) x'.env p' = phiVal L x.pred x.env p) B.phis ps)

variable {F : L.F} {s a b : Nat} {S A B : L.B} {c : Opd L.C} {onTrue : Bool} {ps : List (Phi L.C)} {sels : List (Inst L.Op L.C)}

theorem SelStep.bodyDef (T : SelStep P F s a b S A B c onTrue ps sels) {x : Nat} (hx : x ∈ A.body.map Inst.id) : DefIn F x a := ⟨A, T.hA, List.mem_append_right _ hx⟩

/-- uses of the new or moved registers -/
theorem SelStep.useK (T : SelStep P F s a b S A B c onTrue ps sels) (W : LiveWf F) (E : EntryFirst F) {y : Nat} {Y : L.B} (hY : F.blk y = some Y) (hl : Live F y) (hne : y ≠ a) {x : Nat} (hk : selK A sels x) :
    ¬ ((∃ i ∈ Y.body, Opd.inst x ∈ i.args) ∨ Opd.inst x ∈ Y.term.args) := by
  intro hu
  rcases hk with hk | hk
  · obtain ⟨d, hd, hdom⟩ := W.use y Y x hY hl hu
    have := defIn_unique W.listed W.unique hd (T.bodyDef hk)
    subst this
    exact hne (T.domiA E hl hdom)
  · obtain ⟨i, hi, rfl⟩ := List.mem_map.1 hk
    refine (T.fresh i hi y Y hY).1 (mem_opds_use hu)

theorem SelStep.phiK (T : SelStep P F s a b S A B c onTrue ps sels) (W : LiveWf F) (E : EntryFirst F) {y : Nat} {Y : L.B} (hY : F.blk y = some Y) (hl : Live F y) {p : Phi L.C} (hp : p ∈ Y.phis) {q : Nat} (hql : Live F q) (hqa : q ≠ a)
    {x : Nat} (hk : selK A sels x) : (q, Opd.inst x) ∉ p.inc := by
  intro hu
  rcases hk with hk | hk
  · obtain ⟨d, hd, hdom⟩ := W.phiUse y Y p q x hY hl hp hu hql
    have := defIn_unique W.listed W.unique hd (T.bodyDef hk)
    subst this
    exact hqa (T.domiA E hql hdom)
  · obtain ⟨i, hi, rfl⟩ := List.mem_map.1 hk
    exact (T.fresh i hi y Y hY).1 (mem_opds_phi hp hu)

theorem SelStep.enter (T : SelStep P F s a b S A B c onTrue ps sels) (W : LiveWf F) (E : EntryFirst F) {x x' : St L} (R : SelRel P slot F s a b A B ps sels x x') {X : L.B} (hX : F.blk x.cur = some X)
    {env : Env L} (he : enterPhis L x.pred x.env X.phis x.env = some env) :
    ∃ env', enterPhis L x'.pred x'.env (if x.cur = b then ps else X.phis) x'.env = some env' ∧ AgreeK (selK A sels) env env' := by
  have hl := R.filled.live
  rcases R.pred with ⟨h1, h2, h3⟩ | ⟨q, h1, h2, h3, hqa, hqs⟩ | ⟨hcb, h2, hf⟩
  · have hb : x.cur ≠ b := fun h => E a (by rw [← h3, h]; exact T.eab)
    rw [if_neg hb]
    rw [h3] at hX
    rw [W.entryPhis X hX] at he ⊢
    simp only [enterPhis, Option.some.injEq] at he
    subst he
    exact ⟨x'.env, rfl, R.env⟩
  · have hql : Live F q := by
      have := R.filled
      unfold Filled at this
      rw [h1] at this
      exact this.1
    have same : ∀ p ∈ X.phis, ∀ v, phiVal L (some q) x.env p = some v → phiVal L (some q) x'.env p = some v := by
      intro p hp v hv
      simp only [phiVal] at hv ⊢
      cases ha : p.at q with
      | none => rw [ha] at hv; cases hv
      | some o =>
        rw [ha] at hv
        dsimp only at hv ⊢
        rw [R.env.eval ?_, hv]
        rintro y hy rfl
        exact T.phiK W E hX hl hp hql hqa hy (Phi.at_mem ha)
    rw [h1] at he
    rw [h2]
    have hrel : List.Forall₂ (fun p p' => p'.id = p.id ∧ ∀ v, phiVal L (some q) x.env p = some v → phiVal L (some q) x'.env p' = some v) X.phis (if x.cur = b then ps else X.phis) := by
      split
      · rename_i hcb
        have hqs' : q ≠ s := fun h => hqs ⟨h, hcb⟩
        have : X = B := by rw [hcb, T.hB] at hX; exact (Option.some.inj hX).symm
        subst this
        have key : ∀ {l l' : List (Phi L.C)} {is : List (Inst L.Op L.C)}, SelPhis P s a c onTrue l l' is → (∀ p ∈ l, p ∈ X.phis) → List.Forall₂ (fun p p' => p'.id = p.id ∧ ∀ v, phiVal L (some q) x.env p = some v → phiVal L (some q) x'.env p' = some v) l l' := by
          intro l l' is h
          induction h with
          | nil => intro _; exact .nil
          | @cons p p' i va vs l l' is hp _ ih =>
            intro hl
            refine .cons ⟨hp.id, fun v hv => ?_⟩ (ih (fun p hp => hl p (by simp [hp])))
            have := same p (hl p (by simp)) v hv
            simp only [phiVal] at this ⊢
            rw [hp.old q hqs' hqa]
            exact this
        exact key T.phis (fun p hp => hp)
      · have : ∀ {l : List (Phi L.C)}, (∀ p ∈ l, p ∈ X.phis) → List.Forall₂ (fun p p' => p'.id = p.id ∧ ∀ v, phiVal L (some q) x.env p = some v → phiVal L (some q) x'.env p' = some v) l l := by
          intro l
          induction l with
          | nil => intro _; exact .nil
          | cons p l ih => intro h; exact .cons ⟨rfl, same p (h p (by simp))⟩ (ih (fun x hx => h x (by simp [hx])))
        exact this (fun p hp => hp)
    obtain ⟨env', h6, h7⟩ := enterPhis_agree hrel R.env he
    exact ⟨env', h6, h7.mono (fun _ h => h.1)⟩
  · rw [if_pos hcb, h2]
    have : X = B := by rw [hcb, T.hB] at hX; exact (Option.some.inj hX).symm
    subst this
    obtain ⟨env', h6, h7⟩ := enterPhis_agree (forall₂_imp (fun p p' h => ⟨h.1, fun v hv => h.2.trans hv⟩) hf) R.env he
    exact ⟨env', h6, h7.mono (fun _ h => h.1)⟩

/-- `A` with the selects, entered from `S`: computes the entries of the phis of `B` -/
theorem SelStep.runA (T : SelStep P F s a b S A B c onTrue ps sels) (HL : B2SLang L P slot ar) (W : LiveWf F) (E : EntryFirst F) (har : Arity ar F) (hls : Live F s) {e e' : Env L} {m : L.M} {es : List L.E} {cv : L.V} {t : Bool}
    (hfill : ∀ x d, DefIn F x d → Domi F d s → e x ≠ none) (hsl : SlotsAt P slot F e m) (hag : AgreeK (selK A sels) e e') (hc : eval L e c = some cv) (ht : L.truth cv = some t) :
    ∃ e1 e2', execBody L A.body e m es = .ok e1 m es ∧ execBody L (A.body ++ sels) e' m es = .ok e2' m es ∧ AgreeK (selK A sels) e e2' ∧ AgreeK (selK A sels) e1 e2' ∧
      List.Forall₂ (fun p p' => p'.id = p.id ∧ phiVal L (some a) e2' p' = if t = onTrue then phiVal L (some a) e1 p else phiVal L (some s) e p) B.phis ps := by
  have hla : Live F a := hls.edge T.esa
  have hlb : Live F b := hls.edge T.esb
  have hO := W.inOrder a A T.hA hla
  -- operands of the code of `A`
  have huse : ∀ pre i post, A.body = pre ++ i :: post → ∀ x, Opd.inst x ∈ i.args → x ∈ pre.map Inst.id ∨ (x ∉ A.ids ∧ ∃ d, DefIn F x d ∧ Domi F d s) := by
    intro pre i post hsp x hx
    by_cases hxin : x ∈ A.ids
    · rcases hO.1 pre i post hsp x hx hxin with h | h
      · rw [T.aphis] at h; cases h
      · exact .inl h
    · obtain ⟨d, hd, hdom⟩ := W.use a A x T.hA hla (.inl ⟨i, by rw [hsp]; simp, hx⟩)
      refine .inr ⟨hxin, d, hd, T.domS hdom ?_⟩
      rintro rfl
      obtain ⟨A', hA', hm⟩ := hd
      rw [T.hA] at hA'; cases hA'
      exact hxin hm
  have hnotK : ∀ x d, DefIn F x d → Domi F d s → ¬ selK A sels x := by
    rintro x d hd hdom (hk | hk)
    · have := defIn_unique W.listed W.unique hd (T.bodyDef hk)
      subst this
      exact T.notDom E hls hdom
    · obtain ⟨i, hi, rfl⟩ := List.mem_map.1 hk
      obtain ⟨D, hD, hm⟩ := hd
      exact (T.fresh i hi d D hD).2 hm
  have hslK : ∀ x, F.isSlot P x = true → ¬ selK A sels x := by
    rintro x hx (hk | hk)
    · obtain ⟨i, hi, rfl⟩ := List.mem_map.1 hk
      obtain ⟨b', B', j, hB', hj, h1, h2⟩ := (isSlot_iff W.toShape).1 hx
      have := W.toShape.inst_unique hB' T.hA hj hi h1
      subst this
      have hno := T.ok _ hi
      unfold B2S.instOk at hno
      split at hno
      · rename_i hld
        rw [HL.loadNot _ hld] at h2
        cases h2
      · rw [h2] at hno
        simp at hno
    · obtain ⟨i, hi, rfl⟩ := List.mem_map.1 hk
      obtain ⟨b', B', j, hB', hj, h1, h2⟩ := (isSlot_iff W.toShape).1 hx
      refine (T.fresh i hi b' B' hB').2 ?_
      rw [← h1]
      exact List.mem_append_right _ (List.mem_map.2 ⟨j, hj, rfl⟩)
  have hsl' : SlotsAt P slot F e' m := by
    intro x v hx hv
    rw [← hag x (hslK x hx)] at hv
    exact hsl x v hx hv
  have hu1 : ∀ pre i post, A.body = pre ++ i :: post → ∀ x, Opd.inst x ∈ i.args → e x ≠ none ∨ x ∈ pre.map Inst.id := by
    intro pre i post hsp x hx
    rcases huse pre i post hsp x hx with h | ⟨_, d, hd, hdom⟩
    · exact .inr h
    · exact .inl (hfill x d hd hdom)
  have hu2 : ∀ pre i post, A.body = pre ++ i :: post → ∀ x, Opd.inst x ∈ i.args → e' x ≠ none ∨ x ∈ pre.map Inst.id := by
    intro pre i post hsp x hx
    rcases huse pre i post hsp x hx with h | ⟨_, d, hd, hdom⟩
    · exact .inr h
    · left
      rw [← hag x (hnotK x d hd hdom)]
      exact hfill x d hd hdom
  obtain ⟨e1, hb1⟩ := spec_body HL W.toShape T.hA T.ok har (fun i hi => hi) (es := es) hu1 hsl
  obtain ⟨e1', hb1'⟩ := spec_body HL W.toShape T.hA T.ok har (fun i hi => hi) (es := es) hu2 hsl'
  have hag1 : AgreeK (fun x => selK A sels x ∧ x ∉ A.body.map Inst.id) e1 e1' := body_agree hag (by
    intro pre i post hsp x hk hx
    rcases huse pre i post hsp x hx with h | ⟨_, d, hd, hdom⟩
    · exact h
    · exact absurd hk (hnotK x d hd hdom)) hb1 hb1'
  have hoff : ∀ x, x ∉ A.body.map Inst.id → e1 x = e x := execBody_other hb1
  have hoff' : ∀ x, x ∉ A.body.map Inst.id → e1' x = e' x := execBody_other hb1'
  -- the operands of the selects
  have hcK : ∀ x, c = .inst x → ∃ d, DefIn F x d ∧ Domi F d s := by
    rintro x rfl
    exact W.use s S x T.hS hls (.inr (by rw [T.sterm]; simp [Term.args]))
  have evs : ∀ o, (∀ x, o = .inst x → ∃ d, DefIn F x d ∧ Domi F d s) → eval L e1' o = eval L e o ∧ eval L e o ≠ none := by
    intro o ho
    cases o with
    | cst k => exact ⟨rfl, by simp [eval]⟩
    | inst x =>
      obtain ⟨d, hd, hdom⟩ := ho x rfl
      have hk := hnotK x d hd hdom
      refine ⟨?_, hfill x d hd hdom⟩
      show e1' x = e x
      rw [hoff' x (fun h => hk (.inl h)), hag x hk]
  have hva : ∀ p ∈ B.phis, ∀ o, p.at a = some o → eval L e1' o = eval L e1 o ∧ eval L e1 o ≠ none := by
    intro p hp o ho
    cases o with
    | cst k => exact ⟨rfl, by simp [eval]⟩
    | inst x =>
      have hm := Phi.at_mem ho
      obtain ⟨d, hd, hdom⟩ := W.phiUse b B p a x T.hB hlb hp hm hla
      have hns : x ∉ sels.map Inst.id := by
        intro h
        obtain ⟨i, hi, rfl⟩ := List.mem_map.1 h
        exact (T.fresh i hi b B T.hB).1 (mem_opds_phi hp hm)
      refine ⟨(hag1 x (by rintro ⟨h | h, h'⟩; exacts [h' h, hns h])).symm, ?_⟩
      show e1 x ≠ none
      by_cases hda : d = a
      · subst hda
        obtain ⟨A', hA', hxm⟩ := hd
        rw [T.hA] at hA'; cases hA'
        unfold Block.ids at hxm
        rw [T.aphis, List.map_nil, List.nil_append] at hxm
        obtain ⟨i, hi, rfl⟩ := List.mem_map.1 hxm
        exact (execBody_keeps hb1).2 i hi
      · exact (execBody_keeps hb1).1 x (hfill x d hd (T.domS hdom hda))
  have hvs : ∀ p ∈ B.phis, ∀ o, p.at s = some o → eval L e1' o = eval L e o ∧ eval L e o ≠ none := by
    intro p hp o ho
    refine evs o ?_
    rintro x rfl
    exact W.phiUse b B p s x T.hB hlb hp (Phi.at_mem ho) hls
  obtain ⟨e2', k1, k2, k3⟩ := sel_run HL ht T.phis (e := e1') (m := m) (es := es) (by rw [(evs c hcK).1]; exact hc) (by
    intro p hp o _ ho
    rcases ho with ho | ho
    · rw [(hva p hp o ho).1]; exact (hva p hp o ho).2
    · rw [(hvs p hp o ho).1]; exact (hvs p hp o ho).2) (by
    intro x hx
    obtain ⟨i, hi, rfl⟩ := List.mem_map.1 hx
    refine ⟨?_, ?_⟩
    · intro h
      refine (T.fresh i hi s S T.hS).1 (mem_opds_use (.inr ?_))
      rw [T.sterm, h]; simp [Term.args]
    · intro p hp q hq
      exact (T.fresh i hi b B T.hB).1 (mem_opds_phi hp hq)) T.nodup
  refine ⟨e1, e2', hb1, ?_, ?_, ?_, ?_⟩
  · rw [execBody_append, hb1']
    exact k1
  · intro x hx
    rw [k2 x (fun h => hx (.inr h)), hoff' x (fun h => hx (.inl h)), hag x hx]
  · intro x hx
    rw [k2 x (fun h => hx (.inr h))]
    exact hag1 x (fun h => hx h.1)
  · have key : ∀ {l l' : List (Phi L.C)}, List.Forall₂ (fun p p' => p'.id = p.id ∧ ∃ (i : Inst L.Op L.C) (va vs : Opd L.C), SelPhi P s a c onTrue p p' i va vs ∧ e2' i.id = eval L e1' (if t = onTrue then va else vs)) l l' →
        (∀ p ∈ l, p ∈ B.phis) → List.Forall₂ (fun p p' => p'.id = p.id ∧ phiVal L (some a) e2' p' = if t = onTrue then phiVal L (some a) e1 p else phiVal L (some s) e p) l l' := by
      intro l l' h
      induction h with
      | nil => intro _; exact .nil
      | @cons p p' l l' h _ ih =>
        intro hl
        obtain ⟨h0, i, va, vs, hp, h1⟩ := h
        refine .cons ⟨h0, ?_⟩ (ih (fun p hp => hl p (by simp [hp])))
        have hpB := hl p (by simp)
        have : phiVal L (some a) e2' p' = e2' i.id := by simp only [phiVal]; rw [hp.new]; rfl
        rw [this, h1]
        by_cases htt : t = onTrue
        · rw [if_pos htt, if_pos htt, (hva p hpB va hp.pa).1]
          simp only [phiVal]; rw [hp.pa]
        · rw [if_neg htt, if_neg htt, (hvs p hpB vs hp.ps).1]
          simp only [phiVal]; rw [hp.ps]
    exact key k3 (fun p hp => hp)

theorem SelStep.sim (T : SelStep P F s a b S A B c onTrue ps sels) (HL : B2SLang L P slot ar) (W : LiveWf F) (E : EntryFirst F) (har : Arity ar F) :
    Simulation F (selTo F s a b ps sels) (SelRel P slot F s a b A B ps sels) := by
  intro x x' R
  refine ⟨R.tr.symm, ?_⟩
  cases hX : F.blk x.cur with
  | none => exact .inl ⟨1, by rw [run_one]; unfold step; rw [hX]⟩
  | some X =>
    have hl := R.filled.live
    have hX' := selTo_blk' (s := s) (a := a) (b := b) (ps := ps) (sels := sels) hX
    rw [if_neg R.ne] at hX'
    have hF : step L F x = stepBlk L X x := by unfold step; rw [hX]
    have hG : step L (selTo F s a b ps sels) x' = stepBlk L ⟨if x.cur = b then ps else X.phis, X.body, if x.cur = s then .br a else X.term⟩ x' := by unfold step; rw [R.cur, hX']
    have hstep := hF
    rw [stepBlk_go] at hF hG
    cases he : enterPhis L x.pred x.env X.phis x.env with
    | none => rw [he] at hF; exact .inl ⟨1, by rw [run_one, hF]⟩
    | some env =>
      obtain ⟨env', he', hag⟩ := T.enter W E R hX he
      rw [he] at hF
      rw [he'] at hG
      dsimp only at hF hG
      rw [R.m, R.tr] at hG
      have hbr := AgreeK.body (is := X.body) (e := env) (e' := env') (m := x.m) (es := x.tr) (fun i hi y hy hm => T.useK W E hX hl R.ne hy (.inl ⟨i, hi, hm⟩)) hag
      unfold goBlk at hF hG
      cases hb : execBody L X.body env x.m x.tr with
      | ub => rw [hb] at hF; exact .inl ⟨1, by rw [run_one, hF]⟩
      | halt es h =>
        rw [hb] at hF hbr
        rw [hbr] at hG
        exact .inr (.inl ⟨1, 1, _, by rw [run_one, hF], by rw [run_one, hG]⟩)
      | ok env1 m1 es1 =>
        rw [hb] at hF hbr
        obtain ⟨env1', hb', hag1⟩ := hbr
        rw [hb'] at hG
        dsimp only at hF hG
        by_cases hcs : x.cur = s
        · -- the conditional branch
          rw [if_pos hcs] at hG
          have hXS : X = S := by rw [hcs, T.hS] at hX; exact (Option.some.inj hX).symm
          subst hXS
          rw [T.sterm] at hF
          simp only [evalTerm] at hF hG
          cases hcv : (eval L env1 c).bind L.truth with
          | none => rw [hcv] at hF; exact .inl ⟨1, by rw [run_one, hF]⟩
          | some t =>
            obtain ⟨cv, hc, ht⟩ := Option.bind_eq_some_iff.1 hcv
            rw [hcv] at hF
            have hF' : step L F x = .inl ⟨some x.cur, if t = onTrue then a else b, env1, m1, es1⟩ := by
              rw [hF]
              cases t <;> cases onTrue <;> rfl
            have hfl := R.filled.step hF'
            have hslots := R.slots.step HL W.toShape hF'
            have hfill : ∀ y d, DefIn F y d → Domi F d s → env1 y ≠ none := by
              unfold Filled at hfl
              dsimp only at hfl
              rw [hcs] at hfl
              exact hfl.2.2
            obtain ⟨e1, e2', j1, j2, j3, j4, j5⟩ := T.runA HL W E har (hcs ▸ hl) (es := es1) hfill hslots hag1 hc ht
            have hG2 : step L (selTo F s a b ps sels) ⟨some x'.cur, a, env1', m1, es1⟩ = .inl ⟨some a, b, e2', m1, es1⟩ := by
              unfold step
              dsimp only
              rw [selTo_blk' T.hA]
              dsimp only
              rw [stepBlk_go]
              dsimp only
              rw [if_neg T.ab, if_pos rfl, if_neg (Ne.symm T.sa), T.aphis]
              simp only [enterPhis]
              unfold goBlk
              rw [j2]
              dsimp only
              rw [T.aterm]
              rfl
            have hGrun : run L (selTo F s a b ps sels) (1 + 1) x' = .inl ⟨some a, b, e2', m1, es1⟩ := by
              rw [run_add, run_one, hG]
              dsimp only
              rw [run_one, hG2]
            by_cases htt : t = onTrue
            · rw [if_pos htt] at hF' hfl hslots
              have hF2 : step L F ⟨some x.cur, a, env1, m1, es1⟩ = .inl ⟨some a, b, e1, m1, es1⟩ := by
                unfold step
                dsimp only
                rw [T.hA]
                dsimp only
                rw [stepBlk_go]
                dsimp only
                rw [T.aphis]
                simp only [enterPhis]
                unfold goBlk
                rw [j1]
                dsimp only
                rw [T.aterm]
                rfl
              have hFrun : run L F (1 + 1) x = .inl ⟨some a, b, e1, m1, es1⟩ := by
                rw [run_add, run_one, hF']
                dsimp only
                rw [run_one, hF2]
              refine .inr (.inr ⟨1, 1, _, _, hFrun, hGrun, ?_⟩)
              refine ⟨rfl, Ne.symm T.ab, j4, rfl, rfl, hfl.step hF2, hslots.step HL W.toShape hF2, .inr (.inr ⟨rfl, rfl, ?_⟩)⟩
              refine forall₂_imp (fun p p' h => ⟨h.1, ?_⟩) j5
              rw [h.2, if_pos htt]
            · rw [if_neg htt] at hF' hfl hslots
              refine .inr (.inr ⟨0, 1, _, _, by rw [run_one, hF'], hGrun, ?_⟩)
              refine ⟨rfl, Ne.symm T.ab, j3, rfl, rfl, hfl, hslots, .inr (.inr ⟨rfl, rfl, ?_⟩)⟩
              refine forall₂_imp (fun p p' h => ⟨h.1, ?_⟩) j5
              rw [h.2, if_neg htt]
              dsimp only
              rw [hcs]
        · rw [if_neg hcs, hag1.term (fun y hy hm => T.useK W E hX hl R.ne hy (.inr hm))] at hG
          cases ht : evalTerm L env1 X.term with
          | ub => rw [ht] at hF; exact .inl ⟨1, by rw [run_one, hF]⟩
          | ret v => rw [ht] at hF hG; exact .inr (.inl ⟨1, 1, _, by rw [run_one, hF], by rw [run_one, hG]⟩)
          | goto d =>
            rw [ht] at hF hG
            dsimp only at hF hG
            have e1 : Edge F x.cur d := ⟨X, hX, evalTerm_targets ht⟩
            have hda : d ≠ a := by
              rintro rfl
              exact hcs (T.preds _ e1)
            refine .inr (.inr ⟨0, 0, _, _, by rw [run_one, hF], by rw [run_one, hG], ?_⟩)
            exact ⟨rfl, hda, hag1, rfl, rfl, R.filled.step hF, R.slots.step HL W.toShape hF, .inr (.inl ⟨x.cur, rfl, by rw [R.cur], e1, R.ne, fun h => hcs h.1⟩)⟩

theorem SelStep.refines (T : SelStep P F s a b S A B c onTrue ps sels) (HL : B2SLang L P slot ar) (W : LiveWf F) (E : EntryFirst F) (har : Arity ar F) : Refines L F (selTo F s a b ps sels) :=
  (T.sim HL W E har).refines (fun m => ⟨rfl, fun h => E s (by have h : F.entry = a := h; rw [h]; exact T.esa), fun _ _ => rfl, rfl, rfl, filled_start m, (fun x v _ hv => nomatch hv), .inl ⟨rfl, rfl, rfl⟩⟩)

theorem SelStep.arity (T : SelStep P F s a b S A B c onTrue ps sels) (HL : B2SLang L P slot ar) (har : Arity ar F) : Arity ar (selTo F s a b ps sels) := by
  intro x X' i hX' hi
  obtain ⟨X, hX, rfl⟩ := selTo_blk hX'
  dsimp only at hi
  split at hi
  · rcases List.mem_append.1 hi with hi | hi
    · exact har x X i hX hi
    · obtain ⟨p, _, p', _, va, vs, hs⟩ := T.phis.sel hi
      rw [hs.args, hs.op, HL.selAr]; rfl
  · exact har x X i hX hi

theorem SelStep.complete (T : SelStep P F s a b S A B c onTrue ps sels) (h : PhiComplete F) : PhiComplete (selTo F s a b ps sels) := by
  intro x X' p' q hX' hp' he
  obtain ⟨X, hX, rfl⟩ := selTo_blk hX'
  obtain ⟨he0, hn⟩ := T.edge.1 he
  dsimp only at hp'
  split at hp'
  · rename_i hb
    subst hb
    have := T.hB.symm.trans hX
    cases this
    obtain ⟨p, hp, i, hi, va, vs, hs⟩ := T.phis.right hp'
    by_cases hqa : q = a
    · exact ⟨.inst i.id, (hs.inc q _).2 (.inr ⟨hqa, rfl⟩)⟩
    · obtain ⟨v, hv⟩ := h x _ p q hX hp he0
      exact ⟨v, (hs.inc q v).2 (.inl ⟨hv, fun h => hn ⟨h, rfl⟩, hqa⟩)⟩
  · exact h x X p' q hX hp' he0

theorem toSelectAt_ex (F : L.F) (hc : PhiComplete F) {preds : Nat → List Nat} (hp : ∀ q b, q ∈ preds b → ∃ B, F.blk q = some B) (a : Nat) : ∃ G, toSelectAt P preds F a = some G := by
  unfold toSelectAt
  split
  · exact ⟨_, rfl⟩
  rename_i A hA
  split
  · rename_i b s hcf hps
    split
    · rename_i S B hS hB
      split
      · exact ⟨_, rfl⟩
      rename_i c onTrue hbr
      split
      · exact ⟨_, rfl⟩
      have hAt : A.term = .br b := by
        unfold B2S.canFold at hcf
        split at hcf
        · rename_i b' hb'
          split at hcf
          · cases hcf; exact hb'
          · cases hcf
        · cases hcf
      have hSt : b ∈ S.term.targets := by
        unfold branchesTo at hbr
        split at hbr
        · rename_i c' t f ht
          rw [ht]
          split at hbr
          · rename_i h; simp [Term.targets, h.2]
          · split at hbr
            · rename_i h; simp [Term.targets, h.1]
            · cases hbr
        · cases hbr
      have e1 : Edge F a b := ⟨A, hA, by rw [hAt]; simp [Term.targets]⟩
      have e2 : Edge F s b := ⟨S, hS, hSt⟩
      have : ∃ sels, B.phis.zipIdx.mapM (fun e => selectOf P s a c onTrue (above F.instNames + e.2) e.1) = some sels := by
        refine mapM_ex ?_
        rintro ⟨p, k⟩ hm
        have hpB : p ∈ B.phis := (List.mem_zipIdx hm).2.2 ▸ List.getElem_mem _
        obtain ⟨va, hva, _⟩ := Phi.at_some (hc b B p a hB hpB e1)
        obtain ⟨vs, hvs, _⟩ := Phi.at_some (hc b B p s hB hpB e2)
        unfold selectOf
        cases onTrue <;> simp [hva, hvs]
      obtain ⟨sels, hs⟩ := this
      rw [hs]
      exact ⟨_, rfl⟩
    · exact ⟨_, rfl⟩
  · exact ⟨_, rfl⟩

/-- what the pass keeps -/
structure SelInv (ar : L.Op → Nat) (F0 F : L.F) : Prop where
  wf : LiveWf F
  first : EntryFirst F
  arity : Arity ar F
  ref : Refines L F0 F
  edges : ∀ q b, Edge F q b → Edge F0 q b
  order : F.order = F0.order
  complete : PhiComplete F0 → PhiComplete F

theorem toSelect_fold (HL : B2SLang L P slot ar) {F0 : L.F} (Sh : Shape F0) : ∀ {l : List Nat} {F G : L.F}, SelInv ar F0 F → l.foldlM (toSelectAt P F0.preds) F = some G → SelInv ar F0 G := by
  intro l
  induction l with
  | nil => intro F G h hg; cases hg; exact h
  | cons a l ih =>
    intro F G h hg
    rw [List.foldlM_cons] at hg
    obtain ⟨F1, h1, h2⟩ := Option.bind_eq_some_iff.1 hg
    refine ih ?_ h2
    rcases toSelectAt_some h.wf.toShape (fun q b e => (mem_preds Sh.listed).2 (h.edges q b e)) h1 with rfl | ⟨s, b, S, A, B, c, onTrue, ps, sels, T, rfl⟩
    · exact h
    · exact ⟨T.liveWf h.wf h.first, T.entryFirst h.first, T.arity HL h.arity, h.ref.trans (T.refines HL h.wf h.first h.arity), fun q b e => h.edges q b (T.edge.1 e).1, h.order, fun hc => T.complete (h.complete hc)⟩

theorem toSelect_fold_ex (HL : B2SLang L P slot ar) {F0 : L.F} (Sh : Shape F0) (hc : PhiComplete F0) : ∀ {l : List Nat} {F : L.F}, SelInv ar F0 F → ∃ G, l.foldlM (toSelectAt P F0.preds) F = some G := by
  intro l
  induction l with
  | nil => intro F h; exact ⟨F, rfl⟩
  | cons a l ih =>
    intro F h
    obtain ⟨F1, h1⟩ := toSelectAt_ex (P := P) F (h.complete hc) (preds := F0.preds) (fun q b hq => by
      have : q ∈ F0.order := by
        obtain ⟨Q, hQ, _⟩ := (mem_preds Sh.listed).1 hq
        exact Sh.listed q Q hQ
      exact h.wf.total q (h.order ▸ this)) a
    have h2 := toSelect_fold HL Sh (l := [a]) h (by rw [List.foldlM_cons, h1]; rfl)
    obtain ⟨G, hG⟩ := ih h2
    exact ⟨G, by rw [List.foldlM_cons, h1]; exact hG⟩

/-- C80: Branch2Select. In any language where opcodes outside the risky ones cannot fail, executing `A` always and selecting between the phi entries is a refinement, and the result is well-formed SSA again; the pass does not stop when the phis have entries for all predecessors. -/
theorem C80_branch2Select (HL : B2SLang L P slot ar) (native : Bool) {F : L.F} (W : LiveWf F) (E : EntryFirst F) (har : Arity ar F) :
    (∀ G, branch2Select P native F = some G → Refines L F G ∧ LiveWf G ∧ EntryFirst G ∧ Arity ar G ∧ G.order = F.order) ∧
    (PhiComplete F → ∃ G, branch2Select P native F = some G ∧ PhiComplete G) := by
  have h0 : SelInv ar F F := ⟨W, E, har, Refines.refl F, fun _ _ e => e, rfl, fun h => h⟩
  cases native with
  | false =>
    refine ⟨?_, fun hc => ⟨F, rfl, hc⟩⟩
    intro G h
    cases h
    exact ⟨h0.ref, W, E, har, rfl⟩
  | true =>
    refine ⟨?_, ?_⟩
    · intro G h
      have := toSelect_fold HL W.toShape h0 h
      exact ⟨this.ref, this.wf, this.first, this.arity, this.order⟩
    · intro hc
      obtain ⟨G, hG⟩ := toSelect_fold_ex (P := P) HL W.toShape hc (l := F.order) h0
      exact ⟨G, hG, (toSelect_fold HL W.toShape h0 hG).complete hc⟩

end
end Cmmc.SSA
