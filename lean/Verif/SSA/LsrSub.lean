import Verif.SSA.LsrIv
/-!
# LoopStrengthReduction: replacing the expanded instruction

`LiveWf.replaceHead`, `replaceHead_typed`, `Ev.replace`: what is known about the function stays true when instruction `x` is replaced by
an induction variable of the same value.
-/
namespace Cmmc.SSA

section
variable {Op C : Type} {F : Func Op C} {H b x : Nat} {v : Opd C}

theorem one_cases {y z : Nat} (h : one x v y = .inst z) : y = z ∨ (y = x ∧ v = .inst z) := by
  unfold one at h
  split at h
  · exact .inr ⟨by assumption, h⟩
  · simp only [Opd.inst.injEq] at h; exact .inl h

theorem sub_phi_mem {σ : Nat → Opd C} {B : Block Op C} {φ : Phi C} (h : φ ∈ (B.sub σ).phis) : ∃ ψ ∈ B.phis, φ = ψ.sub σ := by
  obtain ⟨ψ, h1, h2⟩ := List.mem_map.1 (show φ ∈ B.phis.map (Phi.sub σ) from h)
  exact ⟨ψ, h1, h2.symm⟩

theorem sub_inst_mem {σ : Nat → Opd C} {B : Block Op C} {i : Inst Op C} (h : i ∈ (B.sub σ).body) : ∃ j ∈ B.body, i = j.sub σ := by
  obtain ⟨j, h1, h2⟩ := List.mem_map.1 (show i ∈ B.body.map (Inst.sub σ) from h)
  exact ⟨j, h1, h2.symm⟩

theorem sub_inc_mem {σ : Nat → Opd C} {φ : Phi C} {q : Nat} {o : Opd C} (h : (q, o) ∈ (φ.sub σ).inc) : ∃ o', (q, o') ∈ φ.inc ∧ o = o'.sub σ := by
  obtain ⟨⟨q', o'⟩, h1, h2⟩ := List.mem_map.1 (show (q, o) ∈ φ.inc.map (fun e => (e.1, e.2.sub σ)) from h)
  simp only [Prod.mk.injEq] at h2
  exact ⟨o', h2.1 ▸ h1, h2.2.symm⟩

theorem mem_sub_inc {σ : Nat → Opd C} {φ : Phi C} {q : Nat} {o : Opd C} (h : (q, o) ∈ φ.inc) : (q, o.sub σ) ∈ (φ.sub σ).inc := List.mem_map.2 ⟨(q, o), h, rfl⟩

theorem sub_opd {σ : Nat → Opd C} {o : Opd C} {z : Nat} (h : o.sub σ = .inst z) : ∃ y, o = .inst y ∧ σ y = .inst z := by
  cases o with
  | cst c => simp [Opd.sub] at h
  | inst y => exact ⟨y, rfl, h⟩

theorem LiveWf.replaceHead (W : LiveWf F) (hx : DefIn F x b) (hv : HeadOpd F H v) (hd : Domi F H b) : LiveWf (F.replace x v) := by
  unfold Func.replace
  have hsrc : ∀ {y z d}, one x v y = .inst z → (∃ e, DefIn F y e ∧ Domi F e d) → ∃ e, DefIn (F.sub (one x v)) z e ∧ Domi (F.sub (one x v)) e d := by
    rintro y z d h ⟨e, h1, h2⟩
    rcases one_cases h with rfl | ⟨rfl, hvz⟩
    · exact ⟨e, (Func.sub_defIn _ _ _).2 h1, (Func.sub_domi _ _ _).2 h2⟩
    · obtain ⟨B, hB, hz⟩ := hv z hvz
      have := W.home h1 hx
      subst this
      exact ⟨H, (Func.sub_defIn _ _ _).2 ⟨B, hB, List.mem_append_left _ hz⟩, (Func.sub_domi _ _ _).2 (hd.trans h2)⟩
  refine { nodup := W.nodup, listed := ?_, total := ?_, entryIn := W.entryIn, closed := ?_, unique := ?_, entryPhis := ?_, inOrder := ?_, use := ?_, phiUse := ?_, phiPred := ?_, phiAll := ?_, phiDead := ?_ }
  · intro d B' h
    obtain ⟨B, hB, _⟩ := sub_blk h
    exact W.listed d B hB
  · intro d hd
    obtain ⟨B, hB⟩ := W.total d hd
    exact ⟨B.sub (one x v), by simp [Func.sub, hB]⟩
  · intro a d e; rw [Func.sub_edge] at e; exact W.closed a d e
  · refine nodup_allIds W.nodup ?_ ?_
    · intro d B' h
      obtain ⟨B, hB, rfl⟩ := sub_blk h
      rw [Block.sub_ids]; exact W.block_ids hB
    · intro y d e h1 h2
      exact W.home ((Func.sub_defIn _ _ _).1 h1) ((Func.sub_defIn _ _ _).1 h2)
  · intro B' h
    obtain ⟨B, hB, rfl⟩ := sub_blk h
    show B.phis.map _ = []
    rw [W.entryPhis B hB]; rfl
  · intro d B' h hl
    obtain ⟨B, hB, rfl⟩ := sub_blk h
    have hio := W.inOrder d B hB ((Func.sub_live _ _).1 hl)
    have hphis : (B.sub (one x v)).phis.map Phi.id = B.phis.map Phi.id := by simp [Block.sub, Function.comp_def, Phi.sub]
    have hbody : (B.sub (one x v)).body.map Inst.id = B.body.map Inst.id := by simp [Block.sub, Function.comp_def, Inst.sub]
    -- an induction variable of this block is a phi of this block
    have hhead : ∀ {z}, v = .inst z → z ∈ B.ids → z ∈ B.phis.map Phi.id := by
      intro z hz hm
      obtain ⟨B2, hB2, hz2⟩ := hv z hz
      have : d = H := W.home ⟨B, hB, hm⟩ ⟨B2, hB2, List.mem_append_left _ hz2⟩
      subst this
      rw [hB] at hB2
      rw [Option.some.inj hB2]; exact hz2
    constructor
    · intro pre i post he y hy hyi
      rw [Block.sub_ids] at hyi
      rw [hphis]
      obtain ⟨pre0, rest, e1, e2, e3⟩ := List.map_eq_append_iff.1 (show B.body.map (Inst.sub (one x v)) = pre ++ i :: post from he)
      obtain ⟨i0, post0, e4, e5, e6⟩ := List.map_eq_cons_iff.1 e3
      subst e5
      obtain ⟨y0, hy0, h1⟩ := mem_sub (show Opd.inst y ∈ i0.args.map (Opd.sub (one x v)) from hy)
      rcases one_cases h1 with rfl | ⟨rfl, hvy⟩
      · rcases hio.1 pre0 i0 post0 (by rw [e1, e4]) y0 hy0 hyi with h | h
        · exact .inl h
        · right; rw [← e2]; simpa [Function.comp_def, Inst.sub] using h
      · exact .inl (hhead hvy hyi)
    · intro y hy hyi
      rw [Block.sub_ids] at hyi
      rw [hphis, hbody]
      obtain ⟨y0, hy0, h1⟩ := mem_sub (show Opd.inst y ∈ B.term.args.map (Opd.sub (one x v)) by rw [← Term.sub_args]; exact hy)
      rcases one_cases h1 with rfl | ⟨rfl, hvy⟩
      · exact hio.2 y0 hy0 hyi
      · exact .inl (hhead hvy hyi)
  · intro d B' y h hl hy
    obtain ⟨B, hB, rfl⟩ := sub_blk h
    have hl := (Func.sub_live _ _).1 hl
    rcases hy with ⟨i, hi, hy⟩ | hy
    · obtain ⟨j, hj, rfl⟩ := sub_inst_mem hi
      obtain ⟨y0, hy0, h1⟩ := mem_sub (show Opd.inst y ∈ j.args.map (Opd.sub (one x v)) from hy)
      exact hsrc h1 (W.use d B y0 hB hl (.inl ⟨j, hj, hy0⟩))
    · obtain ⟨y0, hy0, h1⟩ := mem_sub (show Opd.inst y ∈ B.term.args.map (Opd.sub (one x v)) by rw [← Term.sub_args]; exact hy)
      exact hsrc h1 (W.use d B y0 hB hl (.inr hy0))
  · intro d B' φ q y h hl hφ hy hlq
    obtain ⟨B, hB, rfl⟩ := sub_blk h
    obtain ⟨ψ, hψ, rfl⟩ := sub_phi_mem hφ
    obtain ⟨o, ho, h1⟩ := sub_inc_mem hy
    obtain ⟨y0, rfl, h2⟩ := sub_opd h1.symm
    exact hsrc h2 (W.phiUse d B ψ q y0 hB ((Func.sub_live _ _).1 hl) hψ ho ((Func.sub_live _ _).1 hlq))
  · intro d B' φ h hl hφ q o ho
    obtain ⟨B, hB, rfl⟩ := sub_blk h
    obtain ⟨ψ, hψ, rfl⟩ := sub_phi_mem hφ
    obtain ⟨o', ho', _⟩ := sub_inc_mem ho
    rw [Func.sub_edge]
    exact W.phiPred d B ψ hB ((Func.sub_live _ _).1 hl) hψ q o' ho'
  · intro d B' φ q h hl hφ he hlq
    obtain ⟨B, hB, rfl⟩ := sub_blk h
    obtain ⟨ψ, hψ, rfl⟩ := sub_phi_mem hφ
    rw [Func.sub_edge] at he
    obtain ⟨o, ho⟩ := W.phiAll d B ψ q hB ((Func.sub_live _ _).1 hl) hψ he ((Func.sub_live _ _).1 hlq)
    exact ⟨_, mem_sub_inc ho⟩
  · intro d B' φ φ' q o h hl hφ hφ' ho
    obtain ⟨B, hB, rfl⟩ := sub_blk h
    obtain ⟨ψ, hψ, rfl⟩ := sub_phi_mem hφ
    obtain ⟨ψ', hψ', rfl⟩ := sub_phi_mem hφ'
    obtain ⟨o', ho', _⟩ := sub_inc_mem ho
    obtain ⟨o2, ho2⟩ := W.phiDead d B ψ ψ' q o' hB ((Func.sub_live _ _).1 hl) hψ hψ' ho'
    exact ⟨_, mem_sub_inc ho2⟩

theorem replaceHead_refs (R : F.Refs) (hv : HeadOpd F H v) : (F.replace x v).Refs := by
  intro d B' h y hy
  obtain ⟨B, hB, rfl⟩ := sub_blk h
  have hsrc : ∀ {y0}, one x v y0 = .inst y → y0 ∈ B.operands → ∃ e, DefIn (F.sub (one x v)) y e := by
    intro y0 h1 h2
    rcases one_cases h1 with rfl | ⟨rfl, hvy⟩
    · obtain ⟨e, he⟩ := R d B hB y0 h2
      exact ⟨e, (Func.sub_defIn _ _ _).2 he⟩
    · obtain ⟨B2, hB2, hz2⟩ := hv y hvy
      exact ⟨H, (Func.sub_defIn _ _ _).2 ⟨B2, hB2, List.mem_append_left _ hz2⟩⟩
  rcases mem_operands.1 hy with ⟨φ, hφ, hy⟩ | ⟨i, hi, hy⟩ | hy
  · obtain ⟨ψ, hψ, rfl⟩ := sub_phi_mem hφ
    obtain ⟨q, hq⟩ := mem_ops.1 hy
    obtain ⟨o, ho, h1⟩ := sub_inc_mem hq
    obtain ⟨y0, rfl, h2⟩ := sub_opd h1.symm
    exact hsrc h2 (mem_operands.2 (.inl ⟨ψ, hψ, mem_ops.2 ⟨q, ho⟩⟩))
  · obtain ⟨j, hj, rfl⟩ := sub_inst_mem hi
    obtain ⟨y0, hy0, h1⟩ := mem_sub (show Opd.inst y ∈ j.args.map (Opd.sub (one x v)) from hy)
    exact hsrc h1 (mem_operands.2 (.inr (.inl ⟨j, hj, hy0⟩)))
  · obtain ⟨y0, hy0, h1⟩ := mem_sub (show Opd.inst y ∈ B.term.args.map (Opd.sub (one x v)) by rw [← Term.sub_args]; exact hy)
    exact hsrc h1 (mem_operands.2 (.inr (.inr hy0)))

end

section
variable {L : Lang} {A : Arith L} {F : L.F} {H Lt b x y₀ : Nat} {ty : Nat → Nat}

theorem oty_sub {o : Opd L.C} (hy : ty y₀ = ty x) : A.oty ty (o.sub (one x (.inst y₀))) = A.oty ty o := by
  cases o with
  | cst c => rfl
  | inst z =>
    unfold Opd.sub one
    dsimp only
    split
    · rename_i h; simp [Arith.oty, h, hy]
    · rfl

theorem replaceHead_typed (T : Typed A F ty) (hy : ty y₀ = ty x) : Typed A (F.replace x (.inst y₀)) ty where
  op := by
    intro d B' i hB' hi hop o ho t ht
    obtain ⟨B, hB, rfl⟩ := sub_blk hB'
    obtain ⟨j, hj, rfl⟩ := sub_inst_mem hi
    obtain ⟨o', ho', rfl⟩ := List.mem_map.1 (show o ∈ j.args.map (Opd.sub (one x (.inst y₀))) from ho)
    rw [oty_sub hy] at ht
    exact T.op d B j hB hj hop o' ho' t ht
  phi := by
    intro d B' φ hB' hφ q o ho t ht
    obtain ⟨B, hB, rfl⟩ := sub_blk hB'
    obtain ⟨ψ, hψ, rfl⟩ := sub_phi_mem hφ
    obtain ⟨o', ho', rfl⟩ := sub_inc_mem ho
    rw [oty_sub hy] at ht
    exact T.phi d B ψ hB hψ q o' ho' t ht

/-- there is at most one derivation for an instruction -/
theorem Ev.unique (W : LiveWf F) (hma : ∀ op, A.isMul op = true → A.isAdd op = false) {H' Lt' : Nat} {fl : Bool} {o : Opd L.C} {f : Nat → Int} (h : Ev A F H Lt fl o f) :
    ∀ {fl' f'}, Ev A F H' Lt' fl' o f' → fl = fl' ∧ f = f' ∧ (fl = true → H = H' ∧ Lt = Lt') := by
  induction h with
  | lit hn =>
    intro fl' f' h'
    cases h' with
    | lit hn' =>
      rw [hn] at hn'
      simp only [Option.some.injEq, Prod.mk.injEq] at hn'
      exact ⟨rfl, by funext _; exact hn'.2, by simp⟩
  | @add d D i o1 o2 b1 b2 f g hD hi hop ha h1 h2 ih1 ih2 =>
    intro fl' f' h'
    generalize ho : (Opd.inst i.id : Opd L.C) = o at h'
    cases h' with
    | lit _ => simp at ho
    | add hD' hi' hop' ha' h1' h2' =>
      simp only [Opd.inst.injEq] at ho
      have := W.toShape.inst_unique hD hD' hi hi' ho
      subst this
      rw [ha] at ha'
      simp only [List.cons.injEq, and_true] at ha'
      obtain ⟨rfl, rfl⟩ := ha'
      obtain ⟨rfl, rfl, e1⟩ := ih1 h1'
      obtain ⟨rfl, rfl, e2⟩ := ih2 h2'
      refine ⟨rfl, rfl, fun hb => ?_⟩
      rcases Bool.or_eq_true_iff.mp hb with hb | hb
      · exact e1 hb
      · exact e2 hb
    | mul hD' hi' hop' ha' h1' h2' =>
      simp only [Opd.inst.injEq] at ho
      have := W.toShape.inst_unique hD hD' hi hi' ho
      subst this
      rw [hma _ hop'] at hop
      simp at hop
    | biv hB' hφ' =>
      simp only [Opd.inst.injEq] at ho
      exact absurd ho.symm (W.toShape.phi_inst hB' hD hφ' hi)
  | @mul d D i o1 o2 b1 b2 f g hD hi hop ha h1 h2 ih1 ih2 =>
    intro fl' f' h'
    generalize ho : (Opd.inst i.id : Opd L.C) = o at h'
    cases h' with
    | lit _ => simp at ho
    | mul hD' hi' hop' ha' h1' h2' =>
      simp only [Opd.inst.injEq] at ho
      have := W.toShape.inst_unique hD hD' hi hi' ho
      subst this
      rw [ha] at ha'
      simp only [List.cons.injEq, and_true] at ha'
      obtain ⟨rfl, rfl⟩ := ha'
      obtain ⟨rfl, rfl, e1⟩ := ih1 h1'
      obtain ⟨rfl, rfl, e2⟩ := ih2 h2'
      refine ⟨rfl, rfl, fun hb => ?_⟩
      rcases Bool.or_eq_true_iff.mp hb with hb | hb
      · exact e1 hb
      · exact e2 hb
    | add hD' hi' hop' ha' h1' h2' =>
      simp only [Opd.inst.injEq] at ho
      have := W.toShape.inst_unique hD hD' hi hi' ho
      subst this
      rw [hma _ hop] at hop'
      simp at hop'
    | biv hB' hφ' =>
      simp only [Opd.inst.injEq] at ho
      exact absurd ho.symm (W.toShape.phi_inst hB' hD hφ' hi)
  | @biv B φ p c w z d D j o bo g hB hφ hinc hp hn hD hj hop ha h1 ih =>
    intro fl' f' h'
    generalize ho : (Opd.inst φ.id : Opd L.C) = o' at h'
    cases h' with
    | lit _ => simp at ho
    | add hD' hi' =>
      simp only [Opd.inst.injEq] at ho
      exact absurd ho (W.toShape.phi_inst hB hD' hφ hi')
    | mul hD' hi' =>
      simp only [Opd.inst.injEq] at ho
      exact absurd ho (W.toShape.phi_inst hB hD' hφ hi')
    | @biv B' φ' p' c' w' z' d' D' j' o' bo' g' hB' hφ' hinc' hp' hn' hD' hj' hop' ha' h1' =>
      simp only [Opd.inst.injEq] at ho
      have hHH : H = H' := W.home (i := φ.id) ⟨B, hB, List.mem_append_left _ (List.mem_map_of_mem hφ)⟩ ⟨B', hB', List.mem_append_left _ (List.mem_map.2 ⟨φ', hφ', ho.symm⟩)⟩
      subst hHH
      rw [hB] at hB'
      have := Option.some.inj hB'
      subst this
      have hnd : (B.phis.map Phi.id).Nodup := (List.nodup_append.mp (W.block_ids hB)).1
      have := List.inj_on_of_nodup_map hnd hφ hφ' ho
      subst this
      have hjj : j.id = j'.id ∧ Lt = Lt' ∧ c = c' := by
        rcases hinc with e | e <;> rcases hinc' with e' | e' <;> rw [e] at e' <;> simp at e'
        · exact ⟨e'.2.2, e'.2.1, e'.1.2⟩
        · exact ⟨e'.1.2, e'.1.1, e'.2.2⟩
      have hj2 := W.toShape.inst_unique hD hD' hj hj' hjj.1
      obtain ⟨_, hLL, hcc⟩ := hjj
      subst hj2; subst hLL; subst hcc
      rw [hn] at hn'
      simp only [Option.some.injEq, Prod.mk.injEq] at hn'
      obtain ⟨rfl, rfl⟩ := hn'
      have hoo : o = o' := by
        rcases ha with e | e <;> rcases ha' with e' | e' <;> rw [e] at e' <;> simp at e'
        · exact e'
        · rw [← e'.1, e'.2]
        · rw [e'.1, ← e'.2]
        · exact e'
      subst hoo
      obtain ⟨_, rfl, _⟩ := ih h1'
      exact ⟨rfl, rfl, fun _ => ⟨rfl, rfl⟩⟩

theorem Ev.oty {fl : Bool} {o : Opd L.C} {f : Nat → Int} (h : Ev A F H Lt fl o f) : ∃ t, A.oty ty o = some t := by
  cases h with
  | lit hn => exact ⟨_, by simp [Arith.oty, hn]; rfl⟩
  | add => exact ⟨_, rfl⟩
  | mul => exact ⟨_, rfl⟩
  | biv => exact ⟨_, rfl⟩

/-- the type of a value with a derivation is the type of a constant -/
theorem Ev.width (T : Typed A F ty) {fl : Bool} {o : Opd L.C} {f : Nat → Int} (h : Ev A F H Lt fl o f) : ∀ t, A.oty ty o = some t → ∃ c z, A.num c = some (t, z) := by
  induction h with
  | @lit c w z hn => intro t ht; simp only [Arith.oty, hn, Option.map_some, Option.some.injEq] at ht; subst ht; exact ⟨c, z, hn⟩
  | add hD hi hop ha h1 _ ih _ =>
    intro t ht
    simp only [Arith.oty, Option.some.injEq] at ht; subst ht
    obtain ⟨t1, e1⟩ := h1.oty (ty := ty)
    rw [← T.op _ _ _ hD hi (.inl hop) _ (by rw [ha]; simp) t1 e1]
    exact ih t1 e1
  | mul hD hi hop ha h1 _ ih _ =>
    intro t ht
    simp only [Arith.oty, Option.some.injEq] at ht; subst ht
    obtain ⟨t1, e1⟩ := h1.oty (ty := ty)
    rw [← T.op _ _ _ hD hi (.inr hop) _ (by rw [ha]; simp) t1 e1]
    exact ih t1 e1
  | @biv B φ p c w z d D j o b g hB hφ hinc hp hn _ _ _ _ _ _ =>
    intro t ht
    simp only [Arith.oty, Option.some.injEq] at ht; subst ht
    refine ⟨c, z, ?_⟩
    have : w = ty φ.id := T.phi _ _ _ hB hφ p (.cst c) (by rcases hinc with e | e <;> rw [e] <;> simp) w (by simp [Arith.oty, hn])
    rw [← this]; exact hn

theorem IV.replace (W : LiveWf F) {i₀ : Inst L.Op L.C} {D₀ : L.B} {v : Opd L.C} (hD₀ : F.blk b = some D₀) (hi₀ : i₀ ∈ D₀.body) (hadd : A.isAdd i₀.op = false) {w : Nat} {zs : List Int} {o : Opd L.C}
    (h : IV A F H Lt w zs o) : IV A (F.replace i₀.id v) H Lt w zs o := by
  have hblk : ∀ {d D}, F.blk d = some D → (F.replace i₀.id v).blk d = some (D.sub (one i₀.id v)) := by
    intro d D hD; simp [Func.replace, Func.sub, hD]
  induction h with
  | last hn => exact .last hn
  | @more B φ p c z d D j o zs hB hφ hinc hp hn hD hj hop ha h ih =>
    have hφx : φ.id ≠ i₀.id := W.toShape.phi_inst hB hD₀ hφ hi₀
    have hjx : j.id ≠ i₀.id := by
      intro e
      have := W.toShape.inst_unique hD hD₀ hj hi₀ e
      subst this
      rw [hop] at hadd; simp at hadd
    have hox : o.sub (one i₀.id v) = o := by
      cases o with
      | cst c => rfl
      | inst y =>
        obtain ⟨B2, hB2, hy⟩ := h.head y rfl
        obtain ⟨ψ, hψ, rfl⟩ := List.mem_map.1 hy
        have := W.toShape.phi_inst hB2 hD₀ hψ hi₀
        simp [Opd.sub, one, this]
    refine IV.more (φ := φ.sub (one i₀.id v)) (j := j.sub (one i₀.id v)) (p := p) (hblk hB) (List.mem_map_of_mem hφ) ?_ hp hn (hblk hD) (List.mem_map_of_mem hj) hop ?_ ih
    · rcases hinc with e | e
      · left; simp [Phi.sub, e, Opd.sub, one, hjx, Inst.sub]
      · right; simp [Phi.sub, e, Opd.sub, one, hjx, Inst.sub]
    · show j.args.map _ = _
      rw [ha]
      simp only [List.map_cons, List.map_nil, hox]
      simp [Opd.sub, one, hφx, Phi.sub]

/-- the derivations after the replacement: the same, up to the width of the type -/
theorem Ev.replace (W : LiveWf F) (T : Typed A F ty) (hma : ∀ op, A.isMul op = true → A.isAdd op = false) {i₀ : Inst L.Op L.C} {D₀ : L.B} (hD₀ : F.blk b = some D₀) (hi₀ : i₀ ∈ D₀.body)
    (hadd : A.isAdd i₀.op = false) {zs : List Int} {f₀ : Nat → Int} (h₀ : Ev A F H Lt true (.inst i₀.id) f₀) (hf₀ : ∀ n, f₀ n ≡ poly zs n [ZMOD 2 ^ ty i₀.id])
    {w₀ : Nat} (hiv : IV A F H Lt w₀ zs (.inst y₀)) {H' Lt' : Nat} {fl : Bool} {o : Opd L.C} {f : Nat → Int} (h : Ev A F H' Lt' fl o f) :
    (∃ f', Ev A (F.replace i₀.id (.inst y₀)) H' Lt' fl (o.sub (one i₀.id (.inst y₀))) f' ∧ ∀ t, A.oty ty o = some t → ∀ n, f' n ≡ f n [ZMOD 2 ^ t]) ∧
    (∃ f', Ev A (F.replace i₀.id (.inst y₀)) H' Lt' fl o f' ∧ ∀ t, A.oty ty o = some t → ∀ n, f' n ≡ f n [ZMOD 2 ^ t]) := by
  have hblk : ∀ {d D}, F.blk d = some D → (F.replace i₀.id (.inst y₀)).blk d = some (D.sub (one i₀.id (.inst y₀))) := by
    intro d D hD; simp [Func.replace, Func.sub, hD]
  have hy : Ev A (F.replace i₀.id (.inst y₀)) H Lt true (.inst y₀) (poly zs) := by
    have h1 := (hiv.replace (v := .inst y₀) W hD₀ hi₀ hadd).ev
    have : decide (1 < zs.length) = true := by
      cases hiv with
      | more _ _ _ _ _ _ _ _ _ h => simpa using List.length_pos_iff.2 h.ne_nil
    rwa [this] at h1
  -- the second part gives the first
  have fin : ∀ {fl o f}, Ev A F H' Lt' fl o f → (∃ f', Ev A (F.replace i₀.id (.inst y₀)) H' Lt' fl o f' ∧ ∀ t, A.oty ty o = some t → ∀ n, f' n ≡ f n [ZMOD 2 ^ t]) →
      (∃ f', Ev A (F.replace i₀.id (.inst y₀)) H' Lt' fl (o.sub (one i₀.id (.inst y₀))) f' ∧ ∀ t, A.oty ty o = some t → ∀ n, f' n ≡ f n [ZMOD 2 ^ t]) ∧
      (∃ f', Ev A (F.replace i₀.id (.inst y₀)) H' Lt' fl o f' ∧ ∀ t, A.oty ty o = some t → ∀ n, f' n ≡ f n [ZMOD 2 ^ t]) := by
    intro fl o f h h2
    refine ⟨?_, h2⟩
    cases o with
    | cst c => exact h2
    | inst z =>
      by_cases hz : z = i₀.id
      · subst hz
        obtain ⟨rfl, rfl, e⟩ := h₀.unique W hma h
        obtain ⟨rfl, rfl⟩ := e rfl
        refine ⟨poly zs, by simpa [Opd.sub, one] using hy, ?_⟩
        intro t ht n
        simp only [Arith.oty, Option.some.injEq] at ht
        subst ht
        exact (hf₀ n).symm
      · simpa [Opd.sub, one, hz] using h2
  induction h with
  | lit hn => exact fin (.lit hn) ⟨_, .lit hn, fun t _ n => Int.ModEq.refl _⟩
  | @add d D i o1 o2 b1 b2 f g hD hi hop ha h1 h2 ih1 ih2 =>
    refine fin (.add hD hi hop ha h1 h2) ?_
    obtain ⟨f1, e1, m1⟩ := ih1.1
    obtain ⟨f2, e2, m2⟩ := ih2.1
    refine ⟨_, Ev.add (i := i.sub (one i₀.id (.inst y₀))) (hblk hD) (List.mem_map_of_mem hi) hop (by simp [Inst.sub, ha]) e1 e2, ?_⟩
    intro t ht n
    simp only [Arith.oty, Option.some.injEq] at ht
    subst ht
    obtain ⟨t1, ht1⟩ := h1.oty (ty := ty)
    obtain ⟨t2, ht2⟩ := h2.oty (ty := ty)
    have k1 := T.op d D i hD hi (.inl hop) o1 (by simp [ha]) t1 ht1
    have k2 := T.op d D i hD hi (.inl hop) o2 (by simp [ha]) t2 ht2
    subst k1
    rw [k2] at ht2
    exact (m1 _ ht1 n).add (m2 _ ht2 n)
  | @mul d D i o1 o2 b1 b2 f g hD hi hop ha h1 h2 ih1 ih2 =>
    refine fin (.mul hD hi hop ha h1 h2) ?_
    obtain ⟨f1, e1, m1⟩ := ih1.1
    obtain ⟨f2, e2, m2⟩ := ih2.1
    refine ⟨_, Ev.mul (i := i.sub (one i₀.id (.inst y₀))) (hblk hD) (List.mem_map_of_mem hi) hop (by simp [Inst.sub, ha]) e1 e2, ?_⟩
    intro t ht n
    simp only [Arith.oty, Option.some.injEq] at ht
    subst ht
    obtain ⟨t1, ht1⟩ := h1.oty (ty := ty)
    obtain ⟨t2, ht2⟩ := h2.oty (ty := ty)
    have k1 := T.op d D i hD hi (.inr hop) o1 (by simp [ha]) t1 ht1
    have k2 := T.op d D i hD hi (.inr hop) o2 (by simp [ha]) t2 ht2
    subst k1
    rw [k2] at ht2
    exact (m1 _ ht1 n).mul (m2 _ ht2 n)
  | @biv B φ p c w z d D j o bo g hB hφ hinc hp hn hD hj hop ha h1 ih =>
    have hφx : φ.id ≠ i₀.id := W.toShape.phi_inst hB hD₀ hφ hi₀
    have hjx : j.id ≠ i₀.id := by
      intro e
      have := W.toShape.inst_unique hD hD₀ hj hi₀ e
      subst this
      rw [hop] at hadd; simp at hadd
    refine fin (.biv hB hφ hinc hp hn hD hj hop ha h1) ?_
    obtain ⟨g', e1, m1⟩ := ih.1
    refine ⟨_, Ev.biv (φ := φ.sub (one i₀.id (.inst y₀))) (j := j.sub (one i₀.id (.inst y₀))) (p := p) (o := o.sub (one i₀.id (.inst y₀))) (hblk hB) (List.mem_map_of_mem hφ) ?_ hp hn (hblk hD) (List.mem_map_of_mem hj) hop ?_ e1, ?_⟩
    · rcases hinc with e | e
      · left; simp [Phi.sub, e, Opd.sub, one, hjx, Inst.sub]
      · right; simp [Phi.sub, e, Opd.sub, one, hjx, Inst.sub]
    · rcases ha with e | e
      · left; simp [Inst.sub, e, Opd.sub, one, hφx, Phi.sub]
      · right; simp [Inst.sub, e, Opd.sub, one, hφx, Phi.sub]
    · intro t ht n
      simp only [Arith.oty, Option.some.injEq] at ht
      subst ht
      obtain ⟨t1, ht1⟩ := h1.oty (ty := ty)
      have k1 := T.op d D j hD hj (.inl hop) o (by rcases ha with e | e <;> simp [e]) t1 ht1
      have k2 : ty j.id = ty φ.id := T.phi H' B φ hB hφ Lt' (.inst j.id) (by rcases hinc with e | e <;> simp [e]) _ rfl
      rw [k1, k2] at ht1
      have hs : ∀ k, ∑ i ∈ Finset.range k, g' i ≡ ∑ i ∈ Finset.range k, g i [ZMOD 2 ^ ty φ.id] := by
        intro k
        induction k with
        | zero => exact Int.ModEq.refl _
        | succ k ihk => rw [Finset.sum_range_succ, Finset.sum_range_succ]; exact ihk.add (m1 _ ht1 k)
      exact (hs n).add_left z

end
end Cmmc.SSA
