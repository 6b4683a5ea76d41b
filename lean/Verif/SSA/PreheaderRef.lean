import Verif.SSA.Preheader
/-!
# A block in front of a loop keeps the behaviour
-/
namespace Cmmc.SSA
section
variable {L : Lang}

/-- a block behind its phis -/
def restBlk (L : Lang) (body : List (Inst L.Op L.C)) (term : Term L.C) (cur : Nat) (env : Env L) (m : L.M) (tr : List L.E) : St L ⊕ Beh L :=
  match execBody L body env m tr with
  | .ub => .inr .ub
  | .halt es h => .inr (.halt h es)
  | .ok env m es =>
    match evalTerm L env term with
    | .ub => .inr .ub
    | .ret v => .inr (.ret v m es)
    | .goto b => .inl ⟨some cur, b, env, m, es⟩

theorem stepBlk_rest {B : L.B} {s : St L} {env : Env L} (h : enterPhis L s.pred s.env B.phis s.env = some env) : stepBlk L B s = restBlk L B.body B.term s.cur env s.m s.tr := by
  unfold stepBlk restBlk; rw [h]; rfl

/-- the rest of a block with other targets -/
theorem rest_rel {K : Nat → Prop} {body : List (Inst L.Op L.C)} {term term' : Term L.C} {f : Nat → Nat} {env e : Env L} (cur : Nat) (m : L.M) (tr : List L.E)
    (hb : ∀ i ∈ body, ∀ x, K x → Opd.inst x ∉ i.args) (ht : ∀ x, K x → Opd.inst x ∉ term.args)
    (hf : ∀ env, evalTerm L env term' = match evalTerm L env term with | .goto d => .goto (f d) | r => r) (h : AgreeK K env e) :
    restBlk L body term cur env m tr = .inr .ub ∨ (∃ r, restBlk L body term cur env m tr = .inr r ∧ restBlk L body term' cur e m tr = .inr r) ∨
      ∃ d env' e' m' tr', d ∈ term.targets ∧ restBlk L body term cur env m tr = .inl ⟨some cur, d, env', m', tr'⟩ ∧ restBlk L body term' cur e m tr = .inl ⟨some cur, f d, e', m', tr'⟩ ∧ AgreeK K env' e' := by
  have hbody := AgreeK.body (m := m) (es := tr) hb h
  unfold restBlk
  cases h1 : execBody L body env m tr with
  | ub => exact .inl rfl
  | halt es hh =>
    rw [h1] at hbody
    simp only [BodyRel] at hbody
    rw [hbody]
    exact .inr (.inl ⟨_, rfl, rfl⟩)
  | ok env1 m1 tr1 =>
    rw [h1] at hbody
    obtain ⟨e1, h2, h3⟩ := hbody
    rw [h2]
    dsimp only
    rw [hf e1, h3.term ht]
    cases h4 : evalTerm L env1 term with
    | ub => exact .inl rfl
    | ret v => exact .inr (.inl ⟨_, rfl, rfl⟩)
    | goto d => exact .inr (.inr ⟨d, env1, e1, m1, tr1, evalTerm_targets h4, rfl, rfl, h3⟩)

variable {F : L.F} {b pre n : Nat} {B : L.B}

/-- the states of the two runs: at `b`, coming from outside, the new function is at `pre` -/
structure PreRel (F : L.F) (b pre n : Nat) (s t : St L) : Prop where
  pred : t.pred = s.pred
  cur : t.cur = if s.cur = b ∧ s.pred ≠ some b then pre else s.cur
  env : AgreeK (fun x => n ≤ x) s.env t.env
  m : t.m = s.m
  tr : t.tr = s.tr
  from_ : (s.pred = none ∧ s.cur = F.entry) ∨ ∃ q, s.pred = some q ∧ Edge F q s.cur

theorem PreOk.operand (P : PreOk F b pre n B) {d : Nat} {D : L.B} (hD : F.blk d = some D) :
    (∀ i ∈ D.body, ∀ x, n ≤ x → Opd.inst x ∉ i.args) ∧ (∀ x, n ≤ x → Opd.inst x ∉ D.term.args) ∧ ∀ p ∈ D.phis, ∀ x, n ≤ x → Opd.inst x ∉ p.ops := by
  have hl := P.live d D hD
  refine ⟨fun i hi x hx h => ?_, fun x hx h => ?_, fun p hp x hx h => ?_⟩
  · obtain ⟨e, he, _⟩ := P.wf.use d D x hD hl (.inl ⟨i, hi, h⟩)
    have := P.ids x e he; omega
  · obtain ⟨e, he, _⟩ := P.wf.use d D x hD hl (.inr h)
    have := P.ids x e he; omega
  · obtain ⟨q, hq⟩ := mem_ops.1 h
    obtain ⟨Q, hQ, _⟩ := P.wf.phiPred d D p hD hl hp q _ hq
    obtain ⟨e, he, _⟩ := P.wf.phiUse d D p q x hD hl hp hq (P.live q Q hQ)
    have := P.ids x e he; omega

theorem filter_at {p : Phi L.C} {q : Nat} {f : Nat × Opd L.C → Bool} (id : Nat) (h : ∀ v, f (q, v) = true) : (Phi.mk id (p.inc.filter f)).at q = p.at q := by
  unfold Phi.at
  rw [List.find?_filter]
  congr 2
  funext e
  by_cases he : e.1 = q
  · have : f e = true := by rw [show e = (q, e.2) from by rw [← he]]; exact h _
    simp [he, this]
  · simp [he]

theorem loop_at {p : Phi L.C} {b pre m id : Nat} (hb : b ≠ pre) (h : p.at b ≠ none) : (Phi.mk id (p.inc.filter (fun e => e.1 == b) ++ [(pre, .inst m)])).at b = p.at b := by
  have h1 := filter_at (p := p) (q := b) (f := fun e => e.1 == b) id (fun _ => by simp)
  unfold Phi.at at h h1 ⊢
  rw [List.find?_append]
  cases hf : (p.inc.filter (fun e => e.1 == b)).find? (fun e => e.1 == b) with
  | some e => rw [← h1]; simp [hf]
  | none => rw [hf] at h1; exact absurd h1.symm h

theorem loop_at_pre {p : Phi L.C} {b pre m id : Nat} (hb : b ≠ pre) : (Phi.mk id (p.inc.filter (fun e => e.1 == b) ++ [(pre, (.inst m : Opd L.C))])).at pre = some (.inst m) := by
  unfold Phi.at
  rw [List.find?_append, List.find?_filter]
  have : p.inc.find? (fun a => decide ((a.1 == b) = true ∧ (a.1 == pre) = true)) = none := by
    rw [List.find?_eq_none]
    intro e _
    simp only [beq_iff_eq, decide_eq_true_eq, not_and]
    rintro rfl; exact hb
  rw [this]; simp

theorem forall2_loop {R : Phi L.C → Phi L.C → Prop} : ∀ {ps : List (Phi L.C)} {n : Nat}, (∀ k p, ps[k]? = some p → R p ⟨p.id, p.inc.filter (fun e => e.1 == b) ++ [(pre, .inst (n + k))]⟩) → List.Forall₂ R ps (loopPhis b pre n ps) := by
  intro ps
  induction ps with
  | nil => intro n _; exact .nil
  | cons p ps ih =>
    intro n h
    refine .cons (h 0 p rfl) (ih ?_)
    intro k p' hk
    have := h (k + 1) p' (by simpa using hk)
    rwa [show n + (k + 1) = n + 1 + k by omega] at this

theorem PreOk.sim (P : PreOk F b pre n B) : Simulation F (F.preheader b pre n) (PreRel F b pre n) := by
  have W := P.wf
  intro s t R
  refine ⟨R.tr.symm, ?_⟩
  obtain ⟨tp, tc, te, tm, tt⟩ := t
  obtain ⟨h1, h2, hag, h3, h4, hfrom⟩ := R
  dsimp only at h1 h2 hag h3 h4
  subst h1 h3 h4
  -- the conclusion from one step of `F` and `j + 1` steps of the new function
  have fin : ∀ (j c' : Nat) (f : Nat → Nat) (x y : St L ⊕ Beh L) (D : L.B), F.blk s.cur = some D → SSA.step L F s = x → run L (F.preheader b pre n) (j + 1) ⟨s.pred, tc, te, s.m, s.tr⟩ = y →
      (∀ d, f d = if d = b ∧ s.cur ≠ b then pre else d) →
      (x = .inr .ub ∨ (∃ r, x = .inr r ∧ y = .inr r) ∨ ∃ d env' e' m' tr', d ∈ D.term.targets ∧ x = .inl ⟨some s.cur, d, env', m', tr'⟩ ∧ y = .inl ⟨some s.cur, f d, e', m', tr'⟩ ∧ AgreeK (fun x => n ≤ x) env' e') →
      ((∃ k, run L F k s = .inr .ub) ∨ (∃ k j bh, run L F k s = .inr bh ∧ run L (F.preheader b pre n) j ⟨s.pred, tc, te, s.m, s.tr⟩ = .inr bh) ∨
        ∃ k j s' t', run L F (k + 1) s = .inl s' ∧ run L (F.preheader b pre n) (j + 1) ⟨s.pred, tc, te, s.m, s.tr⟩ = .inl t' ∧ PreRel F b pre n s' t') := by
    intro j c' f x y D hD hx hy hf h
    rcases h with h | ⟨r, h, h'⟩ | ⟨d, env', e', m', tr', hd, h, h', ha⟩
    · exact .inl ⟨1, by rw [run_one, hx, h]⟩
    · exact .inr (.inl ⟨1, j + 1, r, by rw [run_one, hx, h], by rw [hy, h']⟩)
    · refine .inr (.inr ⟨0, j, ⟨some s.cur, d, env', m', tr'⟩, ⟨some s.cur, f d, e', m', tr'⟩, by rw [run_one, hx, h], by rw [hy, h'], ⟨rfl, ?_, ha, rfl, rfl, .inr ⟨s.cur, rfl, D, hD, hd⟩⟩⟩)
      dsimp only
      rw [hf d]
      by_cases hc : s.cur = b
      · simp [hc]
      · simp [hc]
  have hcur : ∀ {D : L.B}, F.blk s.cur = some D → s.cur ≠ pre := by
    intro D hD e
    rw [e, P.noPre] at hD; cases hD
  cases hD : F.blk s.cur with
  | none => exact .inl ⟨1, by rw [run_one]; unfold SSA.step; rw [hD]⟩
  | some D =>
    have hstep : SSA.step L F s = stepBlk L D s := by unfold SSA.step; rw [hD]
    obtain ⟨o1, o2, o3⟩ := P.operand hD
    cases hen : enterPhis L s.pred s.env D.phis s.env with
    | none => exact .inl ⟨1, by rw [run_one, hstep]; unfold stepBlk; rw [hen]⟩
    | some env =>
      have hx : SSA.step L F s = restBlk L D.body D.term s.cur env s.m s.tr := by rw [hstep, stepBlk_rest hen]
      by_cases hc : s.cur = b
      · -- at the loop
        have hDB : D = B := by rw [hc, P.hB] at hD; exact (Option.some.inj hD).symm
        subst hDB
        rcases hfrom with ⟨_, he⟩ | ⟨q, hq, hqe⟩
        · exact absurd (hc.symm.trans he) P.entry
        · rw [hc] at hqe
          have hlq : Live F q := by obtain ⟨Q, hQ, _⟩ := id hqe; exact P.live q Q hQ
          have hlb := P.live b D P.hB
          have hnd : (D.phis.map Phi.id).Nodup := phi_ids_nodup W.toShape P.hB
          by_cases hqb : q = b
          · -- from itself
            subst hqb
            have htc : tc = q := by rw [h2, hc, hq]; simp
            have hf2 : List.Forall₂ (fun p p' => p'.id = p.id ∧ p'.at q = p.at q) D.phis (loopPhis q pre n D.phis) := by
              refine forall2_loop ?_
              intro k p hk
              refine ⟨rfl, loop_at P.ne ?_⟩
              obtain ⟨v, hv, _⟩ := Phi.at_some (W.phiAll q D p q P.hB hlb (List.mem_of_getElem? hk) hqe hlb)
              rw [hv]; simp
            rw [hq] at hen
            obtain ⟨r', hr', hr2⟩ := AgreeK.phis hag hf2 o3 hag hen
            have hy : run L (F.preheader q pre n) (0 + 1) ⟨s.pred, tc, te, s.m, s.tr⟩ = restBlk L D.body D.term s.cur r' s.m s.tr := by
              rw [run_one]
              unfold SSA.step
              dsimp only
              rw [htc, P.blkB]
              dsimp only
              rw [stepBlk_rest (env := r') (by dsimp only; rw [hq]; exact hr')]
              dsimp only
              rw [hc]
            refine fin 0 0 id _ _ D hD hx hy (by intro d; simp [hc]) ?_
            exact rest_rel (f := id) s.cur s.m s.tr o1 o2 (by intro env; cases evalTerm L env D.term <;> rfl) (hr2.mono (fun x h => h.1))
          · -- from outside
            have htc : tc = pre := by rw [h2, hc, hq]; simp [hqb]
            rw [hq] at hen
            have hvals := enterPhis_vals' hen hnd
            -- the clones
            have hcv : ∀ (k : Nat) (p : Phi L.C), D.phis[k]? = some p → phiVal L (some q) te ⟨n + k, p.inc.filter (fun e => e.1 != b)⟩ = phiVal L (some q) s.env p := by
              intro k p hk
              unfold phiVal
              dsimp only
              rw [filter_at (p := p) (n + k) (fun _ => by simpa using hqb)]
              cases hat : p.at q with
              | none => rfl
              | some o => exact hag.eval (fun x hx he => o3 p (List.mem_of_getElem? hk) x hx (mem_ops.2 ⟨q, he ▸ Phi.at_mem hat⟩))
            obtain ⟨r1, hr1, hr2, hr3⟩ := enterPhis_vals (q := q) (old := te) (ps := clonePhis b n D.phis) (e := te) (by
              intro c hcm
              obtain ⟨k, p, hk, rfl⟩ := mem_clonePhis.1 hcm
              rw [hcv k p hk]
              obtain ⟨h5, h6⟩ := hvals p (List.mem_of_getElem? hk)
              rw [h5]; exact Option.ne_none_iff_exists'.1 h6) (by rw [clonePhis_ids]; exact List.nodup_range')
            have hag1 : AgreeK (fun x => n ≤ x) s.env r1 := by
              intro x hx
              rw [hag x hx, hr3 x]
              rw [clonePhis_ids, List.mem_range'_1]
              omega
            -- the phis of the loop
            have hf2 : List.Forall₂ (fun p p' => p'.id = p.id ∧ ∀ v, phiVal L (some q) s.env p = some v → phiVal L (some pre) r1 p' = some v) D.phis (loopPhis b pre n D.phis) := by
              refine forall2_loop ?_
              intro k p hk
              refine ⟨rfl, fun v hv => ?_⟩
              have h7 := hr2 _ (mem_clonePhis.2 ⟨k, p, hk, rfl⟩)
              rw [hcv k p hk, hv] at h7
              unfold phiVal
              dsimp only
              rw [loop_at_pre P.ne]
              exact h7
            obtain ⟨r', hr', hr4⟩ := enterPhis_agree hf2 hag1 hen
            have hy : run L (F.preheader b pre n) (1 + 1) ⟨s.pred, tc, te, s.m, s.tr⟩ = restBlk L D.body D.term s.cur r' s.m s.tr := by
              have e1 : SSA.step L (F.preheader b pre n) ⟨s.pred, tc, te, s.m, s.tr⟩ = .inl ⟨some pre, b, r1, s.m, s.tr⟩ := by
                unfold SSA.step
                dsimp only
                rw [htc, P.blkPre]
                dsimp only
                rw [stepBlk_rest (env := r1) (by dsimp only; rw [hq]; exact hr1)]
                rfl
              have e2 : SSA.step L (F.preheader b pre n) ⟨some pre, b, r1, s.m, s.tr⟩ = restBlk L D.body D.term s.cur r' s.m s.tr := by
                unfold SSA.step
                dsimp only
                rw [P.blkB]
                dsimp only
                rw [stepBlk_rest (env := r') (by dsimp only; exact hr')]
                dsimp only
                rw [hc]
              rw [run_add, run_one, e1]
              dsimp only
              rw [run_one, e2]
            refine fin 1 0 id _ _ D hD hx hy (by intro d; simp [hc]) ?_
            exact rest_rel (f := id) s.cur s.m s.tr o1 o2 (by intro env; cases evalTerm L env D.term <;> rfl) (hr4.mono (fun x h => h.1))
      · -- elsewhere
        have htc : tc = s.cur := by rw [h2]; simp [hc]
        obtain ⟨r', hr', hr2⟩ : ∃ r', enterPhis L s.pred te D.phis te = some r' ∧ AgreeK (fun x => n ≤ x) env r' := by
          rcases hfrom with ⟨hp, he⟩ | ⟨q, hq, hqe⟩
          · have hph := W.entryPhis D (he ▸ hD)
            rw [hph] at hen ⊢
            simp only [enterPhis, Option.some.injEq] at hen
            subst hen
            exact ⟨te, rfl, hag⟩
          · rw [hq] at hen ⊢
            obtain ⟨r', h5, h6⟩ := AgreeK.phis hag (List.forall₂_same.2 (fun _ _ => ⟨rfl, rfl⟩)) o3 hag hen
            exact ⟨r', h5, h6.mono (fun x h => h.1)⟩
        have hy : run L (F.preheader b pre n) (0 + 1) ⟨s.pred, tc, te, s.m, s.tr⟩ = restBlk L D.body (D.term.reset b pre) s.cur r' s.m s.tr := by
          rw [run_one]
          unfold SSA.step
          dsimp only
          rw [htc, P.blk hD hc]
          dsimp only
          rw [stepBlk_rest (env := r') (by dsimp only; exact hr')]
        refine fin 0 0 (fun d => if d = b then pre else d) _ _ D hD hx hy (by intro d; simp [hc]) ?_
        exact rest_rel s.cur s.m s.tr o1 o2 (fun env => evalTerm_reset b pre env D.term) hr2

/-- a block in front of a loop keeps the behaviour -/
theorem PreOk.refines (P : PreOk F b pre n B) : Refines L F (F.preheader b pre n) :=
  P.sim.refines (fun m => ⟨rfl, by simp [start, Func.preheader, Ne.symm P.entry], fun _ _ => rfl, rfl, rfl, .inl ⟨rfl, rfl⟩⟩)

end
end Cmmc.SSA
