import Verif.SSA.TailPull
/-!
# TailCallEliminate: pulling a return changes nothing
-/
namespace Cmmc.SSA
section
variable {L : Lang} {F : L.F} {b t : Nat} {B : L.B} {ps : List (Phi L.C)} {v : Option (Opd L.C)}

theorem SamePhis.removeAll {C : Type} {q src : Nat} (h : q ≠ src) (ps : List (Phi C)) : SamePhis q ps (ps.map (fun p => p.removeSource src)) := by
  unfold SamePhis
  induction ps with
  | nil => exact .nil
  | cons p ps ih => exact .cons ⟨rfl, (Phi.at_removeSource h).symm⟩ ih

/-- elsewhere both functions do the same -/
theorem PullOk.step_eq (h : PullOk F b t B ps v) {s : St L} (hb : s.cur ≠ b) (ht : s.cur = t → s.pred ≠ some b) : step L (pulled F b t B ps v) s = step L F s := by
  unfold step
  rw [h.blk, if_neg hb]
  by_cases hc : s.cur = t
  · rw [if_pos hc, hc, h.hT]
    simp only
    symm
    apply stepBlk_congr (B := ⟨ps, [], .ret v⟩) (B' := ⟨ps.map (fun p => p.removeSource b), [], .ret v⟩) (hb := rfl) (ht := fun _ => rfl)
    cases hp : s.pred with
    | none => simp
    | some q => exact SamePhis.removeAll (fun e => ht hc (by rw [hp, e])) ps
  · rw [if_neg hc]

/-- where the return was pulled in -/
theorem PullOk.step_b (h : PullOk F b t B ps v) (W : LiveWf F) {s : St L} (hf : Filled F s) (hb : s.cur = b) : ∃ r, step L (pulled F b t B ps v) s = .inr r ∧ run L F 2 s = .inr r := by
  obtain ⟨pred, cur, env, m, tr⟩ := s
  simp only at hb
  subst hb
  have hG : (pulled F cur t B ps v).blk cur = some ⟨B.phis, B.body, .ret (pullOpd cur ps v)⟩ := by rw [h.blk, if_pos rfl]
  cases h1 : enterPhis L pred env B.phis env with
  | none =>
    refine ⟨.ub, ?_, ?_⟩
    · simp only [step, hG, stepBlk, h1]
    · exact run_inr (by simp only [step, h.hB, stepBlk, h1])
  | some e1 =>
    cases h2 : execBody L B.body e1 m tr with
    | ub =>
      refine ⟨.ub, ?_, ?_⟩
      · simp only [step, hG, stepBlk, h1, h2]
      · exact run_inr (by simp only [step, h.hB, stepBlk, h1, h2])
    | halt es hh => exact ⟨_, step_halts hG h1 h2, run_inr (step_halts h.hB h1 h2)⟩
    | ok e2 m2 es =>
      have hs : step L F ⟨pred, cur, env, m, tr⟩ = .inl ⟨some cur, t, e2, m2, es⟩ := step_goes h.hB h1 h2 (by rw [h.term]; rfl)
      have hf2 := hf.step hs
      have hl := hf.live
      simp only at hl
      have hlt := hl.edge h.isEdge
      -- all phis of `t` have a value
      have hphi : ∀ p ∈ ps, ∃ o w, p.at cur = some o ∧ eval L e2 o = some w ∧ phiVal L (some cur) e2 p = some w := by
        intro p hp
        obtain ⟨o, ho⟩ := Phi.at_ex (W.phiAll t _ p cur h.hT hlt hp h.isEdge hl)
        have hev : ∃ w, eval L e2 o = some w := by
          cases o with
          | cst c => exact ⟨_, rfl⟩
          | inst x =>
            obtain ⟨d, hd, hdom⟩ := W.phiUse t _ p cur x h.hT hlt hp (Phi.at_mem ho) hl
            have := (show Live F cur ∧ Edge F cur t ∧ ∀ x d, DefIn F x d → Domi F d cur → e2 x ≠ none from hf2).2.2 x d hd hdom
            exact Option.ne_none_iff_exists'.1 this
        obtain ⟨w, hw⟩ := hev
        exact ⟨o, w, ho, hw, by simp only [phiVal]; rw [ho]; exact hw⟩
      have hnd : (ps.map Phi.id).Nodup := by
        have := W.toShape.ids_nodup h.hT
        simpa [Block.ids] using this
      obtain ⟨e3, h3, h4, h5⟩ := enterPhis_vals (L := L) (q := cur) (old := e2) (ps := ps) (e := e2) (fun p hp => by
        obtain ⟨o, w, _, _, hw⟩ := hphi p hp
        exact ⟨w, hw⟩) hnd
      -- the returned value
      have hv : evalTerm L e3 (.ret v) = evalTerm L e2 (.ret (pullOpd cur ps v)) := by
        cases hpo : pullOpd cur ps v with
        | none =>
          cases v with
          | none => rfl
          | some o => simp [pullOpd] at hpo
        | some o' =>
          obtain ⟨o, rfl, hc⟩ := pullOpd_cases hpo
          have : eval L e3 o = eval L e2 o' := by
            rcases hc with ⟨rfl, hc⟩ | ⟨p, hp, rfl, hat⟩
            · cases o' with
              | cst c => rfl
              | inst x =>
                rcases hc with hc | ⟨p, hp, _, hat⟩
                · exact h5 x (fun hm => by
                    obtain ⟨p, hp, e⟩ := List.mem_map.1 hm
                    exact hc p hp (by rw [e]))
                · obtain ⟨o, w, ho, _⟩ := hphi p hp
                  rw [hat] at ho; cases ho
            · show e3 p.id = _
              rw [h4 p hp]
              simp only [phiVal]
              rw [hat]
          simp only [evalTerm]
          rw [this]
      have hstep2 : ∀ r, evalTerm L e2 (.ret (pullOpd cur ps v)) = .ret r → step L F ⟨some cur, t, e2, m2, es⟩ = .inr (.ret r m2 es) := by
        intro r hr
        exact step_rets (e2 := e3) h.hT h3 rfl (by rw [hv]; exact hr)
      cases ht : evalTerm L e2 (.ret (pullOpd cur ps v)) with
      | ret r => exact ⟨_, step_rets hG h1 h2 ht, run_inl hs (run_inr (hstep2 r ht))⟩
      | goto y =>
        exfalso
        cases hpo : pullOpd cur ps v with
        | none => rw [hpo] at ht; simp [evalTerm] at ht
        | some o =>
          rw [hpo] at ht
          simp only [evalTerm] at ht
          cases hev : eval L e2 o <;> rw [hev] at ht <;> simp at ht
      | ub =>
        refine ⟨.ub, ?_, run_inl hs (run_inr ?_)⟩
        · simp only [step, hG, stepBlk, h1, h2, ht]
        · simp only [step, h.hT, stepBlk, h3, execBody, hv, ht]

/-- states of the new function -/
def PullSt (F : L.F) (b t : Nat) (s : St L) : Prop := Filled F s ∧ (s.cur = t → s.pred ≠ some b)

theorem PullOk.step_in (h : PullOk F b t B ps v) (W : LiveWf F) {s s' : St L} (hs : PullSt F b t s) (hst : step L (pulled F b t B ps v) s = .inl s') : step L F s = .inl s' ∧ PullSt F b t s' := by
  by_cases hb : s.cur = b
  · obtain ⟨r, hr, _⟩ := h.step_b W hs.1 hb
    rw [hr] at hst; cases hst
  · have he := h.step_eq hb hs.2
    rw [he] at hst
    refine ⟨hst, hs.1.step hst, ?_⟩
    intro _ hp
    obtain ⟨hp', _⟩ := step_target hst
    rw [hp'] at hp
    exact hb (Option.some.inj hp)

theorem PullOk.run_in (h : PullOk F b t B ps v) (W : LiveWf F) : ∀ {n : Nat} {s s' : St L}, PullSt F b t s → run L (pulled F b t B ps v) n s = .inl s' → run L F n s = .inl s' ∧ PullSt F b t s' := by
  intro n
  induction n with
  | zero => intro s s' hs hr; simp only [run, Sum.inl.injEq] at hr ⊢; subst hr; exact ⟨rfl, hs⟩
  | succ n ih =>
    intro s s' hs hr
    simp only [run] at hr ⊢
    cases hst : step L (pulled F b t B ps v) s with
    | inr r => rw [hst] at hr; simp at hr
    | inl s1 =>
      rw [hst] at hr
      obtain ⟨h1, h2⟩ := h.step_in W hs hst
      rw [h1]
      exact ih h2 hr

theorem PullOk.run_out (h : PullOk F b t B ps v) (W : LiveWf F) : ∀ {n : Nat} {s : St L} {r : Beh L}, PullSt F b t s → run L (pulled F b t B ps v) n s = .inr r → ∃ n', run L F n' s = .inr r := by
  intro n
  induction n with
  | zero => intro s r _ hr; simp [run] at hr
  | succ n ih =>
    intro s r hs hr
    simp only [run] at hr
    cases hst : step L (pulled F b t B ps v) s with
    | inl s1 =>
      rw [hst] at hr
      obtain ⟨h1, h2⟩ := h.step_in W hs hst
      obtain ⟨n', hn⟩ := ih h2 hr
      exact ⟨n' + 1, run_inl h1 hn⟩
    | inr r' =>
      rw [hst] at hr
      simp only [Sum.inr.injEq] at hr
      subst hr
      by_cases hb : s.cur = b
      · obtain ⟨r, h1, h2⟩ := h.step_b W hs.1 hb
        rw [hst] at h1
        cases h1
        exact ⟨2, h2⟩
      · rw [h.step_eq hb hs.2] at hst
        exact ⟨1, run_inr hst⟩

theorem PullOk.run_back (h : PullOk F b t B ps v) (W : LiveWf F) : ∀ {n : Nat} {s : St L} {r : Beh L}, PullSt F b t s → run L F n s = .inr r → ∃ n', run L (pulled F b t B ps v) n' s = .inr r := by
  intro n
  induction n with
  | zero => intro s r _ hr; simp [run] at hr
  | succ n ih =>
    intro s r hs hr
    by_cases hb : s.cur = b
    · obtain ⟨r', h1, h2⟩ := h.step_b W hs.1 hb
      have := run_det h2 hr
      subst this
      exact ⟨1, run_inr h1⟩
    · have he := h.step_eq hb hs.2
      simp only [run] at hr
      cases hst : step L F s with
      | inr r' =>
        rw [hst] at hr
        simp only [Sum.inr.injEq] at hr
        subst hr
        exact ⟨1, run_inr (by rw [he, hst])⟩
      | inl s1 =>
        rw [hst] at hr
        rw [hst] at he
        obtain ⟨h1, h2⟩ := h.step_in W hs he
        obtain ⟨n', hn⟩ := ih h2 hr
        exact ⟨n' + 1, run_inl he hn⟩

theorem PullOk.start (m : L.M) : PullSt F b t (start L F m) := ⟨filled_start m, fun _ h => by cases h⟩

theorem pulled_start (m : L.M) : SSA.start L (pulled F b t B ps v) m = SSA.start L F m := by unfold SSA.start; rw [pulled_entry]

theorem PullOk.ends (h : PullOk F b t B ps v) (W : LiveWf F) (m : L.M) (r : Beh L) : Ends L (pulled F b t B ps v) m r ↔ Ends L F m r := by
  unfold Ends
  rw [pulled_start]
  exact ⟨fun ⟨n, hn⟩ => h.run_out W (PullOk.start m) hn, fun ⟨n, hn⟩ => h.run_back W (PullOk.start m) hn⟩

end

section
variable {L : Lang} {V : Conv L} {sg : Sigs} {accOp : L.Op → Option L.C} {D : L.C → L.V → Prop} {P : Nat → Option L.F} {F : L.F} {f b t : Nat} {B : L.B} {ps : List (Phi L.C)} {v : Option (Opd L.C)}

theorem Conv.invoke_same {c : CallSem L} {F F' : L.F} {vs : List L.V} {m : L.M} (h : ∀ b, Ends (V.lang c vs) F' (V.enter m) b ↔ Ends (V.lang c vs) F (V.enter m) b) :
    V.invoke c F' vs m = V.invoke c F vs m := by
  by_cases hex : ∃ b, Ends (V.lang c vs) F (V.enter m) b
  · obtain ⟨b, hb⟩ := hex
    rw [Conv.invoke_eq hb, Conv.invoke_eq ((h b).2 hb)]
  · unfold Conv.invoke
    rw [dif_neg hex, dif_neg (fun ⟨b, hb⟩ => hex ⟨b, (h b).1 hb⟩)]

theorem PullOk.call (h : PullOk F b t B ps v) (W : LiveWf F) (hP : P f = some F) : ∀ d, V.call (setFn P f (pulled F b t B ps v)) d = V.call P d := by
  intro d
  induction d with
  | zero => rfl
  | succ d ih =>
    funext g vs m
    simp only [Conv.call]
    by_cases hg : g = f
    · subst hg
      have hset : setFn P g (pulled F b t B ps v) g = some (pulled F b t B ps v) := if_pos rfl
      rw [hset, hP]
      simp only
      rw [ih]
      exact Conv.invoke_same (fun r => h.ends (L := V.lang (V.call P d) vs) W (V.enter m) r)
    · have : setFn P f (pulled F b t B ps v) g = P g := if_neg hg
      rw [this, ih]

theorem PullOk.fn (h : PullOk F b t B ps v) (hF : FnOk V sg f F) : FnOk V sg f (pulled F b t B ps v) where
  wf := h.liveWf hF.wf
  noEntry q e := by
    rw [pulled_entry] at e
    exact hF.noEntry q (h.edge.1 e).2
  params q T hT o ho c j hoc hp := by
    obtain ⟨y, Y, hY, ho'⟩ := h.opds hT ho
    exact hF.params y Y hY o ho' c j hoc hp
  rets q T w hT ht := by
    rcases h.cases hT with ⟨rfl, rfl⟩ | ⟨rfl, rfl⟩ | ⟨h1, h2, h3⟩
    · have := hF.rets t _ v h.hT rfl
      cases ht
      rw [← this]
      unfold pullOpd
      simp
    · exact hF.rets q _ w h.hT ht
    · exact hF.rets q T w h3 ht
  calls q T i g hT hi hg := by
    obtain ⟨y, Y, hY, hi'⟩ := h.insts hT hi
    exact hF.calls y Y i g hY hi' hg
  voids q T i g hT hi hg hv x X hX hm := by
    obtain ⟨y, Y, hY, hi'⟩ := h.insts hT hi
    obtain ⟨z, Z, hZ, hm'⟩ := h.opds hX hm
    exact hF.voids y Y i g hY hi' hg hv z Z hZ hm'
  locals he q T hT i hi hc := by
    obtain ⟨y, Y, hY, hi'⟩ := h.insts hT hi
    exact hF.locals he y Y hY i hi' hc

theorem PullOk.noLocals (h : PullOk F b t B ps v) (hn : NoLocals V F) : NoLocals V (pulled F b t B ps v) := by
  intro q T hT i hi hc
  obtain ⟨y, Y, hY, hi'⟩ := h.insts hT hi
  exact hn y Y hY i hi' hc

theorem PullOk.returned {Op C : Type} {F : Func Op C} {b t : Nat} {B : Block Op C} {ps : List (Phi C)} {v : Option (Opd C)} (h : PullOk F b t B ps v) {x : Nat} (hx : Returned (pulled F b t B ps v) x) : Returned F x := by
  induction hx with
  | @ret q T x hT ht =>
    rcases h.cases hT with ⟨rfl, rfl⟩ | ⟨rfl, rfl⟩ | ⟨h1, h2, h3⟩
    · simp only [Term.ret.injEq] at ht
      obtain ⟨o, rfl, hc⟩ := pullOpd_cases ht
      rcases hc with ⟨rfl, _⟩ | ⟨p, hp, rfl, hat⟩
      · exact .ret h.hT rfl
      · exact .phi h.hT hp (mem_ops.2 ⟨_, Phi.at_mem hat⟩) (.ret h.hT rfl)
    · exact .ret h.hT ht
    · exact .ret h3 ht
  | @phi q T p x hT hp hx _ ih =>
    rcases h.cases hT with ⟨rfl, rfl⟩ | ⟨rfl, rfl⟩ | ⟨h1, h2, h3⟩
    · exact .phi h.hB hp hx ih
    · obtain ⟨p0, hp0, rfl⟩ := List.mem_map.1 hp
      obtain ⟨q, hq⟩ := mem_ops.1 hx
      exact .phi h.hT hp0 (mem_ops.2 ⟨q, List.mem_of_mem_filter hq⟩) ih
    · exact .phi h3 hp hx ih

theorem PullOk.typed (h : PullOk F b t B ps v) (W : LiveWf F) {calls : Nat → CallSem L} (hT : TailTyped V calls accOp D F) : TailTyped V calls accOp D (pulled F b t B ps v) where
  rets q T i c hqT hi hc hr e ws m w m' tr hend := by
    obtain ⟨y, Y, hY, hi'⟩ := h.insts hqT hi
    exact hT.rets y Y i c hY hi' hc (h.returned hr) e ws m w m' tr ((h.ends (L := V.lang (calls e) ws) W m _).1 hend)
  args T i c hi hc e ws m n s env env' m' es' is post hrun hcur hen hb hex x hx w hw := by
    rw [pulled_start (L := V.lang (calls e) ws)] at hrun
    obtain ⟨h1, h2⟩ := h.run_in (L := V.lang (calls e) ws) W (PullOk.start m) hrun
    rcases h.cases hcur with ⟨hsb, rfl⟩ | ⟨_, rfl⟩ | ⟨_, _, h3⟩
    · exact hT.args B i c hi hc e ws m n s env env' m' es' is post h1 (by rw [hsb]; exact h.hB) hen hb hex x hx w hw
    · simp at hi
    · exact hT.args T i c hi hc e ws m n s env env' m' es' is post h1 h3 hen hb hex x hx w hw

end
end Cmmc.SSA
