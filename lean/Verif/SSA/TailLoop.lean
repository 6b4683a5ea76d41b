import Verif.SSA.TailRef
/-!
# TailCallEliminate: the loop computes what the recursion computes (3)
-/
namespace Cmmc.SSA
section
variable {L : Lang} {V : Conv L} {N : TailNm} {S : TailSel L.Op L.C} {accOp : L.Op → Option L.C} {F : L.F} {f b k : Nat} {as : List L.C} {K : TailKind L.Op L.C} {B : L.B}
  {call : Inst L.Op L.C} {D : L.V → Prop} {mul : L.V → L.V → L.V} {P P' : Nat → Option L.F}

/-- how a run of the recursive function and the rest of the loop end -/
def TailRel (V : Conv L) (comb : L.V → L.V) (M : L.M) (tr0 : List L.E) {c1 c2 : CallSem L} {v1 v2 : List L.V} : Beh (V.lang c1 v1) → Beh (V.lang c2 v2) → Prop
  | .ret v m es, r => ∃ v', r = .ret v' (V.leave M m) (tr0 ++ es) ∧ v'.getD V.void = comb (v.getD V.void)
  | .halt h es, r => r = .halt h (tr0 ++ es)
  | .ub, _ => False

/-- what the pass relies on in the program: the function allocates nothing (TailCallEliminate.cpp:312-315), what it returns has the type the accumulator works on,
and so has the other operand of the accumulator -/
structure TailProg (V : Conv L) (P : Nat → Option L.F) (F : L.F) (f b k : Nat) (K : TailKind L.Op L.C) (B : L.B) (D : L.V → Prop) : Prop where
  hP : P f = some F
  locals : NoLocals V F
  retD : ∀ e ws m v m' tr, Ends (V.lang (V.call P e) ws) F m (.ret v m' tr) → D (v.getD V.void)
  other : ∀ e ws m n s env env' m' es', run (V.lang (V.call P e) ws) F n (start _ F m) = .inl s → s.cur = b → enterPhis (V.lang (V.call P e) ws) s.pred s.env B.phis s.env = some env →
    execBody (V.lang (V.call P e) ws) (B.body.take k) env s.m s.tr = .ok env' m' es' → OtherOk D (eval (V.lang (V.call P e) ws) env') K

theorem tailOp (hno : NoLocals V F) {e d : Nat} (hle : ∀ g vs m, V.call P e g vs m ≠ .ub → V.call P' d g vs m = V.call P e g vs m) {q : Nat} {T : L.B} (hT : F.blk q = some T)
    {i : Inst L.Op L.C} (hi : i ∈ T.body) : TailOp V (V.call P e) (V.call P' d) i.op := by
  intro vs mc hI
  unfold Conv.sem
  cases hc : V.callee i.op with
  | none =>
    have := fun m => hno q T hT i hi hc vs m mc hI
    simp only
    cases hs : L.sem i.op vs mc with
    | ub => trivial
    | halt es h =>
      intro m
      have := this m
      rw [hs] at this
      exact this
    | ok v mc' es =>
      refine ⟨?_, fun m => ?_⟩
      · have := this mc
        rw [hs] at this
        exact this.1
      · have := this m
        rw [hs] at this
        exact this.2
  | some g =>
    have := fun m => Conv.call_lift (V := V) P e g (vs := vs) (m := m) hI
    simp only
    cases hs : V.call P e g vs mc with
    | ub => trivial
    | halt es h =>
      intro m
      have := this m
      rw [hs] at this
      simp only at this
      rw [hle _ _ _ (by rw [this]; simp), this]
    | ok v mc' es =>
      refine ⟨?_, fun m => ?_⟩
      · have := this mc
        rw [hs] at this
        exact this.1
      · have := this m
        rw [hs] at this
        simp only at this
        rw [hle _ _ _ (by rw [this.2]; simp), this.2]

/-- a run that returns ends at a `return` -/
theorem ret_term {L : Lang} {F : L.F} : ∀ {n : Nat} {s : St L} {v : Option L.V} {m : L.M} {tr : List L.E}, run L F n s = .inr (.ret v m tr) →
    ∃ q T t, F.blk q = some T ∧ T.term = .ret t ∧ v.isSome = t.isSome := by
  intro n
  induction n with
  | zero => intro s v m tr h; simp [run] at h
  | succ n ih =>
    intro s v m tr h
    simp only [run] at h
    cases hs : step L F s with
    | inl s' => rw [hs] at h; exact ih h
    | inr r =>
      rw [hs] at h
      simp only [Sum.inr.injEq] at h
      subst h
      unfold step at hs
      cases hT : F.blk s.cur with
      | none => rw [hT] at hs; simp at hs
      | some T =>
        rw [hT] at hs
        simp only [stepBlk] at hs
        split at hs
        · simp at hs
        · split at hs
          · simp at hs
          · simp at hs
          · split at hs
            · simp at hs
            · rename_i w hw
              simp only [Sum.inr.injEq, Beh.ret.injEq] at hs
              obtain ⟨rfl, _, _⟩ := hs
              refine ⟨s.cur, T, ?_⟩
              cases ht : T.term with
              | ret t =>
                refine ⟨t, hT, rfl, ?_⟩
                rw [ht] at hw
                cases t with
                | none => simp only [evalTerm, Next.ret.injEq] at hw; rw [← hw]; rfl
                | some o =>
                  simp only [evalTerm] at hw
                  split at hw
                  · simp at hw
                  · simp only [Next.ret.injEq] at hw; rw [← hw]; rfl
              | br t => rw [ht] at hw; simp [evalTerm] at hw
              | cbr c t f' => rw [ht] at hw; simp only [evalTerm] at hw; split at hw <;> simp at hw
              | sw c d' cs =>
                rw [ht] at hw
                simp only [evalTerm] at hw
                split at hw
                · simp at hw
                · split at hw <;> simp at hw
              | unreachable => rw [ht] at hw; simp [evalTerm] at hw
            · simp at hs

/-- the block `q` of the new function -/
theorem TailOk.blk (h : TailOk V N S accOp F f b k as K B call) {q : Nat} {T : L.B} (hT : F.blk q = some T) :
    (F.tailElim N V.param S as b k call.args K).blk q = some (if q = F.entry then { N.block V.param S F.entry b k K q T with
      phis := N.phis V.param S as b call.args K ++ (N.block V.param S F.entry b k K q T).phis } else N.block V.param S F.entry b k K q T) := by
  unfold Func.tailElim
  simp only
  have hne : q ≠ N.e0 := by rintro rfl; exact h.names.e0 (h.listed _ _ hT)
  rw [if_neg hne, hT]
  simp only [Option.map_some]

theorem TailNm.block_phis {param : L.C → Option Nat} {h q : Nat} {T : L.B} : (N.block param S h b k K q T).phis = T.phis.map (N.phi param) := by
  unfold TailNm.block
  split
  · rfl
  · split <;> rfl

theorem TailNm.block_ret {param : L.C → Option Nat} {h q : Nat} {T : L.B} {o : Opd L.C} (hq : q ≠ b) (ht : T.term = .ret (some o)) :
    N.block param S h b k K q T = ⟨T.phis.map (N.phi param), T.body.map (N.inst param) ++ N.leaves S q (N.opd param o) K, .ret (some (N.leafOpd q (N.opd param o) K))⟩ := by
  unfold TailNm.block
  rw [if_neg hq, ht]

theorem TailNm.block_other {param : L.C → Option Nat} {h q : Nat} {T : L.B} (hq : q ≠ b) (ht : ∀ o, T.term ≠ .ret (some o)) :
    N.block param S h b k K q T = ⟨T.phis.map (N.phi param), T.body.map (N.inst param), N.term param T.term⟩ := by
  unfold TailNm.block
  rw [if_neg hq]
  split
  · rename_i v hv; exact absurd hv (ht v)
  · rfl

/-- **Main lemma.** -/
theorem TailOk.sim (h : TailOk V N S accOp F f b k as K B call) (hK : KindOk V S D mul K) (Q : TailProg V P F f b k K B D) {d : Nat} {vs0 : List L.V}
    (hle : ∀ e ≤ d, ∀ g vs m, V.call P e g vs m ≠ .ub → V.call P' d g vs m = V.call P e g vs m) :
    ∀ e, e ≤ d → ∀ n ws m0 n0 pred q ge mc es beh M tr0 te pred' ext comb, run (V.lang (V.call P e) ws) F n0 (start _ F m0) = .inl ⟨pred, q, ge, mc, es⟩ → Live F q → V.I mc →
      TailSt N D mul ext comb K →
      ((q ≠ F.entry ∧ pred = some pred' ∧ TailEnv V N as ws ext ge te) ∨
        (q = F.entry ∧ ge = (fun _ => none) ∧ ∃ te1, enterPhis (V.lang (V.call P' d) vs0) (some pred') te (N.phis V.param S as b call.args K) te = some te1 ∧ TailEnv V N as ws ext (fun _ => none) te1)) →
      run (V.lang (V.call P e) ws) F n ⟨pred, q, ge, mc, es⟩ = .inr beh → beh ≠ .ub →
      ∃ n' r, run (V.lang (V.call P' d) vs0) (F.tailElim N V.param S as b k call.args K) n' ⟨some pred', q, te, V.leave M mc, tr0 ++ es⟩ = .inr r ∧ TailRel V comb M tr0 beh r := by
  intro e
  induction e using Nat.strongRecOn with
  | ind e ihe =>
    intro hed n
    induction n with
    | zero => intro ws m0 n0 pred q ge mc es beh M tr0 te pred' ext comb _ _ _ _ _ hrun; simp [run] at hrun
    | succ n ihn =>
      intro ws m0 n0 pred q ge mc es beh M tr0 te pred' ext comb hreach hlive hI hst hent hrun hbeh
      have hfull : ∀ {v m' tr'}, beh = .ret v m' tr' → D (v.getD V.void) := by
        intro v m' tr' hb
        refine Q.retD e ws m0 v m' tr' ⟨n0 + (n + 1), ?_⟩
        rw [run_add, hreach]
        simp only
        rw [hrun, hb]
      have hrun0 := hrun
      simp only [run, step] at hrun
      cases hT : F.blk q with
      | none => rw [hT] at hrun; simp only [Sum.inr.injEq] at hrun; exact absurd hrun.symm hbeh
      | some T =>
        rw [hT] at hrun
        simp only [stepBlk] at hrun
        have hG := h.blk hT
        -- names of the block
        have hidn : ∀ x, x ∈ T.ids → (∀ j, x ≠ N.ps j) ∧ ∀ e ∈ ext, x ≠ e.1 := by
          intro x hx
          have hu := h.names.used q T x hT (.inr hx)
          refine ⟨hu.1, fun e he => ?_⟩
          rcases hst.names e he with h1 | h1 <;> rw [h1]
          · exact hu.2.1
          · exact hu.2.2.1
        have hphiId : ∀ p ∈ T.phis, p.id ∈ T.ids := fun p hp => List.mem_append_left _ (List.mem_map_of_mem hp)
        have hinstId : ∀ i ∈ T.body, i.id ∈ T.ids := fun i hi => List.mem_append_right _ (List.mem_map_of_mem hi)
        -- the phis
        have hphis : ∀ ge1, enterPhis (V.lang (V.call P e) ws) pred ge T.phis ge = some ge1 →
            ∃ te1, enterPhis (V.lang (V.call P' d) vs0) (some pred') te (if q = F.entry then N.phis V.param S as b call.args K ++ T.phis.map (N.phi V.param) else T.phis.map (N.phi V.param)) te = some te1 ∧
              TailEnv V N as ws ext ge1 te1 := by
          intro ge1 hge1
          rcases hent with ⟨hq, rfl, henv⟩ | ⟨hq, rfl, te1, h1, h2⟩
          · rw [if_neg hq]
            exact henv.phis (V := V) (cF := V.call P e) (cG := V.call P' d) (vs0 := vs0)
              (fun p hp o ho => h.pars q T hT o (by unfold Block.opds; exact List.mem_append_left _ (List.mem_append_left _ (List.mem_flatMap.2 ⟨p, hp, ho⟩))))
              (fun p hp => hidn _ (hphiId p hp)) henv hge1
          · rw [if_pos hq]
            have hp0 := h.entryPhis T (hq ▸ hT)
            rw [hp0] at hge1 ⊢
            simp only [enterPhis, Option.some.injEq] at hge1
            subst hge1
            rw [List.map_nil, List.append_nil]
            exact ⟨te1, h1, h2⟩
        cases hge : enterPhis (V.lang (V.call P e) ws) pred ge T.phis ge with
        | none => rw [hge] at hrun; simp only [Sum.inr.injEq] at hrun; exact absurd hrun.symm hbeh
        | some ge1 =>
          rw [hge] at hrun
          simp only at hrun
          obtain ⟨te1, hte1, henv1⟩ := hphis ge1 hge
          have hops : ∀ i ∈ T.body, TailOp V (V.call P e) (V.call P' d) i.op := fun i hi => tailOp Q.locals (hle e hed) hT hi
          have hpar : ∀ i ∈ T.body, ∀ o ∈ i.args, TailPar V.param as o := fun i hi o ho => h.pars q T hT o (mem_opds_use (.inl ⟨i, hi, ho⟩))
          by_cases hqb : q = b
          · -- the block with the call
            subst hqb
            have hTB : T = B := Option.some.inj (hT.symm.trans h.hB)
            subst hTB
            have hGp : (F.tailElim N V.param S as q k call.args K).blk q = some ⟨T.phis.map (N.phi V.param), (T.body.take k).map (N.inst V.param) ++ N.rest V.param S q K, .br F.entry⟩ := by
              rw [hG, if_neg h.bne]
              unfold TailNm.block
              rw [if_pos rfl]
            rw [if_neg h.bne] at hte1
            have hbody := henv1.body (V := V) (cF := V.call P e) (cG := V.call P' d) (vs0 := vs0) (m0 := M) (tr0 := tr0) (is := T.body.take k) (mc := mc) (es := es)
              (fun i hi => hops i (List.mem_of_mem_take hi)) (fun i hi => hpar i (List.mem_of_mem_take hi)) (fun i hi => hidn _ (hinstId i (List.mem_of_mem_take hi))) hI
            rw [h.body, execBody_append2] at hrun
            cases hx : execBody (V.lang (V.call P e) ws) (T.body.take k) ge1 mc es with
            | ub => rw [hx] at hrun; simp only [Sum.inr.injEq] at hrun; exact absurd hrun.symm hbeh
            | halt es' hh =>
              rw [hx] at hrun hbody
              simp only [Sum.inr.injEq] at hrun hbody
              subst hrun
              refine ⟨1, .halt hh (tr0 ++ es'), run_inr (step_halts (L := V.lang (V.call P' d) vs0) hGp hte1 ?_), rfl⟩
              rw [execBody_append2, hbody]
            | ok ge2 mc2 es2 =>
              rw [hx] at hrun hbody
              simp only at hrun hbody
              obtain ⟨hI2, te2, hb2, henv2⟩ := hbody
              rw [execBody] at hrun
              cases hws : evals (V.lang (V.call P e) ws) ge2 call.args with
              | none => rw [hws] at hrun; simp only [Sum.inr.injEq] at hrun; exact absurd hrun.symm hbeh
              | some ws' =>
                rw [hws] at hrun
                simp only at hrun
                have hsem : V.sem (V.call P e) call.op ws' mc2 = V.call P e f ws' mc2 := by
                  unfold Conv.sem
                  rw [h.callee]
                rw [hsem] at hrun
                have hoth := Q.other e ws m0 n0 _ ge1 ge2 mc2 es2 hreach rfl hge hx
                obtain ⟨te3, ext', comb', te4, hrest, hst', hhdr, henv4, hfin⟩ := h.rest (cF := V.call P e) (cG := V.call P' d) (ws := ws) (vs0 := vs0) hK (m := V.leave M mc2) (tr := tr0 ++ es2) hlive hst henv2 hws hoth
                -- the step of the loop
                have hstep : step (V.lang (V.call P' d) vs0) (F.tailElim N V.param S as q k call.args K) ⟨some pred', q, te, V.leave M mc, tr0 ++ es⟩ =
                    .inl ⟨some q, F.entry, te3, V.leave M mc2, tr0 ++ es2⟩ := by
                  refine step_goes (L := V.lang (V.call P' d) vs0) hGp hte1 (e2 := te3) (m2 := V.leave M mc2) (es := tr0 ++ es2) ?_ rfl
                  rw [execBody_append2, hb2]
                  exact hrest
                -- the recursive call
                cases e with
                | zero => simp only [Conv.call] at hrun; exact absurd (Sum.inr.inj hrun).symm hbeh
                | succ e' =>
                  have hcall : V.call P (e' + 1) f ws' mc2 = V.invoke (V.call P e') F ws' mc2 := by simp only [Conv.call, Q.hP]
                  rw [hcall] at hrun
                  have hub : V.invoke (V.call P e') F ws' mc2 ≠ .ub := by
                    intro hu
                    rw [hu] at hrun
                    simp only [Sum.inr.injEq] at hrun
                    exact hbeh hrun.symm
                  obtain ⟨b0, hb0, hne0, heq⟩ := Conv.invoke_ends hub
                  rw [heq] at hrun
                  obtain ⟨n1, hn1⟩ := hb0
                  have hMM : V.leave (V.leave M mc2) (V.enter mc2) = V.leave M mc2 := by
                    have h1 := V.leave_enter (V.leave M mc2)
                    rwa [V.enter_leave M mc2 hI2] at h1
                  obtain ⟨n', r, hr, hrel⟩ := ihe e' (Nat.lt_succ_self e') (Nat.le_of_succ_le hed) n1 ws' (V.enter mc2) 0 none F.entry (fun _ => none) (V.enter mc2) [] b0 (V.leave M mc2) (tr0 ++ es2) te3 q ext' comb'
                    rfl ⟨_, .single _⟩ (V.enter_I mc2) hst' (.inr ⟨rfl, rfl, te4, hhdr, henv4⟩) hn1 hne0
                  rw [hMM, List.append_nil] at hr
                  cases b0 with
                  | ub => exact absurd rfl hne0
                  | halt hh es3 =>
                    simp only [Conv.result, Sum.inr.injEq] at hrun
                    subst hrun
                    refine ⟨n' + 1, r, run_inl hstep hr, ?_⟩
                    simp only [TailRel] at hrel ⊢
                    rw [hrel, List.append_assoc]
                  | ret v mc3 es3 =>
                    simp only [Conv.result] at hrun
                    obtain ⟨v', hv', hcv⟩ := hrel
                    have hDv := Q.retD e' ws' (V.enter mc2) v mc3 es3 ⟨n1, hn1⟩
                    have hvn : T.term = .ret none → v = none := by
                      intro ht
                      obtain ⟨q', T', t, hT', ht', hv⟩ := ret_term hn1
                      rcases h.rets with h1 | h1
                      · have := h1 q T none hT ht; cases this
                      · have := h1 q' T' t hT' ht'
                        rw [this] at hv
                        cases v with
                        | none => rfl
                        | some _ => cases hv
                    have hterm : ∃ t, T.term = .ret t := by
                      have hsp := tailKind_spec h.kind
                      cases K with
                      | plain => rcases hsp.2 with h1 | h1 <;> exact ⟨_, h1⟩
                      | acc i l x c => exact ⟨_, hsp.2.1⟩
                      | first x => exact ⟨_, hsp.2.1⟩
                    cases hx5 : execBody (V.lang (V.call P (e' + 1)) ws) (T.body.drop (k + 1)) (setEnv (V.lang (V.call P (e' + 1)) ws) ge2 call.id (v.getD V.void)) (V.leave mc2 mc3) (es2 ++ es3) with
                    | ub => rw [hx5] at hrun; simp only [Sum.inr.injEq] at hrun; exact absurd hrun.symm hbeh
                    | halt es' hh =>
                      exfalso
                      have hsp := tailKind_spec h.kind
                      cases K with
                      | plain => rw [hsp.1] at hx5; simp [execBody] at hx5
                      | first x => rw [hsp.1] at hx5; simp [execBody] at hx5
                      | acc i l x c =>
                        rw [hsp.1] at hx5
                        have A : AccOk V D mul i.op c := hK
                        obtain ⟨xv, hxv, hxD⟩ := hoth
                        have e1 : eval (V.lang (V.call P (e' + 1)) ws) (setEnv L ge2 call.id (v.getD V.void)) x = some xv := by
                          rw [← hxv]; exact eval_setEnv_ne (L := V.lang (V.call P (e' + 1)) ws) hsp.2.2.2.1
                        have e2 : eval (V.lang (V.call P (e' + 1)) ws) (setEnv L ge2 call.id (v.getD V.void)) (.inst call.id) = some (v.getD V.void) := by simp [eval, setEnv]
                        cases l with
                        | true =>
                          have := exec_one (L := V.lang (V.call P (e' + 1)) ws) (i := i) (tr := es2 ++ es3) (by rw [hsp.2.2.2.2.1]; exact evals_two e2 e1)
                            ((sem_plain (c := V.call P (e' + 1)) (vs := ws) A.callee _ (V.leave mc2 mc3)).trans (A.sem _ _ _ hDv hxD))
                          cases this.symm.trans hx5
                        | false =>
                          have := exec_one (L := V.lang (V.call P (e' + 1)) ws) (i := i) (tr := es2 ++ es3) (by rw [hsp.2.2.2.2.1]; exact evals_two e1 e2)
                            ((sem_plain (c := V.call P (e' + 1)) (vs := ws) A.callee _ (V.leave mc2 mc3)).trans (A.sem _ _ _ hxD hDv))
                          cases this.symm.trans hx5
                    | ok ge5 m5 es5 =>
                      rw [hx5] at hrun
                      simp only at hrun
                      cases ht : evalTerm (V.lang (V.call P (e' + 1)) ws) ge5 T.term with
                      | ub => rw [ht] at hrun; simp only [Sum.inr.injEq] at hrun; exact absurd hrun.symm hbeh
                      | goto c =>
                        obtain ⟨t, htt⟩ := hterm
                        rw [htt] at ht
                        cases t with
                        | none => simp [evalTerm] at ht
                        | some o => simp only [evalTerm] at ht; split at ht <;> simp at ht
                      | ret r' =>
                        rw [ht] at hrun
                        simp only [Sum.inr.injEq] at hrun
                        subst hrun
                        obtain ⟨rfl, rfl, hcomb⟩ := hfin v _ _ ge5 m5 es5 r' hvn hDv hx5 ht
                        refine ⟨n' + 1, r, run_inl hstep hr, ?_⟩
                        refine ⟨v', ?_, by rw [hcv, hcomb]⟩
                        rw [hv', V.leave_leave, List.append_assoc]
          · -- another block
            have hbody := henv1.body (V := V) (cF := V.call P e) (cG := V.call P' d) (vs0 := vs0) (m0 := M) (tr0 := tr0) (is := T.body) (mc := mc) (es := es)
              hops hpar (fun i hi => hidn _ (hinstId i hi)) hI
            cases hx : execBody (V.lang (V.call P e) ws) T.body ge1 mc es with
            | ub => rw [hx] at hrun; simp only [Sum.inr.injEq] at hrun; exact absurd hrun.symm hbeh
            | halt es' hh =>
              rw [hx] at hrun hbody
              simp only [Sum.inr.injEq] at hrun hbody
              subst hrun
              have hGb : ∃ js t, (F.tailElim N V.param S as b k call.args K).blk q = some ⟨if q = F.entry then N.phis V.param S as b call.args K ++ T.phis.map (N.phi V.param) else T.phis.map (N.phi V.param), T.body.map (N.inst V.param) ++ js, t⟩ := by
                rw [hG]
                by_cases hr : ∃ o, T.term = .ret (some o)
                · obtain ⟨o, ho⟩ := hr
                  rw [TailNm.block_ret hqb ho]
                  refine ⟨N.leaves S q (N.opd V.param o) K, .ret (some (N.leafOpd q (N.opd V.param o) K)), ?_⟩
                  split <;> rfl
                · rw [TailNm.block_other hqb (fun o ho => hr ⟨o, ho⟩)]
                  refine ⟨[], N.term V.param T.term, ?_⟩
                  rw [List.append_nil]
                  split <;> rfl
              obtain ⟨js, t, hGb⟩ := hGb
              refine ⟨1, .halt hh (tr0 ++ es'), run_inr (step_halts (L := V.lang (V.call P' d) vs0) hGb hte1 ?_), rfl⟩
              rw [execBody_append2, hbody]
            | ok ge2 mc2 es2 =>
              rw [hx] at hrun hbody
              simp only at hrun hbody
              obtain ⟨hI2, te2, hb2, henv2⟩ := hbody
              have hterm := henv2.term (V := V) (cF := V.call P e) (cG := V.call P' d) (vs0 := vs0) (t := T.term) (fun o ho => h.pars q T hT o (mem_opds_use (.inr ho)))
              cases ht : evalTerm (V.lang (V.call P e) ws) ge2 T.term with
              | ub => rw [ht] at hrun; simp only [Sum.inr.injEq] at hrun; exact absurd hrun.symm hbeh
              | goto c =>
                rw [ht] at hrun hterm
                simp only at hrun hterm
                have hnr : ∀ v, T.term ≠ .ret (some v) := by
                  intro v hv
                  rw [hv] at ht
                  simp only [evalTerm] at ht
                  split at ht <;> simp at ht
                have hGb : (F.tailElim N V.param S as b k call.args K).blk q = some ⟨if q = F.entry then N.phis V.param S as b call.args K ++ T.phis.map (N.phi V.param) else T.phis.map (N.phi V.param), T.body.map (N.inst V.param), N.term V.param T.term⟩ := by
                  rw [hG, TailNm.block_other hqb hnr]
                  split <;> rfl
                have hstep := step_goes (L := V.lang (V.call P' d) vs0) hGb hte1 hb2 hterm
                have hedge : Edge F q c := ⟨T, hT, evalTerm_targets (L := V.lang (V.call P e) ws) ht⟩
                have hreach' : run (V.lang (V.call P e) ws) F (n0 + 1) (start _ F m0) = .inl ⟨some q, c, ge2, mc2, es2⟩ := by
                  rw [run_add, hreach]
                  simp only [run, step, hT, stepBlk, hge, hx, ht]
                obtain ⟨n', r, hr, hrel⟩ := ihn ws m0 (n0 + 1) (some q) c ge2 mc2 es2 beh M tr0 te2 q ext comb hreach' (hlive.edge hedge) hI2 hst
                  (.inl ⟨fun hc => h.noEntry q (hc ▸ hedge), rfl, henv2⟩) hrun hbeh
                exact ⟨n' + 1, r, run_inl hstep hr, hrel⟩
              | ret v =>
                rw [ht] at hrun hterm
                simp only [Sum.inr.injEq] at hrun hterm
                subst hrun
                have hDv := hfull rfl
                cases hTt : T.term with
                | ret t =>
                  cases t with
                  | none =>
                    have hGb : (F.tailElim N V.param S as b k call.args K).blk q = some ⟨if q = F.entry then N.phis V.param S as b call.args K ++ T.phis.map (N.phi V.param) else T.phis.map (N.phi V.param), T.body.map (N.inst V.param), N.term V.param T.term⟩ := by
                      rw [hG, TailNm.block_other hqb (fun o ho => by rw [hTt] at ho; cases ho)]
                      split <;> rfl
                    rw [hTt] at ht
                    simp only [evalTerm, Next.ret.injEq] at ht
                    subst ht
                    refine ⟨1, _, run_inr (step_rets (L := V.lang (V.call P' d) vs0) hGb hte1 hb2 hterm), none, rfl, ?_⟩
                    -- void functions: nothing is combined
                    have hvoid : ∀ q T v, F.blk q = some T → T.term = .ret v → v = none := by
                      rcases h.rets with h1 | h1
                      · have := h1 q T none hT hTt; cases this
                      · exact h1
                    have hpl : K = .plain := by
                      have hsp := tailKind_spec h.kind
                      cases K with
                      | plain => rfl
                      | acc i l x c => have := hvoid b B _ h.hB hsp.2.1; cases this
                      | first x => have := hvoid b B _ h.hB hsp.2.1; cases this
                    subst hpl
                    rw [hst.2]
                    rfl
                  | some o =>
                    have hGb : (F.tailElim N V.param S as b k call.args K).blk q = some ⟨if q = F.entry then N.phis V.param S as b call.args K ++ T.phis.map (N.phi V.param) else T.phis.map (N.phi V.param),
                        T.body.map (N.inst V.param) ++ N.leaves S q (N.opd V.param o) K, .ret (some (N.leafOpd q (N.opd V.param o) K))⟩ := by
                      rw [hG, TailNm.block_ret hqb hTt]
                      split <;> rfl
                    rw [hTt] at ht
                    simp only [evalTerm] at ht
                    cases hev : eval (V.lang (V.call P e) ws) ge2 o with
                    | none => rw [hev] at ht; simp at ht
                    | some w =>
                      rw [hev] at ht
                      simp only [Next.ret.injEq] at ht
                      subst ht
                      obtain ⟨te', hl1, hl2⟩ := h.leaf (cF := V.call P e) (cG := V.call P' d) (ws := ws) (vs0 := vs0) hK (m := V.leave M mc2) (tr := tr0 ++ es2) hst henv2 (y := q)
                        (h.pars q T hT o (mem_opds_use (.inr (by rw [hTt]; simp [Term.args])))) hev hDv
                      refine ⟨1, _, run_inr (step_rets (L := V.lang (V.call P' d) vs0) hGb hte1 (e2 := te') ?_ hl2), some (comb w), rfl, rfl⟩
                      rw [execBody_append2, hb2]
                      exact hl1
                | br t => rw [hTt] at ht; simp [evalTerm] at ht
                | cbr c t f' => rw [hTt] at ht; simp only [evalTerm] at ht; split at ht <;> simp at ht
                | sw c d' cs =>
                  rw [hTt] at ht
                  simp only [evalTerm] at ht
                  split at ht
                  · simp at ht
                  · split at ht <;> simp at ht
                | unreachable => rw [hTt] at ht; simp [evalTerm] at ht

end
end Cmmc.SSA
