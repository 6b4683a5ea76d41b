import Verif.SSA.TailPull2
/-!
# C77: TailCallEliminate (cmmc/Transforms/ControlFlow/TailCallEliminate.cpp)
-/
namespace Cmmc.SSA

/-! ## calls that return -/
section
variable {L : Lang} {c1 c2 : L.C → L.V} {s1 s2 : L.Op → List L.V → L.M → Res L.V L.M L.E L.H}

theorem upd_body_ok (hs : ∀ op vs m v m' es, s1 op vs m = .ok v m' es → s2 op vs m = .ok v m' es) {is : List (Inst L.Op L.C)} (hc : ∀ c, c1 c = c2 c) :
    ∀ {env e : Env L} {m m' : L.M} {es es' : List L.E}, execBody (L.upd c1 s1) is env m es = .ok e m' es' → execBody (L.upd c2 s2) is env m es = .ok e m' es' := by
  induction is with
  | nil => intro env e m m' es es' h; simp only [execBody, BodyRes.ok.injEq] at h ⊢; exact h
  | cons i is ih =>
    intro env e m m' es es' h
    simp only [execBody] at h ⊢
    rw [upd_evals (s1 := s1) (s2 := s2) (fun _ _ c _ => hc c) env]
    cases hv : evals (L.upd c1 s1) env i.args with
    | none => rw [hv] at h; simp at h
    | some vs =>
      rw [hv] at h
      simp only at h ⊢
      cases h1 : s1 i.op vs m with
      | ub => rw [h1] at h; simp at h
      | halt es' hh => rw [h1] at h; simp at h
      | ok v m1 es1 =>
        rw [h1] at h
        rw [hs _ _ _ _ _ _ h1]
        exact ih h

theorem upd_run_ret {F : L.F} (hs : ∀ op vs m v m' es, s1 op vs m = .ok v m' es → s2 op vs m = .ok v m' es) (hc : ∀ c, c1 c = c2 c) :
    ∀ (n : Nat) (pred : Option Nat) (cur : Nat) (env : Env L) (m : L.M) (tr : List L.E) (v : Option L.V) (m' : L.M) (es : List L.E),
      run (L.upd c1 s1) F n ⟨pred, cur, env, m, tr⟩ = .inr (.ret v m' es) → run (L.upd c2 s2) F n ⟨pred, cur, env, m, tr⟩ = .inr (.ret v m' es) := by
  intro n
  induction n with
  | zero => intro pred cur env m tr v m' es h; simp [run] at h
  | succ n ih =>
    intro pred cur env m tr v m' es h
    simp only [run, step] at h ⊢
    cases hB : F.blk cur with
    | none => rw [hB] at h; simp at h
    | some B =>
      rw [hB] at h
      simp only [stepBlk] at h ⊢
      rw [upd_phis (c1 := c1) (c2 := c2) (s1 := s1) (s2 := s2) (fun _ _ _ _ c _ => hc c) env]
      cases h1 : enterPhis (L.upd c1 s1) pred env B.phis env with
      | none => rw [h1] at h; simp at h
      | some e1 =>
        rw [h1] at h
        simp only at h ⊢
        cases h2 : execBody (L.upd c1 s1) B.body e1 m tr with
        | ub => rw [h2] at h; simp at h
        | halt es hh => rw [h2] at h; simp at h
        | ok e2 m2 es2 =>
          rw [h2] at h
          rw [upd_body_ok hs hc h2]
          simp only at h ⊢
          have ht := upd_term (c1 := c1) (c2 := c2) (s1 := s1) (s2 := s2) (t := B.term) (fun _ _ c _ => hc c) e2
          cases h3 : evalTerm (L.upd c1 s1) e2 B.term with
          | ub => rw [h3] at h; simp at h
          | ret w =>
            rw [h3] at h ht
            simp only at ht h
            rw [ht]
            simp only [Sum.inr.injEq, Beh.ret.injEq] at h ⊢
            exact h
          | goto q =>
            rw [h3] at h ht
            simp only at ht h
            rw [ht]
            exact ih _ _ _ _ _ _ _ _ h

end

section
variable {L : Lang} {V : Conv L} {P : Nat → Option L.F} {F F' : L.F} {f k : Nat} {B : L.B}

theorem Conv.invoke_ok {c : CallSem L} {F : L.F} {vs : List L.V} {m : L.M} {v : L.V} {m' : L.M} {es : List L.E} (h : V.invoke c F vs m = .ok v m' es) :
    ∃ w mc, Ends (V.lang c vs) F (V.enter m) (.ret w mc es) ∧ v = w.getD V.void ∧ m' = V.leave m mc := by
  obtain ⟨b, hb, hne, he⟩ := Conv.invoke_ends (V := V) (F := F) (vs := vs) (m := m) (call := c) (by rw [h]; simp)
  rw [he] at h
  cases b with
  | ub => exact absurd rfl hne
  | halt hh es' => cases h
  | ret w mc es' =>
    simp only [Conv.result, Res.ok.injEq] at h
    obtain ⟨rfl, rfl, rfl⟩ := h
    exact ⟨w, mc, hb, rfl, rfl⟩

/-- better calls, as far as they return -/
theorem Conv.invoke_ret {c1 c2 : CallSem L} (h : ∀ f vs m v m' es, c1 f vs m = .ok v m' es → c2 f vs m = .ok v m' es) {F : L.F} {vs : List L.V} {m : L.M} {v : L.V} {m' : L.M} {es : List L.E}
    (hu : V.invoke c1 F vs m = .ok v m' es) : V.invoke c2 F vs m = .ok v m' es := by
  obtain ⟨w, mc, ⟨n, hn⟩, rfl, rfl⟩ := Conv.invoke_ok hu
  have : Ends (V.lang c2 vs) F (V.enter m) (.ret w mc es) := by
    refine ⟨n, upd_run_ret (L := L) ?_ (fun _ => rfl) n _ _ _ _ _ _ _ _ hn⟩
    intro op vs m v m' es hs
    unfold Conv.sem at hs ⊢
    cases hc : V.callee op with
    | none => rw [hc] at hs; exact hs
    | some g => rw [hc] at hs; exact h g vs m v m' es hs
  rw [Conv.invoke_eq this]
  rfl

/-- a function that calls itself in its entry block does not return -/
theorem never_returns (hP : P f = some F) (hB : F.blk F.entry = some B) (hc : ∃ i ∈ B.body, V.callee i.op = some f) : ∀ d vs m v m' es, V.call P d f vs m ≠ .ok v m' es := by
  intro d
  induction d with
  | zero => intro vs m v m' es h; cases h
  | succ d ih =>
    intro vs m v m' es h
    simp only [Conv.call, hP] at h
    obtain ⟨w, mc, ⟨n, hn⟩, _⟩ := Conv.invoke_ok h
    cases n with
    | zero => simp [run] at hn
    | succ n =>
      have hbody : ∀ (is : List (Inst L.Op L.C)), (∃ i ∈ is, V.callee i.op = some f) → ∀ env m es env' m' es', execBody (V.lang (V.call P d) vs) is env m es ≠ .ok env' m' es' := by
        intro is
        induction is with
        | nil => rintro ⟨i, hi, _⟩; simp at hi
        | cons i is ih2 =>
          intro hex env m es env' m' es' hx
          simp only [execBody] at hx
          split at hx
          · cases hx
          · split at hx
            · rename_i xs _ _ v1 m1 es1 hs
              obtain ⟨j, hj, hjc⟩ := hex
              rcases List.mem_cons.1 hj with rfl | hj
              · have hs' : V.sem (V.call P d) j.op xs m = .ok v1 m1 es1 := hs
                unfold Conv.sem at hs'
                rw [hjc] at hs'
                exact ih _ _ _ _ _ hs'
              · exact ih2 ⟨j, hj, hjc⟩ _ _ _ _ _ _ hx
            · cases hx
            · cases hx
      simp only [run, step, start, hB, stepBlk] at hn
      split at hn
      · rename_i s' hs'
        split at hs'
        · cases hs'
        · split at hs'
          · cases hs'
          · cases hs'
          · rename_i hx
            exact hbody _ hc _ _ _ _ _ _ hx
      · rename_i r hs'
        split at hs'
        · cases hs'; cases hn
        · split at hs'
          · cases hs'; cases hn
          · cases hs'; cases hn
          · rename_i hx
            exact hbody _ hc _ _ _ _ _ _ hx

/-- a function that does not return can be exchanged for anything, as far as calls that return are concerned -/
theorem Conv.exchange_ret (hno : ∀ d vs m v m' es, V.call P d f vs m ≠ .ok v m' es) (F' : L.F) :
    ∀ d g vs m v m' es, V.call P d g vs m = .ok v m' es → V.call (setFn P f F') d g vs m = .ok v m' es := by
  intro d
  induction d with
  | zero => intro g vs m v m' es h; cases h
  | succ d ih =>
    intro g vs m v m' es h
    by_cases hg : g = f
    · subst hg; exact absurd h (hno _ _ _ _ _ _)
    · simp only [Conv.call] at h ⊢
      have : setFn P f F' g = P g := if_neg hg
      rw [this]
      cases hG : P g with
      | none => rw [hG] at h; cases h
      | some G =>
        rw [hG] at h
        simp only at h ⊢
        exact Conv.invoke_ret ih h

end

/-! ## the entry block -/
section
variable {Op C : Type} {F : Func Op C} {B : Block Op C} {u : Nat → C} {k : Nat}

theorem tailEntry_blk (hB : F.blk F.entry = some B) (x : Nat) : (tailEntry u F B k).blk x =
    if x = F.entry then some { B.sub (undefOf u ((B.body.drop k).map Inst.id)) with body := (B.body.take k).map (Inst.sub (undefOf u ((B.body.drop k).map Inst.id))), term := .unreachable }
    else (F.blk x).map (Block.sub (undefOf u ((B.body.drop k).map Inst.id))) := by
  unfold tailEntry
  rw [Func.set_blk]
  rfl

theorem sub_ids {σ : Nat → Opd C} {X : Block Op C} : (X.sub σ).ids = X.ids := by
  unfold Block.ids Block.sub
  simp only [List.map_map]
  rfl

theorem sub_targets {σ : Nat → Opd C} {X : Block Op C} : (X.sub σ).term.targets = X.term.targets := by
  unfold Block.sub
  cases X.term <;> rfl

theorem tailEntry_edge (hB : F.blk F.entry = some B) {x y : Nat} (e : Edge (tailEntry u F B k) x y) : x ≠ F.entry ∧ Edge F x y := by
  obtain ⟨X, hX, hy⟩ := e
  rw [tailEntry_blk hB] at hX
  by_cases hx : x = F.entry
  · rw [if_pos hx] at hX; cases hX; simp [Term.targets] at hy
  · rw [if_neg hx] at hX
    obtain ⟨Y, hY, rfl⟩ := Option.map_eq_some_iff.1 hX
    exact ⟨hx, Y, hY, by rwa [sub_targets] at hy⟩

theorem tailEntry_live (hB : F.blk F.entry = some B) {x : Nat} (h : Live (tailEntry u F B k) x) : x = F.entry := by
  obtain ⟨p, hp⟩ := h
  have he : (tailEntry u F B k).entry = F.entry := rfl
  rw [he] at hp
  cases hp with
  | single _ => rfl
  | cons e _ => exact absurd rfl (tailEntry_edge hB e).1

theorem tailEntry_opds (hB : F.blk F.entry = some B) {x : Nat} {X : Block Op C} (hX : (tailEntry u F B k).blk x = some X) {o : Opd C} (ho : o ∈ X.opds) :
    (∃ z, o = .cst (u z)) ∨ ∃ Y, F.blk x = some Y ∧ o ∈ Y.opds := by
  have hs : ∀ {o' : Opd C}, (∃ z, o'.sub (undefOf u ((B.body.drop k).map Inst.id)) = .cst (u z)) ∨ o'.sub (undefOf u ((B.body.drop k).map Inst.id)) = o' := by
    intro o'
    cases o' with
    | cst c => exact .inr rfl
    | inst z =>
      simp only [Opd.sub, undefOf]
      split
      · exact .inl ⟨z, rfl⟩
      · exact .inr rfl
  have hY : ∃ Y, F.blk x = some Y ∧ (∀ p ∈ X.phis, ∃ p0 ∈ Y.phis, p = p0.sub (undefOf u ((B.body.drop k).map Inst.id))) ∧
      (∀ i ∈ X.body, ∃ i0 ∈ Y.body, i = i0.sub (undefOf u ((B.body.drop k).map Inst.id))) ∧ ∀ a ∈ X.term.args, ∃ a0 ∈ Y.term.args, a = a0.sub (undefOf u ((B.body.drop k).map Inst.id)) := by
    rw [tailEntry_blk hB] at hX
    by_cases hx : x = F.entry
    · subst hx
      rw [if_pos rfl] at hX
      cases hX
      refine ⟨B, hB, ?_, ?_, ?_⟩
      · intro p hp
        obtain ⟨p0, hp0, rfl⟩ := List.mem_map.1 hp
        exact ⟨p0, hp0, rfl⟩
      · intro i hi
        obtain ⟨i0, hi0, rfl⟩ := List.mem_map.1 hi
        exact ⟨i0, List.mem_of_mem_take hi0, rfl⟩
      · intro a ha; simp [Term.args] at ha
    · rw [if_neg hx] at hX
      obtain ⟨Y, hY, rfl⟩ := Option.map_eq_some_iff.1 hX
      refine ⟨Y, hY, ?_, ?_, ?_⟩
      · intro p hp
        obtain ⟨p0, hp0, rfl⟩ := List.mem_map.1 hp
        exact ⟨p0, hp0, rfl⟩
      · intro i hi
        obtain ⟨i0, hi0, rfl⟩ := List.mem_map.1 hi
        exact ⟨i0, hi0, rfl⟩
      · intro a ha
        have ha' : a ∈ (Y.term.sub (undefOf u ((B.body.drop k).map Inst.id))).args := ha
        rw [Term.args_sub] at ha'
        obtain ⟨a0, ha0, rfl⟩ := List.mem_map.1 ha'
        exact ⟨a0, ha0, rfl⟩
  obtain ⟨Y, hY, h1, h2, h3⟩ := hY
  have fin : ∀ {o0 : Opd C}, o0 ∈ Y.opds → o = o0.sub (undefOf u ((B.body.drop k).map Inst.id)) → (∃ z, o = .cst (u z)) ∨ ∃ Y, F.blk x = some Y ∧ o ∈ Y.opds := by
    intro o0 ho0 he
    rcases hs (o' := o0) with ⟨z, hz⟩ | hz
    · exact .inl ⟨z, by rw [he, hz]⟩
    · exact .inr ⟨Y, hY, by rw [he, hz]; exact ho0⟩
  rcases opds_cases ho with ⟨p, hp, q, hq⟩ | ⟨i, hi, hx⟩ | hx
  · obtain ⟨p0, hp0, rfl⟩ := h1 p hp
    simp only [Phi.sub, List.mem_map, Prod.mk.injEq] at hq
    obtain ⟨⟨q0, o0⟩, he, _, hoo⟩ := hq
    exact fin (mem_opds_phi hp0 he) hoo.symm
  · obtain ⟨i0, hi0, rfl⟩ := h2 i hi
    simp only [Inst.sub, List.mem_map] at hx
    obtain ⟨o0, ho0, hoo⟩ := hx
    exact fin (mem_opds_use (.inl ⟨i0, hi0, ho0⟩)) hoo.symm
  · obtain ⟨o0, ho0, hoo⟩ := h3 o hx
    exact fin (mem_opds_use (.inr ho0)) hoo

theorem tailEntry_insts (hB : F.blk F.entry = some B) {x : Nat} {X : Block Op C} (hX : (tailEntry u F B k).blk x = some X) {i : Inst Op C} (hi : i ∈ X.body) :
    ∃ Y i0, F.blk x = some Y ∧ i0 ∈ Y.body ∧ i.id = i0.id ∧ i.op = i0.op ∧ i.args.length = i0.args.length := by
  rw [tailEntry_blk hB] at hX
  by_cases hx : x = F.entry
  · subst hx
    rw [if_pos rfl] at hX
    cases hX
    obtain ⟨i0, hi0, rfl⟩ := List.mem_map.1 hi
    exact ⟨B, i0, hB, List.mem_of_mem_take hi0, rfl, rfl, by simp [Inst.sub]⟩
  · rw [if_neg hx] at hX
    obtain ⟨Y, hY, rfl⟩ := Option.map_eq_some_iff.1 hX
    obtain ⟨i0, hi0, rfl⟩ := List.mem_map.1 hi
    exact ⟨Y, i0, hY, hi0, rfl, rfl, by simp [Inst.sub]⟩

theorem tailEntry_liveWf (W : LiveWf F) (hB : F.blk F.entry = some B) : LiveWf (tailEntry u F B k) := by
  have hps := W.entryPhis B hB
  have hent : (tailEntry u F B k).entry = F.entry := rfl
  have hord : (tailEntry u F B k).order = F.order := rfl
  have hE : (tailEntry u F B k).blk F.entry = some { B.sub (undefOf u ((B.body.drop k).map Inst.id)) with body := (B.body.take k).map (Inst.sub (undefOf u ((B.body.drop k).map Inst.id))), term := .unreachable } := by
    rw [tailEntry_blk hB, if_pos rfl]
  have hexE : ∀ {b X}, (tailEntry u F B k).blk b = some X → Live (tailEntry u F B k) b → b = F.entry ∧ X.phis = [] ∧ X.body = (B.body.take k).map (Inst.sub (undefOf u ((B.body.drop k).map Inst.id))) ∧ X.term = .unreachable := by
    intro b X hX hl
    have := tailEntry_live hB hl
    subst this
    rw [hE] at hX
    cases hX
    refine ⟨rfl, ?_, rfl, rfl⟩
    unfold Block.sub
    rw [hps]; rfl
  have hmapid : ∀ (l : List (Inst Op C)), (l.map (Inst.sub (undefOf u ((B.body.drop k).map Inst.id)))).map Inst.id = l.map Inst.id := by intro l; rw [List.map_map]; rfl
  -- an operand of what is left of the entry block
  have hopd : ∀ pre (i : Inst Op C) post, (B.body.take k).map (Inst.sub (undefOf u ((B.body.drop k).map Inst.id))) = pre ++ i :: post → ∀ x, Opd.inst x ∈ i.args → x ∈ pre.map Inst.id := by
    intro pre i post hsp x hx
    obtain ⟨pre0, r0, h1, h2, h3⟩ := List.map_eq_append_iff.1 hsp
    obtain ⟨i0, post0, rfl, rfl, h5⟩ := List.map_eq_cons_iff.1 h3
    have hx0 : Opd.inst x ∈ i0.args := Opd.mem_sub hx
    have hbody : B.body = pre0 ++ i0 :: (post0 ++ B.body.drop k) := by
      have h6 := (List.take_append_drop k B.body).symm
      rw [h1] at h6
      exact h6.trans (by rw [List.append_assoc, List.cons_append])
    have hl : Live F F.entry := ⟨_, .single _⟩
    obtain ⟨d, hd, hdom⟩ := W.use F.entry B x hB hl (.inl ⟨i0, by rw [hbody]; simp, hx0⟩)
    have := domi_entry hdom
    subst this
    obtain ⟨B', hB', hm⟩ := hd
    have := Option.some.inj (hB'.symm.trans hB)
    subst this
    rcases (W.inOrder _ B' hB hl).1 pre0 i0 _ hbody x hx0 hm with h6 | h6
    · rw [hps] at h6; simp at h6
    · rw [← h2, hmapid]; exact h6
  refine { nodup := W.nodup, listed := ?_, total := ?_, entryIn := W.entryIn, closed := ?_, unique := ?_, entryPhis := ?_, inOrder := ?_, use := ?_, phiUse := ?_, phiPred := ?_, phiAll := ?_, phiDead := ?_ }
  · intro x X hX
    rw [tailEntry_blk hB] at hX
    by_cases hx : x = F.entry
    · rw [hx]; exact W.entryIn
    · rw [if_neg hx] at hX
      obtain ⟨Y, hY, _⟩ := Option.map_eq_some_iff.1 hX
      exact W.listed x Y hY
  · intro x hx
    obtain ⟨Y, hY⟩ := W.total x hx
    rw [tailEntry_blk hB]
    split
    · exact ⟨_, rfl⟩
    · rw [hY]; exact ⟨_, rfl⟩
  · intro x y e; exact W.closed x y (tailEntry_edge hB e).2
  · have hsub : (tailEntry u F B k).allIds.Sublist F.allIds := by
      rw [allIds_eq, allIds_eq, hord]
      have : ∀ l : List Nat, (∀ x ∈ l, x ∈ F.order) → (l.flatMap (fun b => match (tailEntry u F B k).blk b with | some B => B.ids | none => [])).Sublist
          (l.flatMap (fun b => match F.blk b with | some B => B.ids | none => [])) := by
        intro l
        induction l with
        | nil => intro _; exact .refl _
        | cons x l ih =>
          intro hl
          simp only [List.flatMap_cons]
          refine List.Sublist.append ?_ (ih (fun y hy => hl y (by simp [hy])))
          rw [tailEntry_blk hB]
          by_cases hx : x = F.entry
          · subst hx
            rw [if_pos rfl, hB]
            simp only [Block.ids, Block.sub, hmapid]
            refine List.Sublist.append ?_ ((List.take_sublist _ _).map _)
            rw [List.map_map]
            exact .refl _
          · rw [if_neg hx]
            cases hX : F.blk x with
            | none => exact .refl _
            | some X => simp only [Option.map_some]; rw [sub_ids]
      exact this F.order (fun x hx => hx)
    exact W.unique.sublist hsub
  · intro X hX
    rw [hent] at hX
    exact (hexE hX ⟨_, by rw [hent]; exact .single _⟩).2.1
  · intro x X hX hl
    obtain ⟨rfl, h1, h2, h3⟩ := hexE hX hl
    refine ⟨?_, ?_⟩
    · intro pre i post hsp z hz hm
      rw [h2] at hsp
      exact .inr (hopd pre i post hsp z hz)
    · intro z hz; rw [h3] at hz; simp [Term.args] at hz
  · intro x X z hX hl hu
    obtain ⟨rfl, h1, h2, h3⟩ := hexE hX hl
    rcases hu with ⟨i, hi, hz⟩ | hz
    · obtain ⟨pre, post, hsp⟩ := List.append_of_mem hi
      have := hopd pre i post (h2 ▸ hsp) z hz
      refine ⟨F.entry, ⟨X, hX, ?_⟩, domi_self _ _⟩
      unfold Block.ids
      rw [hsp, List.map_append]
      exact List.mem_append_right _ (List.mem_append_left _ this)
    · rw [h3] at hz; simp [Term.args] at hz
  · intro x X p q z hX hl hp
    rw [(hexE hX hl).2.1] at hp; simp at hp
  · intro x X p hX hl hp
    rw [(hexE hX hl).2.1] at hp; simp at hp
  · intro x X p q hX hl hp
    rw [(hexE hX hl).2.1] at hp; simp at hp
  · intro x X p p' q w hX hl hp
    rw [(hexE hX hl).2.1] at hp; simp at hp

end

section
variable {L : Lang} {V : Conv L} {sg : Sigs} {S : TailSel L.Op L.C} {accOp : L.Op → Option L.C} {D : L.C → L.V → Prop} {mul : L.Op → L.V → L.V → L.V} {F F' : L.F} {f : Nat}
  {as : List L.C} {P : Nat → Option L.F} {u : Nat → L.C}

theorem tailEntry_fn (hF : FnOk V sg f F) (hu : ∀ x, V.param (u x) = none) {B : L.B} (hB : F.blk F.entry = some B) (k : Nat) : FnOk V sg f (tailEntry u F B k) where
  wf := tailEntry_liveWf hF.wf hB
  noEntry q e := hF.noEntry q (tailEntry_edge hB e).2
  params q T hT o ho c j hoc hp := by
    rcases tailEntry_opds hB hT ho with ⟨z, rfl⟩ | ⟨Y, hY, ho'⟩
    · cases hoc; rw [hu] at hp; cases hp
    · exact hF.params q Y hY o ho' c j hoc hp
  rets q T w hT ht := by
    rw [tailEntry_blk hB] at hT
    by_cases hx : q = F.entry
    · rw [if_pos hx] at hT; cases hT; cases ht
    · rw [if_neg hx] at hT
      obtain ⟨Y, hY, rfl⟩ := Option.map_eq_some_iff.1 hT
      have ht' : Y.term.sub (undefOf u ((B.body.drop k).map Inst.id)) = .ret w := ht
      cases hY' : Y.term with
      | ret w0 =>
        rw [hY'] at ht'
        cases ht'
        rw [← hF.rets q Y w0 hY hY']
        cases w0 <;> rfl
      | br t => rw [hY'] at ht'; cases ht'
      | cbr c t e => rw [hY'] at ht'; cases ht'
      | sw c d cs => rw [hY'] at ht'; cases ht'
      | unreachable => rw [hY'] at ht'; cases ht'
  calls q T i g hT hi hg := by
    obtain ⟨Y, i0, hY, hi0, h1, h2, h3⟩ := tailEntry_insts hB hT hi
    rw [h3]; exact hF.calls q Y i0 g hY hi0 (h2 ▸ hg)
  voids q T i g hT hi hg hv x X hX hm := by
    obtain ⟨Y, i0, hY, hi0, h1, h2, h3⟩ := tailEntry_insts hB hT hi
    rcases tailEntry_opds hB hX hm with ⟨z, hz⟩ | ⟨Z, hZ, hm'⟩
    · cases hz
    · rw [h1] at hm'
      exact hF.voids q Y i0 g hY hi0 (h2 ▸ hg) hv x Z hZ hm'
  locals he q T hT i hi hc := by
    obtain ⟨Y, i0, hY, hi0, h1, h2, h3⟩ := tailEntry_insts hB hT hi
    rw [h2]; exact hF.locals he q Y hY i0 hi0 (h2 ▸ hc)

theorem tailBlock_ok (hL : TailLang V S accOp D mul) (hF : FnOk V sg f F) (hA : ArgsOk V sg f as) (hno : NoLocals V F) (hP : P f = some F) (hT : TailTyped V (V.call P) accOp D F) {b : Nat} (hbe : b ≠ F.entry)
    (h : tailBlock V.param V.callee accOp S as f F b = some F') : FnOk V sg f F' ∧ ProgRefines V P (setFn P f F') := by
  unfold tailBlock at h
  split at h
  · cases h
  · rename_i B hB
    split at h
    · rename_i v hv
      obtain ⟨⟨call, k⟩, hc, he⟩ := Option.bind_eq_some_iff.1 h
      obtain ⟨h1, h2⟩ := lastCall_spec hc
      exact elimCall_ok hL hF hA hno hP hT hB hbe h1 h2 he
    · rename_i t ht
      split at h
      · rename_i ps v hTb
        obtain ⟨⟨call, k⟩, hc, he⟩ := Option.map_eq_some_iff.1 h
        obtain ⟨h1, h2⟩ := lastCall_spec hc
        have hp : PullOk F b t B ps v := ⟨hB, ht, hTb⟩
        have hset : setFn P f (pulled F b t B ps v) f = some (pulled F b t B ps v) := if_pos rfl
        have hF1 := hp.fn hF
        have hr1 : ProgRefines V P (setFn P f (pulled F b t B ps v)) := by
          intro d g vs m _
          rw [hp.call (V := V) hF.wf hP d]
        simp only at he
        cases hel : elimCall V.param accOp S as (pullRet F b B t ⟨ps, [], .ret v⟩ v) b { B with term := .ret (pullOpd b ps v) } call k with
        | none =>
          rw [hel] at he
          simp only [Option.getD_none] at he
          subst he
          exact ⟨hF1, hr1⟩
        | some F2 =>
          rw [hel] at he
          simp only [Option.getD_some] at he
          subst he
          have hty := hp.typed (V := V) hF.wf hT
          have hcall : V.call (setFn P f (pulled F b t B ps v)) = V.call P := funext (hp.call (V := V) hF.wf hP)
          rw [← hcall] at hty
          obtain ⟨h3, h4⟩ := elimCall_ok (P := setFn P f (pulled F b t B ps v)) (B := { B with term := .ret (pullOpd b ps v) }) hL hF1 hA (hp.noLocals hno) hset hty (by rw [hp.blk, if_pos rfl]) (by rw [pulled_entry]; exact hbe) h1 h2 hel
          rw [setFn_setFn] at h4
          exact ⟨h3, hr1.trans h4⟩
      · cases h
    · cases h

theorem tailScan_ok (hL : TailLang V S accOp D mul) (hF : FnOk V sg f F) (hA : ArgsOk V sg f as) (hno : NoLocals V F) (hP : P f = some F) (hT : TailTyped V (V.call P) accOp D F)
    (hu : ∀ x, V.param (u x) = none) : ∀ (l : List Nat), tailScan V.param V.callee accOp S u as f F l = some F' →
      FnOk V sg f F' ∧ (ProgRefines V P (setFn P f F') ∨ ∃ B, F.blk F.entry = some B ∧ ∃ i ∈ B.body, V.callee i.op = some f) := by
  intro l
  induction l with
  | nil => intro h; cases h
  | cons b bs ih =>
    intro h
    unfold tailScan at h
    split at h
    · rename_i hb
      subst hb
      split at h
      · cases h
      · rename_i B hB
        split at h
        · rename_i hany
          cases h
          refine ⟨tailEntry_fn hF hu hB _, .inr ⟨B, hB, ?_⟩⟩
          obtain ⟨i, hi, hc⟩ := List.any_eq_true.1 hany
          exact ⟨i, hi, by simpa using hc⟩
        · exact ih h
    · rename_i hb
      split at h
      · rename_i F'' hbk
        cases h
        obtain ⟨h1, h2⟩ := tailBlock_ok hL hF hA hno hP hT hb hbk
        exact ⟨h1, .inl h2⟩
      · exact ih h

/-- **C77.** `TailCallEliminate` on a function `f`: the program stays in SSA form with all declarations respected, every call that returns still returns the same value
after the same events and with the same memory, and - unless `f` calls itself in its entry block, so that it never returns - every call that ends in any way still ends the same way. -/
theorem C77_tailCallEliminate (V : Conv L) (sg : Sigs) (S : TailSel L.Op L.C) (accOp : L.Op → Option L.C) (D : L.C → L.V → Prop) (mul : L.Op → L.V → L.V → L.V) (isAlloc : L.Op → Bool) (u : Nat → L.C)
    (args : Nat → List L.C) (P : Nat → Option L.F) (f : Nat) (hL : TailLang V S accOp D mul) (hu : ∀ x, V.param (u x) = none) (hP : ProgOk V sg P) (hA : ∀ f, ArgsOk V sg f (args f))
    (hloc : ∀ F, P f = some F → entryAlloc isAlloc F = false → NoLocals V F) (hT : ∀ F, P f = some F → TailTyped V (V.call P) accOp D F) :
    ProgOk V sg (tailPass V.param V.callee accOp S isAlloc u args P f) ∧
    (∀ d g vs m v m' es, V.call P d g vs m = .ok v m' es → V.call (tailPass V.param V.callee accOp S isAlloc u args P f) d g vs m = .ok v m' es) ∧
    ((∀ F B i, P f = some F → F.blk F.entry = some B → i ∈ B.body → V.callee i.op ≠ some f) →
      ∀ d g vs m, V.call P d g vs m ≠ .ub → V.call (tailPass V.param V.callee accOp S isAlloc u args P f) d g vs m = V.call P d g vs m) := by
  unfold tailPass
  cases hF : P f with
  | none => exact ⟨hP, fun _ _ _ _ _ _ _ h => h, fun _ _ _ _ _ _ => by trivial⟩
  | some F =>
    simp only
    by_cases hal : entryAlloc isAlloc F = true
    · rw [if_pos hal]; exact ⟨hP, fun _ _ _ _ _ _ _ h => h, fun _ _ _ _ _ _ => by trivial⟩
    · rw [if_neg hal]
      cases hs : tailScan V.param V.callee accOp S u (args f) f F F.order with
      | none => simp only; exact ⟨hP, fun _ _ _ _ _ _ _ h => h, fun _ _ _ _ _ _ => by trivial⟩
      | some F' =>
        simp only
        obtain ⟨h1, h2⟩ := tailScan_ok hL (hP f F hF) (hA f) (hloc F hF (by simpa using hal)) hF (hT F hF) hu F.order hs
        refine ⟨?_, ?_, ?_⟩
        · intro g G hG
          unfold setFn at hG
          split at hG
          · rename_i e
            cases hG
            rw [e]; exact h1
          · exact hP g G hG
        · intro d g vs m v m' es h
          rcases h2 with h2 | ⟨B, hB, hc⟩
          · rw [h2 d g vs m (by rw [h]; simp), h]
          · exact Conv.exchange_ret (never_returns hF hB hc) F' d g vs m v m' es h
        · intro hne d g vs m hd
          rcases h2 with h2 | ⟨B, hB, i, hi, hc⟩
          · exact h2 d g vs m hd
          · exact absurd hc (hne F B i rfl hB hi)

end
end Cmmc.SSA
