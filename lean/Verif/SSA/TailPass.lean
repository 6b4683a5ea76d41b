import Verif.SSA.TailFn
/-!
# TailCallEliminate (cmmc/Transforms/ControlFlow/TailCallEliminate.cpp:261-349): the pass
-/
namespace Cmmc.SSA
section
variable {Op C : Type}

/-- `getLastRecursiveCall` (l.46-55): position and call -/
def lastCall (callee : Op → Option Nat) (f : Nat) (is : List (Inst Op C)) : Option (Inst Op C × Nat) := is.zipIdx.reverse.find? (fun e => callee e.1.op == some f)

/-- `eliminateCall` (l.97-259); `none`: the call is left alone -/
def elimCall [DecidableEq C] (param : C → Option Nat) (accOp : Op → Option C) (S : TailSel Op C) (as : List C) (F : Func Op C) (b : Nat) (B : Block Op C) (call : Inst Op C) (k : Nat) : Option (Func Op C) :=
  (tailKind accOp F B k call.id).map (fun K => F.tailElim (freshTail F) param S as b k call.args K)

/-- the returned value in a block `b` in front of the returning block with the phis `ps` (l.288-293) -/
def pullOpd (b : Nat) (ps : List (Phi C)) (v : Option (Opd C)) : Option (Opd C) :=
  v.map (fun o => match ps.find? (fun p => match o with | .inst x => x == p.id | .cst _ => false) with
    | some p => (p.at b).getD o
    | none => o)

/-- case 2 of `handleBlock` (l.283-301) up to the call of `eliminateCall`: the return is copied into the block, which is no longer a predecessor of `t` -/
def pullRet (F : Func Op C) (b : Nat) (B : Block Op C) (t : Nat) (T : Block Op C) (v : Option (Opd C)) : Func Op C :=
  (F.mapPhis t (fun ps => ps.map (fun p => p.removeSource b))).set b { B with term := .ret (pullOpd b T.phis v) }

/-- `handleBlock` (l.261-309) -/
def tailBlock [DecidableEq C] (param : C → Option Nat) (callee : Op → Option Nat) (accOp : Op → Option C) (S : TailSel Op C) (as : List C) (f : Nat) (F : Func Op C) (b : Nat) : Option (Func Op C) :=
  match F.blk b with
  | none => none
  | some B =>
    match B.term with
    | .ret _ => (lastCall callee f B.body).bind (fun e => elimCall param accOp S as F b B e.1 e.2)
    | .br t =>
      match F.blk t with
      | some ⟨ps, [], .ret v⟩ => (lastCall callee f B.body).map (fun e =>
          let F1 := pullRet F b B t ⟨ps, [], .ret v⟩ v
          (elimCall param accOp S as F1 b { B with term := .ret (pullOpd b ps v) } e.1 e.2).getD F1)
      | _ => none
    | _ => none

/-- the entry block calls the function itself (l.318-340): it never returns -/
def tailEntry (u : Nat → C) (F : Func Op C) (B : Block Op C) (k : Nat) : Func Op C :=
  let G := F.sub (undefOf u ((B.body.drop k).map Inst.id))
  G.set F.entry { B.sub (undefOf u ((B.body.drop k).map Inst.id)) with body := (B.body.take k).map (Inst.sub (undefOf u ((B.body.drop k).map Inst.id))), term := .unreachable }

/-- the loop over the blocks (l.317-347): stops at the first change -/
def tailScan [DecidableEq C] (param : C → Option Nat) (callee : Op → Option Nat) (accOp : Op → Option C) (S : TailSel Op C) (u : Nat → C) (as : List C) (f : Nat) (F : Func Op C) : List Nat → Option (Func Op C)
  | [] => none
  | b :: bs =>
    if b = F.entry then
      match F.blk b with
      | none => none
      | some B =>
        if B.body.any (fun i => callee i.op == some f) then some (tailEntry u F B (B.body.findIdx (fun i => callee i.op == some f)))
        else tailScan param callee accOp S u as f F bs
    else
      match tailBlock param callee accOp S as f F b with
      | some F' => some F'
      | none => tailScan param callee accOp S u as f F bs

/-- the first instruction of the function is an allocation (l.312-315) -/
def entryAlloc (isAlloc : Op → Bool) (F : Func Op C) : Bool :=
  match F.blk F.entry with
  | some ⟨[], i :: _, _⟩ => isAlloc i.op
  | _ => false

/-- the pass on the function `f`; `args f` are its parameters -/
def tailPass [DecidableEq C] (param : C → Option Nat) (callee : Op → Option Nat) (accOp : Op → Option C) (S : TailSel Op C) (isAlloc : Op → Bool) (u : Nat → C) (args : Nat → List C)
    (P : Nat → Option (Func Op C)) (f : Nat) : Nat → Option (Func Op C) :=
  match P f with
  | none => P
  | some F =>
    if entryAlloc isAlloc F then P
    else match tailScan param callee accOp S u (args f) f F F.order with
      | some F' => setFn P f F'
      | none => P

theorem lastCall_spec {callee : Op → Option Nat} {f : Nat} {is : List (Inst Op C)} {call : Inst Op C} {k : Nat} (h : lastCall callee f is = some (call, k)) :
    is[k]? = some call ∧ callee call.op = some f := by
  unfold lastCall at h
  have h1 := List.mem_of_find?_eq_some h
  have h2 := List.find?_some h
  rw [List.mem_reverse] at h1
  exact ⟨List.mk_mem_zipIdx_iff_getElem?.1 h1, by simpa using h2⟩

end

/-! ## hypotheses -/
section
variable {L : Lang}

/-- the value of `x` reaches a return through phis -/
inductive Returned {Op C : Type} (F : Func Op C) : Nat → Prop
  | ret {q T x} (hT : F.blk q = some T) (ht : T.term = .ret (some (.inst x))) : Returned F x
  | phi {q T p x} (hT : F.blk q = some T) (hp : p ∈ T.phis) (hx : Opd.inst x ∈ p.ops) (h : Returned F p.id) : Returned F x

/-- opcodes and constants: `D c` are the values of the type of the constant `c` -/
structure TailLang (V : Conv L) (S : TailSel L.Op L.C) (accOp : L.Op → Option L.C) (D : L.C → L.V → Prop) (mul : L.Op → L.V → L.V → L.V) : Prop where
  sel : SelOk V S
  undefP : V.param S.undef = none
  selLift : LiftsOp L V.leave V.I S.op
  acc : ∀ op c, accOp op = some c → AccOk V (D c) (mul op) op c

/-- the parameters -/
structure ArgsOk (V : Conv L) (sg : Sigs) (f : Nat) (as : List L.C) : Prop where
  len : as.length = sg.arity f
  iff : ∀ j c, as[j]? = some c ↔ V.param c = some j ∧ j < sg.arity f

/-- types are respected: the operands of an accumulator instruction have its type, and so have the results of the function if the instruction's value can be the result -/
structure TailTyped (V : Conv L) (calls : Nat → CallSem L) (accOp : L.Op → Option L.C) (D : L.C → L.V → Prop) (F : L.F) : Prop where
  rets : ∀ q T i c, F.blk q = some T → i ∈ T.body → accOp i.op = some c → Returned F i.id → ∀ e ws m v m' tr, Ends (V.lang (calls e) ws) F m (.ret v m' tr) → D c (v.getD V.void)
  args : ∀ T i c, i ∈ T.body → accOp i.op = some c → ∀ e ws m n s env env' m' es' is post, run (V.lang (calls e) ws) F n (start _ F m) = .inl s → F.blk s.cur = some T →
    enterPhis (V.lang (calls e) ws) s.pred s.env T.phis s.env = some env → T.body = is ++ post → execBody (V.lang (calls e) ws) is env s.m s.tr = .ok env' m' es' →
    ∀ x ∈ i.args, ∀ v, eval (V.lang (calls e) ws) env' x = some v → D c v

end

/-! ## one call -/
section
variable {L : Lang} {V : Conv L} {sg : Sigs} {S : TailSel L.Op L.C} {accOp : L.Op → Option L.C} {D : L.C → L.V → Prop} {mul : L.Op → L.V → L.V → L.V} {F : L.F} {f b k : Nat}
  {as : List L.C} {K : TailKind L.Op L.C} {B : L.B} {call : Inst L.Op L.C} {P : Nat → Option L.F}

theorem tailOk_of (hF : FnOk V sg f F) (hA : ArgsOk V sg f as) (hB : F.blk b = some B) (hbe : b ≠ F.entry) (hk : B.body[k]? = some call) (hc : V.callee call.op = some f)
    (hK : tailKind accOp F B k call.id = some K) : TailOk V (freshTail F) S accOp F f b k as K B call where
  hB := hB
  hk := hk
  callee := hc
  kind := hK
  len := by rw [hF.calls b B call f hB (List.mem_of_getElem? hk) hc, hA.len]
  asPar j c h := ((hA.iff j c).1 h).1
  pars q T hT o ho c j hoc hp := (hA.iff j c).2 ⟨hp, hF.params q T hT o ho c j hoc hp⟩
  noEntry := hF.noEntry
  entryPhis := hF.wf.entryPhis
  bne := hbe
  names := freshTail_ok hF.wf.listed
  rets := by
    cases hv : sg.valued f with
    | true => exact .inl (fun q T v hT ht => by rw [hF.rets q T v hT ht, hv])
    | false =>
      refine .inr (fun q T v hT ht => ?_)
      have := hF.rets q T v hT ht
      rw [hv] at this
      cases v with
      | none => rfl
      | some _ => simp at this
  before := by
    rintro hl i l x c rfl
    have hsp := tailKind_spec hK
    simp only at hsp
    obtain ⟨h1, h2, h3, h4, h5, h6⟩ := hsp
    have hbody : B.body = B.body.take k ++ call :: B.body.drop (k + 1) := by
      obtain ⟨hlt, he⟩ := List.getElem?_eq_some_iff.1 hk
      rw [← he, List.getElem_cons_drop, List.take_append_drop]
    rw [h1] at hbody
    have hn := hF.wf.toShape.ids_nodup hB
    unfold Block.ids at hn
    have hord := hF.wf.inOrder b B hB hl
    have hiid : i.id ∈ B.ids := by unfold Block.ids; rw [hbody]; simp
    have hnot : ∀ is, (∃ post, B.body = is ++ post ∧ i ∈ post) → ¬ (i.id ∈ B.phis.map Phi.id ∨ i.id ∈ is.map Inst.id) := by
      rintro is ⟨post, hb, hip⟩ hm
      rw [hb, List.map_append] at hn
      rw [List.nodup_append] at hn
      obtain ⟨_, hn2, hn3⟩ := hn
      rcases hm with hm | hm
      · exact hn3 _ hm _ (List.mem_append_right _ (List.mem_map_of_mem hip)) rfl
      · rw [List.nodup_append] at hn2
        exact hn2.2.2 _ hm _ (List.mem_map_of_mem hip) rfl
    refine ⟨fun hm => ?_, ?_⟩
    · exact hnot _ ⟨_, hbody, by simp⟩ (hord.1 _ call [i] hbody i.id hm hiid)
    · rintro rfl
      have hb' : B.body = (B.body.take k ++ [call]) ++ i :: [] := by rw [List.append_assoc]; exact hbody
      refine hnot _ ⟨_, hb', by simp⟩ (hord.1 _ i [] hb' i.id ?_ hiid)
      rw [h5]; split <;> simp
  listed := hF.wf.listed

theorem tailElim_fn (hL : TailLang V S accOp D mul) (hF : FnOk V sg f F) (hA : ArgsOk V sg f as) (hno : NoLocals V F) (h : TailOk V (freshTail F) S accOp F f b k as K B call) :
    FnOk V sg f (F.tailElim (freshTail F) V.param S as b k call.args K) where
  wf := h.liveWf hF.wf
  noEntry := by
    intro q he
    have e0 : (F.tailElim (freshTail F) V.param S as b k call.args K).entry = (freshTail F).e0 := rfl
    rcases h.edge_cases hF.wf he with ⟨_, h1⟩ | h1
    · exact h.names.e0 (by rw [← e0, h1]; exact hF.wf.entryIn)
    · exact h.names.e0 (by rw [← e0]; exact hF.wf.closed _ _ h1)
  params := by
    intro q T hT o ho c j hoc hp
    subst hoc
    generalize hg : (Opd.cst c : Opd L.C) = o at ho
    have hto := h.opds hF.wf hT ho
    cases hto with
    | @old q0 T0 o0 hT0 ho0 =>
      cases o0 with
      | inst i => simp [TailNm.opd] at hg
      | cst c0 =>
        simp only [TailNm.opd] at hg
        cases hp0 : V.param c0 with
        | some j0 => rw [hp0] at hg; simp at hg
        | none => rw [hp0] at hg; cases hg; rw [hp] at hp0; cases hp0
    | @arg c0 hc0 =>
      cases hg
      obtain ⟨j0, hj0⟩ := List.mem_iff_getElem?.1 hc0
      have := (hA.iff j0 c).1 hj0
      rw [hp] at this
      have h2 := Option.some.inj this.1
      subst h2
      exact this.2
    | @ident i l x c0 hK =>
      cases hg
      subst hK
      have hsp := tailKind_spec h.kind
      simp only at hsp
      rw [(hL.acc _ _ hsp.2.2.1).param] at hp
      cases hp
    | @sel c0 x hK hc =>
      cases hg
      rcases hc with rfl | rfl | rfl
      · rw [hL.sel.ffP] at hp; cases hp
      · rw [hL.sel.ttP] at hp; cases hp
      · rw [hL.undefP] at hp; cases hp
    | new hx => cases hg
  rets := by
    intro q T v hT ht
    by_cases hz : q = (freshTail F).e0
    · subst hz
      have : (F.tailElim (freshTail F) V.param S as b k call.args K).blk (freshTail F).e0 = some ⟨[], [], .br F.entry⟩ := by unfold Func.tailElim; exact if_pos rfl
      rw [this] at hT; cases hT; cases ht
    · cases hT0 : F.blk q with
      | none =>
        have : (F.tailElim (freshTail F) V.param S as b k call.args K).blk q = none := by
          show (if q = (freshTail F).e0 then _ else _) = _
          rw [if_neg hz, hT0]; rfl
        rw [this] at hT; cases hT
      | some T0 =>
        rw [h.blk hT0] at hT
        have hterm : T.term = ((freshTail F).block V.param S F.entry b k K q T0).term := by
          rw [← Option.some.inj hT]; split <;> rfl
        rw [hterm] at ht
        unfold TailNm.block at ht
        split at ht
        · cases ht
        · split at ht
          · rename_i w hw
            have := hF.rets q T0 _ hT0 hw
            cases ht
            exact this
          · rename_i hnw
            simp only at ht
            cases hw : T0.term with
            | ret w =>
              rw [hw] at ht
              simp only [TailNm.term, Term.ret.injEq] at ht
              rw [← hF.rets q T0 w hT0 hw, ← ht]
              cases w <;> rfl
            | br t => rw [hw] at ht; cases ht
            | cbr c t e => rw [hw] at ht; cases ht
            | sw c d cs => rw [hw] at ht; cases ht
            | unreachable => rw [hw] at ht; cases ht
  calls := by
    intro q T i g hT hi hg
    rcases h.insts hF.wf hT hi with ⟨q0, T0, i0, hT0, hi0, h1, h2, h3⟩ | ⟨_, h1⟩
    · rw [h3]
      exact hF.calls q0 T0 i0 g hT0 hi0 (h2 ▸ hg)
    · exfalso
      rcases h1 with ⟨x, _, h2⟩ | ⟨j, l, x, c, rfl, h2⟩
      · rw [h2, hL.sel.callee] at hg; cases hg
      · have hsp := tailKind_spec h.kind
        simp only at hsp
        rw [h2, (hL.acc _ _ hsp.2.2.1).callee] at hg
        cases hg
  voids := by
    intro q T i g hT hi hg hv x X hX hm
    rcases h.insts hF.wf hT hi with ⟨q0, T0, i0, hT0, hi0, h1, h2, h3⟩ | ⟨_, h1⟩
    · rw [h1] at hm
      have hid : i0.id ∈ T0.ids := List.mem_append_right _ (List.mem_map_of_mem hi0)
      have hfr := h.names.used q0 T0 i0.id hT0 (.inr hid)
      generalize hgo : (Opd.inst i0.id : Opd L.C) = o at hm
      have hto := h.opds hF.wf hX hm
      cases hto with
      | @old q1 T1 o1 hT1 ho1 =>
        rcases TailNm.opd_inst hgo.symm with h4 | ⟨c, j, _, _, h4⟩
        · subst h4
          exact hF.voids q0 T0 i0 g hT0 hi0 (h2 ▸ hg) hv q1 T1 hT1 ho1
        · exact hfr.1 j h4
      | arg _ => cases hgo
      | ident _ => cases hgo
      | sel _ _ => cases hgo
      | new hx =>
        cases hgo
        rcases hx with h4 | h4 | ⟨y, h4⟩
        · exact hfr.2.1 h4
        · exact hfr.2.2.1 h4
        · exact hfr.2.2.2 y h4
    · exfalso
      rcases h1 with ⟨x, _, h2⟩ | ⟨j, l, x, c, rfl, h2⟩
      · rw [h2, hL.sel.callee] at hg; cases hg
      · have hsp := tailKind_spec h.kind
        simp only at hsp
        rw [h2, (hL.acc _ _ hsp.2.2.1).callee] at hg
        cases hg
  locals := by
    intro _ q T hT i hi hc
    rcases h.insts hF.wf hT hi with ⟨q0, T0, i0, hT0, hi0, h1, h2, h3⟩ | ⟨_, h1⟩
    · rw [h2]; exact hno q0 T0 hT0 i0 hi0 (h2 ▸ hc)
    · rcases h1 with ⟨x, _, h2⟩ | ⟨j, l, x, c, rfl, h2⟩
      · rw [h2]; exact hL.selLift
      · have hsp := tailKind_spec h.kind
        simp only at hsp
        rw [h2]
        refine hno b B h.hB j (List.mem_of_mem_drop (i := k + 1) (by rw [hsp.1]; simp)) (h2 ▸ hc)

theorem tailProg_of (hF : FnOk V sg f F) (hP : P f = some F) (hno : NoLocals V F) (h : TailOk V (freshTail F) S accOp F f b k as K B call) (hT : TailTyped V (V.call P) accOp D F) :
    TailProg V P F f b k K B (match K with | .acc _ _ _ c => D c | _ => fun _ => True) where
  hP := hP
  locals := hno
  retD := by
    intro e ws m v m' tr hr
    cases K with
    | plain => trivial
    | first x => trivial
    | acc i l x c =>
      have hsp := tailKind_spec h.kind
      simp only at hsp
      exact hT.rets b B i c h.hB (List.mem_of_mem_drop (i := k + 1) (by rw [hsp.1]; simp)) hsp.2.2.1 (.ret h.hB hsp.2.1) e ws m v m' tr hr
  other := by
    intro e ws m n s env env' m' es' hrun hcur hen hex
    have hfill := filled_run (L := V.lang (V.call P e) ws) (filled_start m) hrun
    have hl := hfill.live
    rw [hcur] at hl
    have hsp := tailKind_spec h.kind
    have hB' : F.blk s.cur = some B := by rw [hcur]; exact h.hB
    have hbody := h.body
    -- an operand used behind the call that is not the call itself
    have key : ∀ o, ((∃ i ∈ B.body, o ∈ i.args) ∨ o ∈ B.term.args) →
        (∀ x, o = .inst x → x ∈ B.ids → x ∈ B.phis.map Phi.id ∨ x ∈ (B.body.take k).map Inst.id) → ∃ v, eval (V.lang (V.call P e) ws) env' o = some v := by
      intro o hu hin
      cases o with
      | cst c => exact ⟨_, rfl⟩
      | inst x =>
        obtain ⟨d, hd, hdom⟩ := hF.wf.use b B x h.hB hl hu
        have := hfill.at (L := V.lang (V.call P e) ws) hB' hen hbody hex hd (by rw [hcur]; exact hdom) (hin x rfl)
        exact Option.ne_none_iff_exists'.1 this
    cases K with
    | plain => trivial
    | first x =>
      simp only at hsp
      obtain ⟨h1, h2, h3⟩ := hsp
      refine key x (.inr (by rw [h2]; simp [Term.args])) ?_
      rintro z rfl hz
      rcases (hF.wf.inOrder b B h.hB hl).2 z (by rw [h2]; simp [Term.args]) hz with h4 | h4
      · exact .inl h4
      · rw [hbody, h1, List.map_append, List.mem_append] at h4
        rcases h4 with h4 | h4
        · exact .inr h4
        · simp only [List.map_cons, List.map_nil, List.mem_singleton] at h4
          exact absurd (by rw [h4]) h3
    | acc i l x c =>
      simp only at hsp
      obtain ⟨h1, h2, h3, h4, h5, h6⟩ := hsp
      have hib : i ∈ B.body := List.mem_of_mem_drop (i := k + 1) (by rw [h1]; simp)
      have hxm : x ∈ i.args := by rw [h5]; split <;> simp
      have hb : B.body = (B.body.take k ++ [call]) ++ i :: [] := by rw [List.append_assoc, List.singleton_append, ← h1]; exact hbody
      obtain ⟨v, hv⟩ := key x (.inl ⟨i, hib, hxm⟩) (by
        rintro z rfl hz
        rcases (hF.wf.inOrder b B h.hB hl).1 _ i [] hb z hxm hz with h7 | h7
        · exact .inl h7
        · rw [List.map_append, List.mem_append] at h7
          rcases h7 with h7 | h7
          · exact .inr h7
          · simp only [List.map_cons, List.map_nil, List.mem_singleton] at h7
            exact absurd (by rw [h7]) h4)
      exact ⟨v, hv, hT.args B i c hib h3 e ws m n s env env' m' es' _ _ hrun hB' hen hbody hex x hxm v hv⟩

theorem elimCall_ok (hL : TailLang V S accOp D mul) (hF : FnOk V sg f F) (hA : ArgsOk V sg f as) (hno : NoLocals V F) (hP : P f = some F) (hT : TailTyped V (V.call P) accOp D F)
    (hB : F.blk b = some B) (hbe : b ≠ F.entry) (hk : B.body[k]? = some call) (hc : V.callee call.op = some f) {F' : L.F} (h : elimCall V.param accOp S as F b B call k = some F') :
    FnOk V sg f F' ∧ ProgRefines V P (setFn P f F') := by
  unfold elimCall at h
  obtain ⟨K, hK, rfl⟩ := Option.map_eq_some_iff.1 h
  have ho := tailOk_of (S := S) hF hA hB hbe hk hc hK
  refine ⟨tailElim_fn hL hF hA hno ho, ?_⟩
  have hq := tailProg_of hF hP hno ho hT
  have hsp := tailKind_spec hK
  cases K with
  | plain => exact tail_program (mul := fun a _ => a) ho trivial hq
  | first x => exact tail_program (mul := fun a _ => a) ho (show KindOk V S _ _ (.first x) from hL.sel) hq
  | acc i l x c => exact tail_program ho (show KindOk V S _ (mul i.op) (.acc i l x c) from hL.acc _ _ hsp.2.2.1) hq

end
end Cmmc.SSA
