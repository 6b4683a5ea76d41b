import Verif.SSA.InlineProg
/-!
# FuncInlining (cmmc/Transforms/IPO/Inlining.cpp:155-220): the pass
-/
namespace Cmmc.SSA
section
variable {Op C : Type}

/-! ## new objects -/

/-- all block names that occur -/
def Func.blockNames (F : Func Op C) : List Nat := F.order ++ F.blocks.flatMap (fun B => B.phis.flatMap (fun p => p.inc.map Prod.fst))

/-- all instruction names that occur -/
def Func.instNames (F : Func Op C) : List Nat := F.blocks.flatMap (fun B => B.ids ++ instIds B.opds)

def above (l : List Nat) : Nat := l.foldr (fun a n => max (a + 1) n) 0

theorem lt_above {l : List Nat} {a : Nat} (h : a ∈ l) : a < above l := by
  induction l with
  | nil => simp at h
  | cons x l ih =>
    simp only [above, List.foldr_cons]
    rcases List.mem_cons.1 h with rfl | h
    · omega
    · have := ih h
      unfold above at this
      omega

/-- the objects made by `applyInline`: names nothing else has -/
def freshCopy (F : Func Op C) : Copy where
  fb q := above F.blockNames + 1 + q
  sink := above F.blockNames
  fi i := above F.instNames + 2 * i
  ps j := above F.instNames + 2 * j + 1

/-! ## the pass -/

/-- what declarations say about a function: number of parameters, whether it returns a value (`FunctionType`) and whether it may be inlined (`shouldInline`:
NoRecurse and no `_cmmc_noinline` prefix, Inlining.cpp:156-160; the parameters of the pass, not computed here) -/
structure Sigs where
  arity : Nat → Nat
  valued : Nat → Bool
  elig : Nat → Bool

/-- the first call that `tryInline` accepts (Inlining.cpp:162-178): block, position, callee -/
def findCall (callee : Op → Option Nat) (elig : Nat → Bool) (P : Nat → Option (Func Op C)) (f : Nat) (F : Func Op C) : Option (Nat × Nat × Nat) :=
  F.order.findSome? (fun b => (F.blk b).bind (fun B => B.body.zipIdx.findSome? (fun e =>
    match callee e.1.op with
    | some g => if (P g).isSome ∧ g ≠ f ∧ elig g = true then some (b, e.2, g) else none
    | none => none)))

/-- `tryInline` -/
def tryInline (param : C → Option Nat) (callee : Op → Option Nat) (sg : Sigs) (P : Nat → Option (Func Op C)) (f : Nat) (F : Func Op C) : Option (Func Op C) :=
  match findCall callee sg.elig P f F with
  | none => none
  | some (b, k, g) => (P g).map (fun G => F.inline (freshCopy F) param b k (sg.valued g) G)

/-- `run` (Inlining.cpp:181-203) -/
def inlineFn (param : C → Option Nat) (callee : Op → Option Nat) (sg : Sigs) (P : Nat → Option (Func Op C)) (f : Nat) : Nat → Func Op C → Func Op C
  | 0, F => F
  | n + 1, F =>
    match tryInline param callee sg P f F with
    | none => F
    | some F' => inlineFn param callee sg P f n F'

/-- the pass on function `f` of a program; `wrapped` is the attribute InlineWrapped (Inlining.cpp:182-184) -/
def inlinePass (param : C → Option Nat) (callee : Op → Option Nat) (sg : Sigs) (wrapped : Nat → Bool) (P : Nat → Option (Func Op C)) (f : Nat) : Nat → Option (Func Op C) :=
  match P f with
  | none => P
  | some F => if wrapped f then P else setFn P f (inlineFn param callee sg P f 128 F)

/-- the pass on a module: one function after the other -/
def inlineModule (param : C → Option Nat) (callee : Op → Option Nat) (sg : Sigs) (wrapped : Nat → Bool) (fs : List Nat) (P : Nat → Option (Func Op C)) : Nat → Option (Func Op C) :=
  fs.foldl (inlinePass param callee sg wrapped) P

end

/-! ## well-formed programs -/
section
variable {L : Lang}

/-- a function that fits its declaration and calls others as declared -/
structure FnOk (V : Conv L) (sg : Sigs) (f : Nat) (F : L.F) : Prop where
  wf : LiveWf F
  noEntry : ∀ q, ¬ Edge F q F.entry
  params : ∀ q T, F.blk q = some T → ∀ o ∈ T.opds, ∀ c j, o = .cst c → V.param c = some j → j < sg.arity f
  rets : ∀ q T v, F.blk q = some T → T.term = .ret v → v.isSome = sg.valued f
  calls : ∀ q T i g, F.blk q = some T → i ∈ T.body → V.callee i.op = some g → i.args.length = sg.arity g
  voids : ∀ q T i g, F.blk q = some T → i ∈ T.body → V.callee i.op = some g → sg.valued g = false → ∀ x X, F.blk x = some X → Opd.inst i.id ∉ X.opds
  locals : sg.elig f = true → NoLocals V F

def ProgOk (V : Conv L) (sg : Sigs) (P : Nat → Option L.F) : Prop := ∀ f F, P f = some F → FnOk V sg f F

end

section
variable {Op C : Type} {F G : Func Op C}

theorem fresh_inst {F : Func Op C} (hl : F.Listed) {x : Nat} {X : Block Op C} (hX : F.blk x = some X) {i : Nat} (hi : Opd.inst i ∈ X.opds ∨ i ∈ X.ids) : i < above F.instNames := by
  apply lt_above
  unfold Func.instNames
  refine List.mem_flatMap.2 ⟨X, hl.mem hX, ?_⟩
  rcases hi with hi | hi
  · refine List.mem_append_right _ ?_
    exact mem_instIds.2 hi
  · exact List.mem_append_left _ hi

theorem fresh_block {F : Func Op C} {x : Nat} (hx : x ∈ F.order) : x < above F.blockNames := lt_above (List.mem_append_left _ hx)

theorem fresh_phi {F : Func Op C} (hl : F.Listed) {x : Nat} {X : Block Op C} (hX : F.blk x = some X) {p : Phi C} (hp : p ∈ X.phis) : p.has (freshCopy F).sink = false := by
  cases h : p.has (freshCopy F).sink with
  | false => rfl
  | true =>
    obtain ⟨v, hv⟩ := Phi.has_iff.1 h
    have : (freshCopy F).sink < above F.blockNames := by
      apply lt_above
      refine List.mem_append_right _ (List.mem_flatMap.2 ⟨X, hl.mem hX, List.mem_flatMap.2 ⟨p, hp, List.mem_map.2 ⟨_, hv, rfl⟩⟩⟩)
    exact absurd this (lt_irrefl _)

/-- `tryInline` meets what `applyInline` needs -/
theorem findCall_spec {callee : Op → Option Nat} {elig : Nat → Bool} {P : Nat → Option (Func Op C)} {f b k g : Nat} {F : Func Op C} (h : findCall callee elig P f F = some (b, k, g)) :
    ∃ B call, F.blk b = some B ∧ B.body[k]? = some call ∧ callee call.op = some g ∧ (P g).isSome ∧ g ≠ f ∧ elig g = true := by
  unfold findCall at h
  obtain ⟨x, _, hx⟩ := List.exists_of_findSome?_eq_some h
  obtain ⟨B, hB, hx⟩ := Option.bind_eq_some_iff.1 hx
  obtain ⟨⟨call, k'⟩, he, hx⟩ := List.exists_of_findSome?_eq_some hx
  simp only at hx
  cases hc : callee call.op with
  | none => rw [hc] at hx; simp at hx
  | some g' =>
    rw [hc] at hx
    simp only at hx
    split at hx
    · rename_i hcond
      simp only [Option.some.injEq, Prod.mk.injEq] at hx
      obtain ⟨rfl, rfl, rfl⟩ := hx
      refine ⟨B, call, hB, ?_, hc, hcond⟩
      have := List.mk_mem_zipIdx_iff_getElem?.1 he
      exact this
    · cases hx

/-- nothing is left to do when no call is found -/
theorem findCall_none {callee : Op → Option Nat} {elig : Nat → Bool} {P : Nat → Option (Func Op C)} {f : Nat} {F : Func Op C} (h : findCall callee elig P f F = none) {b : Nat} (hb : b ∈ F.order)
    {B : Block Op C} (hB : F.blk b = some B) {i : Inst Op C} (hi : i ∈ B.body) {g : Nat} (hg : callee i.op = some g) (hp : (P g).isSome) (hne : g ≠ f) : elig g = false := by
  unfold findCall at h
  rw [List.findSome?_eq_none_iff] at h
  have h1 := h b hb
  rw [hB] at h1
  simp only [Option.bind_some] at h1
  rw [List.findSome?_eq_none_iff] at h1
  obtain ⟨k, hk⟩ := List.mem_iff_getElem?.1 hi
  have h2 := h1 (i, k) (List.mk_mem_zipIdx_iff_getElem?.2 hk)
  simp only [hg] at h2
  split at h2
  · cases h2
  · rename_i hn
    cases he : elig g with
    | false => rfl
    | true => exact absurd ⟨hp, hne, he⟩ hn

end

section
variable {L : Lang} {V : Conv L} {sg : Sigs} {F G : L.F} {b k f g : Nat} {B : L.B} {call : Inst L.Op L.C}

theorem inlineOk_fresh (hF : FnOk V sg f F) (hG : FnOk V sg g G) (hB : F.blk b = some B) (hk : B.body[k]? = some call) (hc : V.callee call.op = some g) :
    InlineOk (freshCopy F) V.param F G b k (sg.valued g) B call := by
  have hl := hF.wf.listed
  have hm := List.mem_of_getElem? hk
  refine { hB := hB, hk := hk, fb := ?_, fi := ?_, ps := ?_, fp := ?_, fbF := ?_, sinkF := ?_, fbS := ?_, phiSink := fun x X p hX hp => fresh_phi hl hX hp, unused := ?_, newIds := ?_,
           glisted := hG.wf.listed, noEntry := hG.noEntry, params := ?_, rets := hG.rets, void := fun hv => hF.voids b B call g hB hm hc hv }
  · intro a c h; simp only [freshCopy] at h; omega
  · intro a c h; simp only [freshCopy] at h; omega
  · intro a c h; simp only [freshCopy] at h; omega
  · intro i j h; simp only [freshCopy] at h; omega
  · intro q h; have := fresh_block h; simp only [freshCopy] at this; omega
  · intro h; have := fresh_block h; simp only [freshCopy] at this; omega
  · intro q h; simp only [freshCopy] at h; omega
  · intro x X hX
    refine ⟨fun i h => ?_, fun j h => ?_⟩
    · have := fresh_inst hl hX (.inl h); simp only [freshCopy] at this; omega
    · have := fresh_inst hl hX (.inl h); simp only [freshCopy] at this; omega
  · intro x X hX
    refine ⟨fun i h => ?_, fun j h => ?_⟩
    · have := fresh_inst hl hX (.inr h); simp only [freshCopy] at this; omega
    · have := fresh_inst hl hX (.inr h); simp only [freshCopy] at this; omega
  · rw [hF.calls b B call g hB hm hc]
    exact hG.params

/-! ## what is in the result -/
section
variable {Op C : Type} {K : Copy} {param : C → Option Nat} {F G : Func Op C} {b k : Nat} {valued : Bool} {B : Block Op C} {call : Inst Op C}

theorem newPhis_ops {x : Nat} {ps : List (Phi C)} {o : Opd C} (h : o ∈ (newPhis K b B x ps).flatMap Phi.ops) : o ∈ ps.flatMap Phi.ops := by
  unfold newPhis at h
  split at h
  · obtain ⟨p', hp', ho⟩ := List.mem_flatMap.1 h
    obtain ⟨p, hp, rfl⟩ := List.mem_map.1 hp'
    refine List.mem_flatMap.2 ⟨p, hp, ?_⟩
    obtain ⟨q, hq⟩ := mem_ops.1 ho
    obtain ⟨q0, hq0, _⟩ := Phi.mem_replaceSource.1 hq
    exact mem_ops.2 ⟨q0, hq0⟩
  · exact h

theorem Copy.term_args' {t : Term C} {o : Opd C} (h : o ∈ (K.term param t).args) : ∃ o' ∈ t.args, o = K.opd param o' := by
  cases t with
  | ret v => simp [Copy.term, Term.args] at h
  | br t => simp [Copy.term, Term.args] at h
  | cbr c t f => simp only [Copy.term, Term.args, List.mem_singleton] at h; exact ⟨c, by simp [Term.args], h⟩
  | sw c d cs => simp only [Copy.term, Term.args, List.mem_singleton] at h; exact ⟨c, by simp [Term.args], h⟩
  | unreachable => simp [Copy.term, Term.args] at h

theorem InlineOk.opds (h : InlineOk K param F G b k valued B call) (S : Shape F) {z : Nat} {Z : Block Op C} (hZ : (F.inline K param b k valued G).blk z = some Z) {o : Opd C} (ho : o ∈ Z.opds) :
    (∃ x X, F.blk x = some X ∧ o ∈ X.opds) ∨ ∃ q T o', G.blk q = some T ∧ o' ∈ T.opds ∧ o = K.opd param o' := by
  have hsplit : ∀ {Z : Block Op C}, o ∈ Z.opds → o ∈ Z.phis.flatMap Phi.ops ∨ (∃ i ∈ Z.body, o ∈ i.args) ∨ o ∈ Z.term.args := by
    intro Z h
    unfold Block.opds at h
    rcases List.mem_append.1 h with h | h
    · rcases List.mem_append.1 h with h | h
      · exact .inl h
      · exact .inr (.inl (List.mem_flatMap.1 h))
    · exact .inr (.inr h)
  have hphi : ∀ {X : Block Op C}, o ∈ X.phis.flatMap Phi.ops → o ∈ X.opds := by
    intro X h
    unfold Block.opds
    exact List.mem_append_left _ (List.mem_append_left _ h)
  rcases h.blk_cases S hZ with ⟨h1, rfl⟩ | ⟨h1, rfl⟩ | ⟨q, T, h1, hT, rfl⟩ | ⟨h1, X, hX, rfl⟩
  · left
    refine ⟨b, B, h.hB, ?_⟩
    rcases hsplit ho with h2 | ⟨i, hi, h2⟩ | h2
    · exact hphi (newPhis_ops h2)
    · exact mem_opds_use (.inl ⟨i, List.mem_of_mem_take hi, h2⟩)
    · simp [Term.args] at h2
  · rcases hsplit ho with h2 | ⟨i, hi, h2⟩ | h2
    · right
      obtain ⟨p, hp, hop⟩ := List.mem_flatMap.1 h2
      simp only [Copy.retPhi] at hp
      split at hp
      · rw [List.mem_singleton] at hp
        subst hp
        obtain ⟨q, hq⟩ := mem_ops.1 hop
        obtain ⟨g, T, w, _, hT, hw, hv⟩ := Func.mem_retIncs hq
        exact ⟨g, T, w, hT, mem_opds_use (.inr (by rw [hw]; simp [Term.args])), hv⟩
      · simp at hp
    · exact .inl ⟨b, B, h.hB, mem_opds_use (.inl ⟨i, List.mem_of_mem_drop hi, h2⟩)⟩
    · exact .inl ⟨b, B, h.hB, mem_opds_use (.inr h2)⟩
  · rcases hsplit ho with h2 | ⟨i, hi, h2⟩ | h2
    · rw [Copy.blockAt_phis, List.flatMap_append] at h2
      rcases List.mem_append.1 h2 with h3 | h3
      · left
        refine ⟨b, B, h.hB, ?_⟩
        obtain ⟨p, hp, hop⟩ := List.mem_flatMap.1 h3
        split at hp
        · obtain ⟨v, hv, hi⟩ := Copy.mem_argPhis hp
          obtain ⟨q, hq⟩ := mem_ops.1 hop
          rw [hi] at hq
          simp only [List.mem_singleton, Prod.mk.injEq] at hq
          exact mem_opds_use (.inl ⟨call, h.call_mem, hq.2 ▸ hv⟩)
        · simp at hp
      · right
        obtain ⟨p', hp', hop⟩ := List.mem_flatMap.1 h3
        obtain ⟨p, hp, rfl⟩ := List.mem_map.1 hp'
        obtain ⟨q', hq'⟩ := mem_ops.1 hop
        simp only [Copy.phi, List.mem_map, Prod.mk.injEq] at hq'
        obtain ⟨⟨q0, o'⟩, he, _, hoy⟩ := hq'
        exact ⟨q, T, o', hT, mem_opds_phi hp he, hoy.symm⟩
    · right
      rw [Copy.blockAt_body] at hi
      obtain ⟨i0, hi0, rfl⟩ := List.mem_map.1 hi
      simp only [Copy.inst, List.mem_map] at h2
      obtain ⟨o', ho', hoy⟩ := h2
      exact ⟨q, T, o', hT, mem_opds_use (.inl ⟨i0, hi0, ho'⟩), hoy.symm⟩
    · right
      rw [Copy.blockAt_term] at h2
      obtain ⟨o', ho', hoy⟩ := Copy.term_args' h2
      exact ⟨q, T, o', hT, mem_opds_use (.inr ho'), hoy⟩
  · left
    refine ⟨z, X, hX, ?_⟩
    rcases hsplit ho with h2 | ⟨i, hi, h2⟩ | h2
    · exact hphi (newPhis_ops h2)
    · exact mem_opds_use (.inl ⟨i, hi, h2⟩)
    · exact mem_opds_use (.inr h2)

theorem InlineOk.insts (h : InlineOk K param F G b k valued B call) (S : Shape F) {z : Nat} {Z : Block Op C} (hZ : (F.inline K param b k valued G).blk z = some Z) {i : Inst Op C} (hi : i ∈ Z.body) :
    (∃ x X, F.blk x = some X ∧ i ∈ X.body) ∨ ∃ q T i', G.blk q = some T ∧ i' ∈ T.body ∧ i = K.inst param i' := by
  rcases h.blk_cases S hZ with ⟨h1, rfl⟩ | ⟨h1, rfl⟩ | ⟨q, T, h1, hT, rfl⟩ | ⟨h1, X, hX, rfl⟩
  · exact .inl ⟨b, B, h.hB, List.mem_of_mem_take hi⟩
  · exact .inl ⟨b, B, h.hB, List.mem_of_mem_drop hi⟩
  · rw [Copy.blockAt_body] at hi
    obtain ⟨i0, hi0, rfl⟩ := List.mem_map.1 hi
    exact .inr ⟨q, T, i0, hT, hi0, rfl⟩
  · exact .inl ⟨z, X, hX, hi⟩

end

/-- one call inlined: the function still fits -/
theorem FnOk.inline (hF : FnOk V sg f F) (hG : FnOk V sg g G) (hel : sg.elig g = true) {K : Copy} (h : InlineOk K V.param F G b k (sg.valued g) B call) :
    FnOk V sg f (F.inline K V.param b k (sg.valued g) G) := by
  have S := hF.wf.toShape
  refine ⟨inline_liveWf h hF.wf hG.wf, ?_, ?_, ?_, ?_, ?_, ?_⟩
  · intro q e
    rw [h.entry] at e
    rcases h.edge_cases S e with ⟨_, h2⟩ | ⟨_, e1⟩ | ⟨_, _, _, h2, _⟩ | ⟨_, _, _, _, h2, _⟩ | ⟨_, e1⟩
    · exact h.fbF _ (h2 ▸ S.entryIn)
    · exact hF.noEntry _ e1
    · exact h.fbF _ (h2 ▸ S.entryIn)
    · exact h.sinkF (h2 ▸ S.entryIn)
    · exact hF.noEntry _ e1
  · intro z Z hZ o ho c j hoc hp
    rcases h.opds S hZ ho with ⟨x, X, hX, hx⟩ | ⟨q, T, o', hT, ho', he⟩
    · exact hF.params x X hX o hx c j hoc hp
    · rw [hoc] at he
      cases o' with
      | inst i => simp [Copy.opd] at he
      | cst c' =>
        simp only [Copy.opd] at he
        cases hp' : V.param c' with
        | none =>
          rw [hp'] at he
          simp only [Opd.cst.injEq] at he
          rw [he, hp'] at hp
          cases hp
        | some j' => rw [hp'] at he; simp at he
  · intro z Z v hZ ht
    rcases h.blk_cases S hZ with ⟨h1, rfl⟩ | ⟨h1, rfl⟩ | ⟨q, T, h1, hT, rfl⟩ | ⟨h1, X, hX, rfl⟩
    · cases ht
    · exact hF.rets b B v h.hB ht
    · rw [Copy.blockAt_term] at ht
      cases hT' : T.term <;> rw [hT'] at ht <;> simp [Copy.term] at ht
    · exact hF.rets z X v hX ht
  · intro z Z i e hZ hi hc
    rcases h.insts S hZ hi with ⟨x, X, hX, hx⟩ | ⟨q, T, i', hT, hi', rfl⟩
    · exact hF.calls x X i e hX hx hc
    · simp only [Copy.inst, List.length_map]
      exact hG.calls q T i' e hT hi' hc
  · intro z Z i e hZ hi hc hv x X hX hm
    rcases h.insts S hZ hi with ⟨y, Y, hY, hy⟩ | ⟨q, T, i', hT, hi', rfl⟩
    · have hid : i.id ∈ Y.ids := by
        unfold Block.ids
        exact List.mem_append_right _ (List.mem_map.2 ⟨i, hy, rfl⟩)
      rcases h.opds S hX hm with ⟨x', X', hX', hx'⟩ | ⟨q, T, o', hT, ho', he⟩
      · exact hF.voids y Y i e hY hy hc hv x' X' hX' hx'
      · rcases Copy.opd_inst he.symm with ⟨j, _, h2⟩ | ⟨c, j, _, _, h2⟩
        · exact (h.newIds y Y hY).1 j (h2 ▸ hid)
        · exact (h.newIds y Y hY).2 j (h2 ▸ hid)
    · rcases h.opds S hX hm with ⟨x', X', hX', hx'⟩ | ⟨q', T', o', hT', ho', he⟩
      · exact (h.unused x' X' hX').1 i'.id hx'
      · rcases Copy.opd_inst he.symm with ⟨j, h1, h2⟩ | ⟨c, j, _, _, h2⟩
        · simp only [Copy.inst] at h2
          obtain rfl := h.fi h2
          exact hG.voids q T i' e hT hi' hc hv q' T' hT' (h1 ▸ ho')
        · exact h.fp _ _ h2
  · intro he z Z hZ i hi hc
    rcases h.insts S hZ hi with ⟨x, X, hX, hx⟩ | ⟨q, T, i', hT, hi', rfl⟩
    · exact hF.locals he x X hX i hx hc
    · exact hG.locals hel q T hT i' hi' hc

/-- a program does whatever another one does, as far as calls come back -/
def ProgRefines (V : Conv L) (P P' : Nat → Option L.F) : Prop := ∀ d f vs m, V.call P d f vs m ≠ .ub → V.call P' d f vs m = V.call P d f vs m

theorem ProgRefines.refl (V : Conv L) (P : Nat → Option L.F) : ProgRefines V P P := fun _ _ _ _ _ => rfl

theorem ProgRefines.trans {P Q R : Nat → Option L.F} (h1 : ProgRefines V P Q) (h2 : ProgRefines V Q R) : ProgRefines V P R := by
  intro d f vs m hu
  have e1 := h1 d f vs m hu
  rw [← e1]
  exact h2 d f vs m (by rw [e1]; exact hu)

theorem setFn_setFn {P : Nat → Option L.F} {F1 F2 : L.F} : setFn (setFn P f F1) f F2 = setFn P f F2 := by
  funext g
  unfold setFn
  split <;> rfl

theorem setFn_self {P : Nat → Option L.F} (h : P f = some F) : setFn P f F = P := by
  funext g
  unfold setFn
  split
  · rename_i e; rw [e, h]
  · rfl

/-- the calls `tryInline` looks at are those of the other functions -/
theorem inlineFn_ok {P : Nat → Option L.F} (hP : ∀ g G, g ≠ f → P g = some G → FnOk V sg g G) : ∀ (n : Nat) (F : L.F), FnOk V sg f F →
    FnOk V sg f (inlineFn V.param V.callee sg P f n F) ∧ ProgRefines V (setFn P f F) (setFn P f (inlineFn V.param V.callee sg P f n F)) := by
  intro n
  induction n with
  | zero => intro F hF; exact ⟨hF, ProgRefines.refl V _⟩
  | succ n ih =>
    intro F hF
    unfold inlineFn
    cases ht : tryInline V.param V.callee sg P f F with
    | none => exact ⟨hF, ProgRefines.refl V _⟩
    | some F' =>
      simp only
      unfold tryInline at ht
      split at ht
      · cases ht
      · rename_i b k g hfind
        obtain ⟨G, hG, rfl⟩ := Option.map_eq_some_iff.1 ht
        obtain ⟨B, call, hB, hk, hc, _, hne, hel⟩ := findCall_spec hfind
        have hGok := hP g G hne hG
        have hio := inlineOk_fresh hF hGok hB hk hc
        obtain ⟨h1, h2⟩ := ih _ (hF.inline hGok hel hio)
        refine ⟨h1, ProgRefines.trans ?_ h2⟩
        have := inline_program (V := V) (P := setFn P f F) (f := f) (g := g) (F := F) (G := G) (if_pos rfl) (by unfold setFn; rw [if_neg hne]; exact hG) hne hc (hGok.locals hel) hF.wf.toShape hio
        rw [setFn_setFn] at this
        exact this

/-- **C72, one function.** -/
theorem inlinePass_ok {P : Nat → Option L.F} (hP : ProgOk V sg P) (wrapped : Nat → Bool) (f : Nat) :
    ProgOk V sg (inlinePass V.param V.callee sg wrapped P f) ∧ ProgRefines V P (inlinePass V.param V.callee sg wrapped P f) := by
  unfold inlinePass
  cases hF : P f with
  | none => exact ⟨hP, ProgRefines.refl V _⟩
  | some F =>
    simp only
    split
    · exact ⟨hP, ProgRefines.refl V _⟩
    · obtain ⟨h1, h2⟩ := inlineFn_ok (f := f) (V := V) (sg := sg) (P := P) (fun g G _ hG => hP g G hG) 128 F (hP f F hF)
      rw [setFn_self hF] at h2
      refine ⟨?_, h2⟩
      intro g G hG
      unfold setFn at hG
      split at hG
      · rename_i e
        cases hG
        rw [e]; exact h1
      · exact hP g G hG

/-- **C72.** `FuncInlining` over a module: the program stays in SSA form and every call that ends - returning a value and a memory after some events, or halting -
ends the same way in the new program. -/
theorem C72_inlining (V : Conv L) (sg : Sigs) (wrapped : Nat → Bool) (fs : List Nat) (P : Nat → Option L.F) (hP : ProgOk V sg P) :
    ProgOk V sg (inlineModule V.param V.callee sg wrapped fs P) ∧
    ∀ d f vs m, V.call P d f vs m ≠ .ub → V.call (inlineModule V.param V.callee sg wrapped fs P) d f vs m = V.call P d f vs m := by
  unfold inlineModule
  induction fs generalizing P with
  | nil => exact ⟨hP, ProgRefines.refl V P⟩
  | cons f fs ih =>
    obtain ⟨h1, h2⟩ := inlinePass_ok hP wrapped f
    obtain ⟨h3, h4⟩ := ih _ h1
    exact ⟨h3, ProgRefines.trans h2 h4⟩

end
end Cmmc.SSA
