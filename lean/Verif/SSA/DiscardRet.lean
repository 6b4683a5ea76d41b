import Verif.SSA.DeadArg
/-!
# C85: DiscardReturnValue (cmmc/Transforms/IPO/DiscardReturnValue.cpp)
-/
namespace Cmmc.SSA
section
variable {Op C : Type} [DecidableEq C]

/-- a user of `x` in block `B` other than, if `own`, a `ret` (l.39-42) -/
def Block.needs (own : Bool) (x : Nat) (B : Block Op C) : Bool :=
  (B.phis.flatMap Phi.ops ++ B.body.flatMap Inst.args).contains (.inst x) ||
    match B.term with
    | .ret v => !own && (Term.ret v).args.contains (.inst x)
    | t => t.args.contains (.inst x)

/-- `isUsed` (l.36-46): the result of some call of `f` (or its address) is used, not counting the `ret`s of `f` -/
def resultUsed (callee fptr : Op → Option Nat) (fs : List Nat) (P : Nat → Option (Func Op C)) (f : Nat) : Bool :=
  fs.any (fun h => match P h with
    | none => false
    | some H => H.blocks.any (fun B => B.body.any (fun i => (decide (callee i.op = some f) || decide (fptr i.op = some f)) && H.blocks.any (fun X => X.needs (h == f) i.id))))

/-- `terminator->mutableOperands().clear()` (l.69-71) -/
def Term.clearRet : Term C → Term C
  | .ret _ => .ret none
  | t => t

def Func.clearRets (F : Func Op C) : Func Op C := F.remap id id Term.clearRet

/-- the new declaration (l.65) -/
def Sigs.unvalue (sg : Sigs) (f : Nat) : Sigs := { sg with valued := fun g => if g = f then false else sg.valued g }

/-- `run` (l.49-79) on function `f`; `skip f`: one of the attributes NoReturn, NoSideEffect, Entry, or the linkage is not Internal. The type of an instruction (l.74-76) is not modelled. -/
def discardFn (callee fptr : Op → Option Nat) (skip : Nat → Bool) (fs : List Nat) (S : (Nat → Option (Func Op C)) × Sigs) (f : Nat) : (Nat → Option (Func Op C)) × Sigs :=
  match S.1 f with
  | none => S
  | some F => if skip f || !S.2.valued f || resultUsed callee fptr fs S.1 f then S else (setFn S.1 f F.clearRets, S.2.unvalue f)

/-- the pass on a module -/
def discardModule (callee fptr : Op → Option Nat) (skip : Nat → Bool) (fs : List Nat) (S : (Nat → Option (Func Op C)) × Sigs) : (Nat → Option (Func Op C)) × Sigs :=
  fs.foldl (discardFn callee fptr skip fs) S

omit [DecidableEq C] in
theorem clearRet_wf : RemapWf (id : Opd C → Opd C) (id : Inst Op C → Inst Op C) Term.clearRet where
  phi := fun _ _ h => h
  id := fun _ => rfl
  args := fun _ _ h => h
  targets := by intro t; cases t <;> rfl
  term := by
    intro t x h
    cases t with
    | ret v => simp [Term.clearRet, Term.args] at h
    | _ => exact h

/-- what the check has found out -/
theorem not_needed {callee fptr : Op → Option Nat} {fs : List Nat} {P : Nat → Option (Func Op C)} {f h : Nat} {H : Func Op C} (hu : resultUsed callee fptr fs P f = false) (hf : h ∈ fs) (hH : P h = some H)
    (hl : H.Listed) {b : Nat} {B : Block Op C} (hB : H.blk b = some B) {i : Inst Op C} (hi : i ∈ B.body) (hc : callee i.op = some f) {x : Nat} {X : Block Op C} (hX : H.blk x = some X) :
    (∀ p ∈ X.phis, Opd.inst i.id ∉ p.ops) ∧ (∀ k ∈ X.body, Opd.inst i.id ∉ k.args) ∧ (Opd.inst i.id ∈ X.term.args → h = f ∧ ∃ v, X.term = .ret v) := by
  have hn : X.needs (h == f) i.id = false := by
    cases hx : X.needs (h == f) i.id with
    | false => rfl
    | true =>
      have : resultUsed callee fptr fs P f = true := by
        unfold resultUsed
        rw [List.any_eq_true]
        refine ⟨h, hf, ?_⟩
        rw [hH]
        simp only
        rw [List.any_eq_true]
        refine ⟨B, hl.mem hB, ?_⟩
        rw [List.any_eq_true]
        refine ⟨i, hi, ?_⟩
        rw [Bool.and_eq_true, List.any_eq_true]
        exact ⟨by simp [hc], X, hl.mem hX, hx⟩
      rw [hu] at this
      cases this
  unfold Block.needs at hn
  rw [Bool.or_eq_false_iff] at hn
  obtain ⟨h1, h2⟩ := hn
  simp only [List.contains_eq_mem, decide_eq_false_iff_not, List.mem_append, not_or, List.mem_flatMap, not_exists, not_and] at h1
  refine ⟨fun p hp hm => h1.1 p hp hm, fun k hk hm => h1.2 k hk hm, ?_⟩
  intro hm
  cases ht : X.term with
  | ret v =>
    rw [ht] at h2 hm
    simp only [List.contains_eq_mem, decide_eq_true hm, Bool.and_true, Bool.not_eq_false'] at h2
    exact ⟨by simpa using h2, v, rfl⟩
  | br t => rw [ht] at hm; simp [Term.args] at hm
  | unreachable => rw [ht] at hm; simp [Term.args] at hm
  | cbr c t f => rw [ht] at h2 hm; simp only [List.contains_eq_mem, decide_eq_false_iff_not] at h2; exact absurd hm h2
  | sw c d cs => rw [ht] at h2 hm; simp only [List.contains_eq_mem, decide_eq_false_iff_not] at h2; exact absurd hm h2

end

section
variable {L : Lang} {V : Conv L} {sg : Sigs}

theorem ResK.mono {k k' : Prop} (hk : k → k') {r r' : Res L.V L.M L.E L.H} (h : ResK (L := L) k r r') : ResK (L := L) k' r r' := by
  cases r with
  | ub => trivial
  | halt es h' => exact h
  | ok v m es =>
    obtain ⟨v', h1, h2⟩ := h
    exact ⟨v', h1, h2.imp hk id⟩

theorem eval_agreeK {c1 : L.C → L.V} {s1 s2 : L.Op → List L.V → L.M → Res L.V L.M L.E L.H} {K : Nat → Prop} {e e' : Env L} (h : AgreeK (L := L) K e e') {o : Opd L.C} (ho : ∀ x, K x → o ≠ .inst x) {v : L.V}
    (hv : eval (L.upd c1 s1) e o = some v) : eval (L.upd c1 s2) e' o = some v := by
  cases o with
  | cst c => exact hv
  | inst x => exact (h x (fun hk => ho x hk rfl)).symm.trans hv

/-- the results of `f` dropped: calls of other functions do the same; calls of `f` do the same except for the value -/
theorem clearRets_program {P : Nat → Option L.F} (hP : ProgOk V sg P) {fptr : L.Op → Option Nat} {fs : List Nat} (hfs : Covers fs P) {f : Nat} {F : L.F} (hF : P f = some F)
    (hu : resultUsed V.callee fptr fs P f = false) : ∀ d g vs m, ResK (L := L) (g = f) (V.call P d g vs m) (V.call (setFn P f F.clearRets) d g vs m) := by
  have hid : ∀ G : L.F, G.remap id id id = G := by
    intro G
    unfold Func.remap Func.mapBlocks
    have : ∀ B : L.B, B.remap id id id = B := by
      intro B
      unfold Block.remap
      have h1 : (Phi.mapO id : Phi L.C → Phi L.C) = id := by funext p; simp [Phi.mapO]
      rw [h1, List.map_id, List.map_id, id]
    have h2 : (fun b => (G.blk b).map (fun B => B.remap id id id)) = G.blk := by
      funext b
      rw [show (fun B : L.B => B.remap id id id) = id from funext this, Option.map_id, id]
    rw [h2]
  have main := Conv.remap_program (V := V) (P := P) (P' := setFn P f F.clearRets) (fun _ vs vs' => vs' = vs) (fun g => g = f) (fun _ => id) (fun _ => id) (fun h => if h = f then Term.clearRet else id)
    (fun h x => ∃ H b B i, P h = some H ∧ H.blk b = some B ∧ i ∈ B.body ∧ V.callee i.op = some f ∧ i.id = x) (by
      intro h H hH
      unfold setFn
      by_cases e : h = f
      · subst e
        rw [hF] at hH
        cases hH
        rw [if_pos rfl, if_pos rfl]
        rfl
      · rw [if_neg e, if_neg e, hH, hid]) (by
      rintro h H hH cs1 cs2 hcs vs vs' hvv
      obtain rfl : vs = vs' := hvv.symm
      have hno : ∀ x, (∃ H b B i, P h = some H ∧ H.blk b = some B ∧ i ∈ B.body ∧ V.callee i.op = some f ∧ i.id = x) → ∀ q X, H.blk q = some X →
          (∀ p ∈ X.phis, Opd.inst x ∉ p.ops) ∧ (∀ k ∈ X.body, Opd.inst x ∉ k.args) ∧ (Opd.inst x ∈ X.term.args → h = f ∧ ∃ v, X.term = .ret v) := by
        rintro x ⟨H', b, B, i, hH', hB, hi, hc, rfl⟩ q X hX
        rw [hH] at hH'
        cases hH'
        exact not_needed hu (hfs h H hH) hH (hP h H hH).wf.listed hB hi hc hX
      refine ⟨?_, ?_, ?_, ?_⟩
      · intro b B p q o hB hp hq e e' he v hv
        refine eval_agreeK he ?_ hv
        rintro x hx rfl
        exact (hno x hx b B hB).1 p hp (mem_ops.2 ⟨q, hq⟩)
      · intro b B i _ _; rfl
      · intro b B i hB hi e e' he ws m hws hne
        refine ⟨ws, ?_, ?_⟩
        · have := evals_mapO (φ := id) (c1 := V.cvals vs) (s1 := V.sem cs1) (e := e) (c2 := V.cvals vs) (s2 := V.sem cs2) (e' := e') (fun o ho v hv => eval_agreeK he (by rintro x hx rfl; exact (hno x hx b B hB).2.1 i hi ho) hv) hws
          rwa [List.map_id] at this
        · show ResK (L := L) _ (V.sem cs1 i.op ws m) (V.sem cs2 i.op ws m)
          unfold Conv.sem
          cases hc : V.callee i.op with
          | none => exact ResK.refl _ _
          | some g =>
            refine (hcs g ws ws m rfl).mono ?_
            rintro rfl
            exact ⟨H, b, B, i, hH, hB, hi, hc, rfl⟩
      · intro b B hB e e' he
        by_cases hf : h = f
        · rw [if_pos hf]
          by_cases hr : ∃ v, B.term = .ret v
          · obtain ⟨v, hr⟩ := hr
            rw [hr]
            cases v with
            | none => exact ⟨none, rfl, .inr rfl⟩
            | some o =>
              simp only [evalTerm, Term.clearRet]
              cases eval (L.upd (V.cvals vs) (V.sem cs1)) e o with
              | none => trivial
              | some v => exact ⟨none, rfl, .inl hf⟩
          · have hcl : Term.clearRet B.term = B.term.mapO id := by
              cases ht : B.term with
              | ret v => exact absurd ⟨v, ht⟩ hr
              | _ => rfl
            rw [hcl]
            refine nextK_mapO (fun v => .inr rfl) (fun o ho v hv => eval_agreeK he ?_ hv)
            rintro x hx rfl
            exact hr ((hno x hx b B hB).2.2 ho).2
        · rw [if_neg hf]
          have hcl : id B.term = B.term.mapO id := by
            cases ht : B.term with
            | ret v => simp [Term.mapO]
            | _ => rfl
          rw [hcl]
          refine nextK_mapO (fun v => .inr rfl) (fun o ho v hv => eval_agreeK he ?_ hv)
          rintro x hx rfl
          exact hf ((hno x hx b B hB).2.2 ho).1)
  intro d g vs m
  exact main d g vs vs m rfl

theorem clearRets_ok {P : Nat → Option L.F} (hP : ProgOk V sg P) {fptr : L.Op → Option Nat} {fs : List Nat} (hfs : Covers fs P) {f : Nat} {F : L.F} (hF : P f = some F)
    (hu : resultUsed V.callee fptr fs P f = false) : ProgOk V (sg.unvalue f) (setFn P f F.clearRets) ∧ Covers fs (setFn P f F.clearRets) := by
  refine ⟨?_, ?_⟩
  · intro h H' hH'
    unfold setFn at hH'
    by_cases hh : h = f
    · subst hh
      rw [if_pos rfl] at hH'
      cases hH'
      have ok := hP h F hF
      have R := clearRet_wf (Op := L.Op) (C := L.C)
      refine ⟨ok.wf.remap R, ?_, ?_, ?_, ?_, ?_, ?_⟩
      · intro q e; exact ok.noEntry q ((remap_edge R.targets).1 e)
      · rintro q T' hT' o ho a k rfl hp
        obtain ⟨T, hT, rfl⟩ := remap_blk_inv hT'
        refine ok.params q T hT _ ?_ a k rfl hp
        rcases mem_remap_opds ho with ⟨p, hp', o, ho', e⟩ | ⟨i, hi, ho'⟩ | ho'
        · rw [show Opd.cst a = o from e]; exact mem_opds_ops hp' ho'
        · exact mem_opds_use (.inl ⟨i, hi, ho'⟩)
        · refine mem_opds_use (.inr ?_)
          cases ht : T.term with
          | ret v => rw [ht] at ho'; simp [Term.clearRet, Term.args] at ho'
          | _ => rw [ht] at ho'; exact ho'
      · intro q T' v hT' hv
        obtain ⟨T, hT, rfl⟩ := remap_blk_inv hT'
        have hv' : T.term.clearRet = .ret v := hv
        cases ht : T.term with
        | ret w => rw [ht] at hv'; simp only [Term.clearRet, Term.ret.injEq] at hv'; subst hv'; simp [Sigs.unvalue]
        | _ => rw [ht] at hv'; simp [Term.clearRet] at hv'
      · intro q T' i g hT' hi hg
        obtain ⟨T, hT, rfl⟩ := remap_blk_inv hT'
        obtain ⟨i0, hi0, rfl⟩ := List.mem_map.1 (show i ∈ T.body.map _ from hi)
        exact ok.calls q T i0 g hT hi0 hg
      · intro q T' i g hT' hi hg hv x X' hX' hm
        obtain ⟨T, hT, rfl⟩ := remap_blk_inv hT'
        obtain ⟨X, hX, rfl⟩ := remap_blk_inv hX'
        obtain ⟨i0, hi0, rfl⟩ := List.mem_map.1 (show i ∈ T.body.map _ from hi)
        by_cases hgf : g = h
        · subst hgf
          obtain ⟨n1, n2, n3⟩ := not_needed hu (hfs g F hF) hF ok.wf.listed hT hi0 hg hX
          rcases mem_remap_opds hm with ⟨p, hp', o, ho', e⟩ | ⟨k, hk, ho'⟩ | ho'
          · exact n1 p hp' (by rw [show Opd.inst i0.id = o from e]; exact ho')
          · exact n2 k hk ho'
          · have hx := R.term _ _ ho'
            obtain ⟨_, v, hr⟩ := n3 hx
            rw [hr] at ho'
            simp [Term.clearRet, Term.args] at ho'
        · simp only [Sigs.unvalue, if_neg hgf] at hv
          exact ok.voids q T i0 g hT hi0 hg hv x X hX (R.opds hm)
      · intro hel q T' hT' i hi hcal
        obtain ⟨T, hT, rfl⟩ := remap_blk_inv hT'
        obtain ⟨i0, hi0, rfl⟩ := List.mem_map.1 (show i ∈ T.body.map _ from hi)
        exact ok.locals hel q T hT i0 hi0 hcal
    · rw [if_neg hh] at hH'
      have ok := hP h H' hH'
      refine ⟨ok.wf, ok.noEntry, ok.params, ?_, ok.calls, ?_, ok.locals⟩
      · intro q T v hT ht
        simp only [Sigs.unvalue, if_neg hh]
        exact ok.rets q T v hT ht
      · intro q T i g hT hi hg hv x X hX hm
        by_cases hgf : g = f
        · subst hgf
          obtain ⟨n1, n2, n3⟩ := not_needed hu (hfs h H' hH') hH' ok.wf.listed hT hi hg hX
          unfold Block.opds at hm
          simp only [List.mem_append, List.mem_flatMap] at hm
          rcases hm with (⟨p, hp, ho⟩ | ⟨k, hk, ho⟩) | ho
          · exact n1 p hp ho
          · exact n2 k hk ho
          · exact hh (n3 ho).1
        · simp only [Sigs.unvalue, if_neg hgf] at hv
          exact ok.voids q T i g hT hi hg hv x X hX hm
  · intro g G hG
    unfold setFn at hG
    split at hG
    · rename_i e
      subst e
      exact hfs g F hF
    · exact hfs g G hG

/-- **C85.** `DiscardReturnValue` over a module: the program stays well-formed with the new declarations; every call of a function the pass may not touch that ends - returning a value and a memory
after some events, or halting - ends the same way in the new program; calls of the other functions end with the same memory and events, too. -/
theorem C85_discardReturnValue (V : Conv L) (sg : Sigs) (fptr : L.Op → Option Nat) (skip : Nat → Bool) (fs : List Nat) (P : Nat → Option L.F) (hP : ProgOk V sg P) (hfs : ∀ g G, P g = some G → g ∈ fs) :
    ∃ P' sg', discardModule V.callee fptr skip fs (P, sg) = (P', sg') ∧ ProgOk V sg' P' ∧ (∀ g, sg'.valued g = true → sg.valued g = true) ∧
    (∀ d g vs m, skip g = true ∨ sg'.valued g = true → V.call P d g vs m ≠ .ub → V.call P' d g vs m = V.call P d g vs m) ∧
    (∀ d g vs m v m' es, V.call P d g vs m = .ok v m' es → ∃ v', V.call P' d g vs m = .ok v' m' es) ∧ ∀ d g vs m es h, V.call P d g vs m = .halt es h → V.call P' d g vs m = .halt es h := by
  unfold discardModule
  suffices H : ∀ (gs : List Nat) (P : Nat → Option L.F) (sg : Sigs), ProgOk V sg P → Covers fs P → ∃ P' sg', gs.foldl (discardFn V.callee fptr skip fs) (P, sg) = (P', sg') ∧ ProgOk V sg' P' ∧
      (∀ g, sg'.valued g = true → sg.valued g = true) ∧
      (∀ d g vs m, skip g = true ∨ sg'.valued g = true → V.call P d g vs m ≠ .ub → V.call P' d g vs m = V.call P d g vs m) ∧
      (∀ d g vs m v m' es, V.call P d g vs m = .ok v m' es → ∃ v', V.call P' d g vs m = .ok v' m' es) ∧ ∀ d g vs m es h, V.call P d g vs m = .halt es h → V.call P' d g vs m = .halt es h from H fs P sg hP hfs
  intro gs
  induction gs with
  | nil => intro P sg hP _; exact ⟨P, sg, rfl, hP, fun _ h => h, fun _ _ _ _ _ _ => rfl, fun _ _ _ _ v _ _ h => ⟨v, h⟩, fun _ _ _ _ _ _ h => h⟩
  | cons f gs ih =>
    intro P sg hP hfs
    rw [List.foldl_cons]
    unfold discardFn
    simp only
    cases hF : P f with
    | none => exact ih P sg hP hfs
    | some F =>
      simp only
      by_cases hk : (skip f || !sg.valued f || resultUsed V.callee fptr fs P f) = true
      · rw [if_pos hk]; exact ih P sg hP hfs
      · rw [if_neg hk]
        simp only [Bool.or_eq_true, not_or, Bool.not_eq_true', Bool.not_eq_true, Bool.not_eq_false] at hk
        obtain ⟨⟨hs, hv⟩, hu⟩ := hk
        obtain ⟨o1, o2⟩ := clearRets_ok hP hfs hF hu
        have key := clearRets_program hP hfs hF hu
        obtain ⟨P', sg', h1, h2, h3, h4, h5, h6⟩ := ih _ _ o1 o2
        refine ⟨P', sg', h1, h2, ?_, ?_, ?_, ?_⟩
        · intro g hg
          have := h3 g hg
          unfold Sigs.unvalue at this
          simp only at this
          split at this
          · cases this
          · exact this
        · intro d g vs m hg hne
          have hgf : g ≠ f := by
            rintro rfl
            rcases hg with hg | hg
            · rw [hs] at hg; cases hg
            · have := h3 g hg
              simp [Sigs.unvalue] at this
          have e := ((key d g vs m).mono (k' := False) hgf).eq hne
          rw [h4 d g vs m hg (by rw [e]; exact hne), e]
        · intro d g vs m v m' es h
          have := key d g vs m
          rw [h] at this
          obtain ⟨v', e, _⟩ := this
          exact h5 d g vs m v' m' es e
        · intro d g vs m es h0 h
          have := key d g vs m
          rw [h] at this
          exact h6 d g vs m es h0 this

end
end Cmmc.SSA
