import Verif.SSA.Ipo
/-!
# C83: IPConstantPropagation (cmmc/Transforms/IPO/IPConstantPropagation.cpp)
-/
namespace Cmmc.SSA
section
variable {Op C : Type}

/-- `arg->replaceWith(commonArg)` (l.61) for one operand: the parameter at position `j` becomes `c` -/
def paramTo (param : C → Option Nat) (j : Nat) (c : C) : Opd C → Opd C
  | .cst a => if param a = some j then .cst c else .cst a
  | .inst x => .inst x

/-- the same in a whole function -/
def Func.setParam (param : C → Option Nat) (j : Nat) (c : C) (F : Func Op C) : Func Op C := F.remap (paramTo param j c) (Inst.mapO (paramTo param j c)) (Term.mapO (paramTo param j c))

/-- `func.users()` (l.43): the instructions of the module, each with the function it is in, that call `f` or take its address -/
def usersOf (callee fptr : Op → Option Nat) (fs : List Nat) (P : Nat → Option (Func Op C)) (f : Nat) : List (Nat × Inst Op C) :=
  fs.flatMap (fun h => match P h with
    | none => []
    | some F => F.blocks.flatMap (fun B => (B.body.filter (fun i => callee i.op = some f || fptr i.op = some f)).map (fun i => (h, i))))

/-- the search for the common argument (l.41-58): `none` stands for `return false`, `!same` and `commonArg == nullptr` -/
def commonArg [DecidableEq C] (param : C → Option Nat) (fptr : Op → Option Nat) (f j : Nat) : List (Nat × Inst Op C) → Option C → Option C
  | [], acc => acc
  | (h, i) :: us, acc =>
    if fptr i.op = some f then none
    else match i.args[j]? with
      | some (.cst a) =>
        if h = f ∧ param a = some j then commonArg param fptr f j us acc
        else if param a = none then
          match acc with
          | none => commonArg param fptr f j us (some a)
          | some c => if c = a then commonArg param fptr f j us acc else none
        else none
      | _ => none

/-- one argument (l.39-64). `arg->isUsed()` is not asked: replacing an argument without uses changes nothing. -/
def ipcpArg [DecidableEq C] (param : C → Option Nat) (callee fptr : Op → Option Nat) (fs : List Nat) (f : Nat) (P : Nat → Option (Func Op C)) (j : Nat) : Nat → Option (Func Op C) :=
  match P f, commonArg param fptr f j (usersOf callee fptr fs P f) none with
  | some F, some c => setFn P f (F.setParam param j c)
  | _, _ => P

/-- `run` (l.31-68) on function `f`; `glob f`: the linkage is Global -/
def ipcpFn [DecidableEq C] (param : C → Option Nat) (callee fptr : Op → Option Nat) (arity : Nat → Nat) (glob : Nat → Bool) (fs : List Nat) (P : Nat → Option (Func Op C)) (f : Nat) : Nat → Option (Func Op C) :=
  if glob f then P else (List.range (arity f)).foldl (ipcpArg param callee fptr fs f) P

/-- the pass on a module: one function after the other -/
def ipcpModule [DecidableEq C] (param : C → Option Nat) (callee fptr : Op → Option Nat) (arity : Nat → Nat) (glob : Nat → Bool) (fs : List Nat) (P : Nat → Option (Func Op C)) : Nat → Option (Func Op C) :=
  fs.foldl (ipcpFn param callee fptr arity glob fs) P

/-! ## what the search finds -/

/-- an argument that is the constant `c`, or the parameter `j` of `f` itself -/
def GoodArg (param : C → Option Nat) (f j : Nat) (c : C) (u : Nat × Inst Op C) : Prop :=
  u.2.args[j]? = some (.cst c) ∨ ∃ a, u.1 = f ∧ param a = some j ∧ u.2.args[j]? = some (.cst a)

theorem commonArg_spec [DecidableEq C] {param : C → Option Nat} {fptr : Op → Option Nat} {f j : Nat} {c : C} : ∀ {us : List (Nat × Inst Op C)} {acc : Option C}, (∀ a, acc = some a → param a = none) →
    commonArg param fptr f j us acc = some c → param c = none ∧ (∀ a, acc = some a → a = c) ∧ ∀ u ∈ us, GoodArg param f j c u := by
  intro us
  induction us with
  | nil =>
    intro acc ha h
    simp only [commonArg] at h
    exact ⟨ha c h, fun a e => by rw [h] at e; exact (Option.some.inj e).symm, by simp⟩
  | cons u us ih =>
    obtain ⟨h0, i⟩ := u
    intro acc ha h
    simp only [commonArg] at h
    split at h
    · cases h
    · split at h
      · rename_i a hi
        split at h
        · rename_i hc
          obtain ⟨h1, h2, h3⟩ := ih ha h
          refine ⟨h1, h2, ?_⟩
          intro u hu
          rcases List.mem_cons.1 hu with rfl | hu
          · exact .inr ⟨a, hc.1, hc.2, hi⟩
          · exact h3 u hu
        · split at h
          · rename_i hp
            cases acc with
            | none =>
              simp only at h
              obtain ⟨h1, h2, h3⟩ := ih (by intro b e; cases e; exact hp) h
              refine ⟨h1, by simp, ?_⟩
              intro u hu
              rcases List.mem_cons.1 hu with rfl | hu
              · exact .inl (by rw [← h2 a rfl]; exact hi)
              · exact h3 u hu
            | some b =>
              simp only at h
              split at h
              · rename_i e
                subst e
                obtain ⟨h1, h2, h3⟩ := ih ha h
                refine ⟨h1, h2, ?_⟩
                intro u hu
                rcases List.mem_cons.1 hu with rfl | hu
                · exact .inl (by rw [← h2 b rfl]; exact hi)
                · exact h3 u hu
              · cases h
          · cases h
      · cases h

theorem mem_usersOf {callee fptr : Op → Option Nat} {fs : List Nat} {P : Nat → Option (Func Op C)} {f h : Nat} {F : Func Op C} (hf : h ∈ fs) (hF : P h = some F) (hl : F.Listed) {b : Nat} {B : Block Op C}
    (hB : F.blk b = some B) {i : Inst Op C} (hi : i ∈ B.body) (hc : callee i.op = some f) : (h, i) ∈ usersOf callee fptr fs P f := by
  unfold usersOf
  refine List.mem_flatMap.2 ⟨h, hf, ?_⟩
  rw [hF]
  simp only
  refine List.mem_flatMap.2 ⟨B, hl.mem hB, ?_⟩
  refine List.mem_map.2 ⟨i, ?_, rfl⟩
  rw [List.mem_filter]
  exact ⟨hi, by simp [hc]⟩

theorem paramTo_inst {param : C → Option Nat} {j : Nat} {c : C} (o : Opd C) (x : Nat) (h : paramTo param j c o = .inst x) : o = .inst x := by
  cases o with
  | inst y => exact h
  | cst a => simp only [paramTo] at h; split at h <;> cases h

end

section
variable {L : Lang} {V : Conv L} {sg : Sigs}

/-- one argument replaced: calls of other functions do the same; calls of `f` do the same if they pass the constant -/
theorem setParam_program {P : Nat → Option L.F} {f j : Nat} {c : L.C} {F : L.F} (hF : P f = some F) (hc : V.param c = none)
    (hu : ∀ h H, P h = some H → ∀ b B, H.blk b = some B → ∀ i ∈ B.body, V.callee i.op = some f → GoodArg V.param f j c (h, i)) :
    ∀ d g vs m, (g = f → vs[j]? = some (L.cval c)) → V.call P d g vs m ≠ .ub → V.call (setFn P f (F.setParam V.param j c)) d g vs m = V.call P d g vs m := by
  let φ : Nat → Opd L.C → Opd L.C := fun h => if h = f then paramTo V.param j c else id
  have hid : ∀ G : L.F, G.remap id (Inst.mapO id) (Term.mapO id) = G := by
    intro G
    unfold Func.remap Func.mapBlocks
    have : ∀ B : L.B, B.remap id (Inst.mapO id) (Term.mapO id) = B := by
      intro B
      unfold Block.remap
      have h1 : (Phi.mapO id : Phi L.C → Phi L.C) = id := by funext p; simp [Phi.mapO]
      have h2 : (Inst.mapO id : Inst L.Op L.C → Inst L.Op L.C) = id := by funext p; simp [Inst.mapO]
      have h3 : Term.mapO id B.term = B.term := by
        cases B.term with
        | ret v => simp [Term.mapO]
        | _ => rfl
      rw [h1, h2, h3, List.map_id, List.map_id]
    have h2 : (fun b => (G.blk b).map (fun B => B.remap id (Inst.mapO id) (Term.mapO id))) = G.blk := by
      funext b
      rw [show (fun B : L.B => B.remap id (Inst.mapO id) (Term.mapO id)) = id from funext this, Option.map_id, id]
    rw [h2]
  have main := Conv.remap_program (V := V) (P := P) (P' := setFn P f (F.setParam V.param j c)) (fun g vs vs' => vs' = vs ∧ (g = f → vs[j]? = some (L.cval c))) (fun _ => False) φ
    (fun h => Inst.mapO (φ h)) (fun h => Term.mapO (φ h)) (fun _ _ => False) (by
      intro h H hH
      unfold setFn
      split
      · rename_i e
        subst e
        rw [hF] at hH
        cases hH
        simp only [φ, if_pos]
        rfl
      · rename_i e
        rw [hH]
        simp only [φ, if_neg e]
        rw [hid]) (by
      intro h H hH cs1 cs2 hcs vs vs' hA
      obtain ⟨hvv, hvs⟩ := hA
      obtain rfl : vs = vs' := hvv.symm
      have hev : ∀ (e e' : Env L), AgreeK (L := L) (fun _ => False) e e' → ∀ o v, eval (L.upd (V.cvals vs) (V.sem cs1)) e o = some v → eval (L.upd (V.cvals vs) (V.sem cs2)) e' (φ h o) = some v := by
        intro e e' he o v ho
        have hee : e' = e := funext (fun x => (he x id).symm)
        subst hee
        by_cases hh : h = f
        · simp only [φ, if_pos hh]
          cases o with
          | inst x => exact ho
          | cst a =>
            simp only [paramTo]
            split
            · rename_i hp
              simp only [eval, Conv.cvals, hp, hvs hh, Option.getD_some] at ho
              simp only [eval, Conv.cvals, hc]
              exact ho
            · exact ho
        · simp only [φ, if_neg hh]
          cases o with
          | inst x => exact ho
          | cst a => exact ho
      refine ⟨?_, ?_, ?_, ?_⟩
      · intro b B p q o _ _ _ e e' he v hv
        exact hev e e' he o v hv
      · intro b B i _ _; rfl
      · intro b B i hB hi e e' he ws m hws hne
        refine ⟨ws, evals_mapO (fun o _ v hv => hev e e' he o v hv) hws, ?_⟩
        show ResK (L := L) False (V.sem cs1 i.op ws m) (V.sem cs2 i.op ws m)
        unfold Conv.sem
        cases hcal : V.callee i.op with
        | none => exact ResK.refl _ _
        | some g =>
          simp only
          refine hcs g ws ws m ⟨rfl, ?_⟩
          rintro rfl
          rcases hu h H hH b B hB i hi hcal with hg | ⟨a, hhf, ha, hg⟩
          · obtain ⟨v, h1, h2⟩ := evals_getElem hws hg
            rw [h1]
            simp only [eval, Conv.cvals, hc] at h2
            exact h2.symm
          · obtain ⟨v, h1, h2⟩ := evals_getElem hws hg
            rw [h1]
            simp only at hhf
            simp only [eval, Conv.cvals, ha, hvs hhf, Option.getD_some] at h2
            exact h2.symm
      · intro b B hB e e' he
        exact nextK_mapO (fun v => .inr rfl) (fun o _ v hv => hev e e' he o v hv))
  intro d g vs m hg hne
  exact (main d g vs vs m ⟨rfl, hg⟩).eq hne

theorem FnOk.setParam {f j : Nat} {c : L.C} {F : L.F} (h : FnOk V sg f F) (hc : V.param c = none) : FnOk V sg f (F.setParam V.param j c) := by
  have R : RemapWf (paramTo V.param j c) (Inst.mapO (Op := L.Op) (paramTo V.param j c)) (Term.mapO (paramTo V.param j c)) := remapWf_mapO paramTo_inst
  have hcst : ∀ o a, paramTo V.param j c o = .cst a → V.param a ≠ none → o = .cst a := by
    intro o a h1 h2
    cases o with
    | inst x => simp [paramTo] at h1
    | cst b =>
      simp only [paramTo] at h1
      split at h1
      · cases h1; exact absurd hc h2
      · exact h1
  refine ⟨h.wf.remap R, ?_, ?_, ?_, ?_, ?_, ?_⟩
  · intro q e; exact h.noEntry q ((remap_edge R.targets).1 e)
  · rintro q T' hT' o ho a k rfl hp
    obtain ⟨T, hT, rfl⟩ := remap_blk_inv hT'
    refine h.params q T hT _ ?_ a k rfl hp
    rcases mem_remap_opds ho with ⟨p, hp', o, ho', e⟩ | ⟨i, hi, ho'⟩ | ho'
    · rw [← hcst o a e.symm (by rw [hp]; simp)]; exact mem_opds_ops hp' ho'
    · obtain ⟨o, ho1, e⟩ := List.mem_map.1 (show Opd.cst a ∈ i.args.map _ from ho')
      rw [← hcst o a e (by rw [hp]; simp)]
      exact mem_opds_use (.inl ⟨i, hi, ho1⟩)
    · rw [Term.mapO_args] at ho'
      obtain ⟨o, ho1, e⟩ := List.mem_map.1 ho'
      rw [← hcst o a e (by rw [hp]; simp)]
      exact mem_opds_use (.inr ho1)
  · intro q T' v hT' hv
    obtain ⟨T, hT, rfl⟩ := remap_blk_inv hT'
    have hv' : T.term.mapO (paramTo V.param j c) = .ret v := hv
    cases ht : T.term with
    | ret w =>
      rw [ht] at hv'
      simp only [Term.mapO, Term.ret.injEq] at hv'
      rw [← hv', Option.isSome_map]
      exact h.rets q T w hT ht
    | _ => rw [ht] at hv'; simp [Term.mapO] at hv'
  · intro q T' i g hT' hi hg
    obtain ⟨T, hT, rfl⟩ := remap_blk_inv hT'
    obtain ⟨i0, hi0, rfl⟩ := List.mem_map.1 (show i ∈ T.body.map _ from hi)
    rw [← h.calls q T i0 g hT hi0 hg]
    simp [Inst.mapO]
  · intro q T' i g hT' hi hg hv x X' hX' hm
    obtain ⟨T, hT, rfl⟩ := remap_blk_inv hT'
    obtain ⟨X, hX, rfl⟩ := remap_blk_inv hX'
    obtain ⟨i0, hi0, rfl⟩ := List.mem_map.1 (show i ∈ T.body.map _ from hi)
    exact h.voids q T i0 g hT hi0 hg hv x X hX (R.opds hm)
  · intro hel q T' hT' i hi hcal
    obtain ⟨T, hT, rfl⟩ := remap_blk_inv hT'
    obtain ⟨i0, hi0, rfl⟩ := List.mem_map.1 (show i ∈ T.body.map _ from hi)
    exact h.locals hel q T hT i0 hi0 hcal

/-- all functions of the program are in the list of functions of the module -/
def Covers (fs : List Nat) (P : Nat → Option L.F) : Prop := ∀ g G, P g = some G → g ∈ fs

theorem ipcpArg_ok {fptr : L.Op → Option Nat} {fs : List Nat} {P : Nat → Option L.F} (hP : ProgOk V sg P) (hfs : Covers fs P) (f j : Nat) :
    ProgOk V sg (ipcpArg V.param V.callee fptr fs f P j) ∧ Covers fs (ipcpArg V.param V.callee fptr fs f P j) ∧
    ∀ d g vs m, g ≠ f → V.call P d g vs m ≠ .ub → V.call (ipcpArg V.param V.callee fptr fs f P j) d g vs m = V.call P d g vs m := by
  unfold ipcpArg
  split
  · rename_i F c hF hc
    obtain ⟨h1, _, h3⟩ := commonArg_spec (by simp) hc
    refine ⟨?_, ?_, ?_⟩
    · intro g G hG
      unfold setFn at hG
      split at hG
      · rename_i e
        cases hG
        subst e
        exact (hP g F hF).setParam h1
      · exact hP g G hG
    · intro g G hG
      unfold setFn at hG
      split at hG
      · rename_i e
        subst e
        exact hfs g F hF
      · exact hfs g G hG
    · intro d g vs m hg hne
      refine setParam_program hF h1 ?_ d g vs m (fun e => absurd e hg) hne
      intro h H hH b B hB i hi hcal
      exact h3 _ (mem_usersOf (hfs h H hH) hH (hP h H hH).wf.listed hB hi hcal)
  · exact ⟨hP, hfs, fun _ _ _ _ _ _ => rfl⟩

theorem ipcpFn_ok {fptr : L.Op → Option Nat} {glob : Nat → Bool} {fs : List Nat} {P : Nat → Option L.F} (hP : ProgOk V sg P) (hfs : Covers fs P) (f : Nat) :
    ProgOk V sg (ipcpFn V.param V.callee fptr sg.arity glob fs P f) ∧ Covers fs (ipcpFn V.param V.callee fptr sg.arity glob fs P f) ∧
    ∀ d g vs m, glob g = true → V.call P d g vs m ≠ .ub → V.call (ipcpFn V.param V.callee fptr sg.arity glob fs P f) d g vs m = V.call P d g vs m := by
  unfold ipcpFn
  split
  · exact ⟨hP, hfs, fun _ _ _ _ _ _ => rfl⟩
  · rename_i hgl
    suffices H : ∀ (js : List Nat) (P : Nat → Option L.F), ProgOk V sg P → Covers fs P → ProgOk V sg (js.foldl (ipcpArg V.param V.callee fptr fs f) P) ∧ Covers fs (js.foldl (ipcpArg V.param V.callee fptr fs f) P) ∧
        ∀ d g vs m, g ≠ f → V.call P d g vs m ≠ .ub → V.call (js.foldl (ipcpArg V.param V.callee fptr fs f) P) d g vs m = V.call P d g vs m by
      obtain ⟨h1, h2, h3⟩ := H (List.range (sg.arity f)) P hP hfs
      exact ⟨h1, h2, fun d g vs m hg => h3 d g vs m (by rintro rfl; exact hgl hg)⟩
    intro js
    induction js with
    | nil => intro P hP hfs; exact ⟨hP, hfs, fun _ _ _ _ _ _ => rfl⟩
    | cons j js ih =>
      intro P hP hfs
      obtain ⟨h1, h2, h3⟩ := ipcpArg_ok (fptr := fptr) hP hfs f j
      obtain ⟨h4, h5, h6⟩ := ih _ h1 h2
      refine ⟨h4, h5, ?_⟩
      intro d g vs m hg hne
      have e := h3 d g vs m hg hne
      rw [List.foldl_cons, h6 d g vs m hg (by rw [e]; exact hne), e]

/-- **C83.** `IPConstantPropagation` over a module: the program stays well-formed, and every call of a function of Global linkage that ends - returning a value and a memory after some events, or
halting - ends the same way in the new program. -/
theorem C83_ipConstantPropagation (V : Conv L) (sg : Sigs) (fptr : L.Op → Option Nat) (glob : Nat → Bool) (fs : List Nat) (P : Nat → Option L.F) (hP : ProgOk V sg P) (hfs : ∀ g G, P g = some G → g ∈ fs) :
    ProgOk V sg (ipcpModule V.param V.callee fptr sg.arity glob fs P) ∧
    ∀ d g vs m, glob g = true → V.call P d g vs m ≠ .ub → V.call (ipcpModule V.param V.callee fptr sg.arity glob fs P) d g vs m = V.call P d g vs m := by
  unfold ipcpModule
  suffices H : ∀ (gs : List Nat) (P : Nat → Option L.F), ProgOk V sg P → Covers fs P → ProgOk V sg (gs.foldl (ipcpFn V.param V.callee fptr sg.arity glob fs) P) ∧
      ∀ d g vs m, glob g = true → V.call P d g vs m ≠ .ub → V.call (gs.foldl (ipcpFn V.param V.callee fptr sg.arity glob fs) P) d g vs m = V.call P d g vs m from H fs P hP hfs
  intro gs
  induction gs with
  | nil => intro P hP _; exact ⟨hP, fun _ _ _ _ _ _ => rfl⟩
  | cons f gs ih =>
    intro P hP hfs
    obtain ⟨h1, h2, h3⟩ := ipcpFn_ok (fptr := fptr) (glob := glob) hP hfs f
    obtain ⟨h4, h5⟩ := ih _ h1 h2
    refine ⟨h4, ?_⟩
    intro d g vs m hg hne
    have e := h3 d g vs m hg hne
    rw [List.foldl_cons, h5 d g vs m hg (by rw [e]; exact hne), e]

end
end Cmmc.SSA
