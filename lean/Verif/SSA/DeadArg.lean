import Verif.SSA.IpConst
/-!
# C84: DeadArgEliminate (cmmc/Transforms/DCE/DeadArgEliminate.cpp)
-/
namespace Cmmc.SSA
section
variable {Op C : Type}

/-- `mutableOperands.erase(begin + idx)` for every removed index (l.29-31) -/
def eraseAll {α : Type} (rs : List Nat) (l : List α) : List α := rs.foldl List.eraseIdx l

/-- the position after elements have been erased from a list: what was behind moves up -/
def shiftPos (rs : List Nat) (j : Nat) : Nat := rs.foldl (fun j r => if r < j then j - 1 else j) j

/-- `arg->isUsed()` -/
def Func.usesParam (param : C → Option Nat) (F : Func Op C) (j : Nat) : Bool := F.blocks.any (fun B => B.opds.any (fun o => match o with | .cst a => decide (param a = some j) | .inst _ => false))

/-- `removedIdx` (l.48-58), in reverse order (l.62) -/
def deadArgs (param : C → Option Nat) (n : Nat) (F : Func Op C) : List Nat := ((List.range n).filter (fun j => !F.usesParam param j)).reverse

/-- A `FuncArgument*` stays the same object when others are erased from `args`; as operands are written here with the position of the parameter (`arg j` is the parameter at position `j`), it
changes its name -/
def renumber (param : C → Option Nat) (arg : Nat → C) (rs : List Nat) : Opd C → Opd C
  | .cst a => match param a with | some j => .cst (arg (shiftPos rs j)) | none => .cst a
  | .inst x => .inst x

/-- the operands of function `h` when arguments `rs` of `f` are removed -/
def deadOpd (param : C → Option Nat) (arg : Nat → C) (f : Nat) (rs : List Nat) (h : Nat) : Opd C → Opd C := if h = f then renumber param arg rs else id

/-- `removeUnusedArgs` (l.24-33) for one instruction of function `h` -/
def deadInst (param : C → Option Nat) (callee : Op → Option Nat) (arg : Nat → C) (f : Nat) (rs : List Nat) (h : Nat) (i : Inst Op C) : Inst Op C :=
  let i' := i.mapO (deadOpd param arg f rs h)
  if callee i.op = some f then ⟨i'.id, i'.op, eraseAll rs i'.args⟩ else i'

/-- arguments `rs` of `f` removed from `f` and from all calls of `f` -/
def dropArgs (param : C → Option Nat) (callee : Op → Option Nat) (arg : Nat → C) (f : Nat) (rs : List Nat) (P : Nat → Option (Func Op C)) : Nat → Option (Func Op C) :=
  fun h => (P h).map (fun F => F.remap (deadOpd param arg f rs h) (deadInst param callee arg f rs h) (Term.mapO (deadOpd param arg f rs h)))

/-- the new declarations: `args.erase`, `updateTypeFromArgs` (l.49-61) -/
def Sigs.drop (sg : Sigs) (f n : Nat) : Sigs := { sg with arity := fun g => if g = f then sg.arity g - n else sg.arity g }

/-- one function (l.39-66); `keep f`: linkage Global or attribute ParallelBody. `users()` are taken to be calls (l.26), as functions whose address is taken are ParallelBody. -/
def deadArgFn (param : C → Option Nat) (callee : Op → Option Nat) (arg : Nat → C) (keep : Nat → Bool) (S : (Nat → Option (Func Op C)) × Sigs) (f : Nat) : (Nat → Option (Func Op C)) × Sigs :=
  match S.1 f with
  | none => S
  | some F =>
    if keep f then S
    else
      let rs := deadArgs param (S.2.arity f) F
      if rs = [] then S else (dropArgs param callee arg f rs S.1, S.2.drop f rs.length)

/-- `run` (l.36-70) -/
def deadArgModule (param : C → Option Nat) (callee : Op → Option Nat) (arg : Nat → C) (keep : Nat → Bool) (fs : List Nat) (S : (Nat → Option (Func Op C)) × Sigs) : (Nat → Option (Func Op C)) × Sigs :=
  fs.foldl (deadArgFn param callee arg keep) S

/-! ## lists -/

theorem eraseAll_length {α : Type} : ∀ {rs : List Nat} {l : List α}, rs.Pairwise (· > ·) → (∀ r ∈ rs, r < l.length) → (eraseAll rs l).length = l.length - rs.length := by
  intro rs
  induction rs with
  | nil => intro l _ _; rfl
  | cons r rs ih =>
    intro l hs hr
    have hr0 := hr r (by simp)
    have hl : (l.eraseIdx r).length = l.length - 1 := List.length_eraseIdx_of_lt hr0
    have := ih (l := l.eraseIdx r) hs.tail (by
      intro x hx
      have : r > x := (List.pairwise_cons.1 hs).1 x hx
      rw [hl]; omega)
    show (eraseAll rs (l.eraseIdx r)).length = _
    rw [this, hl, List.length_cons]
    omega

theorem eraseAll_shift {α : Type} : ∀ {rs : List Nat} {l : List α} {j : Nat}, rs.Pairwise (· > ·) → j ∉ rs → (eraseAll rs l)[shiftPos rs j]? = l[j]? := by
  intro rs
  induction rs with
  | nil => intro l j _ _; rfl
  | cons r rs ih =>
    intro l j hs hj
    have hlt := (List.pairwise_cons.1 hs).1
    rw [List.mem_cons, not_or] at hj
    show (eraseAll rs (l.eraseIdx r))[shiftPos rs (if r < j then j - 1 else j)]? = _
    split
    · rename_i h
      rw [ih hs.tail (by intro hm; have := hlt _ hm; omega), List.getElem?_eraseIdx, if_neg (by omega), Nat.sub_add_cancel (by omega)]
    · rename_i h
      rw [ih hs.tail hj.2, List.getElem?_eraseIdx, if_pos (by omega)]

theorem mem_of_mem_eraseAll {α : Type} {a : α} : ∀ {rs : List Nat} {l : List α}, a ∈ eraseAll rs l → a ∈ l := by
  intro rs
  induction rs with
  | nil => intro l h; exact h
  | cons r rs ih => intro l h; exact List.mem_of_mem_eraseIdx (ih h)

theorem shiftPos_lt {rs : List Nat} {n j : Nat} (hs : rs.Pairwise (· > ·)) (hr : ∀ r ∈ rs, r < n) (hj : j < n) (hn : j ∉ rs) : shiftPos rs j < n - rs.length := by
  have h1 := eraseAll_shift (l := List.range n) hs hn
  have h2 := eraseAll_length (l := List.range n) hs (by simpa using hr)
  rw [List.length_range] at h2
  rw [← h2]
  by_contra hc
  rw [List.getElem?_eq_none (by omega), List.getElem?_eq_getElem (by simpa using hj)] at h1
  simp at h1

theorem deadArgs_sorted {param : C → Option Nat} {n : Nat} {F : Func Op C} : (deadArgs param n F).Pairwise (· > ·) := by
  unfold deadArgs
  rw [List.pairwise_reverse]
  exact List.Pairwise.filter _ List.pairwise_lt_range

theorem deadArgs_lt {param : C → Option Nat} {n : Nat} {F : Func Op C} : ∀ r ∈ deadArgs param n F, r < n := by
  intro r hr
  unfold deadArgs at hr
  rw [List.mem_reverse, List.mem_filter, List.mem_range] at hr
  exact hr.1

theorem deadArgs_unused {param : C → Option Nat} {n : Nat} {F : Func Op C} (hl : F.Listed) {b : Nat} {B : Block Op C} (hB : F.blk b = some B) {a : C} {j : Nat} (ho : Opd.cst a ∈ B.opds) (hp : param a = some j) :
    j ∉ deadArgs param n F := by
  intro hr
  unfold deadArgs at hr
  rw [List.mem_reverse, List.mem_filter] at hr
  have h := hr.2
  have : F.usesParam param j = true := by
    unfold Func.usesParam
    rw [List.any_eq_true]
    refine ⟨B, hl.mem hB, ?_⟩
    rw [List.any_eq_true]
    exact ⟨_, ho, by simp [hp]⟩
  rw [this] at h
  simp at h

theorem deadOpd_inst {param : C → Option Nat} {arg : Nat → C} {f h : Nat} {rs : List Nat} (o : Opd C) (x : Nat) (e : deadOpd param arg f rs h o = .inst x) : o = .inst x := by
  unfold deadOpd at e
  split at e
  · cases o with
    | inst y => exact e
    | cst a => simp only [renumber] at e; split at e <;> cases e
  · exact e

theorem deadArg_wf {param : C → Option Nat} {callee : Op → Option Nat} {arg : Nat → C} {f h : Nat} {rs : List Nat} :
    RemapWf (deadOpd param arg f rs h) (deadInst param callee arg f rs h) (Term.mapO (deadOpd param arg f rs h)) := by
  have R : RemapWf (deadOpd param arg f rs h) (Inst.mapO (Op := Op) (deadOpd param arg f rs h)) (Term.mapO (deadOpd param arg f rs h)) := remapWf_mapO deadOpd_inst
  refine ⟨R.phi, ?_, ?_, R.targets, R.term⟩
  · intro i
    unfold deadInst
    split <;> rfl
  · intro i x hx
    unfold deadInst at hx
    split at hx
    · exact R.args i x (mem_of_mem_eraseAll hx)
    · exact R.args i x hx

end

section
variable {L : Lang} {V : Conv L} {sg : Sigs} {arg : Nat → L.C}

theorem evals_eraseIdx {L : Lang} {e : Env L} : ∀ {os : List (Opd L.C)} {vs : List L.V} (r : Nat), evals L e os = some vs → evals L e (os.eraseIdx r) = some (vs.eraseIdx r) := by
  intro os
  induction os with
  | nil => intro vs r h; simp only [evals, Option.some.injEq] at h; subst h; rfl
  | cons o os ih =>
    intro vs r h
    simp only [evals] at h
    cases h1 : eval L e o with
    | none => rw [h1] at h; simp at h
    | some v =>
      cases h2 : evals L e os with
      | none => rw [h1, h2] at h; simp at h
      | some ws =>
        rw [h1, h2] at h
        simp only [Option.some.injEq] at h
        subst h
        cases r with
        | zero => exact h2
        | succ r => simp only [List.eraseIdx_cons_succ, evals, h1, ih r h2]

theorem evals_eraseAll {L : Lang} {e : Env L} : ∀ {rs : List Nat} {os : List (Opd L.C)} {vs : List L.V}, evals L e os = some vs → evals L e (eraseAll rs os) = some (eraseAll rs vs) := by
  intro rs
  induction rs with
  | nil => intro os vs h; exact h
  | cons r rs ih => intro os vs h; exact ih (evals_eraseIdx r h)

/-- arguments removed: calls of other functions do the same; calls of `f` do the same without these arguments -/
theorem dropArgs_program {P : Nat → Option L.F} (hP : ProgOk V sg P) (harg : ∀ j, V.param (arg j) = some j) {f : Nat} {F : L.F} (hF : P f = some F) :
    ∀ d g vs m, (g = f → vs.length = sg.arity f) → V.call P d g vs m ≠ .ub →
      V.call (dropArgs V.param V.callee arg f (deadArgs V.param (sg.arity f) F) P) d g (if g = f then eraseAll (deadArgs V.param (sg.arity f) F) vs else vs) m = V.call P d g vs m := by
  have main := Conv.remap_program (V := V) (P := P) (P' := dropArgs V.param V.callee arg f (deadArgs V.param (sg.arity f) F) P)
    (fun g vs vs' => vs' = (if g = f then eraseAll (deadArgs V.param (sg.arity f) F) vs else vs) ∧ (g = f → vs.length = sg.arity f)) (fun _ => False)
    (deadOpd V.param arg f (deadArgs V.param (sg.arity f) F)) (deadInst V.param V.callee arg f (deadArgs V.param (sg.arity f) F)) (fun h => Term.mapO (deadOpd V.param arg f (deadArgs V.param (sg.arity f) F) h))
    (fun _ _ => False) (by
      intro h H hH
      unfold dropArgs
      rw [hH]; rfl) (by
      rintro h H hH cs1 cs2 hcs vs vs' ⟨hvv, hvs⟩
      have hev : ∀ (e e' : Env L), AgreeK (L := L) (fun _ => False) e e' → ∀ b B, H.blk b = some B → ∀ o ∈ B.opds, ∀ v, eval (L.upd (V.cvals vs) (V.sem cs1)) e o = some v →
          eval (L.upd (V.cvals vs') (V.sem cs2)) e' (deadOpd V.param arg f (deadArgs V.param (sg.arity f) F) h o) = some v := by
        intro e e' he b B hB o ho v hv
        have hee : e' = e := funext (fun x => (he x id).symm)
        subst hee
        unfold deadOpd
        by_cases hh : h = f
        · subst hh
          rw [hF] at hH
          cases hH
          rw [if_pos rfl] at hvv ⊢
          cases o with
          | inst x => exact hv
          | cst a =>
            simp only [renumber]
            cases hp : V.param a with
            | none => simp only [eval, Conv.cvals, hp] at hv ⊢; exact hv
            | some j =>
              have hj := (hP h F hF).params b B hB _ ho a j rfl hp
              have hu := deadArgs_unused (n := sg.arity h) (hP h F hF).wf.listed hB ho hp
              rw [← hvs rfl] at hj
              simp only [eval, Conv.cvals, harg, hvv, eraseAll_shift deadArgs_sorted hu]
              simp only [eval, Conv.cvals, hp] at hv
              rw [List.getElem?_eq_getElem hj] at hv ⊢
              exact hv
        · rw [if_neg hh] at hvv ⊢
          subst hvv
          cases o with
          | inst x => exact hv
          | cst a => exact hv
      refine ⟨?_, ?_, ?_, ?_⟩
      · intro b B p q o hB hp hq e e' he v hv
        exact hev e e' he b B hB o (mem_opds_phi hp hq) v hv
      · intro b B i _ _
        exact deadArg_wf.id i
      · intro b B i hB hi e e' he ws m hws hne
        have h1 := evals_mapO (φ := deadOpd V.param arg f (deadArgs V.param (sg.arity f) F) h) (c2 := V.cvals vs') (s2 := V.sem cs2) (e' := e') (fun o ho v hv => hev e e' he b B hB o (mem_opds_use (.inl ⟨i, hi, ho⟩)) v hv) hws
        have hlen := evals_length hws
        unfold deadInst
        by_cases hcal : V.callee i.op = some f
        · rw [if_pos hcal]
          refine ⟨_, evals_eraseAll h1, ?_⟩
          show ResK (L := L) False (V.sem cs1 i.op ws m) (V.sem cs2 i.op (eraseAll _ ws) m)
          unfold Conv.sem
          rw [hcal]
          exact hcs f ws _ m ⟨by rw [if_pos rfl], fun _ => by rw [hlen]; exact (hP h H hH).calls b B i f hB hi hcal⟩
        · rw [if_neg hcal]
          refine ⟨ws, h1, ?_⟩
          show ResK (L := L) False (V.sem cs1 i.op ws m) (V.sem cs2 i.op ws m)
          unfold Conv.sem
          cases hc : V.callee i.op with
          | none => exact ResK.refl _ _
          | some g =>
            have hgf : g ≠ f := by rintro rfl; exact hcal hc
            exact hcs g ws ws m ⟨by rw [if_neg hgf], fun e => absurd e hgf⟩
      · intro b B hB e e' he
        exact nextK_mapO (fun v => .inr rfl) (fun o ho v hv => hev e e' he b B hB o (mem_opds_use (.inr ho)) v hv))
  intro d g vs m hg hne
  exact (main d g vs _ m ⟨rfl, hg⟩).eq hne

theorem dropArgs_ok {P : Nat → Option L.F} (hP : ProgOk V sg P) (harg : ∀ j, V.param (arg j) = some j) {f : Nat} {F : L.F} (hF : P f = some F) :
    ProgOk V (sg.drop f (deadArgs V.param (sg.arity f) F).length) (dropArgs V.param V.callee arg f (deadArgs V.param (sg.arity f) F) P) := by
  intro h H' hH'
  obtain ⟨H, hH, rfl⟩ := Option.map_eq_some_iff.1 (show (P h).map _ = some H' from hH')
  have R := deadArg_wf (param := V.param) (callee := V.callee) (arg := arg) (f := f) (h := h) (rs := deadArgs V.param (sg.arity f) F)
  have ok := hP h H hH
  have hpar : ∀ q T, H.blk q = some T → ∀ o ∈ T.opds, ∀ a j, deadOpd V.param arg f (deadArgs V.param (sg.arity f) F) h o = .cst a → V.param a = some j →
      j < (sg.drop f (deadArgs V.param (sg.arity f) F).length).arity h := by
    intro q T hT o ho a j e hp
    unfold deadOpd at e
    by_cases hh : h = f
    · subst hh
      rw [hF] at hH
      cases hH
      rw [if_pos rfl] at e
      simp only [Sigs.drop, if_pos]
      cases o with
      | inst x => simp [renumber] at e
      | cst b =>
        simp only [renumber] at e
        cases hb : V.param b with
        | none => rw [hb] at e; simp only [Opd.cst.injEq] at e; subst e; rw [hb] at hp; cases hp
        | some k =>
          rw [hb] at e
          simp only [Opd.cst.injEq] at e
          subst e
          rw [harg] at hp
          cases hp
          exact shiftPos_lt deadArgs_sorted deadArgs_lt (ok.params q T hT _ ho b k rfl hb) (deadArgs_unused ok.wf.listed hT ho hb)
    · rw [if_neg hh] at e
      simp only [Sigs.drop, if_neg hh]
      exact ok.params q T hT o ho a j e hp
  refine ⟨ok.wf.remap R, ?_, ?_, ?_, ?_, ?_, ?_⟩
  · intro q e; exact ok.noEntry q ((remap_edge R.targets).1 e)
  · rintro q T' hT' o ho a k rfl hp
    obtain ⟨T, hT, rfl⟩ := remap_blk_inv hT'
    rcases mem_remap_opds ho with ⟨p, hp', o, ho', e⟩ | ⟨i, hi, ho'⟩ | ho'
    · exact hpar q T hT o (mem_opds_ops hp' ho') a k e.symm hp
    · have : Opd.cst a ∈ (i.mapO (deadOpd V.param arg f (deadArgs V.param (sg.arity f) F) h)).args := by
        unfold deadInst at ho'
        split at ho'
        · exact mem_of_mem_eraseAll ho'
        · exact ho'
      obtain ⟨o, ho1, e⟩ := List.mem_map.1 (show Opd.cst a ∈ i.args.map _ from this)
      exact hpar q T hT o (mem_opds_use (.inl ⟨i, hi, ho1⟩)) a k e hp
    · rw [Term.mapO_args] at ho'
      obtain ⟨o, ho1, e⟩ := List.mem_map.1 ho'
      exact hpar q T hT o (mem_opds_use (.inr ho1)) a k e hp
  · intro q T' v hT' hv
    obtain ⟨T, hT, rfl⟩ := remap_blk_inv hT'
    have hv' : T.term.mapO (deadOpd V.param arg f (deadArgs V.param (sg.arity f) F) h) = .ret v := hv
    cases ht : T.term with
    | ret w =>
      rw [ht] at hv'
      simp only [Term.mapO, Term.ret.injEq] at hv'
      rw [← hv', Option.isSome_map]
      exact ok.rets q T w hT ht
    | _ => rw [ht] at hv'; simp [Term.mapO] at hv'
  · intro q T' i g hT' hi hg
    obtain ⟨T, hT, rfl⟩ := remap_blk_inv hT'
    obtain ⟨i0, hi0, rfl⟩ := List.mem_map.1 (show i ∈ T.body.map _ from hi)
    have hop : (deadInst V.param V.callee arg f (deadArgs V.param (sg.arity f) F) h i0).op = i0.op := by unfold deadInst; split <;> rfl
    rw [hop] at hg
    have hlen := ok.calls q T i0 g hT hi0 hg
    unfold deadInst
    by_cases hgf : g = f
    · subst hgf
      rw [if_pos hg]
      simp only [Sigs.drop, if_pos]
      have hl : (i0.mapO (deadOpd V.param arg g (deadArgs V.param (sg.arity g) F) h)).args.length = sg.arity g := by rw [← hlen]; simp [Inst.mapO]
      rw [eraseAll_length deadArgs_sorted (by rw [hl]; exact deadArgs_lt), hl]
    · rw [if_neg (by rw [hg]; simpa using hgf)]
      simp only [Sigs.drop, if_neg hgf]
      rw [← hlen]
      simp [Inst.mapO]
  · intro q T' i g hT' hi hg hv x X' hX' hm
    obtain ⟨T, hT, rfl⟩ := remap_blk_inv hT'
    obtain ⟨X, hX, rfl⟩ := remap_blk_inv hX'
    obtain ⟨i0, hi0, rfl⟩ := List.mem_map.1 (show i ∈ T.body.map _ from hi)
    have hop : (deadInst V.param V.callee arg f (deadArgs V.param (sg.arity f) F) h i0).op = i0.op := by unfold deadInst; split <;> rfl
    rw [hop] at hg
    have := R.opds hm
    rw [R.id] at this
    exact ok.voids q T i0 g hT hi0 hg hv x X hX this
  · intro hel q T' hT' i hi hcal
    obtain ⟨T, hT, rfl⟩ := remap_blk_inv hT'
    obtain ⟨i0, hi0, rfl⟩ := List.mem_map.1 (show i ∈ T.body.map _ from hi)
    have hop : (deadInst V.param V.callee arg f (deadArgs V.param (sg.arity f) F) h i0).op = i0.op := by unfold deadInst; split <;> rfl
    rw [hop] at hcal ⊢
    exact ok.locals hel q T hT i0 hi0 hcal

/-- **C84.** `DeadArgEliminate` over a module: the program stays well-formed with the new declarations, and every call of a function of Global linkage (or ParallelBody) that ends - returning a value
and a memory after some events, or halting - ends the same way in the new program; the declarations of these functions do not change. -/
theorem C84_deadArgEliminate (V : Conv L) (sg : Sigs) (arg : Nat → L.C) (harg : ∀ j, V.param (arg j) = some j) (keep : Nat → Bool) (fs : List Nat) (P : Nat → Option L.F) (hP : ProgOk V sg P) :
    ∃ P' sg', deadArgModule V.param V.callee arg keep fs (P, sg) = (P', sg') ∧ ProgOk V sg' P' ∧ (∀ g, keep g = true → sg'.arity g = sg.arity g) ∧
    ∀ d g vs m, keep g = true → V.call P d g vs m ≠ .ub → V.call P' d g vs m = V.call P d g vs m := by
  unfold deadArgModule
  induction fs generalizing P sg with
  | nil => exact ⟨P, sg, rfl, hP, fun _ _ => rfl, fun _ _ _ _ _ _ => rfl⟩
  | cons f fs ih =>
    rw [List.foldl_cons]
    unfold deadArgFn
    simp only
    cases hF : P f with
    | none => exact ih sg P hP
    | some F =>
      simp only
      by_cases hk : keep f = true
      · rw [if_pos hk]; exact ih sg P hP
      · rw [if_neg hk]
        by_cases hr : deadArgs V.param (sg.arity f) F = []
        · rw [if_pos hr]; exact ih sg P hP
        · rw [if_neg hr]
          obtain ⟨P', sg', h1, h2, h3, h4⟩ := ih (sg.drop f (deadArgs V.param (sg.arity f) F).length) (dropArgs V.param V.callee arg f (deadArgs V.param (sg.arity f) F) P) (dropArgs_ok hP harg hF)
          refine ⟨P', sg', h1, h2, ?_, ?_⟩
          · intro g hg
            rw [h3 g hg]
            have : g ≠ f := by rintro rfl; exact hk hg
            simp only [Sigs.drop, if_neg this]
          · intro d g vs m hg hne
            have hgf : g ≠ f := by rintro rfl; exact hk hg
            have e := dropArgs_program hP harg hF d g vs m (fun e => absurd e hgf) hne
            rw [if_neg hgf] at e
            rw [h4 d g vs m hg (by rw [e]; exact hne), e]

end
end Cmmc.SSA
