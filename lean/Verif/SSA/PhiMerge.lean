import Verif.SSA.Forward
import Verif.SSA.PhiElim
/-!
# PhiMerge (cmmc/Transforms/ControlFlow/PhiMerge.cpp:41-141): C79

A block that consists of phis and a jump, where each phi is used at most once and then by a phi of the jump target for this very edge, is
folded into the target: its predecessors jump to the target directly, whose phis take over the entries.
-/
namespace Cmmc.SSA

section
variable {Op C : Type}

/-- `resetTarget(branchOrSwitch, oldTarget, newTarget)` (BlockUtil.cpp:200-217) -/
def Term.reset (o n : Nat) : Term C → Term C
  | .br t => .br (if t = o then n else t)
  | .cbr c t f => .cbr c (if t = o then n else t) (if f = o then n else f)
  | .sw c d cs => .sw c (if d = o then n else d) (cs.map (fun e => (e.1, if e.2 = o then n else e.2)))
  | t => t

/-- l.76-84: every user of `x` is a phi of `t`, and has `x` as its entry for `b` -/
def Func.usersOk [DecidableEq C] (F : Func Op C) (b t x : Nat) : Bool :=
  F.order.all fun c => match F.blk c with
    | some B => B.phis.all (fun p => decide (Opd.inst x ∈ p.ops) → decide (c = t ∧ p.at b = some (Opd.inst x))) &&
        B.body.all (fun i => decide (Opd.inst x ∉ i.args)) && decide (Opd.inst x ∉ B.term.args)
    | none => true

/-- l.47-99: may block `b` be folded, and into which block -/
def Func.phiMergeTarget [DecidableEq C] (F : Func Op C) (b : Nat) : Option (Block Op C × Block Op C × Nat) :=
  match F.blk b with
  | none => none
  | some X =>
    match X.body, X.term with
    | [], .br t =>
      match F.blk t with
      | none => none
      | some T =>
        if t ≠ b ∧ X.phis ≠ [] ∧ T.phis ≠ [] ∧ (∀ p ∈ X.phis, F.useCount p.id ≤ 1 ∧ F.usersOk b t p.id = true) ∧ (∀ q ∈ F.preds b, t ∉ F.succs q) then some (X, T, t)
        else none
    | _, _ => none

/-- l.108-112: what a phi of the target that has the entry `o` for the folded block `X` gets for `prev`; `none`: `at` throws -/
def Block.mergeVal (X : Block Op C) (prev : Nat) : Opd C → Option (Opd C)
  | .cst c => some (.cst c)
  | .inst x => match X.phis.find? (fun p => p.id == x) with
    | some p => p.at prev
    | none => some (.inst x)

/-- l.102-126 for one phi of the target -/
def mergePhi (X : Block Op C) (b : Nat) (prevs : List Nat) (p : Phi C) : Option (Phi C) :=
  match prevs.mapM (fun u => (p.at b).bind (fun o => (X.mergeVal u o).map (fun v => (u, v)))) with
  | none => none
  | some es => some { p with inc := (p.inc ++ es).filter (fun e => e.1 ≠ b) }

/-- l.101-136: fold block `b`; `none`: an entry is missing and `at` throws -/
def phiMergeAt [DecidableEq C] (F : Func Op C) (b : Nat) : Option (Func Op C) :=
  match F.phiMergeTarget b with
  | none => some F
  | some (X, T, t) =>
    match T.phis.mapM (mergePhi X b (F.preds b)) with
    | none => none
    | some ps => some { entry := F.entry, order := F.order.erase b, blk := fun c => if c = b then none else if c = t then some { T with phis := ps, term := T.term.reset b t } else (F.blk c).map (fun B => { B with term := B.term.reset b t }) }

/-- l.43-139: fold the first block that can be folded, until there is none -/
def phiMergeLoop [DecidableEq C] : Nat → Func Op C → Option (Func Op C)
  | 0, _ => none
  | n + 1, F =>
    match F.order.find? (fun b => (F.phiMergeTarget b).isSome) with
    | none => some F
    | some b => match phiMergeAt F b with
      | none => none
      | some G => phiMergeLoop n G

def phiMerge [DecidableEq C] (F : Func Op C) : Option (Func Op C) := phiMergeLoop (F.order.length + 1) F

/-! ## lemmas -/

theorem Term.reset_args (o n : Nat) (t : Term C) : (t.reset o n).args = t.args := by
  cases t with
  | ret v => cases v <;> rfl
  | _ => rfl

theorem Term.reset_targets (o n : Nat) (t : Term C) : (t.reset o n).targets = t.targets.map (fun x => if x = o then n else x) := by
  cases t with
  | ret v => cases v <;> rfl
  | sw c d cs => simp [Term.reset, Term.targets, Function.comp_def]
  | _ => rfl

theorem Term.reset_mem {o n x : Nat} (ho : o ≠ n) {t : Term C} : x ∈ (t.reset o n).targets ↔ (x ∈ t.targets ∧ x ≠ o) ∨ (x = n ∧ o ∈ t.targets) := by
  rw [Term.reset_targets, List.mem_map]
  constructor
  · rintro ⟨y, hy, rfl⟩
    by_cases h : y = o
    · rw [if_pos h]; exact .inr ⟨rfl, h ▸ hy⟩
    · rw [if_neg h]; exact .inl ⟨hy, h⟩
  · rintro (⟨h, hn⟩ | ⟨rfl, h⟩)
    · exact ⟨x, h, if_neg hn⟩
    · exact ⟨o, h, if_pos rfl⟩

theorem evalTerm_reset {L : Lang} (o n : Nat) (env : Env L) (t : Term L.C) : evalTerm L env (t.reset o n) = match evalTerm L env t with
    | .goto b => .goto (if b = o then n else b)
    | r => r := by
  cases t with
  | ret v =>
    cases v with
    | none => rfl
    | some o => simp only [Term.reset, evalTerm]; cases eval L env o <;> rfl
  | br t => rfl
  | cbr c t f => simp only [Term.reset, evalTerm]; cases (eval L env c).bind L.truth with
    | none => rfl
    | some b => cases b <;> rfl
  | sw c d cs =>
    simp only [Term.reset, evalTerm]
    cases (eval L env c).bind L.key with
    | none => rfl
    | some k =>
      dsimp only
      rw [List.find?_map]
      have : ((fun e : Int × Nat => e.1 == k) ∘ fun e : Int × Nat => (e.1, if e.2 = o then n else e.2)) = fun e => e.1 == k := rfl
      rw [this]
      cases cs.find? (fun e => e.1 == k) <;> rfl
  | unreachable => rfl

theorem mapM_forall₂ {α β : Type} {f : α → Option β} : ∀ {l : List α} {r : List β}, l.mapM f = some r ↔ List.Forall₂ (fun a b => f a = some b) l r := by
  intro l
  induction l with
  | nil =>
    intro r
    simp only [List.mapM_nil, List.forall₂_nil_left_iff]
    constructor
    · intro h; cases h; rfl
    · rintro rfl; rfl
  | cons a l ih =>
    intro r
    rw [List.mapM_cons]
    constructor
    · intro h
      cases ha : f a with
      | none => rw [ha] at h; cases h
      | some b =>
        cases hl : l.mapM f with
        | none => rw [ha, hl] at h; cases h
        | some bs => rw [ha, hl] at h; cases h; exact .cons ha (ih.1 hl)
    · intro h
      cases h with
      | cons ha hl => rw [ha, ih.2 hl]; rfl

theorem mapM_ex {α β : Type} {f : α → Option β} : ∀ {l : List α}, (∀ a ∈ l, ∃ b, f a = some b) → ∃ r, l.mapM f = some r := by
  intro l
  induction l with
  | nil => intro _; exact ⟨[], rfl⟩
  | cons a l ih =>
    intro h
    obtain ⟨b, hb⟩ := h a (by simp)
    obtain ⟨r, hr⟩ := ih (fun x hx => h x (by simp [hx]))
    exact ⟨b :: r, by rw [List.mapM_cons, hb, hr]; rfl⟩

/-- what `phiMergeTarget` has checked -/
structure MergeCand (F : Func Op C) (f r : Nat) (X T : Block Op C) : Prop where
  hX : F.blk f = some X
  body : X.body = []
  term : X.term = .br r
  hT : F.blk r = some T
  ne : f ≠ r
  phis : X.phis ≠ []
  tphis : T.phis ≠ []
  /-- the phis of `f` are used only by phis of `r`, for the edge from `f` -/
  usePhi : ∀ x ∈ X.phis.map Phi.id, ∀ b B p q, F.blk b = some B → p ∈ B.phis → (q, Opd.inst x) ∈ p.inc → b = r ∧ q = f
  useBody : ∀ x ∈ X.phis.map Phi.id, ∀ b B, F.blk b = some B → ∀ i ∈ B.body, Opd.inst x ∉ i.args
  useTerm : ∀ x ∈ X.phis.map Phi.id, ∀ b B, F.blk b = some B → Opd.inst x ∉ B.term.args
  preds : ∀ q, Edge F q f → ¬ Edge F q r

theorem count_two {p : List (Nat × Opd C)} {a b : Nat × Opd C} {x : Nat} (ha : a ∈ p) (hb : b ∈ p) (hne : a.1 ≠ b.1) (hx : a.2 = .inst x) (hy : b.2 = .inst x) :
    2 ≤ (instIds (p.map Prod.snd)).count x := by
  induction p with
  | nil => cases ha
  | cons e p ih =>
    have hmem : ∀ c ∈ p, c.2 = .inst x → 1 ≤ (instIds (p.map Prod.snd)).count x := by
      intro c hc hcx
      rw [Nat.one_le_iff_ne_zero, ← Nat.pos_iff_ne_zero, List.count_pos_iff, mem_instIds, List.mem_map]
      exact ⟨c, hc, hcx⟩
    have hge : (instIds (p.map Prod.snd)).count x ≤ (instIds ((e :: p).map Prod.snd)).count x := by
      rw [List.map_cons]
      cases he : e.2 with
      | cst c => simp [instIds]
      | inst y => simp only [instIds]; exact List.count_le_count_cons
    have hone : e.2 = .inst x → (instIds ((e :: p).map Prod.snd)).count x = (instIds (p.map Prod.snd)).count x + 1 := by
      intro he
      rw [List.map_cons, he]
      simp only [instIds]
      exact List.count_cons_self
    rcases List.mem_cons.1 ha with ha' | ha'
    · rcases List.mem_cons.1 hb with hb' | hb'
      · exact absurd (by rw [ha', hb']) hne
      · have := hmem b hb' hy; rw [hone (ha' ▸ hx)]; omega
    · rcases List.mem_cons.1 hb with hb' | hb'
      · have := hmem a ha' hx; rw [hone (hb' ▸ hy)]; omega
      · have := ih ha' hb'; omega

theorem phiMergeTarget_some [DecidableEq C] {F : Func Op C} (S : Shape F) {f r : Nat} {X T : Block Op C} (h : F.phiMergeTarget f = some (X, T, r)) : MergeCand F f r X T := by
  unfold Func.phiMergeTarget at h
  split at h
  · cases h
  · rename_i X0 hX
    split at h
    · rename_i t hb ht
      split at h
      · cases h
      · rename_i T0 hT
        split at h
        · rename_i hc
          simp only [Option.some.injEq, Prod.mk.injEq] at h
          obtain ⟨rfl, rfl, rfl⟩ := h
          obtain ⟨h1, h2, h3, h4, h5⟩ := hc
          have users : ∀ x ∈ X0.phis.map Phi.id, ∀ b B, F.blk b = some B → (∀ p ∈ B.phis, Opd.inst x ∈ p.ops → b = t ∧ p.at f = some (Opd.inst x)) ∧
              (∀ i ∈ B.body, Opd.inst x ∉ i.args) ∧ Opd.inst x ∉ B.term.args := by
            intro x hx b B hB
            obtain ⟨p, hp, rfl⟩ := List.mem_map.1 hx
            have hu := (h4 p hp).2
            unfold Func.usersOk at hu
            rw [List.all_eq_true] at hu
            have := hu b (S.listed b B hB)
            rw [hB] at this
            dsimp only at this
            simp only [Bool.and_eq_true, List.all_eq_true, decide_eq_true_eq] at this
            exact ⟨fun p hp hx => this.1.1 p hp hx, this.1.2, this.2⟩
          refine ⟨hX, hb, ht, hT, fun e => h1 e.symm, h2, h3, ?_, fun x hx b B hB => (users x hx b B hB).2.1, fun x hx b B hB => (users x hx b B hB).2.2, ?_⟩
          · intro x hx b B p q hB hp hq
            obtain ⟨hbt, hat⟩ := (users x hx b B hB).1 p hp (mem_ops.2 ⟨q, hq⟩)
            refine ⟨hbt, ?_⟩
            by_contra hqf
            have h2 := count_two (Phi.at_mem hat) hq (fun e => hqf e.symm) rfl rfl
            obtain ⟨p0, hp0, rfl⟩ := List.mem_map.1 hx
            have h1 := (h4 p0 hp0).1
            unfold Func.useCount at h1
            have h3 := (count_flatMap_two (g := fun b => match F.blk b with | some B => B.operands | none => []) (x := p0.id) S.nodup b (S.listed b B hB)).1
            simp only [hB] at h3
            have h4 : (instIds p.ops).count p0.id ≤ B.operands.count p0.id := by
              unfold Block.operands
              rw [List.count_append, List.count_append, List.count_flatMap]
              have : (instIds p.ops).count p0.id ≤ (B.phis.map (List.count p0.id ∘ fun p => instIds p.ops)).sum := by
                generalize B.phis = l at hp
                induction l with
                | nil => cases hp
                | cons y l ih =>
                  rw [List.map_cons, List.sum_cons]
                  rcases List.mem_cons.1 hp with rfl | hp
                  · exact Nat.le_add_right _ _
                  · have := ih hp; omega
              omega
            unfold Phi.ops at h4
            have h5 := Nat.le_trans h3 h1
            omega
          · intro q hq hr
            exact h5 q ((mem_preds S.listed).2 hq) (succs_edge.2 hr)
        · cases h
    · cases h

/-! ## the new phis -/

variable {F : Func Op C} {f r : Nat} {X T : Block Op C}

theorem find_es {g : Nat → Option (Opd C)} {q : Nat} : ∀ {us : List Nat} {es : List (Nat × Opd C)}, List.Forall₂ (fun u e => (g u).map (fun v => (u, v)) = some e) us es →
    (q ∈ us → (es.find? (fun e => e.1 == q)).map Prod.snd = g q) ∧ (q ∉ us → es.find? (fun e => e.1 == q) = none) ∧ ∀ v, (q, v) ∈ es ↔ q ∈ us ∧ g q = some v := by
  intro us es h
  induction h with
  | nil => simp
  | @cons u e us es hu _ ih =>
    rw [Option.map_eq_some_iff] at hu
    obtain ⟨v, hv, rfl⟩ := hu
    obtain ⟨i1, i2, i3⟩ := ih
    refine ⟨?_, ?_, ?_⟩
    · intro hq
      by_cases huq : u = q
      · subst huq; simp [hv]
      · have : q ∈ us := by rcases List.mem_cons.1 hq with h | h; exact absurd h.symm huq; exact h
        rw [List.find?_cons]
        have hb : ((u, v).1 == q) = false := by simpa using huq
        rw [hb]
        exact i1 this
    · intro hq
      rw [List.mem_cons, not_or] at hq
      rw [List.find?_cons]
      have hb : ((u, v).1 == q) = false := by simpa using fun e => hq.1 (Eq.symm e)
      rw [hb]
      exact i2 hq.2
    · intro w
      rw [List.mem_cons, i3 w, List.mem_cons, Prod.mk.injEq]
      constructor
      · rintro (⟨rfl, rfl⟩ | ⟨h1, h2⟩)
        · exact ⟨.inl rfl, hv⟩
        · exact ⟨.inr h1, h2⟩
      · rintro ⟨h1 | h1, h2⟩
        · subst h1; rw [hv] at h2; cases h2; exact .inl ⟨rfl, rfl⟩
        · exact .inr ⟨h1, h2⟩

structure PhiMerged (F : Func Op C) (f r : Nat) (X : Block Op C) (p p' : Phi C) : Prop where
  id : p'.id = p.id
  mem : ∀ q v, (q, v) ∈ p'.inc ↔ q ≠ f ∧ ((q, v) ∈ p.inc ∨ (Edge F q f ∧ (p.at f).bind (X.mergeVal q) = some v))
  old : ∀ q, q ≠ f → ¬ Edge F q f → p'.at q = p.at q
  new : ∀ q, q ≠ f → Edge F q f → (¬ ∃ v, (q, v) ∈ p.inc) → p'.at q = (p.at f).bind (X.mergeVal q)
  some : ∀ q, Edge F q f → ∃ v, (p.at f).bind (X.mergeVal q) = some v

theorem mergePhi_some (S : Shape F) {p p' : Phi C} (h : mergePhi X f (F.preds f) p = some p') : PhiMerged F f r X p p' := by
  unfold mergePhi at h
  split at h
  · cases h
  · rename_i es hes
    cases h
    rw [mapM_forall₂] at hes
    have hfn : ∀ u e, (p.at f).bind (fun o => (X.mergeVal u o).map (fun v => (u, v))) = some e → ((p.at f).bind (X.mergeVal u)).map (fun v => (u, v)) = some e := by
      intro u e h
      cases ha : p.at f with
      | none => rw [ha] at h; cases h
      | some o => rw [ha] at h; exact h
    have hes' := forall₂_imp (S := fun u e => ((p.at f).bind (X.mergeVal u)).map (fun v => (u, v)) = some e) hfn hes
    have hf := fun q => find_es (q := q) (g := fun u => (p.at f).bind (X.mergeVal u)) hes'
    have hfilter : ∀ q, q ≠ f → (((p.inc ++ es).filter (fun e => decide (e.1 ≠ f))).find? (fun e => e.1 == q)) = (p.inc.find? (fun e => e.1 == q)).or (es.find? (fun e => e.1 == q)) := by
      intro q hq
      rw [List.find?_filter, ← List.find?_append]
      congr 1
      funext e
      by_cases he : e.1 = q
      · subst he; simp [hq]
      · simp [he]
    refine ⟨rfl, ?_, ?_, ?_, ?_⟩
    · intro q v
      show (q, v) ∈ (p.inc ++ es).filter _ ↔ _
      rw [List.mem_filter, List.mem_append, (hf q).2.2 v, mem_preds S.listed]
      simp [and_comm]
    · intro q hq hn
      show Option.map Prod.snd (List.find? _ ((p.inc ++ es).filter _)) = _
      rw [hfilter q hq, (hf q).2.1 (fun h => hn ((mem_preds S.listed).1 h))]
      rw [Option.or_none]; rfl
    · intro q hq he hno
      show Option.map Prod.snd (List.find? _ ((p.inc ++ es).filter _)) = _
      rw [hfilter q hq]
      have h0 : p.inc.find? (fun e => e.1 == q) = none := by
        rw [List.find?_eq_none]
        intro e hmem heq
        exact hno ⟨e.2, by rw [← (beq_iff_eq.1 heq)]; exact hmem⟩
      rw [h0, Option.none_or]
      exact (hf q).1 ((mem_preds S.listed).2 he)
    · intro q he
      have hq := (mem_preds S.listed).2 he
      have hmem : ∀ {us : List Nat} {es : List (Nat × Opd C)}, List.Forall₂ (fun u e => ((p.at f).bind (X.mergeVal u)).map (fun v => (u, v)) = some e) us es → q ∈ us → ∃ v, (p.at f).bind (X.mergeVal q) = some v := by
        intro us es h
        induction h with
        | nil => intro h; cases h
        | cons h1 _ ih =>
          intro h
          rcases List.mem_cons.1 h with rfl | h
          · rw [Option.map_eq_some_iff] at h1
            obtain ⟨v, hv, _⟩ := h1
            exact ⟨v, hv⟩
          · exact ih h
      exact hmem hes' hq

/-- the function after the step -/
def mergeTo (F : Func Op C) (f r : Nat) (T : Block Op C) (ps : List (Phi C)) : Func Op C :=
  { entry := F.entry, order := F.order.erase f, blk := fun c => if c = f then none else if c = r then some { T with phis := ps, term := T.term.reset f r } else (F.blk c).map (fun B => { B with term := B.term.reset f r }) }

structure MergeStep (F : Func Op C) (f r : Nat) (X T : Block Op C) (ps : List (Phi C)) : Prop extends MergeCand F f r X T where
  ps : List.Forall₂ (PhiMerged F f r X) T.phis ps

variable {ps : List (Phi C)}

theorem MergeStep.blk (S : MergeStep F f r X T ps) {c : Nat} {B : Block Op C} (hB : F.blk c = some B) (hc : c ≠ f) :
    ∃ B', (mergeTo F f r T ps).blk c = some B' ∧ B'.body = B.body ∧ B'.term = B.term.reset f r ∧ B'.phis.map Phi.id = B.phis.map Phi.id ∧
      (c ≠ r → B'.phis = B.phis) ∧ (c = r → List.Forall₂ (PhiMerged F f r X) B.phis B'.phis) := by
  have hids : ∀ {l l' : List (Phi C)}, List.Forall₂ (PhiMerged F f r X) l l' → l'.map Phi.id = l.map Phi.id := by
    intro l l' h
    induction h with
    | nil => rfl
    | cons h _ ih => rw [List.map_cons, List.map_cons, h.id, ih]
  by_cases hr : c = r
  · subst hr
    have : B = T := Option.some.inj (hB.symm.trans S.hT)
    subst this
    exact ⟨{ B with phis := ps, term := B.term.reset f c }, by simp [mergeTo, hc], rfl, rfl, hids S.ps, fun h => absurd rfl h, fun _ => S.ps⟩
  · exact ⟨{ B with term := B.term.reset f r }, by simp [mergeTo, hc, hr, hB], rfl, rfl, rfl, fun _ => rfl, fun h => absurd h hr⟩

theorem MergeStep.back (S : MergeStep F f r X T ps) {c : Nat} {B' : Block Op C} (hB' : (mergeTo F f r T ps).blk c = some B') :
    c ≠ f ∧ ∃ B, F.blk c = some B ∧ B'.body = B.body ∧ B'.term = B.term.reset f r ∧ B'.phis.map Phi.id = B.phis.map Phi.id ∧
      (c ≠ r → B'.phis = B.phis) ∧ (c = r → List.Forall₂ (PhiMerged F f r X) B.phis B'.phis) := by
  have hc : c ≠ f := by
    rintro rfl
    simp [mergeTo] at hB'
  refine ⟨hc, ?_⟩
  cases hB : F.blk c with
  | none =>
    have hr : c ≠ r := by rintro rfl; rw [S.hT] at hB; cases hB
    simp [mergeTo, hc, hr, hB] at hB'
  | some B =>
    obtain ⟨B0, h0, h1⟩ := S.blk hB hc
    rw [hB'] at h0; cases h0
    exact ⟨B, rfl, h1⟩

theorem MergeStep.edge (S : MergeStep F f r X T ps) {a b : Nat} : Edge (mergeTo F f r T ps) a b ↔ a ≠ f ∧ ((Edge F a b ∧ b ≠ f) ∨ (b = r ∧ Edge F a f)) := by
  constructor
  · rintro ⟨B', hB', ht⟩
    obtain ⟨hc, B, hB, _, h2, _⟩ := S.back hB'
    rw [h2, Term.reset_mem S.ne] at ht
    refine ⟨hc, ?_⟩
    rcases ht with ⟨h, hn⟩ | ⟨h, hn⟩
    · exact .inl ⟨⟨B, hB, h⟩, hn⟩
    · exact .inr ⟨h, B, hB, hn⟩
  · rintro ⟨hc, h⟩
    have : ∃ B, F.blk a = some B ∧ ((b ∈ B.term.targets ∧ b ≠ f) ∨ (b = r ∧ f ∈ B.term.targets)) := by
      rcases h with ⟨⟨B, hB, h⟩, hn⟩ | ⟨h, B, hB, hn⟩
      · exact ⟨B, hB, .inl ⟨h, hn⟩⟩
      · exact ⟨B, hB, .inr ⟨h, hn⟩⟩
    obtain ⟨B, hB, h⟩ := this
    obtain ⟨B', hB', _, h2, _⟩ := S.blk hB hc
    exact ⟨B', hB', by rw [h2, Term.reset_mem S.ne]; exact h⟩

theorem MergeCand.efr (S : MergeCand F f r X T) : Edge F f r := ⟨X, S.hX, by rw [S.term]; simp [Term.targets]⟩

theorem MergeCand.only (S : MergeCand F f r X T) {b : Nat} (e : Edge F f b) : b = r := by
  obtain ⟨B, hB, h⟩ := e
  rw [S.hX] at hB; cases hB
  rw [S.term] at h
  simpa [Term.targets] using h

theorem MergeCand.pne (S : MergeCand F f r X T) {q : Nat} (e : Edge F q f) : q ≠ f := by
  rintro rfl
  exact S.ne (S.only e)

theorem MergeStep.path (S : MergeStep F f r X T ps) {a x : Nat} {p : List Nat} (h : Dom.Path (Edge (mergeTo F f r T ps)) a x p) :
    ∃ p', Dom.Path (Edge F) a x p' ∧ ∀ d ∈ p', d ∈ p ∨ d = f := by
  induction h with
  | single a => exact ⟨[a], .single a, fun d hd => .inl hd⟩
  | @cons a c x p e _ ih =>
    obtain ⟨p', hp', hd'⟩ := ih
    obtain ⟨_, ⟨he, _⟩ | ⟨rfl, he⟩⟩ := S.edge.1 e
    · refine ⟨a :: p', .cons he hp', fun d hd => ?_⟩
      rcases List.mem_cons.1 hd with rfl | hd
      · exact .inl (by simp)
      · rcases hd' d hd with h | h
        · exact .inl (List.mem_cons_of_mem _ h)
        · exact .inr h
    · refine ⟨a :: f :: p', .cons he (.cons S.efr hp'), fun d hd => ?_⟩
      rcases List.mem_cons.1 hd with rfl | hd
      · exact .inl (by simp)
      · rcases List.mem_cons.1 hd with rfl | hd
        · exact .inr rfl
        · rcases hd' d hd with h | h
          · exact .inl (List.mem_cons_of_mem _ h)
          · exact .inr h

theorem MergeStep.live (S : MergeStep F f r X T ps) {x : Nat} (h : Live (mergeTo F f r T ps) x) : Live F x := by
  obtain ⟨p, hp⟩ := h
  obtain ⟨p', hp', _⟩ := S.path hp
  exact ⟨p', hp'⟩

theorem MergeStep.domi (S : MergeStep F f r X T ps) {d x : Nat} (h : Domi F d x) (hd : d ≠ f) : Domi (mergeTo F f r T ps) d x := by
  intro p hp
  obtain ⟨p', hp', h'⟩ := S.path hp
  exact (h' d (h p' hp')).resolve_right hd

theorem MergeStep.defIn (S : MergeStep F f r X T ps) {x d : Nat} (h : DefIn F x d) (hd : d ≠ f) : DefIn (mergeTo F f r T ps) x d := by
  obtain ⟨B, hB, hx⟩ := h
  obtain ⟨B', hB', h1, _, h3, _⟩ := S.blk hB hd
  refine ⟨B', hB', ?_⟩
  unfold Block.ids at hx ⊢
  rw [h1, h3]; exact hx

theorem MergeCand.defs (S : MergeCand F f r X T) {x : Nat} (h : DefIn F x f) : x ∈ X.phis.map Phi.id := by
  obtain ⟨B, hB, hx⟩ := h
  rw [S.hX] at hB; cases hB
  unfold Block.ids at hx
  rw [S.body] at hx
  simpa using hx

/-- where the new entry of a phi comes from -/
theorem MergeCand.val (S : MergeCand F f r X T) {u : Nat} {o v : Opd C} (h : X.mergeVal u o = some v) :
    (v = o ∧ ∀ x ∈ X.phis.map Phi.id, o ≠ .inst x) ∨ ∃ p ∈ X.phis, o = .inst p.id ∧ p.at u = some v := by
  cases o with
  | cst c => simp only [Block.mergeVal, Option.some.injEq] at h; subst h; exact .inl ⟨rfl, by simp⟩
  | inst x =>
    simp only [Block.mergeVal] at h
    cases hf : X.phis.find? (fun p => p.id == x) with
    | none =>
      rw [hf] at h
      simp only [Option.some.injEq] at h
      subst h
      refine .inl ⟨rfl, ?_⟩
      intro y hy he
      cases he
      obtain ⟨p, hp, hpx⟩ := List.mem_map.1 hy
      rw [List.find?_eq_none] at hf
      exact hf p hp (by simpa using hpx)
    | some p =>
      rw [hf] at h
      have hid : p.id = x := by simpa using List.find?_some hf
      exact .inr ⟨p, List.mem_of_find?_eq_some hf, by rw [hid], h⟩

theorem sublist_flatMap {α β : Type} (g : α → List β) {l l' : List α} (h : l.Sublist l') : (l.flatMap g).Sublist (l'.flatMap g) := by
  induction h with
  | slnil => exact List.Sublist.refl _
  | cons a _ ih => rw [List.flatMap_cons]; exact ih.trans (List.sublist_append_right _ _)
  | cons_cons a _ ih => rw [List.flatMap_cons, List.flatMap_cons]; exact List.Sublist.append (List.Sublist.refl _) ih

theorem MergeStep.entryNe (S : MergeStep F f r X T ps) (W : LiveWf F) : F.entry ≠ f := by
  rintro h
  exact S.phis (W.entryPhis X (h ▸ S.hX))

theorem MergeStep.shape (S : MergeStep F f r X T ps) (W : LiveWf F) : Shape (mergeTo F f r T ps) where
  nodup := W.nodup.erase _
  listed b B' hB' := by
    obtain ⟨hc, B, hB, _⟩ := S.back hB'
    exact (List.mem_erase_of_ne hc).2 (W.listed b B hB)
  total b hb := by
    have hbf : b ≠ f := by
      rintro rfl
      exact (W.nodup.not_mem_erase) hb
    obtain ⟨B, hB⟩ := W.total b (List.mem_of_mem_erase hb)
    obtain ⟨B', hB', _⟩ := S.blk hB hbf
    exact ⟨B', hB'⟩
  entryIn := (List.mem_erase_of_ne (S.entryNe W)).2 W.entryIn
  closed a b e := by
    obtain ⟨_, ⟨he, hn⟩ | ⟨rfl, he⟩⟩ := S.edge.1 e
    · exact (List.mem_erase_of_ne hn).2 (W.closed a b he)
    · exact (List.mem_erase_of_ne S.ne.symm).2 (W.listed _ _ S.hT)
  unique := by
    rw [allIds_eq]
    have h := W.unique
    rw [allIds_eq] at h
    refine List.Nodup.sublist ?_ h
    have hsub : ((F.order.erase f).flatMap (fun b => match F.blk b with | some B => B.ids | none => [])).Sublist (F.order.flatMap (fun b => match F.blk b with | some B => B.ids | none => [])) :=
      sublist_flatMap _ List.erase_sublist
    refine List.Sublist.trans ?_ hsub
    refine List.Sublist.trans ?_ (List.Sublist.refl _)
    refine (fun h => h ▸ List.Sublist.refl _ : ∀ {a b : List Nat}, a = b → a.Sublist b) ?_
    show (F.order.erase f).flatMap _ = _
    refine List.flatMap_congr ?_
    intro b hb
    have hbf : b ≠ f := by
      rintro rfl
      exact (W.nodup.not_mem_erase) hb
    obtain ⟨B, hB⟩ := W.total b (List.mem_of_mem_erase hb)
    obtain ⟨B', hB', h1, _, h3, _⟩ := S.blk hB hbf
    rw [hB', hB]
    show B'.ids = B.ids
    unfold Block.ids
    rw [h1, h3]

theorem MergeStep.liveWf (S : MergeStep F f r X T ps) (W : LiveWf F) : LiveWf (mergeTo F f r T ps) where
  toShape := S.shape W
  entryPhis B' hB' := by
    obtain ⟨_, B, hB, _, _, h, _⟩ := S.back hB'
    rw [W.entryPhis B hB] at h
    simpa using h
  inOrder b B' hB' hb := by
    obtain ⟨_, B, hB, h1, h2, h3, _⟩ := S.back hB'
    have hO := W.inOrder b B hB (S.live hb)
    unfold InOrder Block.ids at hO ⊢
    rw [h1, h2, h3, Term.reset_args]
    exact hO
  use b B' x hB' hb hx := by
    obtain ⟨_, B, hB, h1, h2, h3, _⟩ := S.back hB'
    rw [h1, h2, Term.reset_args] at hx
    obtain ⟨d, hd, hdom⟩ := W.use b B x hB (S.live hb) hx
    have hdf : d ≠ f := by
      rintro rfl
      rcases hx with ⟨i, hi, hx⟩ | hx
      · exact S.useBody x (S.defs hd) b B hB i hi hx
      · exact S.useTerm x (S.defs hd) b B hB hx
    exact ⟨d, S.defIn hd hdf, S.domi hdom hdf⟩
  phiUse b B' p' q x hB' hb hp' hq hql := by
    obtain ⟨_, B, hB, _, _, _, h4, h5⟩ := S.back hB'
    have fin : ∀ p ∈ B.phis, (q, Opd.inst x) ∈ p.inc → q ≠ f → ∃ h, DefIn (mergeTo F f r T ps) x h ∧ Domi (mergeTo F f r T ps) h q := by
      intro p hp h hqf
      obtain ⟨d, hd, hdom⟩ := W.phiUse b B p q x hB (S.live hb) hp h (S.live hql)
      have hdf : d ≠ f := by
        rintro rfl
        exact hqf (S.usePhi x (S.defs hd) b B p q hB hp h).2
      exact ⟨d, S.defIn hd hdf, S.domi hdom hdf⟩
    have hqf : q ≠ f := by
      rintro rfl
      have := (S.toMergeCand.hX)
      obtain ⟨p0, hp0⟩ := hql
      rcases path_unsnoc hp0 with ⟨he, _⟩ | ⟨z, _, _, ez, _⟩
      · exact S.entryNe W he
      · have := (S.edge.1 ez).2
        rcases this with ⟨_, h⟩ | ⟨h, _⟩
        · exact h rfl
        · exact S.ne h
    by_cases hbr : b = r
    · subst hbr
      obtain ⟨p, hp, hs⟩ := forall₂_mem_right (h5 rfl) hp'
      rcases ((hs.mem q _).1 hq).2 with h | ⟨he, h⟩
      · exact fin p hp h hqf
      · rw [Option.bind_eq_some_iff] at h
        obtain ⟨o, ho, hv⟩ := h
        have hlf : Live F f := (S.live hql).edge he
        rcases S.val hv with ⟨rfl, hno⟩ | ⟨p0, hp0, rfl, hv2⟩
        · obtain ⟨d, hd, hdom⟩ := W.phiUse b B p f x hB (S.live hb) hp (Phi.at_mem ho) hlf
          have hdf : d ≠ f := by
            rintro rfl
            exact hno x (S.defs hd) rfl
          exact ⟨d, S.defIn hd hdf, S.domi (hdom.pred hdf he) hdf⟩
        · obtain ⟨d, hd, hdom⟩ := W.phiUse f X p0 q x S.hX hlf hp0 (Phi.at_mem hv2) (S.live hql)
          have hdf : d ≠ f := by
            rintro rfl
            exact S.ne (S.usePhi x (S.defs hd) d X p0 q S.hX hp0 (Phi.at_mem hv2)).1
          exact ⟨d, S.defIn hd hdf, S.domi hdom hdf⟩
    · rw [h4 hbr] at hp'
      exact fin p' hp' hq hqf
  phiPred b B' p' hB' hb hp' q v hq := by
    obtain ⟨hbf, B, hB, _, _, _, h4, h5⟩ := S.back hB'
    by_cases hbr : b = r
    · subst hbr
      obtain ⟨p, hp, hs⟩ := forall₂_mem_right (h5 rfl) hp'
      obtain ⟨hqf, h | ⟨he, h⟩⟩ := (hs.mem q _).1 hq
      · exact S.edge.2 ⟨hqf, .inl ⟨W.phiPred b B p hB (S.live hb) hp q v h, hbf⟩⟩
      · exact S.edge.2 ⟨hqf, .inr ⟨rfl, he⟩⟩
    · rw [h4 hbr] at hp'
      have e := W.phiPred b B p' hB (S.live hb) hp' q v hq
      refine S.edge.2 ⟨?_, .inl ⟨e, hbf⟩⟩
      rintro rfl
      exact hbr (S.only e)
  phiAll b B' p' q hB' hb hp' he hq := by
    obtain ⟨hbf, B, hB, _, _, _, h4, h5⟩ := S.back hB'
    obtain ⟨hqf, he⟩ := S.edge.1 he
    by_cases hbr : b = r
    · subst hbr
      obtain ⟨p, hp, hs⟩ := forall₂_mem_right (h5 rfl) hp'
      rcases he with ⟨he, _⟩ | ⟨_, he⟩
      · obtain ⟨v, hv⟩ := W.phiAll b B p q hB (S.live hb) hp he (S.live hq)
        exact ⟨v, (hs.mem q v).2 ⟨hqf, .inl hv⟩⟩
      · obtain ⟨v, hv⟩ := hs.some q he
        exact ⟨v, (hs.mem q v).2 ⟨hqf, .inr ⟨he, hv⟩⟩⟩
    · rw [h4 hbr] at hp'
      rcases he with ⟨he, _⟩ | ⟨h, _⟩
      · exact W.phiAll b B p' q hB (S.live hb) hp' he (S.live hq)
      · exact absurd h hbr
  phiDead b B' p1 p2 q v hB' hb hp1 hp2 hq := by
    obtain ⟨hbf, B, hB, _, _, _, h4, h5⟩ := S.back hB'
    by_cases hbr : b = r
    · subst hbr
      obtain ⟨p, hp, hs⟩ := forall₂_mem_right (h5 rfl) hp1
      obtain ⟨p0, hp0, hs0⟩ := forall₂_mem_right (h5 rfl) hp2
      obtain ⟨hqf, h | ⟨he, h⟩⟩ := (hs.mem q _).1 hq
      · obtain ⟨w, hw⟩ := W.phiDead b B p p0 q v hB (S.live hb) hp hp0 h
        exact ⟨w, (hs0.mem q w).2 ⟨hqf, .inl hw⟩⟩
      · obtain ⟨w, hw⟩ := hs0.some q he
        exact ⟨w, (hs0.mem q w).2 ⟨hqf, .inr ⟨he, hw⟩⟩⟩
    · rw [h4 hbr] at hp1 hp2
      exact W.phiDead b B p1 p2 q v hB (S.live hb) hp1 hp2 hq

end

/-! ## behaviour -/
section
variable {L : Lang}

/-- phis that read the same values keep agreement -/
theorem enterPhis_agree {pr pr' : Option Nat} {old old' : Env L} : ∀ {ps ps' : List (Phi L.C)}, List.Forall₂ (fun p p' => p'.id = p.id ∧ ∀ v, phiVal L pr old p = some v → phiVal L pr' old' p' = some v) ps ps' →
    ∀ {K : Nat → Prop} {e e' r : Env L}, AgreeK K e e' → enterPhis L pr old ps e = some r →
      ∃ r', enterPhis L pr' old' ps' e' = some r' ∧ AgreeK (fun x => K x ∧ x ∉ ps.map Phi.id) r r' := by
  intro ps ps' hf
  induction hf with
  | nil =>
    intro K e e' r h hr
    simp only [enterPhis, Option.some.injEq] at hr
    subst hr
    exact ⟨e', rfl, h.mono (fun x hx => ⟨hx, by simp⟩)⟩
  | @cons p p' ps ps' hpp _ ih =>
    intro K e e' r h hr
    simp only [enterPhis] at hr ⊢
    cases hv : phiVal L pr old p with
    | none => rw [hv] at hr; cases hr
    | some v =>
      rw [hv] at hr
      rw [hpp.2 v hv, hpp.1]
      dsimp only at hr ⊢
      obtain ⟨r', h1, h2⟩ := ih (h.set p.id v) hr
      refine ⟨r', h1, h2.mono ?_⟩
      rintro x ⟨⟨h3, h4⟩, h5⟩
      refine ⟨h3, ?_⟩
      simp only [List.map_cons, List.mem_cons, not_or]
      exact ⟨h4, h5⟩

theorem enterPhis_vals' {q : Option Nat} {old : Env L} : ∀ {ps : List (Phi L.C)} {e r : Env L}, enterPhis L q old ps e = some r → (ps.map Phi.id).Nodup → ∀ p ∈ ps, phiVal L q old p = r p.id ∧ r p.id ≠ none := by
  intro ps
  induction ps with
  | nil => intro e r _ _ p hp; cases hp
  | cons p ps ih =>
    intro e r h hn
    simp only [enterPhis] at h
    cases hv : phiVal L q old p with
    | none => rw [hv] at h; cases h
    | some v =>
      rw [hv] at h
      dsimp only at h
      rw [List.map_cons, List.nodup_cons] at hn
      intro p' hp'
      rcases List.mem_cons.1 hp' with rfl | hp'
      · rw [enterPhis_other h _ hn.1, hv]
        simp [setEnv]
      · exact ih h hn.2 p' hp'

structure PhiMergeRel (F : L.F) (f r : Nat) (X : L.B) (s s' : St L) : Prop where
  cur : s'.cur = s.cur
  ne : s.cur ≠ f
  env : AgreeK (· ∈ X.phis.map Phi.id) s.env s'.env
  m : s'.m = s.m
  tr : s'.tr = s.tr
  live : Live F s.cur
  pred : (s.pred = none ∧ s'.pred = none ∧ s.cur = F.entry) ∨ (∃ q, s.pred = some q ∧ s'.pred = some q ∧ Edge F q s.cur ∧ q ≠ f) ∨
    (∃ u, s.pred = some f ∧ s'.pred = some u ∧ Edge F u f ∧ s.cur = r ∧ ∀ p ∈ X.phis, phiVal L (some u) s'.env p = s.env p.id)

variable {F : L.F} {f r : Nat} {X T : L.B} {ps : List (Phi L.C)}

theorem MergeStep.enter (S : MergeStep F f r X T ps) (W : LiveWf F) {s s' : St L} (R : PhiMergeRel F f r X s s') {B B' : L.B} (hB : F.blk s.cur = some B) (hB' : (mergeTo F f r T ps).blk s.cur = some B')
    {env : Env L} (he : enterPhis L s.pred s.env B.phis s.env = some env) :
    ∃ env', enterPhis L s'.pred s'.env B'.phis s'.env = some env' ∧ AgreeK (· ∈ X.phis.map Phi.id) env env' := by
  obtain ⟨_, B0, hB0, _, _, hids, h4, h5⟩ := S.back hB'
  rw [hB] at hB0; cases hB0
  have weak : ∀ {env' : Env L}, AgreeK (fun x => x ∈ X.phis.map Phi.id ∧ x ∉ B.phis.map Phi.id) env env' → AgreeK (· ∈ X.phis.map Phi.id) env env' := fun h => h.mono (fun x hx => hx.1)
  have same : ∀ q, q ≠ f → ∀ p ∈ B.phis, ∀ v, phiVal L (some q) s.env p = some v → phiVal L (some q) s'.env p = some v := by
    intro q hqf p hp v hv
    simp only [phiVal] at hv ⊢
    cases ha : p.at q with
    | none => rw [ha] at hv; cases hv
    | some o =>
      rw [ha] at hv
      dsimp only at hv ⊢
      rw [R.env.eval ?_, hv]
      rintro x hx rfl
      exact hqf (S.usePhi x hx s.cur B p q hB hp (Phi.at_mem ha)).2
  rcases R.pred with ⟨h1, h2, h3⟩ | ⟨q, h1, h2, h3, hqf⟩ | ⟨u, h1, h2, h3, hcr, hvals⟩
  · rw [h3] at hB
    have hp0 := W.entryPhis B hB
    rw [hp0] at hids
    have hp1 : B'.phis = [] := by simpa using hids
    rw [hp0] at he
    simp only [enterPhis, Option.some.injEq] at he
    subst he
    rw [hp1]
    exact ⟨s'.env, rfl, R.env⟩
  · rw [h1] at he
    rw [h2]
    have hrel : List.Forall₂ (fun p p' => p'.id = p.id ∧ ∀ v, phiVal L (some q) s.env p = some v → phiVal L (some q) s'.env p' = some v) B.phis B'.phis := by
      by_cases hcr : s.cur = r
      · have hnf : ¬ Edge F q f := fun e => S.preds q e (hcr ▸ h3)
        have h5 := h5 hcr
        have hmem : ∀ {l l' : List (Phi L.C)}, List.Forall₂ (PhiMerged F f r X) l l' → (∀ p ∈ l, p ∈ B.phis) →
            List.Forall₂ (fun p p' => p'.id = p.id ∧ ∀ v, phiVal L (some q) s.env p = some v → phiVal L (some q) s'.env p' = some v) l l' := by
          intro l l' h
          induction h with
          | nil => intro _; exact .nil
          | @cons p p' l l' h _ ih =>
            intro hl
            refine .cons ⟨h.id, ?_⟩ (ih (fun p hp => hl p (by simp [hp])))
            intro v hv
            have := same q hqf p (hl p (by simp)) v hv
            simp only [phiVal] at this ⊢
            rw [h.old q hqf hnf]
            exact this
        exact hmem h5 (fun p hp => hp)
      · rw [h4 hcr]
        have : ∀ {l : List (Phi L.C)}, (∀ p ∈ l, p ∈ B.phis) → List.Forall₂ (fun p p' => p'.id = p.id ∧ ∀ v, phiVal L (some q) s.env p = some v → phiVal L (some q) s'.env p' = some v) l l := by
          intro l
          induction l with
          | nil => intro _; exact .nil
          | cons p l ih => intro h; exact .cons ⟨rfl, same q hqf p (h p (by simp))⟩ (ih (fun x hx => h x (by simp [hx])))
        exact this (fun p hp => hp)
    obtain ⟨env', h6, h7⟩ := enterPhis_agree hrel R.env he
    exact ⟨env', h6, weak h7⟩
  · rw [h1] at he
    rw [h2]
    have hmem : ∀ {l l' : List (Phi L.C)}, List.Forall₂ (PhiMerged F f r X) l l' → (∀ p ∈ l, p ∈ B.phis) →
        List.Forall₂ (fun p p' => p'.id = p.id ∧ ∀ v, phiVal L (some f) s.env p = some v → phiVal L (some u) s'.env p' = some v) l l' := by
      intro l l' h
      induction h with
      | nil => intro _; exact .nil
      | @cons p p' l l' h _ ih =>
        intro hl
        refine .cons ⟨h.id, ?_⟩ (ih (fun p hp => hl p (by simp [hp])))
        intro v hv
        simp only [phiVal] at hv ⊢
        rw [h.new u (S.pne h3) h3 (by
          rintro ⟨w, hw⟩
          exact S.preds u h3 (hcr ▸ W.phiPred s.cur B p hB R.live (hl p (by simp)) u w hw))]
        cases ha : p.at f with
        | none => rw [ha] at hv; cases hv
        | some o =>
          rw [ha] at hv
          dsimp only at hv
          rw [Option.bind_some]
          obtain ⟨w, hw⟩ := h.some u h3
          rw [ha, Option.bind_some] at hw
          rw [hw]
          dsimp only
          rcases S.val hw with ⟨rfl, hno⟩ | ⟨p0, hp0, rfl, hw2⟩
          · rw [R.env.eval (fun x hx => hno x hx), hv]
          · have := hvals p0 hp0
            simp only [phiVal] at this
            rw [hw2] at this
            dsimp only at this
            rw [this]
            exact hv
    obtain ⟨env', h6, h7⟩ := enterPhis_agree (hmem (h5 hcr) (fun p hp => hp)) R.env he
    exact ⟨env', h6, weak h7⟩

theorem phi_ids_nodup {Op C : Type} {F : Func Op C} (S : Shape F) {b : Nat} {B : Block Op C} (hB : F.blk b = some B) : (B.phis.map Phi.id).Nodup := by
  have h := S.unique
  rw [allIds_eq, List.nodup_flatMap] at h
  have := h.1 b (S.listed b B hB)
  rw [hB] at this
  exact (List.nodup_append.1 this).1

theorem MergeStep.sim (S : MergeStep F f r X T ps) (W : LiveWf F) : Simulation F (mergeTo F f r T ps) (PhiMergeRel F f r X) := by
  intro s s' R
  refine ⟨R.tr.symm, ?_⟩
  cases hB : F.blk s.cur with
  | none => exact .inl ⟨1, by rw [run_one]; unfold step; rw [hB]⟩
  | some B =>
    obtain ⟨B', hB', hbody, hterm, hids, _⟩ := S.blk hB R.ne
    have hF : step L F s = stepBlk L B s := by unfold step; rw [hB]
    have hG : step L (mergeTo F f r T ps) s' = stepBlk L B' s' := by unfold step; rw [R.cur, hB']
    rw [stepBlk_go] at hF hG
    cases he : enterPhis L s.pred s.env B.phis s.env with
    | none => rw [he] at hF; exact .inl ⟨1, by rw [run_one, hF]⟩
    | some env =>
      obtain ⟨env', he', hag⟩ := S.enter W R hB hB' he
      rw [he] at hF
      rw [he'] at hG
      dsimp only at hF hG
      rw [R.m, R.tr, hbody] at hG
      have hbr := AgreeK.body (is := B.body) (e := env) (e' := env') (m := s.m) (es := s.tr) (fun i hi x hx => S.useBody x hx s.cur B hB i hi) hag
      unfold goBlk at hF hG
      cases hb : execBody L B.body env s.m s.tr with
      | ub => rw [hb] at hF; exact .inl ⟨1, by rw [run_one, hF]⟩
      | halt es h =>
        rw [hb] at hF hbr
        rw [hbr] at hG
        exact .inr (.inl ⟨1, 1, _, by rw [run_one, hF], by rw [run_one, hG]⟩)
      | ok env1 m1 es1 =>
        rw [hb] at hF hbr
        obtain ⟨env1', hb', hag1⟩ := hbr
        rw [hb'] at hG
        dsimp only at hF hG
        rw [hterm, evalTerm_reset, hag1.term (fun x hx => S.useTerm x hx s.cur B hB)] at hG
        cases ht : evalTerm L env1 B.term with
        | ub => rw [ht] at hF; exact .inl ⟨1, by rw [run_one, hF]⟩
        | ret v => rw [ht] at hF hG; exact .inr (.inl ⟨1, 1, _, by rw [run_one, hF], by rw [run_one, hG]⟩)
        | goto c =>
          rw [ht] at hF hG
          dsimp only at hF hG
          have e1 : Edge F s.cur c := ⟨B, hB, evalTerm_targets ht⟩
          by_cases hcf : c = f
          · rw [if_pos hcf] at hG
            subst hcf
            have hF2 : step L F ⟨some s.cur, c, env1, m1, es1⟩ = stepBlk L X ⟨some s.cur, c, env1, m1, es1⟩ := by
              unfold step; dsimp only; rw [S.hX]
            rw [stepBlk_go] at hF2
            dsimp only at hF2
            have hrun : run L F 2 s = step L F ⟨some s.cur, c, env1, m1, es1⟩ := by
              show run L F (1 + 1) s = _
              rw [run_add, run_one, hF]
              dsimp only
              rw [run_one]
            rw [hF2] at hrun
            cases h3 : enterPhis L (some s.cur) env1 X.phis env1 with
            | none => rw [h3] at hrun; exact .inl ⟨2, hrun⟩
            | some env2 =>
              rw [h3] at hrun
              dsimp only at hrun
              unfold goBlk at hrun
              rw [S.body, S.term] at hrun
              simp only [execBody, evalTerm] at hrun
              refine .inr (.inr ⟨1, 0, _, _, hrun, by rw [run_one, hG], ?_⟩)
              refine ⟨rfl, S.ne.symm, ?_, rfl, rfl, (R.live.edge e1).edge S.efr, .inr (.inr ⟨s.cur, rfl, by rw [R.cur], e1, rfl, ?_⟩)⟩
              · intro x hx
                show env2 x = env1' x
                rw [enterPhis_other h3 x hx]
                exact hag1 x hx
              · intro p hp
                obtain ⟨k1, k2⟩ := enterPhis_vals' h3 (phi_ids_nodup W.toShape S.hX) p hp
                show phiVal L (some s.cur) env1' p = env2 p.id
                rw [← k1]
                simp only [phiVal]
                cases ha : p.at s.cur with
                | none => rfl
                | some o =>
                  dsimp only
                  refine hag1.eval ?_
                  rintro x hx rfl
                  exact S.ne (S.usePhi x hx c X p s.cur S.hX hp (Phi.at_mem ha)).1
          · rw [if_neg hcf] at hG
            refine .inr (.inr ⟨0, 0, _, _, by rw [run_one, hF], by rw [run_one, hG], ?_⟩)
            exact ⟨rfl, hcf, hag1, rfl, rfl, R.live.edge e1, .inr (.inl ⟨s.cur, rfl, by rw [R.cur], e1, R.ne⟩)⟩

theorem MergeStep.refines (S : MergeStep F f r X T ps) (W : LiveWf F) : Refines L F (mergeTo F f r T ps) :=
  (S.sim W).refines (fun _ => ⟨rfl, S.entryNe W, fun _ _ => rfl, rfl, rfl, ⟨_, .single _⟩, .inl ⟨rfl, rfl, rfl⟩⟩)

/-- every phi has an entry for every predecessor, dead or not (Block::verify) -/
def PhiComplete {Op C : Type} (F : Func Op C) : Prop := ∀ b B p q, F.blk b = some B → p ∈ B.phis → Edge F q b → ∃ v, (q, v) ∈ p.inc

/-- code without dead blocks is complete -/
theorem PhiComplete.of_allLive {F : L.F} (W : LiveWf F) (A : AllLive F) : PhiComplete F := by
  intro b B p q hB hp e
  obtain ⟨Q, hQ, ht⟩ := e
  exact W.phiAll b B p q hB (A b B hB) hp ⟨Q, hQ, ht⟩ (A q Q hQ)

theorem phiMergeAt_some {F G : L.F} (W : LiveWf F) {b : Nat} (h : phiMergeAt F b = some G) : G = F ∨ ∃ r X T ps, MergeStep F b r X T ps ∧ G = mergeTo F b r T ps := by
  unfold phiMergeAt at h
  split at h
  · cases h; exact .inl rfl
  · rename_i X T t ht
    have S := phiMergeTarget_some W.toShape ht
    split at h
    · cases h
    · rename_i ps hps
      cases h
      rw [mapM_forall₂] at hps
      exact .inr ⟨t, X, T, ps, ⟨S, forall₂_imp (fun p p' h => mergePhi_some W.toShape h) hps⟩, rfl⟩

theorem MergeStep.complete (S : MergeStep F f r X T ps) (P : PhiComplete F) : PhiComplete (mergeTo F f r T ps) := by
  intro b B' p' q hB' hp' e
  obtain ⟨hbf, B, hB, _, _, _, h4, h5⟩ := S.back hB'
  obtain ⟨hqf, he⟩ := S.edge.1 e
  by_cases hbr : b = r
  · subst hbr
    obtain ⟨p, hp, hs⟩ := forall₂_mem_right (h5 rfl) hp'
    rcases he with ⟨he, _⟩ | ⟨_, he⟩
    · obtain ⟨v, hv⟩ := P b B p q hB hp he
      exact ⟨v, (hs.mem q v).2 ⟨hqf, .inl hv⟩⟩
    · obtain ⟨v, hv⟩ := hs.some q he
      exact ⟨v, (hs.mem q v).2 ⟨hqf, .inr ⟨he, hv⟩⟩⟩
  · rw [h4 hbr] at hp'
    rcases he with ⟨he, _⟩ | ⟨h, _⟩
    · exact P b B p' q hB hp' he
    · exact absurd h hbr

theorem phiMergeAt_ex {F : L.F} (W : LiveWf F) (P : PhiComplete F) (b : Nat) : ∃ G, phiMergeAt F b = some G := by
  unfold phiMergeAt
  split
  · exact ⟨_, rfl⟩
  · rename_i X T t ht
    have S := phiMergeTarget_some W.toShape ht
    obtain ⟨ps, hps⟩ := mapM_ex (f := mergePhi X b (F.preds b)) (l := T.phis) (by
      intro p hp
      unfold mergePhi
      obtain ⟨es, hes⟩ := mapM_ex (f := fun u => (p.at b).bind (fun o => (X.mergeVal u o).map (fun v => (u, v)))) (l := F.preds b) (by
        intro u hu
        obtain ⟨o, ho⟩ := Phi.at_ex (P t T p b S.hT hp S.efr)
        rw [ho, Option.bind_some]
        have : ∃ v, X.mergeVal u o = some v := by
          cases o with
          | cst c => exact ⟨_, rfl⟩
          | inst x =>
            simp only [Block.mergeVal]
            cases hf : X.phis.find? (fun p => p.id == x) with
            | none => exact ⟨_, rfl⟩
            | some p0 => exact Phi.at_ex (P b X p0 u S.hX (List.mem_of_find?_eq_some hf) ((mem_preds W.listed).1 hu))
        obtain ⟨v, hv⟩ := this
        exact ⟨(u, v), by rw [hv]; rfl⟩)
      rw [hes]
      exact ⟨_, rfl⟩)
    rw [hps]
    exact ⟨_, rfl⟩

theorem phiMergeLoop_sound : ∀ (n : Nat) {F G : L.F}, LiveWf F → phiMergeLoop n F = some G → Refines L F G ∧ LiveWf G ∧ (PhiComplete F → PhiComplete G) ∧ ∀ b ∈ G.order, G.phiMergeTarget b = none := by
  intro n
  induction n with
  | zero => intro F G _ h; cases h
  | succ n ih =>
    intro F G W h
    simp only [phiMergeLoop] at h
    split at h
    · rename_i hf
      cases h
      refine ⟨Refines.refl F, W, id, ?_⟩
      intro b hb
      rw [List.find?_eq_none] at hf
      have := hf b hb
      cases ht : F.phiMergeTarget b with
      | none => rfl
      | some x => rw [ht] at this; exact absurd rfl this
    · rename_i b hf
      cases hm : phiMergeAt F b with
      | none => rw [hm] at h; cases h
      | some H =>
        rw [hm] at h
        dsimp only at h
        rcases phiMergeAt_some W hm with rfl | ⟨r, X, T, ps, S, rfl⟩
        · exact ih W h
        · obtain ⟨h1, h2, h3, h4⟩ := ih (S.liveWf W) h
          exact ⟨(S.refines W).trans h1, h2, fun P => h3 (S.complete P), h4⟩

theorem phiMergeLoop_ex : ∀ (n : Nat) {F : L.F}, LiveWf F → PhiComplete F → F.order.length < n → ∃ G, phiMergeLoop n F = some G := by
  intro n
  induction n with
  | zero => intro F _ _ h; omega
  | succ n ih =>
    intro F W P hn
    simp only [phiMergeLoop]
    split
    · exact ⟨_, rfl⟩
    · rename_i b hf
      obtain ⟨H, hm⟩ := phiMergeAt_ex W P b
      rw [hm]
      dsimp only
      have hb : b ∈ F.order := List.mem_of_find?_eq_some hf
      have hs := List.find?_some hf
      rcases phiMergeAt_some W hm with rfl | ⟨r, X, T, ps, S, rfl⟩
      · exfalso
        unfold phiMergeAt at hm
        cases ht : H.phiMergeTarget b with
        | none => rw [ht] at hs; cases hs
        | some x =>
          obtain ⟨X, T, t⟩ := x
          rw [ht] at hm
          dsimp only at hm
          split at hm
          · cases hm
          · simp only [Option.some.injEq] at hm
            have := congrArg (fun G => G.order.length) hm
            simp only at this
            rw [List.length_erase_of_mem hb] at this
            have := List.length_pos_of_mem hb
            omega
      · refine ih (S.liveWf W) (S.complete P) ?_
        show (F.order.erase b).length < n
        rw [List.length_erase_of_mem hb]
        have := List.length_pos_of_mem hb
        omega

/-- C79: PhiMerge preserves behaviour and SSA form, and when all phis have all their entries it does not fail, ends, and leaves no block to fold -/
theorem C79_phiMerge {F : L.F} (W : LiveWf F) : (∀ G, phiMerge F = some G → Refines L F G ∧ LiveWf G) ∧
    (PhiComplete F → ∃ G, phiMerge F = some G ∧ PhiComplete G ∧ ∀ b ∈ G.order, G.phiMergeTarget b = none) := by
  refine ⟨fun G h => ?_, fun P => ?_⟩
  · obtain ⟨h1, h2, _⟩ := phiMergeLoop_sound _ W h
    exact ⟨h1, h2⟩
  · obtain ⟨G, hG⟩ := phiMergeLoop_ex _ W P (Nat.lt_succ_self _)
    obtain ⟨_, _, h3, h4⟩ := phiMergeLoop_sound _ W hG
    exact ⟨G, hG, h3 P, h4⟩

end
end Cmmc.SSA
