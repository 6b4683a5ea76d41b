import Verif.SSA.Edit
import Verif.SSA.Bfs
import Mathlib.Data.List.Dedup
/-!
# NoSideEffectEliminate (cmmc/Transforms/DCE/NoSideEffectEliminate.cpp): C31

`eff op` says that an instruction with this opcode is a sink: a store, an atomic add, or a call of a function that is not marked
`NoSideEffect` (l.46-58). Terminators are sinks too; nothing can have one as an operand, so instead of putting them on the queue the
model starts with their operands on the queue (the set found is the same). A call whose callee is not a `Function` dereferences a null
pointer in the code (l.53) and is not modelled.
-/
namespace Cmmc.SSA
section
variable {Op C : Type}

/-- the instructions among operands -/
def instIds : List (Opd C) → List Nat
  | [] => []
  | .inst i :: os => i :: instIds os
  | .cst _ :: os => instIds os

theorem mem_instIds {os : List (Opd C)} {i : Nat} : i ∈ instIds os ↔ Opd.inst i ∈ os := by
  induction os with
  | nil => simp [instIds]
  | cons o os ih =>
    cases o with
    | inst j => simp [instIds, ih]
    | cst c => simp [instIds, ih]

/-- `phi.operands()` -/
def Phi.ops (p : Phi C) : List (Opd C) := p.inc.map Prod.snd

/-- instruction operands of the instructions of `B` whose address is `i` -/
def Block.opsOf (B : Block Op C) (i : Nat) : List Nat :=
  (B.phis.filter (fun p => p.id = i)).flatMap (fun p => instIds p.ops) ++
  (B.body.filter (fun p => p.id = i)).flatMap (fun p => instIds p.args)

/-- the blocks of a function in order -/
def Func.blocks (F : Func Op C) : List (Block Op C) := F.order.filterMap F.blk

/-- `u->operands()` restricted to instructions (l.66-71) -/
def Func.opsOf (F : Func Op C) (i : Nat) : List Nat := F.blocks.flatMap (fun B => B.opsOf i)

/-- the instructions a block contains -/
def Block.ids (B : Block Op C) : List Nat := B.phis.map Phi.id ++ B.body.map Inst.id

/-- the sinks (l.44-59), as queue contents: side-effecting instructions and the operands of terminators -/
def Func.sinks (eff : Op → Bool) (F : Func Op C) : List Nat :=
  (F.blocks.flatMap (fun B => (B.body.filter (fun i => eff i.op)).map Inst.id ++ instIds B.term.args)).dedup

/-- everything that occurs as an instruction or an operand -/
def Func.universe (F : Func Op C) : List Nat :=
  F.blocks.flatMap (fun B => B.ids ++ B.phis.flatMap (fun p => instIds p.ops) ++ B.body.flatMap (fun i => instIds i.args) ++ instIds B.term.args)

/-- `used` after the propagation (l.61-73) -/
def Func.used (eff : Op → Bool) (F : Func Op C) : Option (List Nat) := bfs F.opsOf F.universe.length (F.sinks eff) (F.sinks eff)

/-- `insts.remove_if([&](auto inst) { return !used.count(inst); })` (l.80); the terminator always stays -/
def Block.keep (used : List Nat) (B : Block Op C) : Block Op C :=
  { B with phis := B.phis.filter (fun p => p.id ∈ used), body := B.body.filter (fun i => i.id ∈ used) }

/-- `NoSideEffectEliminate::run` (l.38-86) -/
def noSideEffectEliminate (eff : Op → Bool) (F : Func Op C) : Option (Func Op C) :=
  (F.used eff).map fun used => { F with blk := fun b => if b ∈ F.order then (F.blk b).map (Block.keep used) else F.blk b }

theorem universe_closed (F : Func Op C) : ∀ u ∈ F.universe, ∀ v ∈ F.opsOf u, v ∈ F.universe := by
  intro u _ v hv
  unfold Func.opsOf at hv
  rw [List.mem_flatMap] at hv
  obtain ⟨B, hB, hv⟩ := hv
  unfold Func.universe
  rw [List.mem_flatMap]
  refine ⟨B, hB, ?_⟩
  unfold Block.opsOf at hv
  rw [List.mem_append, List.mem_flatMap, List.mem_flatMap] at hv
  simp only [List.mem_append, List.mem_flatMap]
  rcases hv with ⟨p, hp, hv⟩ | ⟨p, hp, hv⟩
  · exact .inl (.inl (.inr ⟨p, (List.mem_filter.mp hp).1, hv⟩))
  · exact .inl (.inr ⟨p, (List.mem_filter.mp hp).1, hv⟩)

/-- `x` is needed: it is a sink or an operand of a needed instruction -/
inductive Needed (eff : Op → Bool) (F : Func Op C) : Nat → Prop
  | effect {B i} : B ∈ F.blocks → i ∈ B.body → eff i.op = true → Needed eff F i.id
  | term {B x} : B ∈ F.blocks → Opd.inst x ∈ B.term.args → Needed eff F x
  | phi {B p x} : B ∈ F.blocks → p ∈ B.phis → Needed eff F p.id → Opd.inst x ∈ p.ops → Needed eff F x
  | arg {B i x} : B ∈ F.blocks → i ∈ B.body → Needed eff F i.id → Opd.inst x ∈ i.args → Needed eff F x

theorem used_spec (eff : Op → Bool) (F : Func Op C) : ∃ used, F.used eff = some used ∧ ∀ x, x ∈ used ↔ Needed eff F x := by
  have hsink : ∀ v, v ∈ F.sinks eff ↔ (∃ B ∈ F.blocks, ∃ i ∈ B.body, eff i.op = true ∧ i.id = v) ∨ ∃ B ∈ F.blocks, Opd.inst v ∈ B.term.args := by
    intro v
    unfold Func.sinks
    rw [List.mem_dedup, List.mem_flatMap]
    constructor
    · rintro ⟨B, hB, h⟩
      rw [List.mem_append, List.mem_map, mem_instIds] at h
      rcases h with ⟨i, hi, rfl⟩ | h
      · obtain ⟨h1, h2⟩ := List.mem_filter.mp hi
        exact .inl ⟨B, hB, i, h1, by simpa using h2, rfl⟩
      · exact .inr ⟨B, hB, h⟩
    · rintro (⟨B, hB, i, hi, he, rfl⟩ | ⟨B, hB, h⟩)
      · exact ⟨B, hB, List.mem_append.mpr (.inl (List.mem_map.mpr ⟨i, List.mem_filter.mpr ⟨hi, he⟩, rfl⟩))⟩
      · exact ⟨B, hB, List.mem_append.mpr (.inr (mem_instIds.mpr h))⟩
  obtain ⟨r, e, _, _, hr⟩ := bfs_reach (universe_closed F) (S := F.sinks eff) (List.nodup_dedup _) (by
    intro v hv
    unfold Func.universe
    rw [List.mem_flatMap]
    rcases (hsink v).mp hv with ⟨B, hB, i, hi, _, rfl⟩ | ⟨B, hB, h⟩
    · refine ⟨B, hB, ?_⟩
      simp only [List.mem_append, Block.ids]
      exact .inl (.inl (.inl (.inr (List.mem_map.mpr ⟨i, hi, rfl⟩))))
    · refine ⟨B, hB, ?_⟩
      simp only [List.mem_append]
      exact .inr (mem_instIds.mpr h))
  have hop : ∀ u v, v ∈ F.opsOf u ↔ (∃ B ∈ F.blocks, ∃ p ∈ B.phis, p.id = u ∧ Opd.inst v ∈ p.ops) ∨
      ∃ B ∈ F.blocks, ∃ i ∈ B.body, i.id = u ∧ Opd.inst v ∈ i.args := by
    intro u v
    unfold Func.opsOf Block.opsOf
    simp only [List.mem_flatMap, List.mem_append, List.mem_filter, decide_eq_true_eq, mem_instIds]
    constructor
    · rintro ⟨B, hB, ⟨p, ⟨h1, h2⟩, h3⟩ | ⟨p, ⟨h1, h2⟩, h3⟩⟩
      · exact .inl ⟨B, hB, p, h1, h2, h3⟩
      · exact .inr ⟨B, hB, p, h1, h2, h3⟩
    · rintro (⟨B, hB, p, h1, h2, h3⟩ | ⟨B, hB, p, h1, h2, h3⟩)
      · exact ⟨B, hB, .inl ⟨p, ⟨h1, h2⟩, h3⟩⟩
      · exact ⟨B, hB, .inr ⟨p, ⟨h1, h2⟩, h3⟩⟩
  refine ⟨r, e, fun x => ?_⟩
  rw [hr]
  constructor
  · rintro ⟨s, hs, h⟩
    induction h with
    | refl =>
      rcases (hsink s).mp hs with ⟨B, hB, i, hi, he, rfl⟩ | ⟨B, hB, h⟩
      · exact .effect hB hi he
      · exact .term hB h
    | tail _ hb ih =>
      rcases (hop _ _).mp hb with ⟨B, hB, p, h1, h2, h3⟩ | ⟨B, hB, p, h1, h2, h3⟩
      · exact .phi hB h1 (h2 ▸ ih) h3
      · exact .arg hB h1 (h2 ▸ ih) h3
  · intro h
    induction h with
    | effect hB hi he => exact ⟨_, (hsink _).mpr (.inl ⟨_, hB, _, hi, he, rfl⟩), .refl⟩
    | term hB h => exact ⟨_, (hsink _).mpr (.inr ⟨_, hB, h⟩), .refl⟩
    | phi hB hp _ hx ih =>
      obtain ⟨s, hs, h⟩ := ih
      exact ⟨s, hs, h.tail ((hop _ _).mpr (.inl ⟨_, hB, _, hp, rfl, hx⟩))⟩
    | arg hB hp _ hx ih =>
      obtain ⟨s, hs, h⟩ := ih
      exact ⟨s, hs, h.tail ((hop _ _).mpr (.inr ⟨_, hB, _, hp, rfl, hx⟩))⟩

end

section
variable {L : Lang}

/-- instructions that are not sinks do not touch memory, produce no events and come back -/
def PureOps (L : Lang) (eff : L.Op → Bool) : Prop :=
  ∀ op vs m, eff op = false → L.sem op vs m = .ub ∨ ∃ v, L.sem op vs m = .ok v m []

/-- the two environments agree on `used` -/
def AgreeOn (used : List Nat) (e e' : Env L) : Prop := ∀ i ∈ used, e i = e' i

theorem AgreeOn.eval {used : List Nat} {e e' : Env L} (h : AgreeOn used e e') {o : Opd L.C} (ho : ∀ i, o = .inst i → i ∈ used) :
    eval L e o = eval L e' o := by
  cases o with
  | cst c => rfl
  | inst i => exact h i (ho i rfl)

theorem AgreeOn.evals {used : List Nat} {e e' : Env L} (h : AgreeOn used e e') {os : List (Opd L.C)} (ho : ∀ i, .inst i ∈ os → i ∈ used) :
    evals L e os = evals L e' os := by
  induction os with
  | nil => rfl
  | cons o os ih =>
    simp only [SSA.evals]
    rw [h.eval (fun i hi => ho i (hi ▸ List.mem_cons_self ..)), ih (fun i hi => ho i (List.mem_cons_of_mem _ hi))]

theorem AgreeOn.set {used : List Nat} {e e' : Env L} (h : AgreeOn used e e') (i : Nat) (v : L.V) :
    AgreeOn used (setEnv L e i v) (setEnv L e' i v) := by
  intro j hj
  unfold setEnv
  split
  · rfl
  · exact h j hj

theorem AgreeOn.set_left {used : List Nat} {e e' : Env L} (h : AgreeOn used e e') {i : Nat} (hi : i ∉ used) (v : L.V) :
    AgreeOn used (setEnv L e i v) e' := by
  intro j hj
  unfold setEnv
  rw [if_neg (fun (h : j = i) => hi (h ▸ hj))]
  exact h j hj

theorem dce_phis {used : List Nat} {pred : Option Nat} {old old' : Env L} (hold : AgreeOn used old old') :
    ∀ (ps : List (Phi L.C)) (e e' : Env L), (∀ p ∈ ps, p.id ∈ used → ∀ x, Opd.inst x ∈ p.ops → x ∈ used) → AgreeOn used e e' →
      ∀ r, enterPhis L pred old ps e = some r →
        ∃ r', enterPhis L pred old' (ps.filter (fun p => p.id ∈ used)) e' = some r' ∧ AgreeOn used r r' := by
  intro ps
  induction ps with
  | nil => intro e e' _ h r hr; simp only [enterPhis, Option.some.injEq] at hr; subst hr; exact ⟨e', rfl, h⟩
  | cons p ps ih =>
    intro e e' hc h r hr
    simp only [enterPhis] at hr
    split at hr
    · simp at hr
    · rename_i v hv
      by_cases hp : p.id ∈ used
      · rw [List.filter_cons_of_pos (by simpa using hp)]
        simp only [enterPhis]
        have : phiVal L pred old' p = some v := by
          rw [← hv]
          unfold phiVal
          cases pred with
          | none => rfl
          | some b =>
            dsimp only
            cases hat : p.at b with
            | none => rfl
            | some o =>
              refine (hold.eval ?_).symm
              intro i hi
              refine hc p (List.mem_cons_self ..) hp i ?_
              unfold Phi.at at hat
              simp only [Option.map_eq_some_iff] at hat
              obtain ⟨x, hx, rfl⟩ := hat
              rw [← hi]
              exact List.mem_map.mpr ⟨x, List.mem_of_find?_eq_some hx, rfl⟩
        rw [this]
        exact ih _ _ (fun q hq => hc q (List.mem_cons_of_mem _ hq)) (h.set p.id v) r hr
      · rw [List.filter_cons_of_neg (by simpa using hp)]
        exact ih _ _ (fun q hq => hc q (List.mem_cons_of_mem _ hq)) (h.set_left hp v) r hr

theorem dce_body {eff : L.Op → Bool} (hpure : PureOps L eff) {used : List Nat} :
    ∀ (is : List (Inst L.Op L.C)) (e e' : Env L) (m : L.M) (es : List L.E),
      (∀ i ∈ is, i.id ∈ used → ∀ x, Opd.inst x ∈ i.args → x ∈ used) → (∀ i ∈ is, eff i.op = true → i.id ∈ used) → AgreeOn used e e' →
      BodyRel (AgreeOn used) (execBody L is e m es) (execBody L (is.filter (fun i => i.id ∈ used)) e' m es) := by
  intro is
  induction is with
  | nil => intro e e' m es _ _ h; exact ⟨e', rfl, h⟩
  | cons i is ih =>
    intro e e' m es hc heff h
    have hc' : ∀ j ∈ is, j.id ∈ used → ∀ x, Opd.inst x ∈ j.args → x ∈ used := fun j hj => hc j (List.mem_cons_of_mem _ hj)
    have heff' : ∀ j ∈ is, eff j.op = true → j.id ∈ used := fun j hj => heff j (List.mem_cons_of_mem _ hj)
    by_cases hi : i.id ∈ used
    · rw [List.filter_cons_of_pos (by simpa using hi)]
      simp only [execBody]
      rw [← h.evals (hc i (List.mem_cons_self ..) hi)]
      cases evals L e i.args with
      | none => trivial
      | some vs =>
        dsimp only
        cases L.sem i.op vs m with
        | ub => trivial
        | halt es' hh => rfl
        | ok v m' es' => exact ih _ _ _ _ hc' heff' (h.set i.id v)
    · rw [List.filter_cons_of_neg (by simpa using hi)]
      simp only [execBody]
      have he : eff i.op = false := by
        cases hb : eff i.op with
        | false => rfl
        | true => exact absurd (heff i (List.mem_cons_self ..) hb) hi
      cases evals L e i.args with
      | none => trivial
      | some vs =>
        dsimp only
        rcases hpure i.op vs m he with hs | ⟨v, hs⟩
        · rw [hs]; trivial
        · rw [hs]
          dsimp only
          rw [List.append_nil]
          exact ih _ _ _ _ hc' heff' (h.set_left hi v)

theorem AgreeOn.term {used : List Nat} {e e' : Env L} (h : AgreeOn used e e') {t : Term L.C} (ht : ∀ i, Opd.inst i ∈ t.args → i ∈ used) :
    evalTerm L e' t = evalTerm L e t := by
  cases t with
  | ret v =>
    cases v with
    | none => rfl
    | some o => simp only [evalTerm]; rw [h.eval (fun i hi => ht i (by simp [Term.args, hi]))]
  | br t => rfl
  | cbr c a b => simp only [evalTerm]; rw [h.eval (fun i hi => ht i (by simp [Term.args, hi]))]
  | sw c d cs => simp only [evalTerm]; rw [h.eval (fun i hi => ht i (by simp [Term.args, hi]))]
  | unreachable => rfl

/-- the blocks of the function are exactly the blocks in its list -/
def Func.Listed {Op C : Type} (F : Func Op C) : Prop := ∀ b B, F.blk b = some B → b ∈ F.order

theorem Func.Listed.mem {Op C : Type} {F : Func Op C} (h : F.Listed) {b : Nat} {B : Block Op C} (hB : F.blk b = some B) : B ∈ F.blocks :=
  List.mem_filterMap.mpr ⟨b, h b B hB, hB⟩

/-- C31: `NoSideEffectEliminate` terminates on every function; it keeps exactly the terminators and the instructions that are sinks or on
which a sink depends; and the result refines the original: same return value, memory and events on every run. -/
theorem C31_noSideEffectEliminate {eff : L.Op → Bool} (hpure : PureOps L eff) (F : L.F) (hl : F.Listed) :
    ∃ G, noSideEffectEliminate eff F = some G ∧
      (∀ b B, F.blk b = some B → ∃ B', G.blk b = some B' ∧ B'.term = B.term ∧
        (∀ p, p ∈ B'.phis ↔ p ∈ B.phis ∧ Needed eff F p.id) ∧ (∀ i, i ∈ B'.body ↔ i ∈ B.body ∧ Needed eff F i.id) ∧
        B'.phis.Sublist B.phis ∧ B'.body.Sublist B.body) ∧
      Refines L F G := by
  obtain ⟨used, e, hu⟩ := used_spec eff F
  refine ⟨_, by unfold noSideEffectEliminate; rw [e]; rfl, ?_, ?_⟩
  · intro b B hB
    refine ⟨B.keep used, by dsimp only; rw [if_pos (hl b B hB), hB]; rfl, rfl, ?_, ?_, List.filter_sublist, List.filter_sublist⟩
    · intro p; simp only [Block.keep, List.mem_filter, decide_eq_true_eq, hu]
    · intro i; simp only [Block.keep, List.mem_filter, decide_eq_true_eq, hu]
  · refine refines_rel (fun _ _ e e' => AgreeOn used e e') rfl (fun _ _ => rfl) ?_
    intro s e' hQ
    unfold step
    dsimp only
    cases hB : F.blk s.cur with
    | none => simp only; trivial
    | some B =>
      rw [if_pos (hl _ B hB)]
      simp only [Option.map_some]
      have hBm := hl.mem hB
      refine stepBlk_rel (B' := B.keep used) (Q1 := AgreeOn used) (Q2 := AgreeOn used) ?_ ?_ ?_ (fun _ _ _ h _ => h)
      · intro r hr
        refine dce_phis hQ B.phis s.env e' ?_ hQ r hr
        intro p hp hpu x hx
        exact (hu x).mpr (.phi hBm hp ((hu _).mp hpu) hx)
      · intro r r' m es hq
        refine dce_body hpure B.body r r' m es ?_ ?_ hq
        · intro i hi hiu x hx
          exact (hu x).mpr (.arg hBm hi ((hu _).mp hiu) hx)
        · intro i hi he
          exact (hu _).mpr (.effect hBm hi he)
      · intro r r' hq
        exact .inr (hq.term (fun i hi => (hu i).mpr (.term hBm hi)))

end
end Cmmc.SSA
