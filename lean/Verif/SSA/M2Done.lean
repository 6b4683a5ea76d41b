import Verif.SSA.M2Main
/-!
# ScalarMem2Reg: afterwards no promoted slot is read

If the blocks are visited dominators first, as the pass does, then no operand of the result is a load of a promoted slot.
-/
namespace Cmmc.SSA

section
variable {Op C : Type}

/-- `o` is an operand in `G` -/
def Uses (G : Func Op C) (o : Opd C) : Prop :=
  ∃ b B, G.blk b = some B ∧ ((∃ p ∈ B.phis, o ∈ p.ops) ∨ (∃ i ∈ B.body, o ∈ i.args) ∨ o ∈ B.term.args)

/-- dominators come first in `bs` -/
def DomFirst (F : Func Op C) (bs : List Nat) : Prop := ∀ (i j a b : Nat), bs[i]? = some a → bs[j]? = some b → Domi F a b → i ≤ j

theorem term_args_sub {σ : Nat → Opd C} (t : Term C) : (t.sub σ).args = t.args.map (Opd.sub σ) := by
  cases t with
  | ret v => cases v <;> rfl
  | _ => rfl

theorem ops_sub {σ : Nat → Opd C} (p : Phi C) : (p.sub σ).ops = p.ops.map (Opd.sub σ) := by
  simp [Phi.sub, Phi.ops, List.map_map, Function.comp_def]

theorem uses_replace {G : Func Op C} {x : Nat} {v o : Opd C} (h : Uses (G.replace x v) o) : (Uses G o ∧ o ≠ .inst x) ∨ (o = v ∧ Uses G (.inst x)) := by
  obtain ⟨b, B, hB, h⟩ := h
  obtain ⟨B0, hB0, rfl⟩ := Option.map_eq_some_iff.mp (show (G.blk b).map (Block.sub (one x v)) = some B from hB)
  have key : ∀ (l : List (Opd C)), (∀ y ∈ l, Uses G y) → o ∈ l.map (Opd.sub (one x v)) → (Uses G o ∧ o ≠ .inst x) ∨ (o = v ∧ Uses G (.inst x)) := by
    intro l hl hm
    obtain ⟨y, hy, rfl⟩ := List.mem_map.mp hm
    cases y with
    | cst c => exact .inl ⟨hl _ hy, by intro h; cases h⟩
    | inst z =>
      simp only [Opd.sub, one]
      split
      · rename_i e; subst e; exact .inr ⟨rfl, hl _ hy⟩
      · rename_i e; exact .inl ⟨hl _ hy, by intro h; cases h; exact e rfl⟩
  rcases h with ⟨p, hp, ho⟩ | ⟨i, hi, ho⟩ | ho
  · obtain ⟨p0, hp0, rfl⟩ := List.mem_map.mp hp
    rw [ops_sub] at ho
    exact key _ (fun y hy => ⟨b, B0, hB0, .inl ⟨p0, hp0, hy⟩⟩) ho
  · obtain ⟨i0, hi0, rfl⟩ := List.mem_map.mp hi
    exact key _ (fun y hy => ⟨b, B0, hB0, .inr (.inl ⟨i0, hi0, hy⟩)⟩) ho
  · have ho' : o ∈ (B0.term.sub (one x v)).args := ho
    rw [term_args_sub] at ho'
    exact key _ (fun y hy => ⟨b, B0, hB0, .inr (.inr hy)⟩) ho'

theorem uses_mapPhis {G : Func Op C} {b : Nat} {f : List (Phi C) → List (Phi C)} {o : Opd C} (h : Uses (G.mapPhis b f) o) :
    Uses G o ∨ ∃ B, G.blk b = some B ∧ ∃ p ∈ f B.phis, o ∈ p.ops := by
  obtain ⟨d, B, hB, h⟩ := h
  rw [Func.mapPhis_blk] at hB
  obtain ⟨B0, hB0, rfl⟩ := Option.map_eq_some_iff.mp hB
  by_cases hd : d = b
  · subst hd
    simp only [if_true] at h
    rcases h with ⟨p, hp, ho⟩ | h | h
    · exact .inr ⟨B0, hB0, p, hp, ho⟩
    · exact .inl ⟨d, B0, hB0, .inr (.inl h)⟩
    · exact .inl ⟨d, B0, hB0, .inr (.inr h)⟩
  · rw [if_neg hd] at h
    exact .inl ⟨d, B0, hB0, h⟩

theorem uses_addPhi {G : Func Op C} {b x : Nat} {o : Opd C} (h : Uses (G.addPhi b x) o) : Uses G o := by
  rcases uses_mapPhis h with h | ⟨B, hB, p, hp, ho⟩
  · exact h
  · rcases List.mem_cons.mp hp with rfl | hp
    · cases ho
    · exact ⟨b, B, hB, .inl ⟨p, hp, ho⟩⟩

theorem uses_addInc {G : Func Op C} {b x q : Nat} {v o : Opd C} (h : Uses (G.addInc b x q v) o) : Uses G o ∨ o = v := by
  rcases uses_mapPhis h with h | ⟨B, hB, p, hp, ho⟩
  · exact .inl h
  · obtain ⟨p0, hp0, rfl⟩ := List.mem_map.mp hp
    split at ho
    · simp only [Phi.addIncoming, Phi.ops, List.map_append, List.mem_append, List.map_cons, List.map_nil, List.mem_singleton] at ho
      rcases ho with ho | ho
      · exact .inl ⟨b, B, hB, .inl ⟨p0, hp0, ho⟩⟩
      · exact .inr ho
    · exact .inl ⟨b, B, hB, .inl ⟨p0, hp0, ho⟩⟩

/-- the value `l` is gone: neither an operand nor the current content of a slot -/
structure Gone (l : Nat) (s : MS Op C) : Prop where
  use : ¬ Uses s.G (.inst l)
  cur : ∀ a b, s.cur a b ≠ some (.inst l)
  next : l < s.next
  todo : ∀ e ∈ s.todo, e.2.2 ≠ l

theorem Gone.setDef {l : Nat} {s : MS Op C} (h : Gone l s) {a b : Nat} {o : Opd C} (ho : o ≠ .inst l) : Gone l (s.defVar a b o) := by
  refine ⟨h.use, fun a' b' => ?_, h.next, h.todo⟩
  simp only [MS.defVar]
  split
  · intro e; cases e; exact ho rfl
  · exact h.cur a' b'

theorem Gone.setG {l : Nat} {s : MS Op C} (h : Gone l s) {G : Func Op C} (hu : ¬ Uses G (.inst l)) : Gone l { s with G := G } := ⟨hu, h.cur, h.next, h.todo⟩

variable [DecidableEq C] {ord : List Nat → List Nat} {u : Nat → C} {g : CFG} {l : Nat}

theorem tryRemove_gone : ∀ (n : Nat) (G : Func Op C) (x : Nat) (o : Opd C) (G' : Func Op C), tryRemove ord u n G x = some (o, G') → ¬ Uses G (.inst l) →
    ¬ Uses G' (.inst l) ∧ (x ≠ l → o ≠ .inst l) := by
  intro n
  induction n with
  | zero => intro G x o G' h; cases h
  | succ n ih =>
    intro G x o G' h hu
    simp only [tryRemove] at h
    split at h
    · cases h
    rename_i p hp
    split at h
    · simp only [Option.some.injEq, Prod.mk.injEq] at h
      obtain ⟨rfl, rfl⟩ := h
      exact ⟨hu, fun hx e => by cases e; exact hx rfl⟩
    rename_i r hr
    obtain ⟨G2, hG2, e⟩ := Option.map_eq_some_iff.mp h
    simp only [Prod.mk.injEq] at e
    obtain ⟨rfl, rfl⟩ := e
    have ho : r.getD (.cst (u x)) ≠ .inst l := by
      cases r with
      | none => intro h; cases h
      | some v =>
        obtain ⟨_, _, h3⟩ := commonOp_spec hr
        rcases h3 v rfl with h | ⟨h, _⟩
        · cases h
        · obtain ⟨_, b, B, hB, hpB⟩ := phi?_some hp
          rintro e
          simp only [Option.getD_some] at e
          subst e
          exact hu ⟨b, B, hB, .inl ⟨p, hpB, h⟩⟩
    refine ⟨?_, fun _ => ho⟩
    have fold : ∀ (ys : List Nat) (G1 G2 : Func Op C), ys.foldlM (fun G y => (tryRemove ord u n G y).map Prod.snd) G1 = some G2 → ¬ Uses G1 (.inst l) → ¬ Uses G2 (.inst l) := by
      intro ys
      induction ys with
      | nil =>
        intro G1 G2 h hu
        simp only [List.foldlM_nil, Option.pure_def, Option.some.injEq] at h
        subst h; exact hu
      | cons y ys ihy =>
        intro G1 G2 h hu
        rw [List.foldlM_cons] at h
        obtain ⟨G3, h3, h⟩ := Option.bind_eq_some_iff.mp h
        obtain ⟨⟨o3, G3'⟩, h3', e⟩ := Option.map_eq_some_iff.mp h3
        simp only at e
        subst e
        exact ihy _ _ h (ih _ _ _ _ h3' hu).1
    refine fold _ _ _ hG2 fun h => ?_
    rcases uses_replace h with ⟨h, _⟩ | ⟨h, _⟩
    · exact hu h
    · exact ho h.symm

theorem addOps_gone (rec : MS Op C → Nat → Nat → Option (Opd C × MS Op C)) {a b x : Nat}
    (hrec : ∀ s q o s', rec s a q = some (o, s') → Gone l s → Gone l s' ∧ o ≠ .inst l) :
    ∀ (qs : List Nat) (s s' : MS Op C), addOps rec a b x qs s = some s' → Gone l s → Gone l s' := by
  intro qs
  induction qs with
  | nil => intro s s' h hg; simp only [addOps, Option.some.injEq] at h; subst h; exact hg
  | cons q qs ih =>
    intro s s' h hg
    simp only [addOps] at h
    split at h
    · cases h
    rename_i o s1 h1
    obtain ⟨g1, ho⟩ := hrec _ _ _ _ h1 hg
    refine ih _ _ h (g1.setG fun hu => ?_)
    rcases uses_addInc hu with hu | hu
    · exact g1.use hu
    · exact ho hu.symm

theorem addPhiOperands_gone (rec : MS Op C → Nat → Nat → Option (Opd C × MS Op C)) {a b x : Nat}
    (hrec : ∀ s q o s', rec s a q = some (o, s') → Gone l s → Gone l s' ∧ o ≠ .inst l) {qs : List Nat} {s s' : MS Op C} {o : Opd C}
    (h : addPhiOperands ord u rec qs a b x s = some (o, s')) (hx : x ≠ l) (hg : Gone l s) : Gone l s' ∧ o ≠ .inst l := by
  unfold addPhiOperands at h
  obtain ⟨s1, h1, h⟩ := Option.bind_eq_some_iff.mp h
  obtain ⟨⟨o1, G2⟩, h2, e⟩ := Option.map_eq_some_iff.mp h
  simp only [Prod.mk.injEq] at e
  obtain ⟨rfl, rfl⟩ := e
  have g1 := addOps_gone rec hrec qs s s1 h1 hg
  obtain ⟨h3, h4⟩ := tryRemove_gone (l := l) _ _ _ _ _ h2 g1.use
  exact ⟨g1.setG h3, h4 hx⟩

theorem useVar_gone {a : Nat} : ∀ (n : Nat) (s : MS Op C) (b : Nat) (o : Opd C) (s' : MS Op C), useVar ord u g n s a b = some (o, s') → Gone l s → Gone l s' ∧ o ≠ .inst l := by
  intro n
  induction n with
  | zero => intro s b o s' h; cases h
  | succ n ih =>
    intro s b o s' h hg
    simp only [useVar] at h
    have hne : (Opd.inst s.next : Opd C) ≠ .inst l := by intro e; cases e; exact absurd hg.next (by omega)
    split at h
    · rename_i v hc
      simp only [Option.some.injEq, Prod.mk.injEq] at h
      obtain ⟨rfl, rfl⟩ := h
      exact ⟨hg, fun e => hg.cur a b (e ▸ hc)⟩
    split at h
    · simp only [Option.some.injEq, Prod.mk.injEq] at h
      obtain ⟨rfl, rfl⟩ := h
      exact ⟨hg, by intro e; cases e⟩
    split at h
    · simp only [Option.some.injEq, Prod.mk.injEq] at h
      obtain ⟨rfl, rfl⟩ := h
      refine ⟨Gone.setDef (s := { s with G := s.G.addPhi b s.next, next := s.next + 1, todo := s.todo ++ [(b, a, s.next)] }) ⟨fun hu => hg.use (uses_addPhi hu), hg.cur, Nat.lt_succ_of_lt hg.next, ?_⟩ hne, hne⟩
      intro e he
      rcases List.mem_append.mp he with he | he
      · exact hg.todo e he
      · rw [List.mem_singleton] at he; subst he
        intro e'; exact hne (congrArg _ e')
    split at h
    · obtain ⟨⟨o1, s1⟩, h1, e⟩ := Option.map_eq_some_iff.mp h
      simp only [Prod.mk.injEq] at e
      obtain ⟨rfl, rfl⟩ := e
      obtain ⟨g1, ho⟩ := ih _ _ _ _ h1 hg
      exact ⟨g1.setDef ho, ho⟩
    · obtain ⟨⟨o1, s1⟩, h1, e⟩ := Option.map_eq_some_iff.mp h
      simp only [Prod.mk.injEq] at e
      obtain ⟨rfl, rfl⟩ := e
      obtain ⟨g1, ho⟩ := addPhiOperands_gone (l := l) _ (fun s q o s' h hg => ih s q o s' h hg) h1 (by intro e; exact hne (congrArg _ e))
        (Gone.setDef (s := { s with G := s.G.addPhi b s.next, next := s.next + 1 }) ⟨fun hu => hg.use (uses_addPhi hu), hg.cur, Nat.lt_succ_of_lt hg.next, hg.todo⟩ hne)
      exact ⟨g1.setDef ho, ho⟩

theorem sealBlock_gone {n : Nat} {s s' : MS Op C} {b : Nat} (h : sealBlock ord u g n s b = some s') (hg : Gone l s) : Gone l s' := by
  unfold sealBlock at h
  obtain ⟨s1, h1, rfl⟩ := Option.map_eq_some_iff.mp h
  have fold : ∀ (es : List (Nat × Nat × Nat)) (s s1 : MS Op C), (∀ e ∈ es, e.2.2 ≠ l) →
      es.foldlM (fun s e => (addPhiOperands ord u (useVar ord u g n) (g.pred b) e.2.1 b e.2.2 s).map Prod.snd) s = some s1 → Gone l s → Gone l s1 := by
    intro es
    induction es with
    | nil => intro s s1 _ h hg; simp only [List.foldlM_nil, Option.pure_def, Option.some.injEq] at h; subst h; exact hg
    | cons e es ih =>
      intro s s1 hne h hg
      rw [List.foldlM_cons] at h
      obtain ⟨s2, h2, h⟩ := Option.bind_eq_some_iff.mp h
      obtain ⟨⟨o3, s3⟩, h3, e'⟩ := Option.map_eq_some_iff.mp h2
      simp only at e'
      subst e'
      exact ih _ _ (fun e he => hne e (List.mem_cons_of_mem _ he)) h
        (addPhiOperands_gone _ (fun s q o s' h hg => useVar_gone n s q o s' h hg) h3 (hne e (List.mem_cons_self ..)) hg).1
  have g1 := fold _ _ _ (fun e he => hg.todo e (List.mem_filter.mp he).1) h1 hg
  exact ⟨g1.use, g1.cur, g1.next, fun e he => g1.todo e (List.mem_filter.mp he).1⟩

theorem trySeal_gone {n : Nat} {st st' : MS Op C × (Nat → Nat)} {b : Nat} (h : trySeal ord u g n st b = some st') (hg : Gone l st.1) : Gone l st'.1 := by
  unfold trySeal at h
  split at h
  · obtain ⟨s, h1, rfl⟩ := Option.map_eq_some_iff.mp h
    exact sealBlock_gone h1 hg
  · cases h; exact hg

theorem promoteInst_gone {kind : Op → Kind} {vars : List Nat} {n b j : Nat} {s s' : MS Op C} (h : promoteInst kind vars ord u g n b s j = some s') (hg : Gone l s) : Gone l s' := by
  unfold promoteInst at h
  split at h
  · cases h; exact hg
  rename_i i hi
  obtain ⟨B, hB, hi⟩ := Option.bind_eq_some_iff.mp hi
  split at h
  · split at h
    · obtain ⟨⟨o, s1⟩, h1, rfl⟩ := Option.map_eq_some_iff.mp h
      obtain ⟨g1, ho⟩ := useVar_gone _ _ _ _ _ h1 hg
      refine g1.setG fun hu => ?_
      rcases uses_replace hu with ⟨hu, _⟩ | ⟨hu, _⟩
      · exact g1.use hu
      · exact ho hu.symm
    · cases h; exact hg
  · split at h
    · split at h
      · rename_i v hv
        cases h
        refine hg.setDef fun e => ?_
        subst e
        exact hg.use ⟨b, B, hB, .inr (.inl ⟨i, List.mem_of_getElem? hi, List.mem_of_getElem? hv⟩)⟩
      · cases h; exact hg
    · cases h; exact hg
  · cases h; exact hg

/-! ## only processed blocks have current contents -/

/-- contents are known only for the blocks `D`, and these include the predecessors of all sealed blocks -/
structure Known (g : CFG) (D vars : List Nat) (s : MS Op C) : Prop where
  cur : ∀ a b, s.cur a b ≠ none → b ∈ D ∧ a ∈ vars
  todo : ∀ e ∈ s.todo, e.2.1 ∈ vars
  fin : ∀ b ∈ s.fin, ∀ q ∈ g.pred b, q ∈ D

variable {D vars : List Nat}

omit [DecidableEq C] in
theorem Known.setDef {s : MS Op C} (h : Known g D vars s) {a b : Nat} {o : Opd C} (hb : b ∈ D) (ha : a ∈ vars) : Known g D vars (s.defVar a b o) := by
  refine ⟨fun a' b' => ?_, h.todo, h.fin⟩
  simp only [MS.defVar]
  split
  · rename_i e; rw [e.1, e.2]; exact fun _ => ⟨hb, ha⟩
  · exact h.cur a' b'

omit [DecidableEq C] in
theorem addOps_known (rec : MS Op C → Nat → Nat → Option (Opd C × MS Op C)) {a b x : Nat}
    (hrec : ∀ s q o s', rec s a q = some (o, s') → q ∈ D → Known g D vars s → Known g D vars s' ∧ s'.fin = s.fin) :
    ∀ (qs : List Nat) (s s' : MS Op C), addOps rec a b x qs s = some s' → (∀ q ∈ qs, q ∈ D) → Known g D vars s → Known g D vars s' ∧ s'.fin = s.fin := by
  intro qs
  induction qs with
  | nil => intro s s' h _ hk; simp only [addOps, Option.some.injEq] at h; subst h; exact ⟨hk, rfl⟩
  | cons q qs ih =>
    intro s s' h hq hk
    simp only [addOps] at h
    split at h
    · cases h
    rename_i o s1 h1
    obtain ⟨k1, f1⟩ := hrec _ _ _ _ h1 (hq q (List.mem_cons_self ..)) hk
    obtain ⟨k2, f2⟩ := ih _ _ h (fun q hq' => hq q (List.mem_cons_of_mem _ hq')) ⟨k1.cur, k1.todo, k1.fin⟩
    exact ⟨k2, f2.trans f1⟩

theorem addPhiOperands_known (rec : MS Op C → Nat → Nat → Option (Opd C × MS Op C)) {a b x : Nat}
    (hrec : ∀ s q o s', rec s a q = some (o, s') → q ∈ D → Known g D vars s → Known g D vars s' ∧ s'.fin = s.fin) {qs : List Nat} {s s' : MS Op C} {o : Opd C}
    (h : addPhiOperands ord u rec qs a b x s = some (o, s')) (hq : ∀ q ∈ qs, q ∈ D) (hk : Known g D vars s) : Known g D vars s' ∧ s'.fin = s.fin := by
  unfold addPhiOperands at h
  obtain ⟨s1, h1, h⟩ := Option.bind_eq_some_iff.mp h
  obtain ⟨⟨o1, G2⟩, h2, e⟩ := Option.map_eq_some_iff.mp h
  simp only [Prod.mk.injEq] at e
  obtain ⟨rfl, rfl⟩ := e
  obtain ⟨k1, f1⟩ := addOps_known rec hrec qs s s1 h1 hq hk
  exact ⟨⟨k1.cur, k1.todo, k1.fin⟩, f1⟩

theorem useVar_known {a : Nat} (ha : a ∈ vars) : ∀ (n : Nat) (s : MS Op C) (b : Nat) (o : Opd C) (s' : MS Op C), useVar ord u g n s a b = some (o, s') → b ∈ D → Known g D vars s → Known g D vars s' ∧ s'.fin = s.fin := by
  intro n
  induction n with
  | zero => intro s b o s' h; cases h
  | succ n ih =>
    intro s b o s' h hb hk
    simp only [useVar] at h
    split at h
    · simp only [Option.some.injEq, Prod.mk.injEq] at h
      obtain ⟨rfl, rfl⟩ := h
      exact ⟨hk, rfl⟩
    split at h
    · simp only [Option.some.injEq, Prod.mk.injEq] at h
      obtain ⟨rfl, rfl⟩ := h
      exact ⟨hk, rfl⟩
    split at h
    · simp only [Option.some.injEq, Prod.mk.injEq] at h
      obtain ⟨rfl, rfl⟩ := h
      exact ⟨Known.setDef (s := { s with G := s.G.addPhi b s.next, next := s.next + 1, todo := s.todo ++ [(b, a, s.next)] }) ⟨hk.cur, fun e he => (List.mem_append.mp he).elim (hk.todo e) (fun h => by rw [List.mem_singleton.mp h]; exact ha), hk.fin⟩ hb ha, rfl⟩
    rename_i hfin
    rw [not_not] at hfin
    split at h
    · rename_i q hq
      obtain ⟨⟨o1, s1⟩, h1, e⟩ := Option.map_eq_some_iff.mp h
      simp only [Prod.mk.injEq] at e
      obtain ⟨rfl, rfl⟩ := e
      obtain ⟨k1, f1⟩ := ih _ _ _ _ h1 (hk.fin b hfin q (by simp [hq])) hk
      exact ⟨k1.setDef hb ha, f1⟩
    · obtain ⟨⟨o1, s1⟩, h1, e⟩ := Option.map_eq_some_iff.mp h
      simp only [Prod.mk.injEq] at e
      obtain ⟨rfl, rfl⟩ := e
      obtain ⟨k1, f1⟩ := addPhiOperands_known (D := D) (g := g) _ (fun s q o s' h hq hk => ih s q o s' h hq hk) h1 (hk.fin b hfin) (Known.setDef (s := { s with G := s.G.addPhi b s.next, next := s.next + 1 }) ⟨hk.cur, hk.todo, hk.fin⟩ hb ha)
      exact ⟨k1.setDef hb ha, f1⟩

theorem sealBlock_known {n : Nat} {s s' : MS Op C} {b : Nat} (h : sealBlock ord u g n s b = some s') (hp : ∀ q ∈ g.pred b, q ∈ D) (hk : Known g D vars s) : Known g D vars s' := by
  unfold sealBlock at h
  obtain ⟨s1, h1, rfl⟩ := Option.map_eq_some_iff.mp h
  have fold : ∀ (es : List (Nat × Nat × Nat)) (s s1 : MS Op C), (∀ e ∈ es, e.2.1 ∈ vars) →
      es.foldlM (fun s e => (addPhiOperands ord u (useVar ord u g n) (g.pred b) e.2.1 b e.2.2 s).map Prod.snd) s = some s1 → Known g D vars s → Known g D vars s1 := by
    intro es
    induction es with
    | nil => intro s s1 _ h hg; simp only [List.foldlM_nil, Option.pure_def, Option.some.injEq] at h; subst h; exact hg
    | cons e es ih =>
      intro s s1 hv h hg
      rw [List.foldlM_cons] at h
      obtain ⟨s2, h2, h⟩ := Option.bind_eq_some_iff.mp h
      obtain ⟨⟨o3, s3⟩, h3, e'⟩ := Option.map_eq_some_iff.mp h2
      simp only at e'
      subst e'
      exact ih _ _ (fun e he => hv e (List.mem_cons_of_mem _ he)) h (addPhiOperands_known _ (fun s q o s' h hq hg => useVar_known (hv e (List.mem_cons_self ..)) n s q o s' h hq hg) h3 hp hg).1
  have k1 := fold _ _ _ (fun e he => hk.todo e (List.mem_filter.mp he).1) h1 hk
  refine ⟨k1.cur, fun e he => k1.todo e (List.mem_filter.mp he).1, fun d hd => ?_⟩
  rcases List.mem_cons.mp hd with rfl | hd
  · exact hp
  · exact k1.fin d hd

theorem trySeal_known {n : Nat} {st st' : MS Op C × (Nat → Nat)} {b : Nat} (h : trySeal ord u g n st b = some st') (hp : st.2 b = 0 → ∀ q ∈ g.pred b, q ∈ D) (hk : Known g D vars st.1) :
    Known g D vars st'.1 := by
  unfold trySeal at h
  split at h
  · rename_i hc
    obtain ⟨s, h1, rfl⟩ := Option.map_eq_some_iff.mp h
    exact sealBlock_known h1 (hp hc.1) hk
  · cases h; exact hk

theorem promoteInst_known {kind : Op → Kind} {vars : List Nat} {n b j : Nat} {s s' : MS Op C} (h : promoteInst kind vars ord u g n b s j = some s') (hb : b ∈ D) (hk : Known g D vars s) : Known g D vars s' := by
  unfold promoteInst at h
  split at h
  · cases h; exact hk
  split at h
  · split at h
    · obtain ⟨⟨o, s1⟩, h1, rfl⟩ := Option.map_eq_some_iff.mp h
      obtain ⟨k1, _⟩ := useVar_known (by assumption) _ _ _ _ _ h1 hb hk
      exact ⟨k1.cur, k1.todo, k1.fin⟩
    · cases h; exact hk
  · split at h
    · split at h
      · cases h; exact hk.setDef hb (by assumption)
      · cases h; exact hk
    · cases h; exact hk
  · cases h; exact hk

/-! ## the loops -/
variable {K : Type} {kind : Op → Kind} {slot : Op → Option K} {F : Func Op C}

/-- a load of one of the slots -/
def LoadOf (kind : Op → Kind) (vars : List Nat) (i : Inst Op C) : Prop := kind i.op = .load ∧ ∃ a ∈ vars, i.args[0]? = some (.inst a)

section
variable (P : Proper F) (hl : AllLive F) (V : Private kind slot F vars) (ho : ∀ l y, y ∈ ord l → y ∈ l) (hg : ∀ b q, q ∈ g.pred b ↔ Edge F q b) (hgn : ∀ b, (g.pred b).Nodup)
include P hl V ho hg hgn

/-- after its turn a load is gone -/
theorem promoteInst_load {n b j : Nat} {B : Block Op C} (hB : F.blk b = some B) {pos : Nat → Nat} (hpos : pos b = j) {Φ : List (Nat × Nat × Nat)} {E : List (Nat × Opd C)} {opn : Nat → Prop}
    {s s' : MS Op C} (T : TInv kind F vars pos Φ E [] opn s) (h : promoteInst kind vars ord u g n b s j = some s') {i : Inst Op C} (hi : B.body[j]? = some i) (hL : LoadOf kind vars i)
    (hk : Known g D vars s) (hb : b ∈ D) (hdom : ∀ d ∈ D, Domi F b d → d = b) : Gone i.id s' := by
  obtain ⟨hk0, a, ha, ha1⟩ := hL
  obtain ⟨B', hB', hr⟩ := T.inv.cert.some_ b B hB
  have hj := (List.getElem?_eq_some_iff.mp hi).1
  have hlen := hr.body.length_eq
  obtain ⟨i', hi'⟩ : ∃ i', B'.body[j]? = some i' := ⟨_, List.getElem?_eq_getElem (by omega)⟩
  have hrel : InstRel E i i' := by
    have := hr.body.get (i := j) hj (by omega)
    simp only [List.get_eq_getElem] at this
    rw [List.getElem?_eq_getElem hj] at hi
    rw [List.getElem?_eq_getElem (by omega)] at hi'
    cases hi; cases hi'
    exact this
  have ha0 := (hrel.addr P V T.inv.cert T.inv.cln ha).mpr ha1
  unfold promoteInst at h
  simp only [hB', Option.bind_some, hi', hrel.2.1, hk0, ha0, if_pos ha] at h
  obtain ⟨⟨o, s1⟩, h1, rfl⟩ := Option.map_eq_some_iff.mp h
  obtain ⟨Φ1, E1, opn1, I1, X1, hv⟩ := useVar_ok P hl V ho hg hgn ha n s Φ E opn b B o s1 T.inv hB
    (by
      rintro rfl
      obtain ⟨B0, k, i0, hB0, hi0, hid, _⟩ := V.lead a ha
      rw [hB] at hB0; cases hB0
      refine ⟨k, i0, hi0, hid, ?_⟩
      rw [hpos]
      by_contra hge
      have hav := P.use_avail hB (hl _ _ hB) hi (List.mem_of_getElem? ha1)
      exact P.not_avail hB hi0 (hid ▸ avail_mono hav (by omega))) h1
  have T1 := T.ext I1 X1
  have hdef : DefIn F i.id b := Inst.defIn hB hi
  have notΦ : ∀ a d, (i.id, a, d) ∉ Φ1 := fun a d h => (I1.cert.new _ _ _ h).2.2.2 _ hdef
  have hne : o ≠ .inst i.id := by
    rintro rfl
    rcases I1.cert.valAv P hl hv _ rfl with h | ⟨a, d, h, _⟩
    · rw [hpos] at h; exact P.not_avail hB hi h
    · exact notΦ a d h
  have k1 := (useVar_known ha _ _ _ _ _ h1 hb hk).1
  have hcur : ∀ a' b', s1.cur a' b' ≠ some (.inst i.id) := by
    intro a' b' hc
    obtain ⟨hb', ha'⟩ := k1.cur a' b' (by rw [hc]; simp)
    rcases I1.cert.valAv P hl (I1.dfd a' b' _ ha' hc) _ rfl with hav | ⟨a, d, hm, _⟩
    · obtain ⟨d, hd, hdo, hin⟩ := id hav
      have := P.home hd hdef
      subst this
      have := hdom b' hb' hdo
      subst this
      rw [hpos] at hav
      exact P.not_avail hB hi hav
    · exact notΦ a d hm
  rw [hrel.1]
  refine ⟨fun hu => ?_, hcur, I1.old _ _ hdef, fun e he e' => ?_⟩
  · rcases uses_replace hu with ⟨_, hu⟩ | ⟨hu, _⟩
    · exact hu rfl
    · exact hne hu.symm
  · exact notΦ _ _ (e' ▸ (T1.todo e he).1)

/-- the loads of block `b` in front of index `j` -/
def Swept (kind : Op → Kind) (F : Func Op C) (vars : List Nat) (b j : Nat) (s : MS Op C) : Prop :=
  ∀ B k i, F.blk b = some B → k < j → B.body[k]? = some i → LoadOf kind vars i → Gone i.id s

theorem instLoop_gone {n b : Nat} {B : Block Op C} (hB : F.blk b = some B) (hb : b ∈ D) (hdom : ∀ d ∈ D, Domi F b d → d = b) :
    ∀ (k j : Nat) (pos : Nat → Nat) (Φ : List (Nat × Nat × Nat)) (E : List (Nat × Opd C)) (opn : Nat → Prop) (s s' : MS Op C),
    j + k = B.body.length → pos b = j → TInv kind F vars pos Φ E [] opn s → Known g D vars s → Swept kind F vars b j s →
    (List.range' j k).foldlM (promoteInst kind vars ord u g n b) s = some s' → Known g D vars s' ∧ Swept kind F vars b B.body.length s' ∧ ∀ l, Gone l s → Gone l s' := by
  intro k
  induction k with
  | zero =>
    intro j pos Φ E opn s s' hk hp T K W h
    simp only [List.range'_zero, List.foldlM_nil, Option.pure_def, Option.some.injEq] at h
    subst h
    obtain rfl : j = B.body.length := by omega
    exact ⟨K, W, fun _ h => h⟩
  | succ k ih =>
    intro j pos Φ E opn s s' hk hp T K W h
    rw [List.range'_succ, List.foldlM_cons] at h
    obtain ⟨s1, h1, h⟩ := Option.bind_eq_some_iff.mp h
    obtain ⟨Φ1, E1, opn1, T1, _⟩ := promoteInst_ok P hl V ho hg hgn hB (by omega) hp T h1
    have W1 : Swept kind F vars b (j + 1) s1 := by
      intro B0 k' i hB0 hk' hi hL
      rw [hB] at hB0; cases hB0
      rcases Nat.lt_or_ge k' j with hlt | hge
      · exact promoteInst_gone h1 (W B k' i hB hlt hi hL)
      · obtain rfl : k' = j := by omega
        exact promoteInst_load P hl V ho hg hgn hB hp T h1 hi hL K hb hdom
    obtain ⟨K2, W2, G2⟩ := ih (j + 1) _ Φ1 E1 opn1 s1 s' (by omega) (by simp) T1 (promoteInst_known h1 hb K) W1 h
    exact ⟨K2, W2, fun l hl' => G2 l (promoteInst_gone h1 hl')⟩

theorem Known.mono {D' : List Nat} (h : ∀ d ∈ D, d ∈ D') {s : MS Op C} (K : Known g D vars s) : Known g D' vars s :=
  ⟨fun a b hc => ⟨h _ (K.cur a b hc).1, (K.cur a b hc).2⟩, K.todo, fun b hb q hq => h _ (K.fin b hb q hq)⟩

theorem succFold_gone {n b : Nat} {B : Block Op C} (hB : F.blk b = some B) {done : List Nat} (hb : b ∉ done) : ∀ (ts : List Nat) (st st' : MS Op C × (Nat → Nat)), FInv kind F vars g b done ts st →
    ts.foldlM (fun st t => trySeal ord u g n (st.1, fun x => if x = t then st.2 x - 1 else st.2 x) t) st = some st' → Known g (b :: done) vars st.1 →
    Known g (b :: done) vars st'.1 ∧ ∀ l, Gone l st.1 → Gone l st'.1 := by
  intro ts
  induction ts with
  | nil =>
    intro st st' FI h K
    simp only [List.foldlM_nil, Option.pure_def, Option.some.injEq] at h
    subst h
    exact ⟨K, fun _ h => h⟩
  | cons t ts ih =>
    intro st st' FI h K
    rw [List.foldlM_cons] at h
    obtain ⟨st1, h1, h⟩ := Option.bind_eq_some_iff.mp h
    have hdt := FI.degHead P hl V ho hg hgn hb
    have K1 := trySeal_known (D := b :: done) h1
      (fun h0 q hq => by
        simp only [if_true] at h0
        rw [hdt, List.countP_eq_zero] at h0
        have := h0 q hq
        simp only [decide_eq_true_eq, not_not] at this
        exact this) K
    obtain ⟨K2, G2⟩ := ih st1 st' (succStep_ok P hl V ho hg hgn hB hb FI h1) h K1
    exact ⟨K2, fun l hl' => G2 l (trySeal_gone h1 hl')⟩

theorem promoteBlock_gone (hsn : ∀ b, (g.succ b).Nodup) (hs : ∀ b x, x ∈ g.succ b ↔ Edge F b x) {n b : Nat} {B : Block Op C} (hB : F.blk b = some B) {done : List Nat} (hb : b ∉ done)
    (hdom : ∀ d ∈ done, ¬ Domi F b d) {st st' : MS Op C × (Nat → Nat)} (D : DInv kind F vars g done st) (K : Known g done vars st.1) (h : promoteBlock kind vars ord u g n st b = some st') :
    Known g (b :: done) vars st'.1 ∧ Swept kind F vars b B.body.length st'.1 ∧ ∀ l, Gone l st.1 → Gone l st'.1 := by
  unfold promoteBlock at h
  obtain ⟨s1, h1, h⟩ := Option.bind_eq_some_iff.mp h
  obtain ⟨st2, h2, h3⟩ := Option.bind_eq_some_iff.mp h
  obtain ⟨I1, hf1⟩ := instrs_ok P hl V ho hg hgn hB hb D h1
  have FI := blockSelf_ok P hl V ho hg hgn hsn hs hB hb D I1 hf1 h2
  obtain ⟨Φ, E, opn, T⟩ := D.inv
  obtain ⟨B', hB', hr⟩ := T.inv.cert.some_ b B hB
  have hlen := hr.body.length_eq
  simp only [hB'] at h1
  rw [← hlen, List.range_eq_range'] at h1
  obtain ⟨K1, W1, G1⟩ := instLoop_gone (D := b :: done) P hl V ho hg hgn hB (List.mem_cons_self ..)
    (fun d hd hbd => (List.mem_cons.mp hd).elim (fun e => e) (fun hd => absurd hbd (hdom d hd))) _ 0 _ Φ E opn st.1 s1 (by omega) (by unfold posOf; rw [if_neg hb]) T
    (K.mono P hl V ho hg hgn fun d hd => List.mem_cons_of_mem _ hd) (fun _ _ _ _ hk => absurd hk (by omega)) h1
  have K2 := trySeal_known (D := b :: done) h2
    (fun h0 q hq => by
      have h0' : st.2 b = 0 := h0
      rw [D.deg b, List.countP_eq_zero] at h0'
      exact List.mem_cons_of_mem _ (by simpa using h0' q hq)) K1
  obtain ⟨K3, G3⟩ := succFold_gone P hl V ho hg hgn hB hb _ _ _ FI h3 K2
  refine ⟨K3, fun B0 k i hB0 hk hi hL => G3 _ (trySeal_gone h2 (W1 B0 k i hB0 hk hi hL)), fun l hl' => G3 _ (trySeal_gone h2 (G1 l hl'))⟩

theorem promote_gone (hsn : ∀ b, (g.succ b).Nodup) (hs : ∀ b x, x ∈ g.succ b ↔ Edge F b x) {n new : Nat} {bs : List Nat} (hbn : bs.Nodup) (hbs : ∀ b, b ∈ bs ↔ b ∈ F.order)
    (hdf : DomFirst F bs) (hnew : ∀ x d, DefIn F x d → x < new) {G : Func Op C} (h : promote kind vars ord u g n bs new F = some G) {b : Nat} {B : Block Op C} (hB : F.blk b = some B)
    {i : Inst Op C} (hi : i ∈ B.body) (hL : LoadOf kind vars i) : ¬ Uses G (.inst i.id) := by
  unfold promote at h
  obtain ⟨st, h1, rfl⟩ := Option.map_eq_some_iff.mp h
  have fold : ∀ (bs done : List Nat) (st st' : MS Op C × (Nat → Nat)), bs.Nodup → (∀ b ∈ bs, b ∉ done ∧ ∃ B, F.blk b = some B) → (∀ b ∈ bs, ∀ d ∈ done, ¬ Domi F b d) → DomFirst F bs →
      DInv kind F vars g done st → Known g done vars st.1 →
      bs.foldlM (promoteBlock kind vars ord u g n) st = some st' →
      (∀ l, Gone l st.1 → Gone l st'.1) ∧ ∀ b ∈ bs, ∀ B, F.blk b = some B → Swept kind F vars b B.body.length st'.1 := by
    intro bs
    induction bs with
    | nil =>
      intro done st st' _ _ _ _ D K h
      simp only [List.foldlM_nil, Option.pure_def, Option.some.injEq] at h
      subst h
      exact ⟨fun _ h => h, by simp⟩
    | cons b bs ih =>
      intro done st st' hn hb hd hf D K h
      rw [List.foldlM_cons] at h
      obtain ⟨st1, h1, h⟩ := Option.bind_eq_some_iff.mp h
      obtain ⟨hn1, hn2⟩ := List.nodup_cons.mp hn
      obtain ⟨hbd, B, hB⟩ := hb b (List.mem_cons_self ..)
      have D1 := promoteBlock_ok P hl V ho hg hgn hsn hs hB hbd D h1
      obtain ⟨K1, W1, G1⟩ := promoteBlock_gone P hl V ho hg hgn hsn hs hB hbd (hd b (List.mem_cons_self ..)) D K h1
      obtain ⟨G2, W2⟩ := ih (b :: done) st1 st' hn2
        (fun b' hb' => ⟨by rw [List.mem_cons, not_or]; exact ⟨fun e => hn1 (e ▸ hb'), (hb b' (List.mem_cons_of_mem _ hb')).1⟩, (hb b' (List.mem_cons_of_mem _ hb')).2⟩)
        (by
          intro b' hb' d hd' hdom
          rcases List.mem_cons.mp hd' with rfl | hd'
          · obtain ⟨k, hk⟩ := List.getElem?_of_mem hb'
            have := hf (k + 1) 0 b' d (by simpa using hk) (by simp) hdom
            omega
          · exact hd b' (List.mem_cons_of_mem _ hb') d hd' hdom)
        (fun i j x y hx hy hxy => by
          have := hf (i + 1) (j + 1) x y (by simpa using hx) (by simpa using hy) hxy
          omega) D1 K1 h
      refine ⟨fun l hl' => G2 l (G1 l hl'), fun b' hb' B' hB' => ?_⟩
      rcases List.mem_cons.mp hb' with rfl | hb'
      · rw [hB] at hB'; cases hB'
        exact fun B0 k i hB0 hk hi hL => G2 _ (W1 B0 k i hB0 hk hi hL)
      · exact W2 b' hb' B' hB'
  obtain ⟨_, W⟩ := fold bs [] _ st hbn (fun b hb => ⟨by simp, P.total b ((hbs b).mp hb)⟩) (by simp) hdf
    (DInv.start P hl V ho hg hgn hnew) ⟨by simp, by simp, by simp⟩ h1
  obtain ⟨k, hk⟩ := List.getElem?_of_mem hi
  exact (W b ((hbs b).mpr (P.listed b B hB)) B hB B k i hB (List.getElem?_eq_some_iff.mp hk).1 hk hL).use

end
end

/-- **C67, the other half.** If the blocks are visited dominators first, no operand of the result is a load of a promoted slot: the variables
live in registers. -/
theorem C67_no_loads {L : Lang} [DecidableEq L.C] {kind : L.Op → Kind} (S : Slots L kind) {F : L.F} (P : Proper F) (hl : AllLive F) (hu : SlotUses kind F)
    (hd : SlotsDiffer S.slot F) (ord : List Nat → List Nat) (ho : ∀ l, (ord l).Perm l) (cord : Nat → List Nat → List Nat) (hc : ∀ b l, (cord b l).Perm l)
    (u : Nat → L.C) (bs : List Nat) (hbs : bs.Perm F.order) (hdf : DomFirst F bs) {G : L.F} (h : scalarMem2Reg kind ord cord u bs F = some G)
    {b : Nat} {B : Block L.Op L.C} {i : Inst L.Op L.C} (hB : F.blk b = some B) (hi : i ∈ B.body) (hk : kind i.op = .load) {a : Nat} (ha : a ∈ promotable kind F)
    (hia : i.args[0]? = some (.inst a)) : ¬ Uses G (.inst i.id) := by
  have V := promotable_private (slot := S.slot) P.listed hu hd
  unfold scalarMem2Reg at h
  split at h
  · rename_i e; rw [e] at ha; cases ha
  · obtain ⟨h1, h2, h3, _, _⟩ := C32_cfg (F := F) (ord := cord) hc P.nodup P.listed
    exact promote_gone P hl V (fun l y h => (ho l).mem_iff.mp h) h2 (fun b => (h3 b).2) (fun b => (h3 b).1) h1 (hbs.nodup_iff.mpr P.nodup) (fun b => hbs.mem_iff) hdf
      (fun x d h => fresh_lt P.listed h) h hB hi ⟨hk, a, ha, hia⟩

/-- the order the pass uses: the blocks of the dominator analysis (ScalarMem2Reg.cpp:147-152; there are no other blocks when all are reachable) -/
theorem domBlocks_order {Op C : Type} (o : Orders) {F : Func Op C} (P : Proper F) (hl : AllLive F) : ∃ t, F.dom o = some t ∧ (domBlocks t).Perm F.order ∧ DomFirst F (domBlocks t) := by
  obtain ⟨t, h1, _, _, h4, h5, h6⟩ := dom_spec o P.nodup P.listed
  refine ⟨t, h1, ?_, fun i j a b h h' hd => h6 a b i j h h' hd⟩
  refine (List.perm_ext_iff_of_nodup h4 P.nodup).mpr fun x => ?_
  rw [h5]
  constructor
  · intro h
    obtain ⟨B, hB⟩ := P.blk h
    exact P.listed x B hB
  · intro h
    obtain ⟨B, hB⟩ := P.total x h
    exact hl x B hB

/-- a scalar `alloc` at the start of the entry block whose address is used only by loads from it and stores to it is promoted -/
theorem promotable_of_uses {Op C : Type} [DecidableEq C] {kind : Op → Kind} {F : Func Op C} {a : Nat} (ha : a ∈ leading kind F)
    (hp : ∀ b B, F.blk b = some B → ∀ p ∈ B.phis, .inst a ∉ p.ops)
    (hi : ∀ b B, F.blk b = some B → ∀ i ∈ B.body, .inst a ∈ i.args → kind i.op = .load ∨ (kind i.op = .store ∧ i.args[1]? ≠ some (.inst a))) : a ∈ promotable kind F := by
  unfold promotable
  rw [List.mem_filter]
  refine ⟨ha, List.all_eq_true.mpr fun B hB => ?_⟩
  obtain ⟨b, _, hb⟩ := Func.mem_blocks.mp hB
  unfold keepsSlot
  rw [Bool.and_eq_true, List.all_eq_true, List.all_eq_true]
  refine ⟨fun p hpB => by simpa using hp b B hb p hpB, fun i hiB => ?_⟩
  rw [decide_eq_true_eq]
  intro hm
  have hin : Opd.inst a ∈ i.args := by
    unfold erased at hm
    split at hm
    · exact List.mem_of_getElem? (Option.mem_toList.mp hm)
    · rcases List.mem_append.mp hm with hm | hm <;> exact List.mem_of_getElem? (Option.mem_toList.mp hm)
    · exact List.mem_of_getElem? (Option.mem_toList.mp hm)
    · exact List.mem_of_getElem? (Option.mem_toList.mp hm)
    · exact hm
    · cases hm
  rcases hi b B hb i hiB hin with h | ⟨h, h'⟩
  · unfold erased at hm; rw [h] at hm; cases hm
  · unfold erased at hm; rw [h] at hm
    exact h' (Option.mem_toList.mp hm)

end Cmmc.SSA
