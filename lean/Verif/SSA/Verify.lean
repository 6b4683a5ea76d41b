import Verif.SSA.Cfg
/-!
# `Function::verify` (cmmc/IR/Function.cpp:138-320, Block.cpp:87-151): C38

Modelled: unique instructions (l.144-166), branch targets (l.168-197), instruction order inside a block (Block.cpp:113-137), operands exist
(l.202-215), phi entries against predecessors (l.222-255), dominance (l.257-292). Left out because the model has no counterpart: ownership,
position of stack allocations, types, user lists, and the checks that phis come first and terminators last (true of every `Block` of the
model by construction).
-/
namespace Cmmc.SSA
section
variable {Op C : Type}

/-- all instructions of the function -/
def Func.allIds (F : Func Op C) : List Nat := F.blocks.flatMap Block.ids

/-- `operand->getBlock()` for an instruction -/
def Func.home (F : Func Op C) (i : Nat) : Option Nat :=
  F.order.find? (fun b => match F.blk b with | some B => decide (i ∈ B.ids) | none => false)

/-- Block.cpp:113-137: an operand from this block must have been defined before; `own` are the instructions of the block -/
def orderOk (own : List Nat) (t : Term C) : List (Inst Op C) → List Nat → Bool
  | [], dfd => (instIds t.args).all (fun i => decide (i ∈ own → i ∈ dfd))
  | i :: is, dfd => (instIds i.args).all (fun i => decide (i ∈ own → i ∈ dfd)) && orderOk own t is (i.id :: dfd)

/-- the operands of a block, phis and terminator included -/
def Block.operands (B : Block Op C) : List Nat :=
  B.phis.flatMap (fun p => instIds p.ops) ++ B.body.flatMap (fun i => instIds i.args) ++ instIds B.term.args

/-- l.222-255 for one phi of block `b` -/
def phiOk (g : CFG) (t : Dom.TS) (b : Nat) (p : Phi C) : Bool :=
  p.inc.all (fun e => decide (e.1 ∈ g.pred b)) && (g.pred b).all (fun q => !t.reachable q || p.has q)

/-- `checkDominate(blockA, blockB, strict)` (l.260-275): `true` when it does not complain; an operand without a block passes -/
def domOk (t : Dom.TS) (strict : Bool) (b : Nat) : Option Nat → Bool
  | none => true
  | some a => !(a != b && (strict || t.reachable a) && t.reachable b && !t.dominate a b)

/-- `Function::verify` (l.138-320) -/
def Func.verify (o : Orders) (F : Func Op C) : Option Bool :=
  if F.order = [] then some true
  else if ¬ F.allIds.Nodup then some false
  else if ¬ (∀ B ∈ F.blocks, (∀ x ∈ B.term.targets, x ∈ F.order) ∧ orderOk B.ids B.term B.body (B.phis.map Phi.id) = true) then some false
  else if ¬ (∀ B ∈ F.blocks, ∀ x ∈ B.operands, x ∈ F.allIds) then some false
  else match F.dom o with
    | none => none
    | some t => some (
        ((domBlocks t).all fun b => match F.blk b with
          | none => true
          | some B => B.phis.all (phiOk (F.cfg o.cfg) t b)) &&
        ((domBlocks t).all fun b => match F.blk b with
          | none => true
          | some B =>
            B.phis.all (fun p => p.inc.all (fun e => match e.2 with | .inst i => domOk t false e.1 (F.home i) | .cst _ => true)) &&
            (B.body.flatMap (fun i => instIds i.args) ++ instIds B.term.args).all (fun i => domOk t true b (F.home i))))

/-! ## specification -/

/-- the operands of instruction number `k` of the block defined by instructions of the block come from phis or earlier instructions -/
def InOrder (B : Block Op C) : Prop :=
  (∀ pre i post, B.body = pre ++ i :: post → ∀ x, Opd.inst x ∈ i.args → x ∈ B.ids → x ∈ B.phis.map Phi.id ∨ x ∈ pre.map Inst.id) ∧
  ∀ x, Opd.inst x ∈ B.term.args → x ∈ B.ids → x ∈ B.phis.map Phi.id ∨ x ∈ B.body.map Inst.id

/-- instruction `i` belongs to block `b` -/
def DefIn (F : Func Op C) (i b : Nat) : Prop := ∃ B, F.blk b = some B ∧ i ∈ B.ids

/-- block `b` can be reached from the entry -/
abbrev Live (F : Func Op C) (b : Nat) : Prop := Dom.Reachable (Edge F) F.entry b

/-- `a` dominates `b` in `F` -/
abbrev Domi (F : Func Op C) (a b : Nat) : Prop := Dom.Dominates (Edge F) F.entry a b

/-- SSA well-formedness: instructions are unique, branches stay inside the function, code is in order, operands exist; in live blocks
phis have entries for the live predecessors and for predecessors only, phi operands are defined in dead blocks or in blocks dominating
the (live) predecessor, other operands in blocks dominating the block. -/
structure WellFormed (F : Func Op C) : Prop where
  unique : F.allIds.Nodup
  closed : ∀ a b, Edge F a b → b ∈ F.order
  inOrder : ∀ b B, F.blk b = some B → InOrder B
  exists_ : ∀ b B, F.blk b = some B → ∀ x ∈ B.operands, ∃ h, DefIn F x h
  phiPred : ∀ b B p, F.blk b = some B → Live F b → p ∈ B.phis → ∀ q v, (q, v) ∈ p.inc → Edge F q b
  phiAll : ∀ b B p q, F.blk b = some B → Live F b → p ∈ B.phis → Edge F q b → Live F q → ∃ v, (q, v) ∈ p.inc
  phiDom : ∀ b B p q x h, F.blk b = some B → Live F b → p ∈ B.phis → (q, Opd.inst x) ∈ p.inc → DefIn F x h → Live F h → Live F q → Domi F h q
  useDom : ∀ b B x h, F.blk b = some B → Live F b → ((∃ i ∈ B.body, Opd.inst x ∈ i.args) ∨ Opd.inst x ∈ B.term.args) → DefIn F x h → Domi F h b

theorem mem_ops {p : Phi C} {o : Opd C} : o ∈ p.ops ↔ ∃ q, (q, o) ∈ p.inc := by
  simp [Phi.ops]

theorem Phi.has_iff {p : Phi C} {q : Nat} : p.has q = true ↔ ∃ v, (q, v) ∈ p.inc := by
  unfold Phi.has
  rw [List.any_eq_true]
  constructor
  · rintro ⟨⟨a, v⟩, h1, h2⟩; simp only [beq_iff_eq] at h2; subst h2; exact ⟨v, h1⟩
  · rintro ⟨v, h⟩; exact ⟨(q, v), h, by simp⟩

theorem Func.mem_blocks {F : Func Op C} {B : Block Op C} : B ∈ F.blocks ↔ ∃ b ∈ F.order, F.blk b = some B := by
  simp [Func.blocks, List.mem_filterMap]

theorem mem_allIds {F : Func Op C} (hl : F.Listed) {i : Nat} : i ∈ F.allIds ↔ ∃ b, DefIn F i b := by
  unfold Func.allIds DefIn
  rw [List.mem_flatMap]
  constructor
  · rintro ⟨B, hB, hi⟩
    obtain ⟨b, _, h⟩ := Func.mem_blocks.mp hB
    exact ⟨b, B, h, hi⟩
  · rintro ⟨b, B, h, hi⟩
    exact ⟨B, hl.mem h, hi⟩

/-- an instruction that occurs once has one home -/
theorem defIn_unique {F : Func Op C} (hl : F.Listed) (hu : F.allIds.Nodup) {i a b : Nat} (ha : DefIn F i a) (hb : DefIn F i b) : a = b := by
  obtain ⟨A, hA, hiA⟩ := ha
  obtain ⟨B, hB, hiB⟩ := hb
  have hma := hl a A hA
  have hmb := hl b B hB
  unfold Func.allIds Func.blocks at hu
  by_contra hne
  -- split the list of blocks at the first of the two
  have key : ∀ (l : List Nat) {a b : Nat} {A B : Block Op C}, F.blk a = some A → F.blk b = some B → i ∈ A.ids → i ∈ B.ids → a ≠ b → a ∈ l → b ∈ l →
      ¬ ((l.filterMap F.blk).flatMap Block.ids).Nodup := by
    intro l
    induction l with
    | nil => intro a b A B _ _ _ _ _ h; simp at h
    | cons x l ih =>
      intro a b A B hA hB hiA hiB hne ha hb hn
      have tail : ((l.filterMap F.blk).flatMap Block.ids).Nodup := by
        cases hx : F.blk x with
        | none => rw [List.filterMap_cons_none hx] at hn; exact hn
        | some X => rw [List.filterMap_cons_some hx, List.flatMap_cons] at hn; exact (List.nodup_append.mp hn).2.1
      have disj : ∀ {c D}, F.blk c = some D → c ∈ l → i ∈ D.ids → ∀ {X}, F.blk x = some X → i ∈ X.ids → False := by
        intro c D hD hc hi X hX hiX
        rw [List.filterMap_cons_some hX, List.flatMap_cons] at hn
        exact (List.nodup_append.mp hn).2.2 i hiX i (List.mem_flatMap.mpr ⟨D, List.mem_filterMap.mpr ⟨c, hc, hD⟩, hi⟩) rfl
      rcases List.mem_cons.mp ha with rfl | ha'
      · rcases List.mem_cons.mp hb with rfl | hb'
        · exact hne rfl
        · exact disj hB hb' hiB hA hiA
      · rcases List.mem_cons.mp hb with rfl | hb'
        · exact disj hA ha' hiA hB hiB
        · exact ih hA hB hiA hiB hne ha' hb' tail
  exact key F.order hA hB hiA hiB hne hma hmb hu

theorem home_eq {F : Func Op C} (hl : F.Listed) (hu : F.allIds.Nodup) {i b : Nat} : F.home i = some b ↔ DefIn F i b := by
  unfold Func.home
  constructor
  · intro h
    have := List.find?_some h
    split at this
    · rename_i B hB; exact ⟨B, hB, by simpa using this⟩
    · simp at this
  · intro h
    cases e : F.order.find? (fun b => match F.blk b with | some B => decide (i ∈ B.ids) | none => false) with
    | none =>
      obtain ⟨B, hB, hi⟩ := h
      have := List.find?_eq_none.mp e b (hl b B hB)
      rw [hB] at this
      simp [hi] at this
    | some c =>
      congr 1
      refine defIn_unique hl hu (i := i) ?_ h
      have := List.find?_some e
      split at this
      · rename_i B hB; exact ⟨B, hB, by simpa using this⟩
      · simp at this

theorem orderOk_iff {own : List Nat} {t : Term C} : ∀ (is : List (Inst Op C)) (dfd : List Nat), orderOk own t is dfd = true ↔
    (∀ pre i post, is = pre ++ i :: post → ∀ x, Opd.inst x ∈ i.args → x ∈ own → x ∈ dfd ∨ x ∈ pre.map Inst.id) ∧
      ∀ x, Opd.inst x ∈ t.args → x ∈ own → x ∈ dfd ∨ x ∈ is.map Inst.id := by
  intro is
  induction is with
  | nil =>
    intro dfd
    simp only [orderOk, List.all_eq_true, decide_eq_true_eq, mem_instIds]
    constructor
    · intro h
      refine ⟨?_, fun x hx ho => .inl (h x hx ho)⟩
      intro pre i post e; simp at e
    · intro h x hx ho
      rcases h.2 x hx ho with h | h
      · exact h
      · simp at h
  | cons i is ih =>
    intro dfd
    simp only [orderOk, Bool.and_eq_true, List.all_eq_true, decide_eq_true_eq, mem_instIds]
    rw [ih]
    constructor
    · rintro ⟨h1, h2, h3⟩
      refine ⟨?_, ?_⟩
      · intro pre j post e x hx ho
        cases pre with
        | nil =>
          simp only [List.nil_append, List.cons.injEq] at e
          rw [← e.1] at hx
          exact .inl (h1 x hx ho)
        | cons k pre =>
          simp only [List.cons_append, List.cons.injEq] at e
          rcases h2 pre j post e.2 x hx ho with h | h
          · rcases List.mem_cons.mp h with rfl | h
            · right; rw [← e.1]; simp
            · exact .inl h
          · right; rw [List.map_cons]; exact List.mem_cons_of_mem _ h
      · intro x hx ho
        rcases h3 x hx ho with h | h
        · rcases List.mem_cons.mp h with rfl | h
          · right; simp
          · exact .inl h
        · right; rw [List.map_cons]; exact List.mem_cons_of_mem _ h
    · rintro ⟨h1, h2⟩
      refine ⟨?_, ?_, ?_⟩
      · intro x hx ho
        rcases h1 [] i is rfl x hx ho with h | h
        · exact h
        · simp at h
      · intro pre j post e x hx ho
        rcases h1 (i :: pre) j post (by rw [e]; rfl) x hx ho with h | h
        · exact .inl (List.mem_cons_of_mem _ h)
        · rw [List.map_cons] at h
          rcases List.mem_cons.mp h with rfl | h
          · left; simp
          · exact .inr h
      · intro x hx ho
        rcases h2 x hx ho with h | h
        · exact .inl (List.mem_cons_of_mem _ h)
        · rw [List.map_cons] at h
          rcases List.mem_cons.mp h with rfl | h
          · left; simp
          · exact .inr h

theorem mem_operands {B : Block Op C} {x : Nat} : x ∈ B.operands ↔ (∃ p ∈ B.phis, Opd.inst x ∈ p.ops) ∨ (∃ i ∈ B.body, Opd.inst x ∈ i.args) ∨
    Opd.inst x ∈ B.term.args := by
  simp only [Block.operands, List.mem_append, List.mem_flatMap, mem_instIds]
  exact or_assoc

theorem live_blk {F : Func Op C} (hc : ∀ a b, Edge F a b → b ∈ F.order) (ho : ∀ b ∈ F.order, ∃ B, F.blk b = some B) (he : F.entry ∈ F.order) {b : Nat}
    (h : Live F b) : ∃ B, F.blk b = some B := by
  obtain ⟨p, hp⟩ := h
  have : ∀ {a b p}, Dom.Path (Edge F) a b p → a ∈ F.order → b ∈ F.order := by
    intro a b p h
    induction h with
    | single _ => exact id
    | cons e _ ih => exact fun _ => ih (hc _ _ e)
  exact ho b (this hp he)

/-- C38 (1): on a function whose list has no duplicates and whose blocks all exist, `verify` always gives an answer, and it accepts exactly
the well-formed functions. -/
theorem C38_verify_iff (o : Orders) (F : Func Op C) (hn : F.order.Nodup) (hl : F.Listed) (hne : F.order ≠ []) :
    ∃ r, F.verify o = some r ∧ (r = true ↔ WellFormed F) := by
  obtain ⟨t, et, hre, hdo, _, hbl, _⟩ := dom_spec o hn hl
  unfold Func.verify
  rw [if_neg hne]
  by_cases hu : F.allIds.Nodup
  · rw [if_neg (not_not.mpr hu)]
    by_cases h1 : ∀ B ∈ F.blocks, (∀ x ∈ B.term.targets, x ∈ F.order) ∧ orderOk B.ids B.term B.body (B.phis.map Phi.id) = true
    · rw [if_neg (not_not.mpr h1)]
      by_cases h2 : ∀ B ∈ F.blocks, ∀ x ∈ B.operands, x ∈ F.allIds
      · rw [if_neg (not_not.mpr h2), et]
        refine ⟨_, rfl, ?_⟩
        simp only [Bool.and_eq_true, List.all_eq_true]
        have hdomOk : ∀ {strict b x}, domOk t strict b (F.home x) = true ↔
            ∀ h, DefIn F x h → h = b ∨ (strict = false ∧ ¬ Live F h) ∨ ¬ Live F b ∨ Domi F h b := by
          intro strict b x
          cases hh : F.home x with
          | none =>
            simp only [domOk, true_iff]
            intro h hd
            rw [← home_eq hl hu, hh] at hd
            simp at hd
          | some a =>
            have ha := (home_eq hl hu).mp hh
            simp only [domOk]
            constructor
            · intro H h hd
              have := defIn_unique hl hu ha hd
              subst this
              by_cases e1 : a = b
              · exact .inl e1
              · by_cases e2 : t.reachable b = true
                · by_cases e3 : strict = false ∧ t.reachable a = false
                  · refine .inr (.inl ⟨e3.1, fun hh => ?_⟩)
                    have := (hre a).mpr hh
                    rw [e3.2] at this; simp at this
                  · have : (strict || t.reachable a) = true := by
                      cases strict <;> cases ht : t.reachable a <;> simp_all
                    have : t.dominate a b = true := by
                      simp only [this, e2, bne_iff_ne, ne_eq, e1, not_false_eq_true, Bool.and_true, Bool.true_and, Bool.not_not] at H
                      simpa [e1] using H
                    exact .inr (.inr (.inr ((hdo a b).mp this).2))
                · exact .inr (.inr (.inl (fun hh => e2 ((hre b).mpr hh))))
            · intro H
              rcases H a ha with rfl | ⟨rfl, hnl⟩ | hnl | hd
              · simp
              · have : t.reachable a = false := by
                  cases e : t.reachable a with
                  | false => rfl
                  | true => exact absurd ((hre a).mp e) hnl
                simp [this]
              · have : t.reachable b = false := by
                  cases e : t.reachable b with
                  | false => rfl
                  | true => exact absurd ((hre b).mp e) hnl
                simp [this]
              · cases e : t.reachable b with
                | false => simp
                | true =>
                  have := (hdo a b).mpr ⟨(hre b).mp e, hd⟩
                  simp [this]
        constructor
        · rintro ⟨H1, H2⟩
          have hp : ∀ b B p, F.blk b = some B → Live F b → p ∈ B.phis → phiOk (F.cfg o.cfg) t b p = true := by
            intro b B p hB hb hp
            have := H1 b ((hbl b).mpr hb)
            rw [hB] at this
            simp only [List.all_eq_true] at this
            exact this p hp
          have hd : ∀ b B, F.blk b = some B → Live F b →
              (∀ p ∈ B.phis, ∀ e ∈ p.inc, (match e.2 with | .inst i => domOk t false e.1 (F.home i) | .cst _ => true) = true) ∧
              ∀ i, ((∃ j ∈ B.body, Opd.inst i ∈ j.args) ∨ Opd.inst i ∈ B.term.args) → domOk t true b (F.home i) = true := by
            intro b B hB hb
            have := H2 b ((hbl b).mpr hb)
            rw [hB] at this
            simp only [List.all_eq_true, Bool.and_eq_true] at this
            refine ⟨this.1, fun i hi => this.2 i ?_⟩
            simp only [List.mem_append, List.mem_flatMap, mem_instIds]
            exact hi
          refine ⟨hu, ?_, ?_, ?_, ?_, ?_, ?_, ?_⟩
          · rintro a b ⟨B, hB, ht⟩
            exact (h1 B (hl.mem hB)).1 b ht
          · intro b B hB
            exact (orderOk_iff _ _).mp (h1 B (hl.mem hB)).2
          · intro b B hB x hx
            exact (mem_allIds hl).mp (h2 B (hl.mem hB) x hx)
          · intro b B p hB hb hp' q v hq
            have := hp b B p hB hb hp'
            unfold phiOk at this
            simp only [Bool.and_eq_true, List.all_eq_true, decide_eq_true_eq] at this
            exact (cfg_pred o.hcfg hn hl b q).mp (this.1 (q, v) hq)
          · intro b B p q hB hb hp' hq hql
            have := hp b B p hB hb hp'
            unfold phiOk at this
            simp only [Bool.and_eq_true, List.all_eq_true] at this
            have := this.2 q ((cfg_pred o.hcfg hn hl b q).mpr hq)
            rw [(hre q).mpr hql] at this
            simp only [Bool.not_true, Bool.false_or] at this
            exact Phi.has_iff.mp this
          · intro b B p q x h hB hb hp' hq hdef hlh hlq
            have := (hd b B hB hb).1 p hp' (q, .inst x) hq
            simp only at this
            rcases hdomOk.mp this h hdef with rfl | ⟨_, hn'⟩ | hn' | hd'
            · exact Dom.dominates_refl
            · exact absurd hlh hn'
            · exact absurd hlq hn'
            · exact hd'
          · intro b B x h hB hb hx hdef
            have := (hd b B hB hb).2 x hx
            rcases hdomOk.mp this h hdef with rfl | ⟨hf, _⟩ | hn' | hd'
            · exact Dom.dominates_refl
            · simp at hf
            · exact absurd hb hn'
            · exact hd'
        · intro W
          refine ⟨?_, ?_⟩
          · intro b hb
            have hb := (hbl b).mp hb
            cases hB : F.blk b with
            | none => rfl
            | some B =>
              simp only [List.all_eq_true]
              intro p hp
              unfold phiOk
              simp only [Bool.and_eq_true, List.all_eq_true, decide_eq_true_eq]
              refine ⟨?_, ?_⟩
              · rintro ⟨q, v⟩ he
                exact (cfg_pred o.hcfg hn hl b q).mpr (W.phiPred b B p hB hb hp q v he)
              · intro q hq
                cases hr : t.reachable q with
                | false => rfl
                | true =>
                  simp only [Bool.not_true, Bool.false_or]
                  exact Phi.has_iff.mpr (W.phiAll b B p q hB hb hp ((cfg_pred o.hcfg hn hl b q).mp hq) ((hre q).mp hr))
          · intro b hb
            have hb := (hbl b).mp hb
            cases hB : F.blk b with
            | none => rfl
            | some B =>
              simp only [List.all_eq_true, Bool.and_eq_true]
              refine ⟨?_, ?_⟩
              · rintro p hp ⟨q, v⟩ he
                cases v with
                | cst c => rfl
                | inst x =>
                  simp only
                  rw [hdomOk]
                  intro h hdef
                  by_cases hlh : Live F h
                  · by_cases hlq : Live F q
                    · exact .inr (.inr (.inr (W.phiDom b B p q x h hB hb hp he hdef hlh hlq)))
                    · exact .inr (.inr (.inl hlq))
                  · exact .inr (.inl ⟨rfl, hlh⟩)
              · intro x hx
                simp only [List.mem_append, List.mem_flatMap, mem_instIds] at hx
                rw [hdomOk]
                intro h hdef
                exact .inr (.inr (.inr (W.useDom b B x h hB hb hx hdef)))
      · rw [if_pos h2]
        refine ⟨false, rfl, by simp, fun W => absurd ?_ h2⟩
        intro B hB x hx
        obtain ⟨b, _, hb⟩ := Func.mem_blocks.mp hB
        exact (mem_allIds hl).mpr (W.exists_ b B hb x hx)
    · rw [if_pos h1]
      refine ⟨false, rfl, by simp, fun W => absurd ?_ h1⟩
      intro B hB
      obtain ⟨b, _, hb⟩ := Func.mem_blocks.mp hB
      exact ⟨fun x hx => W.closed b x ⟨B, hb, hx⟩, (orderOk_iff _ _).mpr (W.inOrder b B hb)⟩
  · rw [if_pos hu]
    exact ⟨false, rfl, by simp, fun W => absurd W.unique hu⟩

end

/-! ## what acceptance means for executions -/
section
variable {L : Lang}

/-- the body can be executed from `env` without reading the value of an instruction that has not been executed, and so can the terminator -/
def BodySafe (L : Lang) (t : Term L.C) : List (Inst L.Op L.C) → Env L → L.M → Prop
  | [], env, _ => ∀ x, Opd.inst x ∈ t.args → env x ≠ none
  | i :: is, env, m => (∀ x, Opd.inst x ∈ i.args → env x ≠ none) ∧
      ∀ vs v m' es, evals L env i.args = some vs → L.sem i.op vs m = .ok v m' es → BodySafe L t is (setEnv L env i.id v) m'

/-- the next block exists, its phis have entries for the predecessor, and everything read while executing it has been computed -/
def Safe (F : L.F) (s : St L) : Prop :=
  ∃ B, F.blk s.cur = some B ∧ (∀ p ∈ B.phis, ∃ q v, s.pred = some q ∧ (q, v) ∈ p.inc) ∧
    ∃ env, enterPhis L s.pred s.env B.phis s.env = some env ∧ BodySafe L B.term B.body env s.m

theorem path_snoc {E : Nat → Nat → Prop} {a b c : Nat} {p : List Nat} (h : Dom.Path E a b p) (e : E b c) : Dom.Path E a c (p ++ [c]) := by
  induction h with
  | single a => exact .cons e (.single c)
  | cons e' _ ih => exact .cons e' (ih e)

theorem Live.edge {Op C : Type} {F : Func Op C} {a b : Nat} (h : Live F a) (e : Edge F a b) : Live F b := by
  obtain ⟨p, hp⟩ := h
  exact ⟨_, path_snoc hp e⟩

/-- a strict dominator dominates every predecessor -/
theorem Domi.pred {Op C : Type} {F : Func Op C} {d q b : Nat} (h : Domi F d b) (hne : d ≠ b) (e : Edge F q b) : Domi F d q := by
  intro p hp
  have := h _ (path_snoc hp e)
  rw [List.mem_append, List.mem_singleton] at this
  exact this.resolve_right hne

theorem domi_entry {Op C : Type} {F : Func Op C} {d : Nat} (h : Domi F d F.entry) : d = F.entry := by
  have := h [F.entry] (.single _)
  simpa using this

/-- everything in the blocks satisfying `P` has been computed -/
def Computed (F : L.F) (env : Env L) (P : Nat → Prop) : Prop := ∀ d, P d → ∀ i, DefIn F i d → env i ≠ none

theorem setEnv_ne_none {env : Env L} {i j : Nat} {v : L.V} (h : env j ≠ none) : setEnv L env i v j ≠ none := by
  unfold setEnv
  split
  · simp
  · exact h

/-- the invariant of runs of a well-formed function -/
def Inv (F : L.F) (s : St L) : Prop :=
  match s.pred with
  | none => s.cur = F.entry
  | some q => Live F q ∧ Edge F q s.cur ∧ Computed F s.env (fun d => Domi F d q)

theorem enterPhis_some {pred : Option Nat} {old : Env L} : ∀ (ps : List (Phi L.C)) (env : Env L),
    (∀ p ∈ ps, phiVal L pred old p ≠ none) → ∃ env', enterPhis L pred old ps env = some env' ∧
      (∀ i, env i ≠ none → env' i ≠ none) ∧ ∀ p ∈ ps, env' p.id ≠ none := by
  intro ps
  induction ps with
  | nil => intro env _; exact ⟨env, rfl, fun _ h => h, by simp⟩
  | cons p ps ih =>
    intro env h
    obtain ⟨v, hv⟩ := Option.ne_none_iff_exists'.mp (h p (by simp))
    obtain ⟨env', e, h1, h2⟩ := ih (setEnv L env p.id v) (fun q hq => h q (List.mem_cons_of_mem _ hq))
    refine ⟨env', by simp only [enterPhis, hv]; exact e, fun i hi => h1 i (setEnv_ne_none hi), ?_⟩
    intro q hq
    rcases List.mem_cons.mp hq with rfl | hq
    · exact h1 _ (by simp [setEnv])
    · exact h2 q hq

theorem Phi.at_some {C : Type} {p : Phi C} {q : Nat} (h : ∃ v, (q, v) ∈ p.inc) : ∃ v, p.at q = some v ∧ (q, v) ∈ p.inc := by
  obtain ⟨v, hv⟩ := h
  unfold Phi.at
  cases e : p.inc.find? (fun e => e.1 == q) with
  | none => have := List.find?_eq_none.mp e _ hv; simp at this
  | some x =>
    have h1 := List.find?_some e
    simp only [beq_iff_eq] at h1
    refine ⟨x.2, rfl, ?_⟩
    have := List.mem_of_find?_eq_some e
    rw [← h1]; exact this

/-- executing a body: everything defined stays defined, everything in the body gets defined -/
theorem execBody_defs : ∀ (is : List (Inst L.Op L.C)) (env : Env L) (m : L.M) (es : List L.E) {env' m' es'},
    execBody L is env m es = .ok env' m' es' → (∀ i, env i ≠ none → env' i ≠ none) ∧ ∀ i ∈ is, env' i.id ≠ none := by
  intro is
  induction is with
  | nil => intro env m es env' m' es' h; simp only [execBody, BodyRes.ok.injEq] at h; rw [h.1]; exact ⟨fun _ h => h, by simp⟩
  | cons i is ih =>
    intro env m es env' m' es' h
    simp only [execBody] at h
    split at h
    · simp at h
    · split at h
      · obtain ⟨h1, h2⟩ := ih _ _ _ h
        refine ⟨fun j hj => h1 j (setEnv_ne_none hj), ?_⟩
        intro j hj
        rcases List.mem_cons.mp hj with rfl | hj
        · exact h1 _ (by simp [setEnv])
        · exact h2 j hj
      · simp at h
      · simp at h

theorem bodySafe_of {F : L.F} (W : WellFormed F) {b : Nat} {B : L.B} (hB : F.blk b = some B) (hb : Live F b) :
    ∀ (post pre : List (Inst L.Op L.C)) (env : Env L) (m : L.M), B.body = pre ++ post →
      Computed F env (fun d => Domi F d b ∧ d ≠ b) → (∀ p ∈ B.phis, env p.id ≠ none) → (∀ i ∈ pre, env i.id ≠ none) →
      BodySafe L B.term post env m := by
  intro post
  induction post with
  | nil =>
    intro pre env m e hc hp hpre x hx
    rw [List.append_nil] at e
    obtain ⟨h, hdef⟩ := W.exists_ b B hB x (mem_operands.mpr (.inr (.inr hx)))
    have hd := W.useDom b B x h hB hb (.inr hx) hdef
    by_cases hh : h = b
    · subst hh
      obtain ⟨B', hB', hi⟩ := hdef
      have := Option.some.inj (hB'.symm.trans hB)
      subst this
      rcases (W.inOrder _ _ hB).2 x hx hi with h | h
      · obtain ⟨p, hp', rfl⟩ := List.mem_map.mp h
        exact hp p hp'
      · obtain ⟨i, hi', rfl⟩ := List.mem_map.mp h
        exact hpre i (e ▸ hi')
    · exact hc h ⟨hd, hh⟩ x hdef
  | cons i post ih =>
    intro pre env m e hc hp hpre
    refine ⟨?_, ?_⟩
    · intro x hx
      have hib : i ∈ B.body := by rw [e]; simp
      obtain ⟨h, hdef⟩ := W.exists_ b B hB x (mem_operands.mpr (.inr (.inl ⟨i, hib, hx⟩)))
      have hd := W.useDom b B x h hB hb (.inl ⟨i, hib, hx⟩) hdef
      by_cases hh : h = b
      · subst hh
        obtain ⟨B', hB', hi⟩ := hdef
        have := Option.some.inj (hB'.symm.trans hB)
        subst this
        rcases (W.inOrder _ _ hB).1 pre i post e x hx hi with h | h
        · obtain ⟨p, hp', rfl⟩ := List.mem_map.mp h
          exact hp p hp'
        · obtain ⟨j, hj, rfl⟩ := List.mem_map.mp h
          exact hpre j hj
      · exact hc h ⟨hd, hh⟩ x hdef
    · intro vs v m' es _ _
      refine ih (pre ++ [i]) _ m' (by rw [e]; simp) ?_ ?_ ?_
      · intro d hd j hj
        exact setEnv_ne_none (hc d hd j hj)
      · intro p hp'
        exact setEnv_ne_none (hp p hp')
      · intro j hj
        rcases List.mem_append.mp hj with hj | hj
        · exact setEnv_ne_none (hpre j hj)
        · simp only [List.mem_singleton] at hj
          subst hj
          simp [setEnv]

section
variable {F : L.F} (W : WellFormed F) (ho : ∀ b ∈ F.order, ∃ B, F.blk b = some B) (he : F.entry ∈ F.order)
  (hent : ∀ B, F.blk F.entry = some B → B.phis = [])
  (hdead : ∀ b B p x h, F.blk b = some B → Live F b → p ∈ B.phis → Opd.inst x ∈ p.ops → DefIn F x h → Live F h)
include W ho he hent hdead

theorem inv_live {s : St L} (h : Inv F s) : Live F s.cur := by
  unfold Inv at h
  split at h
  · rw [h]; exact ⟨_, .single _⟩
  · exact h.1.edge h.2.1

/-- entering a block: the phis get values and everything in strictly dominating blocks is there -/
theorem inv_phis {s : St L} (h : Inv F s) : ∃ B, F.blk s.cur = some B ∧ (∀ p ∈ B.phis, ∃ q v, s.pred = some q ∧ (q, v) ∈ p.inc) ∧
    ∃ env, enterPhis L s.pred s.env B.phis s.env = some env ∧ Computed F env (fun d => Domi F d s.cur ∧ d ≠ s.cur) ∧
      ∀ p ∈ B.phis, env p.id ≠ none := by
  have hb := inv_live W ho he hent hdead h
  obtain ⟨B, hB⟩ := live_blk W.closed ho he hb
  refine ⟨B, hB, ?_⟩
  unfold Inv at h
  cases hp : s.pred with
  | none =>
    rw [hp] at h
    simp only at h
    have hph := hent B (h ▸ hB)
    rw [hph]
    refine ⟨by simp, s.env, rfl, ?_, by simp⟩
    rintro d ⟨hd, hne⟩
    rw [h] at hd hne
    exact absurd (domi_entry hd) hne
  | some q =>
    rw [hp] at h
    obtain ⟨hq, heq, hcomp⟩ := h
    have hall : ∀ p ∈ B.phis, ∃ v, (q, v) ∈ p.inc := fun p hp' => W.phiAll _ B p q hB hb hp' heq hq
    refine ⟨fun p hp' => ⟨q, (hall p hp').choose, rfl, (hall p hp').choose_spec⟩, ?_⟩
    obtain ⟨env, e, h1, h2⟩ := enterPhis_some (L := L) (pred := some q) (old := s.env) B.phis s.env (by
      intro p hp'
      obtain ⟨v, hat, hv⟩ := Phi.at_some (hall p hp')
      simp only [phiVal, hat]
      cases v with
      | cst c => simp [eval]
      | inst x =>
        simp only [eval]
        have hx : Opd.inst x ∈ p.ops := mem_ops.mpr ⟨q, hv⟩
        obtain ⟨hh, hdef⟩ := W.exists_ _ B hB x (mem_operands.mpr (.inl ⟨p, hp', hx⟩))
        exact hcomp hh (W.phiDom _ B p q x hh hB hb hp' hv hdef (hdead _ B p x hh hB hb hp' hx hdef) hq) x hdef)
    refine ⟨env, e, ?_, h2⟩
    rintro d ⟨hd, hne⟩ i hi
    exact h1 i (hcomp d (hd.pred hne heq) i hi)

theorem inv_safe {s : St L} (h : Inv F s) : Safe F s := by
  obtain ⟨B, hB, hp, env, e, hc, hph⟩ := inv_phis W ho he hent hdead h
  exact ⟨B, hB, hp, env, e, bodySafe_of W hB (inv_live W ho he hent hdead h) B.body [] env s.m rfl hc hph (by simp)⟩

theorem inv_step {s s' : St L} (h : Inv F s) (hs : step L F s = .inl s') : Inv F s' := by
  obtain ⟨B, hB, hp, env, e, hc, hph⟩ := inv_phis W ho he hent hdead h
  have hb := inv_live W ho he hent hdead h
  obtain ⟨hpred, B1, hB1, ht⟩ := step_target hs
  unfold Inv
  rw [hpred]
  refine ⟨hb, ⟨B1, hB1, ht⟩, ?_⟩
  unfold step at hs
  rw [hB] at hs
  simp only [stepBlk, e] at hs
  split at hs
  · simp at hs
  · simp at hs
  · rename_i env2 m2 es2 hbody
    obtain ⟨k1, k2⟩ := execBody_defs _ _ _ _ hbody
    split at hs
    · simp at hs
    · simp at hs
    · simp only [Sum.inl.injEq] at hs
      subst hs
      intro d hd i hi
      by_cases hne : d = s.cur
      · subst hne
        obtain ⟨B', hB', hi⟩ := hi
        have := Option.some.inj (hB'.symm.trans hB)
        subst this
        rcases List.mem_append.mp hi with hi | hi
        · obtain ⟨p, hp', rfl⟩ := List.mem_map.mp hi
          exact k1 _ (hph p hp')
        · obtain ⟨j, hj, rfl⟩ := List.mem_map.mp hi
          exact k2 j hj
      · exact k1 i (hc d ⟨hd, hne⟩ i hi)

theorem inv_run : ∀ (n : Nat) {s s' : St L}, Inv F s → run L F n s = .inl s' → Inv F s' := by
  intro n
  induction n with
  | zero => intro s s' h hr; simp only [run, Sum.inl.injEq] at hr; rw [← hr]; exact h
  | succ n ih =>
    intro s s' h hr
    simp only [run] at hr
    split at hr
    · rename_i t ht
      exact ih (inv_step W ho he hent hdead h ht) hr
    · simp at hr

end

/-- C38 (2): in a function accepted by `verify` no run ever jumps to a missing block, lacks a phi entry for the edge taken, or reads the
result of an instruction that has not been executed. Two things `verify` does not check are needed: the entry block has no phis
(nothing may jump there: assertion at CFGAnalysis.cpp:54), and phis in live blocks do not use values from dead blocks (l.283 lets
them pass). -/
theorem C38_verify_sound (o : Orders) (F : L.F) (hn : F.order.Nodup) (hl : F.Listed) (ho : ∀ b ∈ F.order, ∃ B, F.blk b = some B)
    (he : F.entry ∈ F.order) (hv : F.verify o = some true)
    (hent : ∀ B, F.blk F.entry = some B → B.phis = [])
    (hdead : ∀ b B p x h, F.blk b = some B → Live F b → p ∈ B.phis → Opd.inst x ∈ p.ops → DefIn F x h → Live F h) :
    ∀ m n s, run L F n (start L F m) = .inl s → Safe F s := by
  have W : WellFormed F := by
    obtain ⟨r, hr, hw⟩ := C38_verify_iff o F hn hl (by intro h; rw [h] at he; simp at he)
    rw [hv] at hr
    exact hw.mp (Option.some.inj hr).symm
  intro m n s hs
  refine inv_safe W ho he hent hdead (inv_run W ho he hent hdead n ?_ hs)
  unfold Inv start
  rfl

end

/-! ## witnesses -/
namespace Ex

/-- hash containers walked in insertion order -/
def ordId : Orders := ⟨fun _ l => l, fun _ l => l, fun _ l => l, fun _ _ => .refl _, fun _ _ => .refl _, fun _ _ => .refl _⟩

/-- the hypotheses of `C38_verify_sound` hold of the loop -/
example : loop.order.Nodup ∧ loop.Listed ∧ (∀ b ∈ loop.order, ∃ B, loop.blk b = some B) ∧ loop.entry ∈ loop.order ∧
    loop.verify ordId = some true ∧ (∀ B, loop.blk loop.entry = some B → B.phis = []) := by
  refine ⟨by decide, mk_listed _, ?_, by decide, by decide +kernel, ?_⟩
  · intro b hb
    simp only [loop, mk, List.map_cons, List.map_nil, List.mem_cons, List.not_mem_nil, or_false] at hb
    rcases hb with rfl | rfl | rfl <;> exact ⟨_, rfl⟩
  · intro B hB
    have : some B = some ⟨[], [], .cbr (.cst 1) 1 2⟩ := hB.symm
    rw [Option.some.inj this]

/-- and of its phis: all blocks are live -/
theorem loop_live : ∀ b B, loop.blk b = some B → Live loop b := by
  have e01 : Edge loop 0 1 := ⟨_, rfl, by decide⟩
  have e02 : Edge loop 0 2 := ⟨_, rfl, by decide⟩
  intro b B hB
  have hb : b ∈ loop.order := mk_listed _ b B hB
  simp only [loop, mk, List.map_cons, List.map_nil, List.mem_cons, List.not_mem_nil, or_false] at hb
  rcases hb with rfl | rfl | rfl
  · exact ⟨_, .single _⟩
  · exact ⟨_, .cons e01 (.single _)⟩
  · exact ⟨_, .cons e02 (.single _)⟩

/-- a use that the definition does not dominate is rejected -/
example : (mk [(0, ⟨[], [], .cbr (.cst 1) 1 2⟩), (1, ⟨[], [⟨10, .add, [.cst 1, .cst 1]⟩], .br 2⟩),
    (2, ⟨[], [], .ret (some (.inst 10))⟩)]).verify ordId = some false := by decide +kernel

/-- a phi of a live block that uses a value from a dead block is accepted, although the run reads a value that was never computed -/
def deadPhi : Func XOp Int := mk
  [(0, ⟨[], [], .br 1⟩), (1, ⟨[⟨10, [(0, .inst 20)]⟩], [], .ret (some (.inst 10))⟩), (2, ⟨[], [⟨20, .add, [.cst 1, .cst 1]⟩], .br 2⟩)]

theorem C38_dead_operand_accepted (m : Int → Int) : deadPhi.verify ordId = some true ∧
    ∃ n s, run X deadPhi n (start X deadPhi m) = .inl s ∧ ¬ Safe (L := X) deadPhi s := by
  refine ⟨by decide +kernel, 1, ⟨some 0, 1, fun _ => none, m, []⟩, rfl, ?_⟩
  rintro ⟨B, hB, _, env, henv, _⟩
  have : B = ⟨[⟨10, [(0, .inst 20)]⟩], [], .ret (some (.inst 10))⟩ := (Option.some.inj hB).symm
  subst this
  have : (none : Option (Env X)) = some env := henv
  simp at this

end Ex
end Cmmc.SSA
