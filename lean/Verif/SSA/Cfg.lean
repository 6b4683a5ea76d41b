import Verif.SSA.Dce
import Verif.SSA.Ex
import Verif.Dom.Props
/-!
# CFGAnalysis (cmmc/Analysis/CFGAnalysis.cpp): C32, and dominators of a function
-/
namespace Cmmc.SSA
open Cmmc.SCC (upd)
section
variable {Op C : Type}

/-- `CFGAnalysisResult`: `mInfo[b].successors`, `mInfo[b].predecessors`; an absent key reads as empty -/
structure CFG where
  succ : Nat → List Nat
  pred : Nat → List Nat

/-- `getUniqueSuccessors` (Instruction.cpp:991-998) walked in the arbitrary order `ord` of the hash set, or the targets of a branch
(CFGAnalysis.cpp:33-49) -/
def succList (ord : List Nat → List Nat) : Term C → List Nat
  | .br t => [t]
  | .cbr _ t f => if f ≠ t then [t, f] else [t]
  | .sw c d cs => ord (Term.targets (.sw c d cs)).dedup
  | _ => []

/-- `self.successors.emplace_back(target); storage[target].predecessors.emplace_back(block);` (l.38-39, 45-46, 48-49) -/
def CFG.link (b : Nat) : List Nat → CFG → CFG
  | [], g => g
  | t :: ts, g => CFG.link b ts { succ := upd g.succ b (g.succ b ++ [t]), pred := upd g.pred t (g.pred t ++ [b]) }

/-- the loop of `CFGAnalysis::run` (l.29-53) -/
def cfgLoop (ord : Nat → List Nat → List Nat) (F : Func Op C) : List Nat → CFG → CFG
  | [], g => g
  | b :: bs, g =>
    match F.blk b with
    | none => cfgLoop ord F bs g
    | some B => cfgLoop ord F bs (CFG.link b (succList (ord b) B.term) g)

/-- `CFGAnalysis::run` (l.26-56) -/
def Func.cfg (ord : Nat → List Nat → List Nat) (F : Func Op C) : CFG := cfgLoop ord F F.order { succ := fun _ => [], pred := fun _ => [] }

/-- a branch of block `a` goes to block `b` -/
def Edge (F : Func Op C) (a b : Nat) : Prop := ∃ B, F.blk a = some B ∧ b ∈ B.term.targets

theorem succList_mem {ord : List Nat → List Nat} (ho : ∀ l, (ord l).Perm l) (t : Term C) (x : Nat) : x ∈ succList ord t ↔ x ∈ t.targets := by
  cases t with
  | ret v => simp [succList, Term.targets]
  | br t => simp [succList, Term.targets]
  | cbr c t f =>
    simp only [succList, Term.targets]
    split
    · rfl
    · rename_i h; simp only [ne_eq, Decidable.not_not] at h; simp [h]
  | sw c d cs => simp only [succList]; rw [(ho _).mem_iff, List.mem_dedup]
  | unreachable => simp [succList, Term.targets]

theorem succList_nodup {ord : List Nat → List Nat} (ho : ∀ l, (ord l).Perm l) (t : Term C) : (succList ord t).Nodup := by
  cases t with
  | ret v => simp [succList]
  | br t => simp [succList]
  | cbr c t f =>
    simp only [succList]
    split
    · rename_i h; simpa using Ne.symm h
    · simp
  | sw c d cs => simp only [succList]; exact (ho _).nodup_iff.mpr (List.nodup_dedup _)
  | unreachable => simp [succList]

theorem link_succ (b : Nat) : ∀ (ts : List Nat) (g : CFG) (x : Nat), (CFG.link b ts g).succ x = if x = b then g.succ x ++ ts else g.succ x := by
  intro ts
  induction ts with
  | nil => intro g x; simp [CFG.link]
  | cons t ts ih =>
    intro g x
    simp only [CFG.link]
    rw [ih]
    by_cases h : x = b
    · simp [h, upd]
    · simp [h, upd]

theorem link_pred (b : Nat) : ∀ (ts : List Nat), ts.Nodup → ∀ (g : CFG) (x : Nat),
    (CFG.link b ts g).pred x = if x ∈ ts then g.pred x ++ [b] else g.pred x := by
  intro ts
  induction ts with
  | nil => intro _ g x; simp [CFG.link]
  | cons t ts ih =>
    intro hn g x
    rw [List.nodup_cons] at hn
    simp only [CFG.link]
    rw [ih hn.2]
    by_cases h : x = t
    · subst h; simp [upd, hn.1]
    · simp [h, upd]

theorem cfgLoop_succ {ord : Nat → List Nat → List Nat} (F : Func Op C) : ∀ (bs : List Nat), bs.Nodup → ∀ (g : CFG) (x : Nat),
    (cfgLoop ord F bs g).succ x = if x ∈ bs then g.succ x ++ (match F.blk x with | some B => succList (ord x) B.term | none => []) else g.succ x := by
  intro bs
  induction bs with
  | nil => intro _ g x; simp [cfgLoop]
  | cons b bs ih =>
    intro hn g x
    rw [List.nodup_cons] at hn
    simp only [cfgLoop]
    cases hb : F.blk b with
    | none =>
      simp only
      rw [ih hn.2]
      by_cases h : x = b
      · subst h; simp [hn.1, hb]
      · simp [h]
    | some B =>
      simp only
      rw [ih hn.2, link_succ]
      by_cases h : x = b
      · subst h; simp [hn.1, hb]
      · simp [h]

/-- block `b` can jump to `x` -/
def Func.jumps (F : Func Op C) (x b : Nat) : Bool := match F.blk b with | some B => decide (x ∈ B.term.targets) | none => false

theorem cfgLoop_pred {ord : Nat → List Nat → List Nat} (ho : ∀ b l, (ord b l).Perm l) (F : Func Op C) : ∀ (bs : List Nat) (g : CFG) (x : Nat),
    (cfgLoop ord F bs g).pred x = g.pred x ++ bs.filter (F.jumps x) := by
  intro bs
  induction bs with
  | nil => intro g x; simp [cfgLoop]
  | cons b bs ih =>
    intro g x
    simp only [cfgLoop]
    cases hb : F.blk b with
    | none =>
      have : F.jumps x b = false := by simp [Func.jumps, hb]
      simp only
      rw [ih]; simp [this]
    | some B =>
      simp only
      rw [ih, link_pred b _ (succList_nodup (ho b) _)]
      simp only [succList_mem (ho b)]
      by_cases h : x ∈ B.term.targets
      · have : F.jumps x b = true := by simp [Func.jumps, hb, h]
        simp [h, this]
      · have : F.jumps x b = false := by simp [Func.jumps, hb, h]
        simp [h, this]

end

section
variable {Op C : Type} {ord : Nat → List Nat → List Nat} (ho : ∀ b l, (ord b l).Perm l) {F : Func Op C} (hn : F.order.Nodup)
  (hl : F.Listed)
include ho hn hl

theorem cfg_succ (b x : Nat) : x ∈ (F.cfg ord).succ b ↔ Edge F b x := by
  unfold Func.cfg Edge
  rw [cfgLoop_succ F _ hn]
  split
  · cases hB : F.blk b with
    | none => simp
    | some B => simp [succList_mem (ho b)]
  · rename_i h
    simp only [List.not_mem_nil, false_iff, not_exists, not_and]
    intro B hB _
    exact h (hl b B hB)

theorem cfg_pred (b x : Nat) : x ∈ (F.cfg ord).pred b ↔ Edge F x b := by
  unfold Func.cfg Edge
  rw [cfgLoop_pred ho F]
  simp only [List.nil_append, List.mem_filter]
  constructor
  · rintro ⟨_, h⟩
    unfold Func.jumps at h
    split at h
    · rename_i B hB; exact ⟨B, hB, by simpa using h⟩
    · simp at h
  · rintro ⟨B, hB, ht⟩
    exact ⟨hl x B hB, by simp [Func.jumps, hB, ht]⟩

/-- C32: in every function, `successors(b)` lists exactly the blocks that `b`'s terminator can jump to, each once; `predecessors(b)` lists
exactly the blocks that can jump to `b`, each once; so `s` is a successor of `b` iff `b` is a predecessor of `s`. The final assertion
holds iff nothing jumps to the entry. -/
theorem C32_cfg :
    (∀ b x, x ∈ (F.cfg ord).succ b ↔ ∃ B, F.blk b = some B ∧ x ∈ B.term.targets) ∧
    (∀ b x, x ∈ (F.cfg ord).pred b ↔ ∃ B, F.blk x = some B ∧ b ∈ B.term.targets) ∧
    (∀ b, ((F.cfg ord).succ b).Nodup ∧ ((F.cfg ord).pred b).Nodup) ∧
    (∀ a b, ((F.cfg ord).succ a).count b = ((F.cfg ord).pred b).count a) ∧
    ((F.cfg ord).pred F.entry = [] ↔ ∀ b B, F.blk b = some B → F.entry ∉ B.term.targets) := by
  have hsn : ∀ b, ((F.cfg ord).succ b).Nodup := by
    intro b
    unfold Func.cfg
    rw [cfgLoop_succ F _ hn]
    split
    · cases hB : F.blk b with
      | none => simp
      | some B => simp only [List.nil_append]; exact succList_nodup (ho b) _
    · simp
  have hpn : ∀ b, ((F.cfg ord).pred b).Nodup := by
    intro b
    unfold Func.cfg
    rw [cfgLoop_pred ho F]
    simp only [List.nil_append]
    exact hn.filter _
  refine ⟨fun b x => cfg_succ ho hn hl b x, fun b x => cfg_pred ho hn hl b x, fun b => ⟨hsn b, hpn b⟩, ?_, ?_⟩
  · intro a b
    by_cases h : Edge F a b
    · rw [List.count_eq_one_of_mem (hsn a) ((cfg_succ ho hn hl a b).mpr h), List.count_eq_one_of_mem (hpn b) ((cfg_pred ho hn hl b a).mpr h)]
    · rw [List.count_eq_zero.mpr (fun hh => h ((cfg_succ ho hn hl a b).mp hh)), List.count_eq_zero.mpr (fun hh => h ((cfg_pred ho hn hl b a).mp hh))]
  · rw [List.eq_nil_iff_forall_not_mem]
    constructor
    · intro h b B hB ht
      exact h b ((cfg_pred ho hn hl _ _).mpr ⟨B, hB, ht⟩)
    · intro h x hx
      obtain ⟨B, hB, ht⟩ := (cfg_pred ho hn hl _ _).mp hx
      exact h x B hB ht

end

/-! ## dominators -/
section
variable {Op C : Type}

/-- a bound on all block numbers of a function -/
def Func.bound (F : Func Op C) : Nat := (F.entry :: (F.order ++ F.blocks.flatMap (fun B => B.term.targets))).foldl max 0 + 1

theorem le_foldl_max : ∀ (l : List Nat) (a : Nat), a ≤ l.foldl max a ∧ ∀ x ∈ l, x ≤ l.foldl max a := by
  intro l
  induction l with
  | nil => intro a; simp
  | cons y l ih =>
    intro a
    obtain ⟨h1, h2⟩ := ih (max a y)
    simp only [List.foldl_cons]
    refine ⟨by omega, ?_⟩
    intro x hx
    rcases List.mem_cons.mp hx with rfl | hx
    · omega
    · exact h2 x hx

/-- the orders in which hash containers are walked -/
structure Orders where
  cfg : Nat → List Nat → List Nat
  g : Nat → List Nat → List Nat
  idom : Nat → List Nat → List Nat
  hcfg : ∀ u l, (cfg u l).Perm l
  hg : ∀ u l, (g u l).Perm l
  hidom : ∀ u l, (idom u l).Perm l

/-- `analysis.get<DominateAnalysis>(func)` -/
def Func.dom (o : Orders) (F : Func Op C) : Option Dom.TS := Dom.run o.g o.idom F.bound (F.cfg o.cfg).succ F.entry

/-- `dom.blocks()` -/
def domBlocks (t : Dom.TS) : List Nat := (List.range t.cnt).map (fun i => (t.node i).block)

/-- the analysis answers questions about reachability and dominance in the function -/
theorem dom_spec (o : Orders) {F : Func Op C} (hn : F.order.Nodup) (hl : F.Listed) : ∃ t, F.dom o = some t ∧
    (∀ x, t.reachable x = true ↔ Dom.Reachable (Edge F) F.entry x) ∧
    (∀ a b, t.dominate a b = true ↔ (Dom.Reachable (Edge F) F.entry b ∧ Dom.Dominates (Edge F) F.entry a b)) ∧
    (domBlocks t).Nodup ∧ (∀ x, x ∈ domBlocks t ↔ Dom.Reachable (Edge F) F.entry x) ∧
    ∀ (a b i j : Nat), (domBlocks t)[i]? = some a → (domBlocks t)[j]? = some b → Dom.Dominates (Edge F) F.entry a b → i ≤ j := by
  have he : Dom.Edge (F.cfg o.cfg).succ = Edge F := by
    funext a b
    exact propext (cfg_succ o.hcfg hn hl a b)
  have hv : ∀ u v, v ∈ (F.cfg o.cfg).succ u → v < F.bound := by
    intro u v h
    obtain ⟨B, hB, ht⟩ := (cfg_succ o.hcfg hn hl u v).mp h
    have := (le_foldl_max (F.entry :: (F.order ++ F.blocks.flatMap (fun B => B.term.targets))) 0).2 v (by
      refine List.mem_cons_of_mem _ (List.mem_append.mpr (.inr (List.mem_flatMap.mpr ⟨B, hl.mem hB, ht⟩)))
      )
    unfold Func.bound
    omega
  have hr : F.entry < F.bound := by
    have := (le_foldl_max (F.entry :: (F.order ++ F.blocks.flatMap (fun B => B.term.targets))) 0).2 F.entry (by simp)
    unfold Func.bound
    omega
  obtain ⟨t, e, h1, _, _⟩ := Dom.C30_immediate_dominators o.g o.idom o.hg o.hidom hv hr
  obtain ⟨t', e', h2⟩ := Dom.C29_dominate o.g o.idom o.hg o.hidom hv hr
  obtain ⟨t'', e'', h3⟩ := Dom.C29_blocks_order o.g o.idom o.hg o.hidom hv hr
  rw [e] at e' e''
  simp only [Option.some.injEq] at e' e''
  subst e' e''
  rw [he] at h1 h2 h3
  exact ⟨t, e, h1, h2, h3.1, h3.2.1, h3.2.2⟩

end

/-! non-vacuity: the loop of `Ex` -/
example : Ex.loop.order.Nodup ∧ Ex.loop.Listed ∧ (Ex.loop.cfg (fun _ l => l)).succ 1 = [1, 2] ∧
    (Ex.loop.cfg (fun _ l => l)).pred 2 = [0, 1] := ⟨by decide, Ex.mk_listed _, by decide +kernel, by decide +kernel⟩

end Cmmc.SSA
