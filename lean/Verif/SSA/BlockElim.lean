import Verif.SSA.Sub
import Verif.SSA.Edit
import Verif.SSA.ExProper
/-!
# BlockEliminate (cmmc/Transforms/DCE/BlockEliminate.cpp:36-115) and UnreachableEliminate: C63

Blocks that cannot be reached from the entry are found by a breadth-first search and dropped; what they computed is replaced by undefined
values, and their entries are removed from the phis of the remaining blocks.
-/
namespace Cmmc.SSA

section
variable {Op C : Type}

/-- the successors the search follows (l.48-70) -/
def Func.succs (F : Func Op C) (b : Nat) : List Nat := match F.blk b with | some B => B.term.targets | none => []

/-- `inst.replaceWith(make<UndefinedValue>(inst.getType()))` for the instructions `ids` (l.88-90); `u i` is the undefined value of the type of `i` -/
def undefOf (u : Nat → C) (ids : List Nat) : Nat → Opd C := fun x => if x ∈ ids then .cst (u x) else .inst x

/-- one iteration of the loop over the removed blocks (l.87-111); `r` are the reachable blocks -/
def elimOne (u : Nat → C) (r : List Nat) (F : Func Op C) (b : Nat) : Func Op C :=
  match F.blk b with
  | none => F
  | some B =>
    let G := (B.term.targets.filter (fun t => decide (t ∈ r))).foldl (fun G t => G.removePhi b t) (F.sub (undefOf u B.ids))
    { G with blk := fun x => if x = b then none else G.blk x }

/-- `BlockEliminate::run` (l.36-115) -/
def blockEliminate (u : Nat → C) (F : Func Op C) : Option (Func Op C) :=
  (bfs F.succs F.order.length [F.entry] [F.entry]).map fun r =>
    if F.order.length = r.length then F
    else (F.order.filter (fun b => decide (b ∉ r))).foldl (elimOne u r) { F with order := F.order.filter (fun b => decide (b ∈ r)) }

/-! ## what the pass needs and what it leaves behind -/

/-- the blocks of the function are listed once and jump to blocks of the function -/
structure Shape (F : Func Op C) : Prop where
  nodup : F.order.Nodup
  listed : F.Listed
  total : ∀ b ∈ F.order, ∃ B, F.blk b = some B
  entryIn : F.entry ∈ F.order
  closed : ∀ a b, Edge F a b → b ∈ F.order
  unique : F.allIds.Nodup

/-- live code is in SSA form; nothing is required of dead code except that the phis of a live block treat its predecessors alike -/
structure LiveWf (F : Func Op C) : Prop extends Shape F where
  entryPhis : ∀ B, F.blk F.entry = some B → B.phis = []
  inOrder : ∀ b B, F.blk b = some B → Live F b → InOrder B
  use : ∀ b B x, F.blk b = some B → Live F b → ((∃ i ∈ B.body, Opd.inst x ∈ i.args) ∨ Opd.inst x ∈ B.term.args) → ∃ h, DefIn F x h ∧ Domi F h b
  phiUse : ∀ b B p q x, F.blk b = some B → Live F b → p ∈ B.phis → (q, Opd.inst x) ∈ p.inc → Live F q → ∃ h, DefIn F x h ∧ Domi F h q
  phiPred : ∀ b B p, F.blk b = some B → Live F b → p ∈ B.phis → ∀ q v, (q, v) ∈ p.inc → Edge F q b
  phiAll : ∀ b B p q, F.blk b = some B → Live F b → p ∈ B.phis → Edge F q b → Live F q → ∃ v, (q, v) ∈ p.inc
  phiDead : ∀ b B p p' q v, F.blk b = some B → Live F b → p ∈ B.phis → p' ∈ B.phis → (q, v) ∈ p.inc → ∃ v', (q, v') ∈ p'.inc

theorem Proper.shape {F : Func Op C} (P : Proper F) : Shape F := ⟨P.nodup, P.listed, P.total, P.entryIn, P.closed, P.unique⟩

/-! ## the search -/

theorem succs_edge {F : Func Op C} {a b : Nat} : b ∈ F.succs a ↔ Edge F a b := by
  unfold Func.succs Edge
  cases h : F.blk a with
  | none => simp
  | some B => simp

theorem reach_live {F : Func Op C} {b : Nat} : Relation.ReflTransGen (fun a b => b ∈ F.succs a) F.entry b ↔ Live F b := by
  constructor
  · intro h
    induction h with
    | refl => exact ⟨_, .single _⟩
    | tail _ e ih => exact ih.edge (succs_edge.1 e)
  · rintro ⟨p, hp⟩
    revert hp
    generalize F.entry = a
    intro hp
    induction hp with
    | single _ => exact .refl
    | cons e _ ih => exact .head (succs_edge.2 e) ih

theorem search_spec {F : Func Op C} (S : Shape F) : ∃ r, bfs F.succs F.order.length [F.entry] [F.entry] = some r ∧ r.Nodup ∧
    (∀ b ∈ r, b ∈ F.order) ∧ ∀ b, b ∈ r ↔ Live F b := by
  obtain ⟨r, h1, h2, h3, h4⟩ := bfs_reach (next := F.succs) (U := F.order) (S := [F.entry]) (fun a ha b hb => S.closed a b (succs_edge.1 hb))
    (by simp) (by simpa using S.entryIn)
  refine ⟨r, h1, h2, h3, fun b => ?_⟩
  rw [h4]
  simp only [List.mem_singleton, exists_eq_left]
  exact reach_live

/-! ## phis -/

/-- the entries from blocks of `r` -/
def Phi.only (r : List Nat) (p : Phi C) : List (Nat × Opd C) := p.inc.filter (fun e => decide (e.1 ∈ r))

/-- `p'` is `p` after some entries from outside `r` were dropped or changed, with `σ` applied to the others -/
structure PhiRel (r : List Nat) (σ : Nat → Opd C) (p p' : Phi C) : Prop where
  id : p'.id = p.id
  only : p'.only r = (p.only r).map (fun e => (e.1, e.2.sub σ))

theorem Phi.at_only {r : List Nat} {q : Nat} (hq : q ∈ r) (p : Phi C) : p.at q = (Phi.mk p.id (p.only r)).at q := by
  unfold Phi.at Phi.only
  rw [List.find?_filter]
  congr 1
  have : (fun a : Nat × Opd C => decide (decide (a.1 ∈ r) = true ∧ (a.1 == q) = true)) = (fun e => e.1 == q) := by
    funext a
    by_cases hb : a.1 = q
    · simp [hb, hq]
    · simp [hb]
  rw [this]

theorem Phi.at_map (f : Opd C → Opd C) (i : Nat) (l : List (Nat × Opd C)) (q : Nat) :
    (Phi.mk i (l.map (fun e => (e.1, f e.2)))).at q = ((Phi.mk i l).at q).map f := by
  unfold Phi.at
  induction l with
  | nil => rfl
  | cons e l ih =>
    simp only [List.map_cons, List.find?_cons]
    by_cases h : e.1 == q
    · simp [h]
    · simp only [h]; exact ih

theorem PhiRel.at {r : List Nat} {σ : Nat → Opd C} {p p' : Phi C} (h : PhiRel r σ p p') {q : Nat} (hq : q ∈ r) : p'.at q = (p.at q).map (Opd.sub σ) := by
  rw [Phi.at_only hq p', Phi.at_only hq p, h.only]
  exact Phi.at_map _ _ _ _

theorem Phi.only_removeSource {r : List Nat} {b : Nat} (hb : b ∉ r) (p : Phi C) : (p.removeSource b).only r = p.only r := by
  unfold Phi.only Phi.removeSource
  rw [List.filter_filter]
  apply List.filter_congr
  intro e _
  by_cases h : e.1 ∈ r
  · have : e.1 ≠ b := fun h' => hb (h' ▸ h)
    simp [h, this]
  · simp [h]

theorem Phi.only_sub (r : List Nat) (σ : Nat → Opd C) (p : Phi C) : (p.sub σ).only r = (p.only r).map (fun e => (e.1, e.2.sub σ)) := by
  unfold Phi.only Phi.sub
  rw [List.filter_map]
  rfl

theorem removePhis_rel {b : Nat} {r : List Nat} (hb : b ∉ r) : ∀ ps : List (Phi C), List.Forall₂ (fun p p' => p'.id = p.id ∧ p'.only r = p.only r) ps (removePhis b ps) := by
  intro ps
  induction ps with
  | nil => exact .nil
  | cons p ps ih =>
    simp only [removePhis]
    split
    · exact .cons ⟨rfl, Phi.only_removeSource hb p⟩ ih
    · exact List.forall₂_same.2 (fun x _ => ⟨rfl, rfl⟩)

theorem removePhis_iter_rel {b : Nat} {r : List Nat} (hb : b ∉ r) (n : Nat) : ∀ ps : List (Phi C),
    List.Forall₂ (fun p p' => p'.id = p.id ∧ p'.only r = p.only r) ps ((removePhis b)^[n] ps) := by
  induction n with
  | zero => intro ps; exact List.forall₂_same.2 (fun x _ => ⟨rfl, rfl⟩)
  | succ n ih =>
    intro ps
    rw [Function.iterate_succ_apply]
    have h1 := removePhis_rel hb ps
    have h2 := ih (removePhis b ps)
    revert h2
    generalize (removePhis b)^[n] (removePhis b ps) = qs
    revert h1
    generalize removePhis b ps = ms
    intro h1 h2
    induction h1 generalizing qs with
    | nil => cases h2; exact .nil
    | cons e _ ih' =>
      cases h2 with
      | cons e' h2' => exact .cons ⟨e'.1.trans e.1, e'.2.trans e.2⟩ (ih' _ h2')

/-- the phis have the same dead predecessors -/
def Alike (b : Nat) (ps : List (Phi C)) : Prop := (∀ p ∈ ps, p.has b = true) ∨ (∀ p ∈ ps, p.has b = false)

theorem removePhis_all {b : Nat} : ∀ {ps : List (Phi C)}, (∀ p ∈ ps, p.has b = true) → removePhis b ps = ps.map (fun p => p.removeSource b) := by
  intro ps
  induction ps with
  | nil => intro _; rfl
  | cons p ps ih =>
    intro h
    simp only [removePhis, h p (by simp), if_true, List.map_cons]
    rw [ih (fun q hq => h q (List.mem_cons_of_mem _ hq))]

theorem removePhis_none {b : Nat} {ps : List (Phi C)} (h : ∀ p ∈ ps, p.has b = false) : removePhis b ps = ps := by
  cases ps with
  | nil => rfl
  | cons p ps => simp [removePhis, h p (by simp)]

theorem Phi.has_removeSource (p : Phi C) (b q : Nat) : (p.removeSource b).has q = (p.has q && decide (q ≠ b)) := by
  rw [Bool.eq_iff_iff, Phi.has_iff, Bool.and_eq_true, Phi.has_iff]
  unfold Phi.removeSource
  simp only [List.mem_filter, decide_eq_true_eq]
  constructor
  · rintro ⟨v, h1, h2⟩; exact ⟨⟨v, h1⟩, h2⟩
  · rintro ⟨⟨v, h1⟩, h2⟩; exact ⟨v, h1, h2⟩

theorem Phi.has_sub (p : Phi C) (σ : Nat → Opd C) (q : Nat) : (p.sub σ).has q = p.has q := by
  unfold Phi.has Phi.sub
  rw [List.any_map]
  rfl

/-- after at least one pass over phis with the same dead predecessors no entry for `b` is left -/
theorem removePhis_iter_alike {b : Nat} {ps : List (Phi C)} (h : Alike b ps) (n : Nat) :
    (removePhis b)^[n + 1] ps = ps.map (fun p => p.removeSource b) := by
  have idem : ∀ ms : List (Phi C), (∀ p ∈ ms, p.has b = false) → ∀ n, (removePhis b)^[n] ms = ms := by
    intro ms hms n
    induction n with
    | zero => rfl
    | succ n ih => rw [Function.iterate_succ_apply, removePhis_none hms, ih]
  rw [Function.iterate_succ_apply]
  rcases h with h | h
  · rw [removePhis_all h]
    refine idem _ (fun p hp => ?_) n
    obtain ⟨p0, _, rfl⟩ := List.mem_map.1 hp
    rw [Phi.has_removeSource]; simp
  · rw [removePhis_none h, idem _ h n]
    symm
    have : ∀ p ∈ ps, p.removeSource b = p := by
      intro p hp
      have hp := h p hp
      unfold Phi.removeSource
      have : p.inc.filter (fun e => decide (e.1 ≠ b)) = p.inc := by
        rw [List.filter_eq_self]
        intro e he
        simp only [decide_eq_true_eq]
        rintro rfl
        have : p.has e.1 = true := Phi.has_iff.2 ⟨e.2, he⟩
        rw [hp] at this; cases this
      rw [this]
    calc ps.map (fun p => p.removeSource b) = ps.map id := List.map_congr_left this
      _ = ps := List.map_id _

/-! ## one removed block -/

theorem foldl_removePhi_blk (b : Nat) : ∀ (ts : List Nat) (G : Func Op C) (x : Nat), (ts.foldl (fun G t => G.removePhi b t) G).blk x =
    (G.blk x).map (fun B => { B with phis := (removePhis b)^[ts.count x] B.phis }) := by
  intro ts
  induction ts with
  | nil => intro G x; simp
  | cons t ts ih =>
    intro G x
    rw [List.foldl_cons, ih]
    unfold Func.removePhi
    rw [Func.mapPhis_blk]
    cases G.blk x with
    | none => rfl
    | some B =>
      simp only [Option.map_some, Option.some.injEq]
      by_cases h : x = t
      · subst h
        rw [if_pos rfl, List.count_cons_self, Function.iterate_succ_apply]
      · rw [if_neg h, List.count_cons_of_ne (Ne.symm h)]

theorem foldl_removePhi_fix (b : Nat) : ∀ (ts : List Nat) (G : Func Op C), (ts.foldl (fun G t => G.removePhi b t) G).entry = G.entry ∧
    (ts.foldl (fun G t => G.removePhi b t) G).order = G.order := by
  intro ts
  induction ts with
  | nil => intro G; exact ⟨rfl, rfl⟩
  | cons t ts ih =>
    intro G
    rw [List.foldl_cons]
    obtain ⟨h1, h2⟩ := ih (G.removePhi b t)
    exact ⟨h1.trans (Func.mapPhis_entry ..), h2.trans (Func.mapPhis_order ..)⟩

theorem elimOne_fix (u : Nat → C) (r : List Nat) (F : Func Op C) (b : Nat) : (elimOne u r F b).entry = F.entry ∧ (elimOne u r F b).order = F.order := by
  unfold elimOne
  split
  · exact ⟨rfl, rfl⟩
  · exact foldl_removePhi_fix b _ _

theorem elimOne_blk {u : Nat → C} {r : List Nat} {F : Func Op C} {b : Nat} {B : Block Op C} (hB : F.blk b = some B) (x : Nat) :
    (elimOne u r F b).blk x = if x = b then none else (F.blk x).map (fun X =>
      { X.sub (undefOf u B.ids) with phis := (removePhis b)^[(B.term.targets.filter (fun t => decide (t ∈ r))).count x] (X.sub (undefOf u B.ids)).phis }) := by
  unfold elimOne
  rw [hB]
  dsimp only
  by_cases h : x = b
  · simp only [h, if_true]
  · simp only [if_neg h]
    rw [foldl_removePhi_blk]
    show ((F.blk x).map _).map _ = _
    rw [Option.map_map]
    rfl

/-! ## all removed blocks -/

/-- the instructions of the blocks `S` -/
def Func.idsOf (F : Func Op C) (S : List Nat) : List Nat := S.flatMap (fun b => match F.blk b with | some B => B.ids | none => [])

theorem mem_idsOf {F : Func Op C} {S : List Nat} {x : Nat} : x ∈ F.idsOf S ↔ ∃ b ∈ S, DefIn F x b := by
  unfold Func.idsOf
  rw [List.mem_flatMap]
  refine exists_congr fun b => and_congr Iff.rfl ?_
  unfold DefIn
  cases F.blk b with
  | none => simp
  | some B => simp

theorem undefOf_comp (u : Nat → C) (ids ids' : List Nat) (o : Opd C) : (o.sub (undefOf u ids)).sub (undefOf u ids') = o.sub (undefOf u (ids ++ ids')) := by
  cases o with
  | cst c => rfl
  | inst x =>
    by_cases h : x ∈ ids
    · simp [Opd.sub, undefOf, h]
    · simp [Opd.sub, undefOf, h]

theorem Term.sub_comp (u : Nat → C) (ids ids' : List Nat) (t : Term C) : (t.sub (undefOf u ids)).sub (undefOf u ids') = t.sub (undefOf u (ids ++ ids')) := by
  cases t with
  | ret v => cases v <;> simp [Term.sub, undefOf_comp]
  | br t => rfl
  | cbr c t f => simp [Term.sub, undefOf_comp]
  | sw c d cs => simp [Term.sub, undefOf_comp]
  | unreachable => rfl

/-- what becomes of a reachable block -/
structure BlkRel (r : List Nat) (σ : Nat → Opd C) (B B' : Block Op C) : Prop where
  phis : List.Forall₂ (PhiRel r σ) B.phis B'.phis
  body : B'.body = B.body.map (Inst.sub σ)
  term : B'.term = B.term.sub σ

theorem PhiRel.ids {r : List Nat} {σ : Nat → Opd C} {ps qs : List (Phi C)} (h : List.Forall₂ (PhiRel r σ) ps qs) : qs.map Phi.id = ps.map Phi.id := by
  induction h with
  | nil => rfl
  | cons h _ ih => simp [h.id, ih]

theorem BlkRel.ids {r : List Nat} {σ : Nat → Opd C} {B B' : Block Op C} (h : BlkRel r σ B B') : B'.ids = B.ids := by
  unfold Block.ids
  rw [PhiRel.ids h.phis, h.body, List.map_map]
  rfl

theorem Opd.sub_inst (o : Opd C) : o.sub Opd.inst = o := by cases o <;> rfl

theorem Term.sub_inst (t : Term C) : t.sub Opd.inst = t := by
  cases t with
  | ret v => cases v <;> simp [Term.sub, Opd.sub_inst]
  | _ => simp [Term.sub, Opd.sub_inst]

theorem undefOf_nil (u : Nat → C) : undefOf u [] = Opd.inst := by funext x; simp [undefOf]

theorem BlkRel.refl (r : List Nat) (u : Nat → C) (B : Block Op C) : BlkRel r (undefOf u []) B B := by
  rw [undefOf_nil]
  refine ⟨List.forall₂_same.2 (fun p _ => ⟨rfl, ?_⟩), ?_, (Term.sub_inst _).symm⟩
  · have : (fun e : Nat × Opd C => (e.1, e.2.sub Opd.inst)) = id := by funext e; simp [Opd.sub_inst]
    rw [this, List.map_id]
  · have : (Inst.sub Opd.inst : Inst Op C → Inst Op C) = id := by
      funext i
      have : (Opd.sub Opd.inst : Opd C → Opd C) = id := by funext o; exact Opd.sub_inst o
      simp [Inst.sub, this]
    rw [this, List.map_id]

theorem BlkRel.step {r : List Nat} {u : Nat → C} {ids ids' : List Nat} {B B' : Block Op C} (h : BlkRel r (undefOf u ids) B B') {b : Nat} (hb : b ∉ r) (n : Nat) :
    BlkRel r (undefOf u (ids ++ ids')) B { B'.sub (undefOf u ids') with phis := (removePhis b)^[n] (B'.sub (undefOf u ids')).phis } := by
  refine ⟨?_, ?_, ?_⟩
  · have h1 : List.Forall₂ (PhiRel r (undefOf u (ids ++ ids'))) B.phis (B'.sub (undefOf u ids')).phis := by
      show List.Forall₂ _ B.phis (B'.phis.map _)
      rw [List.forall₂_map_right_iff]
      refine h.phis.imp (fun p q hpq => ⟨hpq.id, ?_⟩)
      rw [Phi.only_sub, hpq.only, List.map_map]
      apply List.map_congr_left
      intro e _
      simp only [Function.comp_apply, undefOf_comp]
    have h2 := removePhis_iter_rel hb n (B'.sub (undefOf u ids')).phis
    show List.Forall₂ _ B.phis ((removePhis b)^[n] (B'.sub (undefOf u ids')).phis)
    revert h2
    generalize (removePhis b)^[n] (B'.sub (undefOf u ids')).phis = qs
    revert h1
    generalize (B'.sub (undefOf u ids')).phis = ms
    generalize B.phis = ps
    intro h1 h2
    induction h1 generalizing qs with
    | nil => cases h2; exact .nil
    | cons e _ ih =>
      cases h2 with
      | cons e' h2' => exact .cons ⟨e'.1.trans e.id, e'.2.trans e.only⟩ (ih _ h2')
  · show (B'.body.map _) = _
    rw [h.body, List.map_map]
    apply List.map_congr_left
    intro i _
    simp only [Function.comp_apply, Inst.sub, List.map_map]
    congr 1
    apply List.map_congr_left
    intro o _
    exact undefOf_comp u ids ids' o
  · show B'.term.sub _ = _
    rw [h.term, Term.sub_comp]

/-- the loop over the removed blocks: blocks of `r` keep their code, the removed ones disappear -/
theorem elim_blk (u : Nat → C) (r : List Nat) (F : Func Op C) : ∀ (S : List Nat), S.Nodup → (∀ b ∈ S, b ∉ r) → (∀ b ∈ S, ∃ B, F.blk b = some B) →
    ∀ (done : List Nat) (G : Func Op C), (∀ b ∈ S, b ∉ done) →
    (∀ x, x ∉ done → (F.blk x = none → G.blk x = none) ∧ ∀ B, F.blk x = some B → ∃ B', G.blk x = some B' ∧ BlkRel r (undefOf u (F.idsOf done)) B B') →
    (∀ x ∈ done, G.blk x = none) →
    let G' := S.foldl (elimOne u r) G
    (∀ x, x ∉ done ++ S → (F.blk x = none → G'.blk x = none) ∧ ∀ B, F.blk x = some B → ∃ B', G'.blk x = some B' ∧ BlkRel r (undefOf u (F.idsOf (done ++ S))) B B') ∧
    (∀ x ∈ done ++ S, G'.blk x = none) ∧ G'.entry = G.entry ∧ G'.order = G.order := by
  intro S
  induction S with
  | nil => intro _ _ _ done G _ h1 h2; simp only [List.append_nil, List.foldl_nil]; exact ⟨h1, h2, trivial, trivial⟩
  | cons b S ih =>
    intro hn hr ht done G hd h1 h2
    rw [List.nodup_cons] at hn
    obtain ⟨B, hB⟩ := ht b (by simp)
    obtain ⟨B', hB', hrel⟩ := (h1 b (hd b (by simp))).2 B hB
    have hids : F.idsOf (done ++ [b]) = F.idsOf done ++ B'.ids := by
      rw [hrel.ids]
      simp [Func.idsOf, hB]
    have key := ih hn.2 (fun x hx => hr x (by simp [hx])) (fun x hx => ht x (by simp [hx])) (done ++ [b]) (elimOne u r G b) ?_ ?_ ?_
    · obtain ⟨k1, k2, k3, k4⟩ := key
      have e : done ++ b :: S = done ++ [b] ++ S := by simp
      rw [e]
      exact ⟨k1, k2, k3.trans (elimOne_fix ..).1, k4.trans (elimOne_fix ..).2⟩
    · intro x hx hm
      rcases List.mem_append.1 hm with hm | hm
      · exact hd x (by simp [hx]) hm
      · rw [List.mem_singleton] at hm; subst hm; exact hn.1 hx
    · intro x hx
      rw [List.mem_append, List.mem_singleton, not_or] at hx
      refine ⟨fun hN => ?_, fun X hX => ?_⟩
      · rw [elimOne_blk hB', if_neg hx.2, (h1 x hx.1).1 hN]; rfl
      · obtain ⟨X', hX', hXr⟩ := (h1 x hx.1).2 X hX
        refine ⟨_, by rw [elimOne_blk hB', if_neg hx.2, hX']; rfl, ?_⟩
        rw [hids]
        exact hXr.step (hr b (by simp)) _
    · intro x hx
      rw [elimOne_blk hB']
      by_cases hxb : x = b
      · rw [if_pos hxb]
      · rw [if_neg hxb]
        rcases List.mem_append.1 hx with hx | hx
        · rw [h2 x hx]; rfl
        · rw [List.mem_singleton] at hx; exact absurd hx hxb

/-- what the pass does to any function with a sane block list: `r` are the reachable blocks, `dead` the instructions of the others -/
structure Elim (u : Nat → C) (F G : Func Op C) (r dead : List Nat) : Prop where
  live : ∀ b, b ∈ r ↔ Live F b
  deadIds : ∀ x, x ∈ dead ↔ ∃ b ∈ F.order, ¬ Live F b ∧ DefIn F x b
  entry : G.entry = F.entry
  order : G.order = F.order.filter (fun b => decide (b ∈ r))
  gone : ∀ b, ¬ Live F b → G.blk b = none
  noBlk : ∀ b, F.blk b = none → G.blk b = none
  kept : ∀ b B, Live F b → F.blk b = some B → ∃ B', G.blk b = some B' ∧ BlkRel r (undefOf u dead) B B'

theorem elim_spec (u : Nat → C) {F : Func Op C} (S : Shape F) : ∃ G r dead, blockEliminate u F = some G ∧ Elim u F G r dead := by
  obtain ⟨r, h1, h2, h3, h4⟩ := search_spec S
  have hdead : ∀ x, x ∈ F.idsOf (F.order.filter (fun b => decide (b ∉ r))) ↔ ∃ b ∈ F.order, ¬ Live F b ∧ DefIn F x b := by
    intro x
    rw [mem_idsOf]
    simp only [List.mem_filter, decide_eq_true_eq, h4, and_assoc]
  by_cases hlen : F.order.length = r.length
  · have hall : ∀ b ∈ F.order, b ∈ r := by
      have hsub : List.Subperm r F.order := List.subperm_of_subset h2 (fun x hx => h3 x hx)
      have hperm := hsub.perm_of_length_le (by omega)
      intro b hb
      exact hperm.symm.subset hb
    have hnil : F.order.filter (fun b => decide (b ∉ r)) = [] := by
      rw [List.filter_eq_nil_iff]
      intro b hb
      simp [hall b hb]
    refine ⟨F, r, [], by unfold blockEliminate; rw [h1]; simp [hlen], h4, ?_, rfl, ?_, ?_, fun _ => id, fun b B _ hB => ⟨B, hB, BlkRel.refl r u B⟩⟩
    · intro x
      rw [← hdead x, hnil]
      rfl
    · rw [List.filter_eq_self.2 (fun b hb => by simp [hall b hb])]
    · intro b hb
      cases hB : F.blk b with
      | none => rfl
      | some B => exact absurd ((h4 b).1 (hall b (S.listed b B hB))) hb
  · have hS : ∀ b ∈ F.order.filter (fun b => decide (b ∉ r)), b ∈ F.order ∧ b ∉ r := by
      intro b hb
      simpa using hb
    obtain ⟨k1, k2, k3, k4⟩ := elim_blk u r F (F.order.filter (fun b => decide (b ∉ r))) (S.nodup.filter _) (fun b hb => (hS b hb).2)
      (fun b hb => S.total b (hS b hb).1) [] { F with order := F.order.filter (fun b => decide (b ∈ r)) } (fun _ _ => by simp)
      (fun x _ => ⟨id, fun B hB => ⟨B, hB, BlkRel.refl r u B⟩⟩) (fun x hx => by simp at hx)
    rw [List.nil_append] at k1 k2
    refine ⟨_, r, _, by unfold blockEliminate; rw [h1]; simp only [Option.map_some, if_neg hlen], h4, hdead, k3, k4, ?_, ?_, ?_⟩
    · intro b hb
      by_cases hbo : b ∈ F.order
      · exact k2 b (by simp only [List.mem_filter, decide_eq_true_eq]; exact ⟨hbo, fun h => hb ((h4 b).1 h)⟩)
      · refine (k1 b (fun h => hbo (hS b h).1)).1 ?_
        cases hB : F.blk b with
        | none => rfl
        | some B => exact absurd (S.listed b B hB) hbo
    · intro b hN
      by_cases hbs : b ∈ F.order.filter (fun b => decide (b ∉ r))
      · exact k2 b hbs
      · exact (k1 b hbs).1 hN
    · intro b B hb hB
      exact (k1 b (fun h => (hS b h).2 ((h4 b).2 hb))).2 B hB

/-! ## the graph of the result -/


section
variable {u : Nat → C} {F G : Func Op C} {r dead : List Nat}

theorem Elim.edge (E : Elim u F G r dead) {a b : Nat} : Edge G a b ↔ Edge F a b ∧ Live F a := by
  constructor
  · rintro ⟨B', hB', ht⟩
    by_cases ha : Live F a
    · cases hB : F.blk a with
      | none =>
        rw [E.noBlk a hB] at hB'; cases hB'
      | some B =>
        obtain ⟨B'', h1, h2⟩ := E.kept a B ha hB
        rw [hB'] at h1
        cases h1
        rw [h2.term, Term.sub_targets] at ht
        exact ⟨⟨B, hB, ht⟩, ha⟩
    · rw [E.gone a ha] at hB'; cases hB'
  · rintro ⟨⟨B, hB, ht⟩, ha⟩
    obtain ⟨B', h1, h2⟩ := E.kept a B ha hB
    exact ⟨B', h1, by rw [h2.term, Term.sub_targets]; exact ht⟩

theorem Elim.path (E : Elim u F G r dead) {a b : Nat} {p : List Nat} (ha : Live F a) : Dom.Path (Edge G) a b p ↔ Dom.Path (Edge F) a b p := by
  constructor
  · intro h
    induction h with
    | single a => exact .single a
    | cons e _ ih => exact .cons (E.edge.1 e).1 (ih (ha.edge (E.edge.1 e).1))
  · intro h
    induction h with
    | single a => exact .single a
    | cons e _ ih => exact .cons (E.edge.2 ⟨e, ha⟩) (ih (ha.edge e))

theorem live_entry (F : Func Op C) : Live F F.entry := ⟨_, .single _⟩

theorem Elim.liveIff (E : Elim u F G r dead) {b : Nat} : Live G b ↔ Live F b := by
  show Dom.Reachable _ G.entry b ↔ _
  rw [E.entry]
  exact exists_congr fun p => E.path (live_entry F)

theorem Elim.domi (E : Elim u F G r dead) {a b : Nat} : Domi G a b ↔ Domi F a b := by
  show Dom.Dominates _ G.entry a b ↔ _
  rw [E.entry]
  exact forall_congr' fun p => imp_congr (E.path (live_entry F)) Iff.rfl

theorem Elim.blk (E : Elim u F G r dead) {b : Nat} {B' : Block Op C} (h : G.blk b = some B') :
    Live F b ∧ ∃ B, F.blk b = some B ∧ BlkRel r (undefOf u dead) B B' := by
  by_cases hb : Live F b
  · cases hB : F.blk b with
    | none => rw [E.noBlk b hB] at h; cases h
    | some B =>
      obtain ⟨B'', h1, h2⟩ := E.kept b B hb hB
      rw [h] at h1; cases h1
      exact ⟨hb, B, rfl, h2⟩
  · rw [E.gone b hb] at h; cases h

theorem Elim.defIn (E : Elim u F G r dead) {x b : Nat} : DefIn G x b ↔ DefIn F x b ∧ Live F b := by
  constructor
  · rintro ⟨B', hB', hx⟩
    obtain ⟨hb, B, hB, hr⟩ := E.blk hB'
    exact ⟨⟨B, hB, by rw [← hr.ids]; exact hx⟩, hb⟩
  · rintro ⟨⟨B, hB, hx⟩, hb⟩
    obtain ⟨B', h1, h2⟩ := E.kept b B hb hB
    exact ⟨B', h1, by rw [h2.ids]; exact hx⟩

theorem nodup_flatMap_of_disjoint {α β : Type} {f : α → List β} : ∀ {l : List α}, l.Nodup → (∀ a ∈ l, (f a).Nodup) →
    (∀ a ∈ l, ∀ b ∈ l, ∀ x, x ∈ f a → x ∈ f b → a = b) → (l.flatMap f).Nodup := by
  intro l
  induction l with
  | nil => intro _ _ _; simp
  | cons a l ih =>
    intro hn h1 h2
    rw [List.nodup_cons] at hn
    rw [List.flatMap_cons, List.nodup_append]
    refine ⟨h1 a (by simp), ih hn.2 (fun b hb => h1 b (by simp [hb])) (fun b hb c hc => h2 b (by simp [hb]) c (by simp [hc])), ?_⟩
    intro x hx y hy hxy
    subst hxy
    obtain ⟨b, hb, hy⟩ := List.mem_flatMap.1 hy
    have := h2 a (by simp) b (by simp [hb]) x hx hy
    subst this
    exact hn.1 hb

/-- instructions are unique iff blocks have no repetitions and do not share instructions -/
theorem allIds_eq (F : Func Op C) : F.allIds = F.order.flatMap (fun b => match F.blk b with | some B => B.ids | none => []) := by
  unfold Func.allIds Func.blocks
  generalize F.order = l
  induction l with
  | nil => rfl
  | cons b l ih =>
    cases hb : F.blk b with
    | none => simp [hb, ih]
    | some B => simp [hb, ih]

theorem Elim.shape (E : Elim u F G r dead) (S : Shape F) : Shape G where
  nodup := by rw [E.order]; exact S.nodup.filter _
  listed := by
    intro b B' hB'
    obtain ⟨hb, B, hB, _⟩ := E.blk hB'
    rw [E.order]
    simp only [List.mem_filter, decide_eq_true_eq]
    exact ⟨S.listed b B hB, (E.live b).2 hb⟩
  total := by
    intro b hb
    rw [E.order] at hb
    simp only [List.mem_filter, decide_eq_true_eq] at hb
    obtain ⟨B, hB⟩ := S.total b hb.1
    obtain ⟨B', h1, _⟩ := E.kept b B ((E.live b).1 hb.2) hB
    exact ⟨B', h1⟩
  entryIn := by
    rw [E.order, E.entry]
    simp only [List.mem_filter, decide_eq_true_eq]
    exact ⟨S.entryIn, (E.live _).2 (live_entry F)⟩
  closed := by
    intro a b he
    obtain ⟨he, ha⟩ := E.edge.1 he
    rw [E.order]
    simp only [List.mem_filter, decide_eq_true_eq]
    exact ⟨S.closed a b he, (E.live _).2 (ha.edge he)⟩
  unique := by
    rw [allIds_eq]
    have hF := S.unique
    refine nodup_flatMap_of_disjoint (by rw [E.order]; exact S.nodup.filter _) ?_ ?_
    · intro b _
      cases hB' : G.blk b with
      | none => simp
      | some B' =>
        obtain ⟨_, B, hB, hr⟩ := E.blk hB'
        show B'.ids.Nodup
        rw [hr.ids]
        unfold Func.allIds at hF
        exact (List.nodup_flatMap.mp hF).1 B (S.listed.mem hB)
    · intro a _ b _ x hxa hxb
      have ha : DefIn G x a := by
        unfold DefIn
        cases h : G.blk a with
        | none => rw [h] at hxa; simp at hxa
        | some B => rw [h] at hxa; exact ⟨B, rfl, hxa⟩
      have hb : DefIn G x b := by
        unfold DefIn
        cases h : G.blk b with
        | none => rw [h] at hxb; simp at hxb
        | some B => rw [h] at hxb; exact ⟨B, rfl, hxb⟩
      exact defIn_unique S.listed hF (E.defIn.1 ha).1 (E.defIn.1 hb).1

theorem Elim.allLive (E : Elim u F G r dead) : AllLive G := fun _ _ hB => E.liveIff.2 (E.blk hB).1

end
end

/-! ## behaviour -/
section
variable {L : Lang} {u : Nat → L.C} {F G : L.F} {r dead : List Nat}

theorem eval_undef {env : Env L} (hd : ∀ x ∈ dead, env x = none) (o : Opd L.C) : eval L env o = none ∨ eval L env (o.sub (undefOf u dead)) = eval L env o := by
  cases o with
  | cst c => exact .inr rfl
  | inst x =>
    by_cases h : x ∈ dead
    · exact .inl (hd x h)
    · right; simp [Opd.sub, undefOf, h]

theorem evals_undef {env : Env L} (hd : ∀ x ∈ dead, env x = none) : ∀ os : List (Opd L.C), evals L env os = none ∨
    evals L env (os.map (Opd.sub (undefOf u dead))) = evals L env os := by
  intro os
  induction os with
  | nil => exact .inr rfl
  | cons o os ih =>
    simp only [List.map_cons, evals]
    rcases eval_undef (u := u) hd o with h | h
    · rw [h]; exact .inl rfl
    · rw [h]
      rcases ih with ih | ih
      · rw [ih]; left; cases eval L env o <;> rfl
      · rw [ih]; exact .inr rfl

theorem execBody_undef : ∀ (is : List (Inst L.Op L.C)) (env : Env L) (m : L.M) (es : List L.E), (∀ i ∈ is, i.id ∉ dead) → (∀ x ∈ dead, env x = none) →
    (execBody L is env m es = .ub ∨ execBody L (is.map (Inst.sub (undefOf u dead))) env m es = execBody L is env m es) ∧
    ∀ env' m' es', execBody L is env m es = .ok env' m' es' → ∀ x ∈ dead, env' x = none := by
  intro is
  induction is with
  | nil =>
    intro env m es _ hd
    refine ⟨.inr rfl, fun env' m' es' h => ?_⟩
    simp only [execBody, BodyRes.ok.injEq] at h
    rw [← h.1]; exact hd
  | cons i is ih =>
    intro env m es hi hd
    simp only [List.map_cons, execBody]
    have hev := evals_undef (u := u) hd i.args
    cases he : evals L env i.args with
    | none => simp
    | some vs =>
      rw [he] at hev
      have hev : evals L env (i.sub (undefOf u dead)).args = some vs := by
        rcases hev with h | h
        · cases h
        · exact h
      rw [hev]
      have hop : (i.sub (undefOf u dead)).op = i.op := rfl
      have hid : (i.sub (undefOf u dead)).id = i.id := rfl
      simp only [hop, hid]
      cases hs : L.sem i.op vs m with
      | ub => simp [hs]
      | halt es' h => simp [hs]
      | ok v m' es' =>
        simp only
        exact ih (setEnv L env i.id v) m' (es ++ es') (fun j hj => hi j (by simp [hj])) (fun x hx => by
          unfold setEnv
          have : x ≠ i.id := fun e => hi i (by simp) (e ▸ hx)
          rw [if_neg this]; exact hd x hx)

theorem evalTerm_undef {env : Env L} (hd : ∀ x ∈ dead, env x = none) (t : Term L.C) : evalTerm L env t = .ub ∨ evalTerm L env (t.sub (undefOf u dead)) = evalTerm L env t := by
  cases t with
  | ret v =>
    cases v with
    | none => exact .inr rfl
    | some o =>
      simp only [Term.sub, Option.map_some, evalTerm]
      rcases eval_undef (u := u) hd o with h | h
      · rw [h]; exact .inl rfl
      · rw [h]; exact .inr rfl
  | br t => exact .inr rfl
  | cbr c t f =>
    simp only [Term.sub, evalTerm]
    rcases eval_undef (u := u) hd c with h | h
    · rw [h]; exact .inl rfl
    · rw [h]; exact .inr rfl
  | sw c d cs =>
    simp only [Term.sub, evalTerm]
    rcases eval_undef (u := u) hd c with h | h
    · rw [h]; exact .inl rfl
    · rw [h]; exact .inr rfl
  | unreachable => exact .inr rfl

theorem enterPhis_undef {q : Nat} (hq : q ∈ r) {old : Env L} (hd : ∀ x ∈ dead, old x = none) {ps qs : List (Phi L.C)}
    (h : List.Forall₂ (PhiRel r (undefOf u dead)) ps qs) : ∀ env : Env L, (∀ p ∈ ps, p.id ∉ dead) → (∀ x ∈ dead, env x = none) →
    (enterPhis L (some q) old ps env = none ∨ enterPhis L (some q) old qs env = enterPhis L (some q) old ps env) ∧
    ∀ env', enterPhis L (some q) old ps env = some env' → ∀ x ∈ dead, env' x = none := by
  induction h with
  | nil =>
    intro env _ he
    refine ⟨.inr rfl, fun env' h => ?_⟩
    simp only [enterPhis, Option.some.injEq] at h
    rw [← h]; exact he
  | @cons p p' ps qs h _ ih =>
    intro env hi he
    simp only [enterPhis, phiVal]
    rw [h.at hq, h.id]
    cases hp : p.at q with
    | none => simp
    | some o =>
      simp only [Option.map_some]
      rcases eval_undef (u := u) hd o with h | h
      · rw [h]; simp
      · rw [h]
        cases ho : eval L old o with
        | none => simp
        | some v =>
          simp only
          exact ih (setEnv L env p.id v) (fun j hj => hi j (by simp [hj])) (fun x hx => by
            unfold setEnv
            have : x ≠ p.id := fun e => hi p (by simp) (e ▸ hx)
            rw [if_neg this]; exact he x hx)

theorem Elim.notDead (E : Elim u F G r dead) (S : Shape F) {x b : Nat} (hb : Live F b) (hx : DefIn F x b) : x ∉ dead := by
  intro hd
  obtain ⟨b', _, h1, h2⟩ := (E.deadIds x).1 hd
  exact h1 (defIn_unique S.listed S.unique hx h2 ▸ hb)

/-- the pass never changes what a function does; nothing has to be known about the code except that the block list is sane -/
theorem Elim.refines (E : Elim u F G r dead) (S : Shape F) : Refines L F G := by
  refine refines_lockstep (fun s => Live F s.cur ∧ (∀ q, s.pred = some q → Live F q) ∧ ∀ x ∈ dead, s.env x = none) E.entry.symm
    (fun m => ⟨live_entry F, (by intro q hq; cases hq), fun _ _ => rfl⟩) ?_
  rintro s ⟨hl, hp, hd⟩
  cases hB : F.blk s.cur with
  | none => left; unfold step; rw [hB]
  | some B =>
    obtain ⟨B', hB', hr⟩ := E.kept _ B hl hB
    have hstep : ∀ s', step L F s = .inl s' → Live F s'.cur ∧ (∀ q, s'.pred = some q → Live F q) := by
      intro s' hs'
      obtain ⟨h1, B0, h2, h3⟩ := step_target hs'
      exact ⟨hl.edge ⟨B0, h2, h3⟩, fun q hq => by rw [h1] at hq; cases hq; exact hl⟩
    have hids : ∀ x ∈ B.ids, x ∉ dead := fun x hx => E.notDead S hl ⟨B, hB, hx⟩
    have hphi : (enterPhis L s.pred s.env B.phis s.env = none ∨ enterPhis L s.pred s.env B'.phis s.env = enterPhis L s.pred s.env B.phis s.env) ∧
        ∀ env', enterPhis L s.pred s.env B.phis s.env = some env' → ∀ x ∈ dead, env' x = none := by
      cases hpred : s.pred with
      | some q =>
        exact enterPhis_undef ((E.live q).2 (hp q hpred)) hd hr.phis _ (fun p hp => hids _ (List.mem_append.2 (.inl (List.mem_map.2 ⟨p, hp, rfl⟩)))) hd
      | none =>
        have := hr.phis
        cases hps : B.phis with
        | nil =>
          rw [hps] at this
          have h0 : B'.phis = [] := by
            revert this
            generalize B'.phis = qs
            intro this
            cases this; rfl
          rw [h0]
          refine ⟨.inr rfl, fun env' h => ?_⟩
          simp only [enterPhis, Option.some.injEq] at h
          rw [← h]; exact hd
        | cons p ps => simp [enterPhis, phiVal]
    unfold step at hstep ⊢
    rw [hB] at hstep ⊢
    rw [hB']
    simp only at hstep ⊢
    unfold stepBlk at hstep ⊢
    rcases hphi with ⟨h | h, hd1⟩
    · left; rw [h]
    · rw [h]
      cases he : enterPhis L s.pred s.env B.phis s.env with
      | none => exact .inl rfl
      | some env1 =>
        rw [he] at hstep
        simp only at hstep ⊢
        obtain ⟨h2, hd2⟩ := execBody_undef (u := u) (dead := dead) B.body env1 s.m s.tr (fun i hi => hids _ (List.mem_append.2 (.inr (List.mem_map.2 ⟨i, hi, rfl⟩)))) (hd1 env1 he)
        rw [hr.body]
        rcases h2 with h2 | h2
        · left; rw [h2]
        · rw [h2]
          cases hb : execBody L B.body env1 s.m s.tr with
          | ub => exact .inl rfl
          | halt es h => exact .inr ⟨rfl, fun s' hs' => by cases hs'⟩
          | ok env2 m2 es2 =>
            rw [hb] at hstep
            simp only at hstep ⊢
            have hd2 := hd2 env2 m2 es2 hb
            rw [hr.term]
            rcases evalTerm_undef (u := u) hd2 B.term with h3 | h3
            · left; rw [h3]
            · rw [h3]
              cases ht : evalTerm L env2 B.term with
              | ub => exact .inl rfl
              | ret v => exact .inr ⟨rfl, fun s' hs' => by cases hs'⟩
              | goto b =>
                rw [ht] at hstep
                refine .inr ⟨rfl, fun s' hs' => ?_⟩
                have h4 := hstep s' hs'
                cases hs'
                exact ⟨h4.1, h4.2, hd2⟩

end

/-! ## the result is proper -/
section
variable {Op C : Type} {u : Nat → C} {F G : Func Op C} {r dead : List Nat}

theorem alike_map {b : Nat} {ps : List (Phi C)} (h : Alike b ps) {f : Phi C → Phi C} {g : Bool → Bool} (hf : ∀ p, (f p).has b = g (p.has b)) : Alike b (ps.map f) := by
  unfold Alike at h ⊢
  simp only [List.mem_map, forall_exists_index, and_imp, forall_apply_eq_imp_iff₂, hf]
  rcases h with h | h
  · cases hg : g true with
    | true => left; intro p hp; rw [h p hp, hg]
    | false => right; intro p hp; rw [h p hp, hg]
  · cases hg : g false with
    | true => left; intro p hp; rw [h p hp, hg]
    | false => right; intro p hp; rw [h p hp, hg]

/-- what holds for the phis of a block `x` when the blocks `done` have been removed -/
structure Keys (F : Func Op C) (done : List Nat) (x : Nat) (ps : List (Phi C)) : Prop where
  gone : ∀ p ∈ ps, ∀ q ∈ done, p.has q = false
  alike : ∀ q, Alike q ps
  edge : ∀ p ∈ ps, ∀ q, p.has q = true → Edge F q x

theorem Keys.sub {done : List Nat} {x : Nat} {ps : List (Phi C)} (h : Keys F done x ps) (σ : Nat → Opd C) : Keys F done x (ps.map (Phi.sub σ)) where
  gone p hp q hq := by
    obtain ⟨p0, hp0, rfl⟩ := List.mem_map.1 hp
    rw [Phi.has_sub]; exact h.gone p0 hp0 q hq
  alike q := alike_map (g := id) (h.alike q) (fun p => Phi.has_sub p σ q)
  edge p hp q hq := by
    obtain ⟨p0, hp0, rfl⟩ := List.mem_map.1 hp
    rw [Phi.has_sub] at hq; exact h.edge p0 hp0 q hq

theorem Keys.remove {done : List Nat} {x b : Nat} {ps : List (Phi C)} (h : Keys F done x ps) (n : Nat) (hn : Edge F b x → n ≠ 0) :
    Keys F (done ++ [b]) x ((removePhis b)^[n] ps) := by
  have hcase : (removePhis b)^[n] ps = ps.map (fun p => p.removeSource b) ∨ ((∀ p ∈ ps, p.has b = false) ∧ (removePhis b)^[n] ps = ps) := by
    cases n with
    | succ n => exact .inl (removePhis_iter_alike (h.alike b) n)
    | zero =>
      refine .inr ⟨fun p hp => ?_, rfl⟩
      cases hh : p.has b with
      | false => rfl
      | true => exact absurd rfl (hn (h.edge p hp b hh))
  rcases hcase with e | ⟨hb, e⟩
  · rw [e]
    refine ⟨?_, fun q => alike_map (g := fun v => v && decide (q ≠ b)) (h.alike q) (fun p => Phi.has_removeSource p b q), ?_⟩
    · intro p hp q hq
      obtain ⟨p0, hp0, rfl⟩ := List.mem_map.1 hp
      rw [Phi.has_removeSource]
      rcases List.mem_append.1 hq with hq | hq
      · rw [h.gone p0 hp0 q hq]; rfl
      · rw [List.mem_singleton] at hq; subst hq; simp
    · intro p hp q hq
      obtain ⟨p0, hp0, rfl⟩ := List.mem_map.1 hp
      rw [Phi.has_removeSource, Bool.and_eq_true] at hq
      exact h.edge p0 hp0 q hq.1
  · rw [e]
    refine ⟨?_, h.alike, h.edge⟩
    intro p hp q hq
    rcases List.mem_append.1 hq with hq | hq
    · exact h.gone p hp q hq
    · rw [List.mem_singleton] at hq; subst hq; exact hb p hp

theorem elim_keys (u : Nat → C) (r : List Nat) (F : Func Op C) : ∀ (S : List Nat), S.Nodup → (∀ b ∈ S, b ∉ r) →
    ∀ (done : List Nat) (G : Func Op C),
    (∀ b ∈ S, ∃ B B', F.blk b = some B ∧ G.blk b = some B' ∧ B'.term.targets = B.term.targets) →
    (∀ x ∈ r, ∀ B', G.blk x = some B' → Keys F done x B'.phis) →
    ∀ x ∈ r, ∀ B', (S.foldl (elimOne u r) G).blk x = some B' → Keys F (done ++ S) x B'.phis := by
  intro S
  induction S with
  | nil => intro _ _ done G _ h; simpa using h
  | cons b S ih =>
    intro hn hr done G ht h
    rw [List.nodup_cons] at hn
    obtain ⟨B, B', hB, hB', hterm⟩ := ht b (by simp)
    have e : done ++ b :: S = done ++ [b] ++ S := by simp
    rw [e]
    refine ih hn.2 (fun x hx => hr x (by simp [hx])) (done ++ [b]) (elimOne u r G b) ?_ ?_
    · intro c hc
      obtain ⟨D, D', hD, hD', h1⟩ := ht c (by simp [hc])
      have hcb : c ≠ b := fun e => hn.1 (e ▸ hc)
      refine ⟨D, _, hD, by rw [elimOne_blk hB', if_neg hcb, hD']; rfl, ?_⟩
      rw [← h1]
      exact Term.sub_targets _ _
    · intro x hx X hX
      have hxb : x ≠ b := fun e => hr b (by simp) (e ▸ hx)
      rw [elimOne_blk hB', if_neg hxb] at hX
      cases hY : G.blk x with
      | none => rw [hY] at hX; cases hX
      | some Y =>
        rw [hY] at hX
        cases hX
        refine ((h x hx Y hY).sub _).remove _ (fun he => ?_)
        obtain ⟨B0, hB0, ht0⟩ := he
        rw [hB] at hB0; cases hB0
        rw [hterm]
        intro h0
        rw [List.count_eq_zero] at h0
        exact h0 (List.mem_filter.2 ⟨ht0, by simp [hx]⟩)

theorem LiveWf.keys (W : LiveWf F) {x : Nat} {B : Block Op C} (hx : Live F x) (hB : F.blk x = some B) : Keys F [] x B.phis where
  gone p _ q hq := by simp at hq
  alike q := by
    by_cases h : ∃ p ∈ B.phis, p.has q = true
    · left
      obtain ⟨p, hp, hq⟩ := h
      obtain ⟨v, hv⟩ := Phi.has_iff.1 hq
      intro p' hp'
      obtain ⟨v', hv'⟩ := W.phiDead x B p p' q v hB hx hp hp' hv
      exact Phi.has_iff.2 ⟨v', hv'⟩
    · right
      intro p hp
      cases hh : p.has q with
      | false => rfl
      | true => exact absurd ⟨p, hp, hh⟩ h
  edge p hp q hq := by
    obtain ⟨v, hv⟩ := Phi.has_iff.1 hq
    exact W.phiPred x B p hB hx hp q v hv

/-- no entry from a dropped block is left -/
theorem elim_entries (W : LiveWf F) : ∃ G r dead, blockEliminate u F = some G ∧ Elim u F G r dead ∧
    ∀ b B' p q v, G.blk b = some B' → p ∈ B'.phis → (q, v) ∈ p.inc → q ∈ r := by
  obtain ⟨G, r, dead, h, E⟩ := elim_spec u W.toShape
  refine ⟨G, r, dead, h, E, ?_⟩
  obtain ⟨r', h1, h2, h3, h4⟩ := search_spec W.toShape
  have hrr : ∀ b, b ∈ r' ↔ b ∈ r := fun b => by rw [h4, E.live]
  unfold blockEliminate at h
  rw [h1] at h
  simp only [Option.map_some, Option.some.injEq] at h
  have hall : ∀ q b, Edge F q b → q ∈ F.order := by
    rintro q b ⟨B, hB, _⟩
    exact W.listed q B hB
  split at h
  · rename_i hlen
    subst h
    intro b B' p q v hB' hp hv
    obtain ⟨hb, B, hB, hrel⟩ := E.blk hB'
    rw [hB'] at hB; cases hB
    have hsub : List.Subperm r' F.order := List.subperm_of_subset h2 (fun x hx => h3 x hx)
    have hperm := hsub.perm_of_length_le (by omega)
    exact (hrr q).1 (hperm.symm.subset (hall q b (W.phiPred b B' p hB' hb hp q v hv)))
  · subst h
    intro b B' p q v hB' hp hv
    obtain ⟨hb, B, hB, hrel⟩ := E.blk hB'
    have hS : ∀ b ∈ F.order.filter (fun b => decide (b ∉ r')), b ∈ F.order ∧ b ∉ r' := by
      intro b hb
      simpa using hb
    have K := elim_keys u r' F (F.order.filter (fun b => decide (b ∉ r'))) (W.nodup.filter _) (fun b hb => (hS b hb).2) []
      { F with order := F.order.filter (fun b => decide (b ∈ r')) }
      (fun b hb => by obtain ⟨B, hB⟩ := W.total b (hS b hb).1; exact ⟨B, B, hB, hB, rfl⟩)
      (fun x hx X hX => W.keys ((h4 x).1 hx) hX) b ((h4 b).2 hb) B' hB'
    rw [List.nil_append] at K
    have hhas : p.has q = true := Phi.has_iff.2 ⟨v, hv⟩
    have hq := hall q b (K.edge p hp q hhas)
    by_contra hqr
    have := K.gone p hp q (by simp only [List.mem_filter, decide_eq_true_eq]; exact ⟨hq, fun h => hqr ((hrr q).1 h)⟩)
    rw [hhas] at this; cases this

theorem Opd.sub_fix {σ : Nat → Opd C} {o : Opd C} (h : ∀ x, o = .inst x → σ x = .inst x) : o.sub σ = o := by
  cases o with
  | cst c => rfl
  | inst x => exact h x rfl

theorem Term.sub_fix {σ : Nat → Opd C} {t : Term C} (h : ∀ x, Opd.inst x ∈ t.args → σ x = .inst x) : t.sub σ = t := by
  cases t with
  | ret v =>
    cases v with
    | none => rfl
    | some o =>
      have : o.sub σ = o := Opd.sub_fix (fun x hx => h x (by simp [Term.args, hx]))
      simp [Term.sub, this]
  | br t => rfl
  | cbr c t f =>
    have : c.sub σ = c := Opd.sub_fix (fun x hx => h x (by simp [Term.args, hx]))
    simp [Term.sub, this]
  | sw c d cs =>
    have : c.sub σ = c := Opd.sub_fix (fun x hx => h x (by simp [Term.args, hx]))
    simp [Term.sub, this]
  | unreachable => rfl

theorem Elim.undef_live (E : Elim u F G r dead) (W : LiveWf F) {x h : Nat} (hd : DefIn F x h) (hl : Live F h) : undefOf u dead x = .inst x := by
  unfold undefOf
  rw [if_neg]
  intro hx
  obtain ⟨b', _, h1, h2⟩ := (E.deadIds x).1 hx
  exact h1 (defIn_unique W.listed W.unique hd h2 ▸ hl)

theorem Elim.body_eq (E : Elim u F G r dead) (W : LiveWf F) {b : Nat} {B B' : Block Op C} (hb : Live F b) (hB : F.blk b = some B) (hr : BlkRel r (undefOf u dead) B B') :
    B'.body = B.body ∧ B'.term = B.term := by
  have key : ∀ x, ((∃ i ∈ B.body, Opd.inst x ∈ i.args) ∨ Opd.inst x ∈ B.term.args) → undefOf u dead x = .inst x := by
    intro x hx
    obtain ⟨h, h1, h2⟩ := W.use b B x hB hb hx
    exact E.undef_live W h1 (h2.live hb)
  constructor
  · rw [hr.body]
    calc B.body.map (Inst.sub (undefOf u dead)) = B.body.map id := by
          apply List.map_congr_left
          intro i hi
          have : i.args.map (Opd.sub (undefOf u dead)) = i.args := by
            calc i.args.map (Opd.sub (undefOf u dead)) = i.args.map id := by
                  apply List.map_congr_left
                  intro o ho
                  exact Opd.sub_fix (fun x hx => key x (.inl ⟨i, hi, hx ▸ ho⟩))
              _ = i.args := List.map_id _
          simp [Inst.sub, this]
      _ = B.body := List.map_id _
  · rw [hr.term]
    exact Term.sub_fix (fun x hx => key x (.inr hx))

theorem forall₂_left {α β : Type} {R : α → β → Prop} {l : List α} {l' : List β} (h : List.Forall₂ R l l') {b : β} (hb : b ∈ l') : ∃ a ∈ l, R a b := by
  induction h with
  | nil => simp at hb
  | cons h _ ih =>
    rcases List.mem_cons.1 hb with rfl | hb
    · exact ⟨_, by simp, h⟩
    · obtain ⟨a, ha, hr⟩ := ih hb
      exact ⟨a, by simp [ha], hr⟩

/-- entries of the phis of the result -/
theorem Elim.phi_mem (E : Elim u F G r dead) (W : LiveWf F) {b : Nat} {B : Block Op C} (hb : Live F b) (hB : F.blk b = some B)
    {p p' : Phi C} (hp : p ∈ B.phis) (h : PhiRel r (undefOf u dead) p p') {q : Nat} (hq : q ∈ r) {v : Opd C} : (q, v) ∈ p'.inc ↔ (q, v) ∈ p.inc := by
  have h1 : (q, v) ∈ p'.inc ↔ (q, v) ∈ p'.only r := by unfold Phi.only; simp [hq]
  have h2 : (p.only r).map (fun e => (e.1, e.2.sub (undefOf u dead))) = p.only r := by
    calc (p.only r).map (fun e => (e.1, e.2.sub (undefOf u dead))) = (p.only r).map id := by
          apply List.map_congr_left
          rintro ⟨q', o⟩ he
          unfold Phi.only at he
          simp only [List.mem_filter, decide_eq_true_eq] at he
          have : o.sub (undefOf u dead) = o := Opd.sub_fix (fun x hx => by
            subst hx
            obtain ⟨d, hd, hdom⟩ := W.phiUse b B p q' x hB hb hp he.1 ((E.live q').1 he.2)
            exact E.undef_live W hd (hdom.live ((E.live q').1 he.2)))
          simp [this]
      _ = p.only r := List.map_id _
  rw [h1, h.only, h2]
  unfold Phi.only
  simp [hq]

/-- dropping the dead blocks of a function whose live code is in SSA form leaves a proper function -/
theorem liveWf_proper (W : LiveWf F) : ∃ G r dead, blockEliminate u F = some G ∧ Elim u F G r dead ∧ Proper G := by
  obtain ⟨G, r, dead, h, E, hent⟩ := elim_entries (u := u) W
  have S := E.shape W.toShape
  refine ⟨G, r, dead, h, E, ⟨S.unique, S.closed, ?_, ?_, ?_, ?_, ?_, ?_⟩, S.nodup, S.listed, S.total, S.entryIn, ?_, ?_⟩
  · -- inOrder
    intro b B' hB'
    obtain ⟨hb, B, hB, hr⟩ := E.blk hB'
    obtain ⟨e1, e2⟩ := E.body_eq W hb hB hr
    have := W.inOrder b B hB hb
    unfold InOrder at this ⊢
    rw [e1, e2, hr.ids, PhiRel.ids hr.phis]
    exact this
  · -- exists_
    intro b B' hB' x hx
    obtain ⟨hb, B, hB, hr⟩ := E.blk hB'
    obtain ⟨e1, e2⟩ := E.body_eq W hb hB hr
    rcases mem_operands.1 hx with ⟨p', hp', hx⟩ | hx
    · obtain ⟨q, hq⟩ := mem_ops.1 hx
      obtain ⟨p, hp, hrel⟩ := forall₂_left hr.phis hp'
      have hqr := hent b B' p' q _ hB' hp' hq
      have hql := (E.live q).1 hqr
      obtain ⟨d, hd, hdom⟩ := W.phiUse b B p q x hB hb hp ((E.phi_mem W hb hB hp hrel hqr).1 hq) hql
      exact ⟨d, E.defIn.2 ⟨hd, hdom.live hql⟩⟩
    · rw [e1, e2] at hx
      obtain ⟨d, hd, hdom⟩ := W.use b B x hB hb hx
      exact ⟨d, E.defIn.2 ⟨hd, hdom.live hb⟩⟩
  · -- phiPred
    intro b B' p' hB' _ hp' q v hq
    obtain ⟨hb, B, hB, hr⟩ := E.blk hB'
    obtain ⟨p, hp, hrel⟩ := forall₂_left hr.phis hp'
    have hqr := hent b B' p' q _ hB' hp' hq
    exact E.edge.2 ⟨W.phiPred b B p hB hb hp q v ((E.phi_mem W hb hB hp hrel hqr).1 hq), (E.live q).1 hqr⟩
  · -- phiAll
    intro b B' p' q hB' _ hp' he _
    obtain ⟨hb, B, hB, hr⟩ := E.blk hB'
    obtain ⟨p, hp, hrel⟩ := forall₂_left hr.phis hp'
    obtain ⟨he, hq⟩ := E.edge.1 he
    obtain ⟨v, hv⟩ := W.phiAll b B p q hB hb hp he hq
    exact ⟨v, (E.phi_mem W hb hB hp hrel ((E.live q).2 hq)).2 hv⟩
  · -- phiDom
    intro b B' p' q x d hB' _ hp' hq hd _ _
    obtain ⟨hb, B, hB, hr⟩ := E.blk hB'
    obtain ⟨p, hp, hrel⟩ := forall₂_left hr.phis hp'
    have hqr := hent b B' p' q _ hB' hp' hq
    have hql := (E.live q).1 hqr
    obtain ⟨d', hd', hdom⟩ := W.phiUse b B p q x hB hb hp ((E.phi_mem W hb hB hp hrel hqr).1 hq) hql
    rw [defIn_unique W.listed W.unique (E.defIn.1 hd).1 hd']
    exact E.domi.2 hdom
  · -- useDom
    intro b B' x d hB' _ hx hd
    obtain ⟨hb, B, hB, hr⟩ := E.blk hB'
    obtain ⟨e1, e2⟩ := E.body_eq W hb hB hr
    rw [e1, e2] at hx
    obtain ⟨d', hd', hdom⟩ := W.use b B x hB hb hx
    rw [defIn_unique W.listed W.unique (E.defIn.1 hd).1 hd']
    exact E.domi.2 hdom
  · -- entryPhis
    intro B' hB'
    obtain ⟨hb, B, hB, hr⟩ := E.blk hB'
    rw [E.entry] at hB
    have := W.entryPhis B hB
    have h2 := hr.phis
    rw [this] at h2
    revert h2
    generalize B'.phis = qs
    intro h2
    cases h2; rfl
  · -- deadPhis
    intro b B' p' x d hB' _ hp' hx hd
    exact E.liveIff.2 (E.defIn.1 hd).2


end

/-! ## the other direction -/
section
variable {L : Lang} {u : Nat → L.C} {F G : L.F} {r dead : List Nat}

theorem Phi.at_inc {C : Type} {p : Phi C} {q : Nat} {o : Opd C} (h : p.at q = some o) : (q, o) ∈ p.inc := by
  unfold Phi.at at h
  rw [Option.map_eq_some_iff] at h
  obtain ⟨⟨q', o'⟩, h1, h2⟩ := h
  have h3 := List.find?_some h1
  simp only [beq_iff_eq] at h3
  simp only at h2
  subst h2 h3
  exact List.mem_of_find?_eq_some h1

theorem Elim.samePhis (E : Elim u F G r dead) (W : LiveWf F) {b q : Nat} {B B' : L.B} (hb : Live F b) (hB : F.blk b = some B) (hq : Live F q)
    (hr : BlkRel r (undefOf u dead) B B') : SamePhis q B.phis B'.phis := by
  have key : ∀ ps qs : List (Phi L.C), (∀ p ∈ ps, p ∈ B.phis) → List.Forall₂ (PhiRel r (undefOf u dead)) ps qs → SamePhis q ps qs := by
    intro ps qs hsub h
    unfold SamePhis
    induction h with
    | nil => exact .nil
    | @cons p p' ps qs h _ ih =>
      refine .cons ⟨h.id.symm, ?_⟩ (ih (fun p hp => hsub p (by simp [hp])))
      rw [h.at ((E.live q).2 hq)]
      cases ha : p.at q with
      | none => rfl
      | some o =>
        simp only [Option.map_some, Option.some.injEq]
        exact (Opd.sub_fix (fun x hx => by
          subst hx
          obtain ⟨d, hd, hdom⟩ := W.phiUse b B p q x hB hb (hsub p (by simp)) (Phi.at_inc ha) hq
          exact E.undef_live W hd (hdom.live hq))).symm
  exact key _ _ (fun _ h => h) hr.phis

theorem Elim.step_eq (E : Elim u F G r dead) (W : LiveWf F) {s : St L} (hl : Live F s.cur) (hp : ∀ q, s.pred = some q → Live F q) :
    step L G s = step L F s := by
  unfold step
  cases hB : F.blk s.cur with
  | none => rw [E.noBlk _ hB]
  | some B =>
    obtain ⟨B', hB', hr⟩ := E.kept _ B hl hB
    rw [hB']
    obtain ⟨e1, e2⟩ := E.body_eq W hl hB hr
    refine (stepBlk_congr ?_ e1.symm (fun env => by rw [e2])).symm
    cases hq : s.pred with
    | none => exact hr.phis.length_eq
    | some q => exact E.samePhis W hl hB (hp q hq) hr

theorem step_live {s s' : St L} (hl : Live F s.cur) (h : step L F s = .inl s') : Live F s'.cur ∧ ∀ q, s'.pred = some q → Live F q := by
  obtain ⟨h1, B0, h2, h3⟩ := step_target h
  exact ⟨hl.edge ⟨B0, h2, h3⟩, fun q hq => by rw [h1] at hq; cases hq; exact hl⟩

/-- when live code is in SSA form, the result does nothing that the original did not do -/
theorem Elim.refines' (E : Elim u F G r dead) (W : LiveWf F) : Refines L G F := by
  refine refines_lockstep (fun s => Live F s.cur ∧ ∀ q, s.pred = some q → Live F q) E.entry
    (fun m => ⟨by show Live F G.entry; rw [E.entry]; exact live_entry F, by intro q hq; cases hq⟩) ?_
  rintro s ⟨hl, hp⟩
  have e := E.step_eq W hl hp
  exact .inr ⟨e.symm, fun s' hs' => step_live hl (e ▸ hs')⟩

/-- **C63.** BlockEliminate terminates. On a function whose live code is in SSA form it keeps exactly the blocks that can be reached, in
their order; the result behaves exactly like the original, every block of it can be reached, and the verifier accepts it. -/
theorem C63_blockEliminate (o : Orders) (u : Nat → L.C) {F : L.F} (W : LiveWf F) : ∃ G, blockEliminate u F = some G ∧
    G.entry = F.entry ∧ G.order.Sublist F.order ∧ (∀ b, b ∈ G.order ↔ Live F b) ∧
    Refines L F G ∧ Refines L G F ∧ AllLive G ∧ Proper G ∧ G.verify o = some true := by
  obtain ⟨G, r, dead, h, E, P⟩ := liveWf_proper (u := u) W
  refine ⟨G, h, E.entry, by rw [E.order]; exact List.filter_sublist, ?_, E.refines W.toShape, E.refines' W, E.allLive, P, ?_⟩
  · intro b
    rw [E.order, List.mem_filter, decide_eq_true_eq, E.live]
    constructor
    · exact fun h => h.2
    · intro hb
      obtain ⟨B, hB⟩ := live_blk W.closed W.total W.entryIn hb
      exact ⟨W.listed b B hB, hb⟩
  · obtain ⟨r, hr, hw⟩ := C38_verify_iff o G P.nodup P.listed (List.ne_nil_of_mem P.entryIn)
    rw [hr, hw.2 P.toWellFormed]

/-- Without any assumption on the code, only on the block list, behaviour is preserved (one way: reading a dead instruction is undefined
behaviour before and an undefined value after). -/
theorem C63_any_code (u : Nat → L.C) {F : L.F} (S : Shape F) : ∃ G, blockEliminate u F = some G ∧ G.entry = F.entry ∧
    (∀ b, b ∈ G.order ↔ b ∈ F.order ∧ Live F b) ∧ AllLive G ∧ Refines L F G := by
  obtain ⟨G, r, dead, h, E⟩ := elim_spec u S
  exact ⟨G, h, E.entry, fun b => by rw [E.order, List.mem_filter, decide_eq_true_eq, E.live], E.allLive, E.refines S⟩

/-- what the verifier accepts needs one more property to be safe for this pass: the phis of a block name the same predecessors -/
theorem Proper.liveWf {F : L.F} (P : Proper F)
    (h : ∀ b B p p' q v, F.blk b = some B → p ∈ B.phis → p' ∈ B.phis → (q, v) ∈ p.inc → ∃ v', (q, v') ∈ p'.inc) : LiveWf F where
  toShape := P.shape
  entryPhis := P.entryPhis
  inOrder b B hB _ := P.inOrder b B hB
  use b B x hB hb hx := by
    obtain ⟨d, hd⟩ := P.exists_ b B hB x (mem_operands.2 (.inr hx))
    exact ⟨d, hd, P.useDom b B x d hB hb hx hd⟩
  phiUse b B p q x hB hb hp hq hql := by
    obtain ⟨d, hd⟩ := P.exists_ b B hB x (mem_operands.2 (.inl ⟨p, hp, mem_ops.2 ⟨q, hq⟩⟩))
    exact ⟨d, hd, P.phiDom b B p q x d hB hb hp hq hd (P.deadPhis b B p x d hB hb hp (mem_ops.2 ⟨q, hq⟩) hd) hql⟩
  phiPred b B p hB hb hp q v hq := P.phiPred b B p hB hb hp q v hq
  phiAll b B p q hB hb hp he hq := P.phiAll b B p q hB hb hp he hq
  phiDead b B p p' q v hB _ hp hp' hq := h b B p p' q v hB hp hp' hq

end
end Cmmc.SSA
