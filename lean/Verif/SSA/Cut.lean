import Verif.SSA.BlockElim
/-!
# Making code end early: NoReturnCallEliminate, InfiniteEliminate, UnreachableEliminate (C66)

* cmmc/Transforms/DCE/NoReturnCallEliminate.cpp:34-66: nothing behind a call of a function that does not return is executed.
* cmmc/Transforms/DCE/InfiniteEliminate.cpp:27-71 and UnreachableEliminate.cpp:31-44 (only at -O3: TransformPass.cpp:439-448 says "Assuming
  that all functions are terminated with return instructions normally"): blocks from which no `ret` can be reached, and everything in front of
  `unreachable`, is dropped.
-/
namespace Cmmc.SSA

section
variable {Op C : Type}

/-! ## the passes -/

/-- end block `b` after its first `n` instructions: the entries for `b` in the phis of its successors go away (`removePhi`), the dropped
instructions are replaced by undefined values in all their uses, and the block ends with `unreachable`. (NoReturnCallEliminate calls `removePhi`
before replacing; the two commute.) -/
def cutBlock (u : Nat → C) (F : Func Op C) (b n : Nat) : Func Op C :=
  match F.blk b with
  | none => F
  | some B =>
    let σ := undefOf u ((B.body.drop n).map Inst.id)
    let G := B.term.targets.dedup.foldl (fun G t => G.removePhi b t) (F.sub σ)
    { G with blk := fun x => (G.blk x).map fun X => if x = b then { X with body := X.body.take n, term := .unreachable } else X }

/-- the loop body of NoReturnCallEliminate (NoReturnCallEliminate.cpp:38-62); `nr op`: the instruction is a call of a function with the attribute
`NoReturn` -/
def noReturnAt (u : Nat → C) (nr : Op → Bool) (F : Func Op C) (b : Nat) : Func Op C :=
  match F.blk b with
  | none => F
  | some B => if B.body.any (fun i => nr i.op) then cutBlock u F b (B.body.findIdx (fun i => nr i.op) + 1) else F

def noReturnCallEliminate (u : Nat → C) (nr : Op → Bool) (F : Func Op C) : Func Op C := F.order.foldl (noReturnAt u nr) F

/-- predecessors (CFGAnalysis) -/
def Func.preds (F : Func Op C) (b : Nat) : List Nat := F.order.filter (fun a => decide (b ∈ F.succs a))

def Func.retBlocks (F : Func Op C) : List Nat := F.order.filter fun b => match F.blk b with | some B => (match B.term with | .ret _ => true | _ => false) | none => false

/-- the loop body of InfiniteEliminate (InfiniteEliminate.cpp:55-67) -/
def infiniteAt (u : Nat → C) (visit : List Nat) (G : Func Op C) (b : Nat) : Func Op C :=
  if b ∈ visit then G
  else match G.blk b with
    | none => G
    | some B => (match B.term with | .unreachable => G | _ => cutBlock u G b B.body.length)

/-- InfiniteEliminate (InfiniteEliminate.cpp:28-68): blocks from which no `ret` can be reached backwards get the terminator `unreachable` -/
def infiniteEliminate (u : Nat → C) (F : Func Op C) : Option (Func Op C) :=
  (bfs F.preds F.order.length F.retBlocks F.retBlocks).map fun visit =>
    if visit.length = F.order.length then F
    else F.order.foldl (infiniteAt u visit) F

/-- UnreachableEliminate (UnreachableEliminate.cpp:33-43) -/
def unreachableEliminate (F : Func Op C) : Func Op C :=
  { F with blk := fun b => (F.blk b).map fun B => match B.term with | .unreachable => ⟨[], [], .unreachable⟩ | _ => B }

/-! ## cutting keeps SSA form -/

/-- `G` is `F` with some blocks ending earlier -/
structure Cut (F G : Func Op C) : Prop where
  entry : G.entry = F.entry
  order : G.order = F.order
  nob : ∀ b, F.blk b = none → G.blk b = none
  exb : ∀ b B, F.blk b = some B → ∃ B', G.blk b = some B'
  ids : ∀ b B B', F.blk b = some B → G.blk b = some B' → B'.ids.Sublist B.ids
  tgt : ∀ b B B', F.blk b = some B → G.blk b = some B' → ∀ t ∈ B'.term.targets, t ∈ B.term.targets
  full : ∀ b B B', F.blk b = some B → G.blk b = some B' → B'.ids = B.ids ∨ B'.term.targets = []
  code : ∀ b B B', F.blk b = some B → G.blk b = some B' →
    (B'.phis.map Phi.id = B.phis.map Phi.id ∧
      (∃ n, List.Forall₂ (fun i i' => i'.id = i.id ∧ ∀ x, Opd.inst x ∈ i'.args → Opd.inst x ∈ i.args) (B.body.take n) B'.body) ∧
      ∀ x, Opd.inst x ∈ B'.term.args → Opd.inst x ∈ B.term.args ∧ B'.ids = B.ids) ∨
    (B'.phis = [] ∧ B'.body = [] ∧ ∀ x, Opd.inst x ∉ B'.term.args)
  phis : ∀ b B B', F.blk b = some B → Live F b → G.blk b = some B' → ∀ p' ∈ B'.phis, ∃ p ∈ B.phis,
    (∀ q, (∃ v, (q, v) ∈ p'.inc) ↔ (∃ v, (q, v) ∈ p.inc) ∧ Edge G q b) ∧ ∀ q x, (q, Opd.inst x) ∈ p'.inc → (q, Opd.inst x) ∈ p.inc

variable {F G : Func Op C}

theorem Cut.back (h : Cut F G) {b : Nat} {B' : Block Op C} (hB' : G.blk b = .some B') : ∃ B, F.blk b = .some B := by
  cases hB : F.blk b with
  | none => rw [h.nob b hB] at hB'; cases hB'
  | some B => exact ⟨B, rfl⟩

theorem Cut.edge (h : Cut F G) {a b : Nat} (e : Edge G a b) : Edge F a b := by
  obtain ⟨B', hB', ht⟩ := e
  obtain ⟨B, hB⟩ := h.back hB'
  exact ⟨B, hB, h.tgt a B B' hB hB' b ht⟩

theorem path_mono {E E' : Nat → Nat → Prop} (h : ∀ a b, E a b → E' a b) {a b : Nat} {p : List Nat} (hp : Dom.Path E a b p) : Dom.Path E' a b p := by
  induction hp with
  | single a => exact .single a
  | cons e _ ih => exact .cons (h _ _ e) ih

theorem Cut.live (h : Cut F G) {b : Nat} (hb : Live G b) : Live F b := by
  obtain ⟨p, hp⟩ := hb
  rw [h.entry] at hp
  exact ⟨p, path_mono (fun _ _ => h.edge) hp⟩

theorem Cut.domi (h : Cut F G) {a b : Nat} (hd : Domi F a b) : Domi G a b := by
  intro p hp
  rw [h.entry] at hp
  exact hd p (path_mono (fun _ _ => h.edge) hp)

theorem path_next {E : Nat → Nat → Prop} {a b d : Nat} {p : List Nat} (hp : Dom.Path E a b p) (hd : d ∈ p) (hne : d ≠ b) : ∃ y, E d y := by
  induction hp with
  | single a => simp at hd; exact absurd hd hne
  | @cons a b c p e _ ih =>
    rcases List.mem_cons.1 hd with rfl | hd
    · exact ⟨_, e⟩
    · exact ih hd hne

theorem Cut.defIn (h : Cut F G) {x b : Nat} (hd : DefIn G x b) : DefIn F x b := by
  obtain ⟨B', hB', hx⟩ := hd
  obtain ⟨B, hB⟩ := h.back hB'
  exact ⟨B, hB, (h.ids b B B' hB hB').subset hx⟩

/-- a block with successors has kept its instructions -/
theorem Cut.keeps (h : Cut F G) {x d y : Nat} (hd : DefIn F x d) (e : Edge G d y) : DefIn G x d := by
  obtain ⟨B, hB, hx⟩ := hd
  obtain ⟨B', hB', ht⟩ := e
  rcases h.full d B B' hB hB' with h1 | h1
  · exact ⟨B', hB', by rw [h1]; exact hx⟩
  · rw [h1] at ht; cases ht

theorem Cut.domKeeps (h : Cut F G) {x d b : Nat} (hd : DefIn F x d) (hdom : Domi F d b) (hb : Live G b) (hne : d ≠ b) : DefIn G x d := by
  obtain ⟨p, hp⟩ := hb
  have h1 := h.domi hdom p hp
  obtain ⟨y, e⟩ := path_next hp h1 hne
  exact h.keeps hd e

theorem mem_split_forall₂ {α β : Type} {R : α → β → Prop} {l : List α} {l' : List β} (h : List.Forall₂ R l l') : ∀ {pre : List β} {i : β} {post : List β},
    l' = pre ++ i :: post → ∃ pre0 i0 post0, l = pre0 ++ i0 :: post0 ∧ List.Forall₂ R pre0 pre ∧ R i0 i := by
  induction h with
  | nil => intro pre i post e; cases pre <;> cases e
  | @cons a b l l' hr ht ih =>
    intro pre i post e
    cases pre with
    | nil =>
      simp only [List.nil_append, List.cons.injEq] at e
      obtain ⟨rfl, _⟩ := e
      exact ⟨[], a, l, rfl, .nil, hr⟩
    | cons c pre =>
      simp only [List.cons_append, List.cons.injEq] at e
      obtain ⟨rfl, e⟩ := e
      obtain ⟨pre0, i0, post0, h1, h2, h3⟩ := ih e
      exact ⟨a :: pre0, i0, post0, by rw [h1]; rfl, .cons hr h2, h3⟩

theorem Cut.shape (h : Cut F G) (S : Shape F) : Shape G where
  nodup := by rw [h.order]; exact S.nodup
  listed b B' hB' := by
    obtain ⟨B, hB⟩ := h.back hB'
    rw [h.order]; exact S.listed b B hB
  total b hb := by
    rw [h.order] at hb
    obtain ⟨B, hB⟩ := S.total b hb
    exact h.exb b B hB
  entryIn := by rw [h.order, h.entry]; exact S.entryIn
  closed a b e := by rw [h.order]; exact S.closed a b (h.edge e)
  unique := by
    rw [allIds_eq]
    have hF := S.unique
    refine nodup_flatMap_of_disjoint (by rw [h.order]; exact S.nodup) ?_ ?_
    · intro b _
      cases hB' : G.blk b with
      | none => simp
      | some B' =>
        obtain ⟨B, hB⟩ := h.back hB'
        show B'.ids.Nodup
        unfold Func.allIds at hF
        exact ((List.nodup_flatMap.mp hF).1 B (S.listed.mem hB)).sublist (h.ids b B B' hB hB')
    · intro a _ b _ x hxa hxb
      have ha : DefIn G x a := by
        unfold DefIn
        cases h : G.blk a with
        | none => rw [h] at hxa; simp at hxa
        | some B => rw [h] at hxa; exact ⟨B, rfl, hxa⟩
      have hb : DefIn G x b := by
        unfold DefIn
        cases h : G.blk b with
        | none => rw [h] at hxb; simp at hxb
        | some B => rw [h] at hxb; exact ⟨B, rfl, hxb⟩
      exact defIn_unique S.listed hF (h.defIn ha) (h.defIn hb)

theorem Cut.liveWf (h : Cut F G) (W : LiveWf F) : LiveWf G where
  toShape := h.shape W.toShape
  entryPhis B' hB' := by
    obtain ⟨B, hB⟩ := h.back hB'
    rw [h.entry] at hB
    have h0 := W.entryPhis B hB
    rcases h.code _ B B' (by rw [h.entry]; exact hB) hB' with h1 | h1
    · rw [h0] at h1
      have := h1.1
      simpa using this
    · exact h1.1
  inOrder b B' hB' hb := by
    obtain ⟨B, hB⟩ := h.back hB'
    have hO := W.inOrder b B hB (h.live hb)
    refine ⟨?_, fun x _ hx => List.mem_append.1 hx⟩
    intro pre i post he x hx hxi
    rcases h.code b B B' hB hB' with ⟨h1, ⟨n, h2⟩, _⟩ | ⟨_, h2, _⟩
    · obtain ⟨pre0, i0, post0, h3, h4, h5⟩ := mem_split_forall₂ h2 he
      have hids : ∀ {l l' : List (Inst Op C)}, List.Forall₂ (fun i i' => i'.id = i.id ∧ ∀ x, Opd.inst x ∈ i'.args → Opd.inst x ∈ i.args) l l' →
          l'.map Inst.id = l.map Inst.id := by
        intro l l' hl
        induction hl with
        | nil => rfl
        | cons e _ ih => simp [e.1, ih]
      have hbody : B.body = pre0 ++ i0 :: (post0 ++ B.body.drop n) := by
        conv_lhs => rw [← List.take_append_drop n B.body, h3]
        simp
      have := hO.1 pre0 i0 (post0 ++ B.body.drop n) hbody x (h5.2 x hx)
        ((h.ids b B B' hB hB').subset hxi)
      rw [h1, hids h4]
      exact this
    · rw [h2] at he; cases pre <;> cases he
  use b B' x hB' hb hx := by
    obtain ⟨B, hB⟩ := h.back hB'
    rcases h.code b B B' hB hB' with ⟨h1, ⟨n, h2⟩, h3⟩ | ⟨_, h2, h3⟩
    · have hids : ∀ {l l' : List (Inst Op C)}, List.Forall₂ (fun i i' => i'.id = i.id ∧ ∀ x, Opd.inst x ∈ i'.args → Opd.inst x ∈ i.args) l l' →
          l'.map Inst.id = l.map Inst.id := by
        intro l l' hl
        induction hl with
        | nil => rfl
        | cons e _ ih => simp [e.1, ih]
      rcases hx with ⟨i, hi, hx⟩ | hx
      · obtain ⟨pre, post, he⟩ := List.append_of_mem hi
        obtain ⟨pre0, i0, post0, h4, h5, h6⟩ := mem_split_forall₂ h2 he
        have hbody : B.body = pre0 ++ i0 :: (post0 ++ B.body.drop n) := by
          conv_lhs => rw [← List.take_append_drop n B.body, h4]
          simp
        obtain ⟨d, hd, hdom⟩ := W.use b B x hB (h.live hb) (.inl ⟨i0, by rw [hbody]; simp, h6.2 x hx⟩)
        refine ⟨d, ?_, h.domi hdom⟩
        by_cases hne : d = b
        · subst hne
          obtain ⟨B0, hB0, hx0⟩ := hd
          rw [hB] at hB0; cases hB0
          refine ⟨B', hB', ?_⟩
          rcases (W.inOrder d B hB (h.live hb)).1 pre0 i0 _ hbody x (h6.2 x hx) hx0 with h7 | h7
          · exact List.mem_append_left _ (by rw [h1]; exact h7)
          · refine List.mem_append_right _ ?_
            rw [he, List.map_append, hids h5]
            exact List.mem_append_left _ h7
        · exact h.domKeeps hd hdom hb hne
      · obtain ⟨h4, h5⟩ := h3 x hx
        obtain ⟨d, hd, hdom⟩ := W.use b B x hB (h.live hb) (.inr h4)
        refine ⟨d, ?_, h.domi hdom⟩
        by_cases hne : d = b
        · subst hne
          obtain ⟨B0, hB0, hx0⟩ := hd
          rw [hB] at hB0; cases hB0
          exact ⟨B', hB', by rw [h5]; exact hx0⟩
        · exact h.domKeeps hd hdom hb hne
    · rcases hx with ⟨i, hi, hx⟩ | hx
      · rw [h2] at hi; cases hi
      · exact absurd hx (h3 x)
  phiUse b B' p' q x hB' hb hp' hq hql := by
    obtain ⟨B, hB⟩ := h.back hB'
    obtain ⟨p, hp, h1, h2⟩ := h.phis b B B' hB (h.live hb) hB' p' hp'
    obtain ⟨d, hd, hdom⟩ := W.phiUse b B p q x hB (h.live hb) hp (h2 q x hq) (h.live hql)
    refine ⟨d, ?_, h.domi hdom⟩
    by_cases hne : d = q
    · subst hne
      exact h.keeps hd ((h1 d).1 ⟨_, hq⟩).2
    · exact h.domKeeps hd hdom hql hne
  phiPred b B' p' hB' hb hp' q v hq := by
    obtain ⟨B, hB⟩ := h.back hB'
    obtain ⟨p, hp, h1, _⟩ := h.phis b B B' hB (h.live hb) hB' p' hp'
    exact ((h1 q).1 ⟨v, hq⟩).2
  phiAll b B' p' q hB' hb hp' he hq := by
    obtain ⟨B, hB⟩ := h.back hB'
    obtain ⟨p, hp, h1, _⟩ := h.phis b B B' hB (h.live hb) hB' p' hp'
    exact (h1 q).2 ⟨W.phiAll b B p q hB (h.live hb) hp (h.edge he) (h.live hq), he⟩
  phiDead b B' p1 p2 q v hB' hb hp1 hp2 hq := by
    obtain ⟨B, hB⟩ := h.back hB'
    obtain ⟨p, hp, h1, _⟩ := h.phis b B B' hB (h.live hb) hB' p1 hp1
    obtain ⟨p0, hp0, h2, _⟩ := h.phis b B B' hB (h.live hb) hB' p2 hp2
    obtain ⟨⟨v1, h3⟩, h4⟩ := (h1 q).1 ⟨v, hq⟩
    exact (h2 q).2 ⟨W.phiDead b B p p0 q v1 hB (h.live hb) hp hp0 h3, h4⟩


/-! ## one block -/

theorem Phi.mem_sub {u : Nat → C} {ids : List Nat} {p : Phi C} {q x : Nat} (h : (q, Opd.inst x) ∈ (p.sub (undefOf u ids)).inc) : (q, Opd.inst x) ∈ p.inc := by
  unfold Phi.sub at h
  obtain ⟨⟨q', o⟩, h1, h2⟩ := List.mem_map.1 h
  cases o with
  | cst c => cases h2
  | inst y =>
    simp only [Opd.sub, undefOf, Prod.mk.injEq] at h2
    obtain ⟨rfl, h2⟩ := h2
    split at h2
    · cases h2
    · cases h2; exact h1

theorem Opd.mem_sub {u : Nat → C} {ids : List Nat} {os : List (Opd C)} {x : Nat} (h : Opd.inst x ∈ os.map (Opd.sub (undefOf u ids))) : Opd.inst x ∈ os := by
  obtain ⟨o, h1, h2⟩ := List.mem_map.1 h
  cases o with
  | cst c => cases h2
  | inst y =>
    simp only [Opd.sub, undefOf] at h2
    split at h2
    · cases h2
    · cases h2; exact h1

theorem Term.args_sub (σ : Nat → Opd C) (t : Term C) : (t.sub σ).args = t.args.map (Opd.sub σ) := by
  cases t with
  | ret v => cases v <;> rfl
  | br t => rfl
  | cbr c t f => rfl
  | sw c d cs => rfl
  | unreachable => rfl

/-- the blocks of the result -/
theorem cutBlock_blk {u : Nat → C} {F : Func Op C} {b n : Nat} {B : Block Op C} (hB : F.blk b = some B) (x : Nat) :
    (cutBlock u F b n).blk x = (F.blk x).map (fun X =>
      let Y : Block Op C := { X.sub (undefOf u ((B.body.drop n).map Inst.id)) with
        phis := (removePhis b)^[B.term.targets.dedup.count x] (X.sub (undefOf u ((B.body.drop n).map Inst.id))).phis }
      if x = b then { Y with body := Y.body.take n, term := .unreachable } else Y) := by
  unfold cutBlock
  rw [hB]
  dsimp only
  rw [foldl_removePhi_blk]
  show (((F.blk x).map _).map _).map _ = _
  rw [Option.map_map, Option.map_map]
  rfl

theorem cutBlock_fix (u : Nat → C) (F : Func Op C) (b n : Nat) : (cutBlock u F b n).entry = F.entry ∧ (cutBlock u F b n).order = F.order := by
  unfold cutBlock
  split
  · exact ⟨rfl, rfl⟩
  · exact foldl_removePhi_fix b _ _

theorem removePhis_iter_ids {b : Nat} (n : Nat) (ps : List (Phi C)) : ((removePhis b)^[n] ps).map Phi.id = ps.map Phi.id := by
  have := removePhis_iter_rel (r := []) (b := b) (by simp) n ps
  revert this
  generalize (removePhis b)^[n] ps = qs
  intro h
  induction h with
  | nil => rfl
  | cons e _ ih => simp [e.1, ih]

theorem cutBlock_edge {u : Nat → C} {F : Func Op C} {b n : Nat} {B : Block Op C} (hB : F.blk b = some B) {x y : Nat} :
    Edge (cutBlock u F b n) x y ↔ x ≠ b ∧ Edge F x y := by
  unfold Edge
  rw [cutBlock_blk hB]
  constructor
  · rintro ⟨X', h1, h2⟩
    obtain ⟨X, hX, rfl⟩ := Option.map_eq_some_iff.1 h1
    dsimp only at h2
    split at h2
    · simp [Term.targets] at h2
    · rename_i hne
      exact ⟨hne, X, hX, by simpa [Block.sub, Term.sub_targets] using h2⟩
  · rintro ⟨hne, X, hX, h2⟩
    refine ⟨_, by rw [hX]; rfl, ?_⟩
    dsimp only
    rw [if_neg hne]
    simpa [Block.sub, Term.sub_targets] using h2

theorem cutBlock_cut (u : Nat → C) {F : Func Op C} (b n : Nat) (W : LiveWf F) : Cut F (cutBlock u F b n) := by
  cases hB : F.blk b with
  | none =>
    have : cutBlock u F b n = F := by unfold cutBlock; rw [hB]
    rw [this]
    refine ⟨rfl, rfl, fun _ h => h, fun b B h => ⟨B, h⟩, ?_, ?_, ?_, ?_, ?_⟩
    · intro b B B' h h'; rw [h] at h'; cases h'; exact .refl _
    · intro b B B' h h'; rw [h] at h'; cases h'; exact fun t ht => ht
    · intro b B B' h h'; rw [h] at h'; cases h'; exact .inl rfl
    · intro b B B' h h'; rw [h] at h'; cases h'
      exact .inl ⟨rfl, ⟨B.body.length, by rw [List.take_length]; exact List.forall₂_same.2 (fun _ _ => ⟨rfl, fun _ h => h⟩)⟩, fun x hx => ⟨hx, rfl⟩⟩
    · intro b B B' h hb h' p hp; rw [h] at h'; cases h'
      refine ⟨p, hp, fun q => ⟨fun ⟨v, hv⟩ => ⟨⟨v, hv⟩, W.phiPred b B p h hb hp q v hv⟩, fun h => h.1⟩, fun q x h => h⟩
  | some B =>
    have blk := fun x => cutBlock_blk (u := u) (n := n) hB x
    have key : ∀ x X X', F.blk x = some X → (cutBlock u F b n).blk x = some X' →
        (X'.phis = (removePhis b)^[B.term.targets.dedup.count x] (X.phis.map (Phi.sub (undefOf u ((B.body.drop n).map Inst.id))))) ∧
        (x ≠ b → X'.body = X.body.map (Inst.sub (undefOf u ((B.body.drop n).map Inst.id))) ∧ X'.term = X.term.sub (undefOf u ((B.body.drop n).map Inst.id))) ∧
        (x = b → X'.body = (X.body.map (Inst.sub (undefOf u ((B.body.drop n).map Inst.id)))).take n ∧ X'.term = .unreachable) := by
      intro x X X' hX hX'
      rw [blk, hX] at hX'
      simp only [Option.map_some, Option.some.injEq] at hX'
      subst hX'
      by_cases hx : x = b
      · rw [if_pos hx]
        exact ⟨rfl, fun h => absurd hx h, fun _ => ⟨rfl, rfl⟩⟩
      · rw [if_neg hx]
        exact ⟨rfl, fun _ => ⟨rfl, rfl⟩, fun h => absurd h hx⟩
    have hpid : ∀ x X X', F.blk x = some X → (cutBlock u F b n).blk x = some X' → X'.phis.map Phi.id = X.phis.map Phi.id := by
      intro x X X' hX hX'
      rw [(key x X X' hX hX').1, removePhis_iter_ids, List.map_map]
      rfl
    have hbid : ∀ x X X', F.blk x = some X → (cutBlock u F b n).blk x = some X' → x ≠ b → X'.ids = X.ids := by
      intro x X X' hX hX' hne
      unfold Block.ids
      rw [hpid x X X' hX hX', ((key x X X' hX hX').2.1 hne).1, List.map_map]
      rfl
    refine ⟨(cutBlock_fix u F b n).1, (cutBlock_fix u F b n).2, ?_, ?_, ?_, ?_, ?_, ?_, ?_⟩
    · intro x hx; rw [blk, hx]; rfl
    · intro x X hx; rw [blk, hx]; exact ⟨_, rfl⟩
    · intro x X X' hX hX'
      by_cases hx : x = b
      · unfold Block.ids
        rw [hpid x X X' hX hX', ((key x X X' hX hX').2.2 hx).1]
        refine List.Sublist.append (.refl _) ?_
        have : X.body.map Inst.id = (X.body.map (Inst.sub (undefOf u ((B.body.drop n).map Inst.id)))).map Inst.id := by rw [List.map_map]; rfl
        rw [this]
        exact (List.take_sublist _ _).map _
      · rw [hbid x X X' hX hX' hx]
    · intro x X X' hX hX' t ht
      exact ((cutBlock_edge hB).1 ⟨X', hX', ht⟩).2.elim (fun Y hY => by rw [hX] at hY; cases hY.1; exact hY.2)
    · intro x X X' hX hX'
      by_cases hx : x = b
      · right; rw [((key x X X' hX hX').2.2 hx).2]; rfl
      · left; exact hbid x X X' hX hX' hx
    · intro x X X' hX hX'
      refine .inl ⟨hpid x X X' hX hX', ?_⟩
      have hsub : ∀ l : List (Inst Op C), List.Forall₂ (fun i i' => i'.id = i.id ∧ ∀ x, Opd.inst x ∈ i'.args → Opd.inst x ∈ i.args) l
          (l.map (Inst.sub (undefOf u ((B.body.drop n).map Inst.id)))) := by
        intro l
        rw [List.forall₂_map_right_iff]
        exact List.forall₂_same.2 (fun i _ => ⟨rfl, fun x hx => Opd.mem_sub hx⟩)
      by_cases hx : x = b
      · obtain ⟨h1, h2⟩ := (key x X X' hX hX').2.2 hx
        refine ⟨⟨n, ?_⟩, fun y hy => ?_⟩
        · rw [h1, ← List.map_take]; exact hsub _
        · rw [h2] at hy; simp [Term.args] at hy
      · obtain ⟨h1, h2⟩ := (key x X X' hX hX').2.1 hx
        refine ⟨⟨X.body.length, ?_⟩, fun y hy => ?_⟩
        · rw [h1, List.take_length]; exact hsub _
        · rw [h2, Term.args_sub] at hy
          exact ⟨Opd.mem_sub hy, hbid x X X' hX hX' hx⟩
    · intro x X X' hX hxl hX' p' hp'
      have K := ((W.keys hxl hX).sub (undefOf u ((B.body.drop n).map Inst.id)))
      have K' := K.remove (b := b) (B.term.targets.dedup.count x) (fun he => by
        obtain ⟨B0, hB0, ht⟩ := he
        rw [hB] at hB0; cases hB0
        have : 0 < B.term.targets.dedup.count x := List.count_pos_iff.2 (List.mem_dedup.2 ht)
        omega)
      rw [(key x X X' hX hX').1] at hp'
      -- where the phi comes from
      have hfrom : ∃ p0 ∈ X.phis.map (Phi.sub (undefOf u ((B.body.drop n).map Inst.id))), (∀ q, q ≠ b → ∀ v, ((q, v) ∈ p'.inc ↔ (q, v) ∈ p0.inc)) := by
        rcases Nat.eq_zero_or_pos (B.term.targets.dedup.count x) with h0 | h0
        · rw [h0] at hp'
          exact ⟨p', hp', fun _ _ _ => Iff.rfl⟩
        · obtain ⟨k, hk⟩ := Nat.exists_eq_add_of_lt h0
          rw [hk, Nat.zero_add, removePhis_iter_alike (K.alike b)] at hp'
          obtain ⟨p0, hp0, rfl⟩ := List.mem_map.1 hp'
          refine ⟨p0, hp0, fun q hq v => ?_⟩
          unfold Phi.removeSource
          simp [hq]
      obtain ⟨p0, hp0, hiff⟩ := hfrom
      obtain ⟨p, hp, rfl⟩ := List.mem_map.1 hp0
      have hgone : ∀ v, (b, v) ∉ p'.inc := by
        intro v hv
        have h1 := K'.gone p' hp' b (by simp)
        have h2 : p'.has b = true := Phi.has_iff.2 ⟨v, hv⟩
        rw [h1] at h2; cases h2
      have hsubinc : ∀ q, (∃ v, (q, v) ∈ (p.sub (undefOf u ((B.body.drop n).map Inst.id))).inc) ↔ ∃ v, (q, v) ∈ p.inc := by
        intro q
        rw [← Phi.has_iff, ← Phi.has_iff, Phi.has_sub]
      refine ⟨p, hp, fun q => ?_, fun q y hq => ?_⟩
      · rw [cutBlock_edge hB]
        by_cases hqb : q = b
        · subst hqb
          constructor
          · rintro ⟨v, hv⟩; exact absurd hv (hgone v)
          · rintro ⟨_, h, _⟩; exact absurd rfl h
        · constructor
          · rintro ⟨v, hv⟩
            obtain ⟨v', hv'⟩ := (hsubinc q).1 ⟨v, (hiff q hqb v).1 hv⟩
            exact ⟨⟨v', hv'⟩, hqb, W.phiPred x X p hX hxl hp q v' hv'⟩
          · rintro ⟨h1, _⟩
            obtain ⟨v, hv⟩ := (hsubinc q).2 h1
            exact ⟨v, (hiff q hqb v).2 hv⟩
      · have hqb : q ≠ b := fun e => hgone _ (e ▸ hq)
        exact Phi.mem_sub ((hiff q hqb _).1 hq)


theorem Cut.of_eq {F : Func Op C} (W : LiveWf F) : Cut F F := by
  refine ⟨rfl, rfl, fun _ h => h, fun b B h => ⟨B, h⟩, ?_, ?_, ?_, ?_, ?_⟩
  · intro b B B' h h'; rw [h] at h'; cases h'; exact .refl _
  · intro b B B' h h'; rw [h] at h'; cases h'; exact fun t ht => ht
  · intro b B B' h h'; rw [h] at h'; cases h'; exact .inl rfl
  · intro b B B' h h'; rw [h] at h'; cases h'
    exact .inl ⟨rfl, ⟨B.body.length, by rw [List.take_length]; exact List.forall₂_same.2 (fun _ _ => ⟨rfl, fun _ h => h⟩)⟩, fun x hx => ⟨hx, rfl⟩⟩
  · intro b B B' h hb h' p hp; rw [h] at h'; cases h'
    refine ⟨p, hp, fun q => ⟨fun ⟨v, hv⟩ => ⟨⟨v, hv⟩, W.phiPred b B p h hb hp q v hv⟩, fun h => h.1⟩, fun q x h => h⟩

/-- the blocks in front of `unreachable` are emptied -/
theorem unreachableEliminate_cut {F : Func Op C} (W : LiveWf F) : Cut F (unreachableEliminate F) := by
  have key : ∀ b B B', F.blk b = some B → (unreachableEliminate F).blk b = some B' →
      (B' = B) ∨ (B.term = .unreachable ∧ B' = ⟨[], [], .unreachable⟩) := by
    intro b B B' hB hB'
    unfold unreachableEliminate at hB'
    simp only [hB, Option.map_some, Option.some.injEq] at hB'
    subst hB'
    split
    · rename_i h; exact .inr ⟨h, rfl⟩
    · exact .inl rfl
  have hedge : ∀ a c, Edge F a c → Edge (unreachableEliminate F) a c := by
    rintro a c ⟨B, hB, ht⟩
    obtain ⟨B', hB'⟩ : ∃ B', (unreachableEliminate F).blk a = some B' := by unfold unreachableEliminate; simp [hB]
    refine ⟨B', hB', ?_⟩
    rcases key a B B' hB hB' with rfl | ⟨h, _⟩
    · exact ht
    · rw [h] at ht; simp [Term.targets] at ht
  refine ⟨rfl, rfl, ?_, ?_, ?_, ?_, ?_, ?_, ?_⟩
  · intro b h; unfold unreachableEliminate; simp [h]
  · intro b B h; unfold unreachableEliminate; simp [h]
  · intro b B B' h h'
    rcases key b B B' h h' with rfl | ⟨_, rfl⟩
    · exact .refl _
    · simp [Block.ids]
  · intro b B B' h h'
    rcases key b B B' h h' with rfl | ⟨_, rfl⟩
    · exact fun t ht => ht
    · simp [Term.targets]
  · intro b B B' h h'
    rcases key b B B' h h' with rfl | ⟨_, rfl⟩
    · exact .inl rfl
    · exact .inr rfl
  · intro b B B' h h'
    rcases key b B B' h h' with rfl | ⟨_, rfl⟩
    · exact (Cut.of_eq W).code b B' B' h h
    · right; simp [Term.args]
  · intro b B B' h hb h' p hp
    rcases key b B B' h h' with rfl | ⟨_, rfl⟩
    · refine ⟨p, hp, fun q => ⟨fun ⟨v, hv⟩ => ⟨⟨v, hv⟩, hedge _ _ (W.phiPred b B' p h hb hp q v hv)⟩, fun h => h.1⟩, fun q x h => h⟩
    · simp at hp

/-- SimplifyPartialUnreachableBranch (C37) only drops edges to blocks without phis -/
theorem setTerm_cut {F : Func Op C} (W : LiveWf F) {b : Nat} {B : Block Op C} (hB : F.blk b = some B) (t : Term C) (ht : ∀ x ∈ t.targets, x ∈ B.term.targets)
    (hargs : ∀ x, Opd.inst x ∈ t.args → Opd.inst x ∈ B.term.args)
    (hgone : ∀ x ∈ B.term.targets, x ∉ t.targets → ∀ X, F.blk x = some X → X.phis = []) : Cut F (F.set b { B with term := t }) := by
  have key : ∀ x X X', F.blk x = some X → (F.set b { B with term := t }).blk x = some X' →
      (x ≠ b ∧ X' = X) ∨ (x = b ∧ X = B ∧ X' = { B with term := t }) := by
    intro x X X' hX hX'
    rw [Func.set_blk] at hX'
    by_cases h : x = b
    · subst h
      rw [hB] at hX; cases hX
      rw [if_pos rfl] at hX'; cases hX'
      exact .inr ⟨rfl, rfl, rfl⟩
    · rw [if_neg h, hX] at hX'; cases hX'
      exact .inl ⟨h, rfl⟩
  refine ⟨rfl, rfl, ?_, ?_, ?_, ?_, ?_, ?_, ?_⟩
  · intro x h
    rw [Func.set_blk, if_neg (fun e => by subst e; rw [hB] at h; cases h), h]
  · intro x X h
    rw [Func.set_blk]
    split
    · exact ⟨_, rfl⟩
    · exact ⟨X, h⟩
  · intro x X X' h h'
    rcases key x X X' h h' with ⟨_, rfl⟩ | ⟨rfl, rfl, rfl⟩ <;> exact .refl _
  · intro x X X' h h'
    rcases key x X X' h h' with ⟨_, rfl⟩ | ⟨rfl, rfl, rfl⟩
    · exact fun t ht => ht
    · exact ht
  · intro x X X' h h'
    rcases key x X X' h h' with ⟨_, rfl⟩ | ⟨rfl, rfl, rfl⟩ <;> exact .inl rfl
  · intro x X X' h h'
    rcases key x X X' h h' with ⟨_, rfl⟩ | ⟨rfl, rfl, rfl⟩
    · exact (Cut.of_eq W).code x X' X' h h
    · refine .inl ⟨rfl, ⟨X.body.length, ?_⟩, fun y hy => ⟨hargs y hy, rfl⟩⟩
      rw [List.take_length]; exact List.forall₂_same.2 (fun _ _ => ⟨rfl, fun _ h => h⟩)
  · intro x X X' h hx h' p hp
    have hp0 : p ∈ X.phis := by
      rcases key x X X' h h' with ⟨_, rfl⟩ | ⟨rfl, rfl, rfl⟩ <;> exact hp
    refine ⟨p, hp0, fun q => ⟨fun ⟨v, hv⟩ => ⟨⟨v, hv⟩, ?_⟩, fun h => h.1⟩, fun q x h => h⟩
    obtain ⟨Q, hQ, hq⟩ := W.phiPred x X p h hx hp0 q v hv
    by_cases hqb : q = b
    · subst hqb
      rw [hB] at hQ; cases hQ
      refine ⟨_, by rw [Func.set_blk, if_pos rfl], ?_⟩
      by_contra hn
      rw [hgone x hq hn X h] at hp0; cases hp0
    · exact ⟨Q, by rw [Func.set_blk, if_neg hqb, hQ], hq⟩

theorem unreachablePath_phis {F : Func Op C} {x : Nat} (h : unreachablePath F x = true) {X : Block Op C} (hX : F.blk x = some X) : X.phis = [] := by
  unfold unreachablePath at h
  rw [hX] at h
  split at h
  · rename_i heq; cases heq; rfl
  · cases h

theorem simplifyPartialAt_cut {F : Func Op C} (W : LiveWf F) (b : Nat) : Cut F (simplifyPartialAt F b) := by
  unfold simplifyPartialAt
  cases hB : F.blk b with
  | none => exact Cut.of_eq W
  | some B =>
    dsimp only
    cases ht : B.term with
    | cbr c t f =>
      dsimp only
      cases htu : unreachablePath F t <;> cases hfu : unreachablePath F f
      · simp only [and_self, if_true]; exact Cut.of_eq W
      · simp only [Bool.true_eq_false, and_false, if_false, ne_eq, Bool.false_eq_true, not_false_eq_true, if_true]
        refine setTerm_cut W hB _ ?_ ?_ ?_
        · simp [Term.targets, ht]
        · simp [Term.args]
        · intro x hx hn X hX
          rw [ht] at hx
          simp [Term.targets] at hx hn
          rcases hx with rfl | rfl
          · exact absurd rfl hn
          · exact unreachablePath_phis hfu hX
      · simp only [Bool.true_eq_false, false_and, if_false, ne_eq, not_false_eq_true, if_true, Bool.false_eq_true]
        refine setTerm_cut W hB _ ?_ ?_ ?_
        · simp [Term.targets, ht]
        · simp [Term.args]
        · intro x hx hn X hX
          rw [ht] at hx
          simp [Term.targets] at hx hn
          rcases hx with rfl | rfl
          · exact unreachablePath_phis htu hX
          · exact absurd rfl hn
      · simp only [Bool.true_eq_false, false_and, if_false, ne_eq, not_true_eq_false]
        refine setTerm_cut W hB _ ?_ ?_ ?_
        · simp [Term.targets]
        · simp [Term.args]
        · intro x hx hn X hX
          rw [ht] at hx
          simp [Term.targets] at hx
          rcases hx with rfl | rfl
          · exact unreachablePath_phis htu hX
          · exact unreachablePath_phis hfu hX
    | ret v => exact Cut.of_eq W
    | br t => exact Cut.of_eq W
    | sw c d cs => exact Cut.of_eq W
    | unreachable => exact Cut.of_eq W

theorem liveWf_foldl {α : Type} {f : Func Op C → α → Func Op C} (h : ∀ F a, LiveWf F → LiveWf (f F a)) : ∀ (l : List α) (F : Func Op C), LiveWf F → LiveWf (l.foldl f F) := by
  intro l
  induction l with
  | nil => intro F W; exact W
  | cons a l ih => intro F W; exact ih _ (h F a W)

end

/-! ## behaviour -/
section
variable {L : Lang} {u : Nat → L.C} {F G : L.F} {dead : List Nat}

theorem stepBlk_undef {B B' : L.B} {s : St L} {r : List Nat} (hd : ∀ x ∈ dead, s.env x = none) (hids : ∀ x ∈ B.ids, x ∉ dead)
    (hr : BlkRel r (undefOf u dead) B B') (hq : ∀ q, s.pred = some q → q ∈ r) :
    stepBlk L B s = .inr .ub ∨ (stepBlk L B' s = stepBlk L B s ∧ ∀ s', stepBlk L B s = .inl s' → ∀ x ∈ dead, s'.env x = none) := by
  have hphi : (enterPhis L s.pred s.env B.phis s.env = none ∨ enterPhis L s.pred s.env B'.phis s.env = enterPhis L s.pred s.env B.phis s.env) ∧
      ∀ env', enterPhis L s.pred s.env B.phis s.env = some env' → ∀ x ∈ dead, env' x = none := by
    cases hpred : s.pred with
    | some q =>
      exact enterPhis_undef (hq q hpred) hd hr.phis _ (fun p hp => hids _ (List.mem_append.2 (.inl (List.mem_map.2 ⟨p, hp, rfl⟩)))) hd
    | none =>
      have := hr.phis
      cases hps : B.phis with
      | nil =>
        rw [hps] at this
        have h0 : B'.phis = [] := by
          revert this
          generalize B'.phis = qs
          intro this
          cases this; rfl
        rw [h0]
        refine ⟨.inr rfl, fun env' h => ?_⟩
        simp only [enterPhis, Option.some.injEq] at h
        rw [← h]; exact hd
      | cons p ps => simp [enterPhis, phiVal]
  unfold stepBlk
  rcases hphi with ⟨h | h, hd1⟩
  · left; rw [h]
  · rw [h]
    cases he : enterPhis L s.pred s.env B.phis s.env with
    | none => exact .inl rfl
    | some env1 =>
      simp only
      obtain ⟨h2, hd2⟩ := execBody_undef (u := u) (dead := dead) B.body env1 s.m s.tr (fun i hi => hids _ (List.mem_append.2 (.inr (List.mem_map.2 ⟨i, hi, rfl⟩)))) (hd1 env1 he)
      rw [hr.body]
      rcases h2 with h2 | h2
      · left; rw [h2]
      · rw [h2]
        cases hb : execBody L B.body env1 s.m s.tr with
        | ub => exact .inl rfl
        | halt es h => exact .inr ⟨rfl, fun s' hs' => by cases hs'⟩
        | ok env2 m2 es2 =>
          simp only
          have hd2 := hd2 env2 m2 es2 hb
          rw [hr.term]
          rcases evalTerm_undef (u := u) hd2 B.term with h3 | h3
          · left; rw [h3]
          · rw [h3]
            cases ht : evalTerm L env2 B.term with
            | ub => exact .inl rfl
            | ret v => exact .inr ⟨rfl, fun s' hs' => by cases hs'⟩
            | goto b => exact .inr ⟨rfl, fun s' hs' => by cases hs'; exact hd2⟩

theorem execBody_append2 : ∀ (is js : List (Inst L.Op L.C)) (env : Env L) (m : L.M) (es : List L.E), execBody L (is ++ js) env m es =
    match execBody L is env m es with
    | .ok env' m' es' => execBody L js env' m' es'
    | .ub => .ub
    | .halt es' h => .halt es' h := by
  intro is
  induction is with
  | nil => intro js env m es; rfl
  | cons i is ih =>
    intro js env m es
    simp only [List.cons_append, execBody]
    cases evals L env i.args with
    | none => rfl
    | some vs =>
      dsimp only
      cases L.sem i.op vs m with
      | ok v m' es' => exact ih _ _ _ _
      | ub => rfl
      | halt es' h => rfl

/-- while block `b` has not been left, the cut function does what the function does in all other blocks -/
theorem cutBlock_step (S : Shape F) {b n : Nat} {B : L.B} (hB : F.blk b = some B) {s : St L} (hd : ∀ x ∈ (B.body.drop n).map Inst.id, s.env x = none)
    (hp : s.pred ≠ some b) (hc : s.cur ≠ b) : step L F s = .inr .ub ∨ (step L (cutBlock u F b n) s = step L F s ∧ ∀ s', step L F s = .inl s' →
      (∀ x ∈ (B.body.drop n).map Inst.id, s'.env x = none) ∧ s'.pred ≠ some b) := by
  cases hX : F.blk s.cur with
  | none => left; unfold step; rw [hX]
  | some X =>
    have hr := (BlkRel.refl s.pred.toList u X).step (ids' := (B.body.drop n).map Inst.id) (b := b) (by
      intro h; exact hp (by simpa using h)) (B.term.targets.dedup.count s.cur)
    rw [List.nil_append] at hr
    have hids : ∀ x ∈ X.ids, x ∉ (B.body.drop n).map Inst.id := by
      intro x hx hx'
      exact hc (defIn_unique S.listed S.unique ⟨X, hX, hx⟩ ⟨B, hB, List.mem_append_right _ (((List.drop_sublist n B.body).map _).subset hx')⟩)
    have key := stepBlk_undef hd hids hr (fun q hq => by rw [hq]; simp)
    have hsF : step L F s = stepBlk L X s := by unfold step; rw [hX]
    have hsG : step L (cutBlock u F b n) s = stepBlk L { X.sub (undefOf u ((B.body.drop n).map Inst.id)) with
        phis := (removePhis b)^[B.term.targets.dedup.count s.cur] (X.sub (undefOf u ((B.body.drop n).map Inst.id))).phis } s := by
      unfold step; rw [cutBlock_blk hB, hX]
      simp only [Option.map_some, if_neg hc]
    rw [hsF, hsG]
    rcases key with h | ⟨h1, h2⟩
    · exact .inl h
    · refine .inr ⟨h1, fun s' hs' => ⟨h2 s' hs', ?_⟩⟩
      have := step_target (hsF.trans hs')
      rw [this.1]
      simpa using hc

/-- the block that is cut: its first `n` instructions are executed as before -/
theorem cutBlock_step_at (S : Shape F) {b n : Nat} {B : L.B} (hB : F.blk b = some B) {s : St L} (hd : ∀ x ∈ (B.body.drop n).map Inst.id, s.env x = none)
    (hp : s.pred ≠ some b) (hc : s.cur = b) : stepBlk L { B with body := B.body.take n, term := .unreachable } s = .inr .ub ∨
      step L (cutBlock u F b n) s = stepBlk L { B with body := B.body.take n, term := .unreachable } s := by
  have hr := (BlkRel.refl s.pred.toList u { B with body := B.body.take n, term := .unreachable }).step (ids' := (B.body.drop n).map Inst.id) (b := b) (by
      intro h; exact hp (by simpa using h)) (B.term.targets.dedup.count b)
  rw [List.nil_append] at hr
  have hnd : B.ids.Nodup := by
    have hF := S.unique
    unfold Func.allIds at hF
    exact (List.nodup_flatMap.mp hF).1 B (S.listed.mem hB)
  have hsplit : B.ids = (B.phis.map Phi.id ++ (B.body.take n).map Inst.id) ++ (B.body.drop n).map Inst.id := by
    unfold Block.ids
    rw [List.append_assoc, ← List.map_append, List.take_append_drop]
  have hids : ∀ x ∈ ({ B with body := B.body.take n, term := .unreachable } : L.B).ids, x ∉ (B.body.drop n).map Inst.id := by
    intro x hx hx'
    rw [hsplit] at hnd
    exact (List.nodup_append.1 hnd).2.2 x hx x hx' rfl
  rcases stepBlk_undef hd hids hr (fun q hq => by rw [hq]; simp) with h | ⟨h, _⟩
  · exact .inl h
  · refine .inr ?_
    rw [← h]
    unfold step
    rw [cutBlock_blk hB, hc, hB]
    simp only [Option.map_some, if_true, Block.sub, List.map_take]
    rfl

/-- cutting a block behind instructions that are never passed does not change behaviour -/
theorem cutBlock_refines (S : Shape F) {b n : Nat} {B : L.B} (hB : F.blk b = some B)
    (hno : ∀ env m es env' m' es', execBody L (B.body.take n) env m es ≠ .ok env' m' es') : Refines L F (cutBlock u F b n) := by
  refine refines_lockstep (fun s => (∀ x ∈ (B.body.drop n).map Inst.id, s.env x = none) ∧ s.pred ≠ some b) (cutBlock_fix u F b n).1.symm
    (fun m => ⟨fun _ _ => rfl, by simp [start]⟩) ?_
  rintro s ⟨hd, hp⟩
  by_cases hc : s.cur = b
  · have heq : stepBlk L B s = stepBlk L { B with body := B.body.take n, term := .unreachable } s := by
      unfold stepBlk
      cases enterPhis L s.pred s.env B.phis s.env with
      | none => rfl
      | some env =>
        dsimp only
        conv_lhs => rw [← List.take_append_drop n B.body, execBody_append2]
        have := hno env s.m s.tr
        cases he : execBody L (B.body.take n) env s.m s.tr with
        | ok env' m' es' => exact absurd he (this _ _ _)
        | ub => rfl
        | halt es h => rfl
    have hnl : ∀ s', stepBlk L { B with body := B.body.take n, term := .unreachable } s ≠ .inl s' := by
      intro s' h
      unfold stepBlk at h
      split at h
      · cases h
      · split at h
        · cases h
        · cases h
        · simp [evalTerm] at h
    have hsF : step L F s = stepBlk L B s := by unfold step; rw [hc, hB]
    rw [hsF, heq]
    rcases cutBlock_step_at (u := u) S hB hd hp hc with h | h
    · exact .inl h
    · exact .inr ⟨h, fun s' hs' => absurd hs' (hnl s')⟩
  · exact cutBlock_step S hB hd hp hc

/-- cutting a block from which the function never returns keeps the runs that return -/
theorem cutBlock_refinesRet (S : Shape F) {b n : Nat} {B : L.B} (hB : F.blk b = some B)
    (hno : ∀ (s : St L) k v m tr, s.cur = b → run L F k s ≠ .inr (.ret v m tr)) : RefinesRet L F (cutBlock u F b n) := by
  have main : ∀ k (s : St L), (∀ x ∈ (B.body.drop n).map Inst.id, s.env x = none) → s.pred ≠ some b → ∀ v m tr,
      run L F k s = .inr (.ret v m tr) → run L (cutBlock u F b n) k s = .inr (.ret v m tr) := by
    intro k
    induction k with
    | zero => intro s _ _ v m tr h; cases h
    | succ k ih =>
      intro s hd hp v m tr h
      have hc : s.cur ≠ b := fun hc => hno s _ v m tr hc h
      simp only [run] at h ⊢
      rcases cutBlock_step (u := u) S hB hd hp hc with h1 | ⟨h1, h2⟩
      · rw [h1] at h; cases h
      · rw [h1]
        cases hs : step L F s with
        | inl s' =>
          rw [hs] at h
          exact ih s' (h2 s' hs).1 (h2 s' hs).2 v m tr h
        | inr r => rw [hs] at h; exact h
  rintro m v m' tr ⟨k, hk⟩
  refine ⟨k, ?_⟩
  have h0 : start L (cutBlock u F b n) m = start L F m := by unfold start; rw [(cutBlock_fix u F b n).1]
  rw [h0]
  exact main k _ (fun _ _ => rfl) (by simp [start]) v m' tr hk

/-! ## NoReturnCallEliminate -/

/-- the calls the pass looks for do not come back -/
def NoReturnOps (L : Lang) (nr : L.Op → Bool) : Prop := ∀ op, nr op = true → ∀ vs m v m' es, L.sem op vs m ≠ .ok v m' es

theorem noReturn_stops {nr : L.Op → Bool} (h : NoReturnOps L nr) : ∀ (is : List (Inst L.Op L.C)), is.any (fun i => nr i.op) = true →
    ∀ env m es env' m' es', execBody L (is.take (is.findIdx (fun i => nr i.op) + 1)) env m es ≠ .ok env' m' es' := by
  intro is
  induction is with
  | nil => intro h; simp at h
  | cons i is ih =>
    intro hany env m es env' m' es' hok
    rw [List.take_succ_cons] at hok
    simp only [execBody] at hok
    cases hi : nr i.op with
    | true =>
      split at hok
      · cases hok
      · split at hok
        · rename_i hsem
          exact h i.op hi _ _ _ _ _ hsem
        · cases hok
        · cases hok
    | false =>
      have hf : (i :: is).findIdx (fun i => nr i.op) = is.findIdx (fun i => nr i.op) + 1 := by
        rw [List.findIdx_cons]; simp [hi]
      rw [hf] at hok
      have hany' : is.any (fun i => nr i.op) = true := by simpa [hi] using hany
      split at hok
      · cases hok
      · split at hok
        · exact ih hany' _ _ _ _ _ _ hok
        · cases hok
        · cases hok

theorem noReturnAt_refines {nr : L.Op → Bool} (h : NoReturnOps L nr) (S : Shape F) (b : Nat) : Refines L F (noReturnAt u nr F b) := by
  unfold noReturnAt
  cases hB : F.blk b with
  | none => exact Refines.refl F
  | some B =>
    dsimp only
    split
    · rename_i hany
      exact cutBlock_refines S hB (noReturn_stops h B.body hany)
    · exact Refines.refl F

theorem noReturnAt_liveWf {nr : L.Op → Bool} (F : L.F) (b : Nat) (W : LiveWf F) : LiveWf (noReturnAt u nr F b) := by
  unfold noReturnAt
  cases hB : F.blk b with
  | none => exact W
  | some B =>
    dsimp only
    split
    · exact (cutBlock_cut u b _ W).liveWf W
    · exact W

theorem C66_noReturnCallEliminate (u : Nat → L.C) {nr : L.Op → Bool} (h : NoReturnOps L nr) {F : L.F} (W : LiveWf F) :
    Refines L F (noReturnCallEliminate u nr F) ∧ LiveWf (noReturnCallEliminate u nr F) := by
  refine ⟨?_, liveWf_foldl (fun F b W => noReturnAt_liveWf F b W) _ _ W⟩
  unfold noReturnCallEliminate
  have main : ∀ (l : List Nat) (F : L.F), LiveWf F → Refines L F (l.foldl (noReturnAt u nr) F) := by
    intro l
    induction l with
    | nil => intro F _; exact Refines.refl F
    | cons b l ih => intro F W; exact (noReturnAt_refines h W.toShape b).trans (ih _ (noReturnAt_liveWf F b W))
  exact main _ _ W

/-! ## InfiniteEliminate -/

/-- `b` cannot reach a block that ends with `ret` -/
def NoExit {Op C : Type} (F : Func Op C) (b : Nat) : Prop := ¬ ∃ p r B v, Dom.Path (Edge F) b r p ∧ F.blk r = some B ∧ B.term = .ret v

/-- a run that has entered such a block does not return -/
theorem noExit_run (V : List Nat) (hpre : ∀ a c, Edge F a c → c ∈ V → a ∈ V) (hret : ∀ b B v, F.blk b = some B → B.term = .ret v → b ∈ V) :
    ∀ k (s : St L) v m tr, s.cur ∉ V → run L F k s ≠ .inr (.ret v m tr) := by
  intro k
  induction k with
  | zero => intro s v m tr _ h; cases h
  | succ k ih =>
    intro s v m tr hc h
    simp only [run] at h
    cases hs : step L F s with
    | inl s' =>
      rw [hs] at h
      obtain ⟨_, B, hB, ht⟩ := step_target hs
      exact ih s' v m tr (fun hv => hc (hpre _ _ ⟨B, hB, ht⟩ hv)) h
    | inr r =>
      rw [hs] at h
      simp only [Sum.inr.injEq] at h
      subst h
      unfold step at hs
      split at hs
      · cases hs
      · rename_i B hB
        unfold stepBlk at hs
        split at hs
        · cases hs
        · split at hs
          · cases hs
          · cases hs
          · rename_i env m1 es1 _
            split at hs
            · cases hs
            · rename_i v1 hv
              cases ht : B.term with
              | ret o => exact hc (hret _ B o hB ht)
              | br t => rw [ht] at hv; cases hv
              | cbr c t f => rw [ht] at hv; simp only [evalTerm] at hv; split at hv <;> cases hv
              | sw c d cs =>
                rw [ht] at hv
                simp only [evalTerm] at hv
                split at hv
                · cases hv
                · split at hv <;> cases hv
              | unreachable => rw [ht] at hv; cases hv
            · cases hs

theorem cutBlock_ret {Op C : Type} {u : Nat → C} {F : Func Op C} {b n : Nat} {V : List Nat} (hret : ∀ b B v, F.blk b = some B → B.term = .ret v → b ∈ V) :
    ∀ x B v, (cutBlock u F b n).blk x = some B → B.term = .ret v → x ∈ V := by
  intro x X' v hX' ht
  cases hB : F.blk b with
  | none =>
    have : cutBlock u F b n = F := by unfold cutBlock; rw [hB]
    rw [this] at hX'
    exact hret x X' v hX' ht
  | some B =>
    rw [cutBlock_blk hB] at hX'
    obtain ⟨X, hX, rfl⟩ := Option.map_eq_some_iff.1 hX'
    dsimp only at ht
    split at ht
    · cases ht
    · simp only [Block.sub] at ht
      cases hXt : X.term with
      | ret o => exact hret x X o hX hXt
      | _ => rw [hXt] at ht; simp [Term.sub] at ht

theorem infiniteAt_cases {Op C : Type} (u : Nat → C) (visit : List Nat) (G : Func Op C) (b : Nat) :
    infiniteAt u visit G b = G ∨ ∃ B, b ∉ visit ∧ G.blk b = some B ∧ infiniteAt u visit G b = cutBlock u G b B.body.length := by
  unfold infiniteAt
  split
  · exact .inl rfl
  · rename_i hb
    cases hB : G.blk b with
    | none => exact .inl rfl
    | some B =>
      dsimp only
      cases B.term <;> first | exact .inl rfl | exact .inr ⟨B, hb, rfl, rfl⟩

theorem infinite_fold (u : Nat → L.C) (V : List Nat) : ∀ (l : List Nat) (F : L.F), LiveWf F → (∀ a c, Edge F a c → c ∈ V → a ∈ V) →
    (∀ b B v, F.blk b = some B → B.term = .ret v → b ∈ V) → RefinesRet L F (l.foldl (infiniteAt u V) F) ∧ LiveWf (l.foldl (infiniteAt u V) F) := by
  intro l
  induction l with
  | nil => intro F W _ _; exact ⟨RefinesRet.refl F, W⟩
  | cons b l ih =>
    intro F W hpre hret
    rw [List.foldl_cons]
    rcases infiniteAt_cases u V F b with h | ⟨B, hb, hB, h⟩
    · rw [h]; exact ih F W hpre hret
    · rw [h]
      have hcut := cutBlock_cut u b B.body.length W
      obtain ⟨h1, h2⟩ := ih _ (hcut.liveWf W) (fun a c e hc => hpre a c (hcut.edge e) hc) (cutBlock_ret hret)
      exact ⟨(cutBlock_refinesRet W.toShape hB (fun s k v m tr hs => noExit_run V hpre hret k s v m tr (hs ▸ hb))).trans h1, h2⟩

theorem mem_preds {Op C : Type} {F : Func Op C} (hl : F.Listed) {a b : Nat} : a ∈ F.preds b ↔ Edge F a b := by
  unfold Func.preds
  rw [List.mem_filter, decide_eq_true_eq, succs_edge]
  exact ⟨fun h => h.2, fun ⟨B, hB, h⟩ => ⟨hl a B hB, B, hB, h⟩⟩

theorem mem_retBlocks {Op C : Type} {F : Func Op C} (hl : F.Listed) {b : Nat} : b ∈ F.retBlocks ↔ ∃ B v, F.blk b = some B ∧ B.term = .ret v := by
  unfold Func.retBlocks
  rw [List.mem_filter]
  constructor
  · rintro ⟨_, h⟩
    cases hB : F.blk b with
    | none => rw [hB] at h; simp at h
    | some B =>
      rw [hB] at h
      cases ht : B.term with
      | ret v => exact ⟨B, v, rfl, ht⟩
      | _ => simp [ht] at h
  · rintro ⟨B, v, hB, ht⟩
    exact ⟨hl b B hB, by rw [hB]; simp [ht]⟩

/-- the search finds exactly the blocks from which a `ret` can be reached -/
theorem infinite_search {Op C : Type} {F : Func Op C} (S : Shape F) : ∃ V, bfs F.preds F.order.length F.retBlocks F.retBlocks = some V ∧
    V.Nodup ∧ (∀ b ∈ V, b ∈ F.order) ∧ (∀ a c, Edge F a c → c ∈ V → a ∈ V) ∧ (∀ b B v, F.blk b = some B → B.term = .ret v → b ∈ V) ∧
    ∀ b, b ∈ V ↔ ¬ NoExit F b := by
  obtain ⟨V, h1, h2, h3, h4⟩ := bfs_reach (next := F.preds) (U := F.order) (S := F.retBlocks)
    (fun a _ b hb => (List.mem_filter.1 hb).1) (S.nodup.filter _) (fun b hb => (List.mem_filter.1 hb).1)
  refine ⟨V, h1, h2, h3, ?_, ?_, ?_⟩
  · intro a c e hc
    obtain ⟨r, hr, h⟩ := (h4 c).1 hc
    exact (h4 a).2 ⟨r, hr, h.tail ((mem_preds S.listed).2 e)⟩
  · intro b B v hB ht
    exact (h4 b).2 ⟨b, (mem_retBlocks S.listed).2 ⟨B, v, hB, ht⟩, .refl⟩
  · intro b
    unfold NoExit
    rw [not_not, h4]
    constructor
    · rintro ⟨r, hr, h⟩
      obtain ⟨B, v, hB, ht⟩ := (mem_retBlocks S.listed).1 hr
      have : ∃ p, Dom.Path (Edge F) b r p := by
        induction h with
        | refl => exact ⟨_, .single _⟩
        | tail _ e ih =>
          obtain ⟨p, hp⟩ := ih
          exact ⟨_, .cons ((mem_preds S.listed).1 e) hp⟩
      obtain ⟨p, hp⟩ := this
      exact ⟨p, r, B, v, hp, hB, ht⟩
    · rintro ⟨p, r, B, v, hp, hB, ht⟩
      refine ⟨r, (mem_retBlocks S.listed).2 ⟨B, v, hB, ht⟩, ?_⟩
      clear hB ht
      induction hp with
      | single _ => exact .refl
      | cons e _ ih => exact ih.tail ((mem_preds S.listed).2 e)

theorem C66_infiniteEliminate (u : Nat → L.C) {F : L.F} (W : LiveWf F) : ∃ G, infiniteEliminate u F = some G ∧ RefinesRet L F G ∧ LiveWf G := by
  obtain ⟨V, h1, h2, h3, h4, h5, h6⟩ := infinite_search W.toShape
  unfold infiniteEliminate
  rw [h1]
  refine ⟨_, rfl, ?_⟩
  dsimp only
  split
  · exact ⟨RefinesRet.refl F, W⟩
  · exact infinite_fold u V F.order F W h4 h5

/-! ## UnreachableEliminate -/

/-- what stands in front of `unreachable` cannot end the program -/
def NoHaltBefore (L : Lang) (F : L.F) : Prop := ∀ b B, F.blk b = some B → B.term = .unreachable → ∀ i ∈ B.body, ∀ vs m es h, L.sem i.op vs m ≠ .halt es h

theorem unreachableEliminate_blk (F : L.F) (b : Nat) : (unreachableEliminate F).blk b = F.blk b ∨
    ∃ B, F.blk b = some B ∧ B.term = .unreachable ∧ (unreachableEliminate F).blk b = some ⟨[], [], .unreachable⟩ := by
  unfold unreachableEliminate
  cases hB : F.blk b with
  | none => simp [hB]
  | some B =>
    simp only [hB, Option.map_some]
    cases ht : B.term with
    | unreachable => exact .inr ⟨B, rfl, ht, rfl⟩
    | _ => exact .inl rfl

theorem stepBlk_unreachable {B : L.B} (hB : B.term = .unreachable) (s : St L) : stepBlk L B s = .inr .ub ∨ ∃ es h, stepBlk L B s = .inr (.halt h es) := by
  unfold stepBlk
  split
  · exact .inl rfl
  · split
    · exact .inl rfl
    · exact .inr ⟨_, _, rfl⟩
    · rw [hB]; exact .inl rfl

theorem execBody_noHalt : ∀ (is : List (Inst L.Op L.C)), (∀ i ∈ is, ∀ vs m es h, L.sem i.op vs m ≠ .halt es h) → ∀ env m tr es h, execBody L is env m tr ≠ .halt es h := by
  intro is
  induction is with
  | nil => intro _ env m tr es h e; cases e
  | cons i is ih =>
    intro hi env m tr es h e
    simp only [execBody] at e
    split at e
    · cases e
    · split at e
      · exact ih (fun j hj => hi j (by simp [hj])) _ _ _ _ _ e
      · cases e
      · rename_i hs; exact hi i (by simp) _ _ _ _ hs

theorem C66_unreachableEliminate {F : L.F} (W : LiveWf F) : RefinesRet L F (unreachableEliminate F) ∧ LiveWf (unreachableEliminate F) ∧
    (NoHaltBefore L F → Refines L F (unreachableEliminate F)) := by
  refine ⟨?_, (unreachableEliminate_cut W).liveWf W, ?_⟩
  · have main : ∀ k (s : St L) v m tr, run L F k s = .inr (.ret v m tr) → run L (unreachableEliminate F) k s = .inr (.ret v m tr) := by
      intro k
      induction k with
      | zero => intro s v m tr h; cases h
      | succ k ih =>
        intro s v m tr h
        simp only [run] at h ⊢
        rcases unreachableEliminate_blk F s.cur with hb | ⟨B, hB, ht, _⟩
        · have : step L (unreachableEliminate F) s = step L F s := by unfold step; rw [hb]
          rw [this]
          cases hs : step L F s with
          | inl s' => rw [hs] at h; exact ih s' v m tr h
          | inr r => rw [hs] at h; exact h
        · have : step L F s = stepBlk L B s := by unfold step; rw [hB]
          rw [this] at h
          rcases stepBlk_unreachable ht s with h1 | ⟨es, hh, h1⟩
          · rw [h1] at h; cases h
          · rw [h1] at h; cases h
    rintro m v m' tr ⟨k, hk⟩
    exact ⟨k, main k _ v m' tr hk⟩
  · intro hn
    refine refines_lockstep (fun _ => True) rfl (fun _ => trivial) ?_
    intro s _
    rcases unreachableEliminate_blk F s.cur with hb | ⟨B, hB, ht, _⟩
    · right
      exact ⟨by unfold step; rw [hb], fun _ _ => trivial⟩
    · left
      have : step L F s = stepBlk L B s := by unfold step; rw [hB]
      rw [this]
      unfold stepBlk
      split
      · rfl
      · split
        · rfl
        · rename_i es h he
          exact absurd he (execBody_noHalt _ (hn _ B hB ht) _ _ _ _ _)
        · rw [ht]; rfl

/-! ## the -O3 group -/

theorem simplifyPartial_liveWf {F : L.F} (W : LiveWf F) : LiveWf (simplifyPartial F) :=
  liveWf_foldl (fun _ b W => (simplifyPartialAt_cut W b).liveWf W) _ _ W

/-- TransformPass.cpp:438-447: InfiniteEliminate, UnreachableEliminate, SimplifyPartialUnreachableBranch, BlockEliminate -/
def unreachableGroup {Op C : Type} (u : Nat → C) (F : Func Op C) : Option (Func Op C) :=
  (infiniteEliminate u F).bind fun G => blockEliminate u (simplifyPartial (unreachableEliminate G))

/-- the four passes keep every run that returns; the result is in SSA form and accepted by the verifier -/
theorem C66_group (o : Orders) (u : Nat → L.C) {F : L.F} (W : LiveWf F) : ∃ G, unreachableGroup u F = some G ∧ RefinesRet L F G ∧ AllLive G ∧ Proper G ∧
    G.verify o = some true := by
  obtain ⟨G1, h1, r1, W1⟩ := C66_infiniteEliminate u W
  obtain ⟨r2, W2, _⟩ := C66_unreachableEliminate W1
  have r3 := C37_simplifyPartialUnreachable (unreachableEliminate G1)
  obtain ⟨G, h4, _, _, _, r4, _, hl, hp, hv⟩ := C63_blockEliminate o u (simplifyPartial_liveWf W2)
  exact ⟨G, by unfold unreachableGroup; rw [h1]; exact h4, ((r1.trans r2).trans r3.ret).trans r4.ret, hl, hp, hv⟩

end
end Cmmc.SSA
