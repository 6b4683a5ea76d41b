import Verif.SSA.Cut
/-!
# BlockMerge (cmmc/Transforms/ControlFlow/BlockMerge.cpp:40-110): C69

A block that ends with an unconditional jump to a block with no other predecessor and no phis is joined with it.
-/
namespace Cmmc.SSA

section
variable {Op C : Type}

/-- one phi in `retargetBlock(target, oldSource, newSource)` (BlockUtil.cpp:187-199) -/
def Phi.retarget (o n : Nat) (p : Phi C) : Phi C := if p.has n then p.removeSource o else p.replaceSource o n

/-- `retargetBlock` (BlockUtil.cpp:187-199) -/
def Func.retargetBlock (F : Func Op C) (tgt o n : Nat) : Func Op C := F.mapPhis tgt (List.map (Phi.retarget o n))

/-- the merge itself (BlockMerge.cpp:76-99). The code removes merged blocks at the end of a round (l.104-105), until then they are empty and skipped
(l.65): here they are removed at once. -/
def Func.mergeInto (F : Func Op C) (b t : Nat) : Func Op C :=
  match F.blk b, F.blk t with
  | some B, some T =>
    let G := T.term.targets.dedup.foldl (fun G x => G.retargetBlock x t b) (F.set b { B with body := B.body ++ T.body, term := T.term })
    { G with order := F.order.filter (fun x => decide (x ≠ t)), blk := fun x => if x = t then none else G.blk x }
  | _, _ => F

/-- one iteration of the loop over the blocks (BlockMerge.cpp:62-102); `ref` is `blockRef`, the flag says whether something was merged -/
def mergeAt (dom : Nat → Nat → Bool) (ref : Nat → Nat) (st : Func Op C × Bool) (b : Nat) : Func Op C × Bool :=
  match st.1.blk b with
  | none => st
  | some B =>
    match B.term with
    | .br t =>
      if b = t then st
      else if dom b t = false then st
      else if ref t = 1 then
        match st.1.blk t with
        | some T => if T.phis.isEmpty then (st.1.mergeInto b t, true) else st
        | none => st
      else st
    | _ => st

/-- `tryMerge` (BlockMerge.cpp:44-107); `blockRef` counts the blocks that can jump to a block (l.46-60), once each -/
def mergeRound (dom : Nat → Nat → Bool) (F : Func Op C) : Func Op C × Bool :=
  F.order.foldl (mergeAt dom (fun x => (F.preds x).length)) (F, false)

/-- `while(tryMerge())` (BlockMerge.cpp:110-111) -/
def mergeLoop (dom : Nat → Nat → Bool) : Nat → Func Op C → Option (Func Op C)
  | 0, _ => none
  | n + 1, F => if (mergeRound dom F).2 then mergeLoop dom n (mergeRound dom F).1 else some (mergeRound dom F).1

/-- `BlockMerge::run`: dominance is that of the function before the pass (BlockMerge.cpp:43) -/
def blockMerge (o : Orders) (F : Func Op C) : Option (Func Op C) :=
  (F.dom o).bind fun t => mergeLoop (fun a b => t.dominate a b) (F.order.length + 1) F

/-! ## the merged function -/

/-- when a merge is justified -/
structure Mergeable (F : Func Op C) (b t : Nat) (B T : Block Op C) : Prop where
  hB : F.blk b = some B
  hT : F.blk t = some T
  term : B.term = .br t
  ne : b ≠ t
  ent : t ≠ F.entry
  phis : T.phis = []
  only : ∀ q, Edge F q t → q = b

theorem foldl_mapPhis_blk (f : List (Phi C) → List (Phi C)) : ∀ (l : List Nat) (F : Func Op C), l.Nodup → ∀ x,
    (l.foldl (fun G y => G.mapPhis y f) F).blk x = (F.blk x).map (fun X => if x ∈ l then { X with phis := f X.phis } else X) := by
  intro l
  induction l with
  | nil => intro F _ x; simp
  | cons y l ih =>
    intro F hn x
    rw [List.foldl_cons, ih _ (List.nodup_cons.1 hn).2, Func.mapPhis_blk, Option.map_map]
    congr 1
    funext X
    simp only [Function.comp]
    by_cases hx : x = y
    · subst hx
      simp [(List.nodup_cons.1 hn).1]
    · simp [hx]

theorem foldl_mapPhis_fix (f : List (Phi C) → List (Phi C)) : ∀ (l : List Nat) (F : Func Op C),
    (l.foldl (fun G y => G.mapPhis y f) F).entry = F.entry ∧ (l.foldl (fun G y => G.mapPhis y f) F).order = F.order := by
  intro l
  induction l with
  | nil => intro F; exact ⟨rfl, rfl⟩
  | cons y l ih =>
    intro F
    rw [List.foldl_cons]
    obtain ⟨h1, h2⟩ := ih (F.mapPhis y f)
    exact ⟨h1.trans (Func.mapPhis_entry F y f), h2.trans (Func.mapPhis_order F y f)⟩

/-- where a definition ends up -/
def mv (b t x : Nat) : Nat := if x = t then b else x

theorem mv_ne {b t x : Nat} (h : x ≠ t) : mv b t x = x := if_neg h
theorem mv_eq {b t : Nat} : mv b t t = b := if_pos rfl

theorem Phi.mem_replaceSource {p : Phi C} {o n q : Nat} {v : Opd C} : (q, v) ∈ (p.replaceSource o n).inc ↔ ∃ q0, (q0, v) ∈ p.inc ∧ q = mv n o q0 := by
  unfold Phi.replaceSource mv
  simp only [List.mem_map, Prod.exists]
  constructor
  · rintro ⟨a, w, h1, h2⟩
    split at h2
    · cases h2; exact ⟨a, h1, by rw [if_pos (by assumption)]⟩
    · rename_i h; cases h2; exact ⟨_, h1, by rw [if_neg h]⟩
  · rintro ⟨a, h1, h2⟩
    refine ⟨a, v, h1, ?_⟩
    split
    · rw [if_pos (by assumption)] at h2; rw [h2]
    · rw [if_neg (by assumption)] at h2; rw [h2]

theorem Phi.at_replaceSource {p : Phi C} {o n q : Nat} (hn : p.has n = false) (hq : q ≠ n) : (p.replaceSource o n).at (mv n o q) = p.at q := by
  unfold Phi.at Phi.replaceSource
  rw [List.find?_map, Option.map_map]
  have hno : ∀ e ∈ p.inc, e.1 ≠ n := by
    intro e he h
    have : p.has n = true := Phi.has_iff.2 ⟨e.2, by rw [← h]; exact he⟩
    rw [hn] at this; cases this
  have h1 : p.inc.find? ((fun e => e.1 == mv n o q) ∘ fun e => if e.1 = o then (n, e.2) else e) = p.inc.find? (fun e => e.1 == q) := by
    generalize p.inc = l at hno
    induction l with
    | nil => rfl
    | cons e l ih =>
      have hl := ih (fun e he => hno e (List.mem_cons_of_mem _ he))
      have hen := hno e (by simp)
      rw [List.find?_cons, List.find?_cons, hl]
      have : ((fun e : Nat × Opd C => e.1 == mv n o q) ∘ fun e => if e.1 = o then (n, e.2) else e) e = (e.1 == q) := by
        show ((if e.1 = o then (n, e.2) else e).1 == mv n o q) = (e.1 == q)
        unfold mv
        by_cases h1 : e.1 = o
        · rw [if_pos h1]
          by_cases h2 : q = o
          · rw [if_pos h2, h1, h2]; simp
          · rw [if_neg h2, h1]
            show (n == q) = (o == q)
            have a1 : (n == q) = false := by simpa using Ne.symm hq
            have a2 : (o == q) = false := by simpa using Ne.symm h2
            rw [a1, a2]
        · rw [if_neg h1]
          by_cases h2 : q = o
          · rw [if_pos h2, h2]
            have a1 : (e.1 == n) = false := by simpa using hen
            have a2 : (e.1 == o) = false := by simpa using h1
            rw [a1, a2]
          · rw [if_neg h2]
      rw [this]
  rw [h1]
  cases p.inc.find? (fun e => e.1 == q) with
  | none => rfl
  | some e =>
    simp only [Option.map_some, Function.comp, Option.some.injEq]
    split <;> rfl

theorem Phi.replaceSource_id {p : Phi C} {o n : Nat} (h : p.has o = false) : p.replaceSource o n = p := by
  unfold Phi.replaceSource
  have : p.inc.map (fun e => if e.1 = o then (n, e.2) else e) = p.inc := by
    refine (List.map_congr_left (g := fun e => e) ?_).trans (List.map_id' _)
    intro e he
    rw [if_neg]
    · intro h'
      have : p.has o = true := Phi.has_iff.2 ⟨e.2, by rw [← h']; exact he⟩
      rw [h] at this; cases this
  rw [this]

variable {F : Func Op C} {b t : Nat} {B T : Block Op C}

theorem mergeInto_fix (M : Mergeable F b t B T) : (F.mergeInto b t).entry = F.entry ∧ (F.mergeInto b t).order = F.order.filter (fun x => decide (x ≠ t)) := by
  unfold Func.mergeInto
  rw [M.hB, M.hT]
  exact ⟨(foldl_mapPhis_fix _ _ _).1, rfl⟩

theorem mergeInto_blk (M : Mergeable F b t B T) (x : Nat) : (F.mergeInto b t).blk x =
    if x = t then none else (F.blk x).map (fun X =>
      let ps := if x ∈ T.term.targets then X.phis.map (Phi.retarget t b) else X.phis
      if x = b then ⟨ps, X.body ++ T.body, T.term⟩ else ⟨ps, X.body, X.term⟩) := by
  unfold Func.mergeInto
  rw [M.hB, M.hT]
  dsimp only
  split
  · rfl
  · unfold Func.retargetBlock
    rw [foldl_mapPhis_blk _ _ _ (List.nodup_dedup _), Func.set_blk]
    by_cases hx : x = b
    · subst hx
      rw [if_pos rfl, M.hB]
      simp only [Option.map_some, List.mem_dedup, if_true]
      split <;> rfl
    · simp only [if_neg hx, List.mem_dedup]
      congr 1
      funext X
      split <;> rfl

theorem merge_edge (M : Mergeable F b t B T) {q x : Nat} : Edge (F.mergeInto b t) q x ↔ (q ≠ b ∧ q ≠ t ∧ Edge F q x) ∨ (q = b ∧ Edge F t x) := by
  constructor
  · rintro ⟨X', hX', hx⟩
    rw [mergeInto_blk M] at hX'
    split at hX'
    · cases hX'
    · rename_i hqt
      obtain ⟨X, hX, rfl⟩ := Option.map_eq_some_iff.1 hX'
      dsimp only at hx
      by_cases hq : q = b
      · rw [if_pos hq] at hx
        exact .inr ⟨hq, T, M.hT, hx⟩
      · rw [if_neg hq] at hx
        exact .inl ⟨hq, hqt, X, hX, hx⟩
  · rintro (⟨h1, h2, X, hX, hx⟩ | ⟨rfl, X, hX, hx⟩)
    · refine ⟨_, by rw [mergeInto_blk M, if_neg h2, hX]; rfl, ?_⟩
      dsimp only
      rw [if_neg h1]; exact hx
    · rw [M.hT] at hX; cases hX
      refine ⟨_, by rw [mergeInto_blk M, if_neg M.ne, M.hB]; rfl, ?_⟩
      dsimp only
      rw [if_pos rfl]; exact hx

theorem Mergeable.edge_b (M : Mergeable F b t B T) {x : Nat} (h : Edge F b x) : x = t := by
  obtain ⟨X, hX, hx⟩ := h
  rw [M.hB] at hX; cases hX
  rw [M.term] at hx
  simpa [Term.targets] using hx

theorem Mergeable.edge_bt (M : Mergeable F b t B T) : Edge F b t := ⟨B, M.hB, by rw [M.term]; simp [Term.targets]⟩

theorem merge_target (M : Mergeable F b t B T) {q x : Nat} (e : Edge (F.mergeInto b t) q x) : x ≠ t := by
  rintro rfl
  rcases (merge_edge M).1 e with ⟨h1, _, h⟩ | ⟨_, h⟩
  · exact h1 (M.only q h)
  · exact M.ne (M.only _ h).symm

/-- a path of the result is a path of the original with the merged block put back -/
theorem merge_path (M : Mergeable F b t B T) {a x : Nat} {p : List Nat} (h : Dom.Path (Edge (F.mergeInto b t)) a x p) :
    ∃ p', Dom.Path (Edge F) a x p' ∧ ∀ d ∈ p', mv b t d ∈ p ∨ d ∈ p := by
  induction h with
  | single a => exact ⟨[a], .single a, fun d hd => .inr hd⟩
  | @cons a c x p e _ ih =>
    obtain ⟨p', hp', hd'⟩ := ih
    rcases (merge_edge M).1 e with ⟨_, _, he⟩ | ⟨rfl, he⟩
    · refine ⟨a :: p', .cons he hp', fun d hd => ?_⟩
      rcases List.mem_cons.1 hd with rfl | hd
      · exact .inr (by simp)
      · rcases hd' d hd with h | h
        · exact .inl (List.mem_cons_of_mem _ h)
        · exact .inr (List.mem_cons_of_mem _ h)
    · refine ⟨a :: t :: p', .cons M.edge_bt (.cons he hp'), fun d hd => ?_⟩
      rcases List.mem_cons.1 hd with rfl | hd
      · exact .inr (by simp)
      · rcases List.mem_cons.1 hd with rfl | hd
        · exact .inl (by rw [mv_eq]; simp)
        · rcases hd' d hd with h | h
          · exact .inl (List.mem_cons_of_mem _ h)
          · exact .inr (List.mem_cons_of_mem _ h)

theorem merge_path_ne (M : Mergeable F b t B T) {a x : Nat} {p : List Nat} (h : Dom.Path (Edge (F.mergeInto b t)) a x p) (ha : a ≠ t) : t ∉ p := by
  induction h with
  | single a => simpa using Ne.symm ha
  | cons e _ ih =>
    rw [List.mem_cons]
    rintro (h | h)
    · exact ha h.symm
    · exact ih (merge_target M e) h

theorem merge_live (M : Mergeable F b t B T) {x : Nat} (h : Live (F.mergeInto b t) x) : Live F x ∧ x ≠ t := by
  obtain ⟨p, hp⟩ := h
  rw [(mergeInto_fix M).1] at hp
  refine ⟨?_, ?_⟩
  · obtain ⟨p', hp', _⟩ := merge_path M hp
    exact ⟨p', hp'⟩
  · rintro rfl
    exact merge_path_ne M hp (Ne.symm M.ent) (path_end hp)

theorem merge_domi (M : Mergeable F b t B T) {d x : Nat} (h : Domi F d x) : Domi (F.mergeInto b t) (mv b t d) x := by
  intro p hp
  rw [(mergeInto_fix M).1] at hp
  obtain ⟨p', hp', hd⟩ := merge_path M hp
  rcases hd d (h p' hp') with h1 | h1
  · exact h1
  · rw [mv_ne]
    · exact h1
    · rintro rfl; exact merge_path_ne M hp (Ne.symm M.ent) h1

/-- what dominates the merged block dominates, in the result, the block it was merged into -/
theorem merge_domi_t (M : Mergeable F b t B T) {d : Nat} (h : Domi F d t) : Domi (F.mergeInto b t) (mv b t d) b := by
  intro p hp
  rw [(mergeInto_fix M).1] at hp
  obtain ⟨p', hp', hd⟩ := merge_path M hp
  by_cases hdt : d = t
  · subst hdt; rw [mv_eq]; exact path_end hp
  · rw [mv_ne hdt]
    have := h _ (path_snoc hp' M.edge_bt)
    rcases List.mem_append.1 this with h1 | h1
    · rcases hd d h1 with h2 | h2
      · rw [mv_ne hdt] at h2; exact h2
      · exact h2
    · simp at h1; exact absurd h1 hdt

theorem Mergeable.domi (M : Mergeable F b t B T) : Domi F b t := by
  intro p hp
  cases hp with
  | single => exact absurd rfl M.ent
  | @cons _ c _ p e hp =>
    have : ∀ {a c p}, Edge F a c → Dom.Path (Edge F) c t p → b ∈ a :: p := by
      intro a c p e hp
      induction p generalizing a c with
      | nil => cases hp
      | cons y p ih =>
        cases hp with
        | single => rw [M.only a e]; simp
        | cons e' hp => exact List.mem_cons_of_mem _ (ih e' hp)
    exact this e hp

theorem Mergeable.live_t (M : Mergeable F b t B T) (h : Live F b) : Live F t := h.edge M.edge_bt

theorem Mergeable.not_domi (M : Mergeable F b t B T) (h : Live F b) : ¬ Domi F t b := fun h' => M.ne (Domi.antisymm M.domi h' (M.live_t h))

theorem merge_defIn (M : Mergeable F b t B T) {x d : Nat} (h : DefIn F x d) : DefIn (F.mergeInto b t) x (mv b t d) := by
  obtain ⟨D, hD, hx⟩ := h
  have hret : ∀ l : List (Phi C), (l.map (Phi.retarget t b)).map Phi.id = l.map Phi.id := by
    intro l
    rw [List.map_map]
    apply List.map_congr_left
    intro p _
    simp only [Function.comp, Phi.retarget]
    split <;> rfl
  by_cases hdt : d = t
  · subst hdt
    rw [M.hT] at hD; cases hD
    rw [mv_eq]
    refine ⟨_, by rw [mergeInto_blk M, if_neg M.ne, M.hB]; rfl, ?_⟩
    dsimp only
    rw [if_pos rfl]
    unfold Block.ids at hx ⊢
    rw [M.phis] at hx
    simp only [List.map_nil, List.nil_append] at hx
    simp only [List.map_append]
    exact List.mem_append_right _ (List.mem_append_right _ hx)
  · rw [mv_ne hdt]
    refine ⟨_, by rw [mergeInto_blk M, if_neg hdt, hD]; rfl, ?_⟩
    unfold Block.ids at hx ⊢
    rcases List.mem_append.1 hx with hx | hx
    · refine List.mem_append_left _ ?_
      dsimp only
      split <;> split <;> simp only [hret] <;> exact hx
    · refine List.mem_append_right _ ?_
      dsimp only
      split
      · rw [List.map_append]; exact List.mem_append_left _ hx
      · exact hx

/-- a live block has the phis it had, with `t` renamed -/
theorem merge_phis (M : Mergeable F b t B T) (W : LiveWf F) {x : Nat} {X : Block Op C} (hX : F.blk x = some X) (hx : Live F x) (hxt : x ≠ t) :
    (if x ∈ T.term.targets then X.phis.map (Phi.retarget t b) else X.phis) = X.phis.map (fun p => p.replaceSource t b) ∧ ∀ p ∈ X.phis, p.has b = false := by
  have hb : ∀ p ∈ X.phis, p.has b = false := by
    intro p hp
    cases h : p.has b with
    | false => rfl
    | true =>
      obtain ⟨v, hv⟩ := Phi.has_iff.1 h
      exact absurd (M.edge_b (W.phiPred x X p hX hx hp b v hv)) hxt
  refine ⟨?_, hb⟩
  split
  · apply List.map_congr_left
    intro p hp
    unfold Phi.retarget
    rw [hb p hp]; rfl
  · rename_i hxT
    symm
    refine (List.map_congr_left (g := id) ?_).trans (List.map_id _)
    intro p hp
    apply Phi.replaceSource_id
    cases h : p.has t with
    | false => rfl
    | true =>
      obtain ⟨v, hv⟩ := Phi.has_iff.1 h
      obtain ⟨T', hT', h'⟩ := W.phiPred x X p hX hx hp t v hv
      rw [M.hT] at hT'; cases hT'
      exact absurd h' hxT

/-- a live block of the result -/
theorem merge_block (M : Mergeable F b t B T) (W : LiveWf F) {x : Nat} {X' : Block Op C} (hX' : (F.mergeInto b t).blk x = some X') (hx : Live (F.mergeInto b t) x) :
    ∃ X, F.blk x = some X ∧ Live F x ∧ x ≠ t ∧ X'.phis = X.phis.map (fun p => p.replaceSource t b) ∧
      ((x = b ∧ X = B ∧ X'.body = B.body ++ T.body ∧ X'.term = T.term) ∨ (x ≠ b ∧ X'.body = X.body ∧ X'.term = X.term)) := by
  obtain ⟨hl, hxt⟩ := merge_live M hx
  rw [mergeInto_blk M, if_neg hxt] at hX'
  obtain ⟨X, hX, rfl⟩ := Option.map_eq_some_iff.1 hX'
  refine ⟨X, hX, hl, hxt, ?_, ?_⟩
  · dsimp only
    rw [(merge_phis M W hX hl hxt).1]
    split <;> rfl
  · dsimp only
    split
    · rename_i h
      subst h
      rw [M.hB] at hX; cases hX
      exact .inl ⟨rfl, rfl, rfl, rfl⟩
    · rename_i h
      exact .inr ⟨h, rfl, rfl⟩

theorem merge_defIn_inv (M : Mergeable F b t B T) {x d : Nat} (h : DefIn (F.mergeInto b t) x d) : ∃ d0, DefIn F x d0 ∧ mv b t d0 = d := by
  obtain ⟨D', hD', hx⟩ := h
  rw [mergeInto_blk M] at hD'
  split at hD'
  · cases hD'
  · rename_i hdt
    obtain ⟨D, hD, rfl⟩ := Option.map_eq_some_iff.1 hD'
    have hret : (D.phis.map (Phi.retarget t b)).map Phi.id = D.phis.map Phi.id := by
      rw [List.map_map]
      apply List.map_congr_left
      intro p _
      simp only [Function.comp, Phi.retarget]
      split <;> rfl
    unfold Block.ids at hx
    rcases List.mem_append.1 hx with hx | hx
    · refine ⟨d, ⟨D, hD, List.mem_append_left _ ?_⟩, mv_ne hdt⟩
      dsimp only at hx
      split at hx <;> split at hx <;> simp only [hret] at hx <;> exact hx
    · dsimp only at hx
      split at hx
      · rename_i hdb
        rw [List.map_append] at hx
        rcases List.mem_append.1 hx with hx | hx
        · exact ⟨d, ⟨D, hD, List.mem_append_right _ hx⟩, mv_ne hdt⟩
        · exact ⟨t, ⟨T, M.hT, List.mem_append_right _ hx⟩, by rw [mv_eq, hdb]⟩
      · exact ⟨d, ⟨D, hD, List.mem_append_right _ hx⟩, mv_ne hdt⟩

theorem merge_shape (M : Mergeable F b t B T) (S : Shape F) : Shape (F.mergeInto b t) where
  nodup := by rw [(mergeInto_fix M).2]; exact S.nodup.filter _
  listed x X' hX' := by
    rw [(mergeInto_fix M).2, List.mem_filter]
    rw [mergeInto_blk M] at hX'
    split at hX'
    · cases hX'
    · obtain ⟨X, hX, _⟩ := Option.map_eq_some_iff.1 hX'
      exact ⟨S.listed x X hX, by simpa using by assumption⟩
  total x hx := by
    rw [(mergeInto_fix M).2, List.mem_filter] at hx
    obtain ⟨X, hX⟩ := S.total x hx.1
    exact ⟨_, by rw [mergeInto_blk M, if_neg (by simpa using hx.2), hX]; rfl⟩
  entryIn := by
    rw [(mergeInto_fix M).2, (mergeInto_fix M).1, List.mem_filter]
    exact ⟨S.entryIn, by simpa using Ne.symm M.ent⟩
  closed a x e := by
    rw [(mergeInto_fix M).2, List.mem_filter]
    refine ⟨?_, by simpa using merge_target M e⟩
    rcases (merge_edge M).1 e with ⟨_, _, h⟩ | ⟨_, h⟩
    · exact S.closed _ _ h
    · exact S.closed _ _ h
  unique := by
    rw [allIds_eq]
    have hF := S.unique
    have hnd : ∀ {d D}, F.blk d = some D → D.ids.Nodup := by
      intro d D hD
      unfold Func.allIds at hF
      exact (List.nodup_flatMap.mp hF).1 D (S.listed.mem hD)
    refine nodup_flatMap_of_disjoint (by rw [(mergeInto_fix M).2]; exact S.nodup.filter _) ?_ ?_
    · intro d _
      cases hD' : (F.mergeInto b t).blk d with
      | none => simp
      | some D' =>
        show D'.ids.Nodup
        rw [mergeInto_blk M] at hD'
        split at hD'
        · cases hD'
        · rename_i hdt
          obtain ⟨D, hD, rfl⟩ := Option.map_eq_some_iff.1 hD'
          have hret : (D.phis.map (Phi.retarget t b)).map Phi.id = D.phis.map Phi.id := by
            rw [List.map_map]
            apply List.map_congr_left
            intro p _
            simp only [Function.comp, Phi.retarget]
            split <;> rfl
          have hphis : ((if d ∈ T.term.targets then D.phis.map (Phi.retarget t b) else D.phis)).map Phi.id = D.phis.map Phi.id := by split <;> simp only [hret]
          dsimp only
          split
          · rename_i hdb
            subst hdb
            rw [M.hB] at hD; cases hD
            show (_ ++ _ : List Nat).Nodup
            rw [hphis, List.map_append, ← List.append_assoc]
            refine List.Nodup.append (hnd M.hB) ?_ ?_
            · have := hnd M.hT
              unfold Block.ids at this
              exact (List.nodup_append.1 this).2.1
            · intro x h1 h2
              exact M.ne (defIn_unique S.listed hF ⟨B, M.hB, h1⟩ ⟨T, M.hT, List.mem_append_right _ h2⟩)
          · show (_ ++ _ : List Nat).Nodup
            rw [hphis]
            exact hnd hD
    · intro a _ c _ x hxa hxc
      have ha : DefIn (F.mergeInto b t) x a := by
        unfold DefIn
        cases h : (F.mergeInto b t).blk a with
        | none => rw [h] at hxa; simp at hxa
        | some B => rw [h] at hxa; exact ⟨B, rfl, hxa⟩
      have hc : DefIn (F.mergeInto b t) x c := by
        unfold DefIn
        cases h : (F.mergeInto b t).blk c with
        | none => rw [h] at hxc; simp at hxc
        | some B => rw [h] at hxc; exact ⟨B, rfl, hxc⟩
      obtain ⟨a0, h1, rfl⟩ := merge_defIn_inv M ha
      obtain ⟨c0, h2, rfl⟩ := merge_defIn_inv M hc
      rw [defIn_unique S.listed hF h1 h2]

theorem merge_liveWf (M : Mergeable F b t B T) (W : LiveWf F) : LiveWf (F.mergeInto b t) where
  toShape := merge_shape M W.toShape
  entryPhis X' hX' := by
    obtain ⟨X, hX, _, _, h1, _⟩ := merge_block M W hX' ⟨_, .single _⟩
    rw [(mergeInto_fix M).1] at hX
    rw [h1, W.entryPhis X hX]; rfl
  inOrder x X' hX' hx := by
    obtain ⟨X, hX, hl, hxt, h1, h2⟩ := merge_block M W hX' hx
    have hO := W.inOrder x X hX hl
    have hid : X'.phis.map Phi.id = X.phis.map Phi.id := by rw [h1, List.map_map]; rfl
    refine ⟨?_, fun y _ hy => List.mem_append.1 hy⟩
    intro pre i post he y hy hyi
    rcases h2 with ⟨rfl, rfl, h3, h4⟩ | ⟨h2, h3, h4⟩
    · -- the merged block
      have hyd : DefIn F y x ∨ y ∈ T.body.map Inst.id := by
        unfold Block.ids at hyi
        rw [hid, h3, List.map_append, ← List.append_assoc] at hyi
        rcases List.mem_append.1 hyi with h | h
        · exact .inl ⟨_, M.hB, h⟩
        · exact .inr h
      rw [h3] at he
      rw [hid]
      rcases List.append_eq_append_iff.1 he with ⟨as, h5, h6⟩ | ⟨as, h5, h6⟩
      · -- the instruction comes from T
        have hO' := W.inOrder t T M.hT (M.live_t hl)
        rcases hyd with hyd | hyd
        · obtain ⟨B0, hB0, hy0⟩ := hyd
          rw [M.hB] at hB0; cases hB0
          rcases List.mem_append.1 hy0 with h | h
          · exact .inl h
          · exact .inr (by rw [h5, List.map_append]; exact List.mem_append_left _ h)
        · rcases hO'.1 as i post h6 y hy (List.mem_append_right _ hyd) with h | h
          · rw [M.phis] at h; simp at h
          · exact .inr (by rw [h5, List.map_append]; exact List.mem_append_right _ h)
      · -- it comes from B, or it is the first of T
        cases as with
        | nil =>
          simp only [List.nil_append] at h6
          simp only [List.append_nil] at h5
          have hO' := W.inOrder t T M.hT (M.live_t hl)
          rcases hyd with hyd | hyd
          · obtain ⟨B0, hB0, hy0⟩ := hyd
            rw [M.hB] at hB0; cases hB0
            rcases List.mem_append.1 hy0 with h | h
            · exact .inl h
            · exact .inr (by rw [← h5]; exact h)
          · rcases hO'.1 [] i post h6.symm y hy (List.mem_append_right _ hyd) with h | h
            · rw [M.phis] at h; simp at h
            · simp at h
        | cons j as =>
          simp only [List.cons_append, List.cons.injEq] at h6
          obtain ⟨rfl, h6⟩ := h6
          rcases hyd with hyd | hyd
          · obtain ⟨B0, hB0, hy0⟩ := hyd
            rw [M.hB] at hB0; cases hB0
            exact hO.1 pre i as h5 y hy hy0
          · exfalso
            obtain ⟨d, hd, hdom⟩ := W.use x _ y M.hB hl (.inl ⟨i, by rw [h5]; simp, hy⟩)
            have : d = t := defIn_unique W.listed W.unique hd ⟨T, M.hT, List.mem_append_right _ hyd⟩
            subst this
            exact M.not_domi hl hdom
    · rw [hid]
      rw [h3] at he
      refine hO.1 pre i post he y hy ?_
      unfold Block.ids at hyi ⊢
      rw [hid, h3] at hyi
      exact hyi
  use x X' y hX' hx hy := by
    obtain ⟨X, hX, hl, hxt, h1, h2⟩ := merge_block M W hX' hx
    rcases h2 with ⟨rfl, rfl, h3, h4⟩ | ⟨h2, h3, h4⟩
    · rw [h3, h4] at hy
      have : ((∃ i ∈ X.body, Opd.inst y ∈ i.args)) ∨ ((∃ i ∈ T.body, Opd.inst y ∈ i.args) ∨ Opd.inst y ∈ T.term.args) := by
        rcases hy with ⟨i, hi, hy⟩ | hy
        · rcases List.mem_append.1 hi with hi | hi
          · exact .inl ⟨i, hi, hy⟩
          · exact .inr (.inl ⟨i, hi, hy⟩)
        · exact .inr (.inr hy)
      rcases this with h | h
      · obtain ⟨d, hd, hdom⟩ := W.use x X y M.hB hl (.inl h)
        exact ⟨_, merge_defIn M hd, merge_domi M hdom⟩
      · obtain ⟨d, hd, hdom⟩ := W.use t T y M.hT (M.live_t hl) h
        exact ⟨_, merge_defIn M hd, merge_domi_t M hdom⟩
    · rw [h3, h4] at hy
      obtain ⟨d, hd, hdom⟩ := W.use x X y hX hl hy
      exact ⟨_, merge_defIn M hd, merge_domi M hdom⟩
  phiUse x X' p' q y hX' hx hp' hq hql := by
    obtain ⟨X, hX, hl, hxt, h1, _⟩ := merge_block M W hX' hx
    rw [h1] at hp'
    obtain ⟨p, hp, rfl⟩ := List.mem_map.1 hp'
    obtain ⟨q0, hq0, rfl⟩ := Phi.mem_replaceSource.1 hq
    by_cases hqt : q0 = t
    · subst hqt
      rw [mv_eq] at hql ⊢
      obtain ⟨d, hd, hdom⟩ := W.phiUse x X p q0 y hX hl hp hq0 (M.live_t (merge_live M hql).1)
      exact ⟨_, merge_defIn M hd, merge_domi_t M hdom⟩
    · rw [mv_ne hqt] at hql ⊢
      obtain ⟨d, hd, hdom⟩ := W.phiUse x X p q0 y hX hl hp hq0 (merge_live M hql).1
      exact ⟨_, merge_defIn M hd, merge_domi M hdom⟩
  phiPred x X' p' hX' hx hp' q v hq := by
    obtain ⟨X, hX, hl, hxt, h1, _⟩ := merge_block M W hX' hx
    rw [h1] at hp'
    obtain ⟨p, hp, rfl⟩ := List.mem_map.1 hp'
    obtain ⟨q0, hq0, rfl⟩ := Phi.mem_replaceSource.1 hq
    have e := W.phiPred x X p hX hl hp q0 v hq0
    rw [merge_edge M]
    by_cases hqt : q0 = t
    · subst hqt; rw [mv_eq]; exact .inr ⟨rfl, e⟩
    · rw [mv_ne hqt]
      refine .inl ⟨?_, hqt, e⟩
      rintro rfl
      exact hxt (M.edge_b e)
  phiAll x X' p' q hX' hx hp' he hq := by
    obtain ⟨X, hX, hl, hxt, h1, _⟩ := merge_block M W hX' hx
    rw [h1] at hp'
    obtain ⟨p, hp, rfl⟩ := List.mem_map.1 hp'
    rcases (merge_edge M).1 he with ⟨h2, h3, h4⟩ | ⟨rfl, h4⟩
    · obtain ⟨v, hv⟩ := W.phiAll x X p q hX hl hp h4 (merge_live M hq).1
      exact ⟨v, Phi.mem_replaceSource.2 ⟨q, hv, (mv_ne h3).symm⟩⟩
    · obtain ⟨v, hv⟩ := W.phiAll x X p t hX hl hp h4 (M.live_t (merge_live M hq).1)
      exact ⟨v, Phi.mem_replaceSource.2 ⟨t, hv, mv_eq.symm⟩⟩
  phiDead x X' p1 p2 q v hX' hx hp1 hp2 hq := by
    obtain ⟨X, hX, hl, hxt, h1, _⟩ := merge_block M W hX' hx
    rw [h1] at hp1 hp2
    obtain ⟨p, hp, rfl⟩ := List.mem_map.1 hp1
    obtain ⟨p0, hp0, rfl⟩ := List.mem_map.1 hp2
    obtain ⟨q0, hq0, rfl⟩ := Phi.mem_replaceSource.1 hq
    obtain ⟨v', hv'⟩ := W.phiDead x X p p0 q0 v hX hl hp hp0 hq0
    exact ⟨v', Phi.mem_replaceSource.2 ⟨q0, hv', rfl⟩⟩

end

section
variable {L : Lang} {F : L.F} {b t : Nat} {B T : L.B}

/-! ## one merge preserves behaviour -/

/-- the original is about to enter the same block, not the merged one; where it comes from `t`, the result comes from `b` -/
structure MergeRel (F : L.F) (b t : Nat) (s s' : St L) : Prop where
  cur : s'.cur = s.cur
  env : s'.env = s.env
  m : s'.m = s.m
  tr : s'.tr = s.tr
  ne : s.cur ≠ t
  live : Live F s.cur
  pred : (s.pred = none ∧ s'.pred = none ∧ s.cur = F.entry) ∨ ∃ q, s.pred = some q ∧ s'.pred = some (mv b t q) ∧ q ≠ b ∧ Edge F q s.cur

theorem merge_enter (M : Mergeable F b t B T) (W : LiveWf F) {s s' : St L} (R : MergeRel F b t s s') {X : L.B} (hX : F.blk s.cur = some X) :
    enterPhis L s'.pred s'.env (X.phis.map (fun p => p.replaceSource t b)) s'.env = enterPhis L s.pred s.env X.phis s.env := by
  rw [R.env]
  rcases R.pred with ⟨h1, h2, h3⟩ | ⟨q, h1, h2, h3, h4⟩
  · rw [h3] at hX
    rw [W.entryPhis X hX]
    rfl
  · rw [h1, h2]
    have hno := (merge_phis M W hX R.live R.ne).2
    generalize X.phis = ps at hno
    generalize s.env = e1
    suffices ∀ e2, enterPhis L (some (mv b t q)) e1 (ps.map (fun p => p.replaceSource t b)) e2 = enterPhis L (some q) e1 ps e2 from this e1
    induction ps with
    | nil => intro e2; rfl
    | cons p ps ih =>
      intro e2
      have ha : (p.replaceSource t b).at (mv b t q) = p.at q := Phi.at_replaceSource (hno p (by simp)) h3
      simp only [List.map_cons, enterPhis, phiVal, ha]
      have hid : (p.replaceSource t b).id = p.id := rfl
      rw [hid]
      split
      · rfl
      · exact ih (fun p hp => hno p (List.mem_cons_of_mem _ hp)) _

/-- executing a block is entering it and going on -/
def goBlk (L : Lang) (cur : Nat) (body : List (Inst L.Op L.C)) (tm : Term L.C) (env : Env L) (m : L.M) (tr : List L.E) : St L ⊕ Beh L :=
  match execBody L body env m tr with
  | .ub => .inr .ub
  | .halt es h => .inr (.halt h es)
  | .ok env m es =>
    match evalTerm L env tm with
    | .ub => .inr .ub
    | .ret v => .inr (.ret v m es)
    | .goto b => .inl ⟨some cur, b, env, m, es⟩

theorem stepBlk_go (B : L.B) (s : St L) : stepBlk L B s = match enterPhis L s.pred s.env B.phis s.env with
    | none => .inr .ub
    | some env => goBlk L s.cur B.body B.term env s.m s.tr := rfl

theorem goBlk_cur (c c' : Nat) (body : List (Inst L.Op L.C)) (tm : Term L.C) (env : Env L) (m : L.M) (tr : List L.E) :
    (∃ r, goBlk L c body tm env m tr = .inr r ∧ goBlk L c' body tm env m tr = .inr r) ∨
    (∃ x env' m' tr', goBlk L c body tm env m tr = .inl ⟨some c, x, env', m', tr'⟩ ∧ goBlk L c' body tm env m tr = .inl ⟨some c', x, env', m', tr'⟩ ∧ x ∈ tm.targets) := by
  unfold goBlk
  split
  · exact .inl ⟨_, rfl, rfl⟩
  · exact .inl ⟨_, rfl, rfl⟩
  · split
    · exact .inl ⟨_, rfl, rfl⟩
    · exact .inl ⟨_, rfl, rfl⟩
    · rename_i h
      exact .inr ⟨_, _, _, _, rfl, rfl, evalTerm_targets h⟩

theorem merge_sim (M : Mergeable F b t B T) (W : LiveWf F) : Simulation F (F.mergeInto b t) (MergeRel F b t) := by
  intro s s' R
  refine ⟨R.tr.symm, ?_⟩
  cases hX : F.blk s.cur with
  | none => exact .inl ⟨1, by rw [run_one]; unfold step; rw [hX]⟩
  | some X =>
    have hps := (merge_phis M W hX R.live R.ne).1
    have hent := merge_enter M W R hX
    have hF : step L F s = stepBlk L X s := by unfold step; rw [hX]
    by_cases hcb : s.cur = b
    · -- two blocks of `F`, one of the result
      have hXB : X = B := by rw [hcb, M.hB] at hX; exact (Option.some.inj hX).symm
      subst hXB
      have hG : step L (F.mergeInto b t) s' = stepBlk L ⟨X.phis.map (fun p => p.replaceSource t b), X.body ++ T.body, T.term⟩ s' := by
        unfold step
        rw [R.cur, mergeInto_blk M, if_neg R.ne, hX]
        dsimp only [Option.map_some]
        rw [if_pos hcb, hps]
      rw [stepBlk_go] at hF hG
      rw [hent] at hG
      cases he : enterPhis L s.pred s.env X.phis s.env with
      | none => rw [he] at hF; exact .inl ⟨1, by rw [run_one, hF]⟩
      | some env =>
        rw [he] at hF hG
        dsimp only at hF hG
        rw [R.m, R.tr] at hG
        unfold goBlk at hF hG
        rw [execBody_append2] at hG
        cases hb : execBody L X.body env s.m s.tr with
        | ub => rw [hb] at hF; exact .inl ⟨1, by rw [run_one, hF]⟩
        | halt es h => rw [hb] at hF hG; exact .inr (.inl ⟨1, 1, _, by rw [run_one, hF], by rw [run_one, hG]⟩)
        | ok env1 m1 es1 =>
          rw [hb] at hF hG
          dsimp only at hF hG
          rw [M.term] at hF
          simp only [evalTerm] at hF
          have hF2 : step L F ⟨some s.cur, t, env1, m1, es1⟩ = goBlk L t T.body T.term env1 m1 es1 := by
            unfold step
            dsimp only
            rw [M.hT]
            dsimp only
            rw [stepBlk_go, M.phis]
            rfl
          have hG' : step L (F.mergeInto b t) s' = goBlk L s'.cur T.body T.term env1 m1 es1 := hG
          have hrun : run L F 2 s = goBlk L t T.body T.term env1 m1 es1 := by
            show run L F (1 + 1) s = _
            rw [run_add, run_one, hF]
            dsimp only
            rw [run_one, hF2]
          rcases goBlk_cur (L := L) t s'.cur T.body T.term env1 m1 es1 with ⟨r, h1, h2⟩ | ⟨x, e', m', tr', h1, h2, h3⟩
          · exact .inr (.inl ⟨2, 1, r, by rw [hrun, h1], by rw [run_one, hG', h2]⟩)
          · refine .inr (.inr ⟨1, 0, _, _, by rw [hrun, h1], by rw [run_one, hG', h2], ?_⟩)
            have hed : Edge F t x := ⟨T, M.hT, h3⟩
            have hlt : Live F t := M.live_t (hcb ▸ R.live)
            refine ⟨rfl, rfl, rfl, rfl, ?_, hlt.edge hed, .inr ⟨t, rfl, ?_, Ne.symm M.ne, hed⟩⟩
            · intro hxt
              replace hxt : x = t := hxt
              rw [hxt] at hed
              exact M.ne (M.only _ hed).symm
            · rw [mv_eq, R.cur, hcb]
    · have hG : step L (F.mergeInto b t) s' = stepBlk L ⟨X.phis.map (fun p => p.replaceSource t b), X.body, X.term⟩ s' := by
        unfold step
        rw [R.cur, mergeInto_blk M, if_neg R.ne, hX]
        dsimp only [Option.map_some]
        rw [if_neg hcb, hps]
      rw [stepBlk_go] at hF hG
      rw [hent] at hG
      cases he : enterPhis L s.pred s.env X.phis s.env with
      | none => rw [he] at hF; exact .inl ⟨1, by rw [run_one, hF]⟩
      | some env =>
        rw [he] at hF hG
        dsimp only at hF hG
        rw [R.m, R.tr, R.cur] at hG
        rcases goBlk_cur (L := L) s.cur s.cur X.body X.term env s.m s.tr with ⟨r, h1, h2⟩ | ⟨x, e', m', tr', h1, h2, h3⟩
        · exact .inr (.inl ⟨1, 1, r, by rw [run_one, hF, h1], by rw [run_one, hG, h2]⟩)
        · refine .inr (.inr ⟨0, 0, _, _, by rw [run_one, hF, h1], by rw [run_one, hG, h2], ?_⟩)
          have hed : Edge F s.cur x := ⟨X, hX, h3⟩
          refine ⟨rfl, rfl, rfl, rfl, ?_, R.live.edge hed, .inr ⟨s.cur, rfl, ?_, hcb, hed⟩⟩
          · intro hxt
            replace hxt : x = t := hxt
            rw [hxt] at hed
            exact hcb (M.only _ hed)
          · rw [mv_ne R.ne]

theorem merge_refines (M : Mergeable F b t B T) (W : LiveWf F) : Refines L F (F.mergeInto b t) := by
  refine (merge_sim M W).refines (fun m => ⟨?_, rfl, rfl, rfl, ?_, ⟨_, .single _⟩, .inl ⟨rfl, rfl, rfl⟩⟩)
  · exact (mergeInto_fix M).1
  · exact Ne.symm M.ent

/-! ## the pass -/

/-- during a round: SSA form, `blockRef` is still right where it says 1, and only proper blocks are dominated -/
structure RoundInv {Op C : Type} (dom : Nat → Nat → Bool) (ref : Nat → Nat) (F : Func Op C) : Prop where
  wf : LiveWf F
  ref : ∀ x, ref x = 1 → ∀ q q', Edge F q x → Edge F q' x → q = q'
  ent : ∀ q, dom q F.entry = true → q = F.entry

theorem mergeAt_cases {Op C : Type} {dom : Nat → Nat → Bool} {ref : Nat → Nat} {F : Func Op C} (I : RoundInv dom ref F) (c : Bool) (b : Nat) :
    mergeAt dom ref (F, c) b = (F, c) ∨ ∃ t B T, Mergeable F b t B T ∧ mergeAt dom ref (F, c) b = (F.mergeInto b t, true) := by
  unfold mergeAt
  dsimp only
  cases hB : F.blk b with
  | none => exact .inl rfl
  | some B =>
    dsimp only
    cases ht : B.term with
    | br t =>
      dsimp only
      split
      · exact .inl rfl
      · rename_i hbt
        split
        · exact .inl rfl
        · rename_i hd
          split
          · rename_i hr
            cases hT : F.blk t with
            | none => exact .inl rfl
            | some T =>
              dsimp only
              split
              · rename_i hp
                refine .inr ⟨t, B, T, ⟨hB, hT, ht, hbt, ?_, by simpa using hp, ?_⟩, rfl⟩
                · rintro rfl
                  exact hbt (I.ent b (by simpa using hd))
                · intro q e
                  exact I.ref t hr q b e ⟨B, hB, by rw [ht]; simp [Term.targets]⟩
              · exact .inl rfl
          · exact .inl rfl
    | _ => exact .inl rfl

theorem RoundInv.merge {Op C : Type} {dom : Nat → Nat → Bool} {ref : Nat → Nat} {F : Func Op C} (I : RoundInv dom ref F) {b t : Nat} {B T : Block Op C}
    (M : Mergeable F b t B T) : RoundInv dom ref (F.mergeInto b t) where
  wf := merge_liveWf M I.wf
  ref x hx q q' e e' := by
    rcases (merge_edge M).1 e with ⟨h1, h2, h3⟩ | ⟨rfl, h3⟩
    · rcases (merge_edge M).1 e' with ⟨h4, h5, h6⟩ | ⟨rfl, h6⟩
      · exact I.ref x hx q q' h3 h6
      · exact absurd (I.ref x hx q t h3 h6) h2
    · rcases (merge_edge M).1 e' with ⟨h4, h5, h6⟩ | ⟨rfl, h6⟩
      · exact absurd (I.ref x hx q' t h6 h3) h5
      · rfl
  ent q hq := by
    rw [(mergeInto_fix M).1] at hq ⊢
    exact I.ent q hq

theorem mergeInto_length {Op C : Type} {F : Func Op C} {b t : Nat} {B T : Block Op C} (M : Mergeable F b t B T) (S : Shape F) :
    (F.mergeInto b t).order.length < F.order.length := by
  rw [(mergeInto_fix M).2]
  refine List.length_filter_lt_length_iff_exists.2 ⟨t, S.listed t T M.hT, by simp⟩

theorem mergeRound_fold {dom : Nat → Nat → Bool} {ref : Nat → Nat} : ∀ (l : List Nat) (F : L.F) (c : Bool), RoundInv dom ref F →
    ∃ G c', l.foldl (mergeAt dom ref) (F, c) = (G, c') ∧ RoundInv dom ref G ∧ Refines L F G ∧ G.entry = F.entry ∧ G.order.length ≤ F.order.length ∧
      (c' = true → c = false → G.order.length < F.order.length) ∧ (c' = false → c = false ∧ G = F ∧ ∀ b ∈ l, mergeAt dom ref (F, false) b = (F, false)) := by
  intro l
  induction l with
  | nil => intro F c I; exact ⟨F, c, rfl, I, Refines.refl F, rfl, Nat.le_refl _, (fun h h' => by rw [h] at h'; cases h'), fun h => ⟨h, rfl, by simp⟩⟩
  | cons b l ih =>
    intro F c I
    rw [List.foldl_cons]
    rcases mergeAt_cases I c b with h | ⟨t, B, T, M, h⟩
    · rw [h]
      obtain ⟨G, c', h1, h2, h3, h4, h5, h6, h7⟩ := ih F c I
      refine ⟨G, c', h1, h2, h3, h4, h5, h6, fun hc => ?_⟩
      obtain ⟨h8, h9, h10⟩ := h7 hc
      refine ⟨h8, h9, ?_⟩
      intro x hx
      rcases List.mem_cons.1 hx with rfl | hx
      · rw [h8] at h; exact h
      · exact h10 x hx
    · rw [h]
      obtain ⟨G, c', h1, h2, h3, h4, h5, h6, h7⟩ := ih _ true (I.merge M)
      have hlt := mergeInto_length M I.wf.toShape
      exact ⟨G, c', h1, h2, (merge_refines M I.wf).trans h3, h4.trans (mergeInto_fix M).1, by omega, fun _ _ => by omega, fun hc => by cases (h7 hc).1⟩

theorem preds_one {Op C : Type} {F : Func Op C} (hl : F.Listed) {x : Nat} (h : (F.preds x).length = 1) {q q' : Nat} (e : Edge F q x) (e' : Edge F q' x) : q = q' := by
  obtain ⟨a, ha⟩ := List.length_eq_one_iff.1 h
  have h1 := (mem_preds hl).2 e
  have h2 := (mem_preds hl).2 e'
  rw [ha] at h1 h2
  simp only [List.mem_singleton] at h1 h2
  rw [h1, h2]

theorem mergeLoop_spec {dom : Nat → Nat → Bool} : ∀ (n : Nat) (F : L.F), F.order.length < n → LiveWf F → (∀ q, dom q F.entry = true → q = F.entry) →
    ∃ G, mergeLoop dom n F = some G ∧ Refines L F G ∧ LiveWf G ∧ G.entry = F.entry ∧
      ∀ b t B T, G.blk b = some B → G.blk t = some T → B.term = .br t → b ≠ t → dom b t = true → G.preds t = [b] → T.phis ≠ [] := by
  intro n
  induction n with
  | zero => intro F h; omega
  | succ n ih =>
    intro F hn W hd
    obtain ⟨G, c, h1, h2, h3, h4, h5, h6, h7⟩ := mergeRound_fold (L := L) F.order F false
      (⟨W, fun x hx q q' => preds_one W.listed hx, hd⟩ : RoundInv dom (fun x => (F.preds x).length) F)
    have hr : mergeRound dom F = (G, c) := h1
    unfold mergeLoop
    rw [hr]
    cases c with
    | true =>
      obtain ⟨K, k1, k2, k3, k4, k5⟩ := ih G (by have := h6 rfl rfl; omega) h2.wf (by rw [h4]; exact hd)
      exact ⟨K, by simpa using k1, h3.trans k2, k3, k4.trans h4, k5⟩
    | false =>
      obtain ⟨_, rfl, h8⟩ := h7 rfl
      refine ⟨G, rfl, Refines.refl G, W, rfl, ?_⟩
      intro b t B T hB hT ht hne hdom hp hphi
      have := h8 b (W.listed b B hB)
      unfold mergeAt at this
      dsimp only at this
      rw [hB] at this
      dsimp only at this
      rw [ht] at this
      dsimp only at this
      simp [hne, hdom, hp, hT, hphi] at this

/-- BlockMerge terminates; the result behaves alike and is in SSA form; and nothing is left to merge: a jump to a block it dominates (in the
original) that has no other predecessor is a jump to a block with phis. -/
theorem C69_blockMerge (o : Orders) {F : L.F} (W : LiveWf F) : ∃ G t0, F.dom o = some t0 ∧ blockMerge o F = some G ∧ Refines L F G ∧ LiveWf G ∧ G.entry = F.entry ∧
    ∀ b t B T, G.blk b = some B → G.blk t = some T → B.term = .br t → b ≠ t → t0.dominate b t = true → G.preds t = [b] → T.phis ≠ [] := by
  obtain ⟨t0, e, _, hd, _⟩ := dom_spec o W.nodup W.listed
  obtain ⟨G, h1, h2, h3, h4, h5⟩ := mergeLoop_spec (L := L) (dom := fun a b => t0.dominate a b) (F.order.length + 1) F (by omega) W
    (fun q hq => domi_entry ((hd q F.entry).1 hq).2)
  exact ⟨G, t0, e, by unfold blockMerge; rw [e]; exact h1, h2, h3, h4, h5⟩

end
end Cmmc.SSA
