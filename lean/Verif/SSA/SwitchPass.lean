import Verif.SSA.SwitchMain
/-! # Branch2Switch: the whole pass -/
namespace Cmmc.SSA
section
variable {Op C : Type} {P : B2W Op C} {mv : Op → Bool} {F : Func Op C}

/-- no phi and no instruction uses a value computed in `b` -/
def TermsOnly (F : Func Op C) (b : Nat) : Prop := ∀ x c X, DefIn F x b → F.blk c = some X → (∀ p ∈ X.phis, Opd.inst x ∉ p.ops) ∧ ∀ i ∈ X.body, Opd.inst x ∉ i.args

/-- a block that compares the same value as the block before it, and computes nothing but conditions, does nothing else: it has no phis, and
its instructions are pure. The pass does not check this. -/
def LinkFree (P : B2W Op C) (mv : Op → Bool) (F : Func Op C) : Prop :=
  ∀ base a k t b k' t' f' B, P.matchEqual F a = some (base, k, t, b) → P.matchEqual F b = some (base, k', t', f') → F.blk b = some B → TermsOnly F b → B.phis = [] ∧ ∀ i ∈ B.body, mv i.op = true

theorem swFn_instOf (F : Func Op C) (h : Nat) (base : Opd C) (cs : List (Int × Nat)) (d par x : Nat) : (swFn F h base cs d par).instOf x = F.instOf x := by
  unfold Func.instOf Func.blocks
  show (F.order.filterMap _).findSome? _ = (F.order.filterMap _).findSome? _
  induction F.order with
  | nil => rfl
  | cons b bs ih =>
    have e : (swFn F h base cs d par).blk b = (F.blk b).map (fun X => ⟨if b = d then copyPhis par h X.phis else X.phis, X.body, if b = h then .sw base d cs else X.term⟩) := rfl
    simp only [List.filterMap_cons, e]
    cases F.blk b with
    | none => exact ih
    | some B => simp only [Option.map_some, List.findSome?_cons, ih]

theorem swFn_match {h : Nat} {base base' : Opd C} {cs : List (Int × Nat)} {d par b : Nat} {k : Int} {t fb : Nat} (hm : P.matchEqual (swFn F h base cs d par) b = some (base', k, t, fb)) :
    P.matchEqual F b = some (base', k, t, fb) := by
  unfold B2W.matchEqual at hm ⊢
  have hcmp : ∀ o, P.matchCmp (swFn F h base cs d par) o = P.matchCmp F o := by
    intro o
    cases o with
    | cst c => rfl
    | inst x => unfold B2W.matchCmp; dsimp only; rw [swFn_instOf]
  have e : (swFn F h base cs d par).blk b = (F.blk b).map (fun X => ⟨if b = d then copyPhis par h X.phis else X.phis, X.body, if b = h then .sw base d cs else X.term⟩) := rfl
  rw [e] at hm
  cases hB : F.blk b with
  | none => rw [hB] at hm; simp at hm
  | some B =>
    rw [hB] at hm
    simp only [Option.map_some] at hm ⊢
    by_cases hbh : b = h
    · rw [if_pos hbh] at hm; cases hm
    · rw [if_neg hbh] at hm
      split at hm
      · rename_i c t' f' ht
        rw [hcmp] at hm
        exact hm
      · cases hm

variable {h : Nat} {base : Opd C} {k1 : Int} {t1 b1 : Nat} {ls : List Nat} {cs cs' : List (Int × Nat)} {d par : Nat}

theorem SwStep.linkFree (S : SwStep P mv F h base k1 t1 b1 ls cs d par) (hf : LinkFree P mv F) : LinkFree P mv (swFn F h base cs' d par) := by
  intro base' a k t b k' t' f' B' h1 h2 hB' h3
  obtain ⟨B, hB, rfl⟩ := S.blk hB'
  obtain ⟨g1, g2⟩ := hf base' a k t b k' t' f' B (swFn_match h1) (swFn_match h2) hB (by
    intro x c X hx hX
    obtain ⟨q1, q2⟩ := h3 x c _ (S.defIn.2 hx) (S.blk' hX)
    refine ⟨fun p hp hxp => ?_, q2⟩
    obtain ⟨q, hq⟩ := mem_ops.1 hxp
    by_cases hcd : c = d
    · simp only [if_pos hcd] at q1
      obtain ⟨⟨v, hv⟩, _⟩ := S.phis X (hcd ▸ hX) p hp
      refine q1 (p.addIncoming h v) (List.mem_map.2 ⟨p, hp, by rw [hv]⟩) (mem_ops.2 ⟨q, ?_⟩)
      exact List.mem_append.2 (.inl hq)
    · simp only [if_neg hcd] at q1
      exact q1 p hp hxp)
  refine ⟨?_, g2⟩
  simp only [g1, copyPhis, List.map_nil, ite_self]

theorem Links.prev {b par0 : Nat} (K : Links P F base b par0 ls cs d par) {a k t : _} (ha : P.matchEqual F a = some (base, k, t, b)) {l : Nat} (hl : l ∈ ls) : ∃ a k t, P.matchEqual F a = some (base, k, t, l) := by
  induction K generalizing a k t with
  | stop => simp at hl
  | link ho hm K ih =>
    rcases List.mem_cons.1 hl with rfl | hl
    · exact ⟨_, _, _, ha⟩
    · exact ih hm hl

theorem Links.first {b par0 : Nat} (K : Links P F base b par0 ls cs d par) (h : cs ≠ []) : b ∈ ls := by
  cases K with
  | stop => exact absurd rfl h
  | link => simp

/-- one block of the loop -/
theorem switchAt_spec [DecidableEq C] (W : LiveWf F) (hf : LinkFree P mv F) {vis : List Nat} (hh : Live F h ∨ h ∈ vis) :
    P.switchAt (F, vis) h = some (F, vis) ∨ (∃ vis', P.switchAt (F, vis) h = some (F, vis') ∧ ∀ x ∈ vis, x ∈ vis') ∨
    ∃ base k1 t1 b1 ls cs d par vis', SwStep P mv F h base k1 t1 b1 ls cs d par ∧ P.switchAt (F, vis) h = some (swFn F h base (sortCases ((k1, t1) :: cs)) d par, vis') ∧
      (∀ x ∈ vis, x ∈ vis') ∧ ∀ l ∈ ls, l ∈ vis' := by
  unfold B2W.switchAt
  by_cases hv : h ∈ vis
  · exact .inl (if_pos hv)
  rw [if_neg hv]
  have hlive : Live F h := hh.resolve_right hv
  dsimp only
  split
  · exact .inl rfl
  rename_i B hB
  split
  case h_2 => exact .inl rfl
  rename_i c t f ht
  split
  · exact .inl rfl
  rename_i e base k hcmp
  have hm : P.matchEqual F h = some (base, k, if e then t else f, if e then f else t) := by
    unfold B2W.matchEqual
    simp only [hB, ht, hcmp, Option.map_some]
  obtain ⟨r, hr⟩ := caseChain_total W.listed (P := P) (base := base) (n := F.order.length + 2) (b := h) (head := true) (cs := []) (par := h) (vis := vis) (by simp) (by simp) (by simp) (by simp)
  rw [hr]
  dsimp only
  unfold B2W.caseChain at hr
  rw [if_neg (by simp), hm] at hr
  simp only [List.map_nil, List.not_mem_nil, not_false_eq_true, and_self, if_true, List.nil_append] at hr
  obtain ⟨ls, cs, K, hcs, hnd, hvis⟩ := caseChain_links W.listed hr (by simp)
  have hsub : ∀ x ∈ vis, x ∈ r.visited := by intro x hx; rw [hvis]; simp [hx]
  by_cases hw : P.worth F r.cases = true
  · rw [if_pos hw]
    right; right
    rw [hcs] at hnd
    -- what the profitability test says
    have hworth : 4 ≤ r.cases.length ∧ ∀ e ∈ r.cases, ∀ B, F.blk e.2 = some B → B.phis = [] := by
      unfold B2W.worth at hw
      split at hw
      · simp only [Bool.and_eq_true, decide_eq_true_eq, List.all_eq_true] at hw
        refine ⟨hw.1.1, fun e he B hB => ?_⟩
        have := hw.2 e he
        rw [hB] at this
        simpa using this
      · cases hw
    have hne : cs ≠ [] := by
      rintro rfl
      rw [hcs] at hworth
      simp at hworth
    have hpure : ∀ l ∈ ls, ∀ B, F.blk l = some B → B.phis = [] ∧ ∀ i ∈ B.body, mv i.op = true := by
      intro l hl B hB
      obtain ⟨a, k0, t0, ha⟩ := K.prev hm hl
      obtain ⟨ho, k', t', f', hl', _⟩ := K.mem hl
      exact hf base a k0 t0 l k' t' f' B ha hl' hB (fun x c X hx hX => ⟨(ho x c X hx hX).1, (ho x c X hx hX).2.1⟩)
    have hnoPhi : ∀ e' ∈ (k, if e then t else f) :: cs, ∀ B, F.blk e'.2 = some B → B.phis = [] := by
      intro e' he'
      exact hworth.2 e' (by rw [hcs]; exact he')
    obtain ⟨hp1, hp2, q, hq, hq2⟩ := K.paths.2.2 (K.ls_ne hne)
    have edges := matchEqual_edges hm
    have hlb : Live F (if e then f else t) := hlive.edge edges.2.1
    have hlp : Live F r.parent := by
      have app : ∀ {a c : Nat} {p : List Nat}, Dom.Path (Edge F) a c p → Live F a → Live F c := by
        intro a c p hp
        induction hp with
        | single => exact id
        | cons e _ ih => exact fun h => ih (h.edge e)
      exact app hq hlb
    have hld : Live F r.dflt := hlp.edge hp2
    obtain ⟨D, hD⟩ := W.total _ (W.closed _ _ hp2)
    have hphis : ∀ p ∈ D.phis, (∃ v, p.at r.parent = some v) ∧ p.at h = none := by
      intro p hp
      constructor
      · obtain ⟨v, hv⟩ := W.phiAll _ D p _ hD hld hp hp2 hlp
        unfold Phi.at
        cases hfd : p.inc.find? (fun e => e.1 == r.parent) with
        | none => exact absurd (List.find?_eq_none.1 hfd _ hv) (by simp)
        | some e' => exact ⟨e'.2, rfl⟩
      · cases hat : p.at h with
        | none => rfl
        | some v =>
          exfalso
          have hne' : D.phis ≠ [] := fun e => by rw [e] at hp; simp at hp
          have he := W.phiPred _ D p hD hld hp h v (Phi.at_mem hat)
          rcases edges.2.2 _ he with h1 | h1
          · exact hne' (hnoPhi (k, if e then t else f) (by simp) D (by rw [← h1]; exact hD))
          · have hb1 : (if e then f else t) ∈ ls := by
              exact K.first hne
            exact hne' (hpure _ hb1 D (by rw [← h1]; exact hD)).1
    refine ⟨base, k, if e then t else f, if e then f else t, ls, cs, r.dflt, r.parent, r.visited,
      ⟨hm, K, by simpa using hnd, hnoPhi, hne, hpure, fun D' hD' => by rw [hD] at hD'; cases hD'; exact hphis, hlive⟩, ?_, hsub, fun l hl => by rw [hvis]; simp [hl]⟩
    unfold switchTo
    rw [hD]
    dsimp only
    rw [if_pos]
    · rw [hcs]; rfl
    · rw [List.all_eq_true]
      intro p hp
      obtain ⟨⟨v, hv⟩, hn⟩ := hphis p hp
      rw [hv, hn]; rfl
  · rw [if_neg hw]
    exact .inr (.inl ⟨_, rfl, hsub⟩)

end

/-- **C82.** Branch2Switch neither throws nor runs for ever, keeps the behaviour of the function and leaves it in SSA form, provided that
the blocks it skips do nothing but compare (`LinkFree`, which the pass does not check). -/
theorem C82_branch2Switch_partial {L : Lang} {P : B2W L.Op L.C} {mv : L.Op → Bool} (hP : SwLang L P mv) (hmv : Movable L mv) (native : Bool) {F : L.F} (W : LiveWf F) (hf : LinkFree P mv F) {blocks : List Nat} (hb : ∀ b ∈ blocks, Live F b) :
    ∃ G, branch2Switch P native blocks F = some G ∧ LiveWf G ∧ Refines L F G := by
  unfold branch2Switch
  cases native with
  | false => exact ⟨F, rfl, W, .refl F⟩
  | true =>
    rw [if_pos rfl]
    have main : ∀ (bs : List Nat) (G : L.F) (vis : List Nat), LiveWf G → LinkFree P mv G → (∀ b ∈ bs, Live G b ∨ b ∈ vis) →
        ∃ G' vis', bs.foldlM P.switchAt (G, vis) = some (G', vis') ∧ LiveWf G' ∧ Refines L G G' := by
      intro bs
      induction bs with
      | nil => intro G vis W _ _; exact ⟨G, vis, rfl, W, .refl G⟩
      | cons b bs ih =>
        intro G vis W hf hb
        rw [List.foldlM_cons]
        rcases switchAt_spec W hf (hb b (by simp)) with h | ⟨vis', h, hs⟩ | ⟨base, k1, t1, b1, ls, cs, d, par, vis', S, h, hs, hl⟩
        · rw [h]
          exact ih G vis W hf (fun c hc => hb c (by simp [hc]))
        · rw [h]
          exact ih G vis' W hf (fun c hc => (hb c (by simp [hc])).imp id (hs c))
        · rw [h]
          have hp := sortCases_perm ((k1, t1) :: cs)
          obtain ⟨G', vis2, g1, g2, g3⟩ := ih _ vis' (S.liveWf W hp) (S.linkFree hf) (fun c hc => by
            rcases hb c (by simp [hc]) with hc | hc
            · exact (S.live_keep hp hc).imp id (hl c)
            · exact .inr (hs c hc))
          exact ⟨G', vis2, g1, g2, (S.refines hP hmv W hp).trans g3⟩
    obtain ⟨G, vis, h1, h2, h3⟩ := main blocks F [] W hf (fun b hb' => .inl (hb b hb'))
    exact ⟨G, by rw [h1]; rfl, h2, h3⟩

end Cmmc.SSA
