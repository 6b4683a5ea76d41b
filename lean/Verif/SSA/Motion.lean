import Verif.SSA.CutEx
import Verif.SSA.InlineLive
import Verif.SSA.Insert
/-!
# Moving an instruction to another block (`inst->insertBefore(block, position)`)

Shared by CodeSink and CodeMove: one instruction without side effects is taken out of block `a` and put into block `c`.
-/
namespace Cmmc.SSA
section
variable {Op C : Type}

/-- `Instruction::insertBefore` (Instruction.cpp) for an instruction `i` of block `a`: it leaves `a` and becomes number `n` behind the phis of `c` -/
def Func.moveTo (F : Func Op C) (a c : Nat) (i : Inst Op C) (n : Nat) : Func Op C :=
  { F with blk := fun b => (F.blk b).map (fun B =>
      if b = a then { B with body := B.body.filter (fun j => j.id != i.id) }
      else if b = c then { B with body := B.body.take n ++ i :: B.body.drop n }
      else B) }

/-- the new place is behind the operands and in front of the users of the instruction -/
structure MoveOk (F : Func Op C) (a c : Nat) (i : Inst Op C) (n : Nat) (A D : Block Op C) : Prop where
  hA : F.blk a = some A
  hi : i ∈ A.body
  hD : F.blk c = some D
  ne : a ≠ c
  args : ∀ x, Opd.inst x ∈ i.args → ∃ d, DefIn F x d ∧ Domi F d c ∧ (d = c → x ∈ D.phis.map Phi.id ∨ x ∈ (D.body.take n).map Inst.id)
  uses : ∀ b B j, F.blk b = some B → j ∈ B.body → Opd.inst i.id ∈ j.args → Domi F c b ∧ (b = c → j ∈ D.body.drop n)
  termUses : ∀ b B, F.blk b = some B → Opd.inst i.id ∈ B.term.args → Domi F c b
  phiUses : ∀ b B p q, F.blk b = some B → p ∈ B.phis → (q, Opd.inst i.id) ∈ p.inc → Domi F c q

/-- live code in SSA form without dead blocks is proper -/
theorem LiveWf.proper {F : Func Op C} (W : LiveWf F) (A : AllLive F) : Proper F where
  unique := W.unique
  closed := W.closed
  inOrder b B hB := W.inOrder b B hB (A b B hB)
  exists_ b B hB x hx := by
    rcases mem_operands.1 hx with ⟨p, hp, hx⟩ | hx
    · obtain ⟨q, hq⟩ := mem_ops.1 hx
      obtain ⟨Q, hQ, _⟩ := W.phiPred b B p hB (A b B hB) hp q _ hq
      obtain ⟨d, hd, _⟩ := W.phiUse b B p q x hB (A b B hB) hp hq (A q Q hQ)
      exact ⟨d, hd⟩
    · obtain ⟨d, hd, _⟩ := W.use b B x hB (A b B hB) hx
      exact ⟨d, hd⟩
  phiPred := W.phiPred
  phiAll := W.phiAll
  phiDom b B p q x h hB hb hp hq hd _ hql := by
    obtain ⟨d, hd', hdom⟩ := W.phiUse b B p q x hB hb hp hq hql
    rw [defIn_unique W.listed W.unique hd hd']; exact hdom
  useDom b B x h hB hb hx hd := by
    obtain ⟨d, hd', hdom⟩ := W.use b B x hB hb hx
    rw [defIn_unique W.listed W.unique hd hd']; exact hdom
  nodup := W.nodup
  listed := W.listed
  total := W.total
  entryIn := W.entryIn
  entryPhis := W.entryPhis
  deadPhis b B p x h _ _ _ _ hd := by
    obtain ⟨D, hD, _⟩ := hd
    exact A h D hD

variable {F : Func Op C} {a c n : Nat} {i : Inst Op C} {A D : Block Op C}

/-- the block in the new function -/
def movedBlk (a c : Nat) (i : Inst Op C) (n : Nat) (b : Nat) (B : Block Op C) : Block Op C :=
  if b = a then { B with body := B.body.filter (fun j => j.id != i.id) }
  else if b = c then { B with body := B.body.take n ++ i :: B.body.drop n }
  else B

theorem move_blk (b : Nat) : (F.moveTo a c i n).blk b = (F.blk b).map (movedBlk a c i n b) := rfl

theorem movedBlk_phis (b : Nat) (B : Block Op C) : (movedBlk a c i n b B).phis = B.phis := by
  unfold movedBlk; split
  · rfl
  · split <;> rfl

theorem movedBlk_term (b : Nat) (B : Block Op C) : (movedBlk a c i n b B).term = B.term := by
  unfold movedBlk; split
  · rfl
  · split <;> rfl

theorem move_back {b : Nat} {B' : Block Op C} (h : (F.moveTo a c i n).blk b = some B') : ∃ B, F.blk b = some B ∧ B' = movedBlk a c i n b B := by
  rw [move_blk] at h
  obtain ⟨B, hB, rfl⟩ := Option.map_eq_some_iff.1 h
  exact ⟨B, hB, rfl⟩

theorem move_edge {x y : Nat} : Edge (F.moveTo a c i n) x y ↔ Edge F x y := by
  constructor
  · rintro ⟨B', hB', h⟩
    obtain ⟨B, hB, rfl⟩ := move_back hB'
    rw [movedBlk_term] at h
    exact ⟨B, hB, h⟩
  · rintro ⟨B, hB, h⟩
    exact ⟨movedBlk a c i n x B, by rw [move_blk, hB]; rfl, by rw [movedBlk_term]; exact h⟩

theorem move_edge_eq : Edge (F.moveTo a c i n) = Edge F := by
  funext x y; exact propext move_edge

theorem move_live (b : Nat) : Live (F.moveTo a c i n) b ↔ Live F b := by unfold Live; rw [move_edge_eq]; rfl
theorem move_domi (d b : Nat) : Domi (F.moveTo a c i n) d b ↔ Domi F d b := by unfold Domi; rw [move_edge_eq]; rfl

theorem MoveOk.defA (M : MoveOk F a c i n A D) : DefIn F i.id a := ⟨A, M.hA, List.mem_append_right _ (List.mem_map_of_mem M.hi)⟩

/-- the id of the instruction occurs once -/
theorem MoveOk.home (M : MoveOk F a c i n A D) (S : Shape F) {b : Nat} (h : DefIn F i.id b) : b = a := defIn_unique S.listed S.unique h M.defA

theorem MoveOk.only (M : MoveOk F a c i n A D) (S : Shape F) {b : Nat} {B : Block Op C} (hB : F.blk b = some B) {j : Inst Op C} (hj : j ∈ B.body) (hid : j.id = i.id) : b = a ∧ j = i := by
  have hb : b = a := M.home S ⟨B, hB, by rw [← hid]; exact List.mem_append_right _ (List.mem_map_of_mem hj)⟩
  subst hb
  rw [M.hA] at hB; cases hB
  refine ⟨rfl, ?_⟩
  have hn := S.ids_nodup M.hA
  unfold Block.ids at hn
  have hn := (List.nodup_append.1 hn).2.1
  exact List.inj_on_of_nodup_map hn hj M.hi hid

theorem MoveOk.phi_ne (M : MoveOk F a c i n A D) (S : Shape F) {b : Nat} {B : Block Op C} (hB : F.blk b = some B) : i.id ∉ B.phis.map Phi.id := by
  intro h
  have hb : b = a := M.home S ⟨B, hB, List.mem_append_left _ h⟩
  subst hb
  rw [M.hA] at hB; cases hB
  have hn := S.ids_nodup M.hA
  unfold Block.ids at hn
  exact (List.nodup_append.1 hn).2.2 _ h _ (List.mem_map_of_mem M.hi) rfl

theorem MoveOk.defIn (M : MoveOk F a c i n A D) (S : Shape F) {x b : Nat} : DefIn (F.moveTo a c i n) x b ↔ (x = i.id ∧ b = c) ∨ (x ≠ i.id ∧ DefIn F x b) := by
  constructor
  · rintro ⟨B', hB', hx⟩
    obtain ⟨B, hB, rfl⟩ := move_back hB'
    unfold Block.ids at hx
    rw [movedBlk_phis] at hx
    by_cases hxi : x = i.id
    · left
      refine ⟨hxi, ?_⟩
      subst hxi
      rcases List.mem_append.1 hx with h | h
      · exact absurd h (M.phi_ne S hB)
      · obtain ⟨j, hj, hid⟩ := List.mem_map.1 h
        unfold movedBlk at hj
        split at hj
        · have := (List.mem_filter.1 hj).2
          simp [hid] at this
        · split at hj
          · assumption
          · rename_i hba _
            exact absurd (M.only S hB hj hid).1 hba
    · right
      refine ⟨hxi, B, hB, ?_⟩
      unfold Block.ids
      rcases List.mem_append.1 hx with h | h
      · exact List.mem_append_left _ h
      · apply List.mem_append_right
        obtain ⟨j, hj, rfl⟩ := List.mem_map.1 h
        apply List.mem_map_of_mem
        unfold movedBlk at hj
        split at hj
        · exact (List.mem_filter.1 hj).1
        · split at hj
          · simp only [List.mem_append, List.mem_cons] at hj
            rcases hj with h | rfl | h
            · exact List.mem_of_mem_take h
            · exact absurd rfl hxi
            · exact List.mem_of_mem_drop h
          · exact hj
  · rintro (⟨rfl, rfl⟩ | ⟨hxi, B, hB, hx⟩)
    · refine ⟨movedBlk a b i n b D, by rw [move_blk, M.hD]; rfl, ?_⟩
      unfold Block.ids movedBlk
      rw [if_neg (Ne.symm M.ne), if_pos rfl]
      simp
    · refine ⟨movedBlk a c i n b B, by rw [move_blk, hB]; rfl, ?_⟩
      unfold Block.ids at hx ⊢
      rw [movedBlk_phis]
      rcases List.mem_append.1 hx with h | h
      · exact List.mem_append_left _ h
      · apply List.mem_append_right
        obtain ⟨j, hj, rfl⟩ := List.mem_map.1 h
        apply List.mem_map_of_mem
        unfold movedBlk
        split
        · exact List.mem_filter.2 ⟨hj, by simpa using hxi⟩
        · split
          · rw [← List.take_append_drop n B.body] at hj
            rcases List.mem_append.1 hj with h | h
            · exact List.mem_append_left _ h
            · exact List.mem_append_right _ (List.mem_cons_of_mem _ h)
          · exact hj

theorem MoveOk.ids_nodup (M : MoveOk F a c i n A D) (S : Shape F) {b : Nat} {B : Block Op C} (hB : F.blk b = some B) : (movedBlk a c i n b B).ids.Nodup := by
  have hn := S.ids_nodup hB
  unfold movedBlk
  split
  · refine hn.sublist ?_
    unfold Block.ids
    exact List.Sublist.append (List.Sublist.refl _) (List.filter_sublist.map _)
  · split
    · rename_i hbc
      subst hbc
      have hz : i.id ∉ B.ids := fun h => M.ne (M.home S ⟨B, hB, h⟩).symm
      have hp : (i.id :: B.ids).Perm (Block.ids { B with body := B.body.take n ++ i :: B.body.drop n }) := by
        unfold Block.ids
        dsimp only
        rw [List.map_append, List.map_cons, ← List.append_assoc]
        refine List.Perm.trans ?_ List.perm_middle.symm
        rw [List.append_assoc, ← List.map_append, List.take_append_drop]
      exact hp.nodup_iff.1 (List.nodup_cons.2 ⟨hz, hn⟩)
    · exact hn

theorem MoveOk.shape (M : MoveOk F a c i n A D) (S : Shape F) : Shape (F.moveTo a c i n) where
  nodup := S.nodup
  listed b B' hB' := by
    obtain ⟨B, hB, _⟩ := move_back hB'
    exact S.listed b B hB
  total b hb := by
    obtain ⟨B, hB⟩ := S.total b hb
    exact ⟨_, by rw [move_blk, hB]; rfl⟩
  entryIn := S.entryIn
  closed x y e := S.closed x y (move_edge.1 e)
  unique := by
    rw [allIds_eq]
    refine nodup_flatMap_of_disjoint S.nodup ?_ ?_
    · intro b hb
      obtain ⟨B, hB⟩ := S.total b hb
      rw [move_blk, hB]
      exact M.ids_nodup S hB
    · have key : ∀ b x, x ∈ (match (F.moveTo a c i n).blk b with | some B => B.ids | none => []) → DefIn (F.moveTo a c i n) x b := by
        intro b x h
        cases hB : (F.moveTo a c i n).blk b with
        | none => rw [hB] at h; simp at h
        | some B => rw [hB] at h; exact ⟨B, hB, h⟩
      intro b _ b' _ x hx hx'
      have h1 : DefIn (F.moveTo a c i n) x b := key b x (by cases h : (F.moveTo a c i n).blk b <;> simpa [h] using hx)
      have h2 : DefIn (F.moveTo a c i n) x b' := key b' x (by cases h : (F.moveTo a c i n).blk b' <;> simpa [h] using hx')
      rcases (M.defIn S).1 h1 with ⟨e1, r1⟩ | ⟨e1, r1⟩ <;> rcases (M.defIn S).1 h2 with ⟨e2, r2⟩ | ⟨e2, r2⟩
      · rw [r1, r2]
      · exact absurd e1 e2
      · exact absurd e2 e1
      · exact defIn_unique S.listed S.unique r1 r2

theorem filter_split {α : Type} {p : α → Bool} : ∀ {l pre post : List α} {j : α}, l.filter p = pre ++ j :: post → ∃ l1 l2, l = l1 ++ j :: l2 ∧ l1.filter p = pre := by
  intro l
  induction l with
  | nil => intro pre post j h; simp at h
  | cons y l ih =>
    intro pre post j h
    by_cases hy : p y = true
    · rw [List.filter_cons_of_pos hy] at h
      cases pre with
      | nil =>
        simp only [List.nil_append, List.cons.injEq] at h
        exact ⟨[], l, by rw [h.1]; rfl, rfl⟩
      | cons z pre =>
        simp only [List.cons_append, List.cons.injEq] at h
        obtain ⟨l1, l2, e1, e2⟩ := ih h.2
        refine ⟨y :: l1, l2, by rw [e1]; rfl, ?_⟩
        rw [List.filter_cons_of_pos hy, e2, h.1]
    · rw [List.filter_cons_of_neg hy] at h
      obtain ⟨l1, l2, e1, e2⟩ := ih h
      exact ⟨y :: l1, l2, by rw [e1]; rfl, by rw [List.filter_cons_of_neg hy, e2]⟩

theorem insert_split {α : Type} {l1 l2 pre post : List α} {i j : α} (h : l1 ++ i :: l2 = pre ++ j :: post) :
    (∃ r, l1 = pre ++ j :: r) ∨ (pre = l1 ∧ j = i ∧ post = l2) ∨ (∃ r, pre = l1 ++ i :: r ∧ l2 = r ++ j :: post) := by
  rcases List.append_eq_append_iff.1 h with ⟨r, h1, h2⟩ | ⟨r, h1, h2⟩
  · cases r with
    | nil =>
      simp only [List.nil_append, List.cons.injEq] at h2
      exact .inr (.inl ⟨by simpa using h1, h2.1.symm, h2.2.symm⟩)
    | cons y r =>
      simp only [List.cons_append, List.cons.injEq] at h2
      exact .inr (.inr ⟨r, by rw [h1, h2.1], h2.2⟩)
  · cases r with
    | nil =>
      simp only [List.nil_append, List.cons.injEq] at h2
      exact .inr (.inl ⟨by simpa using h1.symm, h2.1, h2.2⟩)
    | cons y r =>
      simp only [List.cons_append, List.cons.injEq] at h2
      exact .inl ⟨r, by rw [h1, h2.1]⟩

/-- uses in a block of the new function: the old ones, or those of the instruction itself -/
theorem moved_uses {b : Nat} {B : Block Op C} {j : Inst Op C} (h : j ∈ (movedBlk a c i n b B).body) : (j ∈ B.body ∧ (b = a → j.id ≠ i.id)) ∨ (b = c ∧ j = i) := by
  unfold movedBlk at h
  split at h
  · obtain ⟨h1, h2⟩ := List.mem_filter.1 h
    exact .inl ⟨h1, fun _ => by simpa using h2⟩
  · rename_i hba
    split at h
    · rename_i hbc
      simp only [List.mem_append, List.mem_cons] at h
      rcases h with h | rfl | h
      · exact .inl ⟨List.mem_of_mem_take h, fun e => absurd e hba⟩
      · exact .inr ⟨hbc, rfl⟩
      · exact .inl ⟨List.mem_of_mem_drop h, fun e => absurd e hba⟩
    · exact .inl ⟨h, fun e => absurd e hba⟩

theorem MoveOk.self (M : MoveOk F a c i n A D) (W : LiveWf F) (hl : AllLive F) : Opd.inst i.id ∉ i.args := by
  intro h
  obtain ⟨p, q, hpq⟩ := List.append_of_mem M.hi
  have hn := W.toShape.ids_nodup M.hA
  unfold Block.ids at hn
  rcases (W.inOrder a A M.hA (hl a A M.hA)).1 p i q hpq i.id h (List.mem_append_right _ (List.mem_map_of_mem M.hi)) with h' | h'
  · exact (List.nodup_append.1 hn).2.2 _ h' _ (List.mem_map_of_mem M.hi) rfl
  · have hn := (List.nodup_append.1 hn).2.1
    rw [hpq, List.map_append, List.map_cons] at hn
    exact (List.nodup_append.1 hn).2.2 _ h' _ (by simp) rfl

theorem MoveOk.liveWf (M : MoveOk F a c i n A D) (W : LiveWf F) (hl : AllLive F) : LiveWf (F.moveTo a c i n) where
  toShape := M.shape W.toShape
  entryPhis B' hB' := by
    obtain ⟨B, hB, rfl⟩ := move_back hB'
    rw [movedBlk_phis]; exact W.entryPhis B hB
  inOrder b B' hB' hb := by
    have S := W.toShape
    obtain ⟨B, hB, rfl⟩ := move_back hB'
    have hO := W.inOrder b B hB ((move_live b).1 hb)
    have ids : ∀ {x}, x ∈ (movedBlk a c i n b B).ids → (x = i.id ∧ b = c) ∨ (x ≠ i.id ∧ x ∈ B.ids) := by
      intro x hx
      rcases (M.defIn S).1 ⟨_, hB', hx⟩ with h | ⟨h, B0, hB0, h'⟩
      · exact .inl h
      · rw [hB] at hB0; cases hB0; exact .inr ⟨h, h'⟩
    constructor
    · intro pre j post hbody x hx hxi
      rw [movedBlk_phis]
      by_cases hba : b = a
      · have hbc : b ≠ c := by rw [hba]; exact M.ne
        have hbody' : B.body.filter (fun j => j.id != i.id) = pre ++ j :: post := by
          rw [← hbody]; unfold movedBlk; rw [if_pos hba]
        obtain ⟨l1, l2, e1, e2⟩ := filter_split hbody'
        rcases ids hxi with ⟨_, h⟩ | ⟨hne, hxB⟩
        · exact absurd h hbc
        · rcases hO.1 l1 j l2 e1 x hx hxB with h | h
          · exact .inl h
          · right
            obtain ⟨y, hy, rfl⟩ := List.mem_map.1 h
            apply List.mem_map_of_mem
            rw [← e2]
            exact List.mem_filter.2 ⟨hy, by simpa using hne⟩
      · by_cases hbc : b = c
        · subst hbc
          have hBD : D = B := Option.some.inj (M.hD.symm.trans hB)
          subst hBD
          have hbody' : D.body.take n ++ i :: D.body.drop n = pre ++ j :: post := by
            rw [← hbody]; unfold movedBlk; rw [if_neg hba, if_pos rfl]
          rcases insert_split hbody' with ⟨r, e1⟩ | ⟨e1, e2, _⟩ | ⟨r, e1, e2⟩
          · have hfull : D.body = pre ++ j :: (r ++ D.body.drop n) := by
              rw [← List.cons_append, ← List.append_assoc, ← e1, List.take_append_drop]
            rcases ids hxi with ⟨rfl, _⟩ | ⟨hne, hxB⟩
            · exfalso
              have hj : j ∈ D.body.drop n := (M.uses b D j hB (by rw [hfull]; simp) hx).2 rfl
              have hn := S.ids_nodup hB
              unfold Block.ids at hn
              have hn := (List.nodup_append.1 hn).2.1
              rw [← List.take_append_drop n D.body, List.map_append] at hn
              exact (List.nodup_append.1 hn).2.2 j.id (List.mem_map_of_mem (by rw [e1]; simp)) j.id (List.mem_map_of_mem hj) rfl
            · exact hO.1 pre j _ hfull x hx hxB
          · subst e2
            obtain ⟨d, hd, hdom, hin⟩ := M.args x hx
            rcases ids hxi with ⟨rfl, _⟩ | ⟨hne, hxB⟩
            · exact absurd hx (M.self W hl)
            · have hdb : d = b := defIn_unique W.listed W.unique hd ⟨D, hB, hxB⟩
              rw [e1]
              exact hin hdb
          · have hfull : D.body = (D.body.take n ++ r) ++ j :: post := by
              rw [List.append_assoc, ← e2, List.take_append_drop]
            rcases ids hxi with ⟨rfl, _⟩ | ⟨hne, hxB⟩
            · right; rw [e1]; simp
            · rcases hO.1 _ j _ hfull x hx hxB with h | h
              · exact .inl h
              · right
                rw [e1]
                simp only [List.map_append, List.mem_append, List.map_cons, List.mem_cons] at h ⊢
                rcases h with h | h
                · exact .inl h
                · exact .inr (.inr h)
        · have hsame : movedBlk a c i n b B = B := by unfold movedBlk; rw [if_neg hba, if_neg hbc]
          rw [hsame] at hbody hxi
          exact hO.1 pre j post hbody x hx hxi
    · intro x hx hxi
      rw [movedBlk_phis]
      rw [movedBlk_term] at hx
      have hx0 := hxi
      unfold Block.ids at hx0
      rw [movedBlk_phis] at hx0
      exact List.mem_append.1 hx0
  use b B' x hB' hb hx := by
    have S := W.toShape
    obtain ⟨B, hB, rfl⟩ := move_back hB'
    have hbl := (move_live b).1 hb
    by_cases hxi : x = i.id
    · subst hxi
      refine ⟨c, (M.defIn S).2 (.inl ⟨rfl, rfl⟩), (move_domi _ _).2 ?_⟩
      rcases hx with ⟨j, hj, hx⟩ | hx
      · rcases moved_uses hj with ⟨h, _⟩ | ⟨_, rfl⟩
        · exact (M.uses b B j hB h hx).1
        · exact absurd hx (M.self W hl)
      · rw [movedBlk_term] at hx
        exact M.termUses b B hB hx
    · have old : ∀ {d}, DefIn F x d → Domi F d b → ∃ d, DefIn (F.moveTo a c i n) x d ∧ Domi (F.moveTo a c i n) d b :=
        fun h1 h2 => ⟨_, (M.defIn S).2 (.inr ⟨hxi, h1⟩), (move_domi _ _).2 h2⟩
      rcases hx with ⟨j, hj, hx⟩ | hx
      · rcases moved_uses hj with ⟨h, _⟩ | ⟨rfl, rfl⟩
        · obtain ⟨d, h1, h2⟩ := W.use b B x hB hbl (.inl ⟨j, h, hx⟩)
          exact old h1 h2
        · obtain ⟨d, h1, h2, _⟩ := M.args x hx
          exact old h1 h2
      · rw [movedBlk_term] at hx
        obtain ⟨d, h1, h2⟩ := W.use b B x hB hbl (.inr hx)
        exact old h1 h2
  phiUse b B' p q x hB' hb hp hq hql := by
    have S := W.toShape
    obtain ⟨B, hB, rfl⟩ := move_back hB'
    rw [movedBlk_phis] at hp
    by_cases hxi : x = i.id
    · subst hxi
      exact ⟨c, (M.defIn S).2 (.inl ⟨rfl, rfl⟩), (move_domi _ _).2 (M.phiUses b B p q hB hp hq)⟩
    · obtain ⟨d, h1, h2⟩ := W.phiUse b B p q x hB ((move_live b).1 hb) hp hq ((move_live q).1 hql)
      exact ⟨d, (M.defIn S).2 (.inr ⟨hxi, h1⟩), (move_domi _ _).2 h2⟩
  phiPred b B' p hB' hb hp q v hq := by
    obtain ⟨B, hB, rfl⟩ := move_back hB'
    rw [movedBlk_phis] at hp
    exact move_edge.2 (W.phiPred b B p hB ((move_live b).1 hb) hp q v hq)
  phiAll b B' p q hB' hb hp he hql := by
    obtain ⟨B, hB, rfl⟩ := move_back hB'
    rw [movedBlk_phis] at hp
    exact W.phiAll b B p q hB ((move_live b).1 hb) hp (move_edge.1 he) ((move_live q).1 hql)
  phiDead b B' p p' q v hB' hb hp hp' hq := by
    obtain ⟨B, hB, rfl⟩ := move_back hB'
    rw [movedBlk_phis] at hp hp'
    exact W.phiDead b B p p' q v hB ((move_live b).1 hb) hp hp' hq

theorem MoveOk.allLive (_M : MoveOk F a c i n A D) (hl : AllLive F) : AllLive (F.moveTo a c i n) := by
  intro b B' hB'
  obtain ⟨B, hB, _⟩ := move_back hB'
  exact (move_live b).2 (hl b B hB)

/-- apart from the instruction the body is the same -/
theorem MoveOk.rest (M : MoveOk F a c i n A D) (b : Nat) (B : Block Op C) :
    (movedBlk a c i n b B).body.filter (fun j => j.id != i.id) = B.body.filter (fun j => j.id != i.id) := by
  unfold movedBlk
  split
  · rw [List.filter_filter]; congr 1; funext j; simp
  · split
    · rw [List.filter_append, List.filter_cons_of_neg (by simp), ← List.filter_append, List.take_append_drop]
    · rfl

end
end Cmmc.SSA
