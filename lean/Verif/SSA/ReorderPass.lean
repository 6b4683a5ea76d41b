import Verif.SSA.ReorderSem
/-!
# C78: InstReorder (cmmc/Transforms/Misc/InstReorder.cpp:45-177): one block
-/
namespace Cmmc.SSA
section
variable {Op C : Type}

/-- positions of the operands that are instructions of the block -/
def opPos (ids : List Nat) (os : List (Opd C)) : List Nat :=
  os.filterMap (fun o => match o with | .inst x => if x ∈ ids then some (ids.idxOf x) else none | .cst _ => none)

/-- `isMovableExpr(inst, false)` fails; it fails for `alloc` (BlockUtil.cpp:161) -/
def lockedInst (mov isAlloc : Op → Bool) (i : Inst Op C) : Bool := isAlloc i.op || !mov i.op

/-- phis, instructions and the terminator as nodes -/
def Block.rnodes (mov isAlloc : Op → Bool) (B : Block Op C) : List RNode :=
  B.phis.map (fun _ => ⟨true, true, []⟩) ++ (B.body.map (fun i => ⟨lockedInst mov isAlloc i, isAlloc i.op, if isAlloc i.op then [] else opPos B.ids i.args⟩) ++ [⟨true, false, opPos B.ids B.term.args⟩])

/-- `reorderBlock`. The block is put together from the phis, other instructions and terminator found in the new order: `reorder_shape` shows that they are found in this order. -/
def Block.reorder (mov isAlloc : Op → Bool) (pick : List Nat → Nat) (B : Block Op C) : Block Op C where
  phis := (reorderNodes pick (B.rnodes mov isAlloc)).filterMap (fun k => B.phis[k]?)
  body := (reorderNodes pick (B.rnodes mov isAlloc)).filterMap (fun k => if k < B.phis.length then none else B.body[k - B.phis.length]?)
  term := B.term

end

/-! ## lists -/
section
variable {α : Type}

theorem range_filterMap_get (l : List α) : ∀ n, l.length ≤ n → (List.range n).filterMap (fun k => l[k]?) = l := by
  induction l with
  | nil => intro n _; simp
  | cons a l ih =>
    intro n hn
    obtain ⟨k, rfl⟩ : ∃ k, n = k + 1 := ⟨n - 1, by simp at hn; omega⟩
    rw [List.range_succ_eq_map, List.filterMap_cons]
    simp only [List.getElem?_cons_zero, List.filterMap_map]
    congr 1
    exact ih k (by simp at hn; omega)

theorem range_filterMap_shift (l : List α) (p n : Nat) (h : p + l.length ≤ n) : (List.range n).filterMap (fun k => if k < p then none else l[k - p]?) = l := by
  obtain ⟨q, rfl⟩ : ∃ q, n = p + q := ⟨n - p, by omega⟩
  rw [List.range_add, List.filterMap_append, List.filterMap_map]
  have h1 : (List.range p).filterMap (fun k => if k < p then none else l[k - p]?) = [] := by
    rw [List.filterMap_eq_nil_iff]
    intro k hk
    rw [if_pos (by simpa using hk)]
  rw [h1, List.nil_append]
  have h2 : ((fun k => if k < p then none else l[k - p]?) ∘ fun x => p + x) = fun k => l[k]? := by
    funext k
    simp
  rw [h2]
  exact range_filterMap_get l q (by omega)

/-- a list in the order of positions that keeps a part of them sorted -/
theorem filter_sorted {R : List Nat} {n : Nat} {p : Nat → Bool} (hp : R.Perm (List.range n)) (h : R.Pairwise (fun a b => p a = true → p b = true → a < b)) : R.filter p = (List.range n).filter p := by
  refine List.Perm.eq_of_pairwise (le := fun a b => a < b) ?_ ?_ ?_ (hp.filter p)
  · intro a b _ _ h1 h2; omega
  · rw [List.pairwise_filter]
    exact h.imp (fun h ha hb => h ha hb)
  · exact List.pairwise_lt_range.filter _

theorem reorder_filter_split {R : List Nat} {p : Nat → Bool} (h : R.Pairwise (fun a b => p b = true → p a = true)) : R = R.filter p ++ R.filter (fun a => !p a) := by
  induction R with
  | nil => rfl
  | cons a R ih =>
    obtain ⟨h1, h2⟩ := List.pairwise_cons.1 h
    by_cases ha : p a = true
    · rw [List.filter_cons_of_pos ha, List.filter_cons_of_neg (by simp [ha])]
      rw [List.cons_append, ← ih h2]
    · rw [List.filter_cons_of_neg ha, List.filter_cons_of_pos (by simpa using ha)]
      have h3 : R.filter p = [] := by
        rw [List.filter_eq_nil_iff]
        intro b hb hpb
        exact ha (h1 b hb hpb)
      have h4 : R.filter (fun a => !p a) = R := by
        rw [List.filter_eq_self]
        intro b hb
        have : p b ≠ true := fun hpb => ha (h1 b hb hpb)
        simpa using this
      rw [h3, h4, List.nil_append]

end

/-! ## the nodes of a block -/
section
variable {Op C : Type} {mov isAlloc : Op → Bool} {pick : List Nat → Nat} {B : Block Op C}

theorem rnodes_len : (B.rnodes mov isAlloc).length = B.phis.length + B.body.length + 1 := by simp [Block.rnodes]; omega

theorem rnodes_phi {k : Nat} (h : k < B.phis.length) : (B.rnodes mov isAlloc)[k]? = some ⟨true, true, []⟩ := by
  unfold Block.rnodes
  rw [List.getElem?_append_left (by simpa using h)]
  simp [h]

theorem rnodes_body {k : Nat} {i : Inst Op C} (h : B.body[k]? = some i) :
    (B.rnodes mov isAlloc)[B.phis.length + k]? = some ⟨lockedInst mov isAlloc i, isAlloc i.op, if isAlloc i.op then [] else opPos B.ids i.args⟩ := by
  have hk := (List.getElem?_eq_some_iff.1 h).1
  unfold Block.rnodes
  rw [List.getElem?_append_right (by simp), List.getElem?_append_left (by simp; omega)]
  simp [h]

theorem rnodes_term : (B.rnodes mov isAlloc)[B.phis.length + B.body.length]? = some ⟨true, false, opPos B.ids B.term.args⟩ := by
  unfold Block.rnodes
  rw [List.getElem?_append_right (by simp), List.getElem?_append_right (by simp)]
  simp

/-- a node is a phi, an instruction or the terminator -/
theorem rnodes_cases {k : Nat} {n : RNode} (h : (B.rnodes mov isAlloc)[k]? = some n) : (k < B.phis.length ∧ n = ⟨true, true, []⟩) ∨
    (∃ j i, k = B.phis.length + j ∧ B.body[j]? = some i ∧ n = ⟨lockedInst mov isAlloc i, isAlloc i.op, if isAlloc i.op then [] else opPos B.ids i.args⟩) ∨
    k = B.phis.length + B.body.length ∧ n = ⟨true, false, opPos B.ids B.term.args⟩ := by
  by_cases h1 : k < B.phis.length
  · rw [rnodes_phi h1] at h; exact .inl ⟨h1, (Option.some.inj h).symm⟩
  · by_cases h2 : k < B.phis.length + B.body.length
    · obtain ⟨j, rfl⟩ : ∃ j, k = B.phis.length + j := ⟨k - B.phis.length, by omega⟩
      have h3 : B.body[j]? = some B.body[j] := List.getElem?_eq_getElem (by omega)
      rw [rnodes_body h3] at h
      exact .inr (.inl ⟨j, _, rfl, h3, (Option.some.inj h).symm⟩)
    · have h3 := (List.getElem?_eq_some_iff.1 h).1
      rw [rnodes_len] at h3
      have : k = B.phis.length + B.body.length := by omega
      subst this
      rw [rnodes_term] at h
      exact .inr (.inr ⟨rfl, (Option.some.inj h).symm⟩)

theorem mem_opPos {ids : List Nat} {os : List (Opd C)} {j : Nat} : j ∈ opPos ids os ↔ ∃ x, Opd.inst x ∈ os ∧ x ∈ ids ∧ j = ids.idxOf x := by
  unfold opPos
  rw [List.mem_filterMap]
  constructor
  · rintro ⟨o, ho, h⟩
    cases o with
    | cst c => simp at h
    | inst x =>
      simp only at h
      split at h
      · rename_i hx
        exact ⟨x, ho, hx, (Option.some.inj h).symm⟩
      · cases h
  · rintro ⟨x, hx, hm, rfl⟩
    exact ⟨.inst x, hx, by simp [hm]⟩

theorem idxOf_lt_of_prefix {ids a r : List Nat} (h : ids = a ++ r) {x : Nat} (hx : x ∈ a) : ids.idxOf x < a.length := by
  subst h
  rw [List.idxOf_append_of_mem hx]
  exact List.idxOf_lt_length_of_mem hx

theorem rnodes_up (ho : InOrder B) : OpsUp (B.rnodes mov isAlloc) := by
  intro k n hn j hj
  rcases rnodes_cases hn with ⟨h1, rfl⟩ | ⟨q, i, rfl, hi, rfl⟩ | ⟨rfl, rfl⟩
  · simp at hj
  · simp only at hj
    split at hj
    · simp at hj
    · obtain ⟨x, hx, hm, rfl⟩ := mem_opPos.1 hj
      obtain ⟨hq, he⟩ := List.getElem?_eq_some_iff.1 hi
      have hsp : B.body = B.body.take q ++ i :: B.body.drop (q + 1) := by
        rw [← he, List.getElem_cons_drop, List.take_append_drop]
      have hpre : B.ids = (B.phis.map Phi.id ++ (B.body.take q).map Inst.id) ++ (i :: B.body.drop (q + 1)).map Inst.id := by
        unfold Block.ids
        rw [List.append_assoc, ← List.map_append, ← hsp]
      have hmem : x ∈ B.phis.map Phi.id ++ (B.body.take q).map Inst.id := by
        rcases ho.1 _ i _ hsp x hx hm with h | h
        · exact List.mem_append_left _ h
        · exact List.mem_append_right _ h
      have := idxOf_lt_of_prefix hpre hmem
      simp at this
      omega
  · obtain ⟨x, hx, hm, rfl⟩ := mem_opPos.1 hj
    have := List.idxOf_lt_length_of_mem hm
    simp [Block.ids] at this
    simp [Block.ids]
    omega

theorem rnodes_ne : B.rnodes mov isAlloc ≠ [] := by
  intro h
  have := rnodes_len (mov := mov) (isAlloc := isAlloc) (B := B)
  rw [h] at this
  simp at this

/-! ## before and after -/

/-- `a` comes before `b` in the order -/
def Ahead (R : List Nat) (a b : Nat) : Prop := R.idxOf a < R.idxOf b

theorem before_dep (ho : InOrder B) {a b : Nat} (h : a ∈ reorderDeps (B.rnodes mov isAlloc) b) : Ahead (reorderNodes pick (B.rnodes mov isAlloc)) a b := by
  obtain ⟨h1, h2, _⟩ := reorderNodes_ok pick (rnodes_up (mov := mov) (isAlloc := isAlloc) ho) rnodes_ne
  have hlt := reorderDeps_lt (rnodes_up ho) h
  have ha : a ∈ reorderNodes pick (B.rnodes mov isAlloc) := h1.mem_iff.2 (by simp; omega)
  have hb : b ∈ reorderNodes pick (B.rnodes mov isAlloc) := h1.mem_iff.2 (by simp; omega)
  unfold Ahead
  by_contra hn
  have ha' := List.idxOf_lt_length_of_mem ha
  have hb' := List.idxOf_lt_length_of_mem hb
  have hne : (reorderNodes pick (B.rnodes mov isAlloc)).idxOf b ≠ (reorderNodes pick (B.rnodes mov isAlloc)).idxOf a := by
    intro e
    have e1 := List.getElem_idxOf ha'
    have e2 := List.getElem_idxOf hb'
    simp only [e] at e2
    rw [e1] at e2
    omega
  have := List.pairwise_iff_getElem.1 h2 _ _ hb' ha' (by omega)
  rw [List.getElem_idxOf, List.getElem_idxOf] at this
  exact this h

/-- the last one is found -/
theorem lastBefore_some {p : RNode → Bool} {ns : List RNode} {j k : Nat} {n : RNode} (hj : j < k) (hn : ns[j]? = some n) (hp : p n = true) : ∃ j', lastBefore p ns k = some j' ∧ j ≤ j' := by
  unfold lastBefore
  induction k with
  | zero => omega
  | succ k ih =>
    rw [List.range_succ, List.reverse_append]
    simp only [List.reverse_cons, List.reverse_nil, List.nil_append, List.cons_append, List.find?_cons]
    split
    · exact ⟨k, rfl, by omega⟩
    · rename_i hf
      have : j ≠ k := by
        rintro rfl
        rw [hn] at hf
        simp only at hf
        rw [hp] at hf
        cases hf
      exact ih (by omega)

theorem locked_before (ho : InOrder B) : ∀ {b a : Nat} {na nb : RNode}, (B.rnodes mov isAlloc)[a]? = some na → (B.rnodes mov isAlloc)[b]? = some nb → na.locked = true → nb.locked = true → a < b →
    Ahead (reorderNodes pick (B.rnodes mov isAlloc)) a b := by
  intro b
  induction b using Nat.strongRecOn with
  | ind b ih =>
    intro a na nb ha hb hla hlb hlt
    obtain ⟨j, hj, hle⟩ := lastBefore_some (p := RNode.locked) hlt ha hla
    obtain ⟨hjb, nj, hnj, hlj⟩ := lastBefore_lt hj
    have hd : j ∈ reorderDeps (B.rnodes mov isAlloc) b := by
      unfold reorderDeps
      rw [hb]
      simp only
      rw [List.mem_dedup, hlb, if_pos rfl, hj]
      simp
    have h1 := before_dep (pick := pick) ho hd
    by_cases haj : a = j
    · rw [haj]; exact h1
    · exact Nat.lt_trans (ih j hjb ha hnj hla hlj (by omega)) h1

theorem phi_before (ho : InOrder B) {a b : Nat} (ha : a < B.phis.length) (hb : B.phis.length ≤ b) (hbn : b < (B.rnodes mov isAlloc).length) :
    Ahead (reorderNodes pick (B.rnodes mov isAlloc)) a b := by
  have hna := rnodes_phi (mov := mov) (isAlloc := isAlloc) ha
  obtain ⟨nb, hnb⟩ : ∃ nb, (B.rnodes mov isAlloc)[b]? = some nb := ⟨_, List.getElem?_eq_getElem hbn⟩
  by_cases hl : nb.locked = true
  · exact locked_before ho hna hnb rfl hl (by omega)
  · have hp : nb.pin = false := by
      rcases rnodes_cases hnb with ⟨h1, rfl⟩ | ⟨q, i, rfl, hi, rfl⟩ | ⟨rfl, rfl⟩
      · exact absurd rfl hl
      · simp only [lockedInst, Bool.or_eq_true, not_or] at hl
        simpa using hl.1
      · rfl
    obtain ⟨j, hj, hle⟩ := lastBefore_some (p := RNode.pin) (k := b) (by omega) hna rfl
    obtain ⟨hjb, nj, hnj, hpj⟩ := lastBefore_lt hj
    have hlj : nj.locked = true := by
      rcases rnodes_cases hnj with ⟨h1, rfl⟩ | ⟨q, i, rfl, hi, rfl⟩ | ⟨rfl, rfl⟩
      · rfl
      · simp only at hpj
        simp [lockedInst, hpj]
      · rfl
    have hd : j ∈ reorderDeps (B.rnodes mov isAlloc) b := by
      unfold reorderDeps
      rw [hnb]
      simp only
      rw [List.mem_dedup, hp, hj]
      simp
    have h1 := before_dep (pick := pick) ho hd
    by_cases haj : a = j
    · rw [haj]; exact h1
    · exact Nat.lt_trans (locked_before ho hna hnj rfl hlj (by omega)) h1

theorem before_pairwise {R : List Nat} (hnd : R.Nodup) {Q : Nat → Nat → Prop} (h : ∀ a ∈ R, ∀ b ∈ R, ¬ Q a b → a = b ∨ Ahead R b a) : R.Pairwise Q := by
  rw [List.pairwise_iff_getElem]
  intro i j hi hj hij
  by_contra hq
  have := h _ (List.getElem_mem hi) _ (List.getElem_mem hj) hq
  unfold Ahead at this
  rw [hnd.idxOf_getElem _ hi, hnd.idxOf_getElem _ hj] at this
  rcases this with h1 | h1
  · have := (List.Nodup.getElem_inj_iff hnd).1 h1; omega
  · omega

/-- the order of any locked nodes is kept -/
theorem reorder_keeps (ho : InOrder B) {p : Nat → Bool} (hp : ∀ k, p k = true → ∃ n, (B.rnodes mov isAlloc)[k]? = some n ∧ n.locked = true) :
    (reorderNodes pick (B.rnodes mov isAlloc)).filter p = (List.range (B.rnodes mov isAlloc).length).filter p := by
  obtain ⟨h1, _, _⟩ := reorderNodes_ok pick (rnodes_up (mov := mov) (isAlloc := isAlloc) ho) rnodes_ne
  refine filter_sorted h1 (before_pairwise (h1.nodup_iff.2 List.nodup_range) ?_)
  intro a _ b _ hq
  push_neg at hq
  obtain ⟨ha, hb, hle⟩ := hq
  obtain ⟨na, hna, hla⟩ := hp a ha
  obtain ⟨nb, hnb, hlb⟩ := hp b hb
  by_cases hab : a = b
  · exact .inl hab
  · exact .inr (locked_before ho hnb hna hlb hla (by omega))

/-- **the new order: the phis in their old order, then the other instructions, then the terminator** -/
theorem reorder_shape (ho : InOrder B) : ∃ mid, reorderNodes pick (B.rnodes mov isAlloc) = List.range B.phis.length ++ mid ++ [B.phis.length + B.body.length] ∧
    mid.Perm ((List.range B.body.length).map (B.phis.length + ·)) := by
  obtain ⟨h1, _, l, hl⟩ := reorderNodes_ok pick (rnodes_up (mov := mov) (isAlloc := isAlloc) ho) rnodes_ne
  have hlen := rnodes_len (mov := mov) (isAlloc := isAlloc) (B := B)
  have hnd := h1.nodup_iff.2 List.nodup_range
  have hs := reorder_filter_split (R := reorderNodes pick (B.rnodes mov isAlloc)) (p := fun k => decide (k < B.phis.length)) (before_pairwise hnd (by
    intro a ha b hb hq
    simp only [decide_eq_true_eq, not_forall, Nat.not_lt] at hq
    obtain ⟨h3, h4⟩ := hq
    exact .inr (phi_before ho h3 h4 (by simpa using h1.mem_iff.1 ha))))
  rw [reorder_keeps ho (fun k hk => ⟨_, rnodes_phi (by simpa using hk), rfl⟩)] at hs
  have hr : (List.range (B.rnodes mov isAlloc).length).filter (fun k => decide (k < B.phis.length)) = List.range B.phis.length := by
    rw [hlen, Nat.add_assoc, List.range_add, List.filter_append]
    have e1 : (List.range B.phis.length).filter (fun k => decide (k < B.phis.length)) = List.range B.phis.length := by
      rw [List.filter_eq_self]; intro k hk; simpa using hk
    have e2 : ((List.range (B.body.length + 1)).map (B.phis.length + ·)).filter (fun k => decide (k < B.phis.length)) = [] := by
      rw [List.filter_eq_nil_iff]
      intro k hk
      obtain ⟨j, _, rfl⟩ := List.mem_map.1 hk
      simp
    rw [e1, e2, List.append_nil]
  rw [hr] at hs
  -- the terminator is the last of the rest
  have hlast : B.phis.length + B.body.length = (B.rnodes mov isAlloc).length - 1 := by omega
  have hne : ∃ mid, (reorderNodes pick (B.rnodes mov isAlloc)).filter (fun k => !decide (k < B.phis.length)) = mid ++ [B.phis.length + B.body.length] := by
    rw [hl, List.filter_append, hlast]
    refine ⟨l.filter (fun k => !decide (k < B.phis.length)), ?_⟩
    congr 1
    rw [List.filter_cons_of_pos]
    · rfl
    · simp; omega
  obtain ⟨mid, hmid⟩ := hne
  rw [hmid] at hs
  refine ⟨mid, by rw [hs, List.append_assoc], ?_⟩
  rw [hs, hlen, Nat.add_assoc, List.range_add] at h1
  have h2 := (List.perm_append_left_iff _).1 h1
  rw [List.range_succ, List.map_append] at h2
  exact (List.perm_append_right_iff _).1 h2

/-- **the phis are the same** -/
theorem reorder_phis (ho : InOrder B) : (B.reorder mov isAlloc pick).phis = B.phis := by
  have hlen := rnodes_len (mov := mov) (isAlloc := isAlloc) (B := B)
  have hf : ∀ R : List Nat, R.filterMap (fun k => B.phis[k]?) = (R.filter (fun k => decide (k < B.phis.length))).filterMap (fun k => B.phis[k]?) := by
    intro R
    rw [List.filterMap_filter]
    congr 1
    funext k
    by_cases hk : k < B.phis.length
    · simp [hk]
    · simp [hk]
  show (reorderNodes pick (B.rnodes mov isAlloc)).filterMap (fun k => B.phis[k]?) = B.phis
  rw [hf, reorder_keeps ho (fun k hk => ⟨_, rnodes_phi (by simpa using hk), rfl⟩), ← hf]
  exact range_filterMap_get _ _ (by omega)

/-- **the other instructions are rescheduled** -/
theorem reorder_resched (ho : InOrder B) (hnd : B.ids.Nodup) (hal : ∀ i ∈ B.body, isAlloc i.op = true → i.args = []) :
    Resched (lockedInst mov isAlloc) B.body (B.reorder mov isAlloc pick).body := by
  have hlen := rnodes_len (mov := mov) (isAlloc := isAlloc) (B := B)
  obtain ⟨h1, _, _⟩ := reorderNodes_ok pick (rnodes_up (mov := mov) (isAlloc := isAlloc) ho) rnodes_ne
  have hall : (List.range (B.rnodes mov isAlloc).length).filterMap (fun k => if k < B.phis.length then none else B.body[k - B.phis.length]?) = B.body := range_filterMap_shift _ _ _ (by omega)
  have hbody : (B.reorder mov isAlloc pick).body = (reorderNodes pick (B.rnodes mov isAlloc)).filterMap (fun k => if k < B.phis.length then none else B.body[k - B.phis.length]?) := rfl
  refine ⟨?_, ?_, ?_⟩
  · rw [hbody]
    refine List.Perm.trans (h1.filterMap _) ?_
    rw [hall]
  · let q : Nat → Bool := fun k => if k < B.phis.length then false else match B.body[k - B.phis.length]? with | some i => lockedInst mov isAlloc i | none => false
    have hf : ∀ R : List Nat, (R.filterMap (fun k => if k < B.phis.length then none else B.body[k - B.phis.length]?)).filter (lockedInst mov isAlloc) =
        (R.filter q).filterMap (fun k => if k < B.phis.length then none else B.body[k - B.phis.length]?) := by
      intro R
      induction R with
      | nil => rfl
      | cons k R ih =>
        by_cases hk : k < B.phis.length
        · have hq : q k = false := if_pos hk
          rw [List.filterMap_cons_none (by simp [hk]), List.filter_cons_of_neg (by simp [hq])]
          exact ih
        · cases hb : B.body[k - B.phis.length]? with
          | none =>
            have hq : q k = false := by simp only [q]; rw [if_neg hk, hb]
            rw [List.filterMap_cons_none (by rw [if_neg hk]; exact hb), List.filter_cons_of_neg (by simp [hq])]
            exact ih
          | some i =>
            have hq : q k = lockedInst mov isAlloc i := by simp only [q]; rw [if_neg hk, hb]
            have he : (if k < B.phis.length then none else B.body[k - B.phis.length]?) = some i := by rw [if_neg hk]; exact hb
            rw [List.filterMap_cons_some (f := fun k => if k < B.phis.length then none else B.body[k - B.phis.length]?) he]
            by_cases hl : lockedInst mov isAlloc i = true
            · rw [List.filter_cons_of_pos hl, List.filter_cons_of_pos (by rw [hq]; exact hl), List.filterMap_cons_some (f := fun k => if k < B.phis.length then none else B.body[k - B.phis.length]?) he, ih]
            · rw [List.filter_cons_of_neg hl, List.filter_cons_of_neg (by rw [hq]; exact hl), ih]
    rw [hbody, hf, reorder_keeps ho, ← hf, hall]
    intro k hk
    simp only [q] at hk
    split at hk
    · cases hk
    · rename_i hk1
      split at hk
      · rename_i i hi
        have := rnodes_body (mov := mov) (isAlloc := isAlloc) hi
        rw [show B.phis.length + (k - B.phis.length) = k by omega] at this
        exact ⟨_, this, hk⟩
      · cases hk
  · intro pre i post hsp x hx hm
    rw [hbody] at hsp
    obtain ⟨R1, R2, hR, hp1, hp2⟩ := List.filterMap_eq_append_iff.1 hsp
    obtain ⟨S1, k, S2, rfl, hS1, hk, hS2⟩ := List.filterMap_eq_cons_iff.1 hp2
    split at hk
    · cases hk
    · rename_i hkp
      have hrn := rnodes_body (mov := mov) (isAlloc := isAlloc) hk
      rw [show B.phis.length + (k - B.phis.length) = k by omega] at hrn
      have hna : isAlloc i.op = false := by
        by_contra hh
        have := hal i (List.mem_of_getElem? hk) (by simpa using hh)
        rw [this] at hx; simp at hx
      have hxi : x ∈ B.ids := List.mem_append_right _ hm
      have hd : B.ids.idxOf x ∈ reorderDeps (B.rnodes mov isAlloc) k := by
        unfold reorderDeps
        rw [hrn]
        simp only
        rw [List.mem_dedup, hna]
        simp only [Bool.false_eq_true, if_false]
        exact List.mem_append_right _ (List.mem_append_right _ (mem_opPos.2 ⟨x, hx, hxi, rfl⟩))
      have hb := before_dep (pick := pick) ho hd
      have hRnd := h1.nodup_iff.2 List.nodup_range
      -- the position of `x` is in front of `k`
      have hmemR : B.ids.idxOf x ∈ reorderNodes pick (B.rnodes mov isAlloc) := by
        refine h1.mem_iff.2 ?_
        have := List.idxOf_lt_length_of_mem hxi
        simp only [Block.ids, List.length_append, List.length_map] at this
        simp only [List.mem_range, hlen]
        simp only [Block.ids]
        omega
      have hpre : B.ids.idxOf x ∈ R1 ++ S1 := by
        have hR' : reorderNodes pick (B.rnodes mov isAlloc) = (R1 ++ S1) ++ k :: S2 := by rw [hR, List.append_assoc]
        rw [hR'] at hb hmemR hRnd
        by_contra hno
        unfold Ahead at hb
        have hk' : k ∉ R1 ++ S1 := by
          intro hh
          exact (List.nodup_append.1 hRnd).2.2 k hh k (by simp) rfl
        rw [List.idxOf_append_of_notMem hno, List.idxOf_append_of_notMem hk', List.idxOf_cons_self] at hb
        omega
      -- `x` is an instruction, not a phi
      have hxp : ¬ B.ids.idxOf x < B.phis.length := by
        intro hlt
        have h4 : x ∉ B.phis.map Phi.id := by
          intro h4
          exact (List.nodup_append.1 hnd).2.2 x h4 x hm rfl
        unfold Block.ids at hlt
        rw [List.idxOf_append_of_notMem h4] at hlt
        simp at hlt
      have h4 : x ∉ B.phis.map Phi.id := fun h4 => (List.nodup_append.1 hnd).2.2 x h4 x hm rfl
      have hidx : B.ids.idxOf x = B.phis.length + (B.body.map Inst.id).idxOf x := by
        unfold Block.ids
        rw [List.idxOf_append_of_notMem h4]
        simp
      have hlt := List.idxOf_lt_length_of_mem hm
      have hget : (B.body.map Inst.id)[(B.body.map Inst.id).idxOf x]? = some x := by
        rw [List.getElem?_eq_getElem hlt, List.getElem_idxOf]
      rw [List.getElem?_map] at hget
      obtain ⟨j, hj, hjx⟩ := Option.map_eq_some_iff.1 hget
      have hjm : j ∈ (R1 ++ S1).filterMap (fun k => if k < B.phis.length then none else B.body[k - B.phis.length]?) := by
        refine List.mem_filterMap.2 ⟨_, hpre, ?_⟩
        rw [if_neg hxp, hidx, Nat.add_sub_cancel_left]
        exact hj
      rw [List.filterMap_append, hp1] at hjm
      have hS1' : S1.filterMap (fun k => if k < B.phis.length then none else B.body[k - B.phis.length]?) = [] := by
        rw [List.filterMap_eq_nil_iff]; exact hS1
      rw [hS1', List.append_nil] at hjm
      exact List.mem_map.2 ⟨j, hjm, hjx⟩

end
end Cmmc.SSA
