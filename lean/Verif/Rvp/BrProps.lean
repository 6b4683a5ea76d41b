import Verif.Rvp.PeepProps

/-!
# Branches: `removeDeadBranch` and `branch2jump`
-/

namespace Cmmc.Rvp

open Cmmc.Isel

/-- No remembered branch would be taken. -/
def KOk (K : List (CC × R × R)) (s : St) : Prop := ∀ k ∈ K, k.1.run (s.get k.2.1) (s.get k.2.2) = false

theorem dropBranches_ok {E : Env} {K : List (CC × R × R)} {s : St} (hK : KOk K s) (i : PI) :
    KOk (dropBranches K i) (i.exec E s) := by
  intro k hk
  unfold dropBranches at hk
  split at hk
  · cases hk
  · rename_i hc
    have hc' : i.isCall = false := Bool.eq_false_iff.mpr hc
    cases hd : i.dst with
    | none =>
      rw [hd] at hk
      rw [exec_get_ne hc' (by rw [hd]; simp), exec_get_ne hc' (by rw [hd]; simp)]
      exact hK k hk
    | some d =>
      rw [hd] at hk
      simp only [List.mem_filter, decide_eq_true_eq, not_or] at hk
      rw [exec_get_ne hc' (by rw [hd]; simpa using fun e => hk.2.1 e.symm),
        exec_get_ne hc' (by rw [hd]; simpa using fun e => hk.2.2 e.symm)]
      exact hK k hk.1

theorem deadScan_run {E : Env} : ∀ (is : List PI) (K : List (CC × R × R)) (s : St), KOk K s →
    run E (deadScan K is) s = run E is s := by
  intro is
  induction is with
  | nil => intros; rfl
  | cons i is ih =>
    intro K s hK
    cases i with
    | br c a b l =>
      simp only [deadScan]
      split
      · rename_i hm
        have := hK _ hm
        simp only [run, this, Bool.false_eq_true, if_false]
        exact ih K s hK
      · simp only [run]
        split
        · rfl
        · rename_i hn
          refine ih _ s ?_
          intro k hk
          rcases List.mem_append.mp hk with hk | hk
          · exact hK k hk
          · rw [List.mem_singleton.mp hk]; simpa using hn
    | jump l => rfl
    | jr a => rfl
    | ret => rfl
    | _ => exact ih _ _ (dropBranches_ok hK _)

/-- **C58** (repeated branches).  A block does the same after `removeDeadBranch`. -/
theorem removeDeadBranch_run (E : Env) (is : List PI) (s : St) : run E (removeDeadBranch is) s = run E is s :=
  deadScan_run is [] s (fun _ h => by cases h)

/-! ## Branches on zero -/

theorem eqTaken_run {w : ℕ} (c : CC) (x : BitVec w) : c.run x x = eqTaken c := by
  cases c <;> simp [CC.run, eqTaken, BitVec.slt, BitVec.sle, BitVec.ult, BitVec.ule]

/-- `run` of a block where a branch at the end that is not taken jumps to `n` instead of falling through. -/
def fallTo (next : Option ℕ) : Out → Out
  | .fall s => match next with
    | some n => .jump n s
    | none => .fall s
  | o => o

/-- Every branch is the last instruction of the block (`MIRBasicBlock::verify`, `cmmc/CodeGen/MIR.cpp:27-44`). -/
def LastOnly (is : List PI) : Prop := ∀ i ∈ is.dropLast, i.plain = true

theorem map_zeroBr_none (E : Env) (is : List PI) (s : St) :
    run E (is.map (zeroBr none)) s = run E is s := by
  induction is generalizing s with
  | nil => rfl
  | cons i is ih =>
    cases i with
    | br c a b l =>
      simp only [List.map_cons, zeroBr]
      split
      · rename_i hz
        obtain ⟨rfl, rfl⟩ := hz
        split
        · rename_i ht
          simp only [run, get_x0, eqTaken_run, ht, if_true]
        · rename_i ht
          rw [run_plain rfl]
          simp only [run, get_x0, eqTaken_run, ht, PI.exec, set_x0]
          exact ih s
      · simp only [run, ih]
    | jump l => rfl
    | jr a => rfl
    | ret => rfl
    | _ => exact ih _

/-- With the block after given, the block does the same, except that it may jump to the block after where it fell
through to it. -/
theorem map_zeroBr_some (E : Env) (n : ℕ) (is : List PI) (h : LastOnly is) (s : St) :
    run E (is.map (zeroBr (some n))) s = run E is s ∨
      ∃ t, run E is s = .fall t ∧ run E (is.map (zeroBr (some n))) s = .jump n t := by
  induction is generalizing s with
  | nil => exact Or.inl rfl
  | cons i is ih =>
    cases is with
    | nil =>
      cases i with
      | br c a b l =>
        simp only [List.map_cons, List.map_nil, zeroBr]
        split
        · rename_i hz
          obtain ⟨rfl, rfl⟩ := hz
          split
          · rename_i ht
            left
            simp only [run, get_x0, eqTaken_run, ht, if_true]
          · rename_i ht
            right
            refine ⟨s, ?_, rfl⟩
            simp only [run, get_x0, eqTaken_run, ht]
            rfl
        · exact Or.inl rfl
      | _ => exact Or.inl rfl
    | cons j js =>
      have hp : i.plain = true := h i (by simp)
      have hz : zeroBr (some n) i = i := by cases i <;> first | rfl | cases hp
      have hr := ih (fun k hk => h k (by simp only [List.dropLast_cons_cons, List.mem_cons]; exact Or.inr hk))
        (i.exec E s)
      rw [List.map_cons, hz, run_plain hp, run_plain hp]
      exact hr

/-- Labels name one block each. -/
def Fn.Labelled (f : Fn) : Prop := (f.map Prod.fst).Nodup

theorem at_suffix {f g : Fn} (hl : f.Labelled) {B : ℕ × List PI} {pre : Fn} (h : f = pre ++ B :: g) :
    f.at B.1 = B :: g := by
  subst h
  unfold Fn.at
  induction pre with
  | nil => simp
  | cons C pre ih =>
    have : C.1 ≠ B.1 := by
      unfold Fn.Labelled at hl
      simp only [List.cons_append, List.map_cons, List.nodup_cons, List.map_append] at hl
      intro e
      exact hl.1 (by simp [e])
    rw [List.cons_append, List.dropWhile_cons, if_pos (by simpa using this)]
    refine ih ?_
    unfold Fn.Labelled at *
    simp only [List.cons_append, List.map_cons, List.nodup_cons] at hl
    exact hl.2

theorem branch2jump_labels (e : Bool) (f : Fn) : (branch2jump e f).map Prod.fst = f.map Prod.fst := by
  induction f with
  | nil => rfl
  | cons B f ih => simp only [branch2jump, List.map_cons, ih]

theorem branch2jump_at (e : Bool) (f : Fn) (l : ℕ) : (branch2jump e f).at l = branch2jump e (f.at l) := by
  induction f with
  | nil => rfl
  | cons B f ih =>
    unfold Fn.at at *
    simp only [branch2jump, List.dropWhile_cons]
    split
    · exact ih
    · rfl

theorem branch2jump_append (e : Bool) (pre g : Fn) :
    ∃ pre', branch2jump e (pre ++ g) = pre' ++ branch2jump e g := by
  induction pre with
  | nil => exact ⟨[], rfl⟩
  | cons B pre ih =>
    obtain ⟨p', hp'⟩ := ih
    rw [List.cons_append, branch2jump, hp']
    exact ⟨_ :: p', rfl⟩

theorem at_is_suffix (f : Fn) (l : ℕ) : ∃ pre, f = pre ++ f.at l := by
  refine ⟨f.takeWhile fun B => B.1 ≠ l, ?_⟩
  exact (List.takeWhile_append_dropWhile (p := fun B => decide (B.1 ≠ l)) (l := f)).symm

theorem branch2jump_fwd {E : Env} {e : Bool} {f : Fn} (hl : f.Labelled) (ht : e = true → ∀ B ∈ f, LastOnly B.2) :
    ∀ {g s t}, Runs E f g s t → (∃ pre, f = pre ++ g) → Runs E (branch2jump e f) (branch2jump e g) s t := by
  intro g s t hr
  have hl' : (branch2jump e f).Labelled := by unfold Fn.Labelled; rw [branch2jump_labels]; exact hl
  have blk : ∀ {l is g s}, (∃ pre, f = pre ++ (l, is) :: g) →
      run E (is.map (zeroBr (if e then g.head?.map Prod.fst else none))) s = run E is s ∨
      ∃ t B g', g = B :: g' ∧ run E is s = .fall t ∧
        run E (is.map (zeroBr (if e then g.head?.map Prod.fst else none))) s = .jump B.1 t := by
    intro l is g s hpre
    cases e with
    | false => exact Or.inl (map_zeroBr_none E is s)
    | true =>
      cases g with
      | nil => exact Or.inl (map_zeroBr_none E is s)
      | cons B g' =>
        obtain ⟨pre, hp⟩ := hpre
        rcases map_zeroBr_some E B.1 is (ht rfl (l, is) (by rw [hp]; simp)) s with h | ⟨t, h1, h2⟩
        · exact Or.inl h
        · exact Or.inr ⟨t, B, g', rfl, h1, h2⟩
  induction hr with
  | ret h1 =>
    intro hpre
    rcases blk (s := _) hpre with h | ⟨t, B, g', _, h2, _⟩
    · exact .ret (h.trans h1)
    · rw [h1] at h2; cases h2
  | fall h1 h2 ih =>
    rintro ⟨pre, hpre⟩
    have ih' := ih ⟨pre ++ [_], by rw [List.append_assoc]; exact hpre⟩
    rcases blk (s := _) ⟨pre, hpre⟩ with h | ⟨t, B, g', rfl, h3, h4⟩
    · exact .fall (h.trans h1) ih'
    · rw [h1] at h3
      cases h3
      refine .jump h4 ?_
      have hs : f.at B.1 = B :: g' := at_suffix hl (pre := pre ++ [_]) (by rw [List.append_assoc]; exact hpre)
      rw [branch2jump_at, hs]
      exact ih'
  | jump h1 h2 ih =>
    intro hpre
    have ih' := ih (at_is_suffix f _)
    rcases blk (s := _) hpre with h | ⟨t, B, g', _, h3, _⟩
    · exact .jump (h.trans h1) (by rw [branch2jump_at]; exact ih')
    · rw [h1] at h3; cases h3

theorem branch2jump_bwd {E : Env} {e : Bool} {f : Fn} (hl : f.Labelled) (ht : e = true → ∀ B ∈ f, LastOnly B.2) :
    ∀ {g' s t}, Runs E (branch2jump e f) g' s t → ∀ g, (∃ pre, f = pre ++ g) → g' = branch2jump e g →
      Runs E f g s t := by
  intro g' s t hr
  have blk : ∀ {l is g s}, (∃ pre, f = pre ++ (l, is) :: g) →
      run E (is.map (zeroBr (if e then g.head?.map Prod.fst else none))) s = run E is s ∨
      ∃ t B g', g = B :: g' ∧ run E is s = .fall t ∧
        run E (is.map (zeroBr (if e then g.head?.map Prod.fst else none))) s = .jump B.1 t := by
    intro l is g s hpre
    cases e with
    | false => exact Or.inl (map_zeroBr_none E is s)
    | true =>
      cases g with
      | nil => exact Or.inl (map_zeroBr_none E is s)
      | cons B g' =>
        obtain ⟨pre, hp⟩ := hpre
        rcases map_zeroBr_some E B.1 is (ht rfl (l, is) (by rw [hp]; simp)) s with h | ⟨t, h1, h2⟩
        · exact Or.inl h
        · exact Or.inr ⟨t, B, g', rfl, h1, h2⟩
  induction hr with
  | ret h1 =>
    intro g hpre hg
    cases g with
    | nil => cases hg
    | cons B g =>
      obtain ⟨l, is⟩ := B
      simp only [branch2jump, List.cons.injEq, Prod.mk.injEq] at hg
      obtain ⟨⟨rfl, rfl⟩, _⟩ := hg
      rcases blk (s := _) hpre with h | ⟨t, B, g', _, _, h3⟩
      · exact .ret (h.symm.trans h1)
      · rw [h1] at h3; cases h3
  | fall h1 h2 ih =>
    intro g hpre hg
    cases g with
    | nil => cases hg
    | cons B g =>
      obtain ⟨l, is⟩ := B
      simp only [branch2jump, List.cons.injEq, Prod.mk.injEq] at hg
      obtain ⟨⟨rfl, rfl⟩, hg2⟩ := hg
      obtain ⟨pre, hp⟩ := hpre
      rcases blk (s := _) ⟨pre, hp⟩ with h | ⟨t, B, g', _, _, h3⟩
      · exact .fall (h.symm.trans h1) (ih g ⟨pre ++ [_], by rw [List.append_assoc]; exact hp⟩ hg2)
      · rw [h1] at h3; cases h3
  | jump h1 h2 ih =>
    intro g hpre hg
    cases g with
    | nil => cases hg
    | cons B g =>
      obtain ⟨l, is⟩ := B
      simp only [branch2jump, List.cons.injEq, Prod.mk.injEq] at hg
      obtain ⟨⟨rfl, rfl⟩, hg2⟩ := hg
      obtain ⟨pre, hp⟩ := hpre
      rcases blk (s := _) ⟨pre, hp⟩ with h | ⟨t, B, g', rfl, h3, h4⟩
      · exact .jump (h.symm.trans h1) (ih _ (at_is_suffix f _) (branch2jump_at _ _ _))
      · rw [h1] at h4
        cases h4
        refine .fall h3 ?_
        have hs : f.at B.1 = B :: g' := at_suffix hl (pre := pre ++ [_]) (by rw [List.append_assoc]; exact hp)
        have := ih _ (at_is_suffix f _) (branch2jump_at _ _ _)
        rw [hs] at this
        exact this

/-- **C58** (branches on zero).  A function whose labels are distinct returns from the same states in the same states after
`branch2jump`; while every block ends with its only terminator, that is required of the input. -/
theorem branch2jump_runs (E : Env) (e : Bool) (f : Fn) (hl : f.Labelled) (ht : e = true → ∀ B ∈ f, LastOnly B.2)
    (s t : St) : Runs E (branch2jump e f) (branch2jump e f) s t ↔ Runs E f f s t :=
  ⟨fun h => branch2jump_bwd hl ht h f ⟨[], rfl⟩ rfl, fun h => branch2jump_fwd hl ht h ⟨[], rfl⟩⟩

end Cmmc.Rvp
