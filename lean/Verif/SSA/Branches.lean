import Verif.SSA.Edit
/-!
# Passes on branches: SimplifyBranch, MergeBranch, SimplifyPartialUnreachableBranch (cmmc/Transforms/ControlFlow)

Every pass is `for(auto block : func.blocks()) …` with in-place edits, modelled by a fold of the edit at one block over the block list.
The edits never change the list itself.
-/
namespace Cmmc.SSA
section
variable {Op C : Type}

/-- one iteration of the loop in `SimplifyBranch::run` (SimplifyBranch.cpp:48-69). `uint` is the matcher `uint_`: the value of an integer
constant, `none` for anything else. -/
def simplifyBranchAt (uint : C → Option Nat) (F : Func Op C) (b : Nat) : Func Op C :=
  match F.blk b with
  | some B =>
    match B.term with
    | .cbr (.cst c) t f =>
      match uint c with
      | some k =>
        let F1 := F.set b { B with term := .br (if k ≠ 0 then t else f) }
        if t ≠ f then F1.removePhi b (if k = 0 then t else f) else F1
      | none => F
    | _ => F
  | none => F

/-- `SimplifyBranch::run` (SimplifyBranch.cpp:46-71) -/
def simplifyBranch (uint : C → Option Nat) (F : Func Op C) : Func Op C := F.order.foldl (simplifyBranchAt uint) F

/-- one iteration of the loop in `MergeBranch::run` (MergeBranch.cpp:48-64) -/
def mergeBranchAt (F : Func Op C) (b : Nat) : Func Op C :=
  match F.blk b with
  | some B =>
    match B.term with
    | .cbr _ t f => if t ≠ f then F else F.set b { B with term := .br t }
    | _ => F
  | none => F

/-- `MergeBranch::run` (MergeBranch.cpp:41-66); `select` is the target's `isNativeSupported(Select)` -/
def mergeBranch (select : Bool) (F : Func Op C) : Func Op C := if select then F.order.foldl mergeBranchAt F else F

/-- `isUnreachablePath` (SimplifyPartialUnreachableBranch.cpp:45-47) -/
def unreachablePath (F : Func Op C) (b : Nat) : Bool :=
  match F.blk b with
  | some ⟨[], [], .unreachable⟩ => true
  | _ => false

/-- one iteration of the loop in `SimplifyPartialUnreachableBranch::run` (l.52-79) -/
def simplifyPartialAt (F : Func Op C) (b : Nat) : Func Op C :=
  match F.blk b with
  | some B =>
    match B.term with
    | .cbr _ t f =>
      let tu := unreachablePath F t
      let fu := unreachablePath F f
      if tu = false ∧ fu = false then F
      else if tu ≠ fu then F.set b { B with term := .br (if fu then t else f) }
      else F.set b { B with term := .unreachable }
    | _ => F
  | none => F

/-- `SimplifyPartialUnreachableBranch::run` (l.50-81) -/
def simplifyPartial (F : Func Op C) : Func Op C := F.order.foldl simplifyPartialAt F

end

section
variable {L : Lang}

theorem refines_foldl {α : Type} {f : L.F → α → L.F} (h : ∀ F a, Refines L F (f F a)) : ∀ (l : List α) (F : L.F), Refines L F (l.foldl f F) := by
  intro l
  induction l with
  | nil => intro F; exact Refines.refl F
  | cons a l ih => intro F; exact (h F a).trans (ih _)

/-- changing the terminator of one block, agreeing with the old one whenever that is defined -/
theorem refines_setTerm {F : L.F} {b : Nat} {B : L.B} (hB : F.blk b = some B) (t : Term L.C)
    (ht : ∀ env, evalTerm L env B.term = .ub ∨ evalTerm L env B.term = evalTerm L env t) :
    Refines L F (F.set b { B with term := t }) := by
  refine refines_edges rfl ?_
  intro s _
  by_cases hc : s.cur = b
  · refine step_term (B := B) (B' := { B with term := t }) (by rw [hc, hB]) (by simp [hc]) ?_ rfl ht
    cases s.pred with
    | none => rfl
    | some p => exact SamePhis.refl _ _
  · right
    unfold step
    rw [Func.set_blk, if_neg hc]

/-- dropping the phi entries for an edge that does not exist -/
theorem refines_removePhi {F : L.F} {src tgt : Nat} (h : ∀ B, F.blk src = some B → tgt ∉ B.term.targets) :
    Refines L F (F.removePhi src tgt) := by
  refine refines_edges (by unfold Func.removePhi; rw [Func.mapPhis_entry]) ?_
  intro s hs
  right
  unfold step
  unfold Func.removePhi at *
  rw [Func.mapPhis_blk]
  cases hB : F.blk s.cur with
  | none => rfl
  | some B =>
    simp only [Option.map_some]
    split
    · rename_i hc
      refine Eq.symm (stepBlk_congr (B := B) (B' := { B with phis := removePhis src B.phis }) ?_ rfl (fun _ => rfl))
      unfold OnEdge at hs
      cases hp : s.pred with
      | none => exact (samePhis_remove (Nat.succ_ne_self src) B.phis).length
      | some p =>
        rw [hp] at hs
        obtain ⟨B', hB', ht⟩ := hs
        by_cases hps : p = src
        · rw [Func.mapPhis_blk] at hB'
          cases hsrc : F.blk p with
          | none => rw [hsrc] at hB'; simp at hB'
          | some B1 =>
            rw [hsrc] at hB'
            simp only [Option.map_some, Option.some.injEq] at hB'
            have : B'.term = B1.term := by rw [← hB']; split <;> rfl
            rw [this, hc] at ht
            exact absurd ht (h B1 (by rw [← hps]; exact hsrc))
        · exact samePhis_remove hps B.phis
    · rfl

theorem simplifyBranchAt_refines {uint : L.C → Option Nat} (hu : ∀ c k, uint c = some k → L.truth (L.cval c) = some (decide (k ≠ 0)))
    (F : L.F) (b : Nat) : Refines L F (simplifyBranchAt uint F b) := by
  unfold simplifyBranchAt
  split
  · rename_i B hB
    split
    · rename_i c t f hterm
      split
      · rename_i k hk
        dsimp only
        have h1 : Refines L F (F.set b { B with term := .br (if k ≠ 0 then t else f) }) := by
          refine refines_setTerm hB _ (fun env => .inr ?_)
          rw [hterm]
          simp only [evalTerm, eval, Option.bind_some, hu c k hk]
          by_cases h0 : k = 0 <;> simp [h0]
        split
        · rename_i hne
          refine h1.trans (refines_removePhi ?_)
          intro B' hB'
          simp only [Func.set_blk, if_true, Option.some.injEq] at hB'
          rw [← hB']
          simp only [Term.targets, List.mem_singleton]
          by_cases h0 : k = 0
          · simpa [h0] using hne
          · simpa [h0] using Ne.symm hne
        · exact h1
      · exact Refines.refl F
    · exact Refines.refl F
  · exact Refines.refl F

theorem mergeBranchAt_refines (F : L.F) (b : Nat) : Refines L F (mergeBranchAt F b) := by
  unfold mergeBranchAt
  split
  · rename_i B hB
    split
    · rename_i c t f hterm
      split
      · exact Refines.refl F
      · rename_i hne
        simp only [ne_eq, Decidable.not_not] at hne
        refine refines_setTerm hB _ (fun env => ?_)
        rw [hterm]
        simp only [evalTerm]
        split
        · exact .inl rfl
        · exact .inr rfl
        · right; rw [hne]
    · exact Refines.refl F
  · exact Refines.refl F

/-- entering an `unreachable` block is undefined -/
theorem step_unreachable {F : L.F} {s : St L} (h : unreachablePath F s.cur = true) : step L F s = .inr .ub := by
  unfold unreachablePath at h
  unfold step
  split at h
  · rename_i e
    rw [e]
    rfl
  · simp at h

theorem simplifyPartialAt_refines (F : L.F) (b : Nat) : Refines L F (simplifyPartialAt F b) := by
  have key : ∀ (B : L.B) (c : Opd L.C) (t f : Nat) (T : Term L.C), F.blk b = some B → B.term = .cbr c t f →
      (∀ x ∈ [t, f], unreachablePath F x = false → T = .br x) →
      (unreachablePath F t = true ∨ unreachablePath F f = true) → Refines L F (F.set b { B with term := T }) := by
    intro B c t f T hB hterm hT hun
    refine Simulation.refines (R := fun s t => s = t) ?_ (fun m => rfl)
    rintro s _ rfl
    refine ⟨rfl, ?_⟩
    by_cases hc : s.cur = b
    · -- executing the edited block
      unfold Lang.F at *
      have hF : step L F s = stepBlk L B s := by unfold step; rw [hc, hB]
      have hG : step L (F.set b { B with term := T }) s = stepBlk L { B with term := T } s := by unfold step; rw [Func.set_blk, if_pos hc]
      unfold stepBlk at hF hG
      dsimp only at hG
      split at hF
      · exact .inl ⟨1, by rw [run_one, hF]⟩
      · rename_i env he
        rw [he] at hG
        dsimp only at hG
        split at hF
        · exact .inl ⟨1, by rw [run_one, hF]⟩
        · rename_i es h hb
          rw [hb] at hG
          exact .inr (.inl ⟨1, 1, _, by rw [run_one, hF], by rw [run_one, hG]⟩)
        · rename_i env' m es hb
          rw [hb] at hG
          dsimp only at hG
          rw [hterm] at hF
          have goto : ∀ x ∈ [t, f], step L F s = .inl ⟨some s.cur, x, env', m, es⟩ →
              (∃ k, run L F k s = .inr .ub) ∨ (∃ k j b_1, run L F k s = .inr b_1 ∧ run L (F.set b { B with term := T }) j s = .inr b_1) ∨
              ∃ k j s' t', run L F (k + 1) s = .inl s' ∧ run L (F.set b { B with term := T }) (j + 1) s = .inl t' ∧ s' = t' := by
            intro x hx hs
            cases hu : unreachablePath F x with
            | true =>
              refine .inl ⟨2, ?_⟩
              show (match step L F s with | .inl s' => run L F 1 s' | .inr b => .inr b) = _
              rw [hs]
              dsimp only
              rw [run_one]
              exact step_unreachable hu
            | false =>
              rw [hT x hx hu] at hG
              simp only [evalTerm] at hG
              rw [← hT x hx hu] at hG
              exact .inr (.inr ⟨0, 0, _, _, by rw [run_one, hs], by rw [run_one, hG], rfl⟩)
          simp only [evalTerm] at hF
          split at hF
          · exact .inl ⟨1, by rw [run_one, hF]⟩
          · rename_i h; split at h <;> simp at h
          · rename_i x h
            split at h
            · simp at h
            · simp only [Next.goto.injEq] at h; subst h
              exact goto _ (by simp) hF
            · simp only [Next.goto.injEq] at h; subst h
              exact goto _ (by simp) hF
    · have hG : step L (F.set b { B with term := T }) s = step L F s := by unfold step; rw [Func.set_blk, if_neg hc]
      cases e : step L F s with
      | inr r => exact .inr (.inl ⟨1, 1, r, by rw [run_one, e], by rw [run_one, hG, e]⟩)
      | inl s' => exact .inr (.inr ⟨0, 0, s', s', by rw [run_one, e], by rw [run_one, hG, e], rfl⟩)
  unfold simplifyPartialAt
  split
  · rename_i B hB
    split
    · rename_i c t f hterm
      dsimp only
      split
      · exact Refines.refl F
      · rename_i h1
        split
        · rename_i h2
          refine key B c t f _ hB hterm ?_ ?_
          · intro x hx hx0
            simp only [List.mem_cons, List.not_mem_nil, or_false] at hx
            cases hf : unreachablePath F f <;> rcases hx with rfl | rfl <;> simp_all
          · cases ht : unreachablePath F t <;> cases hf : unreachablePath F f <;> simp_all
        · rename_i h2
          refine key B c t f _ hB hterm ?_ ?_
          · intro x hx hx0
            simp only [List.mem_cons, List.not_mem_nil, or_false] at hx
            rcases hx with rfl | rfl <;> simp_all
          · cases ht : unreachablePath F t <;> cases hf : unreachablePath F f <;> simp_all
    · exact Refines.refl F
  · exact Refines.refl F

/-- C37: `SimplifyBranch` may be applied to every function: the result refines the original. -/
theorem C37_simplifyBranch {uint : L.C → Option Nat} (hu : ∀ c k, uint c = some k → L.truth (L.cval c) = some (decide (k ≠ 0)))
    (F : L.F) : Refines L F (simplifyBranch uint F) :=
  refines_foldl (simplifyBranchAt_refines hu) _ F

/-- C37: `MergeBranch` refines. -/
theorem C37_mergeBranch (select : Bool) (F : L.F) : Refines L F (mergeBranch select F) := by
  unfold mergeBranch
  split
  · exact refines_foldl mergeBranchAt_refines _ F
  · exact Refines.refl F

/-- C37: `SimplifyPartialUnreachableBranch` refines. -/
theorem C37_simplifyPartialUnreachable (F : L.F) : Refines L F (simplifyPartial F) :=
  refines_foldl simplifyPartialAt_refines _ F

end
end Cmmc.SSA
