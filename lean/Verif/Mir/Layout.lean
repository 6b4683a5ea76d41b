import Verif.Mir.Flat

/-!
# Correspondences between two layouts of a function

Two ways of showing that a change to a layout cannot be seen: the instructions stay the same and the branches are
retargeted (`retarget_same`), or the end of one block is exchanged (`edit_same`).
-/

namespace Cmmc.Mir

/-- The labels of the blocks, in layout order. -/
def Code.labels (f : Code) : List Nat := f.map Prod.fst

/-- Labels are unique and every branch goes to a label of the function (a branch operand is a pointer to a block of
    the function, MIR.hpp:300-343). -/
structure Code.Wf (f : Code) : Prop where
  nodup : f.labels.Nodup
  tgt : ∀ x ∈ f.flat, ∀ t ∈ x.targets, t ∈ f.labels

/-- Change the target of a branch (`redirectBranch`, InstInfo.cpp:236-242, and the rewriting of jump tables). -/
def FInst.retarget (ρ : Nat → Nat) (x : FInst) : FInst :=
  { inst := x.inst,
    br := match x.br with
      | .goto t => .goto (ρ t)
      | .cond t => .cond (ρ t)
      | .table ts => .table (ts.map ρ)
      | b => b }

/-- The labels a branch mentions are replaced throughout the function. -/
def Code.retarget (ρ : Nat → Nat) (f : Code) : Code := f.map fun B => (B.1, B.2.map (FInst.retarget ρ))

theorem FInst.retarget_id (x : FInst) : x.retarget id = x := by
  rcases x with ⟨i, b⟩
  cases b <;> simp [FInst.retarget]

@[simp] theorem FInst.retarget_inst (ρ : Nat → Nat) (x : FInst) : (x.retarget ρ).inst = x.inst := rfl

theorem FInst.retarget_stops (ρ : Nat → Nat) (x : FInst) : (x.retarget ρ).stops = x.stops := by
  rcases x with ⟨i, b⟩
  cases b <;> rfl

theorem FInst.retarget_noFall (ρ : Nat → Nat) (x : FInst) : (x.retarget ρ).noFall = x.noFall := by
  rcases x with ⟨i, b⟩
  cases b <;> rfl

theorem FInst.retarget_targets (ρ : Nat → Nat) (x : FInst) : (x.retarget ρ).targets = x.targets.map ρ := by
  rcases x with ⟨i, b⟩
  cases b <;> rfl

theorem Code.flat_nil : Code.flat [] = [] := rfl
theorem Code.flat_cons (B : Nat × List FInst) (f : Code) : Code.flat (B :: f) = B.2 ++ Code.flat f := by simp [Code.flat]
theorem Code.flat_append (f g : Code) : Code.flat (f ++ g) = Code.flat f ++ Code.flat g := by simp [Code.flat]

theorem Code.retarget_flat (ρ : Nat → Nat) (f : Code) : (f.retarget ρ).flat = f.flat.map (FInst.retarget ρ) := by
  induction f with
  | nil => rfl
  | cons B f ih =>
    have : Code.retarget ρ (B :: f) = (B.1, B.2.map (FInst.retarget ρ)) :: Code.retarget ρ f := rfl
    rw [this, flat_cons, flat_cons, ih, List.map_append]

theorem Code.retarget_labels (ρ : Nat → Nat) (f : Code) : (f.retarget ρ).labels = f.labels := by
  simp [Code.labels, Code.retarget]

theorem Code.retarget_at (ρ : Nat → Nat) (f : Code) (t : Nat) :
    (f.retarget ρ).at t = (f.at t).map (List.map (FInst.retarget ρ)) := by
  induction f with
  | nil => rfl
  | cons B f ih =>
    have : Code.retarget ρ (B :: f) = (B.1, B.2.map (FInst.retarget ρ)) :: Code.retarget ρ f := rfl
    rw [this]
    simp only [Code.at, ih, retarget_flat]
    split <;> simp

theorem Code.at_isSome {f : Code} {t : Nat} (h : t ∈ f.labels) : ∃ d, f.at t = some d := by
  induction f with
  | nil => simp [Code.labels] at h
  | cons B f ih =>
    simp only [Code.at]
    split
    · exact ⟨_, rfl⟩
    · rename_i hne
      simp only [Code.labels, List.map_cons, List.mem_cons] at h
      rcases h with h | h
      · exact absurd h.symm hne
      · exact ih h

theorem Code.at_none {f : Code} {t : Nat} (h : t ∉ f.labels) : f.at t = none := by
  induction f with
  | nil => rfl
  | cons B f ih =>
    simp only [Code.labels, List.map_cons, List.mem_cons, not_or] at h
    simp only [Code.at]
    rw [if_neg (fun e => h.1 e.symm)]
    exact ih h.2

theorem Code.at_mem {f : Code} {t : Nat} {d : List FInst} (h : f.at t = some d) : t ∈ f.labels := by
  by_contra hn
  rw [Code.at_none hn] at h
  cases h

theorem Code.at_append {A B : Code} {t : Nat} (h : t ∉ A.labels) : Code.at (A ++ B) t = Code.at B t := by
  induction A with
  | nil => rfl
  | cons X A ih =>
    simp only [Code.labels, List.map_cons, List.mem_cons, not_or] at h
    simp only [List.cons_append, Code.at]
    rw [if_neg (fun e => h.1 e.symm)]
    exact ih h.2

theorem Code.at_append_left {A B : Code} {t : Nat} {d : List FInst} (h : A.at t = some d) :
    Code.at (A ++ B) t = some (d ++ B.flat) := by
  induction A with
  | nil => cases h
  | cons X A ih =>
    simp only [List.cons_append, Code.at] at h ⊢
    split at h
    · rename_i hl
      rw [if_pos hl]
      cases h
      simp [Code.flat_append]
    · rename_i hl
      rw [if_neg hl]
      exact ih h

/-- The code from the label of a block on. -/
theorem Code.at_split {A B : Code} {l : Nat} {is : List FInst} (h : (Code.labels (A ++ (l, is) :: B)).Nodup) :
    Code.at (A ++ (l, is) :: B) l = some (is ++ B.flat) := by
  rw [Code.at_append]
  · simp [Code.at]
  · intro hl
    simp only [Code.labels, List.map_append, List.map_cons] at h hl
    exact (List.nodup_append.mp h).2.2 l hl l (by simp) rfl

theorem Code.at_sub {f : Code} {t : Nat} {d : List FInst} (h : f.at t = some d) : ∀ x ∈ d, x ∈ f.flat := by
  induction f with
  | nil => cases h
  | cons B f ih =>
    simp only [Code.at] at h
    rw [flat_cons]
    split at h
    · cases h; intro x hx; exact hx
    · intro x hx; exact List.mem_append.mpr (.inr (ih h x hx))

section
variable {Val Mem : Type} {T : Target} {I : Interp Val Mem} {vis : Nat → Bool} {f g : Code}

/-- Whether it is so that corresponding targets lead to corresponding code. -/
def AtRel (f g : Code) (ρ : Nat → Nat) (Q : List FInst → List FInst → Prop) (t : Nat) : Prop :=
  ∃ d d', f.at t = some d ∧ g.at (ρ t) = some d' ∧ Q d d'

theorem match_retarget {ρ : Nat → Nat} {Q : List FInst → List FInst → Prop} {x : FInst} {r r' : List FInst}
    (ht : ∀ t ∈ x.targets, AtRel f g ρ Q t) (hr : x.noFall = false → Q r r') :
    Match T I vis f g Q x r (x.retarget ρ) r' := by
  refine match_same rfl (FInst.retarget_stops ρ x).symm ?_ ?_
  · intro k d hn
    rcases x with ⟨i, b⟩
    cases b with
    | none => cases hn; exact ⟨r', rfl, hr rfl⟩
    | goto t =>
      obtain ⟨e, e', h1, h2, h3⟩ := ht t (by simp [FInst.targets])
      simp only [Code.next] at hn
      rw [h1] at hn; cases hn
      exact ⟨e', h2, h3⟩
    | cond t =>
      obtain ⟨e, e', h1, h2, h3⟩ := ht t (by simp [FInst.targets])
      by_cases hk : k = 0
      · simp only [Code.next, if_pos hk] at hn
        rw [h1] at hn; cases hn
        exact ⟨e', by simp only [Code.next, FInst.retarget, if_pos hk]; exact h2, h3⟩
      · simp only [Code.next, if_neg hk] at hn
        cases hn
        exact ⟨r', by simp [Code.next, FInst.retarget, if_neg hk], hr rfl⟩
    | table ts =>
      simp only [Code.next] at hn
      cases hk : ts[k]? with
      | none => rw [hk] at hn; cases hn
      | some t =>
        rw [hk] at hn
        obtain ⟨e, e', h1, h2, h3⟩ := ht t (by simpa [FInst.targets] using List.mem_of_getElem? hk)
        simp only [Option.bind] at hn
        rw [h1] at hn; cases hn
        exact ⟨e', by simp only [Code.next, FInst.retarget, List.getElem?_map, hk, Option.map, Option.bind]; exact h2, h3⟩
    | stop => cases hn
  · intro k d hn
    rcases x with ⟨i, b⟩
    cases b with
    | none => cases hn; exact ⟨r, rfl, hr rfl⟩
    | goto t =>
      obtain ⟨e, e', h1, h2, h3⟩ := ht t (by simp [FInst.targets])
      simp only [Code.next, FInst.retarget] at hn
      rw [h2] at hn; cases hn
      exact ⟨e, h1, h3⟩
    | cond t =>
      obtain ⟨e, e', h1, h2, h3⟩ := ht t (by simp [FInst.targets])
      by_cases hk : k = 0
      · simp only [Code.next, FInst.retarget, if_pos hk] at hn
        rw [h2] at hn; cases hn
        exact ⟨e, by simp only [Code.next, if_pos hk]; exact h1, h3⟩
      · simp only [Code.next, FInst.retarget, if_neg hk] at hn
        cases hn
        exact ⟨r, by simp [Code.next, if_neg hk], hr rfl⟩
    | table ts =>
      simp only [Code.next, FInst.retarget, List.getElem?_map] at hn
      cases hk : ts[k]? with
      | none => rw [hk] at hn; cases hn
      | some t =>
        rw [hk] at hn
        obtain ⟨e, e', h1, h2, h3⟩ := ht t (by simpa [FInst.targets] using List.mem_of_getElem? hk)
        simp only [Option.bind, Option.map] at hn
        rw [h2] at hn; cases hn
        exact ⟨e, by simp only [Code.next, hk, Option.bind]; exact h1, h3⟩
    | stop => cases hn

theorem match_id {Q : List FInst → List FInst → Prop} {x : FInst} {r r' : List FInst}
    (ht : ∀ t ∈ x.targets, AtRel f g id Q t) (hr : x.noFall = false → Q r r') :
    Match T I vis f g Q x r x r' := by
  have := match_retarget (T := T) (I := I) (vis := vis) (ρ := id) ht hr
  rwa [FInst.retarget_id] at this

/-- The instructions stay, branches are retargeted, and each old target corresponds to the new one. -/
theorem retarget_same {ρ : Nat → Nat} (hflat : g.flat = f.flat.map (FInst.retarget ρ))
    (h : ∀ x ∈ f.flat, ∀ t ∈ x.targets, AtRel f g ρ (Clo T I vis f g fun c c' => (∀ x ∈ c, x ∈ f.flat) ∧
      c' = c.map (FInst.retarget ρ)) t) : FSame T I vis f g := by
  refine sync_same (S := fun c c' => (∀ x ∈ c, x ∈ f.flat) ∧ c' = c.map (FInst.retarget ρ)) ?_ (.base ⟨fun _ h => h, hflat⟩)
  rintro c c' ⟨hc, rfl⟩
  cases c with
  | nil => exact .inl ⟨rfl, rfl⟩
  | cons x r =>
    refine .inr ⟨x, r, x.retarget ρ, r.map (FInst.retarget ρ), rfl, rfl, match_retarget (h x (hc x (by simp))) ?_⟩
    intro _
    exact .base ⟨fun y hy => hc y (by simp [hy]), rfl⟩

/-- The points of two layouts that differ in the end of one block: code shared by both, code that runs into the
    exchanged end, and whatever else is needed. -/
inductive EditS (f : Code) (o n : List FInst) (E : List FInst → List FInst → Prop) : List FInst → List FInst → Prop
  | same {c} : (∀ x ∈ c, x ∈ f.flat) → EditS f o n E c c
  | ctx {pre} : pre ≠ [] → (∀ x ∈ pre, x ∈ f.flat) → EditS f o n E (pre ++ o) (pre ++ n)
  | extra {c c'} : E c c' → EditS f o n E c c'

theorem edit_ctx {o n : List FInst} {E : List FInst → List FInst → Prop} (h0 : Clo T I vis f g (EditS f o n E) o n)
    (pre : List FInst) (hp : ∀ x ∈ pre, x ∈ f.flat) : Clo T I vis f g (EditS f o n E) (pre ++ o) (pre ++ n) := by
  cases pre with
  | nil => exact h0
  | cons x r => exact .base (.ctx (by simp) hp)

theorem edit_at {A B C : Code} {l : Nat} {is o n : List FInst} {E : List FInst → List FInst → Prop}
    (hf : f = A ++ (l, is ++ o) :: B) (hg : g = A ++ (l, is ++ n) :: (C ++ B)) (hC : ∀ X ∈ C, X.1 ∉ f.labels)
    (h0 : Clo T I vis f g (EditS f (o ++ B.flat) (n ++ C.flat ++ B.flat) E) (o ++ B.flat) (n ++ C.flat ++ B.flat)) :
    ∀ t ∈ f.labels, AtRel f g id (Clo T I vis f g (EditS f (o ++ B.flat) (n ++ C.flat ++ B.flat) E)) t := by
  intro t ht
  by_cases hA : t ∈ Code.labels A
  · obtain ⟨d, hd⟩ := Code.at_isSome hA
    have e1 : f.at t = some (d ++ Code.flat ((l, is ++ o) :: B)) := hf ▸ Code.at_append_left hd
    have e2 : g.at t = some (d ++ Code.flat ((l, is ++ n) :: (C ++ B))) := hg ▸ Code.at_append_left hd
    refine ⟨_, _, e1, e2, ?_⟩
    rw [Code.flat_cons, Code.flat_cons, Code.flat_append]
    have := edit_ctx h0 (d ++ is) (by
      intro x hx
      rw [hf, Code.flat_append, Code.flat_cons]
      rcases List.mem_append.mp hx with hx | hx
      · exact List.mem_append.mpr (.inl (Code.at_sub hd x hx))
      · simp [hx])
    simpa [List.append_assoc] using this
  · by_cases hl : t = l
    · subst hl
      refine ⟨is ++ o ++ B.flat, is ++ n ++ C.flat ++ B.flat, ?_, ?_, ?_⟩
      · rw [hf, Code.at_append hA]; simp [Code.at]
      · show g.at t = _
        rw [hg, Code.at_append hA]; simp [Code.at, Code.flat_append]
      · have := edit_ctx h0 is (by
          intro x hx
          rw [hf, Code.flat_append, Code.flat_cons]
          simp [hx])
        simpa [List.append_assoc] using this
    · have hnC : t ∉ Code.labels C := by
        intro hc
        simp only [Code.labels, List.mem_map] at hc
        obtain ⟨X, hX, rfl⟩ := hc
        exact hC X hX ht
      have hB : t ∈ Code.labels B := by
        rw [hf] at ht
        simp only [Code.labels, List.map_append, List.map_cons, List.mem_append, List.mem_cons] at ht hA
        rcases ht with h | h | h
        · exact absurd h hA
        · exact absurd h hl
        · exact h
      obtain ⟨d, hd⟩ := Code.at_isSome hB
      refine ⟨d, d, ?_, ?_, .base (.same ?_)⟩
      · rw [hf, Code.at_append hA]
        simp only [Code.at]
        rw [if_neg (fun e => hl e.symm)]; exact hd
      · show g.at t = _
        rw [hg, Code.at_append hA]
        simp only [Code.at]
        rw [if_neg (fun e => hl e.symm), Code.at_append hnC]; exact hd
      · intro x hx
        have := Code.at_sub hd x hx
        rw [hf, Code.flat_append, Code.flat_cons]
        simp [this]

/-- The end of one block is exchanged, and blocks with new labels may be put behind it. -/
theorem edit_same {A B C : Code} {l : Nat} {is o n : List FInst} {E : List FInst → List FInst → Prop}
    (hf : f = A ++ (l, is ++ o) :: B) (hg : g = A ++ (l, is ++ n) :: (C ++ B)) (hC : ∀ X ∈ C, X.1 ∉ f.labels)
    (hwf : f.Wf)
    (h0 : Clo T I vis f g (EditS f (o ++ B.flat) (n ++ C.flat ++ B.flat) E) (o ++ B.flat) (n ++ C.flat ++ B.flat))
    (hE : ∀ c c', E c c' → ∃ x r x' r', c = x :: r ∧ c' = x' :: r' ∧
      Match T I vis f g (Clo T I vis f g (EditS f (o ++ B.flat) (n ++ C.flat ++ B.flat) E)) x r x' r') :
    FSame T I vis f g := by
  refine sync_same (S := EditS f (o ++ B.flat) (n ++ C.flat ++ B.flat) E) ?_ ?_
  · intro c c' hs
    cases hs with
    | same hc =>
      cases c with
      | nil => exact .inl ⟨rfl, rfl⟩
      | cons x r =>
        exact .inr ⟨x, r, x, r, rfl, rfl, match_id (fun t ht => edit_at hf hg hC h0 t (hwf.tgt x (hc x (by simp)) t ht))
          (fun _ => .base (.same fun y hy => hc y (by simp [hy])))⟩
    | @ctx pre hne hp =>
      cases pre with
      | nil => exact absurd rfl hne
      | cons x r =>
        exact .inr ⟨x, _, x, _, rfl, rfl, match_id (fun t ht => edit_at hf hg hC h0 t (hwf.tgt x (hp x (by simp)) t ht))
          (fun _ => edit_ctx h0 r (fun y hy => hp y (by simp [hy])))⟩
    | extra he =>
      exact .inr (hE c c' he)
  · have := edit_ctx h0 (A.flat ++ is) (by
      intro x hx
      rw [hf, Code.flat_append, Code.flat_cons]
      rcases List.mem_append.mp hx with hx | hx <;> simp [hx])
    have e1 : f.flat = A.flat ++ is ++ (o ++ B.flat) := by
      rw [hf, Code.flat_append, Code.flat_cons]; simp [List.append_assoc]
    have e2 : g.flat = A.flat ++ is ++ (n ++ C.flat ++ B.flat) := by
      rw [hg, Code.flat_append, Code.flat_cons, Code.flat_append]; simp [List.append_assoc]
    rw [← e1, ← e2] at this
    exact this

end

end Cmmc.Mir
