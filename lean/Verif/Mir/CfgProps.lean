import Verif.Mir.IcfProps

/-!
# C51-C53: rearranging machine code

`FSame f g` (Flat.lean): started with any registers and memory, whatever can be seen of one function (the visible
instructions in order, the memory after each, and the memory with which it returns) can be seen of the other.
-/

namespace Cmmc.Mir

/-! ## What simplified code looks like -/

/-- Block `b` can come after block `a`: by a branch, or by running off its end. -/
def Edge (f : Code) (a b : Nat) : Prop :=
  ∃ A is B, f = A ++ (a, is) :: B ∧ ((∃ x ∈ is, b ∈ x.targets) ∨
    (∀ x ∈ is, x.noFall = false) ∧ ∃ js D, B = (b, js) :: D)

/-- Nothing left for the simplification to do. -/
structure Simplified (f : Code) : Prop where
  /-- every block can be reached from the entry -/
  reach : ∀ E ∈ f.head?, ∀ B ∈ f, Relation.ReflTransGen (Edge f) E.1 B.1
  /-- nothing follows an instruction control does not pass -/
  tail : ∀ B ∈ f, ∀ p x s, B.2 = p ++ x :: s → x.noFall = true → s = []
  /-- no block ends with a jump to the next one -/
  next : ∀ A B l is n js x, f = A ++ (l, is) :: (n, js) :: B → is.getLast? = some x → x.br ≠ .goto n
  /-- nothing branches to a block that only jumps on -/
  forward : ∀ B ∈ f, ∀ x ∈ B.2, ∀ t ∈ x.targets, ∀ y u, y.br = .goto u → (t, [y]) ∉ f
  /-- no block is empty, except perhaps the last -/
  empty : ∀ A B D, f = A ++ B :: D → D ≠ [] → B.2 ≠ []

/-- A pass that reports no change changed nothing. -/
def Honest (p : Code → Code × Bool) : Prop := ∀ f, (p f).2 = false → (p f).1 = f

theorem map_retarget_id {ρ : Nat → Nat} {L : List FInst} (h : ∀ x ∈ L, ∀ t ∈ x.targets, ρ t = t) :
    L.map (FInst.retarget ρ) = L := by
  have : L.map (FInst.retarget ρ) = L.map id := by
    apply List.map_congr_left
    intro x hx
    have hx := h x hx
    rcases x with ⟨i, b⟩
    cases b with
    | goto t => simp [FInst.retarget, hx t (by simp [FInst.targets])]
    | cond t => simp [FInst.retarget, hx t (by simp [FInst.targets])]
    | table ts =>
      simp only [FInst.retarget, id, FInst.mk.injEq, Br.table.injEq, true_and]
      have : ts.map ρ = ts.map id := List.map_congr_left fun t ht => hx t (by simpa [FInst.targets] using ht)
      rw [this, List.map_id]
    | none => rfl
    | stop => rfl
  rw [this, List.map_id]

theorem retarget_id_of {ρ : Nat → Nat} {f : Code} (h : ∀ x ∈ f.flat, ∀ t ∈ x.targets, ρ t = t) : f.retarget ρ = f := by
  have : f.retarget ρ = f.map id := by
    apply List.map_congr_left
    intro B hB
    rcases B with ⟨l, is⟩
    simp only [id, Prod.mk.injEq, true_and]
    exact map_retarget_id fun x hx => h x (List.mem_flatMap.mpr ⟨(l, is), hB, hx⟩)
  rw [this, List.map_id]

theorem redirectGoto_flag {f : Code} (h : (redirectGoto f).2 = false) : ∀ x ∈ f.flat, ∀ t ∈ x.targets, f.forward t = none := by
  intro x hx t ht
  simp only [redirectGoto, List.any_eq_false, Bool.not_eq_true] at h
  have := h x hx t ht
  cases hf : f.forward t with
  | none => rfl
  | some u => rw [hf] at this; simp at this

theorem redirectGoto_honest : Honest redirectGoto := by
  intro f h
  refine retarget_id_of fun x hx t ht => ?_
  rw [redirectGoto_flag h x hx t ht]
  rfl

theorem removeEmptyBlocks_honest : Honest removeEmptyBlocks := by
  intro f h
  simp only [removeEmptyBlocks, Bool.not_eq_false', List.isEmpty_iff] at h ⊢
  rw [h]
  have : f.filter (fun B => (List.lookup B.1 ([] : List (Nat × Nat))).isNone) = f := by
    rw [List.filter_eq_self]; intro a _; rfl
  rw [this]
  exact retarget_id_of fun x hx t ht => rfl

theorem removeUnusedLabels_honest : Honest removeUnusedLabels := by
  intro f h
  cases f with
  | nil => rfl
  | cons B r =>
    simp only [removeUnusedLabels] at h ⊢
    split at h
    · rename_i h'
      rw [if_pos h']
    · cases h

theorem removeUnreachableCode_honest : Honest removeUnreachableCode := by
  intro f h
  unfold removeUnreachableCode at h ⊢
  split
  · rfl
  · simp only at h ⊢
    split
    · rfl
    · rename_i hs
      rw [hs] at h
      simpa using h

theorem decide_honest {p : Code → Code} : Honest fun f => (p f, decide (p f ≠ f)) := by
  intro f h
  simpa using h

theorem passes_honest {ps : List (Code → Code × Bool)} (h : ∀ p ∈ ps, Honest p) {f : Code} (hf : (passes ps f).2 = false) :
    (passes ps f).1 = f ∧ ∀ p ∈ ps, (p f).2 = false := by
  induction ps with
  | nil => exact ⟨rfl, by simp⟩
  | cons p ps ih =>
    simp only [passes, Bool.or_eq_false_iff] at hf
    have h1 := h p (by simp) f hf.1
    obtain ⟨a, b⟩ := ih (fun q hq => h q (List.mem_cons_of_mem _ hq)) (by rw [← h1]; simpa using hf.2)
    refine ⟨?_, ?_⟩
    · simp only [passes]; rw [h1]; exact a
    · intro q hq
      rcases List.mem_cons.mp hq with rfl | hq
      · exact hf.1
      · exact b q hq

theorem untilSame_last {p : Code → Code × Bool} {n : Nat} {f g : Code} (h : untilSame p n f = some g) :
    ∃ f', (p f').2 = false ∧ (p f').1 = g := by
  induction n generalizing f with
  | zero => cases h
  | succ n ih =>
    simp only [untilSame] at h
    split at h
    · exact ih h
    · rename_i hn
      cases h
      exact ⟨f, by simpa using hn, rfl⟩

theorem mapEnds_fix {e : Nat → List FInst → List FInst} : ∀ {f A B : Code} {l n : Nat} {is js : List FInst},
    mapEnds e f = f → f = A ++ (l, is) :: (n, js) :: B → e n is = is := by
  intro f A
  induction A generalizing f with
  | nil =>
    rintro B l n is js h rfl
    simp only [List.nil_append, mapEnds, List.cons.injEq, Prod.mk.injEq, true_and] at h
    exact h.1
  | cons X A ih =>
    rintro B l n is js h rfl
    cases A with
    | nil =>
      simp only [List.cons_append, List.nil_append, mapEnds, List.cons.injEq, Prod.mk.injEq, true_and] at h
      exact h.2.1
    | cons Y A =>
      simp only [List.cons_append, mapEnds, List.cons.injEq] at h
      exact ih (f := Y :: A ++ (l, is) :: (n, js) :: B) (by simpa using h.2) rfl

section
variable {Val Mem : Type} {T : Target} {I : Interp Val Mem} {vis : Nat → Bool} {C : Inst → Prop} {f g : Code} {J : BrOps}

theorem edge_of_reach (hnd : f.labels.Nodup) {a b : Nat} (h : b ∈ f.reach1 a) : Edge f a b := by
  simp only [Code.reach1] at h
  cases hb : f.body a with
  | none => rw [hb] at h; simp at h
  | some is =>
    rw [hb] at h
    obtain ⟨A, B, e, hA⟩ := Code.body_split hb
    rcases List.mem_append.mp h with h | h
    · obtain ⟨x, hx, ht⟩ := List.mem_flatMap.mp h
      exact ⟨A, is, B, e, .inl ⟨x, cut_sub _ x hx, ht⟩⟩
    · split at h
      · rename_i hfl
        rw [Option.mem_toList] at h
        rw [e, Code.after_here hA] at h
        refine ⟨A, is, B, e, .inr ⟨by simpa [falls] using hfl, ?_⟩⟩
        cases B with
        | nil => simp at h
        | cons Z D =>
          simp only [List.head?_cons, Option.map_some, Option.some.injEq] at h
          exact ⟨Z.2, D, by rw [← h]⟩
      · simp at h

theorem clean_fix {seen : List Nat} (h : clean seen f = f) : ∀ B ∈ f, B.1 ∈ seen ∧ cut B.2 = B.2 := by
  induction f with
  | nil => intro B hB; cases hB
  | cons D r ih =>
    by_cases hD : D.1 ∈ seen
    · have e : clean seen (D :: r) = (D.1, cut D.2) :: clean seen r := by simp [clean, hD]
      rw [e] at h
      simp only [List.cons.injEq] at h
      intro B hB
      rcases List.mem_cons.mp hB with rfl | hB
      · exact ⟨hD, by have := congrArg Prod.snd h.1; exact this⟩
      · exact ih h.2 B hB
    · exfalso
      have e : clean seen (D :: r) = clean seen r := by simp [clean, hD]
      rw [e] at h
      have h1 : (clean seen r).length ≤ r.length := by
        simp only [clean, List.length_map]
        exact List.length_filter_le _ _
      rw [h] at h1
      simp only [List.length_cons] at h1
      omega

theorem cut_fix {p s : List FInst} {x : FInst} (h : cut (p ++ x :: s) = p ++ x :: s) (hx : x.noFall = true) : s = [] := by
  induction p with
  | nil =>
    simp only [List.nil_append, cut, hx, if_true] at h
    simp at h; exact h
  | cons y p ih =>
    simp only [List.cons_append, cut] at h
    split at h
    · simp at h
    · simp only [List.cons.injEq, true_and] at h
      exact ih h

theorem emptyMap_nil : ∀ {f : Code} {pend : List Nat}, emptyMap pend f = [] → ∀ A B D, f = A ++ B :: D → D ≠ [] → B.2 ≠ [] := by
  have key : ∀ {f : Code} {pend : List Nat}, emptyMap pend f = [] → pend ≠ [] → f = [] := by
    intro f
    induction f with
    | nil => intro pend _ _; rfl
    | cons X r ih =>
      intro pend h hp
      rcases X with ⟨l, is⟩
      simp only [emptyMap] at h
      split at h
      · have := ih h (by simp)
        subst this
        simp only [emptyMap, List.getLast?_concat, List.dropLast_concat, List.map_eq_nil_iff] at h
        exact absurd h hp
      · simp only [List.append_eq_nil_iff, List.map_eq_nil_iff] at h
        exact absurd h.1 hp
  intro f
  induction f with
  | nil => rintro pend h A B D e; simp at e
  | cons X r ih =>
    rintro pend h A B D e hD
    rcases X with ⟨l, is⟩
    simp only [emptyMap] at h
    split at h
    · have hr := key h (by simp)
      subst hr
      cases A with
      | nil => simp at e; exact absurd e.2 hD
      | cons Y A => simp at e
    · rename_i hne
      simp only [List.append_eq_nil_iff] at h
      cases A with
      | nil =>
        simp only [List.nil_append, List.cons.injEq] at e
        rw [← e.1]
        simpa using hne
      | cons Y A =>
        simp only [List.cons_append, List.cons.injEq] at e
        exact ih h.2 A B D e.2 hD

/-- C51: each pass, on its own, cannot be seen. -/
theorem C51_each_pass (hJ : J.Ok T I vis C) : ∀ p ∈ [removeUnreachableCode, removeGotoNext, redirectGoto, removeEmptyBlocks,
    removeUnusedLabels, reorderBranch J, sfbOpt J, conditional2Unconditional J], Sound T I vis C fun f => (p f).1 := by
  intro p hp
  simp only [List.mem_cons, List.not_mem_nil, or_false] at hp
  rcases hp with rfl | rfl | rfl | rfl | rfl | rfl | rfl | rfl
  · exact removeUnreachableCode_sound
  · exact removeGotoNext_sound
  · exact redirectGoto_sound
  · exact removeEmptyBlocks_sound
  · exact removeUnusedLabels_sound
  · exact reorderBranch_sound hJ
  · exact sfbOpt_sound hJ
  · exact conditional2Unconditional_sound hJ

/-- C51: if the simplification of the control flow ends, what it gives cannot be told from what it was given, and
    there is nothing left to simplify. -/
theorem C51_simplifyCFG (hJ : J.Ok T I vis C) {peep : Code → Code × Bool} (hp : Sound T I vis C fun f => (peep f).1)
    (hh : Honest peep) {n : Nat} (hf : CodeOk T I vis C f) (h : simplifyCFG J peep n f = some g) :
    FSame T I vis f g ∧ CodeOk T I vis C g ∧ Simplified g := by
  have hall := C51_each_pass (T := T) (I := I) (vis := vis) (C := C) hJ
  obtain ⟨a, b⟩ := untilSame_sound (passes_sound (by
    intro p hp'
    simp only [List.mem_cons, List.not_mem_nil, or_false] at hp'
    rcases hp' with rfl | rfl | rfl | rfl | rfl | rfl | rfl | rfl
    all_goals first | exact hp | exact hall _ (by simp))) n f g hf h
  refine ⟨a, b, ?_⟩
  obtain ⟨f', h1, h2⟩ := untilSame_last h
  obtain ⟨h3, h4⟩ := passes_honest (by
    intro p hp'
    simp only [List.mem_cons, List.not_mem_nil, or_false] at hp'
    rcases hp' with rfl | rfl | rfl | rfl | rfl | rfl | rfl | rfl
    · exact removeUnreachableCode_honest
    · exact decide_honest
    · exact redirectGoto_honest
    · exact removeEmptyBlocks_honest
    · exact removeUnusedLabels_honest
    · exact decide_honest
    · exact decide_honest
    · exact hh) h1
  rw [h2] at h3
  subst h3
  have q1 := h4 removeUnreachableCode (by simp)
  have q2 := h4 removeGotoNext (by simp)
  have q3 := h4 redirectGoto (by simp)
  have q4 := h4 removeEmptyBlocks (by simp)
  obtain ⟨seen, e, -, -, hs⟩ := removeUnreachableCode_spec b
  rw [removeUnreachableCode_honest _ q1] at e
  have hcl := clean_fix e.symm
  refine ⟨?_, ?_, ?_, ?_, ?_⟩
  · intro E hE B hB
    have := (hs E hE B.1).mp (hcl B hB).1
    exact Relation.ReflTransGen.mono (fun x y hxy => edge_of_reach b.nodup hxy) _ _ this
  · intro B hB p x s hB2 hx
    have := (hcl B hB).2
    rw [hB2] at this
    exact cut_fix this hx
  · intro A B l is n js x he hl hx
    have hfix : mapEnds dropGotos g = g := by simpa [removeGotoNext] using q2
    have := mapEnds_fix hfix he
    obtain ⟨is', rfl⟩ := List.getLast?_eq_some_iff.mp hl
    simp only [dropGotos] at this
    rw [List.rdropWhile_concat_pos _ _ _ (by simp [FInst.isGoto, hx])] at this
    have hlen := congrArg List.length this
    have := (List.rdropWhile_prefix (FInst.isGoto n) (l := is')).length_le
    simp only [List.length_append, List.length_singleton] at hlen
    omega
  · intro B hB x hx t ht y u hy hm
    have := redirectGoto_flag q3 x (List.mem_flatMap.mpr ⟨B, hB, hx⟩) t ht
    rw [Code.forward, b.body_mem hm] at this
    simp [gotoOnly, hy] at this
  · have : emptyMap [] g = [] := by simpa [removeEmptyBlocks] using q4
    exact emptyMap_nil this

/-- C51: the same for the variant that runs while blocks still end with their terminators. -/
theorem C51_simplifyCFGUnique (hJ : J.Ok T I vis C) {peep : Code → Code × Bool} (hp : PeepOk T I vis C peep) {n : Nat}
    (hf : CodeOk T I vis C f) (ht : Terminated f) (h : simplifyCFGUnique J peep n f = some g) :
    FSame T I vis f g ∧ CodeOk T I vis C g ∧ Terminated g :=
  simplifyCFGUnique_sound hJ hp n f g hf ht h

/-- C52: whichever blocks are duplicated into the blocks that jump to them, it cannot be seen. -/
theorem C52_tailDuplication (hJ : J.Ok T I vis C) {peep : Code → Code × Bool} (hp : PeepOk T I vis C peep)
    {want : Nat → Code → Nat → Nat → Bool} {n iters : Nat} (hf : CodeOk T I vis C f) (ht : Terminated f)
    (h : tailDuplication J want (simplifyCFGUnique J peep n) iters f = some g) :
    FSame T I vis f g ∧ CodeOk T I vis C g ∧ Terminated g :=
  tailDuplication_sound hJ (simplifyCFGUnique_sound hJ hp n) iters f g hf ht h

/-- C52: whatever order of the blocks the placement finds, as long as the entry stays first, applying it cannot be
    seen. -/
theorem C52_blockLayout (hJ : J.Ok T I vis C) {place : Code → List Nat} (hf : CodeOk T I vis C f) (ht : Terminated f)
    (hp : (place f).Perm (List.range f.length)) (h0 : (place f).head? = some 0) :
    FSame T I vis f (optimizeBlockLayout J place f) ∧ CodeOk T I vis C (optimizeBlockLayout J place f) :=
  optimizeBlockLayout_sound hJ hf ht hp h0

/-- C53: folding identical blocks cannot be seen, provided that no pointer to a block has hash 0. -/
theorem C53_identicalCodeFolding (hJ : J.Ok T I vis C) {hs hp : Nat → Nat} (hp0 : ∀ l, hp l ≠ 0) {n : Nat}
    (hf : CodeOk T I vis C f) (ht : Terminated f) (h : identicalCodeFolding J hs hp n f = some g) :
    FSame T I vis f g ∧ CodeOk T I vis C g ∧ Terminated g :=
  identicalCodeFolding_sound hJ hp0 n f g hf ht h

end

end Cmmc.Mir
