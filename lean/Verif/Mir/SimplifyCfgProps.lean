import Verif.Mir.SimplifyCfg

/-!
# The passes of `SimplifyCFG.cpp` cannot be seen
-/

namespace Cmmc.Mir

section
variable {Val Mem : Type} (T : Target) (I : Interp Val Mem) (vis : Nat → Bool)

/-- The target keeps its word: a jump written by it only jumps, and the opposite of one of its conditional branches
    (those in `C`) is one of them and goes the other way. -/
structure BrOps.Ok (C : Inst → Prop) (J : BrOps) : Prop where
  goto : ∀ t, BrPure T I vis (J.goto t)
  pure : ∀ x, C x → BrPure T I vis x
  inv : ∀ x, C x → C (J.inv x)
  flip : ∀ x σ m k, C x → Eff T I x σ m σ m k → ∃ k', Eff T I (J.inv x) σ m σ m k' ∧ (k = 0 ↔ k' ≠ 0)
  flop : ∀ x σ m k', C x → Eff T I (J.inv x) σ m σ m k' → ∃ k, Eff T I x σ m σ m k ∧ (k = 0 ↔ k' ≠ 0)

/-- An instruction of a function with labels `L`: it branches to blocks of the function, a jump only jumps, and a
    conditional branch is one of the target's. -/
structure Good (C : Inst → Prop) (L : List Nat) (x : FInst) : Prop where
  tgt : ∀ t ∈ x.targets, t ∈ L
  goto : ∀ t, x.br = .goto t → BrPure T I vis x.inst
  cond : ∀ t, x.br = .cond t → C x.inst

/-- A function the passes may be run on: unique labels, instructions as above. -/
structure CodeOk (C : Inst → Prop) (f : Code) : Prop where
  nodup : f.labels.Nodup
  good : ∀ x ∈ f.flat, Good T I vis C f.labels x

/-- A pass whose work cannot be seen, and whose result the next pass may be run on. -/
def Sound (C : Inst → Prop) (p : Code → Code) : Prop := ∀ f, CodeOk T I vis C f → FSame T I vis f (p f) ∧ CodeOk T I vis C (p f)

variable {T I vis} {C : Inst → Prop} {f g : Code} {J : BrOps}

theorem CodeOk.wf (h : CodeOk T I vis C f) : f.Wf := ⟨h.nodup, fun x hx => (h.good x hx).tgt⟩

theorem Good.retarget {L L' : List Nat} {ρ : Nat → Nat} {x : FInst} (h : Good T I vis C L x)
    (hρ : ∀ t ∈ x.targets, ρ t ∈ L') : Good T I vis C L' (x.retarget ρ) := by
  refine ⟨?_, ?_, ?_⟩
  · intro t ht
    rw [FInst.retarget_targets, List.mem_map] at ht
    obtain ⟨s, hs, rfl⟩ := ht
    exact hρ s hs
  · intro t ht
    rcases x with ⟨i, b⟩
    cases b <;> simp [FInst.retarget] at ht
    exact h.goto _ rfl
  · intro t ht
    rcases x with ⟨i, b⟩
    cases b <;> simp [FInst.retarget] at ht
    exact h.cond _ rfl

theorem Good.mono {L L' : List Nat} {x : FInst} (h : Good T I vis C L x) (hL : ∀ t ∈ x.targets, t ∈ L') :
    Good T I vis C L' x := ⟨hL, h.goto, h.cond⟩

/-! ## Finding blocks -/

theorem Code.body_split {f : Code} {t : Nat} {is : List FInst} (h : f.body t = some is) :
    ∃ A B, f = A ++ (t, is) :: B ∧ t ∉ Code.labels A := by
  induction f with
  | nil => cases h
  | cons X f ih =>
    rcases X with ⟨l, js⟩
    by_cases hl : l = t
    · subst hl
      simp [Code.body] at h
      subst h
      exact ⟨[], f, rfl, by simp [Code.labels]⟩
    · have : Code.body f t = some is := by simpa [Code.body, hl] using h
      obtain ⟨A, B, e, hA⟩ := ih this
      refine ⟨(l, js) :: A, B, by rw [e]; rfl, ?_⟩
      simp only [Code.labels, List.map_cons, List.mem_cons, not_or]
      exact ⟨fun e => hl e.symm, hA⟩

theorem Code.body_of_split {A B : Code} {t : Nat} {is : List FInst} (h : t ∉ Code.labels A) :
    Code.body (A ++ (t, is) :: B) t = some is := by
  induction A with
  | nil => simp [Code.body]
  | cons X A ih =>
    simp only [Code.labels, List.map_cons, List.mem_cons, not_or] at h
    have := ih h.2
    simp only [Code.body, List.cons_append] at this ⊢
    rw [List.find?_cons_of_neg]
    · exact this
    · simp; exact fun e => h.1 e.symm

theorem Code.body_at {f : Code} {t : Nat} {is : List FInst} (h : f.body t = some is) :
    ∃ r, f.at t = some (is ++ r) := by
  obtain ⟨A, B, rfl, hA⟩ := Code.body_split h
  exact ⟨Code.flat B, by rw [Code.at_append hA]; simp [Code.at]⟩

theorem Code.body_sub {f : Code} {t : Nat} {is : List FInst} (h : f.body t = some is) : ∀ x ∈ is, x ∈ f.flat := by
  obtain ⟨A, B, rfl, -⟩ := Code.body_split h
  intro x hx
  rw [flat_append, flat_cons]
  simp [hx]

theorem Code.body_isSome {f : Code} {t : Nat} (h : t ∈ f.labels) : ∃ is, f.body t = some is := by
  induction f with
  | nil => simp [Code.labels] at h
  | cons X f ih =>
    by_cases hl : X.1 = t
    · exact ⟨X.2, by simp [Code.body, hl]⟩
    · simp only [Code.labels, List.map_cons, List.mem_cons] at h
      rcases h with h | h
      · exact absurd h.symm hl
      · obtain ⟨is, his⟩ := ih h
        exact ⟨is, by simpa [Code.body, hl] using his⟩

/-! ## `redirectGoto` -/

theorem gotoOnly_some {is : List FInst} {u : Nat} (h : gotoOnly is = some u) : ∃ x, is = [x] ∧ x.br = .goto u := by
  unfold gotoOnly at h
  split at h
  · rename_i x
    split at h
    · rename_i t ht
      cases h
      exact ⟨x, rfl, ht⟩
    · cases h
  · cases h

theorem redirectGoto_sound : Sound T I vis C fun f => (redirectGoto f).1 := by
  intro f hf
  have hfwd : ∀ t ∈ f.labels, (f.forward t).getD t ∈ f.labels := by
    intro t ht
    cases hu : f.forward t with
    | none => exact ht
    | some u =>
      simp only [Code.forward] at hu
      cases hb : f.body t with
      | none => rw [hb] at hu; cases hu
      | some is =>
        rw [hb] at hu
        obtain ⟨x, rfl, hx⟩ := gotoOnly_some hu
        exact (hf.good x (Code.body_sub hb x (by simp))).tgt u (by simp [FInst.targets, hx])
  refine ⟨retarget_same (Code.retarget_flat _ _) ?_, ⟨by simpa [redirectGoto, Code.retarget_labels] using hf.nodup, ?_⟩⟩
  · intro y hy t ht
    have htl := (hf.good y hy).tgt t ht
    cases hu : f.forward t with
    | none =>
      obtain ⟨d, hd⟩ := Code.at_isSome htl
      refine ⟨d, d.map (FInst.retarget fun t => (f.forward t).getD t), hd, ?_, .base ⟨Code.at_sub hd, rfl⟩⟩
      simp only [hu, redirectGoto, Option.getD]
      rw [Code.retarget_at, hd]
      rfl
    | some u =>
      have hul := hfwd t htl
      rw [hu] at hul
      obtain ⟨d, hd⟩ := Code.at_isSome (f := f) hul
      simp only [Option.getD] at hd
      simp only [Code.forward] at hu
      cases hb : f.body t with
      | none => rw [hb] at hu; cases hu
      | some is =>
        have hu' := hu
        rw [hb] at hu
        obtain ⟨x, rfl, hx⟩ := gotoOnly_some hu
        obtain ⟨r, hr⟩ := Code.body_at hb
        refine ⟨_, d.map (FInst.retarget fun t => (f.forward t).getD t), hr, ?_, .left hx ?_ hd (.base ⟨Code.at_sub hd, rfl⟩)⟩
        · have : f.forward t = some u := hu'
          simp only [this, redirectGoto, Option.getD]
          rw [Code.retarget_at, hd]
          rfl
        · exact (hf.good x (Code.body_sub hb x (by simp))).goto u hx
  · intro x hx
    simp only [redirectGoto] at hx
    rw [Code.retarget_flat, List.mem_map] at hx
    obtain ⟨y, hy, rfl⟩ := hx
    refine (hf.good y hy).retarget ?_
    intro t ht
    simp only [redirectGoto]
    rw [Code.retarget_labels]
    exact hfwd t ((hf.good y hy).tgt t ht)

/-! ## `removeUnreachableCode` -/

theorem cut_of_falls {a : List FInst} (h : falls a = true) : cut a = a := by
  induction a with
  | nil => rfl
  | cons x r ih =>
    simp only [falls, List.all_cons, Bool.and_eq_true, Bool.not_eq_true'] at h
    simp only [cut, h.1, Bool.false_eq_true, if_false]
    rw [ih h.2]

theorem cut_append_falls {a b : List FInst} (h : falls a = true) : cut (a ++ b) = a ++ cut b := by
  induction a with
  | nil => rfl
  | cons x r ih =>
    simp only [falls, List.all_cons, Bool.and_eq_true, Bool.not_eq_true'] at h
    simp only [List.cons_append, cut, h.1, Bool.false_eq_true, if_false]
    rw [ih h.2]

theorem cut_append_stop {a b : List FInst} (h : falls a = false) : cut (a ++ b) = cut a := by
  induction a with
  | nil => cases h
  | cons x r ih =>
    simp only [List.cons_append, cut]
    by_cases hx : x.noFall = true
    · simp [hx]
    · simp only [hx, Bool.false_eq_true, if_false]
      rw [ih]
      simpa [falls, hx] using h

theorem cut_cut (a : List FInst) : cut (cut a) = cut a := by
  induction a with
  | nil => rfl
  | cons x r ih =>
    simp only [cut]
    by_cases hx : x.noFall = true
    · simp [hx, cut]
    · simp [hx, cut, ih]

theorem falls_cut (a : List FInst) : falls (cut a) = falls a := by
  induction a with
  | nil => rfl
  | cons x r ih =>
    simp only [cut]
    by_cases hx : x.noFall = true
    · simp [hx, falls]
    · simp only [hx, Bool.false_eq_true, if_false]
      simp only [falls, List.all_cons] at ih ⊢
      rw [ih]

theorem cut_sub (a : List FInst) : ∀ x ∈ cut a, x ∈ a := by
  induction a with
  | nil => simp [cut]
  | cons y r ih =>
    intro x hx
    simp only [cut] at hx
    split at hx
    · simp at hx; simp [hx]
    · rcases List.mem_cons.mp hx with rfl | hx
      · simp
      · exact List.mem_cons_of_mem _ (ih x hx)

/-- Nothing outside `seen` is reached from a block in `seen`. -/
def Closed (seen : List Nat) : Code → Prop
  | [] => True
  | B :: r => (B.1 ∈ seen → (∀ x ∈ cut B.2, ∀ t ∈ x.targets, t ∈ seen) ∧ (falls B.2 = true → ∀ D ∈ r.head?, D.1 ∈ seen)) ∧
      Closed seen r

/-- The blocks in `seen`, cut off. -/
def clean (seen : List Nat) (f : Code) : Code := (f.filter fun B => seen.contains B.1).map fun B => (B.1, cut B.2)

theorem clean_cut {seen : List Nat} : ∀ {f : Code}, Closed seen f → (∀ D ∈ f.head?, D.1 ∈ seen) →
    cut f.flat = cut (clean seen f).flat ∧ ∀ x ∈ cut f.flat, ∀ t ∈ x.targets, t ∈ seen := by
  intro f
  induction f with
  | nil => intro _ _; exact ⟨rfl, by simp [Code.flat, cut]⟩
  | cons B r ih =>
    rintro ⟨h1, h2⟩ h3
    have hB : B.1 ∈ seen := h3 B (by simp)
    obtain ⟨ht, hn⟩ := h1 hB
    have e : clean seen (B :: r) = (B.1, cut B.2) :: clean seen r := by simp [clean, hB]
    rw [e, Code.flat_cons, Code.flat_cons]
    cases hfl : falls B.2 with
    | true =>
      obtain ⟨i1, i2⟩ := ih h2 (hn hfl)
      simp only
      rw [cut_append_falls hfl, cut_append_falls (by rw [falls_cut]; exact hfl), cut_of_falls hfl, i1]
      refine ⟨rfl, ?_⟩
      intro x hx
      rcases List.mem_append.mp hx with hx | hx
      · exact ht x (by rw [cut_of_falls hfl]; exact hx)
      · exact i2 x (by rw [i1]; exact hx)
    | false =>
      simp only
      rw [cut_append_stop hfl, cut_append_stop (by rw [falls_cut]; exact hfl), cut_cut]
      exact ⟨rfl, ht⟩

theorem clean_at {seen : List Nat} : ∀ {f : Code}, Closed seen f → ∀ t ∈ f.labels, t ∈ seen →
    ∃ d d', f.at t = some d ∧ (clean seen f).at t = some d' ∧ cut d = cut d' ∧ ∀ x ∈ cut d, ∀ t ∈ x.targets, t ∈ seen := by
  intro f
  induction f with
  | nil => intro _ t ht; simp [Code.labels] at ht
  | cons B r ih =>
    intro hc t ht hs
    by_cases hl : B.1 = t
    · subst hl
      have e : clean seen (B :: r) = (B.1, cut B.2) :: clean seen r := by simp [clean, hs]
      obtain ⟨h1, h2⟩ := clean_cut hc (by simpa using hs)
      rw [e, Code.flat_cons, Code.flat_cons] at h1
      rw [Code.flat_cons] at h2
      exact ⟨_, _, by simp only [Code.at, if_pos], by rw [e]; simp only [Code.at, if_pos], h1, h2⟩
    · simp only [Code.labels, List.map_cons, List.mem_cons] at ht
      obtain ⟨d, d', h1, h2, h3⟩ := ih hc.2 t (ht.resolve_left fun e => hl e.symm) hs
      refine ⟨d, d', by simp only [Code.at, if_neg hl]; exact h1, ?_, h3⟩
      by_cases hB : B.1 ∈ seen
      · have e : clean seen (B :: r) = (B.1, cut B.2) :: clean seen r := by simp [clean, hB]
        rw [e]
        simp only [Code.at, if_neg hl]
        exact h2
      · have e : clean seen (B :: r) = clean seen r := by simp [clean, hB]
        rw [e]
        exact h2

theorem clean_labels {seen : List Nat} {f : Code} {t : Nat} : t ∈ (clean seen f).labels ↔ t ∈ f.labels ∧ t ∈ seen := by
  simp only [Code.labels, clean, List.map_map, List.mem_map, List.mem_filter, Function.comp, List.contains_iff_mem]
  constructor
  · rintro ⟨B, ⟨h1, h2⟩, rfl⟩; exact ⟨⟨B, h1, rfl⟩, h2⟩
  · rintro ⟨⟨B, h1, rfl⟩, h2⟩; exact ⟨B, ⟨h1, h2⟩, rfl⟩

theorem clean_nodup {seen : List Nat} {f : Code} (h : f.labels.Nodup) : (clean seen f).labels.Nodup := by
  have : (clean seen f).labels = (f.filter fun B => seen.contains B.1).map Prod.fst := by
    simp [Code.labels, clean, List.map_map, Function.comp]
  rw [this]
  exact h.sublist (List.filter_sublist.map _)

/-- Cutting off a set of blocks closed under reachability that contains the entry. -/
theorem clean_sound {seen : List Nat} (hf : CodeOk T I vis C f) (hc : Closed seen f) (h0 : ∀ D ∈ f.head?, D.1 ∈ seen) :
    FSame T I vis f (clean seen f) ∧ CodeOk T I vis C (clean seen f) := by
  have hat : ∀ t ∈ f.labels, t ∈ seen → AtRel f (clean seen f) id (fun c c' => cut c = cut c' ∧
      (∀ x ∈ cut c, x ∈ f.flat ∧ ∀ t ∈ x.targets, t ∈ seen)) t := by
    intro t ht hs
    obtain ⟨d, d', h1, h2, h3, h4⟩ := clean_at hc t ht hs
    exact ⟨d, d', h1, h2, h3, fun x hx => ⟨Code.at_sub h1 x (cut_sub d x hx), h4 x hx⟩⟩
  constructor
  · refine sync_same (S := fun c c' => cut c = cut c' ∧ (∀ x ∈ cut c, x ∈ f.flat ∧ ∀ t ∈ x.targets, t ∈ seen)) ?_ (.base ?_)
    · rintro c c' ⟨h1, h2⟩
      cases c with
      | nil =>
        cases c' with
        | nil => exact .inl ⟨rfl, rfl⟩
        | cons x' r' =>
          simp only [cut] at h1
          split at h1 <;> cases h1
      | cons x r =>
        cases c' with
        | nil =>
          simp only [cut] at h1
          split at h1 <;> cases h1
        | cons x' r' =>
          have hx : x' = x := by
            simp only [cut] at h1
            split at h1 <;> split at h1 <;> simp at h1
            all_goals first | exact h1.symm | exact h1.1.symm
          subst hx
          have hm : x' ∈ cut (x' :: r) := by simp only [cut]; split <;> simp
          refine .inr ⟨x', r, x', r', rfl, rfl, match_id ?_ ?_⟩
          · intro t ht
            obtain ⟨d, d', a, b, c⟩ := hat t ((hf.good x' (h2 x' hm).1).tgt t ht) ((h2 x' hm).2 t ht)
            exact ⟨d, d', a, b, .base c⟩
          · intro hn
            simp only [cut, hn, Bool.false_eq_true, if_false, List.cons.injEq, true_and] at h1 h2
            exact .base ⟨h1, fun y hy => h2 y (List.mem_cons_of_mem _ hy)⟩
    · obtain ⟨a, b⟩ := clean_cut hc h0
      exact ⟨a, fun x hx => ⟨cut_sub _ x hx, b x hx⟩⟩
  · refine ⟨clean_nodup hf.nodup, ?_⟩
    intro x hx
    simp only [Code.flat, List.mem_flatMap] at hx
    obtain ⟨B, hB, hxB⟩ := hx
    simp only [clean, List.mem_map, List.mem_filter, List.contains_iff_mem] at hB
    obtain ⟨D, ⟨hD, hs⟩, rfl⟩ := hB
    simp only at hxB
    have hxf : x ∈ f.flat := by
      simp only [Code.flat, List.mem_flatMap]
      exact ⟨D, hD, cut_sub _ x hxB⟩
    refine (hf.good x hxf).mono fun t ht => clean_labels.mpr ⟨(hf.good x hxf).tgt t ht, ?_⟩
    -- the block is in `seen`, so its targets are
    have : ∀ {g : Code}, Closed seen g → D ∈ g → t ∈ seen := by
      intro g
      induction g with
      | nil => intro _ h; cases h
      | cons E r ih =>
        rintro ⟨a, b⟩ h
        rcases List.mem_cons.mp h with rfl | h
        · exact (a hs).1 x hxB t ht
        · exact ih b h
    exact this hc hD

theorem Code.after_split : ∀ {A B : Code} {l n : Nat} {is js : List FInst},
    (Code.labels (A ++ (l, is) :: (n, js) :: B)).Nodup → Code.after (A ++ (l, is) :: (n, js) :: B) l = some n
  | [], B, l, n, is, js, _ => by simp [Code.after]
  | [X], B, l, n, is, js, h => by
    have hne : X.1 ≠ l := by
      simp only [Code.labels, List.singleton_append, List.map_cons, List.nodup_cons, List.mem_cons, not_or] at h
      exact h.1.1
    simp only [List.singleton_append, Code.after]
    rw [if_neg hne]; simp
  | X :: Y :: A, B, l, n, is, js, h => by
    have hne : X.1 ≠ l := by
      simp only [Code.labels, List.cons_append, List.map_cons, List.nodup_cons, List.mem_cons, List.map_append,
        List.mem_append, not_or] at h
      exact h.1.2.2.1
    have h' : (Code.labels (Y :: A ++ (l, is) :: (n, js) :: B)).Nodup := by
      simp only [Code.labels, List.cons_append, List.map_cons, List.nodup_cons] at h ⊢
      exact h.2
    have := Code.after_split h'
    simp only [List.cons_append, Code.after] at this ⊢
    rw [if_neg hne]
    exact this

theorem closed_of_reach {seen : List Nat} (hnd : f.labels.Nodup) (hs : ∀ u ∈ seen, ∀ v ∈ f.reach1 u, v ∈ seen) :
    ∀ A r, f = A ++ r → Closed seen r := by
  intro A r
  induction r generalizing A with
  | nil => intro _; trivial
  | cons B r ih =>
    intro e
    refine ⟨?_, ih (A ++ [B]) (by rw [e]; simp)⟩
    intro hB
    have hA : B.1 ∉ Code.labels A := by
      intro hm
      rw [e] at hnd
      simp only [Code.labels, List.map_append, List.map_cons] at hnd hm
      exact (List.nodup_append.mp hnd).2.2 B.1 hm B.1 (by simp) rfl
    have hb : f.body B.1 = some B.2 := by
      rw [e]; exact Code.body_of_split hA
    have hr := hs B.1 hB
    simp only [Code.reach1, hb] at hr
    constructor
    · intro x hx t ht
      exact hr t (List.mem_append.mpr (.inl (List.mem_flatMap.mpr ⟨x, hx, ht⟩)))
    · intro hfl D hD
      cases r with
      | nil => simp at hD
      | cons E r =>
        simp only [List.head?_cons, Option.mem_def, Option.some.injEq] at hD
        subst hD
        have ha : f.after B.1 = some E.1 := by
          rw [e] at hnd ⊢
          exact Code.after_split (l := B.1) (is := B.2) (n := E.1) (js := E.2) hnd
        exact hr E.1 (by simp [hfl, ha])

theorem Code.after_mem {f : Code} {u n : Nat} (h : f.after u = some n) : n ∈ f.labels := by
  induction f with
  | nil => simp [Code.after] at h
  | cons B r ih =>
    cases r with
    | nil => simp [Code.after] at h
    | cons D r =>
      simp only [Code.after] at h
      split at h
      · cases h; simp [Code.labels]
      · have := ih h
        simp only [Code.labels, List.map_cons, List.mem_cons] at this ⊢
        exact .inr this

theorem reach1_mem (hf : f.Wf) {u v : Nat} (h : v ∈ f.reach1 u) : v ∈ f.labels := by
  simp only [Code.reach1] at h
  cases hb : f.body u with
  | none => rw [hb] at h; simp at h
  | some is =>
    rw [hb] at h
    rcases List.mem_append.mp h with h | h
    · obtain ⟨x, hx, ht⟩ := List.mem_flatMap.mp h
      exact hf.tgt x (Code.body_sub hb x (cut_sub _ x hx)) v ht
    · split at h
      · rw [Option.mem_toList] at h
        exact Code.after_mem h
      · simp at h

theorem removeUnreachableCode_spec (hf : CodeOk T I vis C f) : ∃ seen, (removeUnreachableCode f).1 = clean seen f ∧
    Closed seen f ∧ (∀ D ∈ f.head?, D.1 ∈ seen) ∧
    (∀ D ∈ f.head?, ∀ x, x ∈ seen ↔ Relation.ReflTransGen (fun a b => b ∈ f.reach1 a) D.1 x) := by
  cases f with
  | nil => exact ⟨[], rfl, trivial, by simp, by simp⟩
  | cons B r =>
    obtain ⟨seen, h1, -, h3, h4⟩ := Cmmc.SSA.bfs_reach (next := Code.reach1 (B :: r)) (U := Code.labels (B :: r))
      (fun u _ v hv => reach1_mem hf.wf hv) (S := [B.1]) (by simp) (by simp [Code.labels])
    have hlen : (Code.labels (B :: r)).length = (B :: r).length := by simp [Code.labels]
    rw [hlen] at h1
    have hc : Closed seen (B :: r) := closed_of_reach hf.nodup (by
      intro u hu v hv
      rw [h4] at hu ⊢
      obtain ⟨s, hs, hr⟩ := hu
      exact ⟨s, hs, hr.tail hv⟩) [] _ rfl
    have h0 : ∀ D ∈ (B :: r).head?, D.1 ∈ seen := by
      intro D hD
      simp only [List.head?_cons, Option.mem_def, Option.some.injEq] at hD
      subst hD
      exact (h4 _).mpr ⟨_, by simp, .refl⟩
    refine ⟨seen, by simp only [removeUnreachableCode, h1]; rfl, hc, h0, ?_⟩
    intro D hD x
    simp only [List.head?_cons, Option.mem_def, Option.some.injEq] at hD
    subst hD
    rw [h4]
    constructor
    · rintro ⟨s, hs, hr⟩
      simp at hs; subst hs; exact hr
    · intro hr; exact ⟨_, by simp, hr⟩

theorem removeUnreachableCode_sound : Sound T I vis C fun f => (removeUnreachableCode f).1 := by
  intro f hf
  obtain ⟨seen, h1, hc, h0, -⟩ := removeUnreachableCode_spec hf
  simp only [h1]
  exact clean_sound hf hc h0

/-! ## `removeUnusedLabels` -/

theorem mergeUnused_flat (used : List Nat) (r : Code) : ∀ B, (mergeUnused used B r).flat = B.2 ++ r.flat := by
  induction r with
  | nil => intro B; simp [mergeUnused, Code.flat]
  | cons D r ih =>
    intro B
    simp only [mergeUnused]
    split
    · rw [Code.flat_cons, ih, Code.flat_cons]
    · rw [ih, Code.flat_cons]; simp

theorem mergeUnused_at (used : List Nat) (t : Nat) (ht : t ∈ used) (r : Code) :
    ∀ B, (mergeUnused used B r).at t = Code.at (B :: r) t := by
  induction r with
  | nil => intro B; rfl
  | cons D r ih =>
    intro B
    simp only [mergeUnused]
    split
    · rename_i hD
      simp only [Code.at]
      rw [ih, mergeUnused_flat, Code.flat_cons]
      rfl
    · rename_i hD
      rw [ih]
      have hne : D.1 ≠ t := by rintro rfl; exact hD (by simpa using ht)
      simp only [Code.at, if_neg hne, Code.flat_cons]
      simp

theorem mergeUnused_labels (used : List Nat) (r : Code) : ∀ B, (mergeUnused used B r).labels.Sublist (Code.labels (B :: r)) ∧
    ∀ t ∈ used, t ∈ Code.labels (B :: r) → t ∈ (mergeUnused used B r).labels := by
  induction r with
  | nil => intro B; exact ⟨List.Sublist.refl _, fun _ _ h => h⟩
  | cons D r ih =>
    intro B
    simp only [mergeUnused]
    split
    · obtain ⟨a, b⟩ := ih D
      refine ⟨by simpa [Code.labels] using a, ?_⟩
      intro t ht hm
      simp only [Code.labels, List.map_cons, List.mem_cons] at hm b ⊢
      rcases hm with rfl | hm
      · exact .inl rfl
      · exact .inr (b t ht hm)
    · rename_i hD
      obtain ⟨a, b⟩ := ih (B.1, B.2 ++ D.2)
      refine ⟨a.trans ?_, ?_⟩
      · simp only [Code.labels, List.map_cons]
        exact (List.sublist_cons_self _ _).cons_cons _
      · intro t ht hm
        refine b t ht ?_
        simp only [Code.labels, List.map_cons, List.mem_cons] at hm ⊢
        rcases hm with rfl | rfl | hm
        · exact .inl rfl
        · exact absurd (by simpa using ht) hD
        · exact .inr hm

theorem removeUnusedLabels_sound : Sound T I vis C fun f => (removeUnusedLabels f).1 := by
  intro f hf
  cases f with
  | nil => exact ⟨.refl, hf⟩
  | cons B r =>
    simp only [removeUnusedLabels]
    split
    · exact ⟨.refl, hf⟩
    · set used := (B.1 :: (Code.flat (B :: r)).flatMap FInst.targets).dedup with hu
      have hused : ∀ x ∈ Code.flat (B :: r), ∀ t ∈ x.targets, t ∈ used := by
        intro x hx t ht
        rw [hu, List.mem_dedup]
        exact List.mem_cons_of_mem _ (List.mem_flatMap.mpr ⟨x, hx, ht⟩)
      have hfl : (mergeUnused used B r).flat = Code.flat (B :: r) := by rw [mergeUnused_flat, Code.flat_cons]
      constructor
      · refine retarget_same (ρ := id) ?_ ?_
        · rw [hfl]
          have : FInst.retarget id = id := by funext x; exact FInst.retarget_id x
          rw [this, List.map_id]
        · intro x hx t ht
          obtain ⟨d, hd⟩ := Code.at_isSome ((hf.good x hx).tgt t ht)
          refine ⟨d, d, hd, ?_, .base ⟨Code.at_sub hd, ?_⟩⟩
          · show (mergeUnused used B r).at t = _
            rw [mergeUnused_at used t (hused x hx t ht)]; exact hd
          · have : FInst.retarget id = id := by funext x; exact FInst.retarget_id x
            rw [this, List.map_id]
      · refine ⟨hf.nodup.sublist (mergeUnused_labels used r B).1, ?_⟩
        intro x hx
        rw [hfl] at hx
        exact (hf.good x hx).mono fun t ht =>
          (mergeUnused_labels used r B).2 t (hused x hx t ht) ((hf.good x hx).tgt t ht)

/-! ## Passes that rewrite the ends of blocks -/

/-- Rewriting the end of one block is sound. -/
def EndSound (T : Target) (I : Interp Val Mem) (vis : Nat → Bool) (C : Inst → Prop)
    (e : Nat → List FInst → List FInst) : Prop :=
  ∀ A l is n js B, CodeOk T I vis C (A ++ (l, is) :: (n, js) :: B) →
    FSame T I vis (A ++ (l, is) :: (n, js) :: B) (A ++ (l, e n is) :: (n, js) :: B) ∧
    CodeOk T I vis C (A ++ (l, e n is) :: (n, js) :: B)

theorem mapEnds_sound {e : Nat → List FInst → List FInst} (he : EndSound T I vis C e) : Sound T I vis C (mapEnds e) := by
  have : ∀ (f A : Code), CodeOk T I vis C (A ++ f) → FSame T I vis (A ++ f) (A ++ mapEnds e f) ∧
      CodeOk T I vis C (A ++ mapEnds e f) := by
    intro f
    induction f with
    | nil => intro A h; exact ⟨.refl, h⟩
    | cons B r ih =>
      intro A h
      cases r with
      | nil => exact ⟨.refl, h⟩
      | cons D r =>
        obtain ⟨h1, h2⟩ := he A B.1 B.2 D.1 D.2 r h
        obtain ⟨h3, h4⟩ := ih (A ++ [(B.1, e D.1 B.2)]) (by simpa using h2)
        have e1 : A ++ mapEnds e (B :: D :: r) = A ++ [(B.1, e D.1 B.2)] ++ mapEnds e (D :: r) := by simp [mapEnds]
        rw [e1]
        refine ⟨h1.trans ?_, h4⟩
        have e2 : A ++ (B.1, e D.1 B.2) :: (D.1, D.2) :: r = A ++ [(B.1, e D.1 B.2)] ++ D :: r := by simp
        rw [e2]; exact h3
  intro f hf
  exact this f [] hf

theorem labels_edit (A B : Code) (l : Nat) (is js : List FInst) :
    Code.labels (A ++ (l, is) :: B) = Code.labels (A ++ (l, js) :: B) := by simp [Code.labels]

theorem CodeOk.edit {A B : Code} {l : Nat} {is js : List FInst} (h : CodeOk T I vis C (A ++ (l, is) :: B))
    (hj : ∀ x ∈ js, x ∈ is ∨ Good T I vis C (Code.labels (A ++ (l, is) :: B)) x) :
    CodeOk T I vis C (A ++ (l, js) :: B) := by
  refine ⟨by rw [labels_edit A B l js is]; exact h.nodup, ?_⟩
  intro x hx
  rw [labels_edit A B l js is]
  rw [Code.flat_append, Code.flat_cons] at hx
  have hg := h.good x
  rw [Code.flat_append, Code.flat_cons] at hg
  rcases List.mem_append.mp hx with hx | hx
  · exact hg (List.mem_append.mpr (.inl hx))
  · rcases List.mem_append.mp hx with hx | hx
    · rcases hj x hx with h' | h'
      · exact hg (by simp [h'])
      · exact h'
    · exact hg (by simp [hx])

theorem Code.mem_mid {A B : Code} {l : Nat} {is : List FInst} {x : FInst} (h : x ∈ is) : x ∈ Code.flat (A ++ (l, is) :: B) := by
  rw [flat_append, flat_cons]; simp [h]

/-- The code from the label of the next block on. -/
theorem CodeOk.at_next {A B : Code} {l n : Nat} {is js : List FInst} (h : CodeOk T I vis C (A ++ (l, is) :: (n, js) :: B)) :
    Code.at (A ++ (l, is) :: (n, js) :: B) n = some (js ++ B.flat) := by
  have := h.nodup
  have e : A ++ (l, is) :: (n, js) :: B = (A ++ [(l, is)]) ++ (n, js) :: B := by simp
  rw [e] at this ⊢
  exact Code.at_split this

theorem CodeOk.next_sub (A B : Code) (l n : Nat) (is js : List FInst) :
    ∀ x ∈ js ++ B.flat, x ∈ Code.flat (A ++ (l, is) :: (n, js) :: B) := by
  intro x hx
  rw [Code.flat_append, Code.flat_cons, Code.flat_cons]
  rcases List.mem_append.mp hx with h | h <;> simp [h]

/-! ### `removeGotoNext` -/

theorem dropGoto_one {A B : Code} {l n : Nat} {is js : List FInst} {x : FInst} (hx : x.br = .goto n)
    (h : CodeOk T I vis C (A ++ (l, is ++ [x]) :: (n, js) :: B)) :
    FSame T I vis (A ++ (l, is ++ [x]) :: (n, js) :: B) (A ++ (l, is) :: (n, js) :: B) := by
  refine edit_same (E := fun _ _ => False) (o := [x]) (n := []) (C := []) (is := is) (l := l) (A := A)
    (B := (n, js) :: B) rfl (by simp) (by simp) h.wf ?_ (by simp)
  refine .left hx ((h.good x (Code.mem_mid (by simp))).goto n hx) h.at_next (.base ?_)
  simp only [Code.flat_nil, List.append_nil, List.nil_append, Code.flat_cons]
  exact .same (CodeOk.next_sub A B l n (is ++ [x]) js)

theorem dropGotos_sound : EndSound T I vis C dropGotos := by
  intro A l is n js B
  induction is using List.reverseRecOn with
  | nil => intro h; exact ⟨.refl, by simpa [dropGotos] using h⟩
  | append_singleton is x ih =>
    intro h
    by_cases hx : x.br = .goto n
    · have e : dropGotos n (is ++ [x]) = dropGotos n is := by
        simp only [dropGotos]
        rw [List.rdropWhile_concat_pos]
        simp [FInst.isGoto, hx]
      have h' : CodeOk T I vis C (A ++ (l, is) :: (n, js) :: B) := h.edit fun x hx => .inl (by simp [hx])
      obtain ⟨a, b⟩ := ih h'
      rw [e]
      exact ⟨(dropGoto_one hx h).trans a, b⟩
    · have e : dropGotos n (is ++ [x]) = is ++ [x] := by
        simp only [dropGotos]
        rw [List.rdropWhile_concat_neg]
        simp [FInst.isGoto, hx]
      rw [e]
      exact ⟨.refl, h⟩

theorem removeGotoNext_sound : Sound T I vis C fun f => (removeGotoNext f).1 := mapEnds_sound dropGotos_sound

/-! ### `conditional2Unconditional` -/

theorem BrPure.eff {x : Inst} (h : BrPure T I vis x) {σ ρ : Reg → Val} {m m' : Mem} {k : Nat} (hE : Eff T I x σ m ρ m' k) :
    ρ = σ ∧ m' = m ∧ Eff T I x σ m σ m k := by
  obtain ⟨rfl, rfl⟩ := h.only σ m ρ m' k hE
  exact ⟨rfl, rfl, hE⟩

theorem cond_goto {A B : Code} {l n : Nat} {is js : List FInst} {x : FInst} (hJ : J.Ok T I vis C) (hx : x.br = .cond n)
    (h : CodeOk T I vis C (A ++ (l, is ++ [x]) :: (n, js) :: B)) :
    FSame T I vis (A ++ (l, is ++ [x]) :: (n, js) :: B) (A ++ (l, is ++ [⟨J.goto n, .goto n⟩]) :: (n, js) :: B) := by
  have hp : BrPure T I vis x.inst := hJ.pure _ ((h.good x (Code.mem_mid (by simp))).cond n hx)
  have hg := hJ.goto n
  have hat := h.at_next
  have h' : CodeOk T I vis C (A ++ (l, is ++ [⟨J.goto n, .goto n⟩]) :: (n, js) :: B) := by
    refine h.edit ?_
    intro y hy
    rcases List.mem_append.mp hy with hy | hy
    · exact .inl (by simp [hy])
    · simp only [List.mem_singleton] at hy
      subst hy
      refine .inr ⟨?_, fun t _ => hg, ?_⟩
      · intro t ht
        simp only [FInst.targets, List.mem_singleton] at ht
        subst ht
        simp [Code.labels]
      · intro t ht; cases ht
  have hat' := h'.at_next
  set tail := Code.flat ((n, js) :: B) with htail
  have et : js ++ B.flat = tail := by rw [htail, Code.flat_cons]
  rw [et] at hat hat'
  have hsub : ∀ y ∈ tail, y ∈ Code.flat (A ++ (l, is ++ [x]) :: (n, js) :: B) := by
    rw [← et]; exact CodeOk.next_sub A B l n (is ++ [x]) js
  refine edit_same (E := fun c c' => c = x :: tail ∧ c' = ⟨J.goto n, .goto n⟩ :: tail) (o := [x]) (n := [⟨J.goto n, .goto n⟩])
    (C := []) (is := is) (l := l) (A := A) (B := (n, js) :: B) rfl (by simp) (by simp) h.wf ?_ ?_
  · refine .base (.extra ⟨rfl, ?_⟩)
    simp [Code.flat_nil, htail]
  · rintro c c' ⟨rfl, rfl⟩
    refine ⟨x, tail, _, tail, rfl, rfl, ?_, ?_, ?_, ?_, ?_, ?_⟩
    · simp only; rw [hg.vis, hp.vis]
    · intro hv; rw [hp.vis] at hv; cases hv
    · intro σ m ρ m' k d hE hn
      obtain ⟨rfl, rfl, -⟩ := hp.eff hE
      obtain ⟨k', hk'⟩ := hg.some ρ m'
      refine ⟨k', tail, hk', by simp only [Code.next]; exact hat', ?_⟩
      have : d = tail := by
        simp only [Code.next, hx] at hn
        split at hn
        · rw [hat] at hn; cases hn; rfl
        · cases hn; rfl
      rw [this]
      exact .base (.same hsub)
    · intro σ m ρ m' k d hE hn
      obtain ⟨rfl, rfl, -⟩ := hg.eff hE
      obtain ⟨k', hk'⟩ := hp.some ρ m'
      refine ⟨k', tail, hk', ?_, ?_⟩
      · simp only [Code.next, hx]
        split
        · exact hat
        · rfl
      · simp only [Code.next] at hn
        rw [hat'] at hn; cases hn
        exact .base (.same hsub)
    · simp [FInst.stops, hx]
    · simp [FInst.stops, hx]

theorem condEnd_sound (hJ : J.Ok T I vis C) : EndSound T I vis C (condEnd J) := by
  intro A l is n js B h
  induction is using List.reverseRecOn with
  | nil => exact ⟨.refl, by simpa [condEnd] using h⟩
  | append_singleton is x _ =>
    by_cases hx : x.br = .cond n
    · have e : condEnd J n (is ++ [x]) = is ++ [⟨J.goto n, .goto n⟩] := by simp [condEnd, hx]
      rw [e]
      refine ⟨cond_goto hJ hx h, h.edit ?_⟩
      intro y hy
      rcases List.mem_append.mp hy with hy | hy
      · exact .inl (by simp [hy])
      · simp only [List.mem_singleton] at hy
        subst hy
        refine .inr ⟨?_, fun t _ => hJ.goto n, ?_⟩
        · intro t ht
          simp only [FInst.targets, List.mem_singleton] at ht
          subst ht
          simp [Code.labels]
        · intro t ht; cases ht
    · have e : condEnd J n (is ++ [x]) = is ++ [x] := by simp [condEnd, hx]
      rw [e]
      exact ⟨.refl, h⟩

theorem conditional2Unconditional_sound (hJ : J.Ok T I vis C) :
    Sound T I vis C fun f => (conditional2Unconditional J f).1 := mapEnds_sound (condEnd_sound hJ)

/-! ### `reorderBranch` -/

theorem Good.inv {L : List Nat} {x : Inst} {u : Nat} (hJ : J.Ok T I vis C) (hx : C x) (hu : u ∈ L) :
    Good T I vis C L ⟨J.inv x, .cond u⟩ := by
  refine ⟨?_, ?_, fun t _ => hJ.inv x hx⟩
  · intro t ht
    simp only [FInst.targets, List.mem_singleton] at ht
    subst ht; exact hu
  · intro t ht; cases ht

theorem invEnd_one {A B : Code} {l n u : Nat} {is js : List FInst} {x y : FInst} (hJ : J.Ok T I vis C) (hx : x.br = .cond n)
    (hy : y.br = .goto u) (h : CodeOk T I vis C (A ++ (l, is ++ [x, y]) :: (n, js) :: B)) :
    FSame T I vis (A ++ (l, is ++ [x, y]) :: (n, js) :: B) (A ++ (l, is ++ [⟨J.inv x.inst, .cond u⟩]) :: (n, js) :: B) ∧
    CodeOk T I vis C (A ++ (l, is ++ [⟨J.inv x.inst, .cond u⟩]) :: (n, js) :: B) := by
  have hC : C x.inst := (h.good x (Code.mem_mid (by simp))).cond n hx
  have hp : BrPure T I vis x.inst := hJ.pure _ hC
  have hp' : BrPure T I vis (J.inv x.inst) := hJ.pure _ (hJ.inv _ hC)
  have hgy : BrPure T I vis y.inst := (h.good y (Code.mem_mid (by simp))).goto u hy
  have hul : u ∈ Code.labels (A ++ (l, is ++ [x, y]) :: (n, js) :: B) :=
    (h.good y (Code.mem_mid (by simp))).tgt u (by simp [FInst.targets, hy])
  have hat := h.at_next
  have h' : CodeOk T I vis C (A ++ (l, is ++ [⟨J.inv x.inst, .cond u⟩]) :: (n, js) :: B) := by
    refine h.edit ?_
    intro z hz
    rcases List.mem_append.mp hz with hz | hz
    · exact .inl (by simp [hz])
    · simp only [List.mem_singleton] at hz
      subst hz
      exact .inr (Good.inv hJ hC hul)
  refine ⟨?_, h'⟩
  have hat' := h'.at_next
  set tail := Code.flat ((n, js) :: B) with htail
  have et : js ++ B.flat = tail := by rw [htail, Code.flat_cons]
  rw [et] at hat hat'
  have hsub : ∀ z ∈ tail, z ∈ Code.flat (A ++ (l, is ++ [x, y]) :: (n, js) :: B) := by
    rw [← et]; exact CodeOk.next_sub A B l n _ js
  let E : List FInst → List FInst → Prop := fun c c' => c = x :: y :: tail ∧ c' = ⟨J.inv x.inst, .cond u⟩ :: tail
  have h0 : Clo T I vis (A ++ (l, is ++ [x, y]) :: (n, js) :: B) (A ++ (l, is ++ [⟨J.inv x.inst, .cond u⟩]) :: (n, js) :: B)
      (EditS (A ++ (l, is ++ [x, y]) :: (n, js) :: B) ([x, y] ++ tail) ([⟨J.inv x.inst, .cond u⟩] ++ Code.flat [] ++ tail) E)
      ([x, y] ++ tail) ([⟨J.inv x.inst, .cond u⟩] ++ Code.flat [] ++ tail) :=
    .base (.extra ⟨rfl, by simp [Code.flat_nil]⟩)
  obtain ⟨d, d', hd, hd', hq⟩ := edit_at (C := []) rfl (by simp) (by simp) h0 u hul
  simp only [id] at hd'
  refine edit_same (E := E) (o := [x, y]) (n := [⟨J.inv x.inst, .cond u⟩])
    (C := []) (is := is) (l := l) (A := A) (B := (n, js) :: B) rfl (by simp) (by simp) h.wf h0 ?_
  rintro c c' ⟨rfl, rfl⟩
  refine ⟨x, y :: tail, _, tail, rfl, rfl, ?_, ?_, ?_, ?_, ?_, ?_⟩
  · simp only; rw [hp'.vis, hp.vis]
  · intro hv; rw [hp.vis] at hv; cases hv
  · intro σ m ρ m' k e hE hn
    obtain ⟨rfl, rfl, hE⟩ := hp.eff hE
    obtain ⟨k', hk', hkk⟩ := hJ.flip _ _ _ _ hC hE
    simp only [Code.next, hx] at hn
    by_cases hk : k = 0
    · rw [if_pos hk, hat] at hn
      cases hn
      exact ⟨k', tail, hk', by simp only [Code.next, if_neg (hkk.mp hk)], .base (.same hsub)⟩
    · rw [if_neg hk] at hn
      cases hn
      have : k' = 0 := by by_contra hn; exact hk (hkk.mpr hn)
      exact ⟨k', d', hk', by simp only [Code.next, if_pos this]; exact hd', .left hy hgy hd hq⟩
  · intro σ m ρ m' k e hE hn
    obtain ⟨rfl, rfl, hE⟩ := hp'.eff hE
    obtain ⟨k', hk', hkk⟩ := hJ.flop _ _ _ _ hC hE
    simp only [Code.next] at hn
    by_cases hk : k = 0
    · rw [if_pos hk, hd'] at hn
      cases hn
      have : k' ≠ 0 := fun hn => hkk.mp hn hk
      exact ⟨k', y :: tail, hk', by simp only [Code.next, hx, if_neg this], .left hy hgy hd hq⟩
    · rw [if_neg hk] at hn
      cases hn
      exact ⟨k', tail, hk', by simp only [Code.next, hx, if_pos (hkk.mpr hk)]; exact hat, .base (.same hsub)⟩
  · simp [FInst.stops, hx]
  · simp [FInst.stops, hx]

theorem invEnd_sound (hJ : J.Ok T I vis C) : EndSound T I vis C (invEnd J) := by
  intro A l is n js B h
  by_cases hs : ∃ is' x y u, is = is' ++ [x, y] ∧ x.br = .cond n ∧ y.br = .goto u
  · obtain ⟨is', x, y, u, rfl, hx, hy⟩ := hs
    have e : invEnd J n (is' ++ [x, y]) = is' ++ [⟨J.inv x.inst, .cond u⟩] := by
      have e1 : is' ++ [x, y] = (is' ++ [x]) ++ [y] := by simp
      simp only [invEnd]
      rw [e1, List.dropLast_concat, List.getLast?_concat, List.getLast?_concat, List.dropLast_concat]
      simp [hx, hy]
    rw [e]
    exact invEnd_one hJ hx hy h
  · have e : invEnd J n is = is := by
      unfold invEnd
      split
      · rename_i x y h1 h2
        split
        · rename_i t u hx hy
          split
          · rename_i ht
            subst ht
            refine absurd ⟨is.dropLast.dropLast, x, y, u, ?_, hx, hy⟩ hs
            obtain ⟨a, rfl⟩ := List.getLast?_eq_some_iff.mp h2
            rw [List.dropLast_concat] at h1
            obtain ⟨b, rfl⟩ := List.getLast?_eq_some_iff.mp h1
            simp
          · rfl
        · rfl
      · rfl
    rw [e]
    exact ⟨.refl, h⟩

theorem reorderBranch_sound (hJ : J.Ok T I vis C) : Sound T I vis C fun f => (reorderBranch J f).1 :=
  mapEnds_sound (invEnd_sound hJ)

/-! ### `sfbOpt` -/

theorem sfbEnd_one {A B : Code} {l n t : Nat} {is js : List FInst} {x y z : FInst} (hJ : J.Ok T I vis C) (hx : x.br = .cond t)
    (hz : z.br = .goto n) (h : CodeOk T I vis C (A ++ (l, is ++ [x]) :: (n, js) :: B))
    (hb : Code.body (A ++ (l, is ++ [x]) :: (n, js) :: B) t = some [y, z]) :
    FSame T I vis (A ++ (l, is ++ [x]) :: (n, js) :: B) (A ++ (l, is ++ [⟨J.inv x.inst, .cond n⟩, y]) :: (n, js) :: B) ∧
    CodeOk T I vis C (A ++ (l, is ++ [⟨J.inv x.inst, .cond n⟩, y]) :: (n, js) :: B) := by
  have hC : C x.inst := (h.good x (Code.mem_mid (by simp))).cond t hx
  have hp : BrPure T I vis x.inst := hJ.pure _ hC
  have hp' : BrPure T I vis (J.inv x.inst) := hJ.pure _ (hJ.inv _ hC)
  have hyf := Code.body_sub hb y (by simp)
  have hgz : BrPure T I vis z.inst := (h.good z (Code.body_sub hb z (by simp))).goto n hz
  have hnl : n ∈ Code.labels (A ++ (l, is ++ [x]) :: (n, js) :: B) := by simp [Code.labels]
  have hat := h.at_next
  obtain ⟨w, hw⟩ := Code.body_at hb
  have h' : CodeOk T I vis C (A ++ (l, is ++ [⟨J.inv x.inst, .cond n⟩, y]) :: (n, js) :: B) := by
    refine h.edit ?_
    intro v hv
    rcases List.mem_append.mp hv with hv | hv
    · exact .inl (by simp [hv])
    · simp only [List.mem_cons, List.not_mem_nil, or_false] at hv
      rcases hv with rfl | rfl
      · exact .inr (Good.inv hJ hC hnl)
      · exact .inr (h.good _ hyf)
  refine ⟨?_, h'⟩
  have hat' := h'.at_next
  set tail := Code.flat ((n, js) :: B) with htail
  have et : js ++ B.flat = tail := by rw [htail, Code.flat_cons]
  rw [et] at hat hat'
  have hsub : ∀ y ∈ tail, y ∈ Code.flat (A ++ (l, is ++ [x]) :: (n, js) :: B) := by
    rw [← et]; exact CodeOk.next_sub A B l n _ js
  let E : List FInst → List FInst → Prop := fun c c' =>
    (c = x :: tail ∧ c' = ⟨J.inv x.inst, .cond n⟩ :: y :: tail) ∨ (c = y :: z :: w ∧ c' = y :: tail)
  have h0 : Clo T I vis (A ++ (l, is ++ [x]) :: (n, js) :: B) (A ++ (l, is ++ [⟨J.inv x.inst, .cond n⟩, y]) :: (n, js) :: B)
      (EditS (A ++ (l, is ++ [x]) :: (n, js) :: B) ([x] ++ tail) ([⟨J.inv x.inst, .cond n⟩, y] ++ Code.flat [] ++ tail) E)
      ([x] ++ tail) ([⟨J.inv x.inst, .cond n⟩, y] ++ Code.flat [] ++ tail) :=
    .base (.extra (.inl ⟨rfl, by simp [Code.flat_nil]⟩))
  refine edit_same (E := E) (o := [x]) (n := [⟨J.inv x.inst, .cond n⟩, y])
    (C := []) (is := is) (l := l) (A := A) (B := (n, js) :: B) rfl (by simp) (by simp) h.wf h0 ?_
  rintro c c' (⟨rfl, rfl⟩ | ⟨rfl, rfl⟩)
  · refine ⟨x, tail, _, y :: tail, rfl, rfl, ?_, ?_, ?_, ?_, ?_, ?_⟩
    · simp only; rw [hp'.vis, hp.vis]
    · intro hv; rw [hp.vis] at hv; cases hv
    · intro σ m ρ m' k e hE hn
      obtain ⟨rfl, rfl, hE⟩ := hp.eff hE
      obtain ⟨k', hk', hkk⟩ := hJ.flip _ _ _ _ hC hE
      simp only [Code.next, hx] at hn
      by_cases hk : k = 0
      · rw [if_pos hk, hw] at hn
        cases hn
        exact ⟨k', y :: tail, hk', by simp only [Code.next, if_neg (hkk.mp hk)], .base (.extra (.inr ⟨rfl, rfl⟩))⟩
      · rw [if_neg hk] at hn
        cases hn
        have : k' = 0 := by by_contra hn; exact hk (hkk.mpr hn)
        exact ⟨k', tail, hk', by simp only [Code.next, if_pos this]; exact hat', .base (.same hsub)⟩
    · intro σ m ρ m' k e hE hn
      obtain ⟨rfl, rfl, hE⟩ := hp'.eff hE
      obtain ⟨k', hk', hkk⟩ := hJ.flop _ _ _ _ hC hE
      simp only [Code.next] at hn
      by_cases hk : k = 0
      · rw [if_pos hk, hat'] at hn
        cases hn
        have : k' ≠ 0 := fun hn => hkk.mp hn hk
        exact ⟨k', tail, hk', by simp only [Code.next, hx, if_neg this], .base (.same hsub)⟩
      · rw [if_neg hk] at hn
        cases hn
        exact ⟨k', y :: z :: w, hk', by simp only [Code.next, hx, if_pos (hkk.mpr hk)]; exact hw,
          .base (.extra (.inr ⟨rfl, rfl⟩))⟩
    · simp [FInst.stops, hx]
    · simp [FInst.stops, hx]
  · refine ⟨y, z :: w, y, tail, rfl, rfl, match_id ?_ ?_⟩
    · intro u hu
      exact edit_at (C := []) rfl (by simp) (by simp) h0 u ((h.good y hyf).tgt u hu)
    · intro _
      exact .left hz hgz hat (.base (.same hsub))

theorem sfbEnd_sound (hJ : J.Ok T I vis C) {A B : Code} {l n : Nat} {is js : List FInst}
    (h : CodeOk T I vis C (A ++ (l, is) :: (n, js) :: B)) :
    FSame T I vis (A ++ (l, is) :: (n, js) :: B)
      (A ++ (l, sfbEnd J (A ++ (l, is) :: (n, js) :: B) n is) :: (n, js) :: B) ∧
    CodeOk T I vis C (A ++ (l, sfbEnd J (A ++ (l, is) :: (n, js) :: B) n is) :: (n, js) :: B) := by
  generalize hf : A ++ (l, is) :: (n, js) :: B = f at h
  by_cases hs : ∃ is' x t y z, is = is' ++ [x] ∧ x.br = .cond t ∧ f.body t = some [y, z] ∧ z.br = .goto n
  · obtain ⟨is', x, t, y, z, rfl, hx, hb, hz⟩ := hs
    have e : sfbEnd J f n (is' ++ [x]) = is' ++ [⟨J.inv x.inst, .cond n⟩, y] := by
      simp [sfbEnd, hx, hb, hz]
    rw [e]
    subst hf
    exact sfbEnd_one hJ hx hz h hb
  · have e : sfbEnd J f n is = is := by
      unfold sfbEnd
      split
      · rename_i x hl
        split
        · rename_i t hx
          split
          · rename_i y z hb
            split
            · rename_i hz
              obtain ⟨a, rfl⟩ := List.getLast?_eq_some_iff.mp hl
              exact absurd ⟨a, x, t, y, z, rfl, hx, hb, hz⟩ hs
            · rfl
          · rfl
        · rfl
      · rfl
    rw [e]
    subst hf
    exact ⟨.refl, h⟩

theorem sfbOpt_sound (hJ : J.Ok T I vis C) : Sound T I vis C fun f => (sfbOpt J f).1 := by
  have : ∀ (f A : Code), CodeOk T I vis C (A ++ f) → FSame T I vis (A ++ f) (sfbLoop J A f) ∧
      CodeOk T I vis C (sfbLoop J A f) := by
    intro f
    induction f with
    | nil => intro A h; exact ⟨.refl, h⟩
    | cons B r ih =>
      intro A h
      cases r with
      | nil => exact ⟨.refl, h⟩
      | cons D r =>
        obtain ⟨h1, h2⟩ := sfbEnd_sound hJ (A := A) (l := B.1) (is := B.2) (n := D.1) (js := D.2) (B := r) h
        obtain ⟨h3, h4⟩ := ih (A ++ [(B.1, sfbEnd J (A ++ B :: D :: r) D.1 B.2)]) (by simpa using h2)
        refine ⟨h1.trans ?_, h4⟩
        have e2 : A ++ (B.1, sfbEnd J (A ++ B :: D :: r) D.1 B.2) :: (D.1, D.2) :: r =
          A ++ [(B.1, sfbEnd J (A ++ B :: D :: r) D.1 B.2)] ++ D :: r := by simp
        show FSame T I vis (A ++ (B.1, sfbEnd J (A ++ B :: D :: r) D.1 B.2) :: (D.1, D.2) :: r) _
        rw [e2]; exact h3
  intro f hf
  exact this f [] hf

/-! ## `removeEmptyBlocks` -/

/-- What the map of `removeEmptyBlocks` says: an empty block is mapped to a later block that stays, with nothing but
    empty blocks between. -/
structure EmptyOk (f : Code) (m : List (Nat × Nat)) : Prop where
  empty : ∀ t u, (t, u) ∈ m → f.at t = f.at u ∧ t ∈ f.labels ∧ u ∈ f.labels
  body : ∀ B ∈ f, (∃ u, (B.1, u) ∈ m) → B.2 = []
  stays : ∀ t u, (t, u) ∈ m → ∀ v, (u, v) ∉ m

theorem at_empty {A B : Code} {l : Nat} (h : l ∉ Code.labels A) :
    Code.at (A ++ (l, []) :: B) l = some B.flat := by
  rw [Code.at_append h]; simp [Code.at]

theorem flat_empties {E : Code} (h : ∀ B ∈ E, B.2 = []) : E.flat = [] := by
  simp only [Code.flat, List.flatMap_eq_nil_iff]
  exact h

/-- A pending run of empty blocks `P` between `A` and `r`. -/
theorem emptyMap_spec (f : Code) (hnd : f.labels.Nodup) : ∀ (r A P : Code), f = A ++ P ++ r → (∀ B ∈ P, B.2 = []) →
    ∀ t u, (t, u) ∈ emptyMap P.labels r →
      f.at t = f.at u ∧ t ∈ Code.labels (P ++ r) ∧ u ∈ Code.labels (P ++ r) ∧ (∀ B ∈ f, B.1 = t → B.2 = []) ∧
      ∀ v, (u, v) ∉ emptyMap P.labels r := by
  have hdisj : ∀ {A B : Code} {l : Nat}, (Code.labels (A ++ B)).Nodup → l ∈ Code.labels A → l ∉ Code.labels B := by
    intro A B l h h1 h2
    simp only [Code.labels, List.map_append] at h h1 h2
    exact (List.nodup_append.mp h).2.2 l h1 l h2 rfl
  -- the code at the label of a pending block
  have hpend : ∀ (A P r : Code), f = A ++ P ++ r → (∀ B ∈ P, B.2 = []) → ∀ t ∈ P.labels,
      f.at t = some r.flat ∧ ∀ B ∈ f, B.1 = t → B.2 = [] := by
    intro A P r e hP t ht
    simp only [Code.labels, List.mem_map] at ht
    obtain ⟨B, hB, rfl⟩ := ht
    obtain ⟨P1, P2, rfl⟩ := List.append_of_mem hB
    have e' : f = (A ++ P1) ++ (B.1, B.2) :: (P2 ++ r) := by rw [e]; simp
    have hb : B.2 = [] := hP B (by simp)
    constructor
    · rw [e'] at hnd ⊢
      rw [Code.at_split hnd, hb, Code.flat_append, flat_empties (fun B hB => hP B (by simp [hB]))]
      simp
    · intro D hD hl
      rw [e'] at hD hnd
      have h1 := (List.nodup_append.mp (by simpa [Code.labels] using hnd))
      simp only [Code.labels, List.map_append, List.map_cons, List.append_assoc] at hnd
      rcases List.mem_append.mp hD with h | h
      · exfalso
        have : D.1 ∈ Code.labels (A ++ P1) := List.mem_map.mpr ⟨D, h, rfl⟩
        refine hdisj (A := A ++ P1) (B := (B.1, B.2) :: (P2 ++ r)) ?_ this ?_
        · simpa [Code.labels] using hnd
        · rw [hl]; simp [Code.labels]
      · rcases List.mem_cons.mp h with rfl | h
        · exact hb
        · exfalso
          have h2 : D.1 ∈ Code.labels (P2 ++ r) := List.mem_map.mpr ⟨D, h, rfl⟩
          refine hdisj (A := A ++ P1 ++ [(B.1, B.2)]) (B := P2 ++ r) (l := D.1) ?_ ?_ h2
          · simpa [Code.labels] using hnd
          · rw [hl]; simp [Code.labels]
  intro r
  induction r with
  | nil =>
    intro A P e hP t u hm
    simp only [emptyMap] at hm
    cases hl : P.labels.getLast? with
    | none => rw [hl] at hm; simp at hm
    | some l =>
      rw [hl] at hm
      simp only [List.mem_map, Prod.mk.injEq] at hm
      obtain ⟨t', ht', rfl, rfl⟩ := hm
      obtain ⟨a, ha⟩ := List.getLast?_eq_some_iff.mp hl
      have htP : t' ∈ P.labels := List.mem_of_mem_dropLast ht'
      have hlP : l ∈ P.labels := by rw [ha]; simp
      obtain ⟨p1, p2⟩ := hpend A P [] e hP t' htP
      obtain ⟨q1, -⟩ := hpend A P [] e hP l hlP
      refine ⟨by rw [p1, q1], by simpa using htP, by simpa using hlP, p2, ?_⟩
      intro v hv
      simp only [emptyMap, hl, List.mem_map, Prod.mk.injEq] at hv
      obtain ⟨l', hl', rfl, -⟩ := hv
      rw [ha, List.dropLast_concat] at hl'
      have : (Code.labels P).Nodup := by
        rw [e] at hnd
        simp only [Code.labels, List.map_append, List.append_nil] at hnd
        exact (List.nodup_append.mp hnd).2.1
      rw [ha] at this
      exact (List.nodup_append.mp this).2.2 l' hl' l' (by simp) rfl
  | cons B r ih =>
    intro A P e hP t u
    rcases B with ⟨l, is⟩
    simp only [emptyMap]
    by_cases hi : is.isEmpty = true
    · rw [if_pos hi]
      have hi' : is = [] := by simpa using hi
      subst hi'
      intro hm
      have el : P.labels ++ [l] = Code.labels (P ++ [(l, [])]) := by simp [Code.labels]
      rw [el] at hm ⊢
      have := ih A (P ++ [(l, [])]) (by rw [e]; simp) (by
        intro B hB
        rcases List.mem_append.mp hB with h | h
        · exact hP B h
        · simp at h; rw [h]) t u hm
      simpa [Code.labels] using this
    · rw [if_neg hi]
      intro hm
      have hl : f.at l = some (is ++ Code.flat r) := by
        have e' : f = (A ++ P) ++ (l, is) :: r := by rw [e]
        rw [e'] at hnd ⊢
        exact Code.at_split hnd
      have hdis : ∀ x ∈ Code.labels (P ++ [(l, is)]), x ∉ Code.labels r := by
        intro x hx
        refine hdisj (A := A ++ P ++ [(l, is)]) (B := r) ?_ ?_
        · rw [e] at hnd; simpa using hnd
        · simp only [Code.labels, List.map_append, List.mem_append] at hx ⊢
          rcases hx with h | h
          · exact .inl (.inr h)
          · exact .inr h
      have hlP : l ∉ Code.labels P := by
        intro h
        refine hdisj (A := A ++ P) (B := (l, is) :: r) (l := l) ?_ ?_ ?_
        · rw [e] at hnd; exact hnd
        · simp only [Code.labels, List.map_append, List.mem_append] at h ⊢; exact .inr h
        · simp [Code.labels]
      have ihr := ih (A ++ P ++ [(l, is)]) [] (by rw [e]; simp) (by simp)
      rcases List.mem_append.mp hm with h | h
      · simp only [List.mem_map, Prod.mk.injEq] at h
        obtain ⟨t', ht', rfl, rfl⟩ := h
        obtain ⟨p1, p2⟩ := hpend A P ((l, is) :: r) e hP t' ht'
        refine ⟨by rw [p1, hl, Code.flat_cons], ?_, by simp [Code.labels], p2, ?_⟩
        · simp only [Code.labels, List.map_append, List.mem_append] at ht' ⊢; exact .inl ht'
        · intro v hv
          rcases List.mem_append.mp hv with h | h
          · simp only [List.mem_map, Prod.mk.injEq] at h
            obtain ⟨l', hl', rfl, -⟩ := h
            exact hlP hl'
          · obtain ⟨-, h2, -⟩ := ihr l v h
            refine hdis l (by simp [Code.labels]) (by simpa using h2)
      · obtain ⟨h1, h2, h3, h4, h5⟩ := ihr t u h
        refine ⟨h1, ?_, ?_, h4, ?_⟩
        · simp only [Code.labels, List.nil_append, List.map_append, List.map_cons, List.mem_append, List.mem_cons] at h2 ⊢
          exact .inr (.inr h2)
        · simp only [Code.labels, List.nil_append, List.map_append, List.map_cons, List.mem_append, List.mem_cons] at h3 ⊢
          exact .inr (.inr h3)
        · intro v hv
          rcases List.mem_append.mp hv with h' | h'
          · simp only [List.mem_map, Prod.mk.injEq] at h'
            obtain ⟨l', hl', rfl, -⟩ := h'
            refine hdis l' ?_ (by simpa using h3)
            simp only [Code.labels, List.map_append, List.mem_append] at hl' ⊢; exact .inl hl'
          · exact h5 v h'

theorem filter_at {p : Nat → Bool} : ∀ {f : Code}, (∀ B ∈ f, p B.1 = false → B.2 = []) →
    Code.flat (f.filter fun B => p B.1) = f.flat ∧
    ∀ t, p t = true → Code.at (f.filter fun B => p B.1) t = f.at t := by
  intro f
  induction f with
  | nil => intro _; exact ⟨rfl, fun _ _ => rfl⟩
  | cons B r ih =>
    intro h
    obtain ⟨i1, i2⟩ := ih fun D hD => h D (List.mem_cons_of_mem _ hD)
    by_cases hB : p B.1 = true
    · rw [List.filter_cons_of_pos (by exact hB)]
      refine ⟨by rw [Code.flat_cons, i1, Code.flat_cons], ?_⟩
      intro t ht
      simp only [Code.at, i1, i2 t ht]
    · rw [List.filter_cons_of_neg (by exact hB)]
      have hb := h B (by simp) (by simpa using hB)
      refine ⟨by rw [i1, Code.flat_cons, hb]; rfl, ?_⟩
      intro t ht
      have : B.1 ≠ t := by rintro rfl; exact hB ht
      simp only [Code.at, if_neg this, i2 t ht]

theorem lookup_isSome_iff {m : List (Nat × Nat)} {t : Nat} : (m.lookup t).isSome = true ↔ ∃ u, (t, u) ∈ m := by
  induction m with
  | nil => simp
  | cons a m ih =>
    rcases a with ⟨a, b⟩
    by_cases h : t = a
    · subst h
      simp
    · rw [List.lookup_cons]
      have : (t == a) = false := by simpa using h
      rw [this]
      simp [ih, h]

theorem mem_of_lookup {m : List (Nat × Nat)} {t u : Nat} (h : m.lookup t = some u) : (t, u) ∈ m := by
  induction m with
  | nil => simp at h
  | cons a m ih =>
    rcases a with ⟨a, b⟩
    rw [List.lookup_cons] at h
    split at h
    · rename_i he
      have : t = a := by simpa using he
      subst this
      cases h
      simp
    · exact List.mem_cons_of_mem _ (ih h)

theorem removeEmptyBlocks_sound : Sound T I vis C fun f => (removeEmptyBlocks f).1 := by
  intro f hf
  have hs := emptyMap_spec f hf.nodup f [] [] rfl (by simp)
  have hl0 : Code.labels [] = [] := rfl
  rw [hl0] at hs
  simp only [List.nil_append] at hs
  have hfil := filter_at (p := fun l => ((emptyMap [] f).lookup l).isNone) (f := f) (by
    intro B hB h
    have : ((emptyMap [] f).lookup B.1).isSome = true := by
      cases hh : (emptyMap [] f).lookup B.1 <;> simp_all
    obtain ⟨u, hu⟩ := lookup_isSome_iff.mp this
    exact (hs _ _ hu).2.2.2.1 B hB rfl)
  obtain ⟨hfl, hat⟩ := hfil
  have hρ : ∀ t ∈ f.labels, ((emptyMap [] f).lookup (((emptyMap [] f).lookup t).getD t)).isNone = true ∧
      f.at (((emptyMap [] f).lookup t).getD t) = f.at t ∧ ((emptyMap [] f).lookup t).getD t ∈ f.labels := by
    intro t ht
    cases h : (emptyMap [] f).lookup t with
    | none => exact ⟨by simp [h], rfl, ht⟩
    | some u =>
      obtain ⟨h1, -, h3, -, h5⟩ := hs t u (mem_of_lookup h)
      simp only [Option.getD]
      refine ⟨?_, h1.symm, h3⟩
      by_contra hn
      obtain ⟨v, hv⟩ := (lookup_isSome_iff (m := emptyMap [] f) (t := u)).mp (by
        cases hh : (emptyMap [] f).lookup u <;> simp_all)
      exact h5 v hv
  have hlab : ∀ t, ((emptyMap [] f).lookup t).isNone = true → t ∈ f.labels →
      t ∈ Code.labels (f.filter fun B => ((emptyMap [] f).lookup B.1).isNone) := by
    intro t h1 h2
    simp only [Code.labels, List.mem_map, List.mem_filter] at h2 ⊢
    obtain ⟨B, hB, rfl⟩ := h2
    exact ⟨B, ⟨hB, h1⟩, rfl⟩
  constructor
  · refine retarget_same (ρ := fun t => ((emptyMap [] f).lookup t).getD t) ?_ ?_
    · simp only [removeEmptyBlocks]
      rw [Code.retarget_flat, hfl]
    · intro x hx t ht
      have htl := (hf.good x hx).tgt t ht
      obtain ⟨d, hd⟩ := Code.at_isSome htl
      obtain ⟨h1, h2, h3⟩ := hρ t htl
      refine ⟨d, d.map (FInst.retarget fun t => ((emptyMap [] f).lookup t).getD t), hd, ?_, .base ⟨Code.at_sub hd, rfl⟩⟩
      simp only [removeEmptyBlocks]
      rw [Code.retarget_at, hat _ h1, h2, hd]
      rfl
  · refine ⟨?_, ?_⟩
    · simp only [removeEmptyBlocks, Code.retarget_labels]
      exact hf.nodup.sublist (List.filter_sublist.map _)
    · intro x hx
      simp only [removeEmptyBlocks] at hx ⊢
      rw [Code.retarget_flat, hfl, List.mem_map] at hx
      obtain ⟨y, hy, rfl⟩ := hx
      refine (hf.good y hy).retarget fun t ht => ?_
      rw [Code.retarget_labels]
      obtain ⟨h1, -, h3⟩ := hρ t ((hf.good y hy).tgt t ht)
      exact hlab _ h1 h3

/-! ## The loops -/

theorem passes_sound {ps : List (Code → Code × Bool)} (h : ∀ p ∈ ps, Sound T I vis C fun f => (p f).1) :
    Sound T I vis C fun f => (passes ps f).1 := by
  induction ps with
  | nil => intro f hf; exact ⟨.refl, hf⟩
  | cons p ps ih =>
    intro f hf
    obtain ⟨a, b⟩ := h p (by simp) f hf
    obtain ⟨c, d⟩ := ih (fun q hq => h q (List.mem_cons_of_mem _ hq)) _ b
    exact ⟨a.trans c, d⟩

theorem untilSame_sound {p : Code → Code × Bool} (h : Sound T I vis C fun f => (p f).1) : ∀ n f g, CodeOk T I vis C f →
    untilSame p n f = some g → FSame T I vis f g ∧ CodeOk T I vis C g := by
  intro n
  induction n with
  | zero => intro f g _ h; cases h
  | succ n ih =>
    intro f g hf hu
    obtain ⟨a, b⟩ := h f hf
    simp only [untilSame] at hu
    split at hu
    · obtain ⟨c, d⟩ := ih _ g b hu
      exact ⟨a.trans c, d⟩
    · cases hu; exact ⟨a, b⟩

end

end Cmmc.Mir
