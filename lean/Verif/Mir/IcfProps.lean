import Verif.Mir.TailDupProps

/-!
# Identical code folding; blocks keep their terminators
-/

namespace Cmmc.Mir

section
variable {Val Mem : Type} {T : Target} {I : Interp Val Mem} {vis : Nat → Bool} {C : Inst → Prop} {f g : Code} {J : BrOps}

/-! ## The clean-up passes keep terminators -/

theorem retarget_falls (ρ : Nat → Nat) (is : List FInst) : falls (is.map (FInst.retarget ρ)) = falls is := by
  simp only [falls, List.all_map]
  congr 1
  funext x
  simp [Function.comp, FInst.retarget_noFall]

theorem retarget_ends {ρ : Nat → Nat} {is : List FInst} (h : Ends is) : Ends (is.map (FInst.retarget ρ)) := by
  obtain ⟨js, x, rfl, hj, hx⟩ := h
  refine ⟨js.map (FInst.retarget ρ), x.retarget ρ, by simp, ?_, ?_⟩
  · intro y hy
    obtain ⟨z, hz, rfl⟩ := List.mem_map.mp hy
    simp [FInst.retarget, hj z hz]
  · rcases hx with hx | ⟨t, ht⟩
    · exact .inl (by rw [FInst.retarget_noFall]; exact hx)
    · exact .inr ⟨ρ t, by simp [FInst.retarget, ht]⟩

theorem retarget_terminated {ρ : Nat → Nat} (h : Terminated f) : Terminated (f.retarget ρ) := by
  refine ⟨?_, ?_⟩
  · intro B hB
    simp only [Code.retarget, List.mem_map] at hB
    obtain ⟨D, hD, rfl⟩ := hB
    exact retarget_ends (h.ends D hD)
  · intro B hB
    simp only [Code.retarget, List.getLast?_map, Option.mem_def, Option.map_eq_some_iff] at hB
    obtain ⟨D, hD, rfl⟩ := hB
    simp only
    rw [retarget_falls]
    exact h.last D hD

theorem condEnd_ends {n : Nat} {is : List FInst} (h : Ends is) : Ends (condEnd J n is) := by
  obtain ⟨js, x, rfl, hj, hx⟩ := h
  simp only [condEnd, List.getLast?_concat, List.dropLast_concat]
  split
  · exact ⟨js, _, rfl, hj, .inl rfl⟩
  · exact ⟨js, x, rfl, hj, hx⟩

theorem mapEnds_terminated {e : Nat → List FInst → List FInst} (he : ∀ n is, Ends is → Ends (e n is)) :
    ∀ {f : Code}, Terminated f → Terminated (mapEnds e f) := by
  have hlen : ∀ {f : Code}, (mapEnds e f).getLast? = f.getLast? := by
    intro f
    induction f with
    | nil => rfl
    | cons B r ih =>
      cases r with
      | nil => rfl
      | cons D r =>
        simp only [mapEnds]
        rw [List.getLast?_cons, List.getLast?_cons]
        rw [show mapEnds e ((D.1, D.2) :: r) = mapEnds e (D :: r) from rfl, ih]
        simp [List.getLast?_cons]
  intro f h
  refine ⟨?_, by rw [hlen]; exact h.last⟩
  have := h.ends
  clear h
  induction f with
  | nil => intro B hB; cases hB
  | cons B r ih =>
    cases r with
    | nil => exact this
    | cons D r =>
      intro X hX
      simp only [mapEnds, List.mem_cons] at hX
      rcases hX with rfl | hX
      · exact he _ _ (this B (by simp))
      · exact ih (fun Y hY => this Y (List.mem_cons_of_mem _ hY)) X hX

theorem cut_of_ends {is : List FInst} (h : Ends is) : cut is = is := by
  obtain ⟨js, x, rfl, hj, -⟩ := h
  rw [cut_append_falls]
  · simp only [cut]
    split <;> rfl
  · simp only [falls, List.all_eq_true, Bool.not_eq_true']
    intro y hy
    simp [FInst.noFall, hj y hy]

theorem clean_terminated {seen : List Nat} (h : Terminated f) (hc : Closed seen f) : Terminated (clean seen f) := by
  refine ⟨?_, ?_⟩
  · intro B hB
    simp only [clean, List.mem_map, List.mem_filter] at hB
    obtain ⟨D, ⟨hD, -⟩, rfl⟩ := hB
    simp only
    rw [cut_of_ends (h.ends D hD)]
    exact h.ends D hD
  · have := h.last
    clear h
    induction f with
    | nil => intro B hB; cases hB
    | cons B r ih =>
      obtain ⟨c1, c2⟩ := hc
      have ihr : ∀ X ∈ (clean seen r).getLast?, falls X.2 = false := by
        cases r with
        | nil => intro X hX; cases hX
        | cons D r =>
          refine ih c2 ?_
          intro X hX
          exact this X (by rw [List.getLast?_cons]; simpa [List.getLast?_cons] using hX)
      by_cases hB : B.1 ∈ seen
      · have e : clean seen (B :: r) = (B.1, cut B.2) :: clean seen r := by simp [clean, hB]
        rw [e]
        intro X hX
        cases hcr : clean seen r with
        | cons Y s =>
          rw [hcr] at hX ihr
          exact ihr X (by simpa [List.getLast?_cons] using hX)
        | nil =>
          rw [hcr] at hX
          have : X = (B.1, cut B.2) := by simpa using hX.symm
          subst this
          simp only [falls_cut]
          cases hfl : falls B.2 with
          | false => rfl
          | true =>
            cases r with
            | nil =>
              have := this B (by simp)
              rw [hfl] at this; cases this
            | cons D r =>
              have hD := (c1 hB).2 hfl D (by simp)
              simp [clean, hD] at hcr
      · have e : clean seen (B :: r) = clean seen r := by simp [clean, hB]
        rw [e]; exact ihr

theorem removeUnreachableCode_terminated (hf : CodeOk T I vis C f) (h : Terminated f) :
    Terminated (removeUnreachableCode f).1 := by
  obtain ⟨seen, e, hc, -, -⟩ := removeUnreachableCode_spec hf
  rw [e]
  exact clean_terminated h hc

/-- The peephole passes, run between the passes here, do what they should (C45-C50 are about them). -/
structure PeepOk (T : Target) (I : Interp Val Mem) (vis : Nat → Bool) (C : Inst → Prop) (peep : Code → Code × Bool) : Prop where
  sound : Sound T I vis C fun f => (peep f).1
  term : ∀ f, CodeOk T I vis C f → Terminated f → Terminated (peep f).1

theorem passes_soundT {ps : List (Code → Code × Bool)} (h : ∀ p ∈ ps, (Sound T I vis C fun f => (p f).1) ∧
    ∀ f, CodeOk T I vis C f → Terminated f → Terminated (p f).1) : ∀ f, CodeOk T I vis C f → Terminated f →
      Terminated (passes ps f).1 := by
  induction ps with
  | nil => intro f _ ht; exact ht
  | cons p ps ih =>
    intro f hf ht
    obtain ⟨a, b⟩ := h p (by simp)
    exact ih (fun q hq => h q (List.mem_cons_of_mem _ hq)) _ (a f hf).2 (b f hf ht)

theorem untilSame_soundT {p : Code → Code × Bool} (h : Sound T I vis C fun f => (p f).1)
    (ht : ∀ f, CodeOk T I vis C f → Terminated f → Terminated (p f).1) (n : Nat) : SoundT T I vis C (untilSame p n) := by
  intro f g hf htf hu
  obtain ⟨a, b⟩ := untilSame_sound h n f g hf hu
  refine ⟨a, b, ?_⟩
  clear a b
  induction n generalizing f with
  | zero => cases hu
  | succ n ih =>
    simp only [untilSame] at hu
    split at hu
    · exact ih _ (h f hf).2 (ht f hf htf) hu
    · cases hu; exact ht f hf htf

theorem simplifyCFGUnique_sound (hJ : J.Ok T I vis C) {peep : Code → Code × Bool} (hp : PeepOk T I vis C peep) (n : Nat) :
    SoundT T I vis C (simplifyCFGUnique J peep n) := by
  have hall : ∀ p ∈ [conditional2Unconditional J, redirectGoto, removeUnreachableCode, peep],
      (Sound T I vis C fun f => (p f).1) ∧ ∀ f, CodeOk T I vis C f → Terminated f → Terminated (p f).1 := by
    intro p hp'
    simp only [List.mem_cons, List.not_mem_nil, or_false] at hp'
    rcases hp' with rfl | rfl | rfl | rfl
    · exact ⟨conditional2Unconditional_sound hJ, fun f _ ht => mapEnds_terminated (fun n is => condEnd_ends) ht⟩
    · exact ⟨redirectGoto_sound, fun f _ ht => retarget_terminated ht⟩
    · exact ⟨removeUnreachableCode_sound, fun f hf ht => removeUnreachableCode_terminated hf ht⟩
    · exact ⟨hp.sound, hp.term⟩
  exact untilSame_soundT (passes_sound fun p hp => (hall p hp).1) (passes_soundT hall) n

/-! ## `identicalCodeFolding` -/

/-- What the search finds: a later block with the same hash and the same instructions as one that stays. -/
theorem icfFind_spec (hs hp : Nat → Nat) (f : Code) : ∀ (todo reps : Code), (Code.labels (reps ++ todo)).Nodup →
    ∀ l r, (l, r) ∈ icfFind hs hp f reps todo → (∃ B ∈ todo, ∃ D ∈ reps ++ todo, B.1 = l ∧ D.1 = r ∧
      icfHash hs hp f D = icfHash hs hp f B ∧ isIdentical f B D = true) ∧ ∀ v, (r, v) ∉ icfFind hs hp f reps todo := by
  intro todo
  induction todo with
  | nil => intro reps _ l r h; cases h
  | cons B todo ih =>
    intro reps hnd l r h
    have hB : B.1 ∉ Code.labels reps ∧ B.1 ∉ Code.labels todo := nodup_mid (l := B.1) (is := B.2) hnd
    have hrt : (Code.labels (reps ++ todo)).Nodup := by
      refine hnd.sublist ?_
      simp only [Code.labels]
      exact (List.Sublist.append (List.Sublist.refl _) (List.sublist_cons_self _ _)).map _
    have hdis : ∀ k ∈ Code.labels reps, k ∉ Code.labels todo := by
      intro k h1 h2
      simp only [Code.labels, List.map_append] at hrt h1 h2
      exact (List.nodup_append.mp hrt).2.2 k h1 k h2 rfl
    simp only [icfFind] at h ⊢
    cases hfind : reps.find? (fun D => icfHash hs hp f D == icfHash hs hp f B && isIdentical f B D) with
    | some D =>
      rw [hfind] at h
      simp only at h
      have hD : D ∈ reps := List.mem_of_find?_eq_some hfind
      have hDp := List.find?_some hfind
      simp only [Bool.and_eq_true, beq_iff_eq] at hDp
      have hDl : D.1 ∈ Code.labels reps := List.mem_map.mpr ⟨D, hD, rfl⟩
      rcases List.mem_cons.mp h with h | h
      · cases h
        refine ⟨⟨B, by simp, D, by simp [hD], rfl, rfl, hDp.1, hDp.2⟩, ?_⟩
        intro v hv
        rcases List.mem_cons.mp hv with hv | hv
        · simp only [Prod.mk.injEq] at hv
          exact hB.1 (hv.1 ▸ hDl)
        · obtain ⟨⟨B', hB', -, -, e, -⟩, -⟩ := ih reps hrt _ _ hv
          exact hdis D.1 hDl (by rw [← e]; exact List.mem_map.mpr ⟨B', hB', rfl⟩)
      · obtain ⟨⟨B', hB', D', hD', e1, e2, h3⟩, h4⟩ := ih reps hrt l r h
        refine ⟨⟨B', by simp [hB'], D', ?_, e1, e2, h3⟩, ?_⟩
        · rcases List.mem_append.mp hD' with h | h <;> simp [h]
        · intro v hv
          rcases List.mem_cons.mp hv with hv | hv
          · simp only [Prod.mk.injEq] at hv
            rcases List.mem_append.mp hD' with h | h
            · exact hB.1 (by rw [← hv.1, ← e2]; exact List.mem_map.mpr ⟨D', h, rfl⟩)
            · exact hB.2 (by rw [← hv.1, ← e2]; exact List.mem_map.mpr ⟨D', h, rfl⟩)
          · exact h4 v hv
    | none =>
      rw [hfind] at h
      simp only at h
      obtain ⟨⟨B', hB', D', hD', e1, e2, h3⟩, h4⟩ := ih (reps ++ [B]) (by simpa using hnd) l r h
      exact ⟨⟨B', by simp [hB'], D', by simpa using hD', e1, e2, h3⟩, h4⟩

theorem icfReplace_labels (m : List (Nat × Nat)) (f : Code) : (icfReplace J m f).labels = f.labels := by
  simp only [Code.labels, icfReplace, List.map_map]
  congr 1
  funext B
  simp only [Function.comp]
  split <;> rfl

/-- A block that is not replaced. -/
theorem icfReplace_at {m : List (Nat × Nat)} {r : Nat} {is : List FInst} (hnd : f.labels.Nodup) (hb : f.body r = some is)
    (hm : m.lookup r = none) : ∃ b, (icfReplace J m f).at r = some (is ++ b) ∧ ∀ n, f.after r = some n →
      (icfReplace J m f).at n = some b := by
  obtain ⟨A, B, e, hA⟩ := Code.body_split hb
  have e' : icfReplace J m f = icfReplace J m A ++ (r, is) :: icfReplace J m B := by
    rw [e]
    simp only [icfReplace, List.map_append, List.map_cons, hm]
  have hnd' : (icfReplace J m f).labels.Nodup := by rw [icfReplace_labels]; exact hnd
  refine ⟨(icfReplace J m B).flat, ?_, ?_⟩
  · rw [e'] at hnd' ⊢
    exact Code.at_split hnd'
  · intro n hn
    rw [e, Code.after_here hA] at hn
    cases hB : B with
    | nil => rw [hB] at hn; simp at hn
    | cons Z s =>
      rw [hB] at hn
      simp only [List.head?_cons, Option.map_some, Option.some.injEq] at hn
      have e2 : ∃ js, icfReplace J m (Z :: s) = (n, js) :: icfReplace J m s := by
        simp only [icfReplace, List.map_cons]
        rw [hn]
        split
        · exact ⟨_, rfl⟩
        · exact ⟨Z.2, by rw [← hn]⟩
      obtain ⟨js, e2⟩ := e2
      rw [e', hB, e2] at hnd' ⊢
      rw [show icfReplace J m A ++ (r, is) :: (n, js) :: icfReplace J m s =
        (icfReplace J m A ++ [(r, is)]) ++ (n, js) :: icfReplace J m s by simp] at hnd' ⊢
      rw [Code.at_split hnd', Code.flat_cons]

theorem icfReplace_at_jump {m : List (Nat × Nat)} {l r : Nat} {is : List FInst} (hnd : f.labels.Nodup)
    (hb : f.body l = some is) (hm : m.lookup l = some r) :
    ∃ w, (icfReplace J m f).at l = some (⟨J.goto r, .goto r⟩ :: w) := by
  obtain ⟨A, B, e, hA⟩ := Code.body_split hb
  have e' : icfReplace J m f = icfReplace J m A ++ (l, [⟨J.goto r, .goto r⟩]) :: icfReplace J m B := by
    rw [e]
    simp only [icfReplace, List.map_append, List.map_cons, hm]
  have hnd' : (icfReplace J m f).labels.Nodup := by rw [icfReplace_labels]; exact hnd
  rw [e'] at hnd' ⊢
  exact ⟨_, Code.at_split hnd'⟩

/-- Identical blocks with the same hash run on to the same block: the check that only looks at the successors of one of
    them is made good by the hash. -/
theorem same_next {hs hp : Nat → Nat} (hp0 : ∀ n, hp n ≠ 0) (ht : Terminated f) (hnd : f.labels.Nodup)
    {B D : Nat × List FInst} (hB : f.body B.1 = some B.2) (hD : f.body D.1 = some D.2)
    (hh : icfHash hs hp f D = icfHash hs hp f B) (hi : isIdentical f B D = true) (hfl : falls B.2 = true) :
    f.after B.1 = f.after D.1 := by
  simp only [isIdentical, Bool.and_eq_true, beq_iff_eq, List.all_eq_true, List.contains_iff_mem] at hi
  obtain ⟨he, hi⟩ := hi
  obtain ⟨A1, C1, e1, -⟩ := Code.body_split hB
  obtain ⟨js, x, t, hjs, hx⟩ := (ht.ends (B.1, B.2) (by rw [e1]; simp)).cond hfl
  replace hjs : B.2 = js ++ [x] := hjs
  obtain ⟨-, n1, -, -, -, h1, -⟩ := ht.next hnd hB hfl
  obtain ⟨-, n2, -, -, -, h2, -⟩ := ht.next hnd hD (by rw [← he]; exact hfl)
  rw [h1, h2]
  have s1 : f.succs B.1 = if n1 = t then [t] else [t, n1] := by
    simp only [Code.succs, hB, h1, hjs, endSuccs, List.getLast?_concat, hx]
  have s2 : f.succs D.1 = if n2 = t then [t] else [t, n2] := by
    simp only [Code.succs, hD, h2, ← he, hjs, endSuccs, List.getLast?_concat, hx]
  by_cases c1 : n1 = t
  · by_cases c2 : n2 = t
    · rw [c1, c2]
    · exfalso
      simp only [icfHash, s1, s2, if_pos c1, if_neg c2, he, List.foldl_cons, List.foldl_nil] at hh
      apply hp0 n2
      have := congrArg (fun z => (hs D.2.length ^^^ hp t) ^^^ z) hh
      simp only [← Nat.xor_assoc, Nat.xor_self, Nat.zero_xor] at this
      simpa [Nat.xor_assoc] using this
  · rw [s1, if_neg c1] at hi
    have := hi n1 (by simp)
    rw [s2] at this
    by_cases c2 : n2 = t
    · rw [if_pos c2] at this
      simp at this
      exact absurd this c1
    · rw [if_neg c2] at this
      simp only [List.mem_cons, List.not_mem_nil, or_false] at this
      rw [this.resolve_left c1]

theorem icfReplace_sound (hJ : J.Ok T I vis C) {hs hp : Nat → Nat} (hp0 : ∀ n, hp n ≠ 0) (hf : CodeOk T I vis C f)
    (ht : Terminated f) :
    FSame T I vis f (icfReplace J (icfFind hs hp f [] f) f) ∧ CodeOk T I vis C (icfReplace J (icfFind hs hp f [] f) f) ∧
    Terminated (icfReplace J (icfFind hs hp f [] f) f) := by
  have hspec := icfFind_spec hs hp f f [] hf.nodup
  set m := icfFind hs hp f [] f with hm
  have hrep : ∀ l is r, f.body l = some is → m.lookup l = some r → f.body r = some is ∧ m.lookup r = none ∧ r ∈ f.labels ∧
      (falls is = true → f.after l = f.after r) := by
    intro l is r hb hl
    obtain ⟨⟨B, hB, D, hD, rfl, rfl, h3, h4⟩, h5⟩ := hspec l r (mem_of_lookup hl)
    rw [List.nil_append] at hD
    have hbB := hf.body_mem hB
    have hbD := hf.body_mem hD
    rw [hb] at hbB
    cases hbB
    have he : B.2 = D.2 := by
      simp only [isIdentical, Bool.and_eq_true, beq_iff_eq] at h4
      exact h4.1
    refine ⟨by rw [he]; exact hbD, ?_, List.mem_map.mpr ⟨D, hD, rfl⟩, fun hfl => ?_⟩
    · cases hh : m.lookup D.1 with
      | none => rfl
      | some v => exact absurd (mem_of_lookup hh) (h5 v)
    · exact same_next hp0 ht hf.nodup hb hbD h3 h4 hfl
  refine ⟨?_, ?_, ?_⟩
  · by_cases hne : f = []
    · subst hne; exact .refl
    refine place_same hf hne (fun B hB => (ht.ends B hB).ne) ?_ ?_
    · intro l is hb
      obtain ⟨a, ha⟩ := Code.body_at hb
      have key : ∀ r, f.body r = some is → m.lookup r = none → (falls is = true → f.after l = f.after r) →
          ∃ b, (icfReplace J m f).at r = some (is ++ b) ∧
            (falls is = true → ∃ n ∈ f.labels, f.at n = some a ∧ Leads T I vis (icfReplace J m f) n b) := by
        intro r hr hmr haf
        obtain ⟨b, hb1, hb2⟩ := icfReplace_at (J := J) hf.nodup hr hmr
        refine ⟨b, hb1, fun hfl => ?_⟩
        obtain ⟨-, n, ks, B, -, h1, h2, h3⟩ := ht.next hf.nodup hb hfl
        rw [ha] at h2
        simp only [Option.some.injEq, List.append_cancel_left_eq] at h2
        rw [← h2] at h3
        exact ⟨n, Code.at_mem h3, h3, .inl (hb2 n (by rw [← haf hfl]; exact h1))⟩
      cases hl : m.lookup l with
      | none =>
        obtain ⟨b, h1, h2⟩ := key l hb hl (fun _ => rfl)
        exact ⟨a, b, _, ha, h1, .inl rfl, h2⟩
      | some r =>
        obtain ⟨h1, h2, h3, h4⟩ := hrep l is r hb hl
        obtain ⟨b, g1, g2⟩ := key r h1 h2 h4
        obtain ⟨w, hw⟩ := icfReplace_at_jump (J := J) hf.nodup hb hl
        exact ⟨a, b, _, ha, hw, .inr ⟨_, w, r, rfl, rfl, hJ.goto r, g1⟩, g2⟩
    · intro B hB
      refine Code.at_head ?_
      cases f with
      | nil => cases hB
      | cons D r =>
        simp only [List.head?_cons, Option.mem_def, Option.some.injEq] at hB
        subst hB
        simp only [icfReplace, List.map_cons, List.head?_cons, Option.map_some]
        split <;> rfl
  · refine ⟨by rw [icfReplace_labels]; exact hf.nodup, ?_⟩
    intro x hx
    rw [icfReplace_labels]
    simp only [Code.flat, List.mem_flatMap] at hx
    obtain ⟨B, hB, hx⟩ := hx
    simp only [icfReplace, List.mem_map] at hB
    obtain ⟨D, hD, rfl⟩ := hB
    split at hx
    · rename_i r hr
      simp only [List.mem_singleton] at hx
      subst hx
      exact Good.emit hJ (hrep D.1 D.2 r (hf.body_mem hD) hr).2.2.1
    · exact hf.good x (List.mem_flatMap.mpr ⟨D, hD, hx⟩)
  · refine ⟨?_, ?_⟩
    · intro B hB
      simp only [icfReplace, List.mem_map] at hB
      obtain ⟨D, hD, rfl⟩ := hB
      split
      · exact ⟨[], _, rfl, by simp, .inl rfl⟩
      · exact ht.ends D hD
    · intro B hB
      simp only [icfReplace, List.getLast?_map, Option.mem_def, Option.map_eq_some_iff] at hB
      obtain ⟨D, hD, rfl⟩ := hB
      split
      · rfl
      · exact ht.last D hD

theorem identicalCodeFolding_sound (hJ : J.Ok T I vis C) {hs hp : Nat → Nat} (hp0 : ∀ n, hp n ≠ 0) (n : Nat) :
    SoundT T I vis C (identicalCodeFolding J hs hp n) := by
  intro f g hf ht h
  simp only [identicalCodeFolding] at h
  split at h
  · cases h; exact ⟨.refl, hf, ht⟩
  · obtain ⟨a, b, c⟩ := icfReplace_sound hJ (hs := hs) hp0 hf ht
    obtain ⟨a', b', c'⟩ := untilSame_soundT redirectGoto_sound (fun f _ ht => retarget_terminated ht) n _ g b c h
    exact ⟨a.trans a', b', c'⟩

end

end Cmmc.Mir
