import Verif.Mir.BlockLayoutProps

/-!
# Tail duplication and identical code folding cannot be seen
-/

namespace Cmmc.Mir

section
variable {Val Mem : Type} {T : Target} {I : Interp Val Mem} {vis : Nat → Bool} {C : Inst → Prop} {f g : Code} {J : BrOps}

/-- A jump is replaced by the instructions it jumps to. `b` is what follows them now, `a` what followed them before. -/
theorem dup_same {A B D : Code} {l t : Nat} {is js a : List FInst} {x : FInst}
    (hf : CodeOk T I vis C (A ++ (l, is ++ [x]) :: B)) (hx : x.br = .goto t) (hjs : js ≠ [])
    (hat : Code.at (A ++ (l, is ++ [x]) :: B) t = some (js ++ a)) (hD : ∀ X ∈ D, X.1 ∉ Code.labels (A ++ (l, is ++ [x]) :: B))
    (hb : falls js = true → (a = D.flat ++ B.flat) ∨ ∃ z r n, D.flat ++ B.flat = z :: r ∧ z.br = .goto n ∧ BrPure T I vis z.inst ∧
      Code.at (A ++ (l, is ++ [x]) :: B) n = some a) :
    FSame T I vis (A ++ (l, is ++ [x]) :: B) (A ++ (l, is ++ js) :: (D ++ B)) := by
  generalize hF : A ++ (l, is ++ [x]) :: B = F at hf hat hD hb
  have hsub := Code.at_sub hat
  let E : List FInst → List FInst → Prop := fun c c' => ∃ p, p ≠ [] ∧ (∀ y ∈ p, y ∈ F.flat) ∧ c = p ++ a ∧
    c' = p ++ (D.flat ++ B.flat) ∧ (falls p = true → (a = D.flat ++ B.flat) ∨ ∃ z r n, D.flat ++ B.flat = z :: r ∧
      z.br = .goto n ∧ BrPure T I vis z.inst ∧ F.at n = some a)
  have hxF : x ∈ F.flat := by rw [← hF]; exact Code.mem_mid (by simp)
  have h0 : Clo T I vis F (A ++ (l, is ++ js) :: (D ++ B)) (EditS F ([x] ++ B.flat) (js ++ D.flat ++ B.flat) E)
      ([x] ++ B.flat) (js ++ D.flat ++ B.flat) := by
    refine .left hx ((hf.good x hxF).goto t hx) hat (.base (.extra ⟨js, hjs, ?_, rfl, by simp, hb⟩))
    intro y hy
    exact hsub y (by simp [hy])
  refine edit_same (E := E) (o := [x]) (n := js) (C := D) (is := is) (l := l) (A := A) (B := B) hF.symm rfl hD hf.wf h0 ?_
  rintro c c' ⟨p, hp, hps, rfl, rfl, hfl⟩
  cases p with
  | nil => exact absurd rfl hp
  | cons y r =>
    refine ⟨y, r ++ a, y, r ++ (D.flat ++ B.flat), rfl, rfl, match_id ?_ ?_⟩
    · intro u hu
      exact edit_at hF.symm rfl hD h0 u ((hf.good y (hps y (by simp))).tgt u hu)
    · intro hy
      have hfl' : falls r = true → falls (y :: r) = true := by
        intro h
        simp only [falls, List.all_cons, hy] at h ⊢
        simpa using h
      cases r with
      | cons w r => exact .base (.extra ⟨w :: r, by simp, fun z hz => hps z (by simp at hz ⊢; exact .inr hz), rfl, rfl,
          fun h => hfl (hfl' h)⟩)
      | nil =>
        rcases hfl (hfl' rfl) with h | ⟨z, r, n, h1, h2, h3, h4⟩
        · rw [← h]
          exact .base (.same fun y hy => hsub y (by simp at hy; simp [hy]))
        · obtain ⟨d, d', e1, e2, e3⟩ := edit_at hF.symm rfl hD h0 n (Code.at_mem h4)
          rw [h4] at e1
          cases e1
          simp only [List.nil_append]
          rw [h1]
          exact .right h2 h3 e2 e3

theorem Code.after_edit {A B D : Code} {l k : Nat} {is js : List FInst} (hk : k ≠ l) (hD : k ∉ Code.labels D) :
    Code.after (A ++ (l, is) :: B) k = Code.after (A ++ (l, js) :: (D ++ B)) k := by
  induction A with
  | nil =>
    simp only [List.nil_append]
    rw [Code.after_cons, Code.after_cons, if_neg (fun e => hk e.symm), if_neg (fun e => hk e.symm)]
    induction D with
    | nil => rfl
    | cons X D ih =>
      simp only [Code.labels, List.map_cons, List.mem_cons, not_or] at hD
      rw [List.cons_append, Code.after_cons, if_neg (fun e => hD.1 e.symm)]
      exact ih hD.2
  | cons Y A ih =>
    rw [List.cons_append, List.cons_append, Code.after_cons, Code.after_cons, ih]
    split
    · cases A <;> rfl
    · rfl

theorem Code.after_here {A B : Code} {l : Nat} {is : List FInst} (h : l ∉ Code.labels A) :
    Code.after (A ++ (l, is) :: B) l = B.head?.map Prod.fst := by
  induction A with
  | nil => rw [List.nil_append, Code.after_cons, if_pos rfl]
  | cons Y A ih =>
    simp only [Code.labels, List.map_cons, List.mem_cons, not_or] at h
    rw [List.cons_append, Code.after_cons, if_neg (fun e => h.1 e.symm)]
    exact ih h.2

theorem Code.body_edit {A B D : Code} {l k : Nat} {is js : List FInst} (hk : k ≠ l) (hD : k ∉ Code.labels D) :
    Code.body (A ++ (l, is) :: B) k = Code.body (A ++ (l, js) :: (D ++ B)) k := by
  have hl : (l == k) = false := by simpa using fun e : l = k => hk e.symm
  have hDf : D.find? (fun B => B.1 == k) = none := by
    rw [List.find?_eq_none]
    intro X hX he
    have : X.1 = k := by simpa using he
    exact hD (by rw [← this]; exact List.mem_map.mpr ⟨X, hX, rfl⟩)
  simp only [Code.body, List.find?_append, List.find?_cons, hl, hDf, Option.none_or]

theorem nodup_mid {A B : Code} {l : Nat} {is : List FInst} (h : (Code.labels (A ++ (l, is) :: B)).Nodup) :
    l ∉ Code.labels A ∧ l ∉ Code.labels B := by
  simp only [Code.labels, List.map_append, List.map_cons] at h
  constructor
  · intro hl
    exact (List.nodup_append.mp h).2.2 l hl l (by simp) rfl
  · exact (List.nodup_cons.mp (List.nodup_append.mp h).2.1).1

/-- What holds while the blocks are gone through: the blocks to come are as they were (`L` are the old labels), and
    the recorded successors of old blocks that end with a conditional branch are right. -/
structure DupInv (T : Target) (I : Interp Val Mem) (vis : Nat → Bool) (C : Inst → Prop) (L : List Nat) (st : DupSt)
    (done todo : Code) : Prop where
  ok : CodeOk T I vis C (done ++ todo)
  term : Terminated (done ++ todo)
  old : ∀ t ∈ L, t ∈ Code.labels (done ++ todo)
  ahead : ∀ B ∈ todo, B.1 ∈ L ∧ ∀ x ∈ B.2, ∀ t ∈ x.targets, t ∈ L
  id : ∀ t ∈ Code.labels (done ++ todo), t < st.id
  succ : ∀ l ∈ L, ∀ js x u, Code.body (done ++ todo) l = some (js ++ [x]) → x.br = .cond u →
    st.succ l = Code.succs (done ++ todo) l

/-- The new code after one block: its jump is replaced by the instructions `js` of the target, and `D` comes behind. -/
theorem dup_step {L : List Nat} {st st' : DupSt} {done rest D : Code} {l t : Nat} {is js : List FInst} {x y : FInst}
    (hi : DupInv T I vis C L st done ((l, is ++ [x]) :: rest)) (hx : x.br = .goto t) (htl : t ≠ l)
    (hb : Code.body (done ++ (l, is ++ [x]) :: rest) t = some (js ++ [y]))
    (hD : (D = [] ∧ (y.noFall = true ∨ ∃ u n, y.br = .cond u ∧ Code.after (done ++ (l, is ++ [x]) :: rest) t = some n ∧
        rest.head?.map Prod.fst = some n)) ∨
      ∃ n i, D = [(st.id, [⟨i, .goto n⟩])] ∧ BrPure T I vis i ∧ (∃ u, y.br = .cond u) ∧
        Code.after (done ++ (l, is ++ [x]) :: rest) t = some n)
    (hid : st.id ≤ st'.id ∧ (D ≠ [] → st.id < st'.id))
    (hs1 : ∀ k, k ≠ l → st'.succ k = st.succ k)
    (hs2 : ∀ u, y.br = .cond u → st'.succ l = endSuccs ((D ++ rest).head?.map Prod.fst) (is ++ (js ++ [y]))) :
    FSame T I vis (done ++ (l, is ++ [x]) :: rest) ((done ++ (l, is ++ (js ++ [y])) :: D) ++ rest) ∧
    DupInv T I vis C L st' (done ++ (l, is ++ (js ++ [y])) :: D) rest := by
  have eg : (done ++ (l, is ++ (js ++ [y])) :: D) ++ rest = done ++ (l, is ++ (js ++ [y])) :: (D ++ rest) := by simp
  have hDl : ∀ k ∈ Code.labels D, k = st.id := by
    intro k hk
    rcases hD with ⟨rfl, -⟩ | ⟨n, i, rfl, -⟩
    · simp [Code.labels] at hk
    · simpa [Code.labels] using hk
  have hDn : ∀ X ∈ D, X.1 ∉ Code.labels (done ++ (l, is ++ [x]) :: rest) := by
    intro X hX hm
    have := hDl X.1 (List.mem_map.mpr ⟨X, hX, rfl⟩)
    have h2 := hi.id X.1 hm
    omega
  have hafter : ∀ n, Code.after (done ++ (l, is ++ [x]) :: rest) t = some n → ∃ a,
      Code.at (done ++ (l, is ++ [x]) :: rest) t = some (js ++ [y] ++ a) ∧
      Code.at (done ++ (l, is ++ [x]) :: rest) n = some a := by
    intro n hn
    obtain ⟨A, ks, ms, B, e⟩ := Code.after_some hn
    have hnd := hi.ok.nodup
    rw [e] at hnd hb
    have hA := (nodup_mid hnd).1
    rw [Code.body_of_split hA] at hb
    cases hb
    refine ⟨Code.flat ((n, ms) :: B), ?_, ?_⟩
    · rw [e]; exact Code.at_split hnd
    · have e2 : A ++ (t, js ++ [y]) :: (n, ms) :: B = (A ++ [(t, js ++ [y])]) ++ (n, ms) :: B := by simp
      rw [e, e2]
      rw [e2] at hnd
      rw [Code.at_split hnd, Code.flat_cons]
  obtain ⟨a0, ha0⟩ := Code.body_at hb
  have hnd := hi.ok.nodup
  have hlA := (nodup_mid hnd).1
  have hlB := (nodup_mid hnd).2
  have hrest : ∀ n, rest.head?.map Prod.fst = some n →
      Code.at (done ++ (l, is ++ [x]) :: rest) n = some rest.flat := by
    intro n hn
    have : Code.at rest n = some rest.flat := Code.at_head hn
    have e2 : done ++ (l, is ++ [x]) :: rest = (done ++ [(l, is ++ [x])]) ++ rest := by simp
    rw [e2, Code.at_append]
    · exact this
    · intro hm
      rw [e2] at hnd
      simp only [Code.labels, List.map_append] at hnd hm
      refine (List.nodup_append.mp hnd).2.2 n hm n ?_ rfl
      cases rest with
      | nil => simp at hn
      | cons Z r => simp at hn; simp [hn]
  have hlab : Code.labels (done ++ (l, is ++ (js ++ [y])) :: (D ++ rest)) =
      Code.labels done ++ l :: (Code.labels D ++ Code.labels rest) := by simp [Code.labels]
  have hlab0 : Code.labels (done ++ (l, is ++ [x]) :: rest) = Code.labels done ++ l :: Code.labels rest := by
    simp [Code.labels]
  have hmem : ∀ k, k ∈ Code.labels (done ++ (l, is ++ [x]) :: rest) →
      k ∈ Code.labels (done ++ (l, is ++ (js ++ [y])) :: (D ++ rest)) := by
    intro k hk
    rw [hlab]
    rw [hlab0] at hk
    simp only [List.mem_append, List.mem_cons] at hk ⊢
    rcases hk with h | h | h <;> simp [h]
  have hyb : y ∈ Code.flat (done ++ (l, is ++ [x]) :: rest) := Code.body_sub hb y (by simp)
  refine ⟨?_, ?_, ?_, ?_, ?_, ?_, ?_⟩
  · rw [eg]
    rcases hD with ⟨rfl, hy | ⟨u, n, hu, hn, hr⟩⟩ | ⟨n, i, rfl, hp, ⟨u, hu⟩, hn⟩
    · refine dup_same hi.ok hx (by simp) ha0 hDn ?_
      intro h
      rw [falls_concat_noFall hy] at h
      cases h
    · obtain ⟨a, h1, h2⟩ := hafter n hn
      refine dup_same hi.ok hx (by simp) h1 hDn ?_
      intro _
      left
      rw [hrest n hr] at h2
      cases h2
      simp [Code.flat]
    · obtain ⟨a, h1, h2⟩ := hafter n hn
      refine dup_same hi.ok hx (by simp) h1 hDn ?_
      intro _
      exact .inr ⟨⟨i, .goto n⟩, rest.flat, n, by simp [Code.flat], rfl, hp, h2⟩
  · rw [eg]
    refine ⟨?_, ?_⟩
    · rw [hlab]
      rw [hlab0] at hnd
      have hDnd : (Code.labels D).Nodup := by
        rcases hD with ⟨rfl, -⟩ | ⟨n, i, rfl, -⟩ <;> simp [Code.labels]
      have hdis : ∀ k ∈ Code.labels D, k ∉ Code.labels done ++ l :: Code.labels rest := by
        intro k hk hm
        rw [← hlab0] at hm
        have := hi.id k hm
        rw [hDl k hk] at this
        omega
      simp only [List.nodup_append, List.nodup_cons, List.mem_append, List.mem_cons, not_or] at hnd hdis ⊢
      obtain ⟨n1, ⟨n2, n3⟩, n4⟩ := hnd
      refine ⟨n1, ⟨⟨fun h => (hdis l h).2.1 rfl, n2⟩, hDnd, n3, ?_⟩, ?_⟩
      · rintro p hp q hq rfl
        exact (hdis p hp).2.2 hq
      · intro p hp q hq
        rcases hq with rfl | hq | hq
        · exact n4 p hp q (.inl rfl)
        · rintro rfl
          exact (hdis p hq).1 hp
        · exact n4 p hp q (.inr hq)
    · intro z hz
      rw [Code.flat_append, Code.flat_cons, Code.flat_append] at hz
      have hg : z ∈ Code.flat (done ++ (l, is ++ [x]) :: rest) → Good T I vis C
          (Code.labels (done ++ (l, is ++ (js ++ [y])) :: (D ++ rest))) z := fun h =>
        (hi.ok.good z h).mono fun k hk => hmem k ((hi.ok.good z h).tgt k hk)
      simp only [List.mem_append] at hz
      rcases hz with h | (h | h) | h | h
      · exact hg (by rw [Code.flat_append]; simp [h])
      · exact hg (Code.mem_mid (by simp [h]))
      · exact hg (Code.body_sub hb z (by simpa using h))
      · rcases hD with ⟨rfl, -⟩ | ⟨n, i, rfl, hp, -, hn⟩
        · simp [Code.flat] at h
        · simp [Code.flat] at h
          subst h
          refine ⟨?_, fun _ _ => hp, ?_⟩
          · intro k hk
            simp only [FInst.targets, List.mem_singleton] at hk
            subst hk
            exact hmem k (Code.after_mem hn)
          · intro k hk; cases hk
      · exact hg (by rw [Code.flat_append, Code.flat_cons]; simp [h])
  · rw [eg]
    have hym : ∃ B ∈ done ++ (l, is ++ [x]) :: rest, B.2 = js ++ [y] := by
      obtain ⟨A, B, e, -⟩ := Code.body_split hb
      exact ⟨(t, js ++ [y]), by rw [e]; simp, rfl⟩
    refine ⟨?_, ?_⟩
    · intro B hB
      simp only [List.mem_append, List.mem_cons] at hB
      rcases hB with h | rfl | h | h
      · exact hi.term.ends B (by simp [h])
      · obtain ⟨B, hB, e⟩ := hym
        obtain ⟨js1, y1, e1, hj1, hc⟩ := hi.term.ends B hB
        rw [e] at e1
        obtain ⟨rfl, e2⟩ := List.append_inj' e1 rfl
        simp only [List.cons.injEq, and_true] at e2
        subst e2
        obtain ⟨is1, x1, e3, hi1, -⟩ := hi.term.ends (l, is ++ [x]) (by simp)
        obtain ⟨rfl, -⟩ := List.append_inj' e3 rfl
        refine ⟨is ++ js, y, by simp, ?_, hc⟩
        intro z hz
        rcases List.mem_append.mp hz with hz | hz
        · exact hi1 z hz
        · exact hj1 z hz
      · rcases hD with ⟨rfl, -⟩ | ⟨n, i, rfl, -⟩
        · simp at h
        · simp at h
          subst h
          exact ⟨[], _, rfl, by simp, .inl rfl⟩
      · exact hi.term.ends B (by simp [h])
    · intro B hB
      cases hr : rest with
      | cons Z r =>
        have hl : ∀ (X : Code) (W : Nat × List FInst), (X ++ W :: (Z :: r)).getLast? = (Z :: r).getLast? := by
          intro X W
          rw [show X ++ W :: Z :: r = (X ++ [W]) ++ (Z :: r) by simp, List.getLast?_append]
          simp [List.getLast?_cons]
        have hl2 : (done ++ (l, is ++ (js ++ [y])) :: (D ++ Z :: r)).getLast? = (Z :: r).getLast? := by
          rw [show done ++ (l, is ++ (js ++ [y])) :: (D ++ Z :: r) = (done ++ (l, is ++ (js ++ [y])) :: D) ++ (Z :: r) by simp,
            List.getLast?_append]
          simp [List.getLast?_cons]
        rw [hr, hl2] at hB
        refine hi.term.last B ?_
        rw [hr, hl]
        exact hB
      | nil =>
        rw [hr] at hB
        rcases hD with ⟨rfl, hy | ⟨u, n, hu, hn, hr'⟩⟩ | ⟨n, i, rfl, -⟩
        · simp only [List.append_nil, List.getLast?_concat] at hB
          have : B = (l, is ++ (js ++ [y])) := by simpa using hB.symm
          rw [this]
          simp only
          rw [show is ++ (js ++ [y]) = (is ++ js) ++ [y] by simp]
          exact falls_concat_noFall hy
        · rw [hr] at hr'; simp at hr'
        · simp only [List.append_nil] at hB
          rw [show done ++ (l, is ++ (js ++ [y])) :: [(st.id, [⟨i, .goto n⟩])] =
            (done ++ [(l, is ++ (js ++ [y]))]) ++ [(st.id, [⟨i, .goto n⟩])] by simp, List.getLast?_concat] at hB
          have : B = (st.id, [⟨i, .goto n⟩]) := by simpa using hB.symm
          rw [this]
          rfl
  · intro k hk
    rw [eg]
    exact hmem k (hi.old k hk)
  · intro B hB
    exact hi.ahead B (by simp [hB])
  · intro k hk
    rw [eg, hlab] at hk
    simp only [List.mem_append, List.mem_cons] at hk
    have hold : k ∈ Code.labels (done ++ (l, is ++ [x]) :: rest) → k < st'.id := fun h =>
      Nat.lt_of_lt_of_le (hi.id k h) hid.1
    rw [hlab0] at hold
    simp only [List.mem_append, List.mem_cons] at hold
    rcases hk with h | h | h | h
    · exact hold (.inl h)
    · exact hold (.inr (.inl h))
    · rw [hDl k h]
      apply hid.2
      rintro rfl
      simp [Code.labels] at h
    · exact hold (.inr (.inr h))
  · intro k hk ks z u hbk hzu
    rw [eg] at hbk ⊢
    have hkD : k ∉ Code.labels D := by
      intro h
      have := hi.id k (hi.old k hk)
      rw [hDl k h] at this
      omega
    by_cases hkl : k = l
    · subst hkl
      rw [Code.body_of_split hlA] at hbk
      have ey : z = y := by
        rw [show is ++ (js ++ [y]) = (is ++ js) ++ [y] by simp] at hbk
        simp only [Option.some.injEq] at hbk
        have := congrArg List.getLast? hbk
        simpa using this.symm
      subst ey
      rw [hs2 u hzu]
      simp only [Code.succs, Code.body_of_split hlA, Code.after_here hlA]
    · have e1 := Code.body_edit (A := done) (B := rest) (D := D) (is := is ++ [x]) (js := is ++ (js ++ [y])) hkl hkD
      have e2 := Code.after_edit (A := done) (B := rest) (D := D) (is := is ++ [x]) (js := is ++ (js ++ [y])) hkl hkD
      rw [← e1] at hbk
      rw [hs1 k hkl, hi.succ k hk ks z u hbk hzu]
      simp only [Code.succs, e1, e2]

/-- One block of the loop. -/
theorem dupBlock_sound {L : List Nat} {st : DupSt} {done rest : Code} {l : Nat} {is : List FInst}
    (hJ : J.Ok T I vis C) {want : Code → Nat → Nat → Bool} (hi : DupInv T I vis C L st done ((l, is) :: rest)) :
    FSame T I vis (done ++ (l, is) :: rest)
      ((done ++ (l, (dupBlock J want st done l is rest).1) :: (dupBlock J want st done l is rest).2.1) ++ rest) ∧
    DupInv T I vis C L (dupBlock J want st done l is rest).2.2
      (done ++ (l, (dupBlock J want st done l is rest).1) :: (dupBlock J want st done l is rest).2.1) rest := by
  have hsame : FSame T I vis (done ++ (l, is) :: rest) ((done ++ (l, is) :: []) ++ rest) ∧
      DupInv T I vis C L st (done ++ (l, is) :: []) rest := by
    have e : (done ++ (l, is) :: []) ++ rest = done ++ (l, is) :: rest := by simp
    refine ⟨by rw [e]; exact .refl, ?_, ?_, ?_, ?_, ?_, ?_⟩
    · rw [e]; exact hi.ok
    · rw [e]; exact hi.term
    · rw [e]; exact hi.old
    · intro B hB; exact hi.ahead B (by simp [hB])
    · rw [e]; exact hi.id
    · rw [e]; exact hi.succ
  unfold dupBlock
  split
  · exact hsame
  · rename_i x hx
    split
    swap
    · exact hsame
    rename_i t ht
    split
    swap
    · exact hsame
    rename_i hcond
    obtain ⟨htl, -, -⟩ := hcond
    split
    · exact hsame
    rename_i js hb
    split
    · exact hsame
    rename_i y hy
    obtain ⟨is', rfl⟩ := List.getLast?_eq_some_iff.mp hx
    obtain ⟨js', rfl⟩ := List.getLast?_eq_some_iff.mp hy
    simp only [List.dropLast_concat] at hb ⊢
    have hb' : Code.body (done ++ (l, is' ++ [x]) :: rest) t = some (js' ++ [y]) := by
      rw [← hb]
      have := Code.body_edit (A := done) (B := rest) (D := []) (is := is' ++ [x]) (js := is') htl (by simp [Code.labels])
      simpa using this
    have htL : t ∈ L := (hi.ahead (l, is' ++ [x]) (by simp)).2 x (by simp) t (by simp [FInst.targets, ht])
    have hymem : ∃ B ∈ done ++ (l, is' ++ [x]) :: rest, B.2 = js' ++ [y] := by
      obtain ⟨A, B, e, -⟩ := Code.body_split hb'
      exact ⟨(t, js' ++ [y]), by rw [e]; simp, rfl⟩
    split
    · -- conditional branch
      rename_i u hu
      have hsucc := hi.succ t htL js' y u hb' hu
      split
      · exact hsame
      rename_i n hn
      have hfl : falls (js' ++ [y]) = true := by
        obtain ⟨B, hB, e⟩ := hymem
        have := hi.term.ends B hB
        rw [e] at this
        exact this.falls hu
      obtain ⟨A', n', ks, B', -, hafter, -, -⟩ := hi.term.next hi.ok.nodup hb' hfl
      have hn' : n' = n := by
        rw [hsucc] at hn
        simp only [Code.succs, hb', hafter] at hn
        rw [otherSucc_endSuccs hu] at hn
        simpa using hn
      subst hn'
      rcases ensureNext_cases J st.id n' rest with ⟨hD, ks', B'', hr⟩ | hD
      · simp only [hD, List.isEmpty_nil, if_true]
        refine dup_step hi ht htl hb' (.inl ⟨rfl, .inr ⟨u, n', hu, hafter, by rw [hr]; rfl⟩⟩) ⟨Nat.le_succ _, fun h => absurd rfl h⟩ ?_ ?_
        · intro k hk
          simp [hk]
        · intro u' hu'
          rw [hu] at hu'; cases hu'
          rw [hr]
          simp only [List.nil_append, List.head?_cons, Option.map_some, if_true]
          rw [show is' ++ (js' ++ [y]) = (is' ++ js') ++ [y] by simp]
          simp only [endSuccs, List.getLast?_concat, hu]
          by_cases h : n' = u
          · subst h; simp
          · rw [if_neg h, if_pos (fun e => h e.symm)]
      · simp only [hD, List.isEmpty_cons, Bool.false_eq_true, if_false]
        refine dup_step hi ht htl hb' (.inr ⟨n', _, rfl, hJ.goto n', ⟨u, hu⟩, hafter⟩) ⟨Nat.le_succ _, fun _ => Nat.lt_succ_self _⟩ ?_ ?_
        · intro k hk
          simp [hk]
        · intro u' hu'
          rw [hu] at hu'; cases hu'
          simp only [List.cons_append, List.nil_append, List.head?_cons, Option.map_some, if_true]
          rw [show is' ++ (js' ++ [y]) = (is' ++ js') ++ [y] by simp]
          simp only [endSuccs, List.getLast?_concat, hu]
          by_cases h : st.id = u
          · simp [h]
          · rw [if_neg h, if_pos (fun e => h e.symm)]
    · rename_i u hu
      refine dup_step hi ht htl hb' (.inl ⟨rfl, .inl (by simp [FInst.noFall, hu])⟩) ⟨Nat.le_refl _, fun h => absurd rfl h⟩ ?_ ?_
      · intro k hk
        simp [hk]
      · intro u' hu'
        rw [hu] at hu'; cases hu'
    · rename_i h1 h2
      have hnf : y.noFall = true := by
        obtain ⟨B, hB, e⟩ := hymem
        obtain ⟨js1, y1, e1, -, hc⟩ := hi.term.ends B hB
        rw [e] at e1
        obtain ⟨-, e2⟩ := List.append_inj' e1 rfl
        simp only [List.cons.injEq, and_true] at e2
        subst e2
        rcases hc with hc | ⟨t', ht'⟩
        · exact hc
        · exact absurd ht' (h1 t')
      refine dup_step hi ht htl hb' (.inl ⟨rfl, .inl hnf⟩) ⟨Nat.le_refl _, fun h => absurd rfl h⟩ ?_ ?_
      · intro k hk
        simp [hk]
      · intro u' hu'
        exact absurd hu' (h1 u')

theorem dupLoop_sound {L : List Nat} (hJ : J.Ok T I vis C) {want : Code → Nat → Nat → Bool} : ∀ (todo done : Code) (st : DupSt),
    DupInv T I vis C L st done todo → FSame T I vis (done ++ todo) (dupLoop J want st done todo).1 ∧
      CodeOk T I vis C (dupLoop J want st done todo).1 ∧ Terminated (dupLoop J want st done todo).1 := by
  intro todo
  induction todo with
  | nil =>
    intro done st hi
    have h1 := hi.ok
    have h2 := hi.term
    rw [List.append_nil] at h1 h2
    simp only [dupLoop, List.append_nil]
    exact ⟨.refl, h1, h2⟩
  | cons B rest ih =>
    intro done st hi
    obtain ⟨h1, h2⟩ := dupBlock_sound (want := want) hJ (l := B.1) (is := B.2) hi
    obtain ⟨h3, h4⟩ := ih _ _ h2
    exact ⟨h1.trans h3, h4⟩

theorem dupRound_sound (hJ : J.Ok T I vis C) {want : Code → Nat → Nat → Bool} (hf : CodeOk T I vis C f) (ht : Terminated f) :
    FSame T I vis f (dupRound J want f).1 ∧ CodeOk T I vis C (dupRound J want f).1 ∧ Terminated (dupRound J want f).1 := by
  refine dupLoop_sound (L := f.labels) hJ f [] _ ⟨hf, ht, fun t h => h, ?_, fun t h => Code.fresh_gt h, fun _ _ _ _ _ _ _ => rfl⟩
  intro B hB
  refine ⟨List.mem_map.mpr ⟨B, hB, rfl⟩, ?_⟩
  intro x hx t ht
  exact (hf.good x (List.mem_flatMap.mpr ⟨B, hB, hx⟩)).tgt t ht

/-- A pass on functions whose blocks end with their terminators. -/
def SoundT (T : Target) (I : Interp Val Mem) (vis : Nat → Bool) (C : Inst → Prop) (p : Code → Option Code) : Prop :=
  ∀ f g, CodeOk T I vis C f → Terminated f → p f = some g → FSame T I vis f g ∧ CodeOk T I vis C g ∧ Terminated g

theorem dupRounds_sound (hJ : J.Ok T I vis C) {want : Nat → Code → Nat → Nat → Bool} {simp : Code → Option Code}
    (hs : SoundT T I vis C simp) : ∀ k, SoundT T I vis C (dupRounds J want simp k) := by
  intro k
  induction k with
  | zero =>
    intro f g hf ht h
    cases h
    exact ⟨.refl, hf, ht⟩
  | succ k ih =>
    intro f g hf ht h
    obtain ⟨h1, h2, h3⟩ := dupRound_sound (want := want k) hJ hf ht
    simp only [dupRounds] at h
    split at h
    · cases h4 : simp (dupRound J (want k) f).1 with
      | none => rw [h4] at h; cases h
      | some g' =>
        rw [h4] at h
        obtain ⟨a, b, c⟩ := hs _ _ h2 h3 h4
        obtain ⟨a', b', c'⟩ := ih g' g b c h
        exact ⟨h1.trans (a.trans a'), b', c'⟩
    · cases h
      exact ⟨h1, h2, h3⟩

theorem tailDuplication_sound (hJ : J.Ok T I vis C) {want : Nat → Code → Nat → Nat → Bool} {simp : Code → Option Code}
    (hs : SoundT T I vis C simp) (iters : Nat) : SoundT T I vis C (tailDuplication J want simp iters) := by
  intro f g hf ht h
  simp only [tailDuplication] at h
  cases h4 : simp f with
  | none => rw [h4] at h; cases h
  | some g' =>
    rw [h4] at h
    obtain ⟨a, b, c⟩ := hs _ _ hf ht h4
    obtain ⟨a', b', c'⟩ := dupRounds_sound hJ hs iters g' g b c h
    exact ⟨a.trans a', b', c'⟩

end

end Cmmc.Mir
