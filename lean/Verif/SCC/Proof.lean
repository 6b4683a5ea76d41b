import Verif.SCC.Spec
/-! Invariants of Tarjan's algorithm. -/
namespace Cmmc.SCC

variable {g : Graph}

theorem upd_same {α} (f : Nat → α) (i : Nat) (v : α) : upd f i v i = v := by simp [upd]
theorem upd_ne {α} (f : Nat → α) {i j : Nat} (v : α) (h : j ≠ i) : upd f i v j = f j := by simp [upd, h]

/-- visited and already assigned to a component -/
def Done (s : S) (x : Nat) : Prop := s.dfn x ≠ 0 ∧ x ∉ s.st

structure Inv (g : Graph) (s : S) (gr : List Nat) : Prop where
  sorted : s.st.Pairwise (fun a b => s.dfn b < s.dfn a)
  flag_iff : ∀ x, s.flag x = true ↔ x ∈ s.st
  vis : ∀ x ∈ s.st, s.dfn x ≠ 0
  le_cnt : ∀ x, s.dfn x ≤ s.icnt
  lt_n : ∀ x, s.dfn x ≠ 0 → x < g.length
  gr_st : ∀ x ∈ gr, x ∈ s.st
  closedB : ∀ x, s.dfn x ≠ 0 → x ∉ gr → ∀ y, Edge g x y → s.dfn y ≠ 0
  closedD : ∀ x, Done s x → ∀ y, Edge g x y → Done s y
  down : ∀ x ∈ s.st, ∃ a ∈ gr, s.dfn a ≤ s.dfn x ∧ Reach g x a
  up : ∀ a ∈ gr, ∀ x ∈ s.st, s.dfn a ≤ s.dfn x → Reach g a x
  col_lt : ∀ x, Done s x → s.col x < s.ccnt
  col_iff : ∀ x y, Done s x → Done s y → (s.col x = s.col y ↔ Reach g x y ∧ Reach g y x)
  col_topo : ∀ x y, Done s x → Reach g x y → s.col y ≤ s.col x
  col_surj : ∀ c, c < s.ccnt → ∃ x, Done s x ∧ s.col x = c

theorem Done.reach {s : S} {gr : List Nat} (I : Inv g s gr) {x y : Nat} (h : Done s x) (r : Reach g x y) : Done s y := by
  induction r with
  | refl => exact h
  | tail _ e ih => exact I.closedD _ ih _ e

structure Post (g : Graph) (gr : List Nat) (s s' : S) (u : Nat) (seg : List Nat) : Prop where
  inv : Inv g s' gr
  mono : ∀ x, s.dfn x ≠ 0 → s'.dfn x = s.dfn x
  lowp : ∀ x, s.dfn x ≠ 0 → s'.low x = s.low x
  st_eq : s'.st = seg ++ s.st
  new : ∀ x ∈ seg, s.dfn x = 0
  gt : s.icnt < s'.dfn u
  popped : u ∉ seg → s'.low u = s'.dfn u
  L2 : u ∈ seg → ∃ w ∈ s.st, s.dfn w = s'.low u ∧ Reach g u w
  L3 : ∀ x ∈ seg, ∀ y ∈ s.st, Edge g x y → s'.low u ≤ s'.dfn y

structure LI (g : Graph) (gr : List Nat) (s0 s : S) (u : Nat) (seg dn : List Nat) : Prop where
  inv : Inv g s (u :: gr)
  mono : ∀ x, s0.dfn x ≠ 0 → s.dfn x = s0.dfn x
  lowp : ∀ x, s0.dfn x ≠ 0 → s.low x = s0.low x
  st_eq : s.st = seg ++ u :: s0.st
  new : ∀ x ∈ seg, s0.dfn x = 0
  dfnu : s.dfn u = s0.icnt + 1
  lowle : s.low u ≤ s.dfn u
  L2 : s.low u = s.dfn u ∨ ∃ w ∈ s0.st, s.dfn w = s.low u ∧ Reach g u w
  L3 : ∀ x ∈ seg, ∀ y ∈ s0.st, Edge g x y → s.low u ≤ s.dfn y
  dn_vis : ∀ v ∈ dn, s.dfn v ≠ 0
  dn_low : ∀ v ∈ dn, v ∈ s0.st → s.low u ≤ s.dfn v
  gr0 : ∀ a ∈ gr, s0.dfn a ≠ 0

theorem inv_congr_low {s : S} {gr : List Nat} {u x : Nat} (I : Inv g s gr) : Inv g (lower u x s) gr :=
  ⟨I.sorted, I.flag_iff, I.vis, I.le_cnt, I.lt_n, I.gr_st, I.closedB, I.closedD, I.down, I.up, I.col_lt, I.col_iff,
   I.col_topo, I.col_surj⟩

theorem reach_edge {x y : Nat} (h : Edge g x y) : Reach g x y := Relation.ReflTransGen.single h
theorem reach_refl (x : Nat) : Reach g x x := Relation.ReflTransGen.refl
theorem Reach.tr {x y z : Nat} (h : Reach g x y) (h' : Reach g y z) : Reach g x z := Relation.ReflTransGen.trans h h'

/-- entering `u` establishes the loop invariant -/
theorem enter_LI {gr : List Nat} {s : S} {u : Nat} (I : Inv g s gr) (hu : s.dfn u = 0) (hn : u < g.length)
    (hg : ∀ a ∈ gr, Reach g a u) : LI g gr s (enter u s) u [] [] := by
  have hust : u ∉ s.st := fun h => I.vis u h hu
  have hugr : u ∉ gr := fun h => hust (I.gr_st u h)
  have hd : ∀ x, x ≠ u → (enter u s).dfn x = s.dfn x := fun x h => upd_ne _ _ h
  have hdu : (enter u s).dfn u = s.icnt + 1 := upd_same _ _ _
  have hst : (enter u s).st = u :: s.st := rfl
  have hne : ∀ x ∈ s.st, x ≠ u := fun x hx h => hust (h ▸ hx)
  have hdone : ∀ x, Done (enter u s) x ↔ Done s x := by
    intro x
    unfold Done
    by_cases hx : x = u
    · subst hx; simp [hst, hu]
    · rw [hd x hx, hst]; simp [hx]
  refine ⟨⟨?_, ?_, ?_, ?_, ?_, ?_, ?_, ?_, ?_, ?_, ?_, ?_, ?_, ?_⟩, ?_, ?_, rfl, by simp, hdu, ?_, Or.inl ?_, by simp, by simp, by simp, fun a ha => I.vis a (I.gr_st a ha)⟩
  · rw [hst, List.pairwise_cons]
    refine ⟨?_, ?_⟩
    · intro b hb
      rw [hdu, hd b (hne b hb)]
      have := I.le_cnt b; omega
    · refine I.sorted.imp_of_mem ?_
      intro a b ha hb h
      rw [hd a (hne a ha), hd b (hne b hb)]; exact h
  · intro x
    show upd s.flag u true x = true ↔ _
    by_cases hx : x = u
    · subst hx; simp [upd_same, hst]
    · rw [upd_ne _ _ hx, I.flag_iff, hst]; simp [hx]
  · intro x hx
    by_cases h : x = u
    · subst h; rw [hdu]; omega
    · rw [hd x h]; apply I.vis; rw [hst] at hx; simpa [h] using hx
  · intro x
    show _ ≤ s.icnt + 1
    by_cases h : x = u
    · subst h; rw [hdu]; exact Nat.le_refl _
    · rw [hd x h]; have := I.le_cnt x; omega
  · intro x hx
    by_cases h : x = u
    · subst h; exact hn
    · rw [hd x h] at hx; exact I.lt_n x hx
  · intro x hx
    rw [hst]
    rcases List.mem_cons.mp hx with rfl | hx
    · simp
    · simp [I.gr_st x hx]
  · intro x hx hxg y hxy
    simp only [List.mem_cons, not_or] at hxg
    rw [hd x hxg.1] at hx
    have := I.closedB x hx hxg.2 y hxy
    by_cases hy : y = u
    · subst hy; rw [hdu]; omega
    · rw [hd y hy]; exact this
  · intro x hx y hxy
    rw [hdone] at hx ⊢
    exact I.closedD x hx y hxy
  · intro x hx
    by_cases h : x = u
    · subst h; exact ⟨x, by simp, Nat.le_refl _, reach_refl _⟩
    · rw [hst] at hx
      obtain ⟨a, ha, h1, h2⟩ := I.down x (by simpa [h] using hx)
      refine ⟨a, by simp [ha], ?_, h2⟩
      rw [hd x h, hd a (hne a (I.gr_st a ha))]; exact h1
  · intro a ha x hx hle
    rw [hst] at hx
    rcases List.mem_cons.mp ha with hau | ha
    · rw [hau] at hle ⊢
      rcases List.mem_cons.mp hx with hxu | hx
      · rw [hxu]; exact reach_refl _
      · rw [hdu, hd x (hne x hx)] at hle
        have := I.le_cnt x; omega
    · rcases List.mem_cons.mp hx with hxu | hx
      · rw [hxu]; exact hg a ha
      · rw [hd a (hne a (I.gr_st a ha)), hd x (hne x hx)] at hle
        exact I.up a ha x hx hle
  · intro x hx; exact I.col_lt x ((hdone x).mp hx)
  · intro x y hx hy; exact I.col_iff x y ((hdone x).mp hx) ((hdone y).mp hy)
  · intro x y hx; exact I.col_topo x y ((hdone x).mp hx)
  · intro c hc
    obtain ⟨x, hx, e⟩ := I.col_surj c hc
    exact ⟨x, (hdone x).mpr hx, e⟩
  · intro x hx; exact hd x (fun h => hx (h ▸ hu))
  · intro x hx; exact upd_ne _ _ (fun h => hx (h ▸ hu))
  · show upd s.low u _ u ≤ upd s.dfn u _ u
    rw [upd_same, upd_same]; exact Nat.le_refl _
  · show upd s.low u _ u = upd s.dfn u _ u
    rw [upd_same, upd_same]

/-- position on the stack relative to `u` -/
theorem LI.st_cases {gr : List Nat} {s0 s : S} {u : Nat} {seg dn : List Nat} (L : LI g gr s0 s u seg dn) {x : Nat}
    (hx : x ∈ s.st) : (x ∈ seg ∧ s.dfn u < s.dfn x) ∨ x = u ∨ (x ∈ s0.st ∧ s.dfn x < s.dfn u) := by
  have hs := L.inv.sorted
  rw [L.st_eq] at hx hs
  rw [List.pairwise_append] at hs
  obtain ⟨_, h2, h3⟩ := hs
  rw [List.pairwise_cons] at h2
  rcases List.mem_append.mp hx with h | h
  · exact Or.inl ⟨h, h3 x h u (by simp)⟩
  · rcases List.mem_cons.mp h with h | h
    · exact Or.inr (Or.inl h)
    · exact Or.inr (Or.inr ⟨h, h2.1 x h⟩)

theorem LI.mem_st {gr : List Nat} {s0 s : S} {u : Nat} {seg dn : List Nat} (L : LI g gr s0 s u seg dn) {x : Nat}
    (hx : x ∈ s0.st) : x ∈ s.st := by rw [L.st_eq]; simp [hx]

/-- number of unvisited nodes -/
def whites (g : Graph) (s : S) : Nat := ((List.range g.length).filter (fun x => decide (s.dfn x = 0))).length

theorem whites_mono {s s' : S} (h : ∀ x, s.dfn x ≠ 0 → s'.dfn x = s.dfn x) : whites g s' ≤ whites g s := by
  unfold whites
  rw [← List.countP_eq_length_filter, ← List.countP_eq_length_filter]
  apply List.countP_mono_left
  intro x _ hx
  simp only [decide_eq_true_eq] at hx ⊢
  rcases Nat.eq_zero_or_pos (s.dfn x) with h' | h'
  · exact h'
  · exact absurd hx (by rw [h x (by omega)]; omega)

theorem whites_enter {s : S} {u : Nat} (hu : s.dfn u = 0) (hn : u < g.length) : whites g (enter u s) + 1 ≤ whites g s := by
  unfold whites
  have key : ∀ l : List Nat, l.Nodup → u ∈ l →
      (l.filter (fun x => decide ((enter u s).dfn x = 0))).length + 1 ≤ (l.filter (fun x => decide (s.dfn x = 0))).length := by
    intro l
    induction l with
    | nil => intro _ h; simp at h
    | cons a l ih =>
      intro hnd hm
      rw [List.nodup_cons] at hnd
      have hdu : (enter u s).dfn u = s.icnt + 1 := upd_same _ _ _
      by_cases ha : a = u
      · subst ha
        rw [List.filter_cons_of_neg (by rw [hdu]; simp), List.filter_cons_of_pos (by simp [hu])]
        have : l.filter (fun x => decide ((enter a s).dfn x = 0)) = l.filter (fun x => decide (s.dfn x = 0)) := by
          apply List.filter_congr
          intro x hx
          have : x ≠ a := fun h => hnd.1 (h ▸ hx)
          rw [show (enter a s).dfn x = s.dfn x from upd_ne _ _ this]
        rw [this]; simp
      · have hm' : u ∈ l := by simpa [Ne.symm ha] using hm
        have := ih hnd.2 hm'
        have e : (enter u s).dfn a = s.dfn a := upd_ne _ _ ha
        rw [List.filter_cons, List.filter_cons, e]
        split
        · simp only [List.length_cons]; omega
        · exact this
  exact key _ List.nodup_range (List.mem_range.mpr hn)

/-- the invariant of the edge loop is preserved by lowering and by recursive calls -/
theorem edges_spec (rec : Nat → S → Option S) (gr : List Nat) (u : Nat) (s0 : S) (F : Nat)
    (hu0 : s0.dfn u = 0)
    (hrec : ∀ s v, Inv g s (u :: gr) → s.dfn v = 0 → v < g.length → (∀ a ∈ u :: gr, Reach g a v) → whites g s ≤ F →
      ∃ s' seg, rec v s = some s' ∧ Post g (u :: gr) s s' v seg)
    (hvalid : Valid g) :
    ∀ (vs : List Nat) (dn seg : List Nat) (s : S), (∀ v ∈ vs, Edge g u v) → LI g gr s0 s u seg dn → whites g s ≤ F →
      ∃ s' seg', edges rec u vs s = some s' ∧ LI g gr s0 s' u seg' (vs.reverse ++ dn) := by
  intro vs
  induction vs with
  | nil => intro dn seg s _ L _; exact ⟨s, seg, rfl, by simpa using L⟩
  | cons v vs ih =>
    intro dn seg s hv L hw
    have euv : Edge g u v := hv v (by simp)
    have hv' : ∀ w ∈ vs, Edge g u w := fun w hw => hv w (by simp [hw])
    have eq_list : (v :: vs).reverse ++ dn = vs.reverse ++ (v :: dn) := by simp
    rw [eq_list]
    unfold edges
    have hudfn : s.dfn u ≠ 0 := by rw [L.dfnu]; omega
    by_cases hd : s.dfn v ≠ 0
    · rw [if_pos hd]
      by_cases hf : s.flag v = true
      · rw [if_pos hf]
        have hvst := (L.inv.flag_iff v).mp hf
        refine ih _ seg _ hv' ?_ hw
        have hlow : (lower u (s.dfn v) s).low u = min (s.low u) (s.dfn v) := upd_same _ _ _
        refine ⟨inv_congr_low L.inv, L.mono, ?_, L.st_eq, L.new, L.dfnu, ?_, ?_, ?_, ?_, ?_, L.gr0⟩
        · intro x hx
          rw [← L.lowp x hx]
          exact upd_ne _ _ (fun h => hx (h ▸ hu0))
        · rw [hlow]; have := L.lowle; show _ ≤ s.dfn u; omega
        · rw [hlow]
          rcases Nat.lt_or_ge (s.dfn v) (s.low u) with h | h
          · right
            have := L.lowle
            rcases L.st_cases hvst with h1 | h1 | h1
            · omega
            · subst h1; omega
            · refine ⟨v, h1.1, ?_, reach_edge euv⟩
              show s.dfn v = _; omega
          · rw [Nat.min_eq_left h]; exact L.L2
        · intro x hx y hy e
          rw [hlow]; have := L.L3 x hx y hy e; show _ ≤ s.dfn y; omega
        · intro w hw
          rcases List.mem_cons.mp hw with rfl | hw
          · exact hd
          · exact L.dn_vis w hw
        · intro w hw hw'
          rw [hlow]
          show _ ≤ s.dfn w
          rcases List.mem_cons.mp hw with rfl | hw
          · omega
          · have := L.dn_low w hw hw'; omega
      · rw [if_neg hf]
        have hvst : v ∉ s.st := fun h => hf ((L.inv.flag_iff v).mpr h)
        refine ih _ seg _ hv' ?_ hw
        refine ⟨L.inv, L.mono, L.lowp, L.st_eq, L.new, L.dfnu, L.lowle, L.L2, L.L3, ?_, ?_, L.gr0⟩
        · intro w hw
          rcases List.mem_cons.mp hw with rfl | hw
          · exact hd
          · exact L.dn_vis w hw
        · intro w hw hw'
          rcases List.mem_cons.mp hw with rfl | hw
          · exact absurd (L.mem_st hw') hvst
          · exact L.dn_low w hw hw'
    · rw [if_neg hd]
      have hv0 : s.dfn v = 0 := by omega
      have hust : u ∈ s.st := by rw [L.st_eq]; simp
      obtain ⟨s', seg', er, P⟩ := hrec s v L.inv hv0 (hvalid u v euv) (by
        intro a ha
        refine Reach.tr ?_ (reach_edge euv)
        apply L.inv.up a ha u hust
        have := L.inv.gr_st a ha
        rcases List.mem_cons.mp ha with rfl | ha'
        · exact Nat.le_refl _
        · rcases L.st_cases this with h | h | h
          · exfalso
            exact L.gr0 a ha' (L.new a h.1)
          · subst h; exact Nat.le_refl _
          · exact Nat.le_of_lt h.2) hw
      rw [er]
      have hlow : (lower u (s'.low v) s').low u = min (s'.low u) (s'.low v) := upd_same _ _ _
      have hlu : s'.low u = s.low u := P.lowp u hudfn
      have hdu' : s'.dfn u = s.dfn u := P.mono u hudfn
      have hstd : ∀ x ∈ s0.st, s'.dfn x = s.dfn x := fun x hx => P.mono x (L.inv.vis x (L.mem_st hx))
      have hs0 : ∀ x, s0.dfn x ≠ 0 → s.dfn x ≠ 0 := fun x hx => by rw [L.mono x hx]; exact hx
      have hle := L.lowle
      refine ih (v :: dn) (seg' ++ seg) _ hv' ?_ (Nat.le_trans (whites_mono P.mono) hw)
      refine ⟨inv_congr_low P.inv, ?_, ?_, ?_, ?_, ?_, ?_, ?_, ?_, ?_, ?_, L.gr0⟩
      · intro x hx
        show s'.dfn x = _
        rw [P.mono x (hs0 x hx), L.mono x hx]
      · intro x hx
        rw [show (lower u (s'.low v) s').low x = s'.low x from upd_ne _ _ (fun h => hx (h ▸ hu0)),
          P.lowp x (hs0 x hx), L.lowp x hx]
      · show s'.st = _
        rw [P.st_eq, L.st_eq, List.append_assoc]
      · intro x hx
        rcases List.mem_append.mp hx with h | h
        · exact Decidable.byContradiction (fun hc => hs0 x hc (P.new x h))
        · exact L.new x h
      · show s'.dfn u = _
        rw [hdu', L.dfnu]
      · show _ ≤ s'.dfn u
        rw [hlow, hlu, hdu']; omega
      · show _ = s'.dfn u ∨ ∃ w ∈ s0.st, s'.dfn w = _ ∧ _
        rw [hlow, hlu, hdu']
        rcases Nat.lt_or_ge (s'.low v) (s.low u) with h | h
        · right
          by_cases hvs : v ∈ seg'
          · obtain ⟨w, hw1, hw2, hw3⟩ := P.L2 hvs
            rcases L.st_cases hw1 with h1 | h1 | h1
            · omega
            · subst h1; omega
            · exact ⟨w, h1.1, by rw [hstd w h1.1]; omega, Reach.tr (reach_edge euv) hw3⟩
          · exfalso
            have := P.popped hvs
            have := P.gt
            have := L.inv.le_cnt u
            omega
        · rw [Nat.min_eq_left h]
          rcases L.L2 with h | ⟨w, h1, h2, h3⟩
          · exact Or.inl h
          · exact Or.inr ⟨w, h1, by rw [hstd w h1]; exact h2, h3⟩
      · intro x hx y hy e
        show _ ≤ s'.dfn y
        rw [hlow, hlu]
        rcases List.mem_append.mp hx with h | h
        · have := P.L3 x h y (L.mem_st hy) e
          omega
        · have := L.L3 x h y hy e
          rw [hstd y hy]; omega
      · intro w hw
        show s'.dfn w ≠ 0
        rcases List.mem_cons.mp hw with rfl | hw
        · have := P.gt; omega
        · have := L.dn_vis w hw
          rw [P.mono w this]; exact this
      · intro w hw hw'
        show _ ≤ s'.dfn w
        rw [hlow, hlu, hstd w hw']
        rcases List.mem_cons.mp hw with rfl | hw
        · exact absurd hv0 (L.inv.vis _ (L.mem_st hw'))
        · have := L.dn_low w hw hw'; omega

/-- what the pop loop does to a stack `seg ++ u :: rest` -/
theorem popTo_spec (u c : Nat) : ∀ (seg rest : List Nat) (s : S), u ∉ seg →
    ∃ s', popTo u c (seg ++ u :: rest) s = some s' ∧ s'.dfn = s.dfn ∧ s'.low = s.low ∧ s'.st = rest ∧ s'.ccnt = s.ccnt ∧
      s'.icnt = s.icnt ∧ (∀ x, (x ∈ seg ∨ x = u) → s'.flag x = false ∧ s'.col x = c) ∧
      (∀ x, x ∉ seg → x ≠ u → s'.flag x = s.flag x ∧ s'.col x = s.col x) := by
  intro seg
  induction seg with
  | nil =>
    intro rest s _
    refine ⟨{ s with flag := upd s.flag u false, col := upd s.col u c, st := rest }, by simp [popTo], rfl, rfl, rfl, rfl, rfl, ?_, ?_⟩
    · rintro x (h | rfl)
      · simp at h
      · exact ⟨upd_same _ _ _, upd_same _ _ _⟩
    · intro x _ hx; exact ⟨upd_ne _ _ hx, upd_ne _ _ hx⟩
  | cons v seg ih =>
    intro rest s hu
    simp only [List.mem_cons, not_or] at hu
    obtain ⟨s', e, h1, h2, h3, h4, h5, h6, h7⟩ := ih rest { s with flag := upd s.flag v false, col := upd s.col v c, st := seg ++ u :: rest } hu.2
    refine ⟨s', ?_, h1, h2, h3, h4, h5, ?_, ?_⟩
    · show popTo u c (v :: (seg ++ u :: rest)) s = _
      unfold popTo
      rw [if_neg hu.1]; exact e
    · intro x hx
      by_cases hx' : x ∈ seg ∨ x = u
      · exact h6 x hx'
      · simp only [not_or] at hx'
        have hxv : x = v := by
          rcases hx with h | h
          · rcases List.mem_cons.mp h with h | h
            · exact h
            · exact absurd h hx'.1
          · exact absurd h hx'.2
        obtain ⟨a, b⟩ := h7 x hx'.1 hx'.2
        subst hxv
        exact ⟨a.trans (upd_same _ _ _), b.trans (upd_same _ _ _)⟩
    · intro x hx hxu
      simp only [List.mem_cons, not_or] at hx
      obtain ⟨a, b⟩ := h7 x hx.2 hxu
      exact ⟨a.trans (upd_ne _ _ hx.1), b.trans (upd_ne _ _ hx.1)⟩

theorem finish_spec {gr : List Nat} {s0 s : S} {u : Nat} {seg dn : List Nat} (I0 : Inv g s0 gr) (hu0 : s0.dfn u = 0)
    (L : LI g gr s0 s u seg dn) (hall : ∀ v, Edge g u v → v ∈ dn) :
    ∃ s' seg', finish u s = some s' ∧ Post g gr s0 s' u seg' := by
  have hust : u ∈ s.st := by rw [L.st_eq]; simp
  have hu0st : u ∉ s0.st := fun h => I0.vis u h hu0
  have hseg_u : ∀ x ∈ seg, s.dfn u < s.dfn x := by
    have hs := L.inv.sorted
    rw [L.st_eq, List.pairwise_append] at hs
    exact fun x hx => hs.2.2 x hx u (by simp)
  have huseg : u ∉ seg := fun h => by have := hseg_u u h; omega
  have hgr : ∀ a ∈ gr, a ∈ s0.st := I0.gr_st
  have hs0lt : ∀ x ∈ s0.st, s.dfn x < s.dfn u := by
    have hs := L.inv.sorted
    rw [L.st_eq, List.pairwise_append, List.pairwise_cons] at hs
    exact fun x hx => hs.2.1.1 x hx
  -- every successor of the part of the stack from `u` upwards is visited
  have hvis : ∀ x, (x ∈ seg ∨ x = u) → ∀ y, Edge g x y → s.dfn y ≠ 0 := by
    rintro x (hx | rfl) y e
    · apply L.inv.closedB x _ _ y e
      · apply L.inv.vis; rw [L.st_eq]; simp [hx]
      · intro h
        rcases List.mem_cons.mp h with rfl | h
        · exact huseg hx
        · exact L.gr0 x h (L.new x hx)
    · exact L.dn_vis y (hall y e)
  have hlow : ∀ x, (x ∈ seg ∨ x = u) → ∀ y ∈ s0.st, Edge g x y → s.low u ≤ s.dfn y := by
    rintro x (hx | rfl) y hy e
    · exact L.L3 x hx y hy e
    · exact L.dn_low y (hall y e) hy
  unfold finish
  by_cases hroot : s.dfn u = s.low u
  · rw [if_pos hroot]
    obtain ⟨s', e, h1, h2, h3, h4, h5, h6, h7⟩ := popTo_spec u s.ccnt seg s0.st { s with ccnt := s.ccnt + 1 } huseg
    refine ⟨s', [], by rw [← e, L.st_eq], ?_⟩
    have h1 : s'.dfn = s.dfn := h1
    have h2 : s'.low = s.low := h2
    have h4 : s'.ccnt = s.ccnt + 1 := h4
    have h5 : s'.icnt = s.icnt := h5
    have h7 : ∀ x, x ∉ seg → x ≠ u → s'.flag x = s.flag x ∧ s'.col x = s.col x := h7
    -- the popped set is closed up to already finished nodes
    have hclosed : ∀ x, (x ∈ seg ∨ x = u) → ∀ y, Edge g x y → (y ∈ seg ∨ y = u) ∨ Done s y := by
      intro x hx y exy
      by_cases hy : y ∈ s.st
      · rcases L.st_cases hy with h | h | h
        · exact Or.inl (Or.inl h.1)
        · exact Or.inl (Or.inr h)
        · exfalso
          have := hlow x hx y h.1 exy
          omega
      · exact Or.inr ⟨hvis x hx y exy, hy⟩
    have hreach : ∀ x, (x ∈ seg ∨ x = u) → ∀ y, Reach g x y → (y ∈ seg ∨ y = u) ∨ Done s y := by
      intro x hx y r
      induction r with
      | refl => exact Or.inl hx
      | tail _ e ih =>
        rcases ih with h | h
        · exact hclosed _ h _ e
        · exact Or.inr (L.inv.closedD _ h _ e)
    have hP_st : ∀ x, (x ∈ seg ∨ x = u) → x ∈ s.st := by
      rintro x (h | rfl)
      · rw [L.st_eq]; simp [h]
      · exact hust
    have hPnd : ∀ x, (x ∈ seg ∨ x = u) → ¬ Done s x := fun x hx hd => hd.2 (hP_st x hx)
    have hP0 : ∀ x, (x ∈ seg ∨ x = u) → x ∉ s0.st := by
      rintro x (h | rfl) h'
      · exact I0.vis x h' (L.new x h)
      · exact hu0st h'
    have hdone : ∀ x, Done s' x ↔ (Done s x ∨ x ∈ seg ∨ x = u) := by
      intro x
      unfold Done
      rw [h1, h3]
      constructor
      · rintro ⟨a, b⟩
        by_cases hx : x ∈ s.st
        · right
          rw [L.st_eq] at hx
          simp only [List.mem_append, List.mem_cons] at hx
          rcases hx with hx | hx | hx
          · exact Or.inl hx
          · exact Or.inr hx
          · exact absurd hx b
        · exact Or.inl ⟨a, hx⟩
      · rintro (⟨a, b⟩ | h)
        · exact ⟨a, fun hx => b (L.mem_st hx)⟩
        · exact ⟨L.inv.vis x (hP_st x h), hP0 x h⟩
    have hcolP : ∀ x, (x ∈ seg ∨ x = u) → s'.col x = s.ccnt := fun x hx => (h6 x hx).2
    have hcolD : ∀ x, Done s x → s'.col x = s.col x := by
      intro x hx
      exact (h7 x (fun h => hPnd x (Or.inl h) hx) (fun h => hPnd x (Or.inr h) hx)).2
    -- the popped nodes are mutually reachable
    have hto : ∀ x, (x ∈ seg ∨ x = u) → Reach g u x := by
      intro x hx
      apply L.inv.up u (by simp) x (hP_st x hx)
      rcases hx with h | rfl
      · exact Nat.le_of_lt (hseg_u x h)
      · exact Nat.le_refl _
    have hfrom : ∀ x, (x ∈ seg ∨ x = u) → Reach g x u := by
      intro x hx
      obtain ⟨a, ha, _, r⟩ := L.inv.down x (hP_st x hx)
      rcases List.mem_cons.mp ha with rfl | ha
      · exact r
      · exfalso
        rcases hreach x hx a r with h | h
        · exact hP0 a h (hgr a ha)
        · exact h.2 (L.mem_st (hgr a ha))
    refine ⟨⟨?_, ?_, ?_, ?_, ?_, ?_, ?_, ?_, ?_, ?_, ?_, ?_, ?_, ?_⟩, ?_, ?_, ?_, ?_, ?_, ?_, ?_, ?_⟩
    · rw [h1, h3]
      have hs := L.inv.sorted
      rw [L.st_eq, List.pairwise_append, List.pairwise_cons] at hs
      exact hs.2.1.2
    · intro x
      rw [h3]
      by_cases hx : x ∈ seg ∨ x = u
      · rw [(h6 x hx).1]
        simp [hP0 x hx]
      · have hx' := hx
        simp only [not_or] at hx
        rw [(h7 x hx.1 hx.2).1, L.inv.flag_iff, L.st_eq]
        simp [hx.1, hx.2]
    · intro x hx
      rw [h3] at hx; rw [h1]; exact L.inv.vis x (L.mem_st hx)
    · intro x; rw [h1, h5]; exact L.inv.le_cnt x
    · intro x hx; rw [h1] at hx; exact L.inv.lt_n x hx
    · intro x hx; rw [h3]; exact hgr x hx
    · intro x hx hxg y exy
      rw [h1] at hx ⊢
      by_cases hxu : x = u
      · exact hvis x (Or.inr hxu) y exy
      · exact L.inv.closedB x hx (by simp [hxu, hxg]) y exy
    · intro x hx y exy
      rw [hdone] at hx ⊢
      rcases hx with hx | hx
      · exact Or.inl (L.inv.closedD x hx y exy)
      · rcases hclosed x hx y exy with h | h
        · exact Or.inr h
        · exact Or.inl h
    · intro x hx
      rw [h3] at hx
      obtain ⟨a, ha, h8, h9⟩ := L.inv.down x (L.mem_st hx)
      rcases List.mem_cons.mp ha with rfl | ha
      · have := hs0lt x hx; omega
      · exact ⟨a, ha, by rw [h1]; exact h8, h9⟩
    · intro a ha x hx hle
      rw [h3] at hx; rw [h1] at hle
      exact L.inv.up a (by simp [ha]) x (L.mem_st hx) hle
    · intro x hx
      rw [h4]
      rcases (hdone x).mp hx with h | h
      · rw [hcolD x h]; have := L.inv.col_lt x h; omega
      · rw [hcolP x h]; omega
    · intro x y hx hy
      rcases (hdone x).mp hx with hx | hx <;> rcases (hdone y).mp hy with hy | hy
      · rw [hcolD x hx, hcolD y hy]; exact L.inv.col_iff x y hx hy
      · rw [hcolD x hx, hcolP y hy]
        have := L.inv.col_lt x hx
        constructor
        · intro h; omega
        · rintro ⟨r, _⟩; exact absurd (hx.reach L.inv r) (hPnd y hy)
      · rw [hcolD y hy, hcolP x hx]
        have := L.inv.col_lt y hy
        constructor
        · intro h; omega
        · rintro ⟨_, r⟩; exact absurd (hy.reach L.inv r) (hPnd x hx)
      · rw [hcolP x hx, hcolP y hy]
        simp only [true_iff]
        exact ⟨(hfrom x hx).tr (hto y hy), (hfrom y hy).tr (hto x hx)⟩
    · intro x y hx r
      rcases (hdone x).mp hx with hx | hx
      · have hy := hx.reach L.inv r
        rw [hcolD x hx, hcolD y hy]; exact L.inv.col_topo x y hx r
      · rw [hcolP x hx]
        rcases hreach x hx y r with h | h
        · rw [hcolP y h]; exact Nat.le_refl _
        · rw [hcolD y h]; have := L.inv.col_lt y h; omega
    · intro c hc
      rw [h4] at hc
      rcases Nat.lt_or_ge c s.ccnt with h | h
      · obtain ⟨x, hx, e⟩ := L.inv.col_surj c h
        exact ⟨x, (hdone x).mpr (Or.inl hx), by rw [hcolD x hx]; exact e⟩
      · exact ⟨u, (hdone u).mpr (Or.inr (Or.inr rfl)), by rw [hcolP u (Or.inr rfl)]; omega⟩
    · intro x hx; rw [h1]; exact L.mono x hx
    · intro x hx; rw [h2]; exact L.lowp x hx
    · rw [h3]; rfl
    · simp
    · rw [h1, L.dfnu]; omega
    · intro _; rw [h1, h2]; exact hroot.symm
    · simp
    · simp
  · rw [if_neg hroot]
    refine ⟨s, seg ++ [u], rfl, ?_⟩
    have hlt : s.low u < s.dfn u := by have := L.lowle; omega
    have hw := L.L2.resolve_left (fun h => hroot h.symm)
    have I := L.inv
    refine ⟨⟨I.sorted, I.flag_iff, I.vis, I.le_cnt, I.lt_n, fun x hx => L.mem_st (hgr x hx), ?_, I.closedD, ?_, ?_,
      I.col_lt, I.col_iff, I.col_topo, I.col_surj⟩, L.mono, L.lowp, ?_, ?_, ?_, ?_, ?_, ?_⟩
    · intro x hx hxg y exy
      by_cases hxu : x = u
      · exact hvis x (Or.inr hxu) y exy
      · exact I.closedB x hx (by simp [hxu, hxg]) y exy
    · intro x hx
      obtain ⟨a, ha, h8, h9⟩ := I.down x hx
      rcases List.mem_cons.mp ha with rfl | ha
      · obtain ⟨w, hw1, hw2, hw3⟩ := hw
        obtain ⟨b, hb, h10, h11⟩ := I.down w (L.mem_st hw1)
        rcases List.mem_cons.mp hb with rfl | hb
        · omega
        · exact ⟨b, hb, by omega, (h9.tr hw3).tr h11⟩
      · exact ⟨a, ha, h8, h9⟩
    · intro a ha; exact I.up a (by simp [ha])
    · rw [L.st_eq]; simp
    · intro x hx
      rcases List.mem_append.mp hx with h | h
      · exact L.new x h
      · simp only [List.mem_singleton] at h; rw [h]; exact hu0
    · rw [L.dfnu]; omega
    · intro h; simp at h
    · intro _
      obtain ⟨w, hw1, hw2, hw3⟩ := hw
      exact ⟨w, hw1, by rw [← L.mono w (I0.vis w hw1)]; exact hw2, hw3⟩
    · intro x hx y hy e
      apply hlow x _ y hy e
      simpa using hx

theorem dfs_spec (hvalid : Valid g) : ∀ (f : Nat) (gr : List Nat) (s : S) (u : Nat), Inv g s gr → s.dfn u = 0 → u < g.length →
    (∀ a ∈ gr, Reach g a u) → whites g s ≤ f → ∃ s' seg, dfs g f u s = some s' ∧ Post g gr s s' u seg := by
  intro f
  induction f with
  | zero =>
    intro gr s u _ hu hn _ hw
    have := whites_enter (g := g) hu hn
    omega
  | succ f ih =>
    intro gr s u I hu hn hg hw
    have L := enter_LI I hu hn hg
    have hw' := whites_enter (g := g) hu hn
    obtain ⟨s1, seg, e1, L1⟩ := edges_spec (dfs g f) gr u s f hu
      (fun s v I' h1 h2 h3 h4 => ih (u :: gr) s v I' h1 h2 h3 h4) hvalid (succ g u) [] [] (enter u s) (fun v hv => hv) L (by omega)
    obtain ⟨s2, seg2, e2, P⟩ := finish_spec I hu L1 (fun v hv => by have hv : v ∈ succ g u := hv; simpa using hv)
    refine ⟨s2, seg2, ?_, P⟩
    unfold dfs
    rw [e1]; exact e2

theorem whites_le (s : S) : whites g s ≤ g.length := by
  unfold whites
  exact Nat.le_trans (List.length_filter_le _ _) (by simp)

theorem init_inv : Inv g init [] := by
  refine ⟨by simp [init], by simp [init], by simp [init], by simp [init], by simp [init], by simp, by simp [init], ?_, by simp [init],
    by simp, ?_, ?_, ?_, by simp [init]⟩ <;> intro x <;> simp [Done, init]

theorem roots_spec (hvalid : Valid g) : ∀ (l : List Nat) (s : S), (∀ x ∈ l, x < g.length) → Inv g s [] →
    ∃ s', roots g l s = some s' ∧ Inv g s' [] ∧ (∀ x, s.dfn x ≠ 0 → s'.dfn x ≠ 0) ∧ ∀ x ∈ l, s'.dfn x ≠ 0 := by
  intro l
  induction l with
  | nil => intro s _ I; exact ⟨s, rfl, I, fun _ h => h, by simp⟩
  | cons i is ih =>
    intro s hl I
    unfold roots
    by_cases hi : s.dfn i = 0
    · rw [if_pos hi]
      obtain ⟨s1, seg, e, P⟩ := dfs_spec hvalid g.length [] s i I hi (hl i (by simp)) (by simp) (whites_le s)
      rw [e]
      obtain ⟨s2, e2, I2, h1, h2⟩ := ih s1 (fun x hx => hl x (by simp [hx])) P.inv
      refine ⟨s2, e2, I2, fun x hx => h1 x (by rw [P.mono x hx]; exact hx), ?_⟩
      intro x hx
      rcases List.mem_cons.mp hx with rfl | hx
      · apply h1; have := P.gt; omega
      · exact h2 x hx
    · rw [if_neg hi]
      obtain ⟨s2, e2, I2, h1, h2⟩ := ih s (fun x hx => hl x (by simp [hx])) I
      refine ⟨s2, e2, I2, h1, ?_⟩
      intro x hx
      rcases List.mem_cons.mp hx with rfl | hx
      · exact h1 _ hi
      · exact h2 x hx

end Cmmc.SCC
