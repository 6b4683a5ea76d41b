import Verif.Range.Ops2
/-! Signed division of ranges. -/
set_option linter.unusedSimpArgs false
namespace Cmmc.Range

theorem tdiv_anti {q c y : Int} (hq : 0 ≤ q) (hc : 0 < c) (hcy : c ≤ y) : q.tdiv y ≤ q.tdiv c := by
  rw [Int.tdiv_eq_ediv_of_nonneg hq, Int.tdiv_eq_ediv_of_nonneg hq]
  rw [Int.le_ediv_iff_mul_le hc]
  have h0 : 0 ≤ q / y := Int.ediv_nonneg hq (by omega)
  have h3 : (q / y) * c ≤ (q / y) * y := Int.mul_le_mul_of_nonneg_left hcy h0
  have h4 := Int.ediv_mul_le q (show y ≠ 0 by omega)
  omega

/-- `p.tdiv ·` on positive divisors is between its values at the ends -/
theorem tdiv_pos_between {p c y d : Int} (hc : 0 < c) (h1 : c ≤ y) (h2 : y ≤ d) :
    min (p.tdiv c) (p.tdiv d) ≤ p.tdiv y ∧ p.tdiv y ≤ max (p.tdiv c) (p.tdiv d) := by
  rcases Int.le_total 0 p with hp | hp
  · have := tdiv_anti hp hc h1
    have := tdiv_anti hp (by omega : 0 < y) h2
    omega
  · have a := tdiv_anti (q := -p) (by omega) hc h1
    have b := tdiv_anti (q := -p) (by omega) (by omega : 0 < y) h2
    rw [Int.neg_tdiv, Int.neg_tdiv] at a b
    omega

theorem tdiv_pos_mono {x x' y : Int} (hy : 0 < y) (h : x ≤ x') : x.tdiv y ≤ x'.tdiv y :=
  Int.tdiv_le_tdiv hy h

theorem quot_corner_pos {a x b c y d : Int} (h1 : a ≤ x) (h2 : x ≤ b) (hc : 0 < c) (h3 : c ≤ y) (h4 : y ≤ d) :
    min4 (a.tdiv c) (a.tdiv d) (b.tdiv c) (b.tdiv d) ≤ x.tdiv y ∧ x.tdiv y ≤ max4 (a.tdiv c) (a.tdiv d) (b.tdiv c) (b.tdiv d) := by
  have k1 := tdiv_pos_between (p := a) hc h3 h4
  have k2 := tdiv_pos_between (p := b) hc h3 h4
  have k3 := tdiv_pos_mono (show 0 < y by omega) h1
  have k4 := tdiv_pos_mono (show 0 < y by omega) h2
  unfold min4 max4
  omega

theorem quot_corner_neg {a x b c y d : Int} (h1 : a ≤ x) (h2 : x ≤ b) (hd : d < 0) (h3 : c ≤ y) (h4 : y ≤ d) :
    min4 (a.tdiv c) (a.tdiv d) (b.tdiv c) (b.tdiv d) ≤ x.tdiv y ∧ x.tdiv y ≤ max4 (a.tdiv c) (a.tdiv d) (b.tdiv c) (b.tdiv d) := by
  have k := quot_corner_pos (a := a) (x := x) (b := b) (c := -d) (y := -y) (d := -c) h1 h2 (by omega) (by omega) (by omega)
  rw [Int.tdiv_neg, Int.tdiv_neg, Int.tdiv_neg, Int.tdiv_neg, Int.tdiv_neg] at k
  unfold min4 max4 at *
  omega

theorem tdiv_natAbs_le (x y : Int) : (x.tdiv y).natAbs ≤ x.natAbs := by
  rw [Int.natAbs_tdiv]; exact Nat.div_le_self _ _

theorem tdiv_bounds_pos {x y : Int} (hy : 0 < y) (h1 : -2147483648 ≤ x) (h2 : x ≤ 2147483647) :
    -2147483648 ≤ x.tdiv y ∧ x.tdiv y ≤ 2147483647 := by
  have k := tdiv_natAbs_le x y
  rcases Int.le_total 0 x with h | h
  · have : 0 ≤ x.tdiv y := Int.tdiv_nonneg h (by omega)
    omega
  · have : (-x).tdiv y ≥ 0 := Int.tdiv_nonneg (by omega) (by omega)
    rw [Int.neg_tdiv] at this
    omega

/-- a quotient of an i32 by a nonzero number only leaves i32 for `INT_MIN / -1` -/
theorem tdiv_bounds {x y : Int} (hy : y ≠ 0) (h1 : -2147483648 ≤ x) (h2 : x ≤ 2147483647) (h3 : ¬ (x = -2147483648 ∧ y = -1)) :
    -2147483648 ≤ x.tdiv y ∧ x.tdiv y ≤ 2147483647 := by
  rcases Int.lt_or_gt_of_ne hy with h | h
  · by_cases hx : x = -2147483648
    · subst hx
      have hy1 : y ≤ -2 := by omega
      have e : (-2147483648 : Int).tdiv y = (2147483648 : Int).tdiv (-y) := by
        rw [Int.tdiv_neg, ← Int.neg_tdiv]
      rw [e]
      have k := tdiv_anti (q := 2147483648) (c := 2) (y := -y) (by omega) (by omega) (by omega)
      have e2 : (2147483648 : Int).tdiv 2 = 1073741824 := by decide
      rw [e2] at k
      have : 0 ≤ (2147483648 : Int).tdiv (-y) := Int.tdiv_nonneg (by omega) (by omega)
      omega
    · have k := tdiv_natAbs_le x y
      omega
  · exact tdiv_bounds_pos h h1 h2

theorem wrap_of_ne {x : Int} (h : x ≤ 2147483647) : wrapMin x = x := by
  unfold wrapMin; rw [if_neg (by omega)]

theorem wrap_bounds {x y : Int} (hy : y ≠ 0) (h1 : -2147483648 ≤ x) (h2 : x ≤ 2147483647) :
    -2147483648 ≤ wrapMin (x.tdiv y) ∧ wrapMin (x.tdiv y) ≤ 2147483647 := by
  by_cases h : x = -2147483648 ∧ y = -1
  · obtain ⟨rfl, rfl⟩ := h
    decide
  · have k := tdiv_bounds hy h1 h2 h
    rw [wrap_of_ne k.2]; exact k

theorem foldStep_spec : ∀ (l : List (Int × Int)) (acc : Int × Int),
    (l.foldl sdivStep acc).1 ≤ acc.1 ∧ acc.2 ≤ (l.foldl sdivStep acc).2 ∧
    ∀ p ∈ l, p.2 ≠ 0 → (l.foldl sdivStep acc).1 ≤ wrapMin (p.1.tdiv p.2) ∧ wrapMin (p.1.tdiv p.2) ≤ (l.foldl sdivStep acc).2 := by
  intro l
  induction l with
  | nil => intro acc; simp
  | cons q qs ih =>
    intro acc
    obtain ⟨h1, h2, h3⟩ := ih (sdivStep acc q)
    have s1 : (sdivStep acc q).1 ≤ acc.1 ∧ acc.2 ≤ (sdivStep acc q).2 ∧
        (q.2 ≠ 0 → (sdivStep acc q).1 ≤ wrapMin (q.1.tdiv q.2) ∧ wrapMin (q.1.tdiv q.2) ≤ (sdivStep acc q).2) := by
      unfold sdivStep
      split
      · rename_i h; exact ⟨by omega, by omega, fun h' => absurd h h'⟩
      · refine ⟨?_, ?_, fun _ => ⟨?_, ?_⟩⟩ <;> dsimp only <;> omega
    rw [List.foldl_cons]
    refine ⟨by omega, by omega, ?_⟩
    intro p hp hp2
    rcases List.mem_cons.mp hp with rfl | hp
    · have := s1.2.2 hp2; omega
    · exact h3 p hp hp2

theorem foldStep_bounds {L H : Int} : ∀ (l : List (Int × Int)) (acc : Int × Int),
    L ≤ acc.1 → acc.2 ≤ H → (∀ p ∈ l, p.2 ≠ 0 → L ≤ wrapMin (p.1.tdiv p.2) ∧ wrapMin (p.1.tdiv p.2) ≤ H) →
    L ≤ (l.foldl sdivStep acc).1 ∧ (l.foldl sdivStep acc).2 ≤ H := by
  intro l
  induction l with
  | nil => intro acc h1 h2 _; exact ⟨h1, h2⟩
  | cons q qs ih =>
    intro acc h1 h2 h
    rw [List.foldl_cons]
    have k := h q (by simp)
    apply ih
    · unfold sdivStep; split
      · exact h1
      · rename_i hq; have := k hq; dsimp only; omega
    · unfold sdivStep; split
      · exact h2
      · rename_i hq; have := k hq; dsimp only; omega
    · intro p hp; exact h p (by simp [hp])

/-- when is the `wrap` patch of `sdiv` harmless -/
def SDivSafe (a b : IRange) : Prop :=
  a.smin ≠ -2147483648 ∨ b.smax < -1 ∨ 0 ≤ b.smin ∨ (0 < b.smax ∧ a.smax = 2147483647)

theorem sdiv_sound (nd : Bool) {a b : IRange} (wa : WF a) (wb : WF b) {x y : BitVec 32} (mx : Mem x a) (my : Mem y b)
    (hd : SDivDefined x y) (hs : SDivSafe a b) : ∃ r, sdiv nd a b = some r ∧ WF r ∧ Mem (BitVec.sdiv x y) r := by
  have hy' := toInt_ne_zero hd.1
  have hn1 : (-1#32 : BitVec 32).toInt = -1 := by decide
  have hn2 : (0x80000000#32 : BitVec 32).toInt = -2147483648 := by decide
  have hq : ¬ (x.toInt = -2147483648 ∧ y.toInt = -1) := by
    rintro ⟨h1, h2⟩
    exact hd.2 ⟨BitVec.eq_of_toInt_eq (by rw [h1, hn2]), BitVec.eq_of_toInt_eq (by rw [h2, hn1])⟩
  have e : (x.sdiv y).toInt = x.toInt.tdiv y.toInt := by
    apply BitVec.toInt_sdiv_of_ne_or_ne
    by_cases h : x = BitVec.intMin 32
    · right; intro h'; exact hd.2 ⟨by rw [h]; decide, h'⟩
    · left; exact h
  have := mx.slo; have := mx.shi; have := my.slo; have := my.shi
  have := wa.lo; have := wa.hi; have := wb.lo; have := wb.hi
  have hx := toInt_cases x
  have hxb : -2147483648 ≤ x.toInt ∧ x.toInt ≤ 2147483647 := by omega
  clear hx
  generalize hX : x.toInt = X at *
  generalize hY : y.toInt = Y at *
  unfold sdiv
  rw [if_neg (by omega)]
  split
  · -- non-negative divisor range
    have k := quot_corner_pos (a := a.smin) (x := X) (b := a.smax) (c := max 1 b.smin) (y := Y) (d := max 1 b.smax)
      (by omega) (by omega) (by omega) (by omega) (by omega)
    have c1 := tdiv_bounds_pos (x := a.smin) (y := max 1 b.smin) (by omega) (by omega) (by omega)
    have c2 := tdiv_bounds_pos (x := a.smin) (y := max 1 b.smax) (by omega) (by omega) (by omega)
    have c3 := tdiv_bounds_pos (x := a.smax) (y := max 1 b.smin) (by omega) (by omega) (by omega)
    have c4 := tdiv_bounds_pos (x := a.smax) (y := max 1 b.smax) (by omega) (by omega) (by omega)
    apply signed_sound
    · exact min4_le c1.1 c2.1 c3.1 c4.1
    · exact max4_le c1.2 c2.2 c3.2 c4.2
    · rw [e]; exact k.1
    · rw [e]; exact k.2
  · split
    · -- non-positive divisor range
      have k := quot_corner_neg (a := a.smin) (x := X) (b := a.smax) (c := min (-1) b.smin) (y := Y) (d := min (-1) b.smax)
        (by omega) (by omega) (by omega) (by omega) (by omega)
      have hs' : ¬ (a.smin = -2147483648 ∧ (b.smax = -1 ∨ b.smax = 0)) := by unfold SDivSafe at hs; omega
      have hs2 : a.smax = -2147483648 → a.smin = -2147483648 := by omega
      have c1 := tdiv_bounds (x := a.smin) (y := min (-1) b.smin) (by omega) (by omega) (by omega) (by omega)
      have c2 := tdiv_bounds (x := a.smin) (y := min (-1) b.smax) (by omega) (by omega) (by omega) (by omega)
      have c3 := tdiv_bounds (x := a.smax) (y := min (-1) b.smin) (by omega) (by omega) (by omega) (by omega)
      have c4 := tdiv_bounds (x := a.smax) (y := min (-1) b.smax) (by omega) (by omega) (by omega) (by omega)
      rw [wrap_of_ne c1.2, wrap_of_ne c2.2, wrap_of_ne c3.2, wrap_of_ne c4.2]
      apply signed_sound
      · exact min4_le c1.1 c2.1 c3.1 c4.1
      · exact max4_le c1.2 c2.2 c3.2 c4.2
      · rw [e]; exact k.1
      · rw [e]; exact k.2
    · -- mixed signs
      have hmem : ∀ l ∈ [a.smin, a.smax], ∀ q ∈ [b.smin, -1, 1, b.smax], (l, q) ∈ [a.smin, a.smax].flatMap (fun l => [b.smin, -1, 1, b.smax].map (fun q => (l, q))) := by
        intro l hl q hq
        rw [List.mem_flatMap]
        exact ⟨l, hl, List.mem_map.mpr ⟨q, hq, rfl⟩⟩
      have hinv : ∀ p ∈ [a.smin, a.smax].flatMap (fun l => [b.smin, -1, 1, b.smax].map (fun q => (l, q))), p.1 = a.smin ∨ p.1 = a.smax := by
        intro p hp
        rw [List.mem_flatMap] at hp
        obtain ⟨l, hl, hp⟩ := hp
        obtain ⟨q, _, rfl⟩ := List.mem_map.mp hp
        simpa using hl
      generalize [a.smin, a.smax].flatMap (fun l => [b.smin, -1, 1, b.smax].map (fun q => (l, q))) = prs at *
      have bnd := foldStep_bounds (L := -2147483648) (H := 2147483647) prs (i32max, i32min) (by simp only [i32max]; omega) (by simp only [i32min]; omega)
        (by
          intro p hp hp0
          have := hinv p hp
          exact wrap_bounds hp0 (by omega) (by omega))
      obtain ⟨f1, f2, f3⟩ := foldStep_spec prs (i32max, i32min)
      generalize hres : prs.foldl sdivStep (i32max, i32min) = res at bnd f1 f2 f3
      have g1 : res.1 ≤ a.smin ∧ a.smin ≤ res.2 := by
        have := f3 _ (hmem a.smin (by simp) 1 (by simp)) (by simp)
        simp only [Int.tdiv_one] at this
        rwa [wrap_of_ne (by omega)] at this
      have g2 : res.1 ≤ a.smax ∧ a.smax ≤ res.2 := by
        have := f3 _ (hmem a.smax (by simp) 1 (by simp)) (by simp)
        simp only [Int.tdiv_one] at this
        rwa [wrap_of_ne (by omega)] at this
      have key : res.1 ≤ X.tdiv Y ∧ X.tdiv Y ≤ res.2 := by
        by_cases hmn : a.smin = -2147483648
        · have hs' : a.smax = 2147483647 := by unfold SDivSafe at hs; omega
          have := tdiv_bounds (x := X) (y := Y) hy' (by omega) (by omega) hq
          omega
        · have hno : ∀ l ∈ [a.smin, a.smax], ∀ q ∈ [b.smin, -1, 1, b.smax], q ≠ 0 → res.1 ≤ l.tdiv q ∧ l.tdiv q ≤ res.2 := by
            intro l hl q hq' hq0
            have k := f3 _ (hmem l hl q hq') hq0
            have hl' : l = a.smin ∨ l = a.smax := by simpa using hl
            have := tdiv_bounds (x := l) (y := q) hq0 (by omega) (by omega) (by omega)
            rwa [wrap_of_ne this.2] at k
          rcases Int.lt_or_gt_of_ne hy' with h | h
          · have k := quot_corner_neg (a := a.smin) (x := X) (b := a.smax) (c := b.smin) (y := Y) (d := -1)
              (by omega) (by omega) (by omega) (by omega) (by omega)
            have q1 := hno a.smin (by simp) b.smin (by simp) (by omega)
            have q2 := hno a.smin (by simp) (-1) (by simp) (by omega)
            have q3 := hno a.smax (by simp) b.smin (by simp) (by omega)
            have q4 := hno a.smax (by simp) (-1) (by simp) (by omega)
            exact ⟨Int.le_trans (min4_le q1.1 q2.1 q3.1 q4.1) k.1, Int.le_trans k.2 (max4_le q1.2 q2.2 q3.2 q4.2)⟩
          · have k := quot_corner_pos (a := a.smin) (x := X) (b := a.smax) (c := 1) (y := Y) (d := b.smax)
              (by omega) (by omega) (by omega) (by omega) (by omega)
            have q1 := hno a.smin (by simp) 1 (by simp) (by omega)
            have q2 := hno a.smin (by simp) b.smax (by simp) (by omega)
            have q3 := hno a.smax (by simp) 1 (by simp) (by omega)
            have q4 := hno a.smax (by simp) b.smax (by simp) (by omega)
            exact ⟨Int.le_trans (min4_le q1.1 q2.1 q3.1 q4.1) k.1, Int.le_trans k.2 (max4_le q1.2 q2.2 q3.2 q4.2)⟩
      subst hres
      apply signed_sound
      · exact bnd.1
      · exact bnd.2
      · rw [e]; exact key.1
      · rw [e]; exact key.2

end Cmmc.Range
