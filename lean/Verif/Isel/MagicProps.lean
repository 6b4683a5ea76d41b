import Verif.Isel.Magic

/-!
# The magic number computes the quotient
-/

namespace Cmmc.Isel

/-- The result of the loop: exponent `p`, multiplier `M`, error `e`. -/
structure Found (ad anc t p M e : ℕ) : Prop where
  setup : Setup ad anc t
  p32 : 32 ≤ p
  p62 : p ≤ 62
  epos : 1 ≤ e
  ele : e ≤ ad
  eq : M * ad = 2 ^ p + e
  exit : anc * e < 2 ^ p
  fit : M < 2 ^ 32

theorem Found.mpos {ad anc t p M e : ℕ} (h : Found ad anc t p M e) : 0 < M := by
  rcases Nat.eq_zero_or_pos M with h0 | h0
  · have h1 := h.eq
    rw [h0, Nat.zero_mul] at h1
    have h2 := h.epos
    have h3 : 0 < 2 ^ p := by positivity
    omega
  · exact h0

/-- The multiplier is never exactly `2^31`. -/
theorem Found.ne31 {ad anc t p M e : ℕ} (h : Found ad anc t p M e) : M ≠ 2 ^ 31 := by
  intro hM
  have h1 := h.eq
  rw [hM] at h1
  have h2 : 2 ^ 31 ∣ 2 ^ p := pow_dvd_pow 2 (by have := h.p32; omega)
  have h3 : 2 ^ 31 ∣ e := (Nat.dvd_add_right h2).mp ⟨ad, h1.symm⟩
  have h4 := Nat.le_of_dvd (by have := h.epos; omega) h3
  have h5 := h.ele
  have h6 := h.setup.adle
  have h7 : ad = 2 ^ 31 := by omega
  have h8 : e = 2 ^ 31 := by omega
  rw [h7, h8] at h1
  have h9 := h.p62
  have h10 : 2 ^ p ≤ 2 ^ 61 ∨ 2 ^ 62 ≤ 2 ^ p := by
    rcases Nat.lt_or_ge p 62 with h' | h'
    · exact Or.inl (Nat.pow_le_pow_right (by norm_num) (by omega))
    · exact Or.inr (Nat.pow_le_pow_right (by norm_num) h')
  omega

/-- Splitting the scaled product. -/
theorem Found.scaled {ad anc t p M e : ℕ} (h : Found ad anc t p M e) (n : ℕ) :
    M * n * ad = n * 2 ^ p + n * e := by
  have := h.eq
  calc M * n * ad = n * (M * ad) := by ring
    _ = n * (2 ^ p + e) := by rw [this]
    _ = _ := by ring

theorem Found.two_anc {ad anc t p M e : ℕ} (h : Found ad anc t p M e) {n : ℕ} (hn : n ≤ 2 * anc) :
    n * e < 2 * 2 ^ p := by
  have h1 : n * e ≤ 2 * anc * e := Nat.mul_le_mul_right _ hn
  have h2 := h.exit
  have h3 : 2 * anc * e = 2 * (anc * e) := by ring
  omega

/-- The rounded-down product, for a dividend below `t`. -/
theorem Found.floor {ad anc t p M e : ℕ} (h : Found ad anc t p M e) {n : ℕ} (hn : n < t) :
    M * n / 2 ^ p = n / ad := by
  have had : 0 < ad := by have := h.setup.ad2; omega
  have hs := h.scaled n
  have hn0 := Nat.div_add_mod n ad
  have hj := Nat.mod_lt n had
  have hpow : 0 < 2 ^ p := by positivity
  have key : n * e < (ad - n % ad) * 2 ^ p := by
    by_cases hja : n % ad = ad - 1
    · have hle : n ≤ anc := by
        by_contra hc
        have hd1 := h.setup.anc_dvd
        have hd2 : ad ∣ n + 1 := ⟨n / ad + 1, by rw [Nat.mul_add]; omega⟩
        have hd3 : ad ∣ (n + 1) - (anc + 1) := Nat.dvd_sub hd2 hd1
        have := Nat.le_of_dvd (by omega) hd3
        have := h.setup.anceq
        have := h.setup.mod_lt
        omega
      have h1 : n * e ≤ anc * e := Nat.mul_le_mul_right _ hle
      have h2 := h.exit
      rw [show ad - n % ad = 1 by omega]
      omega
    · have h1 := h.two_anc (n := n) (by
        have := h.setup.anc_lo
        have := h.setup.thi
        omega)
      have h2 : 2 * 2 ^ p ≤ (ad - n % ad) * 2 ^ p := Nat.mul_le_mul_right _ (by omega)
      omega
  apply Nat.div_eq_of_lt_le
  · apply Nat.le_of_mul_le_mul_right (c := ad) _ had
    rw [hs]
    have : n / ad * 2 ^ p * ad = (ad * (n / ad)) * 2 ^ p := by ring
    rw [this]
    have : ad * (n / ad) * 2 ^ p ≤ n * 2 ^ p := Nat.mul_le_mul_right _ (by omega)
    omega
  · apply Nat.lt_of_mul_lt_mul_right (a := ad)
    rw [hs]
    have e1 : (n / ad + 1) * 2 ^ p * ad = (ad * (n / ad) + ad) * 2 ^ p := by ring
    have e2 : ad * (n / ad) + ad = n + (ad - n % ad) := by omega
    rw [e1, e2, Nat.add_mul]
    omega

/-- The rounded-up product, minus one, for a positive dividend up to `2^31`. -/
theorem Found.ceil {ad anc t p M e : ℕ} (h : Found ad anc t p M e) {n : ℕ} (hn0 : 1 ≤ n)
    (hn : n ≤ 2 ^ 31) : (M * n - 1) / 2 ^ p = n / ad := by
  have had : 0 < ad := by have := h.setup.ad2; omega
  have hs := h.scaled n
  have hnd := Nat.div_add_mod n ad
  have hj := Nat.mod_lt n had
  have hpow : 0 < 2 ^ p := by positivity
  have hne : 1 ≤ n * e := Nat.mul_pos hn0 h.epos
  have hMn : 1 ≤ M * n := Nat.mul_pos h.mpos hn0
  have key : n * e ≤ (ad - n % ad) * 2 ^ p := by
    by_cases hja : n % ad = ad - 1
    · rw [show ad - n % ad = 1 by omega, Nat.one_mul]
      by_cases hle : n ≤ anc
      · have h1 : n * e ≤ anc * e := Nat.mul_le_mul_right _ hle
        have h2 := h.exit
        omega
      · have hd1 := h.setup.anc_dvd
        have hd2 : ad ∣ n + 1 := ⟨n / ad + 1, by rw [Nat.mul_add]; omega⟩
        have hd3 : ad ∣ (n + 1) - (anc + 1) := Nat.dvd_sub hd2 hd1
        have := Nat.le_of_dvd (by omega) hd3
        have := h.setup.anceq
        have := h.setup.mod_lt
        have := h.setup.tlo
        have hn31 : n = 2 ^ 31 := by omega
        rw [hn31] at hd2
        -- `2^31 ≡ -1`, hence `e ≡ 2^(p-31)`
        obtain ⟨k, hk⟩ : ∃ k, p = 31 + k := ⟨p - 31, by have := h.p32; omega⟩
        have h1 : ad ∣ (2 ^ 31 + 1) * 2 ^ k := Nat.dvd_mul_right_of_dvd hd2 _
        have h2 : ad ∣ 2 ^ p + e := ⟨M, by rw [← h.eq]; ring⟩
        have hle' : e ≤ 2 ^ k := by
          by_contra hc
          have h3 : ad ∣ (2 ^ p + e) - (2 ^ 31 + 1) * 2 ^ k := Nat.dvd_sub h2 h1
          have h4 : (2 ^ p + e) - (2 ^ 31 + 1) * 2 ^ k = e - 2 ^ k := by
            rw [hk, pow_add]
            omega
          rw [h4] at h3
          have := Nat.le_of_dvd (by omega) h3
          have := h.ele
          have : 0 < 2 ^ k := by positivity
          omega
        rw [hn31, hk, pow_add]
        exact Nat.mul_le_mul_left _ hle'
    · have h1 := h.two_anc (n := n) (by
        have := h.setup.anc_lo
        omega)
      have h2 : 2 * 2 ^ p ≤ (ad - n % ad) * 2 ^ p := Nat.mul_le_mul_right _ (by omega)
      omega
  apply Nat.div_eq_of_lt_le
  · have : n / ad * 2 ^ p < M * n := by
      apply Nat.lt_of_mul_lt_mul_right (a := ad)
      rw [hs]
      have : n / ad * 2 ^ p * ad = (ad * (n / ad)) * 2 ^ p := by ring
      rw [this]
      have : ad * (n / ad) * 2 ^ p ≤ n * 2 ^ p := Nat.mul_le_mul_right _ (by omega)
      omega
    omega
  · have : M * n ≤ (n / ad + 1) * 2 ^ p := by
      apply Nat.le_of_mul_le_mul_right (c := ad) _ had
      rw [hs]
      have e1 : (n / ad + 1) * 2 ^ p * ad = (ad * (n / ad) + ad) * 2 ^ p := by ring
      have e2 : ad * (n / ad) + ad = n + (ad - n % ad) := by omega
      rw [e1, e2, Nat.add_mul]
      omega
    omega

/-- The loop finds such a multiplier. -/
theorem loop_found {ad anc t : ℕ} (h : Setup ad anc t) :
    ∃ s, magicLoop ad anc 32 (magicInit ad anc) = some s ∧
      Found ad anc t s.p (s.q2 + 1) (ad - 2 ^ s.p % ad) := by
  have had : 0 < ad := by have := h.ad2; omega
  obtain ⟨s, h1, h2, h3, h4, h5⟩ := magicLoop_some h 32 (magicInit ad anc) magicInit_inv
    (Or.inr rfl) (by norm_num) (by show 62 ≤ 31 + 32; norm_num)
  have h3' : 31 < s.p := h3
  have hm := Nat.mod_lt (2 ^ s.p) had
  refine ⟨s, h1, h, h3', ?_, by omega, by omega, ?_, h4, ?_⟩
  · by_contra hc
    have hc' : 62 < s.p := by omega
    rcases h5 62 (by show 31 ≤ 62; norm_num) hc' with h6 | h6
    · exact h6 (h.exit_ge (le_refl _))
    · omega
  · rw [h2.2.2.1, Nat.add_mul, Nat.one_mul]
    have := Nat.div_add_mod (2 ^ s.p) ad
    rw [Nat.mul_comm] at this
    omega
  · have h6 := h.fits (h5 (s.p - 1) (by show 31 ≤ _; omega) (by omega))
    rw [show s.p - 1 + 1 = s.p by omega] at h6
    rw [h2.2.2.1]
    exact h6

theorem setup_of {d : ℤ} (hd : isConstDivisor d = true) :
    Setup d.natAbs (u32sub (u32sub (2 ^ 31 + if d < 0 then 1 else 0) 1)
      ((2 ^ 31 + if d < 0 then 1 else 0) % d.natAbs)) (2 ^ 31 + if d < 0 then 1 else 0) := by
  unfold isConstDivisor at hd
  simp only [Bool.and_eq_true, decide_eq_true_eq, Bool.not_eq_true', Bool.and_eq_false_iff,
    decide_eq_false_iff_not, Int.not_le] at hd
  have had : 2 ≤ d.natAbs := by omega
  generalize ht : (2 ^ 31 + if d < 0 then 1 else 0 : ℕ) = t
  have htl : 2 ^ 31 ≤ t := by omega
  have hth : t ≤ 2 ^ 31 + 1 := by rw [← ht]; split <;> omega
  have hadt : d.natAbs < t ∨ d.natAbs = 2 ^ 31 ∧ t = 2 ^ 31 + 1 := by
    rw [← ht]
    split <;> omega
  have hm := Nat.mod_lt t (show 0 < d.natAbs by omega)
  have e1 : u32sub t 1 = t - 1 := u32sub_of_le (by omega) (by omega)
  rw [e1]
  have e2 : u32sub (t - 1) (t % d.natAbs) = t - 1 - t % d.natAbs :=
    u32sub_of_le (by omega) (by omega)
  rw [e2]
  exact ⟨had, by omega, htl, hth, hadt, by omega⟩

/-- **What the magic number does.**  For every constant divisor the C++ accepts the routine
succeeds; the multiplier fits an `int32_t`, the shift is at most 30, and the multiplication by
`magic + factor * 2^32`, an arithmetic shift by `32 + shift` and the correction for a negative
product give the C quotient of every 32-bit dividend. -/
theorem selectSDiv32ByConstant_spec {d : ℤ} (hd : isConstDivisor d = true) :
    ∃ g, selectSDiv32ByConstant d = some g ∧ -2 ^ 31 ≤ g.magic ∧ g.magic < 2 ^ 31 ∧ g.shift ≤ 30 ∧
      (g.factor = 0 ∨ g.factor = 1 ∨ g.factor = -1) ∧
      (-2 ^ 32 < g.magic + g.factor * 2 ^ 32 ∧ g.magic + g.factor * 2 ^ 32 < 2 ^ 32) ∧
      ∀ n : ℤ, -2 ^ 31 ≤ n → n < 2 ^ 31 →
        (g.magic + g.factor * 2 ^ 32) * n / 2 ^ (32 + g.shift) +
          (if (g.magic + g.factor * 2 ^ 32) * n < 0 then 1 else 0) = n.tdiv d := by
  obtain ⟨s, hl, hf⟩ := loop_found (setup_of hd)
  have hfit := hf.fit
  have hne := hf.ne31
  have hp32 := hf.p32
  have hp62 := hf.p62
  have hMpos := hf.mpos
  have hp : 32 + (s.p - 32) = s.p := by omega
  generalize hM : s.q2 + 1 = M at hf hfit hne hMpos
  -- the two forms of the quotient
  have pos : ∀ n : ℕ, n < (2 ^ 31 + if d < 0 then 1 else 0) →
      (M : ℤ) * n / 2 ^ s.p = (n / d.natAbs : ℕ) := by
    intro n hn
    rw [← hf.floor hn]
    push_cast
    rfl
  have neg : ∀ n : ℕ, 1 ≤ n → n ≤ 2 ^ 31 →
      -((M : ℤ) * n) / 2 ^ s.p + 1 = -((n / d.natAbs : ℕ) : ℤ) := by
    intro n hn1 hn
    rw [← hf.ceil hn1 hn]
    have h1 : 1 ≤ M * n := Nat.mul_pos hMpos hn1
    have e1 : -((M : ℤ) * n) = Int.negSucc (M * n - 1) := by
      rw [Int.negSucc_eq]
      push_cast [Nat.cast_sub h1]
      ring
    have e2 : ((2 : ℤ) ^ s.p) = ((2 ^ s.p : ℕ) : ℤ) := by push_cast; rfl
    rw [e1, e2]
    have hpos : 0 < 2 ^ s.p := by positivity
    rw [Int.negSucc_ediv _ (by exact_mod_cast hpos)]
    rw [show ((M * n - 1 : ℕ) : ℤ).ediv ((2 ^ s.p : ℕ) : ℤ) = ((M * n - 1) / 2 ^ s.p : ℕ) from
      (Int.natCast_ediv _ _).symm]
    ring
  have fin : ∀ (A : ℤ) (hA : A = if d < 0 then -(M : ℤ) else M) (n : ℤ), -2 ^ 31 ≤ n →
      n < 2 ^ 31 → A * n / 2 ^ s.p + (if A * n < 0 then 1 else 0) = n.tdiv d := by
    intro A hA n hn1 hn2
    have hMp : (0 : ℤ) < M := by exact_mod_cast hMpos
    by_cases hneg : d < 0
    · rw [if_pos hneg] at hA
      subst hA
      rw [show n.tdiv d = -(n.tdiv (d.natAbs : ℕ)) by
        rw [show ((d.natAbs : ℕ) : ℤ) = -d by omega, Int.tdiv_neg, neg_neg]]
      by_cases hn : n ≤ 0
      · obtain ⟨k, rfl⟩ : ∃ k : ℕ, n = -(k : ℤ) := ⟨n.natAbs, by omega⟩
        have e : -(M : ℤ) * -(k : ℤ) = M * k := by ring
        rw [e, if_neg (by
          have : (0 : ℤ) ≤ M * k := by positivity
          omega), pos k (by rw [if_pos hneg]; omega), Int.neg_tdiv, neg_neg, ← Int.ofNat_tdiv]
        omega
      · obtain ⟨k, rfl⟩ : ∃ k : ℕ, n = (k : ℤ) := ⟨n.natAbs, by omega⟩
        have hk : (0 : ℤ) < M * k := Int.mul_pos hMp (by omega)
        have e : -(M : ℤ) * (k : ℤ) = -(M * k) := by ring
        rw [e, if_pos (by omega), neg k (by omega) (by omega), ← Int.ofNat_tdiv]
    · rw [if_neg hneg] at hA
      subst hA
      rw [show n.tdiv d = n.tdiv (d.natAbs : ℕ) by rw [show ((d.natAbs : ℕ) : ℤ) = d by omega]]
      by_cases hn : 0 ≤ n
      · obtain ⟨k, rfl⟩ : ∃ k : ℕ, n = (k : ℤ) := ⟨n.natAbs, by omega⟩
        rw [if_neg (by
          have : (0 : ℤ) ≤ M * k := by positivity
          omega), pos k (by rw [if_neg hneg]; omega), ← Int.ofNat_tdiv]
        omega
      · obtain ⟨k, rfl⟩ : ∃ k : ℕ, n = -(k : ℤ) := ⟨n.natAbs, by omega⟩
        have hk : (0 : ℤ) < M * k := Int.mul_pos hMp (by omega)
        have e : (M : ℤ) * -(k : ℤ) = -(M * k) := by ring
        rw [e, if_pos (by omega), neg k (by omega) (by omega), Int.neg_tdiv, ← Int.ofNat_tdiv]
  unfold selectSDiv32ByConstant
  rw [if_pos hd]
  simp only [hl, hM, u32_of_lt hfit]
  by_cases hneg : d < 0
  · simp only [hneg, if_true]
    refine ⟨_, rfl, ?_, ?_, by show s.p - 32 ≤ 30; omega, ?_, ?_, ?_⟩
    · show -2 ^ 31 ≤ -toI32 M
      unfold toI32; split <;> omega
    · show -toI32 M < 2 ^ 31
      unfold toI32; split <;> omega
    · show (if -toI32 M > 0 then (-1 : ℤ) else 0) = 0 ∨ _
      split <;> simp
    · show -2 ^ 32 < -toI32 M + (if -toI32 M > 0 then (-1 : ℤ) else 0) * 2 ^ 32 ∧
        -toI32 M + (if -toI32 M > 0 then (-1 : ℤ) else 0) * 2 ^ 32 < 2 ^ 32
      unfold toI32
      split <;> split <;> omega
    · show ∀ n : ℤ, _ → _ → (-toI32 M + (if -toI32 M > 0 then (-1 : ℤ) else 0) * 2 ^ 32) * n /
        2 ^ (32 + (s.p - 32)) + _ = _
      rw [hp]
      refine fin _ ?_
      rw [if_pos hneg]
      unfold toI32
      split <;> split <;> omega
  · simp only [hneg, if_false]
    refine ⟨_, rfl, ?_, ?_, by show s.p - 32 ≤ 30; omega, ?_, ?_, ?_⟩
    · show -2 ^ 31 ≤ toI32 M
      unfold toI32; split <;> omega
    · show toI32 M < 2 ^ 31
      unfold toI32; split <;> omega
    · show (if toI32 M < 0 then (1 : ℤ) else 0) = 0 ∨ _
      split <;> simp
    · show -2 ^ 32 < toI32 M + (if toI32 M < 0 then (1 : ℤ) else 0) * 2 ^ 32 ∧
        toI32 M + (if toI32 M < 0 then (1 : ℤ) else 0) * 2 ^ 32 < 2 ^ 32
      unfold toI32
      split <;> split <;> omega
    · show ∀ n : ℤ, _ → _ → (toI32 M + (if toI32 M < 0 then (1 : ℤ) else 0) * 2 ^ 32) * n /
        2 ^ (32 + (s.p - 32)) + _ = _
      rw [hp]
      refine fin _ ?_
      rw [if_neg hneg]
      unfold toI32
      split <;> split <;> omega

end Cmmc.Isel
