import Mathlib.Tactic.Linarith
import Mathlib.Tactic.Ring
import Mathlib.Tactic.NormNum
import Mathlib.Data.Nat.ModEq
import Mathlib.Data.Nat.Prime.Basic
import Mathlib.Algebra.Order.Ring.Nat
import Mathlib.Algebra.Prime.Lemmas

/-!
# Division by a constant: the magic number

Model of `selectSDiv32ByConstant` (`cmmc/CodeGen/ISelInfo.cpp:528-592`), the routine that turns a
32-bit signed division by a constant into a multiplication, a shift and a correction.  All the
`uint32_t` arithmetic of the C++ is modelled as arithmetic modulo `2^32`.
-/

namespace Cmmc.Isel

/-- `uint32_t` addition, subtraction and multiplication (C++ unsigned arithmetic wraps). -/
def u32 (x : ℕ) : ℕ := x % 2 ^ 32
def u32sub (x y : ℕ) : ℕ := (x + 2 ^ 32 - y) % 2 ^ 32

/-- The loop variables of `selectSDiv32ByConstant` (`ISelInfo.cpp:544-549`). -/
structure MagicSt where
  p : ℕ
  q1 : ℕ
  r1 : ℕ
  q2 : ℕ
  r2 : ℕ
  deriving Repr, DecidableEq

/-- `ISelInfo.cpp:540-549`: the initial values (`ad` and `anc` are computed first). -/
def magicInit (ad anc : ℕ) : MagicSt :=
  let q1 := 2 ^ 31 / anc
  let r1 := u32sub (2 ^ 31) (u32 (q1 * anc))
  let q2 := 2 ^ 31 / ad
  let r2 := u32sub (2 ^ 31) (u32 (q2 * ad))
  { p := 31, q1 := q1, r1 := r1, q2 := q2, r2 := r2 }

/-- `ISelInfo.cpp:552-567`: one execution of the loop body. -/
def magicBody (ad anc : ℕ) (s : MagicSt) : MagicSt :=
  let q1 := u32 (s.q1 * 2)
  let r1 := u32 (s.r1 * 2)
  let (q1, r1) := if r1 ≥ anc then (u32 (q1 + 1), u32sub r1 anc) else (q1, r1)
  let q2 := u32 (s.q2 * 2)
  let r2 := u32 (s.r2 * 2)
  let (q2, r2) := if r2 ≥ ad then (u32 (q2 + 1), u32sub r2 ad) else (q2, r2)
  { p := s.p + 1, q1 := q1, r1 := r1, q2 := q2, r2 := r2 }

/-- `ISelInfo.cpp:567-568`: the loop condition, evaluated after the body (`delta = ad - r2`). -/
def magicMore (ad : ℕ) (s : MagicSt) : Bool :=
  let delta := u32sub ad s.r2
  s.q1 < delta || (s.q1 == delta && s.r1 == 0)

/-- `ISelInfo.cpp:551-568`: the do-while loop, with fuel.  `none` means the fuel ran out;
`magicLoop_some` shows that 31 iterations always suffice. -/
def magicLoop (ad anc : ℕ) : ℕ → MagicSt → Option MagicSt
  | 0, _ => none
  | fuel + 1, s =>
    let s' := magicBody ad anc s
    if magicMore ad s' then magicLoop ad anc fuel s' else some s'

/-- The three outputs of `selectSDiv32ByConstant`. -/
structure Magic where
  magic : ℤ
  shift : ℕ
  factor : ℤ
  deriving Repr, DecidableEq

/-- `static_cast<int32_t>` of a `uint32_t`. -/
def toI32 (x : ℕ) : ℤ := if x < 2 ^ 31 then x else (x : ℤ) - 2 ^ 32

/-- `isOperandSDiv32ByConstantDivisor` (`ISelInfo.cpp:529-532`) for an `Int32` immediate. -/
def isConstDivisor (d : ℤ) : Bool :=
  (-2 ^ 31 ≤ d && d < 2 ^ 31) && !(-1 ≤ d && d ≤ 1)

/-- `selectSDiv32ByConstant` (`ISelInfo.cpp:533-585`).  `std::abs(INT_MIN)`, undefined in C++, is
taken to wrap (`ad = 2^31`).  The loop is given fuel 32. -/
def selectSDiv32ByConstant (d : ℤ) : Option Magic :=
  if isConstDivisor d then
    let ad := d.natAbs
    let t := 2 ^ 31 + (if d < 0 then 1 else 0)
    let anc := u32sub (u32sub t 1) (t % ad)
    match magicLoop ad anc 32 (magicInit ad anc) with
    | none => none
    | some s =>
      let m := toI32 (u32 (s.q2 + 1))
      if d < 0 then
        some { magic := -m, shift := s.p - 32, factor := if -m > 0 then -1 else 0 }
      else
        some { magic := m, shift := s.p - 32, factor := if m < 0 then 1 else 0 }
  else none

/-! ## The loop invariant -/

/-- The mathematical content of the loop variables. -/
def MagicSt.Inv (ad anc : ℕ) (s : MagicSt) : Prop :=
  s.q1 = 2 ^ s.p / anc ∧ s.r1 = 2 ^ s.p % anc ∧ s.q2 = 2 ^ s.p / ad ∧ s.r2 = 2 ^ s.p % ad

theorem u32_of_lt {x : ℕ} (h : x < 2 ^ 32) : u32 x = x := Nat.mod_eq_of_lt h

theorem u32sub_of_le {x y : ℕ} (hy : y ≤ x) (hx : x < 2 ^ 32) : u32sub x y = x - y := by
  unfold u32sub
  rw [show x + 2 ^ 32 - y = (x - y) + 2 ^ 32 by omega, Nat.add_mod_right]
  exact Nat.mod_eq_of_lt (by omega)

theorem magicInit_inv {ad anc : ℕ} : (magicInit ad anc).Inv ad anc := by
  have key : ∀ a : ℕ, u32sub (2 ^ 31) (u32 (2 ^ 31 / a * a)) = 2 ^ 31 % a := by
    intro a
    have h1 : 2 ^ 31 / a * a ≤ 2 ^ 31 := Nat.div_mul_le_self _ _
    rw [u32_of_lt (by omega), u32sub_of_le h1 (by norm_num)]
    have := Nat.div_add_mod (2 ^ 31) a
    rw [Nat.mul_comm] at this
    omega
  exact ⟨rfl, key _, rfl, key _⟩

/-- Doubling a quotient and remainder. -/
theorem double_div {x a : ℕ} (ha : 0 < a) :
    (if x % a * 2 ≥ a then (x / a * 2 + 1, x % a * 2 - a) else (x / a * 2, x % a * 2)) =
      (2 * x / a, 2 * x % a) := by
  have hx := Nat.div_add_mod x a
  have hr := Nat.mod_lt x ha
  split
  · next h =>
    have e : 2 * x = (x % a * 2 - a) + a * (x / a * 2 + 1) := by
      have : a * (x / a * 2 + 1) = 2 * (a * (x / a)) + a := by ring
      omega
    have hlt : x % a * 2 - a < a := by omega
    refine Prod.ext ?_ ?_
    · show _ = 2 * x / a
      rw [e, Nat.add_mul_div_left _ _ ha, Nat.div_eq_of_lt hlt, Nat.zero_add]
    · show _ = 2 * x % a
      rw [e, Nat.add_mul_mod_self_left, Nat.mod_eq_of_lt hlt]
  · next h =>
    have e : 2 * x = (x % a * 2) + a * (x / a * 2) := by
      have : a * (x / a * 2) = 2 * (a * (x / a)) := by ring
      omega
    have hlt : x % a * 2 < a := by omega
    refine Prod.ext ?_ ?_
    · show _ = 2 * x / a
      rw [e, Nat.add_mul_div_left _ _ ha, Nat.div_eq_of_lt hlt, Nat.zero_add]
    · show _ = 2 * x % a
      rw [e, Nat.add_mul_mod_self_left, Nat.mod_eq_of_lt hlt]

/-- One quotient/remainder update in wrapping arithmetic is exact if the new quotient fits. -/
theorem upd_exact {x a : ℕ} (ha : 0 < a) (ha' : a ≤ 2 ^ 31) (hq : 2 * x / a < 2 ^ 32) :
    (if u32 (x % a * 2) ≥ a then (u32 (u32 (x / a * 2) + 1), u32sub (u32 (x % a * 2)) a)
      else (u32 (x / a * 2), u32 (x % a * 2))) = (2 * x / a, 2 * x % a) := by
  have hr := Nat.mod_lt x ha
  have hd := double_div (x := x) ha
  have e1 : u32 (x % a * 2) = x % a * 2 := u32_of_lt (by omega)
  rw [e1]
  by_cases h : x % a * 2 ≥ a
  · rw [if_pos h] at hd ⊢
    have hd1 : x / a * 2 + 1 = 2 * x / a := congrArg Prod.fst hd
    have hd2 : x % a * 2 - a = 2 * x % a := congrArg Prod.snd hd
    rw [u32_of_lt (x := x / a * 2) (by omega), u32_of_lt (by omega),
      u32sub_of_le h (by omega), hd1, hd2]
  · rw [if_neg h] at hd ⊢
    have hd1 : x / a * 2 = 2 * x / a := congrArg Prod.fst hd
    have hd2 : x % a * 2 = 2 * x % a := congrArg Prod.snd hd
    rw [u32_of_lt (x := x / a * 2) (by omega), hd1, hd2]

theorem magicBody_inv {ad anc : ℕ} {s : MagicSt} (had : 0 < ad) (had' : ad ≤ 2 ^ 31)
    (hanc : 0 < anc) (hanc' : anc ≤ 2 ^ 31) (hs : s.Inv ad anc)
    (hq1 : 2 ^ (s.p + 1) / anc < 2 ^ 32) (hq2 : 2 ^ (s.p + 1) / ad < 2 ^ 32) :
    (magicBody ad anc s).Inv ad anc := by
  obtain ⟨h1, h2, h3, h4⟩ := hs
  have e : 2 ^ (s.p + 1) = 2 * 2 ^ s.p := by ring
  rw [e] at hq1 hq2
  have u1 := upd_exact hanc hanc' hq1
  have u2 := upd_exact had had' hq2
  unfold magicBody MagicSt.Inv
  simp only [h1, h2, h3, h4, e]
  rw [u1, u2]
  exact ⟨rfl, rfl, rfl, rfl⟩

theorem magicBody_p {ad anc : ℕ} {s : MagicSt} : (magicBody ad anc s).p = s.p + 1 := rfl

/-- The loop condition is `2^p ≤ anc * (ad - 2^p % ad)`. -/
theorem magicMore_iff {ad anc : ℕ} {s : MagicSt} (had : 0 < ad) (had' : ad ≤ 2 ^ 31)
    (hanc : 0 < anc) (hs : s.Inv ad anc) :
    magicMore ad s = true ↔ 2 ^ s.p ≤ anc * (ad - 2 ^ s.p % ad) := by
  obtain ⟨h1, h2, _, h4⟩ := hs
  have hlt := Nat.mod_lt (2 ^ s.p) had
  have hd : u32sub ad s.r2 = ad - 2 ^ s.p % ad := by
    rw [h4, u32sub_of_le (by omega) (by omega)]
  unfold magicMore
  simp only [hd, h1, h2, Bool.or_eq_true, decide_eq_true_eq, Bool.and_eq_true, beq_iff_eq]
  generalize ad - 2 ^ s.p % ad = D
  generalize 2 ^ s.p = x
  have hx := Nat.div_add_mod x anc
  have hr := Nat.mod_lt x hanc
  constructor
  · rintro (h | ⟨h, h'⟩)
    · have : anc * (x / anc + 1) ≤ anc * D := Nat.mul_le_mul_left _ h
      rw [Nat.mul_add] at this
      omega
    · rw [← h]; omega
  · intro h
    have h5 : x / anc ≤ D := by
      have : x / anc ≤ anc * D / anc := Nat.div_le_div_right h
      rwa [Nat.mul_div_cancel_left _ hanc] at this
    rcases Nat.lt_or_eq_of_le h5 with h6 | h6
    · exact Or.inl h6
    · refine Or.inr ⟨h6, ?_⟩
      rw [h6] at hx
      omega

/-! ## What `anc` is -/

/-- The facts about `ad` and `anc` the proof uses; `t` is `2^31` or `2^31 + 1`. -/
structure Setup (ad anc t : ℕ) : Prop where
  ad2 : 2 ≤ ad
  adle : ad ≤ 2 ^ 31
  tlo : 2 ^ 31 ≤ t
  thi : t ≤ 2 ^ 31 + 1
  adt : ad < t ∨ ad = 2 ^ 31 ∧ t = 2 ^ 31 + 1
  anceq : anc + 1 + t % ad = t

theorem Setup.anc_dvd {ad anc t : ℕ} (h : Setup ad anc t) : ad ∣ anc + 1 := by
  have h1 := Nat.div_add_mod t ad
  have h2 := h.anceq
  exact ⟨t / ad, by omega⟩

theorem Setup.mod_lt {ad anc t : ℕ} (h : Setup ad anc t) : t % ad < ad :=
  Nat.mod_lt _ (by have := h.ad2; omega)

theorem Setup.anc_lo {ad anc t : ℕ} (h : Setup ad anc t) : 2 ^ 30 ≤ anc := by
  have h1 := h.anceq
  have h2 := h.mod_lt
  obtain ⟨k, hk⟩ := h.anc_dvd
  have h4 := h.tlo
  have h5 := h.adle
  have h6 := h.adt
  have hk0 : 0 < k := by
    rcases Nat.eq_zero_or_pos k with h0 | h0
    · subst h0; simp at hk
    · exact h0
  have h7 : ad ≤ ad * k := Nat.le_mul_of_pos_right _ hk0
  omega

theorem Setup.anc_hi {ad anc t : ℕ} (h : Setup ad anc t) : anc ≤ 2 ^ 31 := by
  have h1 := h.anceq
  have h2 := h.thi
  omega

/-- If `anc` is `2^31` then `ad` is odd. -/
theorem Setup.anc_top {ad anc t : ℕ} (h : Setup ad anc t) (ha : anc = 2 ^ 31) : ad ∣ 2 ^ 31 + 1 := by
  have := h.anc_dvd
  rwa [ha] at this

/-! ## The loop terminates with a minimal exponent -/

/-- The exit condition at exponent `p`. -/
def Exit (ad anc p : ℕ) : Prop := anc * (ad - 2 ^ p % ad) < 2 ^ p

theorem two_pow_dvd_ad {ad p : ℕ} (h : ad ∣ 2 ^ p) : ∃ k, ad = 2 ^ k ∧ k ≤ p := by
  obtain ⟨k, hk, e⟩ := (Nat.dvd_prime_pow Nat.prime_two).mp h
  exact ⟨k, e, hk⟩

theorem odd_two31 {k : ℕ} (hk : 0 < k) (h : 2 ^ k ∣ 2 ^ 31 + 1) : False := by
  have h2 : 2 ∣ 2 ^ k := dvd_pow_self 2 (by omega)
  have := Nat.dvd_trans h2 h
  omega

/-- While the loop has not exited at `p`, the next multiplier still fits in 32 bits.  (The body
is executed once, from `p = 31`, before the condition is looked at.) -/
theorem Setup.fits {ad anc t p : ℕ} (h : Setup ad anc t) (hp : ¬ Exit ad anc p ∨ p = 31) :
    2 ^ (p + 1) / ad + 1 < 2 ^ 32 := by
  rcases hp with hp | rfl
  swap
  · have h2 : 2 ^ (31 + 1) / ad ≤ 2 ^ (31 + 1) / 2 := Nat.div_le_div_left h.ad2 (by norm_num)
    omega
  unfold Exit at hp
  rw [Nat.not_lt] at hp
  have had : 0 < ad := by have := h.ad2; omega
  have hm := Nat.mod_lt (2 ^ p) had
  have e : 2 ^ (p + 1) = 2 * 2 ^ p := by ring
  have hanc := h.anc_hi
  have hadle := h.adle
  have had2 := h.ad2
  by_cases h0 : 2 ^ p % ad = 0
  · obtain ⟨k, hk, hkp⟩ := two_pow_dvd_ad (Nat.dvd_of_mod_eq_zero h0)
    have hk0 : 0 < k := by
      rcases Nat.eq_zero_or_pos k with h' | h'
      · subst h'; simp at hk; omega
      · exact h'
    rw [h0, Nat.sub_zero] at hp
    have hanc' : anc < 2 ^ 31 := by
      rcases Nat.lt_or_eq_of_le hanc with h' | h'
      · exact h'
      · have := h.anc_top h'
        rw [hk] at this
        exact (odd_two31 hk0 this).elim
    obtain ⟨j, rfl⟩ : ∃ j, p = k + j := ⟨p - k, by omega⟩
    rw [pow_add, hk, Nat.mul_comm] at hp
    have hj : 2 ^ j ≤ anc := Nat.le_of_mul_le_mul_right hp (by positivity)
    have hj' : j < 31 := (Nat.pow_lt_pow_iff_right (by norm_num : 1 < 2)).mp (lt_of_le_of_lt hj hanc')
    have hj2 : 2 ^ j ≤ 2 ^ 30 := Nat.pow_le_pow_right (by norm_num) (by omega)
    have e2 : 2 ^ (k + j + 1) / ad = 2 * 2 ^ j := by
      rw [hk, show 2 ^ (k + j + 1) = 2 ^ k * (2 * 2 ^ j) by ring]
      exact Nat.mul_div_cancel_left _ (by positivity)
    rw [e2]
    omega
  · have h1 : 2 ^ p ≤ 2 ^ 31 * (ad - 1) :=
      le_trans hp (Nat.mul_le_mul hanc (by omega))
    have h2 : 2 ^ (p + 1) / ad * ad ≤ 2 ^ (p + 1) := Nat.div_mul_le_self _ _
    by_contra hc
    have h3 : 2 ^ 32 - 1 ≤ 2 ^ (p + 1) / ad := by omega
    have h4 : (2 ^ 32 - 1) * ad ≤ 2 ^ (p + 1) / ad * ad := Nat.mul_le_mul_right _ h3
    omega

theorem Setup.fits1 {ad anc t p : ℕ} (h : Setup ad anc t) (hp : ¬ Exit ad anc p ∨ p = 31) :
    2 ^ (p + 1) / anc < 2 ^ 32 := by
  rcases hp with hp | rfl
  swap
  · have h2 : 2 ^ (31 + 1) / anc ≤ 2 ^ (31 + 1) / 2 ^ 30 := Nat.div_le_div_left h.anc_lo (by norm_num)
    omega
  unfold Exit at hp
  rw [Nat.not_lt] at hp
  have had : 0 < ad := by have := h.ad2; omega
  have hlo := h.anc_lo
  have hanc := h.anc_hi
  have hadle := h.adle
  have hm := Nat.mod_lt (2 ^ p) had
  have e : 2 ^ (p + 1) = 2 * 2 ^ p := by ring
  rw [Nat.div_lt_iff_lt_mul (by omega)]
  have h1 : 2 ^ p ≤ anc * ad := le_trans hp (Nat.mul_le_mul_left _ (by omega))
  rcases Nat.lt_or_eq_of_le hadle with h' | h'
  · have : anc * ad < anc * 2 ^ 31 := Nat.mul_lt_mul_of_pos_left h' (by omega)
    omega
  · subst h'
    have h9 := h.adt
    have h10 := h.anceq
    have h11 := h.thi
    have : anc = 2 ^ 31 - 1 := by
      have ht : t = 2 ^ 31 + 1 := by omega
      rw [ht] at h10
      norm_num at h10
      omega
    subst this
    have h12 : 2 ^ p < 2 ^ 62 := by omega
    have h13 : p < 62 := (Nat.pow_lt_pow_iff_right (by norm_num : 1 < 2)).mp h12
    have h14 : 2 ^ p ≤ 2 ^ 61 := Nat.pow_le_pow_right (by norm_num) (by omega)
    omega

theorem Setup.exit_ge {ad anc t p : ℕ} (h : Setup ad anc t) (hp : 62 ≤ p) : Exit ad anc p := by
  have had : 0 < ad := by have := h.ad2; omega
  have h62' : 2 ^ 62 ≤ 2 ^ p := Nat.pow_le_pow_right (by norm_num) hp
  have hanc := h.anc_hi
  have hadle := h.adle
  unfold Exit
  by_cases hz : 2 ^ p % ad = 0
  · rw [hz, Nat.sub_zero]
    have h2 : anc * ad ≤ 2 ^ 31 * ad := Nat.mul_le_mul_right _ hanc
    rcases Nat.lt_or_eq_of_le hadle with h' | h'
    · omega
    · subst h'
      have : anc ≠ 2 ^ 31 := by
        intro h3
        have := h.anc_top h3
        norm_num at this
      omega
  · have := Nat.mod_lt (2 ^ p) had
    have h2 : anc * (ad - 2 ^ p % ad) ≤ 2 ^ 31 * (ad - 2 ^ p % ad) :=
      Nat.mul_le_mul_right _ h.anc_hi
    omega

/-- The loop started at `p` (not yet exited) stops at the least later exit, with exact values. -/
theorem magicLoop_some {ad anc t : ℕ} (h : Setup ad anc t) :
    ∀ (fuel : ℕ) (s : MagicSt), s.Inv ad anc → (¬ Exit ad anc s.p ∨ s.p = 31) → 0 < fuel → 62 ≤ s.p + fuel →
      ∃ s', magicLoop ad anc fuel s = some s' ∧ s'.Inv ad anc ∧ s.p < s'.p ∧ Exit ad anc s'.p ∧
        ∀ p, s.p ≤ p → p < s'.p → (¬ Exit ad anc p ∨ p = 31) := by
  have had : 0 < ad := by have := h.ad2; omega
  have hanc0 : 0 < anc := by have := h.anc_lo; omega
  intro fuel
  induction fuel with
  | zero =>
    intro s _ _ h0
    omega
  | succ fuel ih =>
    intro s hs hne _ hf
    have hq2 := h.fits hne
    have hq1 := h.fits1 hne
    have hb := magicBody_inv had h.adle hanc0 h.anc_hi hs hq1 (by omega)
    have hpb : (magicBody ad anc s).p = s.p + 1 := rfl
    have hmore := magicMore_iff had h.adle hanc0 hb
    rw [hpb] at hmore
    unfold magicLoop
    by_cases hm : magicMore ad (magicBody ad anc s) = true
    · simp only [hm, if_true]
      have hne' : ¬ Exit ad anc (magicBody ad anc s).p := by
        unfold Exit; rw [hpb, Nat.not_lt]; exact hmore.mp hm
      have hf0 : 0 < fuel := by
        rcases Nat.eq_zero_or_pos fuel with h0 | h0
        · subst h0
          exact (hne' (h.exit_ge (by rw [hpb]; omega))).elim
        · exact h0
      obtain ⟨s', h1, h2, h3, h4, h5⟩ := ih _ hb (Or.inl hne') hf0 (by rw [hpb]; omega)
      refine ⟨s', h1, h2, by omega, h4, ?_⟩
      intro p hp1 hp2
      rcases Nat.eq_or_lt_of_le hp1 with he | he
      · rw [← he]; exact hne
      · exact h5 p (by omega) hp2
    · simp only [hm]
      refine ⟨_, rfl, hb, by omega, ?_, ?_⟩
      · unfold Exit
        rw [hpb]
        exact Nat.not_le.mp (fun hh => hm (hmore.mpr hh))
      · intro p hp1 hp2
        rw [hpb] at hp2
        have : p = s.p := by omega
        rw [this]; exact hne

end Cmmc.Isel
