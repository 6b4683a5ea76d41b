import Verif.Range.Sync
import Mathlib.Tactic.Linarith
/-! Soundness of the range operations: setters, sets, add, sub, mul, bitwise. -/
set_option linter.unusedSimpArgs false
namespace Cmmc.Range

theorem bind_ok {α β : Type} {x : Option α} {a : α} {f : α → Option β} {y : Option β} (h : x = some a) (h2 : f a = y) :
    (x >>= f) = y := by subst h; exact h2

theorem wf_full : WF full := ⟨by decide, by decide, by decide⟩

theorem mem_full (v : BitVec 32) : Mem v full := by
  have h := toInt_cases v
  refine ⟨by simp [full], ?_, ?_, ?_, by simp [full], by simp [full]⟩ <;> simp only [full, u32max, i32min, i32max] <;> omega

/-- after a successful setter phase: `sync` keeps the member and the limits -/
theorem sync_ok (nd : Bool) {r : IRange} (w : WF r) {v : BitVec 32} (m : Mem v r) :
    ∃ r', sync nd r = some r' ∧ WF r' ∧ ∀ u, Mem u r → Mem u r' := by
  obtain ⟨r', e, t, h⟩ := sync_spec nd r w ⟨v, m⟩
  exact ⟨r', e, t.wf w, h⟩

theorem cassert_ok (nd : Bool) {c : Prop} [Decidable c] (h : c) : cassert nd c = some () := by
  unfold cassert; rw [if_pos (Or.inr h)]

theorem setSigned_ok (nd : Bool) (r : IRange) {mn mx : Int} (h : mn ≤ mx) (h1 : i32min ≤ mn) (h2 : mx ≤ i32max) :
    setSigned nd r mn mx = some { r with smin := mn, smax := mx } := by
  unfold setSigned
  rw [cassert_ok nd h, cassert_ok nd h1, cassert_ok nd h2]; rfl

theorem setUnsigned_ok (nd : Bool) (r : IRange) {mn mx : Nat} (h : mn ≤ mx) :
    setUnsigned nd r mn mx = some { r with umin := mn, umax := mx } := by
  unfold setUnsigned
  rw [cassert_ok nd h]; rfl

theorem setKnownBits_ok (nd : Bool) (r : IRange) {z o : BitVec 32} (v : BitVec 32)
    (hz : ∀ i, z.getLsbD i = true → v.getLsbD i = false) (ho : ∀ i, o.getLsbD i = true → v.getLsbD i = true) :
    setKnownBits nd r z o = some { r with zeros := z, ones := o } := by
  unfold setKnownBits
  have : z &&& o = 0#32 := by
    apply BitVec.eq_of_getLsbD_eq
    intro i hi
    rw [BitVec.getLsbD_and]
    cases h1 : z.getLsbD i <;> cases h2 : o.getLsbD i <;> simp
    have := hz i h1; have := ho i h2; simp_all
  rw [cassert_ok nd this]; rfl

/-- members stay members when the signed bounds are replaced by valid ones -/
theorem Mem.setS {v : BitVec 32} {r : IRange} (m : Mem v r) {a b : Int} (h1 : a ≤ v.toInt) (h2 : v.toInt ≤ b) :
    Mem v { r with smin := a, smax := b } := ⟨m.ulo, m.uhi, h1, h2, m.z, m.o⟩
theorem Mem.setU {v : BitVec 32} {r : IRange} (m : Mem v r) {a b : Nat} (h1 : a ≤ v.toNat) (h2 : v.toNat ≤ b) :
    Mem v { r with umin := a, umax := b } := ⟨h1, h2, m.slo, m.shi, m.z, m.o⟩
theorem Mem.setB {v : BitVec 32} {r : IRange} (m : Mem v r) {z o : BitVec 32}
    (hz : ∀ i, z.getLsbD i = true → v.getLsbD i = false) (ho : ∀ i, o.getLsbD i = true → v.getLsbD i = true) :
    Mem v { r with zeros := z, ones := o } := ⟨m.ulo, m.uhi, m.slo, m.shi, hz, ho⟩

theorem not_overflow_s {x : Int} (h : (!signedOverflow x) = true) : i32min ≤ x ∧ x ≤ i32max := by
  simp [signedOverflow] at h; omega

theorem not_overflow_u {x : Nat} (h : (!unsignedOverflow x) = true) : x ≤ u32max := by
  simp [unsignedOverflow] at h; omega

/-- `if !ov… then setSigned full sl sh else full` -/
theorem signedPart (nd : Bool) {c : Bool} {sl sh : Int} {v : BitVec 32}
    (h : c = true → (i32min ≤ sl ∧ sh ≤ i32max ∧ sl ≤ v.toInt ∧ v.toInt ≤ sh)) :
    ∃ r, setSignedIf nd c full sl sh = some r ∧ WF r ∧ Mem v r := by
  unfold setSignedIf
  by_cases hc : c = true
  · obtain ⟨h1, h2, h3, h4⟩ := h hc
    rw [if_pos hc, setSigned_ok nd full (Int.le_trans h3 h4) h1 h2]
    refine ⟨_, rfl, ⟨wf_full.u, ?_, ?_⟩, (mem_full v).setS h3 h4⟩
    · simpa [i32min] using h1
    · simpa [i32max] using h2
  · rw [if_neg hc]; exact ⟨_, rfl, wf_full, mem_full v⟩

theorem unsignedPart (nd : Bool) {r : IRange} {c : Bool} {ul uh : Nat} {v : BitVec 32} (w : WF r) (m : Mem v r)
    (h : c = true → (uh ≤ u32max ∧ ul ≤ v.toNat ∧ v.toNat ≤ uh)) :
    ∃ r', setUnsignedIf nd c r ul uh = some r' ∧ WF r' ∧ Mem v r' := by
  unfold setUnsignedIf
  by_cases hc : c = true
  · obtain ⟨h2, h3, h4⟩ := h hc
    rw [if_pos hc, setUnsigned_ok nd r (Nat.le_trans h3 h4)]
    exact ⟨_, rfl, ⟨by simpa [u32max] using h2, w.lo, w.hi⟩, m.setU h3 h4⟩
  · rw [if_neg hc]; exact ⟨_, rfl, w, m⟩

theorem low_zero {v : BitVec 32} {k : Nat} : (∀ i, i < k → v.getLsbD i = false) ↔ v.toNat % 2 ^ k = 0 := by
  constructor
  · intro h
    apply Nat.eq_of_testBit_eq
    intro i
    rw [Nat.testBit_mod_two_pow, Nat.zero_testBit]
    by_cases hi : i < k
    · have := h i hi
      rw [BitVec.getLsbD] at this
      simp [this]
    · simp [hi]
  · intro h i hi
    have := congrArg (fun n => n.testBit i) h
    simp only [Nat.testBit_mod_two_pow, Nat.zero_testBit] at this
    simpa [hi, BitVec.getLsbD] using this

theorem mod_pow_of_le {n k j : Nat} (h : n % 2 ^ k = 0) (hj : j ≤ k) : n % 2 ^ j = 0 :=
  Nat.mod_eq_zero_of_dvd (Nat.dvd_trans (Nat.pow_dvd_pow 2 hj) (Nat.dvd_of_mod_eq_zero h))

theorem mod32_mod {n k : Nat} (hk : k ≤ 32) : n % 4294967296 % 2 ^ k = n % 2 ^ k :=
  Nat.mod_mod_of_dvd n (Nat.pow_dvd_pow 2 hk : 2 ^ k ∣ 2 ^ 32)

theorem zeros_low {a : IRange} {x : BitVec 32} (m : Mem x a) {k : Nat} (h : ctz (~~~a.zeros) = some k) :
    k < 32 ∧ x.toNat % 2 ^ k = 0 := by
  obtain ⟨h1, _, h3⟩ := ctz_spec h
  refine ⟨h1, low_zero.mp ?_⟩
  intro i hi
  apply m.z
  have := h3 i hi
  rw [BitVec.getLsbD_not, decide_eq_true (by omega : i < 32), Bool.true_and] at this
  cases hx : a.zeros.getLsbD i
  · rw [hx] at this; exact absurd this (by decide)
  · rfl

theorem zero_of_allzeros {x : BitVec 32} {a : IRange} (m : Mem x a) (h : a.zeros = BitVec.allOnes 32) : x = 0#32 := by
  apply BitVec.eq_of_getLsbD_eq
  intro i hi
  rw [m.z i (by rw [h, BitVec.getLsbD_allOnes]; exact decide_eq_true hi)]
  simp

theorem toInt_eq_of_bmod {v : BitVec 32} {s : Int} (h : v.toInt = s.bmod (2 ^ 32)) (h1 : -2147483648 ≤ s)
    (h2 : s ≤ 2147483647) : v.toInt = s := by
  rw [h]
  have e : (2:Nat) ^ 32 = 4294967296 := by norm_num
  rw [e]
  exact Int.bmod_eq_of_le (by omega) (by omega)

theorem add_sound (nd : Bool) {a b : IRange} (wa : WF a) (wb : WF b) {x y : BitVec 32} (mx : Mem x a) (my : Mem y b) :
    ∃ r, add nd a b = some r ∧ WF r ∧ Mem (x + y) r := by
  unfold add
  by_cases ha : a.zeros = BitVec.allOnes 32
  · rw [if_pos ha]
    have := zero_of_allzeros mx ha
    subst this
    exact ⟨b, rfl, wb, by simpa using my⟩
  rw [if_neg ha]
  by_cases hb : b.zeros = BitVec.allOnes 32
  · rw [if_pos hb]
    have := zero_of_allzeros my hb
    subst this
    exact ⟨a, rfl, wa, by simpa using mx⟩
  rw [if_neg hb]
  have hn : (x + y).toNat = (x.toNat + y.toNat) % 4294967296 := BitVec.toNat_add x y
  have u1 := mx.ulo; have u2 := mx.uhi; have s1 := mx.slo; have s2 := mx.shi
  have u3 := my.ulo; have u4 := my.uhi; have s3 := my.slo; have s4 := my.shi
  obtain ⟨r1, e1, w1, m1⟩ := signedPart nd (c := !signedOverflow (a.smin + b.smin) && !signedOverflow (a.smax + b.smax))
    (sl := a.smin + b.smin) (sh := a.smax + b.smax) (v := x + y) (by
      intro h; rw [Bool.and_eq_true] at h
      have h1 := not_overflow_s h.1; have h2 := not_overflow_s h.2
      rw [toInt_eq_of_bmod (BitVec.toInt_add x y) (by simp only [i32min] at h1; omega) (by simp only [i32max] at h2; omega)]
      exact ⟨h1.1, h2.2, by omega, by omega⟩)
  obtain ⟨r2, e2, w2, m2⟩ := unsignedPart nd (c := !unsignedOverflow (a.umin + b.umin) && !unsignedOverflow (a.umax + b.umax))
    (ul := a.umin + b.umin) (uh := a.umax + b.umax) w1 m1 (by
      intro h; rw [Bool.and_eq_true] at h
      have h2 := not_overflow_u h.2
      clear s1 s2 s3 s4 e1 m1
      rw [hn]
      simp only [u32max] at *
      omega)
  obtain ⟨la, hla⟩ := ctz_some_of_ne (not_ne_zero ha)
  obtain ⟨lb, hlb⟩ := ctz_some_of_ne (not_ne_zero hb)
  obtain ⟨la1, la2⟩ := zeros_low mx hla
  obtain ⟨lb1, lb2⟩ := zeros_low my hlb
  have hz : ∀ i, (loMask (min la lb)).getLsbD i = true → (x + y).getLsbD i = false := by
    intro i hi
    rw [loMask_getLsbD _ _ (by omega)] at hi
    refine low_zero.mpr ?_ i (of_decide_eq_true hi)
    rw [hn, mod32_mod (by omega), Nat.add_mod, mod_pow_of_le la2 (by omega), mod_pow_of_le lb2 (by omega)]
    simp
  have e3 := setKnownBits_ok nd r2 (z := loMask (min la lb)) (o := 0#32) (x + y) hz (by simp)
  have m3 := m2.setB hz (o := 0#32) (by simp)
  have w3 : WF { r2 with zeros := loMask (min la lb), ones := 0#32 } := ⟨w2.u, w2.lo, w2.hi⟩
  obtain ⟨r4, e4, w4, m4⟩ := sync_ok nd w3 m3
  refine ⟨r4, ?_, w4, m4 _ m3⟩
  simp only [e1, e2, e3, e4, hla, hlb, Option.bind_eq_bind, Option.bind_some]

theorem sub64_spec {a b : Nat} (ha : a ≤ 4294967295) (hb : b ≤ 4294967295) (h : sub64 a b ≤ u32max) :
    b ≤ a ∧ sub64 a b = a - b := by
  unfold sub64 at h ⊢
  unfold u32max at h
  rcases Nat.lt_or_ge a b with hl | hl
  · exfalso
    rw [Nat.mod_eq_of_lt (by omega)] at h
    omega
  · refine ⟨hl, ?_⟩
    have : a + 18446744073709551616 - b = (a - b) + 18446744073709551616 := by omega
    rw [this, Nat.add_mod_right, Nat.mod_eq_of_lt (by omega)]

theorem toNat_sub_of_le {x y : BitVec 32} (h : y.toNat ≤ x.toNat) : (x - y).toNat = x.toNat - y.toNat :=
  BitVec.toNat_sub_of_le (by rwa [BitVec.le_def])

theorem sub_sound (nd : Bool) {a b : IRange} (wa : WF a) (wb : WF b) {x y : BitVec 32} (mx : Mem x a) (my : Mem y b) :
    ∃ r, sub nd a b = some r ∧ WF r ∧ Mem (x - y) r := by
  unfold sub
  have u1 := mx.ulo; have u2 := mx.uhi; have s1 := mx.slo; have s2 := mx.shi
  have u3 := my.ulo; have u4 := my.uhi; have s3 := my.slo; have s4 := my.shi
  have wu := wa.u; have wu' := wb.u
  obtain ⟨r1, e1, w1, m1⟩ := signedPart nd (c := !signedOverflow (a.smin - b.smax) && !signedOverflow (a.smax - b.smin))
    (sl := a.smin - b.smax) (sh := a.smax - b.smin) (v := x - y) (by
      intro h; rw [Bool.and_eq_true] at h
      have h1 := not_overflow_s h.1; have h2 := not_overflow_s h.2
      rw [toInt_eq_of_bmod BitVec.toInt_sub (by simp only [i32min] at h1; omega) (by simp only [i32max] at h2; omega)]
      exact ⟨h1.1, h2.2, by omega, by omega⟩)
  obtain ⟨r2, e2, w2, m2⟩ := unsignedPart nd (c := !unsignedOverflow (sub64 a.umin b.umax) && !unsignedOverflow (sub64 a.umax b.umin))
    (ul := sub64 a.umin b.umax) (uh := sub64 a.umax b.umin) w1 m1 (by
      intro h; rw [Bool.and_eq_true] at h
      have h1 := not_overflow_u h.1; have h2 := not_overflow_u h.2
      obtain ⟨l1, q1⟩ := sub64_spec (by omega) (by omega) h1
      obtain ⟨l2, q2⟩ := sub64_spec (by omega) (by omega) h2
      rw [toNat_sub_of_le (by omega)]
      exact ⟨h2, by omega, by omega⟩)
  obtain ⟨r4, e4, w4, m4⟩ := sync_ok nd w2 m2
  refine ⟨r4, ?_, w4, m4 _ m2⟩
  exact bind_ok e1 (bind_ok e2 e4)

theorem corner_le {a b c d x y : Int} (h1 : a ≤ x) (h2 : x ≤ b) (h3 : c ≤ y) (h4 : y ≤ d) :
    min4 (a * c) (a * d) (b * c) (b * d) ≤ x * y ∧ x * y ≤ max4 (a * c) (a * d) (b * c) (b * d) := by
  have key : ∀ {p q z w : Int}, p ≤ z → z ≤ q → (min (p * w) (q * w) ≤ z * w ∧ z * w ≤ max (p * w) (q * w)) := by
    intro p q z w hp hq
    rcases Int.le_total 0 w with hw | hw
    · have := Int.mul_le_mul_of_nonneg_right hp hw
      have := Int.mul_le_mul_of_nonneg_right hq hw
      omega
    · have := Int.mul_le_mul_of_nonpos_right hp hw
      have := Int.mul_le_mul_of_nonpos_right hq hw
      omega
  have k1 := key (w := y) h1 h2
  have k2 := key (w := a) h3 h4
  have k3 := key (w := b) h3 h4
  rw [Int.mul_comm c a, Int.mul_comm d a, Int.mul_comm y a] at k2
  rw [Int.mul_comm c b, Int.mul_comm d b, Int.mul_comm y b] at k3
  unfold min4 max4
  omega

theorem min4_le {a b c d l : Int} (h1 : l ≤ a) (h2 : l ≤ b) (h3 : l ≤ c) (h4 : l ≤ d) : l ≤ min4 a b c d := by
  unfold min4; omega
theorem max4_le {a b c d l : Int} (h1 : a ≤ l) (h2 : b ≤ l) (h3 : c ≤ l) (h4 : d ≤ l) : max4 a b c d ≤ l := by
  unfold max4; omega

theorem mulMask_getLsbD {len : Nat} (i : Nat) : (mulMask len).getLsbD i = (decide (i < 32) && decide (i < len)) := by
  unfold mulMask
  split
  · rename_i h
    rw [BitVec.getLsbD_allOnes]
    by_cases hi : i < 32
    · have : i < len := by omega
      simp [hi, this]
    · simp [hi]
  · rename_i h
    rw [loMask_getLsbD _ _ (by omega)]
    by_cases hi : i < len
    · have : i < 32 := by omega
      simp [hi, this]
    · simp [hi]

/-- multiplying: known low zero bits of one factor are low zero bits of the product -/
theorem mul_low_zero {x y : BitVec 32} {k : Nat} (hk : k ≤ 32) (h : x.toNat % 2 ^ k = 0) :
    ∀ i, (mulMask k).getLsbD i = true → (x * y).getLsbD i = false := by
  intro i hi
  rw [mulMask_getLsbD] at hi
  simp at hi
  refine low_zero.mpr ?_ i hi.2
  rw [BitVec.toNat_mul]
  show x.toNat * y.toNat % 4294967296 % 2 ^ k = 0
  rw [mod32_mod hk, Nat.mul_mod, h]
  simp

theorem suffix_len {x suf : BitVec 32} {l : Nat} (hl : l ≤ 32) (hs : x.toNat % 2 ^ l = suf.toNat) :
    ∃ k, trailingZeros suf l = some k ∧ k ≤ 32 ∧ x.toNat % 2 ^ k = 0 := by
  unfold trailingZeros
  by_cases h : suf = 0#32
  · subst h
    refine ⟨l, by simp, hl, by simpa using hs⟩
  · rw [if_pos h]
    obtain ⟨k, hk⟩ := ctz_some_of_ne h
    obtain ⟨h1, h2, h3⟩ := ctz_spec hk
    refine ⟨k, hk, by omega, ?_⟩
    have hz := low_zero.mp h3
    have hkl : k ≤ l := by
      rcases Nat.lt_or_ge l k with h' | h'
      · exfalso
        apply h
        have hlt : suf.toNat < 2 ^ l := by rw [← hs]; exact Nat.mod_lt _ (Nat.two_pow_pos l)
        have := mod_pow_of_le hz (Nat.le_of_lt h')
        rw [Nat.mod_eq_of_lt hlt] at this
        exact BitVec.eq_of_toNat_eq (by simpa using this)
      · exact h'
    have : x.toNat % 2 ^ l % 2 ^ k = x.toNat % 2 ^ k := Nat.mod_mod_of_dvd _ (Nat.pow_dvd_pow 2 hkl)
    rw [← this, hs, hz]

theorem mulBits_ok (nd : Bool) {r : IRange} (w : WF r) {x y sa sb : BitVec 32} {la lb : Nat} (m : Mem (x * y) r)
    (hla : la ≤ 32) (hlb : lb ≤ 32) (ha : x.toNat % 2 ^ la = sa.toNat) (hb : y.toNat % 2 ^ lb = sb.toNat) :
    ∃ r', mulBits nd r sa la sb lb = some r' ∧ WF r' ∧ Mem (x * y) r' := by
  unfold mulBits
  by_cases h1 : la ≠ 0 ∧ lb ≠ 0
  · rw [if_pos h1]
    have key : ∀ i, (mulMask (min la lb)).getLsbD i = true → (x * y).getLsbD i = (sa * sb).getLsbD i := by
      intro i hi
      rw [mulMask_getLsbD] at hi
      simp only [Bool.and_eq_true, decide_eq_true_eq] at hi
      have e : (x * y).toNat % 2 ^ (min la lb) = (sa * sb).toNat % 2 ^ (min la lb) := by
        rw [BitVec.toNat_mul, BitVec.toNat_mul]
        show x.toNat * y.toNat % 4294967296 % _ = sa.toNat * sb.toNat % 4294967296 % _
        rw [mod32_mod (by omega), mod32_mod (by omega), ← ha, ← hb, Nat.mul_mod, Nat.mul_mod (x.toNat % 2 ^ la),
          Nat.mod_mod_of_dvd _ (Nat.pow_dvd_pow 2 (Nat.min_le_left la lb)),
          Nat.mod_mod_of_dvd _ (Nat.pow_dvd_pow 2 (Nat.min_le_right la lb))]
      have := congrArg (fun n => n.testBit i) e
      simp only [Nat.testBit_mod_two_pow] at this
      rw [decide_eq_true (by omega : i < min la lb)] at this
      simpa [BitVec.getLsbD] using this
    have hz : ∀ i, (~~~(sa * sb) &&& mulMask (min la lb)).getLsbD i = true → (x * y).getLsbD i = false := by
      intro i hi
      rw [BitVec.getLsbD_and, Bool.and_eq_true] at hi
      rw [key i hi.2]
      have := hi.1
      rw [BitVec.getLsbD_not, Bool.and_eq_true] at this
      simpa using this.2
    have ho : ∀ i, (sa * sb &&& mulMask (min la lb)).getLsbD i = true → (x * y).getLsbD i = true := by
      intro i hi
      rw [BitVec.getLsbD_and, Bool.and_eq_true] at hi
      rw [key i hi.2]; exact hi.1
    dsimp only
    rw [setKnownBits_ok nd r (x * y) hz ho]
    exact ⟨_, rfl, ⟨w.u, w.lo, w.hi⟩, m.setB hz ho⟩
  · rw [if_neg h1]
    by_cases h2 : la ≠ 0
    · rw [if_pos h2]
      obtain ⟨k, e, hk, hz⟩ := suffix_len hla ha
      have hz' := mul_low_zero (y := y) hk hz
      rw [e]
      refine ⟨_, setKnownBits_ok nd r (x * y) hz' (by simp), ⟨w.u, w.lo, w.hi⟩, m.setB hz' (by simp)⟩
    · rw [if_neg h2]
      by_cases h3 : lb ≠ 0
      · rw [if_pos h3]
        obtain ⟨k, e, hk, hz⟩ := suffix_len hlb hb
        have hz' := mul_low_zero (y := x) hk hz
        rw [BitVec.mul_comm] at hz'
        rw [e]
        refine ⟨_, setKnownBits_ok nd r (x * y) hz' (by simp), ⟨w.u, w.lo, w.hi⟩, m.setB hz' (by simp)⟩
      · rw [if_neg h3]; exact ⟨r, rfl, w, m⟩

theorem mul_sound (nd : Bool) {a b : IRange} {x y : BitVec 32} (mx : Mem x a) (my : Mem y b) :
    ∃ r, mul nd a b = some r ∧ WF r ∧ Mem (x * y) r := by
  unfold mul
  have hc := corner_le mx.slo mx.shi my.slo my.shi
  obtain ⟨r1, e1, w1, m1⟩ := signedPart nd
    (c := !signedOverflow (a.smin * b.smin) && !signedOverflow (a.smin * b.smax) && !signedOverflow (a.smax * b.smin) && !signedOverflow (a.smax * b.smax))
    (sl := min4 (a.smin * b.smin) (a.smin * b.smax) (a.smax * b.smin) (a.smax * b.smax))
    (sh := max4 (a.smin * b.smin) (a.smin * b.smax) (a.smax * b.smin) (a.smax * b.smax)) (v := x * y) (by
      intro h; simp only [Bool.and_eq_true] at h
      have h1 := not_overflow_s h.1.1.1; have h2 := not_overflow_s h.1.1.2
      have h3 := not_overflow_s h.1.2; have h4 := not_overflow_s h.2
      have l1 := min4_le h1.1 h2.1 h3.1 h4.1
      have l2 := max4_le h1.2 h2.2 h3.2 h4.2
      have e := toInt_eq_of_bmod (BitVec.toInt_mul x y) (by simp only [i32min] at l1; omega) (by simp only [i32max] at l2; omega)
      rw [e]
      exact ⟨l1, l2, hc.1, hc.2⟩)
  obtain ⟨r2, e2, w2, m2⟩ := unsignedPart nd (c := !unsignedOverflow (a.umin * b.umin) && !unsignedOverflow (a.umax * b.umax))
    (ul := a.umin * b.umin) (uh := a.umax * b.umax) w1 m1 (by
      intro h; rw [Bool.and_eq_true] at h
      have h2 := not_overflow_u h.2
      have k1 := Nat.mul_le_mul mx.ulo my.ulo
      have k2 := Nat.mul_le_mul mx.uhi my.uhi
      have : (x * y).toNat = x.toNat * y.toNat := by
        rw [BitVec.toNat_mul]; apply Nat.mod_eq_of_lt
        simp only [u32max] at h2; omega
      rw [this]
      exact ⟨h2, k1, k2⟩)
  obtain ⟨sa, la, ea, a1, a2, a3⟩ := inferSuffix_spec a
  obtain ⟨sb, lb, eb, b1, b2, b3⟩ := inferSuffix_spec b
  obtain ⟨r3, e3, w3, m3⟩ := mulBits_ok nd w2 m2 a1 b1 (a3 x mx) (b3 y my)
  obtain ⟨r4, e4, w4, m4⟩ := sync_ok nd w3 m3
  refine ⟨r4, ?_, w4, m4 _ m3⟩
  simp only [e1, e2, ea, eb, e3, e4, Option.bind_eq_bind, Option.bind_some]

theorem bits_sound (nd : Bool) {z o : BitVec 32} {v : BitVec 32}
    (hz : ∀ i, z.getLsbD i = true → v.getLsbD i = false) (ho : ∀ i, o.getLsbD i = true → v.getLsbD i = true) :
    ∃ r, (do let r ← setKnownBits nd full z o; sync nd r) = some r ∧ WF r ∧ Mem v r := by
  have m := (mem_full v).setB hz ho
  have w : WF { full with zeros := z, ones := o } := ⟨wf_full.u, wf_full.lo, wf_full.hi⟩
  obtain ⟨r, e, w', m'⟩ := sync_ok nd w m
  refine ⟨r, ?_, w', m' _ m⟩
  rw [setKnownBits_ok nd full v hz ho]
  exact e

theorem and_sound (nd : Bool) {a b : IRange} {x y : BitVec 32} (mx : Mem x a) (my : Mem y b) :
    ∃ r, and nd a b = some r ∧ WF r ∧ Mem (x &&& y) r := by
  apply bits_sound
  · intro i h
    rw [BitVec.getLsbD_or, Bool.or_eq_true] at h
    rw [BitVec.getLsbD_and]
    rcases h with h | h
    · rw [mx.z i h]; rfl
    · rw [my.z i h]; simp
  · intro i h
    rw [BitVec.getLsbD_and, Bool.and_eq_true] at h
    rw [BitVec.getLsbD_and, mx.o i h.1, my.o i h.2]; rfl

theorem or_sound (nd : Bool) {a b : IRange} {x y : BitVec 32} (mx : Mem x a) (my : Mem y b) :
    ∃ r, or nd a b = some r ∧ WF r ∧ Mem (x ||| y) r := by
  apply bits_sound
  · intro i h
    rw [BitVec.getLsbD_and, Bool.and_eq_true] at h
    rw [BitVec.getLsbD_or, mx.z i h.1, my.z i h.2]; rfl
  · intro i h
    rw [BitVec.getLsbD_or, Bool.or_eq_true] at h
    rw [BitVec.getLsbD_or]
    rcases h with h | h
    · rw [mx.o i h]; rfl
    · rw [my.o i h]; simp

theorem xor_sound (nd : Bool) {a b : IRange} {x y : BitVec 32} (mx : Mem x a) (my : Mem y b) :
    ∃ r, xor nd a b = some r ∧ WF r ∧ Mem (x ^^^ y) r := by
  apply bits_sound
  · intro i h
    rw [BitVec.getLsbD_or, Bool.or_eq_true, BitVec.getLsbD_and, BitVec.getLsbD_and, Bool.and_eq_true, Bool.and_eq_true] at h
    rw [BitVec.getLsbD_xor]
    rcases h with h | h
    · rw [mx.z i h.1, my.z i h.2]; rfl
    · rw [mx.o i h.1, my.o i h.2]; rfl
  · intro i h
    rw [BitVec.getLsbD_or, Bool.or_eq_true, BitVec.getLsbD_and, BitVec.getLsbD_and, Bool.and_eq_true, Bool.and_eq_true] at h
    rw [BitVec.getLsbD_xor]
    rcases h with h | h
    · rw [mx.z i h.1, my.o i h.2]; rfl
    · rw [mx.o i h.1, my.z i h.2]; rfl

theorem signed_sound (nd : Bool) {mn mx : Int} {v : BitVec 32} (h1 : i32min ≤ mn) (h2 : mx ≤ i32max) (h3 : mn ≤ v.toInt)
    (h4 : v.toInt ≤ mx) : ∃ r, (do let r ← setSigned nd full mn mx; sync nd r) = some r ∧ WF r ∧ Mem v r := by
  have m := (mem_full v).setS h3 h4
  have w : WF { full with smin := mn, smax := mx } := ⟨wf_full.u, by simpa [i32min] using h1, by simpa [i32max] using h2⟩
  obtain ⟨r, e, w', m'⟩ := sync_ok nd w m
  refine ⟨r, ?_, w', m' _ m⟩
  rw [setSigned_ok nd full (Int.le_trans h3 h4) h1 h2]
  exact e

theorem unsigned_sound (nd : Bool) {mn mx : Nat} {v : BitVec 32} (h2 : mx ≤ u32max) (h3 : mn ≤ v.toNat)
    (h4 : v.toNat ≤ mx) : ∃ r, (do let r ← setUnsigned nd full mn mx; sync nd r) = some r ∧ WF r ∧ Mem v r := by
  have m := (mem_full v).setU h3 h4
  have w : WF { full with umin := mn, umax := mx } := ⟨by simpa [u32max] using h2, wf_full.lo, wf_full.hi⟩
  obtain ⟨r, e, w', m'⟩ := sync_ok nd w m
  refine ⟨r, ?_, w', m' _ m⟩
  rw [setUnsigned_ok nd full (Nat.le_trans h3 h4)]
  exact e

end Cmmc.Range
