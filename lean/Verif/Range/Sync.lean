import Verif.Range.BitLemmas
/-! `sync` keeps every member and only tightens. -/
set_option linter.unusedSimpArgs false
namespace Cmmc.Range

theorem toInt_cases (v : BitVec 32) :
    (v.toNat < 2147483648 ∧ v.toInt = v.toNat) ∨
    (2147483648 ≤ v.toNat ∧ v.toNat < 4294967296 ∧ v.toInt = (v.toNat : Int) - 4294967296) := by
  have h := v.isLt
  rw [BitVec.toInt_eq_toNat_cond]
  by_cases h2 : 2 * v.toNat < 2 ^ 32
  · left; rw [if_pos h2]; exact ⟨by omega, rfl⟩
  · right; rw [if_neg h2]; exact ⟨by omega, by omega, rfl⟩

theorem toNat_ofInt32 (s : Int) : (BitVec.ofInt 32 s).toNat = (s % 4294967296).toNat := by
  rw [BitVec.toNat_ofInt]; rfl

theorem toNat_ofNat32 (s : Nat) : (BitVec.ofNat 32 s).toNat = s % 4294967296 := by
  rw [BitVec.toNat_ofNat]

theorem Tighter.refl (r : IRange) : Tighter r r :=
  ⟨Nat.le_refl _, Nat.le_refl _, Int.le_refl _, Int.le_refl _, fun _ h => h, fun _ h => h⟩

theorem Tighter.trans {a b c : IRange} (h1 : Tighter a b) (h2 : Tighter b c) : Tighter a c :=
  ⟨Nat.le_trans h2.ulo h1.ulo, Nat.le_trans h1.uhi h2.uhi, Int.le_trans h2.slo h1.slo, Int.le_trans h1.shi h2.shi,
   fun i h => h1.z i (h2.z i h), fun i h => h1.o i (h2.o i h)⟩

theorem Tighter.mem {a b : IRange} (h : Tighter a b) {v : BitVec 32} (m : Mem v a) : Mem v b :=
  ⟨Nat.le_trans h.ulo m.ulo, Nat.le_trans m.uhi h.uhi, Int.le_trans h.slo m.slo, Int.le_trans m.shi h.shi,
   fun i hz => m.z i (h.z i hz), fun i ho => m.o i (h.o i ho)⟩

theorem Tighter.wf {a b : IRange} (h : Tighter a b) (w : WF b) : WF a :=
  ⟨Nat.le_trans h.uhi w.u, Int.le_trans w.lo h.slo, Int.le_trans h.shi w.hi⟩

theorem signed2Unsigned_tighter (r : IRange) : Tighter (signed2Unsigned r) r := by
  unfold signed2Unsigned
  constructor <;> (repeat' split) <;> simp only [] <;> first | omega | (intro i h; exact h)

theorem signed2Unsigned_mem {v : BitVec 32} {r : IRange} (m : Mem v r) (w : WF r) :
    Mem v (signed2Unsigned r) := by
  obtain ⟨a, b, c, d, e, f⟩ := m
  obtain ⟨w1, w2, w3⟩ := w
  have hv := toInt_cases v
  unfold signed2Unsigned
  constructor <;> (repeat' split) <;> simp only [toNat_ofInt32] <;> first | omega | (intro i h; first | exact e i h | exact f i h)

theorem unsigned2Signed_tighter (r : IRange) : Tighter (unsigned2Signed r) r := by
  unfold unsigned2Signed
  constructor <;> (repeat' split) <;> simp only [] <;> first | omega | (intro i h; exact h)

theorem unsigned2Signed_mem {v : BitVec 32} {r : IRange} (m : Mem v r) (w : WF r) :
    Mem v (unsigned2Signed r) := by
  obtain ⟨a, b, c, d, e, f⟩ := m
  obtain ⟨w1, w2, w3⟩ := w
  have hv := toInt_cases v
  have h1 := toInt_cases (BitVec.ofNat 32 r.umin)
  have h2 := toInt_cases (BitVec.ofNat 32 r.umax)
  rw [toNat_ofNat32] at h1 h2
  unfold unsigned2Signed i32max
  constructor <;> (repeat' split) <;> simp only [] <;> first | omega | (intro i h; first | exact e i h | exact f i h)

theorem boundsToBits_spec {r : IRange} {lo hi : BitVec 32}
    (hb : ∀ k, (∀ i, k ≤ i → (lo ^^^ hi).getLsbD i = false) → k < 33 → ∀ v, Mem v r → ∀ i, k ≤ i → v.getLsbD i = lo.getLsbD i) :
    ∃ r', boundsToBits r lo hi = some r' ∧ Tighter r' r ∧ ∀ v, Mem v r → Mem v r' := by
  unfold boundsToBits
  by_cases hc : lo ^^^ hi = 0#32
  · have hk := hb 0 (by intro i _; rw [hc]; simp) (by omega)
    refine ⟨{ r with ones := r.ones ||| lo, zeros := r.zeros ||| ~~~lo }, by simp [hc], ?_, ?_⟩
    · constructor <;> simp
      · intro i h; left; exact h
      · intro i h; left; exact h
    · intro v m
      have hkv := hk v m
      obtain ⟨a, b, c, d, e, f⟩ := m
      refine ⟨a, b, c, d, ?_, ?_⟩
      · intro i h
        rw [hkv i (by omega)]
        by_cases hz : r.zeros.getLsbD i = true
        · have := e i hz; rwa [hkv i (by omega)] at this
        · simp [hz] at h; exact h.2
      · intro i h
        by_cases hz : r.ones.getLsbD i = true
        · exact f i hz
        · simp [hz] at h; rw [hkv i (by omega)]; exact h
  · obtain ⟨L, hL⟩ := clz_some_of_ne hc
    obtain ⟨hL1, hL2⟩ := clz_spec hL
    have hk := hb (32 - L) hL2 (by omega)
    refine ⟨{ r with ones := r.ones ||| (lo &&& hiMask L), zeros := r.zeros ||| (~~~lo &&& hiMask L) },
      by simp [hc, hL], ?_, ?_⟩
    · constructor <;> simp
      · intro i h; left; exact h
      · intro i h; left; exact h
    · intro v m
      have hkv := hk v m
      obtain ⟨a, b, c, d, e, f⟩ := m
      refine ⟨a, b, c, d, ?_, ?_⟩
      · intro i h
        by_cases hz : r.zeros.getLsbD i = true
        · exact e i hz
        · rw [BitVec.getLsbD_or, BitVec.getLsbD_and, hiMask_getLsbD _ _ hL1] at h
          simp [hz] at h
          rw [hkv i (by omega)]; exact h.1.2
      · intro i h
        by_cases hz : r.ones.getLsbD i = true
        · exact f i hz
        · rw [BitVec.getLsbD_or, BitVec.getLsbD_and, hiMask_getLsbD _ _ hL1] at h
          simp [hz] at h
          rw [hkv i (by omega)]; exact h.1

theorem unsigned2Bit_spec (r : IRange) (w : WF r) :
    ∃ r', unsigned2Bit r = some r' ∧ Tighter r' r ∧ ∀ v, Mem v r → Mem v r' := by
  apply boundsToBits_spec
  intro k hk _ v m i hi
  have hv := v.isLt
  have hw := w.u
  refine prefix_shared _ _ v k hk ?_ ?_ i hi
  · rw [toNat_ofNat32]; have := m.ulo; omega
  · rw [toNat_ofNat32]; have := m.uhi; omega

theorem signed2Bit_spec (r : IRange) (w : WF r) :
    ∃ r', signed2Bit r = some r' ∧ Tighter r' r ∧ ∀ v, Mem v r → Mem v r' := by
  apply boundsToBits_spec
  intro k hk hk33 v m i hi
  by_cases h32 : 32 ≤ i
  · rw [BitVec.getLsbD_of_ge _ _ h32, BitVec.getLsbD_of_ge _ _ h32]
  -- bit 31 agrees, so both bounds have the same sign
  have h31 := hk 31 (by omega)
  rw [BitVec.getLsbD_xor] at h31
  have m1 : ∀ x : BitVec 32, x.getLsbD 31 = decide (2147483648 ≤ x.toNat) := by
    intro x
    have := BitVec.msb_eq_decide x
    rw [BitVec.msb_eq_getLsbD_last] at this
    simpa using this
  rw [m1, m1] at h31
  have hv := toInt_cases v
  have hlo := toNat_ofInt32 r.smin
  have hhi := toNat_ofInt32 r.smax
  obtain ⟨w1, w2, w3⟩ := w
  have hm1 := m.slo
  have hm2 := m.shi
  refine prefix_shared _ _ v k hk ?_ ?_ i hi
  · by_cases p : 2147483648 ≤ (BitVec.ofInt 32 r.smin).toNat <;> by_cases q : 2147483648 ≤ (BitVec.ofInt 32 r.smax).toNat <;>
      simp [p, q] at h31 <;> omega
  · by_cases p : 2147483648 ≤ (BitVec.ofInt 32 r.smin).toNat <;> by_cases q : 2147483648 ≤ (BitVec.ofInt 32 r.smax).toNat <;>
      simp [p, q] at h31 <;> omega

theorem not_ne_zero {x : BitVec 32} (h : x ≠ BitVec.allOnes 32) : ~~~x ≠ 0#32 := by
  intro h2; apply h
  have : ~~~(~~~x) = ~~~(0#32) := by rw [h2]
  rw [BitVec.not_not] at this
  rw [this]; rfl

theorem known_bit {v : BitVec 32} {r : IRange} (m : Mem v r) {i : Nat}
    (h : (r.ones ||| r.zeros).getLsbD i = true) : v.getLsbD i = r.ones.getLsbD i := by
  by_cases ho : r.ones.getLsbD i = true
  · rw [ho, m.o i ho]
  · have hz : r.zeros.getLsbD i = true := by simpa [ho] using h
    rw [m.z i hz]; simp at ho; rw [ho]

theorem all_known {v : BitVec 32} {r : IRange} (m : Mem v r) (h : r.ones ||| r.zeros = BitVec.allOnes 32) :
    v = r.ones := by
  apply BitVec.eq_of_getLsbD_eq
  intro i hi
  exact known_bit m (by rw [h, BitVec.getLsbD_allOnes]; exact decide_eq_true hi)

theorem suffixMask_toNat {len : Nat} (h : len ≤ 32) : (suffixMask len).toNat = 2 ^ len - 1 := by
  unfold suffixMask
  split
  · subst len; rfl
  · exact loMask_toNat len (by omega)

theorem and_suffixMask {len : Nat} (h : len ≤ 32) (n : Nat) : n &&& (suffixMask len).toNat = n % 2 ^ len := by
  rw [suffixMask_toNat h, Nat.and_two_pow_sub_one_eq_mod]

/-- `inferSuffix` returns the low bits shared by all members. -/
theorem inferSuffix_spec (r : IRange) :
    ∃ suf len, inferSuffix r = some (suf, len) ∧ len ≤ 32 ∧ suf.toNat < 2 ^ len ∧
      ∀ v, Mem v r → v.toNat % 2 ^ len = suf.toNat := by
  unfold inferSuffix
  by_cases h : r.ones ||| r.zeros = BitVec.allOnes 32
  · refine ⟨r.ones, 32, by rw [if_pos h], by omega, r.ones.isLt, ?_⟩
    intro v m
    rw [all_known m h]
    exact Nat.mod_eq_of_lt r.ones.isLt
  · obtain ⟨k, hk⟩ := ctz_some_of_ne (not_ne_zero h)
    obtain ⟨h1, _, h3⟩ := ctz_spec hk
    have hs : (r.ones &&& loMask k).toNat = r.ones.toNat % 2 ^ k := by
      rw [BitVec.toNat_and, loMask_toNat k h1, Nat.and_two_pow_sub_one_eq_mod]
    refine ⟨r.ones &&& loMask k, k, by rw [if_neg h, hk]; rfl, by omega, ?_, ?_⟩
    · rw [hs]; exact Nat.mod_lt _ (Nat.two_pow_pos k)
    · intro v m
      rw [hs]
      apply Nat.eq_of_testBit_eq
      intro i
      rw [Nat.testBit_mod_two_pow, Nat.testBit_mod_two_pow]
      by_cases hi : i < k
      · have := known_bit (i := i) m (by
          have := h3 i hi
          rw [BitVec.getLsbD_not] at this
          have h32 : i < 32 := by omega
          rw [decide_eq_true h32, Bool.true_and] at this
          cases hx : (r.ones ||| r.zeros).getLsbD i
          · rw [hx] at this; exact absurd this (by decide)
          · rfl)
        simp only [BitVec.getLsbD] at this
        rw [this]
      · simp [hi]

theorem mask_not_toNat {len : Nat} (h : len ≤ 32) {n : Nat} (hn : n < 4294967296) :
    n &&& (~~~(suffixMask len)).toNat = 2 ^ len * (n / 2 ^ len) := by
  apply Nat.eq_of_testBit_eq
  intro i
  rw [Nat.testBit_and, Nat.mul_comm, ← Nat.shiftLeft_eq, Nat.testBit_shiftLeft, ← Nat.shiftRight_eq_div_pow,
    Nat.testBit_shiftRight]
  have e : (~~~(suffixMask len)).toNat.testBit i = (decide (i < 32) && !decide (i < len)) := by
    have h0 : (~~~(suffixMask len)).toNat.testBit i = (~~~(suffixMask len)).getLsbD i := rfl
    have h1 : (suffixMask len).getLsbD i = decide (i < len) := by
      rw [BitVec.getLsbD, suffixMask_toNat h, Nat.testBit_two_pow_sub_one]
    rw [h0, BitVec.getLsbD_not, h1]
  rw [e]
  by_cases hi : i < 32
  · by_cases hl : i < len
    · have : ¬ (i ≥ len) := by omega
      simp [hi, hl, this]
    · have h1 : i ≥ len := by omega
      have h2 : len + (i - len) = i := by omega
      simp [hi, hl, h1, h2]
  · have h1 : i ≥ len := by omega
    have h2 : len + (i - len) = i := by omega
    have h3 : n.testBit i = false := by
      apply Nat.testBit_lt_two_pow
      exact Nat.lt_of_lt_of_le hn (Nat.pow_le_pow_right (n := 2) (by decide) (by omega : 32 ≤ i))
    simp [h2, h3]

theorem next_eq {len : Nat} (h : len ≤ 32) {n : Nat} (hn : n < 4294967296) {suf : BitVec 32} (hs : suf.toNat < 2 ^ len) :
    (n &&& (~~~(suffixMask len)).toNat) ||| suf.toNat = 2 ^ len * (n / 2 ^ len) + suf.toNat := by
  rw [mask_not_toNat h hn, ← Nat.two_pow_add_eq_or_of_lt hs]

theorem suffixMask_succ {len : Nat} (h : len < 32) : (suffixMask len + 1#32).toNat = 2 ^ len := by
  have hp : 2 ^ len < 4294967296 := Nat.pow_lt_pow_right (a := 2) (m := len) (n := 32) (by decide) h
  have h1 := Nat.two_pow_pos len
  rw [BitVec.toNat_add, suffixMask_toNat (by omega)]
  show (2 ^ len - 1 + 1) % 4294967296 = _
  omega

theorem mul_le_of_lt {m a b s : Nat} (h : a < b) (hs : s < m) : m * a + s < m * b := by
  have : m * (a + 1) ≤ m * b := Nat.mul_le_mul_left m h
  rw [Nat.mul_add] at this; omega

theorem roundUp_spec {len : Nat} (h : len ≤ 32) {suf : BitVec 32} (hs : suf.toNat < 2 ^ len) {mn v : Nat}
    (hv : v < 4294967296) (h1 : mn ≤ v) (h2 : v % 2 ^ len = suf.toNat) :
    mn ≤ roundUp mn (suffixMask len) suf ∧ roundUp mn (suffixMask len) suf ≤ v := by
  have hmn : mn < 4294967296 := by omega
  have hv' := Nat.div_add_mod v (2 ^ len)
  have hm' := Nat.div_add_mod mn (2 ^ len)
  have hml := Nat.mod_lt mn (Nat.two_pow_pos len)
  have hd := Nat.div_le_div_right (c := 2 ^ len) h1
  unfold roundUp
  rw [and_suffixMask h, next_eq h hmn hs]
  split
  · dsimp only
    split
    · rename_i hlt
      have hlen : len < 32 := by
        rcases Nat.lt_or_ge len 32 with h' | h'
        · exact h'
        · have : len = 32 := by omega
          subst this
          have e1 : mn / 2 ^ 32 = 0 := Nat.div_eq_of_lt hmn
          have e2 : v % 2 ^ 32 = v := Nat.mod_eq_of_lt hv
          rw [e1] at hlt; omega
      rw [suffixMask_succ hlen]
      have hne : mn / 2 ^ len < v / 2 ^ len := by
        rcases Nat.lt_or_ge (mn / 2 ^ len) (v / 2 ^ len) with h' | h'
        · exact h'
        · have : mn / 2 ^ len = v / 2 ^ len := by omega
          rw [this] at hlt; omega
      have : 2 ^ len * (mn / 2 ^ len + 1) ≤ 2 ^ len * (v / 2 ^ len) := Nat.mul_le_mul_left _ hne
      rw [Nat.mul_add] at this
      omega
    · have : 2 ^ len * (mn / 2 ^ len) ≤ 2 ^ len * (v / 2 ^ len) := Nat.mul_le_mul_left _ hd
      omega
  · omega

theorem roundDown_spec {len : Nat} (h : len ≤ 32) {suf : BitVec 32} (hs : suf.toNat < 2 ^ len) {mx v : Nat}
    (hm : mx < 4294967296) (h1 : v ≤ mx) (h2 : v % 2 ^ len = suf.toNat) :
    roundDown mx (suffixMask len) suf ≤ mx ∧ v ≤ roundDown mx (suffixMask len) suf := by
  have hv : v < 4294967296 := by omega
  have hv' := Nat.div_add_mod v (2 ^ len)
  have hm' := Nat.div_add_mod mx (2 ^ len)
  have hml := Nat.mod_lt mx (Nat.two_pow_pos len)
  have hd := Nat.div_le_div_right (c := 2 ^ len) h1
  unfold roundDown
  rw [and_suffixMask h, next_eq h hm hs]
  split
  · dsimp only
    split
    · rename_i hlt
      have hlen : len < 32 := by
        rcases Nat.lt_or_ge len 32 with h' | h'
        · exact h'
        · have : len = 32 := by omega
          subst this
          have e1 : mx / 2 ^ 32 = 0 := Nat.div_eq_of_lt hm
          have e2 : v % 2 ^ 32 = v := Nat.mod_eq_of_lt hv
          rw [e1] at hlt; omega
      rw [suffixMask_succ hlen]
      have hne : v / 2 ^ len < mx / 2 ^ len := by
        rcases Nat.lt_or_ge (v / 2 ^ len) (mx / 2 ^ len) with h' | h'
        · exact h'
        · have : v / 2 ^ len = mx / 2 ^ len := by omega
          rw [← this] at hlt; omega
      have : 2 ^ len * (v / 2 ^ len + 1) ≤ 2 ^ len * (mx / 2 ^ len) := Nat.mul_le_mul_left _ hne
      rw [Nat.mul_add] at this
      unfold sub64
      have hp : 2 ^ len < 4294967296 := Nat.pow_lt_pow_right (a := 2) (m := len) (n := 32) (by decide) hlen
      omega
    · have : 2 ^ len * (v / 2 ^ len) ≤ 2 ^ len * (mx / 2 ^ len) := Nat.mul_le_mul_left _ hd
      omega
  · omega

theorem bitPrefixBounds_spec (r : IRange) :
    ∃ mn mx, bitPrefixBounds r = some (mn, mx) ∧ r.umin ≤ mn ∧ mx ≤ r.umax ∧
      ∀ v, Mem v r → mn ≤ v.toNat ∧ v.toNat ≤ mx := by
  unfold bitPrefixBounds
  by_cases h : r.ones ||| r.zeros = BitVec.allOnes 32
  · refine ⟨_, _, by rw [if_pos h], by omega, by omega, ?_⟩
    intro v m
    have := all_known m h
    subst this
    have := m.ulo; have := m.uhi
    omega
  · obtain ⟨L, hL⟩ := clz_some_of_ne (not_ne_zero h)
    obtain ⟨h1, h3⟩ := clz_spec hL
    refine ⟨_, _, by rw [if_neg h, hL]; rfl, by omega, by omega, ?_⟩
    intro v m
    have hand : r.ones &&& hiMask L = v &&& hiMask L := by
      apply BitVec.eq_of_getLsbD_eq
      intro i hi
      rw [BitVec.getLsbD_and, BitVec.getLsbD_and, hiMask_getLsbD _ _ h1]
      by_cases hk : 32 - L ≤ i
      · have := known_bit (i := i) m (by
          have := h3 i hk
          rw [BitVec.getLsbD_not, decide_eq_true hi, Bool.true_and] at this
          cases hx : (r.ones ||| r.zeros).getLsbD i
          · rw [hx] at this; exact absurd this (by decide)
          · rfl)
        rw [this]
      · simp [hk]
    have ha := m.ulo
    have hb := m.uhi
    have h4 : (r.ones &&& hiMask L).toNat ≤ v.toNat := by
      rw [hand, BitVec.toNat_and]; exact Nat.and_le_left
    have h5 : v.toNat ≤ (r.ones &&& hiMask L ||| ~~~hiMask L).toNat := by
      have : (r.ones &&& hiMask L ||| ~~~hiMask L) = v ||| ~~~hiMask L := by
        rw [hand]
        apply BitVec.eq_of_getLsbD_eq
        intro i hi
        simp only [BitVec.getLsbD_and, BitVec.getLsbD_or, BitVec.getLsbD_not, hi]
        cases (hiMask L).getLsbD i <;> simp
      rw [this, BitVec.toNat_or]; exact Nat.left_le_or
    constructor
    · exact Nat.max_le.mpr ⟨ha, h4⟩
    · exact Nat.le_min.mpr ⟨hb, h5⟩

theorem bit2Unsigned_spec (nd : Bool) (r : IRange) (w : WF r) (ne : ∃ v, Mem v r) :
    ∃ r', bit2Unsigned nd r = some r' ∧ Tighter r' r ∧ ∀ v, Mem v r → Mem v r' := by
  obtain ⟨mn, mx, e1, b1, b2, b3⟩ := bitPrefixBounds_spec r
  obtain ⟨suf, len, e2, l1, l2, l3⟩ := inferSuffix_spec r
  have key : ∀ v, Mem v r → (mn ≤ roundUp mn (suffixMask len) suf ∧ roundUp mn (suffixMask len) suf ≤ v.toNat) ∧
      (roundDown mx (suffixMask len) suf ≤ mx ∧ v.toNat ≤ roundDown mx (suffixMask len) suf) := by
    intro v m
    have hb := b3 v m
    have hw := w.u
    exact ⟨roundUp_spec l1 l2 v.isLt hb.1 (l3 v m), roundDown_spec l1 l2 (by omega) hb.2 (l3 v m)⟩
  obtain ⟨v0, m0⟩ := ne
  have k0 := key v0 m0
  refine ⟨{ r with umin := roundUp mn (suffixMask len) suf, umax := roundDown mx (suffixMask len) suf }, ?_, ?_, ?_⟩
  · unfold bit2Unsigned
    have hc : cassert nd (roundUp mn (suffixMask len) suf ≤ roundDown mx (suffixMask len) suf) = some () := by
      unfold cassert; rw [if_pos]; right; omega
    rw [e1, e2]
    show (cassert nd _).bind _ = _
    rw [hc]; rfl
  · exact ⟨by show r.umin ≤ roundUp _ _ _; omega, by show roundDown _ _ _ ≤ r.umax; omega, Int.le_refl _, Int.le_refl _,
      fun _ h => h, fun _ h => h⟩
  · intro v m
    have k := key v m
    exact ⟨k.1.2, k.2.2, m.slo, m.shi, m.z, m.o⟩

/-- `sync` on a range with a member: no assertion fires, membership is unchanged, and it only tightens. -/
theorem sync_spec (nd : Bool) (r : IRange) (w : WF r) (ne : ∃ v, Mem v r) :
    ∃ r', sync nd r = some r' ∧ Tighter r' r ∧ ∀ v, Mem v r → Mem v r' := by
  obtain ⟨v0, m0⟩ := ne
  have t1 := signed2Unsigned_tighter r
  have w1 := t1.wf w
  have n1 := signed2Unsigned_mem m0 w
  obtain ⟨r2, e2, t2, m2⟩ := unsigned2Bit_spec _ w1
  have w2 := t2.wf w1
  obtain ⟨r3, e3, t3, m3⟩ := bit2Unsigned_spec nd r2 w2 ⟨v0, m2 _ n1⟩
  have w3 := t3.wf w2
  have t4 := unsigned2Signed_tighter r3
  have w4 := t4.wf w3
  obtain ⟨r5, e5, t5, m5⟩ := signed2Bit_spec _ w4
  refine ⟨r5, ?_, ?_, ?_⟩
  · unfold sync
    simp [e2, e3, e5]
  · exact t5.trans (t4.trans (t3.trans (t2.trans t1)))
  · intro v m
    exact m5 _ (unsigned2Signed_mem (m3 _ (m2 _ (signed2Unsigned_mem m w))) w3)

end Cmmc.Range
