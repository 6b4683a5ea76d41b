import Verif.Range.Spec
/-! Bit-level lemmas for the range proofs. -/
namespace Cmmc.Range

theorem find_range_some {n : Nat} {p : Nat → Bool} {k : Nat} (h : (List.range n).find? p = some k) :
    k < n ∧ p k = true ∧ ∀ j, j < k → p j = false := by
  rw [List.find?_range_eq_some] at h
  obtain ⟨h1, h2, h3⟩ := h
  refine ⟨?_, h1, ?_⟩
  · simpa using h2
  · intro j hj; simpa using h3 j hj

theorem find_range_none {n : Nat} {p : Nat → Bool} (h : (List.range n).find? p = none) :
    ∀ j, j < n → p j = false := by
  intro j hj
  have := List.find?_eq_none.mp h j (by simpa using hj)
  simpa using this

theorem clz_some_of_ne {x : BitVec 32} (h : x ≠ 0#32) : ∃ k, clz x = some k := by
  cases hc : clz x with
  | some k => exact ⟨k, rfl⟩
  | none =>
    exfalso; apply h
    apply BitVec.eq_of_getMsbD_eq
    intro i hi
    have := find_range_none hc i hi
    simp [this]

theorem ctz_some_of_ne {x : BitVec 32} (h : x ≠ 0#32) : ∃ k, ctz x = some k := by
  cases hc : ctz x with
  | some k => exact ⟨k, rfl⟩
  | none =>
    exfalso; apply h
    apply BitVec.eq_of_getLsbD_eq
    intro i hi
    have := find_range_none hc i hi
    simp [this]

theorem clz_spec {x : BitVec 32} {k : Nat} (h : clz x = some k) :
    k < 32 ∧ ∀ i, 32 - k ≤ i → x.getLsbD i = false := by
  obtain ⟨h1, h2, h3⟩ := find_range_some h
  refine ⟨h1, ?_⟩
  intro i hi
  by_cases h32 : i < 32
  · have := h3 (31 - i) (by omega)
    rw [BitVec.getMsbD_eq_getLsbD] at this
    have h4 : 32 - 1 - (31 - i) = i := by omega
    rw [h4] at this
    simp at this
    exact this (by omega)
  · exact BitVec.getLsbD_of_ge _ _ (by omega)

theorem ctz_spec {x : BitVec 32} {k : Nat} (h : ctz x = some k) :
    k < 32 ∧ x.getLsbD k = true ∧ ∀ i, i < k → x.getLsbD i = false := find_range_some h

theorem hiMask_getLsbD (L i : Nat) (hL : L < 32) : (hiMask L).getLsbD i = (decide (i < 32) && decide (32 - L ≤ i)) := by
  unfold hiMask
  simp only [BitVec.getLsbD_not, BitVec.getLsbD_ushiftRight, BitVec.getLsbD_shiftLeft, BitVec.getLsbD_allOnes]
  by_cases h : i < 32 <;> by_cases h' : i + L < 32
  · have : ¬ (32 - L ≤ i) := by omega
    have h2 : L + i < 32 := by omega
    simp [h, this, h2]
  · have : (32 - L ≤ i) := by omega
    have h2 : ¬ (L + i < 32) := by omega
    simp [h, this, h2]
  · omega
  · simp [h]

theorem loMask_getLsbD (L i : Nat) (hL : L < 32) : (loMask L).getLsbD i = decide (i < L) := by
  unfold loMask
  have h : (1#32 <<< L - 1#32).toNat = 2 ^ L - 1 := by
    have h1 : (1#32 <<< L).toNat = 2 ^ L := by
      rw [BitVec.toNat_shiftLeft, Nat.shiftLeft_eq]
      simp
      exact (Nat.pow_lt_pow_right (m := L) (n := 32) (a := 2) (by decide) hL)
    have h2 : 1 ≤ 2 ^ L := Nat.one_le_two_pow
    have h3 : (1#32 <<< L) ≥ 1#32 := by
      rw [ge_iff_le, BitVec.le_def, h1]; simpa using h2
    rw [BitVec.toNat_sub_of_le h3, h1]; rfl
  rw [BitVec.getLsbD, h, Nat.testBit_two_pow_sub_one]

theorem loMask_toNat (L : Nat) (hL : L < 32) : (loMask L).toNat = 2 ^ L - 1 := by
  unfold loMask
  have h1 : (1#32 <<< L).toNat = 2 ^ L := by
    rw [BitVec.toNat_shiftLeft, Nat.shiftLeft_eq]
    simp
    exact (Nat.pow_lt_pow_right (m := L) (n := 32) (a := 2) (by decide) hL)
  have h2 : 1 ≤ 2 ^ L := Nat.one_le_two_pow
  have h3 : (1#32 <<< L) ≥ 1#32 := by
    rw [ge_iff_le, BitVec.le_def, h1]; simpa using h2
  rw [BitVec.toNat_sub_of_le h3, h1]; rfl

/-- values between `lo` and `hi` share the prefix above position `k` when `lo` and `hi` do -/
theorem prefix_shared (lo hi v : BitVec 32) (k : Nat) (hp : ∀ i, k ≤ i → (lo ^^^ hi).getLsbD i = false)
    (h1 : lo.toNat ≤ v.toNat) (h2 : v.toNat ≤ hi.toNat) : ∀ i, k ≤ i → v.getLsbD i = lo.getLsbD i := by
  have hs : lo.toNat >>> k = hi.toNat >>> k := by
    apply Nat.eq_of_testBit_eq
    intro i
    rw [Nat.testBit_shiftRight, Nat.testBit_shiftRight]
    have := hp (k + i) (by omega)
    rw [BitVec.getLsbD_xor] at this
    simp only [BitVec.getLsbD] at this
    revert this
    cases lo.toNat.testBit (k + i) <;> cases hi.toNat.testBit (k + i) <;> simp
  have hv : v.toNat >>> k = lo.toNat >>> k := by
    rw [Nat.shiftRight_eq_div_pow] at *
    rw [Nat.shiftRight_eq_div_pow] at *
    have a := Nat.div_le_div_right (c := 2 ^ k) h1
    have b := Nat.div_le_div_right (c := 2 ^ k) h2
    omega
  intro i hi'
  have := congrArg (fun n => n.testBit (i - k)) hv
  simp only [Nat.testBit_shiftRight] at this
  have e : k + (i - k) = i := by omega
  rw [e] at this
  exact this

end Cmmc.Range
