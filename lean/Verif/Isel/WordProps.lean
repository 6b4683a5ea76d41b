import Verif.Isel.Rules

/-!
# Facts about typed values in registers
-/

namespace Cmmc.Isel

theorem Ty.width_pos (t : Ty) : 0 < t.width := by cases t <;> decide
theorem Ty.width_le (t : Ty) : t.width ≤ 64 := by cases t <;> decide

theorem prj_inj (t : Ty) (v : BitVec t.width) : prj t (inj t v) = v := by
  cases t <;> simp only [prj, inj, Ty.width] at v ⊢
  · exact BitVec.setWidth_setWidth_of_le v (by omega) |>.trans (by simp)
  all_goals first
    | (ext i hi
       rw [BitVec.getElem_setWidth, BitVec.getLsbD_signExtend, if_pos hi, BitVec.getLsbD_eq_getElem hi]
       simp [show i < 64 by omega])
    | simp

theorem holds_inj (t : Ty) (v : BitVec t.width) : Holds t (inj t v) := by
  unfold Holds; rw [prj_inj]

theorem holds_i64 (x : W) : Holds .i64 x := by simp [Holds, prj, inj, Ty.width]

theorem holds_sx (v : BitVec 32) : Holds .i32 (sx v) := holds_inj .i32 v

theorem holds_bit (b : Bool) : Holds .b (bit b) := by cases b <;> decide

theorem holds_b {x : W} : Holds .b x ↔ x = 0 ∨ x = 1 := by
  constructor
  · intro h
    have h1 : (prj .b x) = 0 ∨ prj .b x = 1 := by
      have hl : (prj .b x).toNat < 2 := (prj .b x).isLt
      rcases (show (prj .b x).toNat = 0 ∨ (prj .b x).toNat = 1 by omega) with h0 | h0
      · exact Or.inl (BitVec.eq_of_toNat_eq h0)
      · exact Or.inr (BitVec.eq_of_toNat_eq h0)
    rcases h1 with h1 | h1
    · left; rw [← h, h1]; rfl
    · right; rw [← h, h1]; rfl
  · rintro (rfl | rfl) <;> decide

theorem holds_zero (t : Ty) : Holds t 0 := by cases t <;> decide
theorem holds_one (t : Ty) : Holds t 1 := by cases t <;> decide

theorem inj_i32 (v : BitVec 32) : inj .i32 v = sx v := rfl
theorem prj_i32 (x : W) : prj .i32 x = lo x := rfl
theorem inj_i64 (v : BitVec 64) : inj .i64 v = v := rfl
theorem prj_i64 (x : W) : prj .i64 x = x := by simp [prj, Ty.width]

theorem holds_i32 {x : W} : Holds .i32 x ↔ sx (lo x) = x := Iff.rfl

/-- The signed value of a register of a type other than boolean is the typed value. -/
theorem toInt_prj {t : Ty} (ht : t ≠ .b) {x : W} (h : Holds t x) : (prj t x).toInt = x.toInt := by
  conv_rhs => rw [← h]
  cases t
  · exact absurd rfl ht
  all_goals simp only [inj, Ty.width]
  all_goals exact (BitVec.toInt_signExtend_of_le (by omega)).symm

/-- The typed values are those in the signed range. -/
theorem holds_iff {t : Ty} (ht : t ≠ .b) {x : W} :
    Holds t x ↔ -2 ^ (t.width - 1) ≤ x.toInt ∧ x.toInt < 2 ^ (t.width - 1) := by
  constructor
  · intro h
    rw [← toInt_prj ht h]
    exact ⟨BitVec.le_toInt _, BitVec.toInt_lt⟩
  · intro h
    have hp : (prj t x).toInt = x.toInt := by
      unfold prj
      rw [BitVec.toInt_setWidth, BitVec.toInt_eq_toNat_bmod] at *
      cases t
      · exact absurd rfl ht
      all_goals simp only [Ty.width] at h ⊢
      all_goals
        have := x.isLt
        simp only [Int.bmod_def] at h ⊢
        norm_num at h ⊢
        split_ifs at h ⊢ <;> omega
    unfold Holds
    apply BitVec.eq_of_toInt_eq
    rw [← hp]
    cases t
    · exact absurd rfl ht
    all_goals simp only [inj, Ty.width]
    all_goals exact BitVec.toInt_signExtend_of_le (by omega)

theorem prj_inj_iff {t : Ty} {x y : W} (hx : Holds t x) (hy : Holds t y) :
    prj t x = prj t y ↔ x = y := by
  constructor
  · intro h; rw [← hx, ← hy, h]
  · rintro rfl; rfl

theorem toNat_prj_b {x : W} (h : Holds .b x) : (prj .b x).toNat = x.toNat := by
  rcases holds_b.mp h with rfl | rfl <;> rfl

/-- Unsigned comparison in terms of signed values. -/
theorem ult_toInt {w : ℕ} (hw : 0 < w) (x y : BitVec w) :
    x.ult y = decide ((0 ≤ x.toInt ∧ y.toInt < 0) ∨ ((0 ≤ x.toInt ↔ 0 ≤ y.toInt) ∧ x.toInt < y.toInt)) := by
  rw [BitVec.ult_eq_decide]
  have hx := x.isLt
  have hy := y.isLt
  have e : (2 : ℤ) ^ w = ((2 ^ w : ℕ) : ℤ) := by push_cast; rfl
  obtain ⟨h, hh⟩ : ∃ h, 2 ^ w = 2 * h := ⟨2 ^ (w - 1), by
    rw [← pow_succ']; congr 1; omega⟩
  apply decide_eq_decide.mpr
  rw [BitVec.toInt_eq_toNat_cond, BitVec.toInt_eq_toNat_cond]
  rw [hh] at hx hy ⊢
  split_ifs <;> push_cast <;> omega

theorem slt_prj {t : Ty} (ht : t ≠ .b) {x y : W} (hx : Holds t x) (hy : Holds t y) :
    (prj t x).slt (prj t y) = x.slt y := by
  rw [BitVec.slt_eq_decide, BitVec.slt_eq_decide, toInt_prj ht hx, toInt_prj ht hy]

theorem sle_prj {t : Ty} (ht : t ≠ .b) {x y : W} (hx : Holds t x) (hy : Holds t y) :
    (prj t x).sle (prj t y) = x.sle y := by
  rw [BitVec.sle_eq_decide, BitVec.sle_eq_decide, toInt_prj ht hx, toInt_prj ht hy]

theorem ult_prj {t : Ty} {x y : W} (hx : Holds t x) (hy : Holds t y) :
    (prj t x).ult (prj t y) = x.ult y := by
  by_cases ht : t = .b
  · subst ht
    rw [BitVec.ult_eq_decide, BitVec.ult_eq_decide, toNat_prj_b hx, toNat_prj_b hy]
  · rw [ult_toInt t.width_pos, ult_toInt (by omega), toInt_prj ht hx, toInt_prj ht hy]

theorem ule_prj {t : Ty} {x y : W} (hx : Holds t x) (hy : Holds t y) :
    (prj t x).ule (prj t y) = x.ule y := by
  have h := ult_prj hy hx
  have e : ∀ {w : ℕ} (a b : BitVec w), a.ule b = !b.ult a := by
    intro w a b
    rw [BitVec.ule_eq_decide, BitVec.ult_eq_decide, ← decide_not]
    exact decide_eq_decide.mpr (by omega)
  rw [e, e, h]

/-- Comparing typed values is comparing the registers, except for signed comparisons of booleans. -/
theorem CC.run_prj {t : Ty} {c : CC} (hc : c.signed = true → t ≠ .b) {x y : W} (hx : Holds t x)
    (hy : Holds t y) : c.run (prj t x) (prj t y) = c.run x y := by
  cases c <;> simp only [CC.run, CC.signed] at hc ⊢
  · rw [Bool.eq_iff_iff]; simp [prj_inj_iff hx hy]
  · rw [Bool.eq_iff_iff]; simp [prj_inj_iff hx hy]
  · exact slt_prj (hc trivial) hx hy
  · exact sle_prj (hc trivial) hx hy
  · exact slt_prj (hc trivial) hy hx
  · exact sle_prj (hc trivial) hy hx
  · exact ult_prj hx hy
  · exact ule_prj hx hy
  · exact ult_prj hy hx
  · exact ule_prj hy hx

theorem CC.run_rev {w : ℕ} (c : CC) (x y : BitVec w) : c.rev.run y x = c.run x y := by
  cases c <;> simp only [CC.run, CC.rev]
  · exact BEq.comm
  · rw [bne, bne, BEq.comm]

/-! ## Bitwise operations -/

theorem inj_and {t : Ty} (u v : BitVec t.width) : inj t (u &&& v) = inj t u &&& inj t v := by
  cases t <;> simp only [inj, Ty.width] at u v ⊢
  · exact BitVec.setWidth_and
  all_goals first | exact BitVec.signExtend_and | rfl

theorem inj_or {t : Ty} (u v : BitVec t.width) : inj t (u ||| v) = inj t u ||| inj t v := by
  cases t <;> simp only [inj, Ty.width] at u v ⊢
  · exact BitVec.setWidth_or
  all_goals first | exact BitVec.signExtend_or | rfl

theorem inj_xor {t : Ty} (u v : BitVec t.width) : inj t (u ^^^ v) = inj t u ^^^ inj t v := by
  cases t <;> simp only [inj, Ty.width] at u v ⊢
  · exact BitVec.setWidth_xor
  all_goals first | exact BitVec.signExtend_xor | rfl

theorem and_prj {t : Ty} {x y : W} (hx : Holds t x) (hy : Holds t y) :
    inj t (prj t x &&& prj t y) = x &&& y := by rw [inj_and, hx, hy]
theorem or_prj {t : Ty} {x y : W} (hx : Holds t x) (hy : Holds t y) :
    inj t (prj t x ||| prj t y) = x ||| y := by rw [inj_or, hx, hy]
theorem xor_prj {t : Ty} {x y : W} (hx : Holds t x) (hy : Holds t y) :
    inj t (prj t x ^^^ prj t y) = x ^^^ y := by rw [inj_xor, hx, hy]

end Cmmc.Isel
