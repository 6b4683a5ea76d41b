import Verif.Isel.RuleWords

/-!
# Every selection rule is sound
-/

namespace Cmmc.Isel

open Tm

theorem Rule.ty_eq {s t : Tm} (h : Rule s t) : t.ty = s.ty := by cases h <;> rfl

theorem AsReg.ok {env a a' x} (h : AsReg a a') (ha : Ok env a x) :
    Ok env a' x ∧ a'.ty = a.ty ∧ a'.isImm = false := by
  cases h with
  | keep h => exact ⟨ha, rfl, h⟩
  | zero =>
    obtain ⟨rfl, -⟩ := ok_imm.mp ha
    exact ⟨ok_zero.mpr rfl, rfl, rfl⟩
  | load =>
    exact ⟨ok_li.mpr (ok_imm.mp ha), rfl, rfl⟩

theorem fits_of_reg {o : Rv2} {a : Tm} (h : a.isImm = false) : a.fits o = true := by
  cases a <;> simp_all [Tm.isImm, Tm.fits]

theorem run_g {o : GBin} {t s : Ty} {x y v : W} :
    (BOp.g o).run t s x y = some v ↔ ∃ z, o.run (prj t x) (prj t y) = some z ∧ inj t z = v := by
  simp [BOp.run]

theorem rvSDiv_ok {w : ℕ} (p q : BitVec w) (h : ¬ (q = 0 ∨ p = BitVec.intMin w ∧ q = -1)) :
    rvSDiv p q = BitVec.ofInt w (p.toInt.tdiv q.toInt) := by
  rw [rvSDiv, if_neg (fun e => h (Or.inl e)), sdiv_ofInt]

theorem rvSRem_ok {w : ℕ} (p q : BitVec w) (h : ¬ (q = 0 ∨ p = BitVec.intMin w ∧ q = -1)) :
    rvSRem p q = BitVec.ofInt w (p.toInt.tmod q.toInt) := by
  rw [rvSRem, if_neg (fun e => h (Or.inl e)), srem_ofInt]

theorem rvUDiv_ok {w : ℕ} (p q : BitVec w) (h : ¬ q = 0) : rvUDiv p q = p.udiv q := by
  rw [rvUDiv, if_neg h]

theorem rvURem_ok {w : ℕ} (p q : BitVec w) (h : ¬ q = 0) : rvURem p q = p.umod q := by
  rw [rvURem, if_neg h]

/-- The one-instruction patterns. -/
theorem binSel_sound {o : GBin} {o' : Rv2} {t : Ty} (h : binSel o t = some o') {x y : W}
    (hx : Holds t x) (hy : Holds t y) {z : BitVec t.width}
    (hz : o.run (prj t x) (prj t y) = some z) : o'.run x y = inj t z := by
  cases o <;> cases t <;>
    simp only [binSel, Option.some.injEq, reduceCtorEq] at h <;> subst h <;>
    simp only [GBin.run, Option.some.injEq, Option.ite_none_left_eq_some,
      Option.ite_none_right_eq_some] at hz
  -- add
  · subst hz; rfl
  · subst hz; rw [prj_i64, prj_i64]; rfl
  -- sub
  · subst hz; rfl
  · subst hz; rw [prj_i64, prj_i64]; rfl
  -- mul
  · subst hz; rfl
  · subst hz; rw [prj_i64, prj_i64]; rfl
  -- and
  iterate 5 (· subst hz; exact (and_prj hx hy).symm)
  iterate 5 (· subst hz; exact (or_prj hx hy).symm)
  iterate 5 (· subst hz; exact (xor_prj hx hy).symm)
  -- shl
  · obtain ⟨h1, rfl⟩ := hz
    show sx (lo x <<< (y.toNat % 32)) = sx (lo x <<< (lo y).toNat)
    rw [shamt32 h1]
  · obtain ⟨h1, rfl⟩ := hz
    rw [prj_i64] at h1
    rw [prj_i64, prj_i64]
    show x <<< (y.toNat % 64) = x <<< y.toNat
    rw [shamt64 h1]
  · obtain ⟨h1, rfl⟩ := hz
    show sx (lo x >>> (y.toNat % 32)) = sx (lo x >>> (lo y).toNat)
    rw [shamt32 h1]
  · obtain ⟨h1, rfl⟩ := hz
    rw [prj_i64] at h1
    rw [prj_i64, prj_i64]
    show x >>> (y.toNat % 64) = x >>> y.toNat
    rw [shamt64 h1]
  · obtain ⟨h1, rfl⟩ := hz
    show sx ((lo x).sshiftRight (y.toNat % 32)) = sx ((lo x).sshiftRight (lo y).toNat)
    rw [shamt32 h1]
  · obtain ⟨h1, rfl⟩ := hz
    rw [prj_i64] at h1
    rw [prj_i64, prj_i64]
    show x.sshiftRight (y.toNat % 64) = x.sshiftRight y.toNat
    rw [shamt64 h1]
  -- smin
  iterate 4 (
    · subst hz
      rw [slt_prj (by decide) hx hy]
      simp only [Rv2.run]
      split_ifs
      · exact hx.symm
      · exact hy.symm)
  iterate 4 (
    · subst hz
      rw [slt_prj (by decide) hx hy]
      simp only [Rv2.run]
      split_ifs
      · exact hy.symm
      · exact hx.symm)
  -- sdiv
  · obtain ⟨h1, rfl⟩ := hz
    exact congrArg sx (rvSDiv_ok (lo x) (lo y) h1)
  · obtain ⟨h1, rfl⟩ := hz
    rw [prj_i64, prj_i64] at *
    exact rvSDiv_ok x y h1
  · obtain ⟨h1, rfl⟩ := hz
    exact congrArg sx (rvSRem_ok (lo x) (lo y) h1)
  · obtain ⟨h1, rfl⟩ := hz
    rw [prj_i64, prj_i64] at *
    exact rvSRem_ok x y h1
  · obtain ⟨h1, rfl⟩ := hz
    exact congrArg sx (rvUDiv_ok (lo x) (lo y) h1)
  · obtain ⟨h1, rfl⟩ := hz
    rw [prj_i64, prj_i64] at *
    exact rvUDiv_ok x y h1
  · obtain ⟨h1, rfl⟩ := hz
    exact congrArg sx (rvURem_ok (lo x) (lo y) h1)
  · obtain ⟨h1, rfl⟩ := hz
    rw [prj_i64, prj_i64] at *
    exact rvURem_ok x y h1

theorem GBin.run_comm {w : ℕ} {o : GBin} (h : o.comm = true) (x y : BitVec w) : o.run x y = o.run y x := by
  cases o <;> simp only [GBin.comm, Bool.false_eq_true] at h <;> simp only [GBin.run, Option.some.injEq]
  · exact BitVec.add_comm _ _
  · exact BitVec.mul_comm _ _
  · exact BitVec.and_comm _ _
  · exact BitVec.or_comm _ _
  · exact BitVec.xor_comm _ _
  · simp only [BitVec.slt_eq_decide, decide_eq_true_eq]
    split_ifs <;> first | rfl | omega | (apply BitVec.eq_of_toInt_eq; omega)
  · simp only [BitVec.slt_eq_decide, decide_eq_true_eq]
    split_ifs <;> first | rfl | omega | (apply BitVec.eq_of_toInt_eq; omega)

/-- Rules that turn a generic node into a machine node on the same operands, or swap them. -/
theorem ok_mk2 {env : ℕ → W} {o : Rv2} {t : Ty} {a b : Tm} {x y v : W} (ha : Ok env a x) (hb : Ok env b y)
    (hv : Holds t v) (e : o.run x y = v) (h1 : a.isImm = false) (h2 : b.fits o = true) :
    Ok env (bin (.r o) t a b) v :=
  ok_bin.mpr ⟨x, y, ha, hb, by rw [← e]; rfl, hv, trivial, h1, h2⟩

theorem ok_mk1 {env : ℕ → W} {o : Rv1} {t : Ty} {a : Tm} {x v : W} (ha : Ok env a x)
    (hv : Holds t v) (e : o.run x = v) (h1 : a.isImm = false) : Ok env (un (.r o) t a) v :=
  ok_un.mpr ⟨x, ha, e, hv, trivial, h1⟩

/-- An immediate of type `Int32`. -/
theorem ok_imm32 {env : ℕ → W} {v : ℤ} (h : -2 ^ 31 ≤ v ∧ v < 2 ^ 31) : Ok env (imm .i32 v) (immW v) :=
  ok_imm.mpr ⟨rfl, ⟨by omega, by omega⟩, by
    rw [holds_iff (by decide), immW_toInt ⟨by omega, by omega⟩]; exact h⟩

theorem imm_range32 {v : ℤ} (hr : -2 ^ 63 ≤ v ∧ v < 2 ^ 63) (h : Holds .i32 (immW v)) :
    -2 ^ 31 ≤ v ∧ v < 2 ^ 31 := by
  rw [holds_iff (by decide), immW_toInt hr] at h
  exact h

theorem lo_immW (v : ℤ) : lo (immW v) = BitVec.ofInt 32 v := lo_ofInt v

theorem imm12_iff {v : ℤ} : imm12 v = true ↔ -2048 ≤ v ∧ v ≤ 2047 := by simp [imm12]

/-- `buildMul64Imm` as a tree computes `buildMul64Imm`. -/
theorem mulTm_ok {env : ℕ → W} {a : Tm} {x : W} (ha : Ok env a x) (hi : a.isImm = false) {g : Magic}
    (hm : -2 ^ 63 ≤ g.magic ∧ g.magic < 2 ^ 63) :
    Ok env (mulTm a g) (buildMul64Imm x g) ∧ (mulTm a g).isImm = false := by
  have hprod : ∀ P : Tm, ∀ p : W, Ok env P p → P.isImm = false →
      Ok env (bin (.r .srl) .i64 P (imm .i32 32)) (Rv2.srl.run p (immW 32)) := by
    intro P p hP hPi
    exact ok_mk2 hP (ok_imm32 (by norm_num)) (holds_i64 _) rfl hPi rfl
  have hprod2 : Ok env (if isPow2 (immW g.magic).toNat then
        bin (.r .sll) .i64 a (imm .i32 (ilog2 (immW g.magic).toNat))
      else bin (.r .mul) .i64 a (li .i64 g.magic))
      (if isPow2 (immW g.magic).toNat then Rv2.sll.run x (immW (ilog2 (immW g.magic).toNat))
        else Rv2.mul.run x (immW g.magic)) ∧
      (if isPow2 (immW g.magic).toNat then
        bin (.r .sll) .i64 a (imm .i32 (ilog2 (immW g.magic).toNat))
      else bin (.r .mul) .i64 a (li .i64 g.magic)).isImm = false := by
    split_ifs with hp
    · have hlt : ilog2 (immW g.magic).toNat < 64 := by
        have h1 := (immW g.magic).isLt
        rw [isPow2_iff hp] at h1
        exact (Nat.pow_lt_pow_iff_right (by norm_num)).mp h1
      refine ⟨ok_mk2 ha (ok_imm32 ⟨by omega, by omega⟩) (holds_i64 _) rfl hi ?_, rfl⟩
      simp only [Tm.fits, immOk, decide_eq_true_eq]
      omega
    · exact ⟨ok_mk2 ha (ok_li.mpr ⟨rfl, hm, holds_i64 _⟩) (holds_i64 _) rfl hi rfl, rfl⟩
  have hout := hprod _ _ hprod2.1 hprod2.2
  unfold mulTm buildMul64Imm
  simp only
  by_cases h0 : g.factor = 0
  · rw [if_pos h0, if_pos h0]; exact ⟨hout, rfl⟩
  · rw [if_neg h0, if_neg h0]
    by_cases h1 : g.factor = 1
    · rw [if_pos h1, if_pos h1]
      exact ⟨ok_mk2 hout ha (holds_i64 _) rfl rfl (fits_of_reg hi), rfl⟩
    · rw [if_neg h1, if_neg h1]
      exact ⟨ok_mk2 hout ha (holds_i64 _) rfl rfl (fits_of_reg hi), rfl⟩

theorem addImm32_ok {env : ℕ → W} {v : ℤ} (h : -2 ^ 31 ≤ v ∧ v < 2 ^ 31) :
    Ok env (addImm32 v) (immW v) ∧ (addImm32 v).fits .addw = true := by
  unfold addImm32
  split_ifs with h1
  · exact ⟨ok_imm32 h, h1⟩
  · exact ⟨ok_li.mpr (ok_imm.mp (ok_imm32 (env := env) h)), rfl⟩

end Cmmc.Isel
