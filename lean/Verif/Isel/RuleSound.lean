import Verif.Isel.RulesProps

/-!
# Every selection rule is sound
-/

namespace Cmmc.Isel

open Tm

theorem isZero_ok {env : ℕ → W} {z : Tm} {y : W} (h : ∃ s, z = zero s ∨ z = imm s 0) (hz : Ok env z y) :
    y = 0 := by
  obtain ⟨s, rfl | rfl⟩ := h
  · exact ok_zero.mp hz
  · exact (ok_imm.mp hz).1

theorem holds_ff_ty {t : Ty} (h : Holds t (immW 0xffff)) : t = .i32 ∨ t = .i64 := by
  revert h; cases t <;> decide

theorem shAdd_run {k : ℤ} {o : Rv2} (h : shAdd k = some o) :
    (0 ≤ k ∧ k < 64) ∧ ∀ x y : W, o.run x y = x <<< k.toNat + y := by
  unfold shAdd at h
  split at h <;> cases h
  all_goals exact ⟨by decide, fun _ _ => rfl⟩

theorem shAdd_no_imm {k : ℤ} {o : Rv2} (h : shAdd k = some o) (v : ℤ) : immOk o v = false := by
  unfold shAdd at h
  split at h <;> cases h <;> rfl

/-- `x << k` at `Int64` with a small constant. -/
theorem shl64_imm {x v : W} {k : ℤ} (hk : 0 ≤ k ∧ k < 64)
    (h : (BOp.g .shl).run .i64 .i64 x (immW k) = some v) : v = x <<< k.toNat := by
  obtain ⟨z, hz, rfl⟩ := run_g.mp h
  rw [prj_i64, prj_i64] at hz
  simp only [GBin.run] at hz
  have e : (immW k).toNat = k.toNat := immW_toNat hk.1 hk.2
  rw [if_pos (by show (immW k).toNat < 64; rw [e]; omega), Option.some.injEq] at hz
  rw [← hz]
  show x <<< (immW k).toNat = _
  rw [e]

theorem ofInt64_toInt_range (x : W) : -2 ^ 63 ≤ x.toInt ∧ x.toInt < 2 ^ 63 :=
  ⟨BitVec.le_toInt x, BitVec.toInt_lt⟩

theorem holds_imm_one (t : Ty) : Holds t (immW 1) := holds_one t

theorem Rule.sound {s t : Tm} (h : Rule s t) {env : ℕ → W} {v : W} (hs : Ok env s v) : Ok env t v := by
  have hv := hs.holds
  cases h with
  | comm h =>
    obtain ⟨x, y, ha, hb, e, h2, h3, h4⟩ := ok_bin.mp hs
    refine ok_bin.mpr ⟨y, x, hb, ha, ?_, h2, ⟨h3.2, h3.1⟩, trivial⟩
    simp only [BOp.run] at e ⊢
    rw [GBin.run_comm h]; exact e
  | @immL o _ _ _ _ h ho =>
    obtain ⟨x, y, ha, hb, e, h2, h3, h4⟩ := ok_bin.mp hs
    obtain ⟨g1, g2, g3⟩ := h.ok ha
    refine ok_bin.mpr ⟨x, y, g1, hb, by rw [g2]; exact e, h2, by rw [g2]; exact h3, ?_⟩
    cases o <;> simp_all [encB]
  | @immR o _ _ _ _ h ho =>
    obtain ⟨x, y, ha, hb, e, h2, h3, h4⟩ := ok_bin.mp hs
    obtain ⟨g1, g2, g3⟩ := h.ok hb
    refine ok_bin.mpr ⟨x, y, ha, g1, e, h2, by rw [g2]; exact h3, ?_⟩
    cases o <;> simp_all [encB]
  | @immU o _ _ _ h ho =>
    obtain ⟨x, ha, e, h2, h3, h4⟩ := ok_un.mp hs
    obtain ⟨g1, g2, g3⟩ := h.ok ha
    refine ok_un.mpr ⟨x, g1, by rw [g2]; exact e, h2, by rw [g2]; exact h3, ?_⟩
    cases o <;> simp_all [encU]
  | immC h =>
    obtain ⟨k, x, y, hc, ha, hb, e, h2, h3⟩ := ok_sel.mp hs
    obtain ⟨g1, g2, g3⟩ := h.ok hc
    exact ok_sel.mpr ⟨k, x, y, g1, ha, hb, e, h2, by rw [g2]; exact h3⟩
  | @andH t s a hi =>
    obtain ⟨x, y, ha, hb, e, h2, h3, h4⟩ := ok_bin.mp hs
    obtain ⟨rfl, hr, hh⟩ := ok_imm.mp hb
    obtain ⟨z, hz, rfl⟩ := run_g.mp e
    simp only [GBin.run, Option.some.injEq] at hz
    subst hz
    have hx : Holds t x := by have := ha.holds; rwa [h3.1] at this
    have hy : Holds t (immW 65535) := by have e3 : s = t := h3.2; rwa [e3] at hh
    refine ok_mk1 ha h2 ?_ hi
    rw [and_prj hx hy]
    exact (mask_eq x (k := 16) (by norm_num)).symm
  | @andW t s a hi =>
    obtain ⟨x, y, ha, hb, e, h2, h3, h4⟩ := ok_bin.mp hs
    obtain ⟨rfl, hr, hh⟩ := ok_imm.mp hb
    obtain ⟨z, hz, rfl⟩ := run_g.mp e
    simp only [GBin.run, Option.some.injEq] at hz
    subst hz
    have hx : Holds t x := by have := ha.holds; rwa [h3.1] at this
    have hy : Holds t (immW 4294967295) := by have e3 : s = t := h3.2; rwa [e3] at hh
    refine ok_mk1 ha h2 ?_ hi
    rw [and_prj hx hy]
    exact (mask_eq x (k := 32) (by norm_num)).symm
  | @subImm t s a v h12 ht =>
    obtain ⟨x, y, ha, hb, e, h2, h3, h4⟩ := ok_bin.mp hs
    obtain ⟨rfl, hr, hh⟩ := ok_imm.mp hb
    obtain ⟨z, hz, rfl⟩ := run_g.mp e
    have e3 : s = t := h3.2
    subst e3
    have h12 := imm12_iff.mp h12
    refine ok_bin.mpr ⟨x, immW (-v), ha, ok_imm.mpr ⟨rfl, ⟨by omega, by omega⟩, ?_⟩, ?_, h2, ⟨h3.1, rfl⟩, trivial⟩
    · rcases ht with rfl | rfl
      · rw [holds_iff (by decide), immW_toInt ⟨by omega, by omega⟩]
        simp only [Ty.width]; omega
      · exact holds_i64 _
    · rw [run_g]
      refine ⟨z, ?_, rfl⟩
      simp only [GBin.run, Option.some.injEq] at hz ⊢
      rw [← sub_imm ht]; exact hz
  | @neg t a =>
    obtain ⟨x, ha, e, h2, h3, h4⟩ := ok_un.mp hs
    refine ok_bin.mpr ⟨0, x, ok_zero.mpr rfl, ha, ?_, h2, ⟨h3.1, h3.1⟩, trivial⟩
    rw [run_g]
    refine ⟨_, rfl, ?_⟩
    rw [← e]
    simp only [UOp.run]
    congr 1
    have : prj t 0 = 0 := by simp [prj]
    rw [this]; simp
  | icmpSwap =>
    obtain ⟨x, y, ha, hb, e, h2, h3, h4⟩ := ok_bin.mp hs
    refine ok_bin.mpr ⟨y, x, hb, ha, ?_, h2, ⟨h3.1, h3.2.symm⟩, trivial⟩
    simp only [BOp.run] at e ⊢
    rw [← h3.2, CC.run_rev]; exact e
  | @icmpSle t s a n m hm hlt =>
    obtain ⟨x, y, ha, hb, e, h2, h3, h4⟩ := ok_bin.mp hs
    obtain ⟨rfl, hr, hh⟩ := ok_imm.mp hb
    obtain ⟨h5, h6, h7, h8⟩ := maxS_spec hm hh hr hlt
    have e3 : s = a.ty := h3.2.symm
    subst e3
    refine ok_bin.mpr ⟨x, _, ha, ok_imm.mpr ⟨rfl, ⟨h6, h7⟩, h8⟩, ?_, h2, h3, trivial⟩
    have hx := ha.holds
    simp only [BOp.run] at e ⊢
    rw [← cmp_next (c := .sle) (c' := .slt) hx hr hh ⟨h6, h7⟩ h8 h5]
    · exact e
    · intro a; simp only [CC.rel]; omega
  | @icmpSge t s a n m hm hlt =>
    obtain ⟨x, y, ha, hb, e, h2, h3, h4⟩ := ok_bin.mp hs
    obtain ⟨rfl, hr, hh⟩ := ok_imm.mp hb
    obtain ⟨h5, h6, h7, h8⟩ := minS_spec hm hh hr hlt
    have e3 : s = a.ty := h3.2.symm
    subst e3
    refine ok_bin.mpr ⟨x, _, ha, ok_imm.mpr ⟨rfl, ⟨h6, h7⟩, h8⟩, ?_, h2, h3, trivial⟩
    have hx := ha.holds
    simp only [BOp.run] at e ⊢
    rw [← cmp_next (c := .sge) (c' := .sgt) hx hr hh ⟨h6, h7⟩ h8 h5]
    · exact e
    · intro a; simp only [CC.rel]; omega
  | @icmpUle t s a n m hm hlt hne =>
    obtain ⟨x, y, ha, hb, e, h2, h3, h4⟩ := ok_bin.mp hs
    obtain ⟨rfl, hr, hh⟩ := ok_imm.mp hb
    obtain ⟨h5, h6, h7, h8⟩ := maxS_spec hm hh hr hlt
    have e3 : s = a.ty := h3.2.symm
    subst e3
    refine ok_bin.mpr ⟨x, _, ha, ok_imm.mpr ⟨rfl, ⟨h6, h7⟩, h8⟩, ?_, h2, h3, trivial⟩
    have hx := ha.holds
    simp only [BOp.run] at e ⊢
    rw [← cmp_next (c := .ule) (c' := .ult) hx hr hh ⟨h6, h7⟩ h8 h5]
    · exact e
    · intro a; simp only [CC.rel]; omega
  | @icmpUleMax t s a m hm hi =>
    obtain ⟨x, y, ha, hb, e, h2, h3, h4⟩ := ok_bin.mp hs
    obtain ⟨rfl, hr, hh⟩ := ok_imm.mp hb
    have e3 : s = a.ty := h3.2.symm
    subst e3
    refine ok_mk2 ha (ok_li.mpr ⟨rfl, wrap64_range _, holds_i64 _⟩) h2 ?_ hi rfl
    have hx := ha.holds
    simp only [BOp.run, Option.some.injEq] at e
    rw [← e, ule_max hm hx]; rfl
  | @icmpUge t s a n m hm hlt hne =>
    obtain ⟨x, y, ha, hb, e, h2, h3, h4⟩ := ok_bin.mp hs
    obtain ⟨rfl, hr, hh⟩ := ok_imm.mp hb
    obtain ⟨h5, h6, h7, h8⟩ := minS_spec hm hh hr hlt
    have e3 : s = a.ty := h3.2.symm
    subst e3
    refine ok_bin.mpr ⟨x, _, ha, ok_imm.mpr ⟨rfl, ⟨h6, h7⟩, h8⟩, ?_, h2, h3, trivial⟩
    have hx := ha.holds
    simp only [BOp.run] at e ⊢
    rw [← cmp_next (c := .uge) (c' := .ugt) hx hr hh ⟨h6, h7⟩ h8 h5]
    · exact e
    · intro a; simp only [CC.rel]; omega
  | @icmpUgeMin t s a m hm hi =>
    obtain ⟨x, y, ha, hb, e, h2, h3, h4⟩ := ok_bin.mp hs
    obtain ⟨rfl, hr, hh⟩ := ok_imm.mp hb
    have e3 : s = a.ty := h3.2.symm
    subst e3
    refine ok_mk2 (ok_li.mpr ⟨rfl, wrap64_range _, holds_i64 _⟩) ha h2 ?_ rfl (fits_of_reg hi)
    have hx := ha.holds
    simp only [BOp.run, Option.some.injEq] at e
    rw [← e, uge_min hm hx]; rfl
  | @icmpXor c t a b hc =>
    obtain ⟨x, y, ha, hb, e, h2, h3, h4⟩ := ok_bin.mp hs
    have hx := ha.holds
    have hy := hb.holds
    rw [← h3.2] at hy
    refine ok_bin.mpr ⟨x ^^^ y, 0, ok_bin.mpr ⟨x, y, ha, hb, ?_, ?_, ⟨rfl, h3.2.symm⟩, trivial⟩,
      ok_zero.mpr rfl, ?_, h2, ⟨h3.1, h3.2⟩, trivial⟩
    · rw [run_g]
      exact ⟨_, rfl, xor_prj hx hy⟩
    · rw [← xor_prj hx hy]; exact holds_inj _ _
    · have hxy : Holds a.ty (x ^^^ y) := by rw [← xor_prj hx hy]; exact holds_inj _ _
      simp only [BOp.run] at e
      show some (bit (c.run (prj a.ty (x ^^^ y)) (prj a.ty 0))) = some v
      have hcs : c.signed = true → a.ty ≠ .b := by rcases hc with rfl | rfl <;> simp [CC.signed]
      rw [← e, CC.run_prj hcs hx hy, CC.run_prj hcs hxy (holds_zero _)]
      have hz : x ^^^ y = 0 ↔ x = y := by
        rw [BitVec.ofNat_eq_ofNat]; exact BitVec.xor_eq_zero_iff
      rcases hc with rfl | rfl
      · simp only [CC.run]
        rw [Bool.beq_eq_decide_eq, Bool.beq_eq_decide_eq, decide_eq_decide.mpr hz]
      · simp only [CC.run]
        rw [bne, bne, Bool.beq_eq_decide_eq, Bool.beq_eq_decide_eq, decide_eq_decide.mpr hz]
  | liZero =>
    obtain ⟨rfl, hr, hh⟩ := ok_li.mp hs
    exact ok_mk1 (ok_zero.mpr rfl) hh rfl rfl
  | @sel2 o o' t a b h hi hf =>
    obtain ⟨x, y, ha, hb, e, h2, h3, h4⟩ := ok_bin.mp hs
    obtain ⟨z, hz, rfl⟩ := run_g.mp e
    have hx := ha.holds
    have hy := hb.holds
    rw [h3.1] at hx
    rw [h3.2] at hy
    exact ok_mk2 ha hb h2 (binSel_sound h hx hy hz) hi hf
  | @shAddL o s u k a b h hi hj =>
    obtain ⟨p, y, hp, hb, e, h2, h3, h4⟩ := ok_bin.mp hs
    obtain ⟨x, q, ha, hq, e1, h6, h7, h8⟩ := ok_bin.mp hp
    obtain ⟨rfl, hr, hh⟩ := ok_imm.mp hq
    have hs : s = .i64 := h3.1
    subst hs
    obtain ⟨hk, hrun⟩ := shAdd_run h
    rw [h7.1] at e1
    have hp' := shl64_imm hk e1
    obtain ⟨z, hz, rfl⟩ := run_g.mp e
    rw [prj_i64, prj_i64] at hz
    simp only [GBin.run, Option.some.injEq] at hz
    refine ok_mk2 ha hb h2 ?_ hi (fits_of_reg hj)
    rw [hrun, ← hz, hp']; rfl
  | @shAddR o s u k a b h hi hj =>
    obtain ⟨y, p, hb, hp, e, h2, h3, h4⟩ := ok_bin.mp hs
    obtain ⟨x, q, ha, hq, e1, h6, h7, h8⟩ := ok_bin.mp hp
    obtain ⟨rfl, hr, hh⟩ := ok_imm.mp hq
    have hs : s = .i64 := h3.2
    subst hs
    obtain ⟨hk, hrun⟩ := shAdd_run h
    rw [h7.1] at e1
    have hp' := shl64_imm hk e1
    obtain ⟨z, hz, rfl⟩ := run_g.mp e
    rw [prj_i64, prj_i64] at hz
    simp only [GBin.run, Option.some.injEq] at hz
    refine ok_mk2 ha hb h2 ?_ hj (fits_of_reg hi)
    rw [hrun, ← hz, hp', BitVec.add_comm]; rfl
  | @andn t s u a b n hi hj hn =>
    obtain ⟨x, p, ha, hp, e, h2, h3, h4⟩ := ok_bin.mp hs
    obtain ⟨y, q, hb, hq, e1, h6, h7, h8⟩ := ok_bin.mp hp
    obtain ⟨rfl, hr, hh⟩ := ok_imm.mp hq
    have hs : s = t := h3.2
    subst hs
    have hu : u = s := h7.2
    subst hu
    have hx := ha.holds
    have hy := hb.holds
    rw [h3.1] at hx
    rw [h7.1] at hy
    obtain ⟨z, hz, rfl⟩ := run_g.mp e
    obtain ⟨z', hz', rfl⟩ := run_g.mp e1
    simp only [GBin.run, Option.some.injEq] at hz hz'
    subst hz hz'
    refine ok_mk2 ha hb h2 ?_ hi (fits_of_reg hj)
    rw [and_prj hx h6, xor_prj hy hh]
    show x &&& ~~~y = _
    by_cases hb : u = .b
    · subst hb
      rw [if_pos rfl] at hn
      subst hn
      exact (not_xor_bool hx hy).symm
    · rw [if_neg hb] at hn
      subst hn
      rw [xor_ones]
  | @orn t s u a b hi hj =>
    obtain ⟨x, p, ha, hp, e, h2, h3, h4⟩ := ok_bin.mp hs
    obtain ⟨y, q, hb, hq, e1, h6, h7, h8⟩ := ok_bin.mp hp
    obtain ⟨rfl, hr, hh⟩ := ok_imm.mp hq
    have hs : s = t := h3.2
    subst hs
    have hu : u = s := h7.2
    subst hu
    have hx := ha.holds
    have hy := hb.holds
    rw [h3.1] at hx
    rw [h7.1] at hy
    obtain ⟨z, hz, rfl⟩ := run_g.mp e
    obtain ⟨z', hz', rfl⟩ := run_g.mp e1
    simp only [GBin.run, Option.some.injEq] at hz hz'
    subst hz hz'
    refine ok_mk2 ha hb h2 ?_ hi (fits_of_reg hj)
    rw [or_prj hx h6, xor_prj hy hh, xor_ones]; rfl
  | @xnorL t s u a b hi hj ht =>
    obtain ⟨p, q, hp, hq, e, h2, h3, h4⟩ := ok_bin.mp hs
    obtain ⟨x, y, ha, hb, e1, h6, h7, h8⟩ := ok_bin.mp hp
    obtain ⟨rfl, hr, hh⟩ := ok_imm.mp hq
    have hs : s = t := h3.1
    subst hs
    have hu : u = s := h3.2
    subst hu
    have hx := ha.holds
    have hy := hb.holds
    rw [h7.1] at hx
    rw [h7.2] at hy
    obtain ⟨z, hz, rfl⟩ := run_g.mp e
    obtain ⟨z', hz', rfl⟩ := run_g.mp e1
    simp only [GBin.run, Option.some.injEq] at hz hz'
    subst hz hz'
    refine ok_mk2 ha hb h2 ?_ hi (fits_of_reg hj)
    rw [xor_prj h6 hh, xor_prj hx hy, xor_ones]; rfl
  | @xnorR t s u a b hi hj ht =>
    obtain ⟨x, p, ha, hp, e, h2, h3, h4⟩ := ok_bin.mp hs
    obtain ⟨y, q, hb, hq, e1, h6, h7, h8⟩ := ok_bin.mp hp
    obtain ⟨rfl, hr, hh⟩ := ok_imm.mp hq
    have hs : s = t := h3.2
    subst hs
    have hu : u = s := h7.2
    subst hu
    have hx := ha.holds
    have hy := hb.holds
    rw [h3.1] at hx
    rw [h7.1] at hy
    obtain ⟨z, hz, rfl⟩ := run_g.mp e
    obtain ⟨z', hz', rfl⟩ := run_g.mp e1
    simp only [GBin.run, Option.some.injEq] at hz hz'
    subst hz hz'
    refine ok_mk2 ha hb h2 ?_ hi (fits_of_reg hj)
    rw [xor_prj hx h6, xor_prj hy hh, ← BitVec.xor_assoc, xor_ones]; rfl
  | @negAbs s z a hz hi =>
    obtain ⟨x, p, ha, hp, e, h2, h3, h4⟩ := ok_bin.mp hs
    obtain ⟨y, hb, e1, h6, h7, h8⟩ := ok_un.mp hp
    have hx0 : x = 0 := isZero_ok ⟨.i32, hz⟩ ha
    subst hx0
    have hs : s = .i32 := h3.2
    subst hs
    have hy := hb.holds
    rw [h7.1] at hy
    obtain ⟨z', hz', rfl⟩ := run_g.mp e
    simp only [GBin.run, Option.some.injEq] at hz'
    refine ok_mk2 (ok_mk2 (ok_zero.mpr rfl) hb (holds_sx _) rfl rfl (fits_of_reg hi)) hb h2 ?_ rfl
      (fits_of_reg hi)
    have hyy : y = sx (lo y) := hy.symm
    subst hz' e1
    show Rv2.min.run (sx (lo 0 - lo y)) y =
      sx (lo 0 - lo (sx (if (lo y).slt 0 then -(lo y) else lo y)))
    rw [lo_sx]
    conv_lhs => rw [hyy, lo_sx]
    exact neg_abs_min _
  | @abs a hi =>
    obtain ⟨y, hb, e1, h6, h7, h8⟩ := ok_un.mp hs
    have hy := hb.holds
    rw [h7.1] at hy
    refine ok_mk2 (ok_mk2 (ok_zero.mpr rfl) hb (holds_sx _) rfl rfl (fits_of_reg hi)) hb h6 ?_ rfl
      (fits_of_reg hi)
    have hyy : y = sx (lo y) := hy.symm
    subst e1
    show Rv2.max.run (sx (lo 0 - lo y)) y = sx (if (lo y).slt 0 then -(lo y) else lo y)
    conv_lhs => rw [hyy, lo_sx]
    exact abs_max _
  | @sdivPow2 s a k hi h1 hk =>
    obtain ⟨x, y, ha, hb, e, h2, h3, h4⟩ := ok_bin.mp hs
    obtain ⟨rfl, hr, hh⟩ := ok_imm.mp hb
    obtain ⟨z, hz, rfl⟩ := run_g.mp e
    have hx := ha.holds
    rw [h3.1] at hx
    have hp := pow_range hk
    obtain ⟨g1, g2⟩ := addImm32_ok (env := env) (v := 2 ^ k - 1) ⟨by omega, by omega⟩
    have hxx : x = sx (lo x) := hx.symm
    have hhold : Holds .i32 (if x.slt 0 then Rv2.addw.run x (immW (2 ^ k - 1)) else x) := by
      split_ifs
      · exact holds_sx _
      · exact hx
    refine ok_mk2 (x := if x.slt 0 then Rv2.addw.run x (immW (2 ^ k - 1)) else x) (y := immW k)
      (ok_selA.mpr ⟨x, 0, x, _, ha, ok_zero.mpr rfl, ha, g1, rfl, hhold, hi, rfl, hi, g2⟩)
      (ok_imm32 ⟨by omega, by omega⟩) h2 ?_ rfl ?_
    · have h0 := rvSDivPow2_ok (lo x) hk
      rw [← hxx] at h0
      show rvSDivPow2 x k = _
      rw [h0]
      simp only [GBin.run, Option.ite_none_left_eq_some] at hz
      obtain ⟨-, hz⟩ := hz
      have e2 : (prj .i32 (immW (2 ^ k))).toInt = 2 ^ k := by
        rw [toInt_prj (by decide) (by have e3 : s = .i32 := h3.2; rwa [e3] at hh)]
        exact immW_toInt hr
      rw [e2, Option.some.injEq] at hz
      rw [← hz]; rfl
    · simp only [Tm.fits, immOk, decide_eq_true_eq]; omega
  | @sdivConst s a d g hi hg hsh =>
    obtain ⟨x, y, ha, hb, e, h2, h3, h4⟩ := ok_bin.mp hs
    obtain ⟨rfl, hr, hh⟩ := ok_imm.mp hb
    obtain ⟨z, hz, rfl⟩ := run_g.mp e
    have hx := ha.holds
    rw [h3.1] at hx
    have hxx : x = sx (lo x) := hx.symm
    have hd : isConstDivisor d = true := by
      unfold selectSDiv32ByConstant at hg
      split_ifs at hg <;> assumption
    obtain ⟨g', hg', hgood⟩ := good_of hd
    rw [hg] at hg'; cases hg'
    obtain ⟨m1, m2⟩ := mulTm_ok ha hi (g := g) ⟨by have := hgood.mlo; omega, by have := hgood.mhi; omega⟩
    have hsl := hgood.shift
    refine ok_mk2 (ok_mk2 m1 (ok_imm32 (by norm_num)) (holds_sx _) rfl m2 rfl)
      (ok_mk2 m1 (ok_imm32 (v := g.shift) ⟨by omega, by omega⟩) (holds_i64 _) rfl m2 ?_) h2 ?_ rfl rfl
    · simp only [Tm.fits, immOk, decide_eq_true_eq]; omega
    · have h0 := (rvSDivConst_good hgood (natAbs2 hd) (lo x)).2 hsh
      rw [← hxx] at h0
      simp only [rvSDivConst, buildSRAIW, if_neg hsh] at h0
      refine h0.trans ?_
      simp only [GBin.run, Option.ite_none_left_eq_some] at hz
      obtain ⟨-, hz⟩ := hz
      have e2 : (prj .i32 (immW d)).toInt = d := by
        rw [toInt_prj (by decide) (by have e3 : s = .i32 := h3.2; rwa [e3] at hh)]
        exact immW_toInt hr
      rw [e2, Option.some.injEq] at hz
      rw [← hz]; rfl
  | @sremConst s a d hi hd =>
    obtain ⟨x, y, ha, hb, e, h2, h3, h4⟩ := ok_bin.mp hs
    obtain ⟨rfl, hr, hh⟩ := ok_imm.mp hb
    obtain ⟨z, hz, rfl⟩ := run_g.mp e
    have hst : s = .i32 := h3.2
    subst hst
    have hx := ha.holds
    rw [h3.1] at hx
    have hxx : x = sx (lo x) := hx.symm
    simp only [GBin.run, Option.ite_none_left_eq_some] at hz
    obtain ⟨hne, hz⟩ := hz
    have e2 : (prj .i32 (immW d)).toInt = d := by
      rw [toInt_prj (by decide) hh]
      exact immW_toInt hr
    rw [e2, Option.some.injEq] at hz
    refine ok_mk2 (y := sx (lo (sx (BitVec.ofInt 32 ((lo x).toInt.tdiv d))) * lo (immW d))) ha
      (ok_bin.mpr ⟨sx (BitVec.ofInt 32 ((lo x).toInt.tdiv d)), immW d,
        ok_bin.mpr ⟨x, immW d, ha, hb, ?_, holds_sx _, h3, trivial⟩, hb, rfl, holds_sx _, ⟨rfl, rfl⟩,
        trivial⟩) h2 ?_ hi rfl
    · rw [run_g]
      refine ⟨BitVec.ofInt 32 ((lo x).toInt.tdiv d), ?_, rfl⟩
      simp only [GBin.run]
      rw [if_neg hne, e2]; rfl
    · have h0 := rvSRemConst_ok (n := lo x) (q := sx (BitVec.ofInt 32 ((lo x).toInt.tdiv d))) (d := d) (lo_sx _)
      rw [← hxx] at h0
      show rvSRemConst x _ d = _
      rw [h0, ← hz]; rfl
  | @srlw32 t s u u' a k h0 =>
    obtain ⟨p, q, hp, hq, e, h2, h3, h4⟩ := ok_bin.mp hs
    obtain ⟨x, r, ha, hr, e1, h6, h7, h8⟩ := ok_bin.mp hp
    obtain ⟨rfl, hr1, hh1⟩ := ok_imm.mp hq
    obtain ⟨rfl, hr2, hh2⟩ := ok_imm.mp hr
    have hk : 0 ≤ k ∧ k < 32 := by
      have := h4.2; simpa [Tm.fits, immOk] using this
    simp only [BOp.run, Option.some.injEq] at e e1
    refine ok_mk2 ha (ok_imm32 ⟨by omega, by omega⟩) h2 ?_ h8.1 ?_
    · rw [← e, ← e1]
      show x >>> ((immW (k + 32)).toNat % 64) = sx (lo (x >>> ((immW 32).toNat % 64)) >>> ((immW k).toNat % 32))
      rw [immW_toNat (k := k + 32) (by omega) (by omega), immW_toNat (k := k) (by omega) (by omega),
        show (immW 32).toNat % 64 = 32 by decide, Nat.mod_eq_of_lt (b := 32) (by omega),
        Nat.mod_eq_of_lt (by omega), srlw_hi x (by omega) (by omega)]
      congr 1; omega
    · simp only [Tm.fits, immOk, decide_eq_true_eq]; omega
  | @sraw32 t s u u' a k =>
    obtain ⟨p, q, hp, hq, e, h2, h3, h4⟩ := ok_bin.mp hs
    obtain ⟨x, r, ha, hr, e1, h6, h7, h8⟩ := ok_bin.mp hp
    obtain ⟨rfl, hr1, hh1⟩ := ok_imm.mp hq
    obtain ⟨rfl, hr2, hh2⟩ := ok_imm.mp hr
    have hk : 0 ≤ k ∧ k < 32 := by
      have := h4.2; simpa [Tm.fits, immOk] using this
    simp only [BOp.run, Option.some.injEq] at e e1
    refine ok_mk2 ha (ok_imm32 ⟨by omega, by omega⟩) h2 ?_ h8.1 ?_
    · rw [← e, ← e1]
      show x.sshiftRight ((immW (k + 32)).toNat % 64) =
        sx ((lo (x >>> ((immW 32).toNat % 64))).sshiftRight ((immW k).toNat % 32))
      rw [immW_toNat (k := k + 32) (by omega) (by omega), immW_toNat (k := k) (by omega) (by omega),
        show (immW 32).toNat % 64 = 32 by decide, Nat.mod_eq_of_lt (b := 32) (by omega),
        Nat.mod_eq_of_lt (by omega), sraw_hi x (by omega)]
      congr 1; omega
    · simp only [Tm.fits, immOk, decide_eq_true_eq]; omega
  | @shiftMask o t s u u' a k ho hty h0 hk h12 =>
    obtain ⟨p, q, hp, hq, e, h2, h3, h4⟩ := ok_bin.mp hs
    obtain ⟨x, r, ha, hr, e1, h6, h7, h8⟩ := ok_bin.mp hp
    obtain ⟨rfl, hr1, hh1⟩ := ok_imm.mp hq
    obtain ⟨rfl, hr2, hh2⟩ := ok_imm.mp hr
    have hx := ha.holds
    rw [hty] at hx
    have hxx : x = sx (lo x) := hx.symm
    have hk11 : k ≤ 11 := by
      by_contra hc
      have h := imm12_iff.mp h12
      have : (2 : ℤ) ^ 12 ≤ 2 ^ k := by exact_mod_cast Nat.pow_le_pow_right (by norm_num) (by omega)
      omega
    simp only [BOp.run, Option.some.injEq] at e e1
    have hn32 : (immW k).toNat % 32 = k := immW_nat32 hk
    have hn64 : (immW k).toNat % 64 = k := by rw [immW_nat (by omega)]; omega
    refine ok_mk2 ha (ok_imm32 ?_) h2 ?_ h8.1 h12
    · have := imm12_iff.mp h12; omega
    · rw [← e, ← e1]
      rcases ho with rfl | rfl
      · show x &&& immW (-2 ^ k) = sx ((lo x).sshiftRight ((immW k).toNat % 32)) <<< ((immW k).toNat % 64)
        rw [hn32, hn64, shift_mask _ h0 hk11, ← hxx]
      · show x &&& immW (-2 ^ k) =
          sx (lo (sx ((lo x).sshiftRight ((immW k).toNat % 32))) <<< ((immW k).toNat % 32))
        rw [hn32, lo_sx, shift_maskW _ h0 hk11, ← hxx]
  | @subSub s a b c =>
    obtain ⟨x, p, ha, hp, e, h2, h3, h4⟩ := ok_bin.mp hs
    obtain ⟨y, z, hb, hc, e1, h6, h7, h8⟩ := ok_bin.mp hp
    simp only [BOp.run, Option.some.injEq] at e e1
    have hci : c.isImm = false := by
      have := h8.2; revert this
      cases c <;> simp [Tm.fits, immOk, Tm.isImm]
    refine ok_mk2 (ok_mk2 ha hc (holds_sx _) rfl h4.1 (fits_of_reg hci)) hb h2 ?_ rfl (fits_of_reg h8.1)
    rw [← e, ← e1]
    simp only [Rv2.run, lo_sx]
    rw [sub_sub_add]
  | @negSub s u b c =>
    obtain ⟨x, p, ha, hp, e, h2, h3, h4⟩ := ok_bin.mp hs
    obtain ⟨y, z, hb, hc, e1, h6, h7, h8⟩ := ok_bin.mp hp
    simp only [BOp.run, Option.some.injEq] at e e1
    have hx0 := ok_zero.mp ha
    subst hx0
    have hci : c.isImm = false := by
      have := h8.2; revert this
      cases c <;> simp [Tm.fits, immOk, Tm.isImm]
    refine ok_mk2 hc hb h2 ?_ hci (fits_of_reg h8.1)
    rw [← e, ← e1]
    simp only [Rv2.run, lo_sx]
    rw [sub_sub_add]
    congr 1
    show _ = (0 : BitVec 32) + lo z - lo y
    simp
  | @sllLi t s u n k =>
    obtain ⟨x, q, ha, hq, e, h2, h3, h4⟩ := ok_bin.mp hs
    obtain ⟨rfl, hr1, hh1⟩ := ok_li.mp ha
    obtain ⟨rfl, hr2, hh2⟩ := ok_imm.mp hq
    have hk : 0 ≤ k ∧ k < 64 := by
      have := h4.2; simpa [Tm.fits, immOk] using this
    simp only [BOp.run, Option.some.injEq] at e
    have e' : v = immW (wrap64 (n * 2 ^ k.toNat)) := by
      rw [← e]
      show immW n <<< ((immW k).toNat % 64) = _
      rw [immW_toNat hk.1 hk.2, Nat.mod_eq_of_lt (by omega), sll_li]
    exact ok_li.mpr ⟨e', wrap64_range _, e' ▸ h2⟩
  | @orLi t s u n k =>
    obtain ⟨x, q, ha, hq, e, h2, h3, h4⟩ := ok_bin.mp hs
    obtain ⟨rfl, hr1, hh1⟩ := ok_li.mp ha
    obtain ⟨rfl, hr2, hh2⟩ := ok_imm.mp hq
    simp only [BOp.run, Option.some.injEq] at e
    have e' : v = immW ((immW n ||| immW k).toInt) := by
      rw [← e]
      show immW n ||| immW k = BitVec.ofInt 64 _
      rw [BitVec.ofInt_toInt]
    exact ok_li.mpr ⟨e', ofInt64_toInt_range _, e' ▸ h2⟩
  | @addUw t s s' u n a h0 h12 =>
    obtain ⟨x, p, ha, hp, e, h2, h3, h4⟩ := ok_bin.mp hs
    obtain ⟨y, q, hb, hq, e1, h6, h7, h8⟩ := ok_bin.mp hp
    obtain ⟨rfl, hr1, hh1⟩ := ok_li.mp ha
    obtain ⟨rfl, hr2, hh2⟩ := ok_imm.mp hq
    simp only [BOp.run, Option.some.injEq] at e e1
    refine ok_mk2 hp (ok_imm.mpr ⟨rfl, hr1, hh1⟩) h2 ?_ rfl h12
    rw [← e, ← e1]
    have h := imm12_iff.mp h12
    exact (add_uw y h0 h.2).symm
  | @slt t a b hty hi hf =>
    obtain ⟨x, y, ha, hb, e, h2, h3, h4⟩ := ok_bin.mp hs
    have hx := ha.holds
    have hy := hb.holds
    rw [← h3.2] at hy
    simp only [BOp.run, Option.some.injEq] at e
    refine ok_mk2 ha hb h2 ?_ hi hf
    rw [← e, CC.run_prj (fun _ => hty) hx hy]; rfl
  | @ult t a b hi hf =>
    obtain ⟨x, y, ha, hb, e, h2, h3, h4⟩ := ok_bin.mp hs
    have hx := ha.holds
    have hy := hb.holds
    rw [← h3.2] at hy
    simp only [BOp.run, Option.some.injEq] at e
    refine ok_mk2 ha hb h2 ?_ hi hf
    rw [← e, CC.run_prj (by simp [CC.signed]) hx hy]; rfl
  | @sgt t a b hty hi hj =>
    obtain ⟨x, y, ha, hb, e, h2, h3, h4⟩ := ok_bin.mp hs
    have hx := ha.holds
    have hy := hb.holds
    rw [← h3.2] at hy
    simp only [BOp.run, Option.some.injEq] at e
    refine ok_mk2 hb ha h2 ?_ hj (fits_of_reg hi)
    rw [← e, CC.run_prj (fun _ => hty) hx hy]; rfl
  | @ugt t a b hi hj =>
    obtain ⟨x, y, ha, hb, e, h2, h3, h4⟩ := ok_bin.mp hs
    have hx := ha.holds
    have hy := hb.holds
    rw [← h3.2] at hy
    simp only [BOp.run, Option.some.injEq] at e
    refine ok_mk2 hb ha h2 ?_ hj (fits_of_reg hi)
    rw [← e, CC.run_prj (by simp [CC.signed]) hx hy]; rfl
  | @eqZero t a z hz hi =>
    obtain ⟨x, y, ha, hb, e, h2, h3, h4⟩ := ok_bin.mp hs
    have hx := ha.holds
    have hy := hb.holds
    rw [← h3.2] at hy
    have hy0 := isZero_ok hz hb
    subst hy0
    simp only [BOp.run, Option.some.injEq] at e
    refine ok_mk2 ha (ok_imm.mpr ⟨rfl, by norm_num, holds_imm_one _⟩) h2 ?_ hi rfl
    rw [← e, CC.run_prj (by simp [CC.signed]) hx hy]
    exact congrArg bit (ult_one x)
  | @neZero t a z hz hi =>
    obtain ⟨x, y, ha, hb, e, h2, h3, h4⟩ := ok_bin.mp hs
    have hx := ha.holds
    have hy := hb.holds
    rw [← h3.2] at hy
    have hy0 := isZero_ok hz hb
    subst hy0
    simp only [BOp.run, Option.some.injEq] at e
    refine ok_mk2 (ok_zero.mpr rfl) ha h2 ?_ rfl (fits_of_reg hi)
    rw [← e, CC.run_prj (by simp [CC.signed]) hx hy]
    exact congrArg bit (zero_ult x)
  | @sle t a b hty hi hj =>
    obtain ⟨x, y, ha, hb, e, h2, h3, h4⟩ := ok_bin.mp hs
    have hx := ha.holds
    have hy := hb.holds
    rw [← h3.2] at hy
    simp only [BOp.run, Option.some.injEq] at e
    have ht : t = .b := h3.1
    subst ht
    refine ok_mk2 (ok_mk2 hb ha (holds_bit (y.slt x)) rfl hj (fits_of_reg hi))
      (ok_imm.mpr ⟨rfl, by norm_num, holds_imm_one _⟩) h2 ?_ rfl rfl
    rw [← e, CC.run_prj (fun _ => hty) hx hy]
    show bit (y.slt x) ^^^ 1 = bit (x.sle y)
    rw [bit_not, sle_not]
  | @ule t a b hi hj =>
    obtain ⟨x, y, ha, hb, e, h2, h3, h4⟩ := ok_bin.mp hs
    have hx := ha.holds
    have hy := hb.holds
    rw [← h3.2] at hy
    simp only [BOp.run, Option.some.injEq] at e
    have ht : t = .b := h3.1
    subst ht
    refine ok_mk2 (ok_mk2 hb ha (holds_bit (y.ult x)) rfl hj (fits_of_reg hi))
      (ok_imm.mpr ⟨rfl, by norm_num, holds_imm_one _⟩) h2 ?_ rfl rfl
    rw [← e, CC.run_prj (by simp [CC.signed]) hx hy]
    show bit (y.ult x) ^^^ 1 = bit (x.ule y)
    rw [bit_not, ule_not]
  | @zextB t a hty hi =>
    obtain ⟨x, ha, e, h2, h3, h4⟩ := ok_un.mp hs
    have hx := ha.holds
    rw [hty] at hx h3
    refine ok_mk1 ha h2 ?_ hi
    rw [← e]
    simp only [UOp.run]
    rw [hty]
    exact (zext_b hx h3).symm
  | @zext8 t a hty hi =>
    obtain ⟨x, ha, e, h2, h3, h4⟩ := ok_un.mp hs
    have hx := ha.holds
    rw [hty] at hx h3
    refine ok_mk2 ha (ok_imm.mpr ⟨rfl, by norm_num, ?_⟩) h2 ?_ hi rfl
    · revert h3; simp only [UOp.typed]; cases t <;> decide
    rw [← e]
    simp only [UOp.run]
    rw [hty]
    exact ((inj_zext h3 (prj .i8 x)).trans (mask_eq x (k := 8) (by norm_num)).symm).symm
  | @zext32 t a hty hi =>
    obtain ⟨x, ha, e, h2, h3, h4⟩ := ok_un.mp hs
    have hx := ha.holds
    rw [hty] at hx h3
    refine ok_mk1 ha h2 ?_ hi
    rw [← e]
    simp only [UOp.run]
    rw [hty]
    exact (inj_zext h3 (prj .i32 x)).symm
  | @zext16 t a hty hi =>
    obtain ⟨x, ha, e, h2, h3, h4⟩ := ok_un.mp hs
    have hx := ha.holds
    rw [hty] at hx h3
    refine ok_mk1 ha h2 ?_ hi
    rw [← e]
    simp only [UOp.run]
    rw [hty]
    exact (inj_zext h3 (prj .i16 x)).symm
  | @sext t a hty hi =>
    obtain ⟨x, ha, e, h2, h3, h4⟩ := ok_un.mp hs
    refine ok_mk1 ha h2 ?_ hi
    rw [← e]
    simp only [UOp.run]
    exact (sext_eq hty h3 ha.holds).symm
  | @trunc8 a hi =>
    obtain ⟨x, ha, e, h2, h3, h4⟩ := ok_un.mp hs
    refine ok_mk1 ha h2 ?_ hi
    rw [← e]
    simp only [UOp.run]
    exact congrArg (inj .i8) (trunc_prj (le_of_lt h3) x).symm
  | @trunc16 a hi =>
    obtain ⟨x, ha, e, h2, h3, h4⟩ := ok_un.mp hs
    refine ok_mk1 ha h2 ?_ hi
    rw [← e]
    simp only [UOp.run]
    exact congrArg (inj .i16) (trunc_prj (le_of_lt h3) x).symm
  | @trunc32 a hi =>
    obtain ⟨x, ha, e, h2, h3, h4⟩ := ok_un.mp hs
    refine ok_mk1 ha h2 ?_ hi
    rw [← e]
    simp only [UOp.run]
    exact congrArg (inj .i32) (trunc_prj (le_of_lt h3) x).symm
  | @selCmp t u c l l' r r' a b hl hr hc hfa hfb =>
    obtain ⟨k, x, y, hk, ha, hb, e, h2, h3⟩ := ok_sel.mp hs
    obtain ⟨p, q, hp, hq, e1, h6, h7, h8⟩ := ok_bin.mp hk
    obtain ⟨l1, l2, l3⟩ := hl.ok hp
    obtain ⟨r1, r2, r3⟩ := hr.ok hq
    have hx := hp.holds
    have hy := hq.holds
    rw [← h7.2] at hy
    simp only [BOp.run, Option.some.injEq] at e1
    refine ok_selG.mpr ⟨p, q, x, y, l1, r1, ha, hb, ?_, h2, l3, r3, hfa, hfb⟩
    rw [e, ← e1, CC.run_prj hc hx hy]
    simp only [prj_bit]
  | @selCond t c a b hi hfa hfb =>
    obtain ⟨k, x, y, hk, ha, hb, e, h2, h3⟩ := ok_sel.mp hs
    refine ok_selG.mpr ⟨k, 0, x, y, hk, ok_zero.mpr rfl, ha, hb, ?_, h2, hi, rfl, hfa, hfb⟩
    have hkk := hk.holds
    rw [h3.1] at hkk
    rw [e]
    rcases holds_b.mp hkk with rfl | rfl <;> rfl
  | @selArith c o t s l r x y ho =>
    obtain ⟨p, q, w, x', hl, hr, hw, hx', e, h2, h3, h4, h5, h6⟩ := ok_selG.mp hs
    obtain ⟨x1, y1, hx1, hy1, e1, h8, h9, h10⟩ := ok_bin.mp hw
    have exx : x1 = x' := by have h1 := hx1.ev; rw [hx'.ev] at h1; cases h1; rfl
    subst exx
    simp only [BOp.run, Option.some.injEq] at e1
    refine ok_selA.mpr ⟨p, q, x1, y1, hl, hr, hx1, hy1, ?_, h2, h3, h4, h10.1, h10.2⟩
    rw [e, ← e1]
  | @selInv t s u z c a b hty hz =>
    obtain ⟨p, q, x, y, hl, hr, hx, hy, e, h2, h3, h4, h5, h6⟩ := ok_selG.mp hs
    obtain ⟨k, o, hk, ho, e1, h8, h9, h10⟩ := ok_bin.mp hl
    obtain ⟨rfl, -⟩ := ok_imm.mp ho
    have hq0 : q = 0 := by rw [hz] at hr; exact ok_zero.mp hr
    subst hq0
    have hkk := hk.holds
    rw [hty] at hkk
    simp only [BOp.run, Option.some.injEq] at e1
    refine ok_selG.mpr ⟨k, 0, y, x, hk, hr, hy, hx, ?_, h2, h10.1, h4, h6, h5⟩
    rw [e, ← e1]
    rcases holds_b.mp hkk with rfl | rfl <;> rfl

end Cmmc.Isel
