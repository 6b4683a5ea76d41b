import Verif.Isel.Const

/-!
# C56: constants are loaded exactly, and selects become the right branches
-/

namespace Cmmc.Isel

theorem cast32_range (v : ℤ) : -2 ^ 31 ≤ cast32 v ∧ cast32 v < 2 ^ 31 := by
  unfold cast32
  simp only [Int.bmod_def]; omega

theorem cast32_id {v : ℤ} (h : -2 ^ 31 ≤ v ∧ v < 2 ^ 31) : cast32 v = v := by
  unfold cast32
  simp only [Int.bmod_def]; omega

theorem cast32_mod (v : ℤ) : (cast32 v) % 2 ^ 32 = v % 2 ^ 32 := by
  unfold cast32
  simp only [Int.bmod_def]; omega

theorem ofInt32_congr {a b : ℤ} (h : a % 2 ^ 32 = b % 2 ^ 32) : BitVec.ofInt 32 a = BitVec.ofInt 32 b := by
  rw [← BitVec.toInt_inj, BitVec.toInt_ofInt, BitVec.toInt_ofInt]
  simp only [Int.bmod_def]
  have e : ((2 ^ 32 : ℕ) : ℤ) = 2 ^ 32 := by norm_num
  rw [e, h]

theorem sx_ofInt32 {v : ℤ} (h : -2 ^ 31 ≤ v ∧ v < 2 ^ 31) : sx (BitVec.ofInt 32 v) = immW v := by
  rw [← BitVec.toInt_inj, immW_toInt ⟨by omega, by omega⟩, sx,
    BitVec.toInt_signExtend_of_le (by norm_num), BitVec.toInt_ofInt]
  simp only [Int.bmod_def]; omega

theorem lo_immW' (v : ℤ) : lo (immW v) = BitVec.ofInt 32 v := by
  rw [← BitVec.toNat_inj]
  simp only [lo, immW, BitVec.toNat_setWidth, BitVec.toNat_ofInt]
  omega

theorem rvLui_ofInt (h : ℤ) : rvLui (BitVec.ofInt 20 h) = sx (BitVec.ofInt 32 (h * 4096)) := by
  rw [rvLui]
  congr 1
  rw [← BitVec.toNat_inj]
  simp only [BitVec.toNat_shiftLeft, BitVec.toNat_setWidth, BitVec.toNat_ofInt, Nat.shiftLeft_eq]
  omega

theorem lo12_spec (v : ℤ) : imm12 (lo12 v) = true ∧ (v - lo12 v) % 4096 = 0 := by
  rw [imm12_iff]
  unfold lo12
  simp only
  split_ifs <;> omega

theorem hi20_range (v : ℤ) : 0 ≤ hi20 v ∧ hi20 v < 2 ^ 20 := by unfold hi20; omega

theorem hi20_spec (v : ℤ) : (hi20 v * 4096 + lo12 v) % 2 ^ 32 = v % 2 ^ 32 := by
  have h1 := (lo12_spec v).2
  have h2 := cast32_mod (v - lo12 v)
  unfold hi20
  generalize lo12 v = l at *
  generalize cast32 (v - l) = c at *
  omega

/-- Running code leaves the registers it does not name alone. -/
theorem runAll_other (l : List MI) (ρ : Regs) {n : ℕ} (h : ∀ i ∈ l, i.dst ≠ n) : runAll ρ l n = ρ n := by
  induction l generalizing ρ with
  | nil => rfl
  | cons i l ih =>
    show runAll (i.run ρ) l n = ρ n
    rw [ih _ (fun j hj => h j (List.mem_cons_of_mem _ hj))]
    exact Function.update_of_ne (Ne.symm (h i List.mem_cons_self)) _ _

theorem runAll_append (a b : List MI) (ρ : Regs) : runAll ρ (a ++ b) = runAll (runAll ρ a) b := by
  simp [runAll, List.foldl_append]

/-- The value a piece of code leaves in a register, the registers it may change, and encodability. -/
structure Loads (l : List MI) (d : ℕ) (v : ℤ) (tmp : List ℕ) : Prop where
  val : ∀ ρ, runAll ρ l d = immW v
  dst : ∀ i ∈ l, i.dst = d ∨ i.dst ∈ tmp
  enc : ∀ i ∈ l, i.enc = true

theorem run_dst (i : MI) (ρ : Regs) : i.run ρ i.dst = i.val ρ := Function.update_self ..

theorem luiAddiw_ok (d t : ℕ) {v : ℤ} : (∀ ρ, runAll ρ (luiAddiw d t v) d = sx (BitVec.ofInt 32 v)) ∧
    (∀ i ∈ luiAddiw d t v, i.dst = d ∨ i.dst ∈ [t]) ∧ ∀ i ∈ luiAddiw d t v, i.enc = true := by
  have h1 := lo12_spec (cast32 v)
  have h2 := hi20_range (cast32 v)
  have h3 := hi20_spec (cast32 v)
  have h4 := cast32_mod v
  unfold luiAddiw
  simp only
  split_ifs with h
  · refine ⟨fun ρ => ?_, ?_, ?_⟩
    · have e : runAll ρ [.lui t (hi20 (cast32 v)), .addiw d (.r t) (lo12 (cast32 v))] d =
          Rv2.addw.run (rvLui (BitVec.ofInt 20 (hi20 (cast32 v)))) (immW (lo12 (cast32 v))) := by
        simp [runAll, MI.run, MI.dst, MI.val, Src.get]
      rw [e, rvLui_ofInt]
      simp only [Rv2.run, lo_sx, lo_immW']
      rw [← BitVec.ofInt_add]
      congr 1
      exact ofInt32_congr (h3.trans h4)
    · simp [MI.dst]
    · simp only [List.mem_cons, List.not_mem_nil, or_false, forall_eq_or_imp, forall_eq, MI.enc, h1.1, h2,
        and_self, decide_true]
  · push_neg at h
    refine ⟨fun ρ => ?_, ?_, ?_⟩
    · have e : runAll ρ [.lui d (hi20 (cast32 v))] d = rvLui (BitVec.ofInt 20 (hi20 (cast32 v))) := by
        simp [runAll, MI.run, MI.dst, MI.val]
      rw [e, rvLui_ofInt]
      congr 1
      rw [h, add_zero] at h3
      exact ofInt32_congr (h3.trans h4)
    · simp [MI.dst]
    · simp only [List.mem_singleton, forall_eq, MI.enc, h2, and_self, decide_true]

theorem ctz64_dvd {v : ℤ} : (2 ^ ctz64 v : ℤ) ∣ v ∧ (v ≠ 0 → -2 ^ 63 ≤ v → v < 2 ^ 63 → ctz64 v < 64) := by
  have key : ∀ k, k ≤ 64 → (∀ i < k, (immW v).getLsbD i = false) → (2 ^ k : ℤ) ∣ v := by
    intro k hk h
    have h1 : (immW v).toNat % 2 ^ k = 0 := by
      apply Nat.eq_of_testBit_eq
      intro i
      rw [Nat.testBit_mod_two_pow, Nat.zero_testBit]
      by_cases hi : i < k
      · have := h i hi
        rw [BitVec.getLsbD] at this
        simp [this]
      · simp [hi]
    have h2 : ((immW v).toNat : ℤ) = v % 2 ^ 64 := by
      simp only [immW, BitVec.toNat_ofInt]
      omega
    have h3 : (2 ^ k : ℤ) ∣ v % 2 ^ 64 := by
      rw [← h2]
      exact_mod_cast Nat.dvd_of_mod_eq_zero h1
    have h4 : (2 ^ k : ℤ) ∣ 2 ^ 64 := pow_dvd_pow _ hk
    rw [← Int.mul_ediv_add_emod v (2 ^ 64)]
    exact dvd_add (h4.mul_right _) h3
  unfold ctz64
  rcases hf : (List.range 64).find? fun i => (immW v).getLsbD i with _ | k
  · simp only [Option.getD_none]
    rw [List.find?_eq_none] at hf
    have h64 := key 64 le_rfl (fun i hi => by simpa using hf i (List.mem_range.mpr hi))
    refine ⟨h64, fun h0 h1 h2 => ?_⟩
    obtain ⟨c, rfl⟩ := h64
    exfalso
    have : c = 0 := by omega
    subst this
    exact h0 (by simp)
  · simp only [Option.getD_some]
    rw [List.find?_range_eq_some] at hf
    obtain ⟨h1, h2, h3⟩ := hf
    have h2 := List.mem_range.mp h2
    refine ⟨key k (by omega) (fun i hi => ?_), fun _ _ _ => h2⟩
    have := h3 i hi
    simpa using this

theorem legalizeLoadImm_ok {d t1 t2 : ℕ} {v : ℤ} (h0 : v ≠ 0) (hv : -2 ^ 63 ≤ v ∧ v < 2 ^ 63) :
    Loads (legalizeLoadImm d t1 t2 v) d v [t1, t2] := by
  unfold legalizeLoadImm
  split_ifs with h1 h2 h3 h4
  · exact ⟨fun ρ => by simp [runAll, MI.run, MI.dst, MI.val], by simp [MI.dst], by simp [MI.enc, h1]⟩
  · obtain ⟨⟨c, hc⟩, hlt⟩ := ctz64_dvd (v := v)
    have hlt := hlt h0 hv.1 hv.2
    refine ⟨fun ρ => ?_, by simp [MI.dst], ?_⟩
    · have e : runAll ρ [.li t1 (v / 2 ^ ctz64 v), .slli d (.r t1) (ctz64 v)] d =
          Rv2.sll.run (immW (v / 2 ^ ctz64 v)) (immW (ctz64 v)) := by
        simp [runAll, MI.run, MI.dst, MI.val, Src.get]
      rw [e]
      show immW (v / 2 ^ ctz64 v) <<< ((immW (ctz64 v)).toNat % 64) = _
      rw [immW_toNat (by omega) (by omega), Int.toNat_natCast, Nat.mod_eq_of_lt hlt, sll_li, immW_wrap64]
      congr 1
      exact Int.ediv_mul_cancel ⟨c, hc⟩
    · simp [MI.enc, h2, hlt]
  · obtain ⟨a, b, c⟩ := luiAddiw_ok d t1 (v := v)
    refine ⟨fun ρ => by rw [a, sx_ofInt32 h3], fun i hi => ?_, c⟩
    rcases b i hi with h | h
    · exact .inl h
    · right; simp at h; simp [h]
  · obtain ⟨a, b, c⟩ := luiAddiw_ok t2 t1 (v := v)
    refine ⟨fun ρ => ?_, fun i hi => ?_, fun i hi => ?_⟩
    · rw [runAll_append]
      have e : ∀ ρ, runAll ρ [.zextw d (.r t2)] d = (lo (ρ t2)).setWidth 64 := by
        intro ρ; simp [runAll, MI.run, MI.dst, MI.val, Src.get, Rv1.run]
      rw [e, a, lo_sx, ← BitVec.toNat_inj]
      simp only [BitVec.toNat_setWidth, BitVec.toNat_ofInt, immW]
      omega
    · rcases List.mem_append.mp hi with h | h
      · rcases b i h with h | h
        · right; simp [h]
        · right; simp at h; simp [h]
      · simp at h; subst h; exact .inl rfl
    · rcases List.mem_append.mp hi with h | h
      · exact c i h
      · simp at h; subst h; rfl
  · simp only
    split_ifs with h5
    · refine ⟨fun ρ => ?_, by simp [MI.dst], ?_⟩
      · have e : runAll ρ [.li t1 (v / 2 ^ 32), .slli t2 (.r t1) 32, .addi d (.r t2) (v - v / 2 ^ 32 * 2 ^ 32)] d =
            immW (v / 2 ^ 32) <<< 32 + immW (v - v / 2 ^ 32 * 2 ^ 32) := by
          have e0 : (immW 32).toNat % 64 = 32 := by decide
          simp [runAll, MI.run, MI.dst, MI.val, Src.get, Rv2.run, e0]
        rw [e, sll_li, immW_wrap64, immW, immW, ← BitVec.ofInt_add]
        congr 1; omega
      · have e1 := h5.1
        have e2 := h5.2
        simp only [List.mem_cons, List.not_mem_nil, or_false, forall_eq_or_imp, forall_eq, MI.enc, e1, e2]
        decide
    · exact ⟨fun ρ => by simp [runAll, MI.run, MI.dst, MI.val], by simp [MI.dst], by simp [MI.enc]⟩

theorem high20_ok {d : ℕ} {v u : ℤ} (h : high20 v = some u) : Loads [.lui d u] d v [] := by
  unfold high20 at h
  split_ifs at h with h0
  simp only at h
  split_ifs at h with h1
  cases h
  have hr := cast32_range (v / 4096 % 2 ^ 20 * 4096)
  refine ⟨fun ρ => ?_, by simp [MI.dst], ?_⟩
  · have e : runAll ρ [.lui d (v / 4096 % 2 ^ 20)] d = rvLui (BitVec.ofInt 20 (v / 4096 % 2 ^ 20)) := by
      simp [runAll, MI.run, MI.dst, MI.val]
    rw [e, rvLui_ofInt, ofInt32_congr (cast32_mod _).symm, h1, sx_ofInt32]
    rw [← h1]; exact hr
  · simp only [List.mem_singleton, forall_eq, MI.enc, decide_eq_true_eq]; omega

theorem Loads.mono {l d v t t'} (h : Loads l d v t) (hs : ∀ x ∈ t, x ∈ t') : Loads l d v t' :=
  ⟨h.val, fun i hi => (h.dst i hi).imp id (hs _), h.enc⟩

theorem Loads.other {l d v t} (h : Loads l d v t) {n : ℕ} (hn : n ≠ d) (ht : n ∉ t) (ρ : Regs) :
    runAll ρ l n = ρ n := by
  refine runAll_other l ρ fun i hi e => ?_
  rcases h.dst i hi with h | h
  · exact hn (e.symm.trans h)
  · exact ht (e ▸ h)

/-- **C56 (constants).**  For every 64-bit constant: whatever the registers hold, the code for loading it
leaves exactly the constant in the destination, changes no register but the destination and the two
fresh ones, and all its immediates fit. -/
theorem loadImm_ok {d t1 t2 : ℕ} {v : ℤ} (hv : -2 ^ 63 ≤ v ∧ v < 2 ^ 63) :
    Loads (loadImm d t1 t2 v) d v [t1, t2] := by
  unfold loadImm
  split_ifs with h0 h1
  · subst h0
    exact ⟨fun ρ => by simp [runAll, MI.run, MI.dst, MI.val, Src.get, immW], by simp [MI.dst], by simp [MI.enc]⟩
  · exact ⟨fun ρ => by simp [runAll, MI.run, MI.dst, MI.val], by simp [MI.dst], by simp [MI.enc, h1]⟩
  · split
    · next u hu => exact (high20_ok hu).mono (by simp)
    · exact legalizeLoadImm_ok h0 hv

/-- **C56 (constants of selects).**  `emitImm` accepts every 32-bit constant, signed or unsigned, and
what it emits loads the constant. -/
theorem emitImm_ok {d t1 t2 : ℕ} {v : ℤ} (hv : -2 ^ 63 ≤ v ∧ v < 2 ^ 63) :
    (imm32 v = true → (emitImm d t1 t2 v).isSome) ∧
    ∀ l, emitImm d t1 t2 v = some l → Loads l d v [t1, t2] := by
  have h := loadImm_ok (d := d) (t1 := t1) (t2 := t2) hv
  unfold loadImm at h
  unfold emitImm
  by_cases h0 : v = 0
  · rw [if_pos h0] at h ⊢
    exact ⟨by simp, fun l hl => by cases hl; exact h⟩
  rw [if_neg h0] at h ⊢
  by_cases h1 : imm12 v = true
  · rw [if_pos h1] at h ⊢
    exact ⟨by simp, fun l hl => by cases hl; exact h⟩
  · rw [if_neg h1] at h ⊢
    cases h20 : high20 v with
    | some u =>
      rw [h20] at h
      exact ⟨by simp, fun l hl => by cases hl; exact h⟩
    | none =>
      rw [h20] at h
      simp only at h ⊢
      split_ifs with h2
      · exact ⟨by simp, fun l hl => by cases hl; exact h⟩
      · exact ⟨by simp [h2], by simp⟩

theorem CC.run_inv (c : CC) (x y : W) : c.inv.run x y = !c.run x y := by
  cases c <;> simp only [CC.inv, CC.run, sle_not, ule_not, bne, Bool.not_not]

/-- Moving a value into `d`. -/
theorem moveVal_ok {d t1 t2 : ℕ} {x : Val} {l : List MI} (hx : ∀ v, x = .im v → -2 ^ 63 ≤ v ∧ v < 2 ^ 63)
    (h : moveVal d t1 t2 x = some l) :
    (∀ ρ, runAll ρ l d = x.get ρ) ∧ ∀ n, n ≠ d → n ≠ t1 → n ≠ t2 → ∀ ρ, runAll ρ l n = ρ n := by
  cases x with
  | reg s =>
    cases h
    refine ⟨fun ρ => by simp [runAll, MI.run, MI.dst, MI.val, Val.get], fun n hn _ _ ρ => ?_⟩
    exact runAll_other _ _ (by simpa [MI.dst] using Ne.symm hn)
  | im v =>
    have hl := (emitImm_ok (hx v rfl)).2 l h
    exact ⟨hl.val, fun n h1 h2 h3 ρ => hl.other h1 (by simp [h2, h3]) ρ⟩

theorem Src.get_congr {s : Src} {ρ ρ' : Regs} (h : ∀ n, s = .r n → ρ' n = ρ n) : s.get ρ' = s.get ρ := by
  cases s with
  | x0 => rfl
  | r n => exact h n rfl

/-- **C56 (select).**  Execution of the expansion of `dst = l c r ? tv : fv` from the block before the
select reaches the block after it; then `dst` holds the selected value, computed from the registers at
the select, and only `dst` and the fresh registers have changed.  The destination must differ from the
compared registers and from the false value, and the fresh registers from all operands. -/
theorem expandSelect_ok {pre : List MI} {b falseB nextB : ℕ} {c : CC} {l r : Src} {d t1 t2 u1 u2 : ℕ}
    {tv fv : Val} {p : ℕ → Option Blk} {b1 b2 : Blk}
    (h : expandSelect pre falseB nextB c l r d t1 t2 u1 u2 tv fv = some (b1, b2))
    (hb1 : p b = some b1) (hb2 : p falseB = some b2)
    (htv : ∀ v, tv = .im v → -2 ^ 63 ≤ v ∧ v < 2 ^ 63) (hfv : ∀ v, fv = .im v → -2 ^ 63 ≤ v ∧ v < 2 ^ 63)
    (hl : ∀ n, l = .r n → n ≠ d ∧ n ≠ t1 ∧ n ≠ t2) (hr : ∀ n, r = .r n → n ≠ d ∧ n ≠ t1 ∧ n ≠ t2)
    (hf : ∀ n, fv = .reg (.r n) → n ≠ d ∧ n ≠ t1 ∧ n ≠ t2) (ρ : Regs) :
    ∃ ρ', Gos p (b, ρ) (nextB, ρ') ∧
      ρ' d = (if c.run (l.get (runAll ρ pre)) (r.get (runAll ρ pre)) then tv.get (runAll ρ pre)
        else fv.get (runAll ρ pre)) ∧
      ∀ n, n ≠ d → n ≠ t1 → n ≠ t2 → n ≠ u1 → n ≠ u2 → ρ' n = runAll ρ pre n := by
  simp only [expandSelect, Option.bind_eq_some_iff, Option.some.injEq, Prod.mk.injEq] at h
  obtain ⟨m1, h1, m2, h2, rfl, rfl⟩ := h
  obtain ⟨v1, k1⟩ := moveVal_ok htv h1
  obtain ⟨v2, k2⟩ := moveVal_ok hfv h2
  generalize hσ : runAll ρ pre = σ
  have e1 : runAll ρ (pre ++ m1) = runAll σ m1 := by rw [runAll_append, hσ]
  have el : l.get (runAll σ m1) = l.get σ :=
    Src.get_congr fun n hn => k1 n (hl n hn).1 (hl n hn).2.1 (hl n hn).2.2 σ
  have er : r.get (runAll σ m1) = r.get σ :=
    Src.get_congr fun n hn => k1 n (hr n hn).1 (hr n hn).2.1 (hr n hn).2.2 σ
  have hstep := Go.br (ρ := ρ) hb1
  rw [e1, el, er] at hstep
  by_cases hc : c.run (l.get σ) (r.get σ) = true
  · rw [if_pos hc] at hstep
    refine ⟨_, .head hstep .refl, ?_, fun n a b c _ _ => k1 n a b c σ⟩
    rw [v1, if_pos hc]
  · rw [if_neg hc] at hstep
    refine ⟨_, .head hstep (.head (.jump hb2) .refl), ?_, fun n a b c d e => ?_⟩
    · rw [v2, if_neg hc]
      cases fv with
      | im v => rfl
      | reg s =>
        exact Src.get_congr fun n hn => by
          subst hn
          exact k1 n (hf n rfl).1 (hf n rfl).2.1 (hf n rfl).2.2 σ
    · rw [k2 n a d e, k1 n a b c]

/-- **C56 (conditional arithmetic).**  The expansion of `dst = l c r ? rs1 op rs2 : rs1` reaches the block
after it with that value in `dst`, everything else unchanged.  The destination must differ from `rs2`
and from the compared registers other than `rs1`. -/
theorem expandArith_ok {pre : List MI} {b trueB nextB : ℕ} {c : CC} {l r : Src} {d : ℕ} {o : Rv2}
    {rs1 : Src} {rs2 : Val} {p : ℕ → Option Blk} {b1 b2 : Blk}
    (h : expandArith pre trueB nextB c l r d o rs1 rs2 = (b1, b2))
    (hb1 : p b = some b1) (hb2 : p trueB = some b2)
    (hl : l ≠ .r d ∨ l = rs1) (hr : r ≠ .r d ∨ r = rs1) (h2 : rs2 ≠ .reg (.r d)) (ρ : Regs) :
    ∃ ρ', Gos p (b, ρ) (nextB, ρ') ∧
      ρ' d = (if c.run (l.get (runAll ρ pre)) (r.get (runAll ρ pre)) then
        o.run (rs1.get (runAll ρ pre)) (rs2.get (runAll ρ pre)) else rs1.get (runAll ρ pre)) ∧
      ∀ n, n ≠ d → ρ' n = runAll ρ pre n := by
  simp only [expandArith, Prod.mk.injEq] at h
  obtain ⟨rfl, rfl⟩ := h
  generalize hσ : runAll ρ pre = σ
  have e1 : runAll ρ (pre ++ [MI.mv d rs1]) = Function.update σ d (rs1.get σ) := by
    rw [runAll_append, hσ]; rfl
  have key : ∀ s : Src, s ≠ .r d ∨ s = rs1 →
      (if s = rs1 ∧ s ≠ .x0 then Src.r d else s).get (Function.update σ d (rs1.get σ)) = s.get σ := by
    intro s hs
    split_ifs with h
    · rw [h.1]; simp [Src.get]
    · cases s with
      | x0 => rfl
      | r n =>
        have hne : Src.r n ≠ .r d := by
          rcases hs with h1 | h1
          · exact h1
          · exact absurd ⟨h1, by simp⟩ h
        exact Function.update_of_ne (by rintro rfl; exact hne rfl) _ _
  have hstep := Go.br (ρ := ρ) hb1
  rw [e1, key l hl, key r hr, CC.run_inv] at hstep
  by_cases hc : c.run (l.get σ) (r.get σ) = true
  · rw [hc] at hstep
    simp only [Bool.not_true, Bool.false_eq_true, if_false] at hstep
    refine ⟨_, .head hstep (.head (.jump hb2) .refl), ?_, fun n hn => ?_⟩
    · rw [if_pos hc]
      have hget : rs2.get (Function.update σ d (rs1.get σ)) = rs2.get σ := by
        cases rs2 with
        | im v => rfl
        | reg s =>
          exact Src.get_congr fun n hn => Function.update_of_ne (by rintro rfl; exact h2 (by rw [hn])) _ _
      cases rs2 with
      | im v => simp [runAll, MI.run, arith, MI.dst, MI.val, Src.get, Val.get]
      | reg s =>
        simp only [Val.get] at hget
        have e2 : ∀ τ : Regs, runAll τ [arith o d (.r d) (.reg s)] d = o.run (τ d) (s.get τ) := by
          intro τ; simp [runAll, MI.run, arith, MI.dst, MI.val, Src.get]
        rw [e2, hget, Function.update_self]; rfl
    · rw [runAll_other _ _ (by cases rs2 <;> simpa [arith, MI.dst] using Ne.symm hn)]
      exact Function.update_of_ne hn _ _
  · rw [Bool.not_eq_true] at hc
    rw [hc] at hstep
    simp only [Bool.not_false, if_true] at hstep
    refine ⟨_, .head hstep .refl, ?_, fun n hn => Function.update_of_ne hn _ _⟩
    rw [hc]; simp

/-! ## Concrete cases -/

example : loadImm 1 2 3 0x7fffffff = [.lui 2 0x80000, .addiw 1 (.r 2) (-1)] := by decide +kernel
example : loadImm 1 2 3 0xdeadbeef = [.lui 2 0xdeadc, .addiw 3 (.r 2) (-273), .zextw 1 (.r 3)] := by decide +kernel
example : loadImm 1 2 3 (3 * 2 ^ 40) = [.li 2 3, .slli 1 (.r 2) 40] := by decide +kernel
example : loadImm 1 2 3 (5 * 2 ^ 32 + 7) = [.li 2 5, .slli 3 (.r 2) 32, .addi 1 (.r 3) 7] := by decide +kernel
example : loadImm 1 2 3 (-4096) = [.lui 1 0xfffff] := by decide +kernel
example : expandSelect [] 11 12 .slt (.r 1) (.r 2) 5 20 21 22 23 (.reg (.r 1)) (.im 100000) =
    some (⟨[.mv 5 (.r 1)], .br .slt (.r 1) (.r 2) 12 11⟩,
      ⟨[.lui 22 24, .addiw 5 (.r 22) 1696], .jump 12⟩) := by decide +kernel

/-- The destination must not be compared: the move of the true value comes before the branch. -/
theorem select_dst_compared : ∃ (b1 b2 : Blk) (ρ : Regs),
    expandSelect [] 11 12 .slt (.r 5) .x0 5 20 21 22 23 (.im 0) (.im 7) = some (b1, b2) ∧
    CC.slt.run (ρ 5) 0 = true ∧
    ∀ p : ℕ → Option Blk, p 10 = some b1 → ∃ ρ', Go p (10, ρ) (11, ρ') := by
  refine ⟨⟨[.mv 5 .x0], .br .slt (.r 5) .x0 12 11⟩, ⟨[.li 5 7], .jump 12⟩, fun _ => -1,
    by decide +kernel, by decide, fun p hp => ?_⟩
  have h := Go.br (ρ := fun _ => (-1 : W)) hp
  rw [if_neg (by decide)] at h
  exact ⟨_, h⟩

end Cmmc.Isel
