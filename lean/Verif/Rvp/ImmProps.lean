import Verif.Rvp.PeepProps
import Mathlib.Data.List.Lemmas

/-!
# Large constants: `largeImmMaterialize`
-/

namespace Cmmc.Rvp

open Cmmc.Isel

/-- The constants a block loads. -/
def consts : List PI → List ℤ
  | [] => []
  | .li12 _ v :: is | .liN _ v :: is => v :: consts is
  | _ :: is => consts is

/-- The instruction loads a constant into a virtual register. -/
def PI.loadsV : PI → Option R
  | .li12 (.v n) _ | .liN (.v n) _ => some (.v n)
  | _ => none

/-- A virtual register that is loaded with a constant is not written again later in the block. -/
def LoadedOnce : List PI → Prop
  | [] => True
  | i :: is => (∀ r, i.loadsV = some r → ∀ j ∈ is, j.dst ≠ some r) ∧ LoadedOnce is

/-- No constant of the block is another, negative, one shifted right (arithmetically) by one to eight places. -/
def NoNegShift (cs : List ℤ) : Prop := ∀ v ∈ cs, ∀ w ∈ cs, w < 0 → ∀ k < 8, w / 2 ^ (k + 1) ≠ v

/-- An `intmax_t`. -/
def I64 (v : ℤ) : Prop := -2 ^ 63 ≤ v ∧ v < 2 ^ 63

theorem immW_wrap (v : ℤ) : immW (wrap64 v) = immW v := by
  unfold immW wrap64
  apply BitVec.eq_of_toInt_eq
  rw [BitVec.toInt_ofInt, BitVec.toInt_ofInt, Int.bmod_bmod]

theorem immW_shl (w : ℤ) (k : ℕ) : immW w <<< k = immW (w * 2 ^ k) := by
  unfold immW
  rw [BitVec.shiftLeft_eq_mul_twoPow]
  apply BitVec.eq_of_toInt_eq
  rw [BitVec.toInt_mul, BitVec.toInt_ofInt, BitVec.toInt_ofInt]
  have : (BitVec.twoPow 64 k) = BitVec.ofInt 64 (2 ^ k) := by
    apply BitVec.eq_of_toNat_eq
    rw [BitVec.toNat_twoPow, BitVec.toNat_ofInt]
    norm_cast
  rw [this, BitVec.toInt_ofInt, Int.bmod_mul_bmod, Int.mul_bmod_bmod]

theorem immW_shr {w : ℤ} (h : 0 ≤ w ∧ w < 2 ^ 63) (k : ℕ) : immW w >>> k = immW (w / 2 ^ k) := by
  apply BitVec.eq_of_toNat_eq
  obtain ⟨n, rfl⟩ := Int.eq_ofNat_of_zero_le h.1
  have hn : n < 2 ^ 63 := by have := h.2; omega
  unfold immW
  rw [BitVec.toNat_ushiftRight, Nat.shiftRight_eq_div_pow]
  have e1 : (BitVec.ofInt 64 (n : ℤ)).toNat = n := by
    rw [BitVec.toNat_ofInt]; omega
  have e2 : ((n : ℤ) / 2 ^ k) = ((n / 2 ^ k : ℕ) : ℤ) := by push_cast; rfl
  have hle : n / 2 ^ k ≤ n := Nat.div_le_self _ _
  rw [e1, e2, BitVec.toNat_ofInt]
  generalize n / 2 ^ k = m at *
  omega

/-- The queue holds constants that are in their registers. -/
def QOk (q : List (ℤ × R)) (s : St) : Prop := ∀ e ∈ q, I64 e.1 ∧ s.get e.2 = immW e.1

theorem reuseImm_ok {E : Env} {v : ℤ} {d : R} {s : St} : ∀ {q : List (ℤ × R)} {i : PI}, reuseImm v d q = some i →
    I64 v → QOk q s → (∀ e ∈ q, e.1 < 0 → ∀ k < 8, e.1 / 2 ^ (k + 1) ≠ v) →
    i.exec E s = s.set d (immW v) ∧ i.plain = true ∧ i.enc = true ∧ i.dst = some d := by
  intro q
  induction q with
  | nil => intro i h; cases h
  | cons e q ih =>
    obtain ⟨w, r⟩ := e
    intro i h hv hq hn
    have hr : s.get r = immW w := (hq (w, r) (by simp)).2
    have hw : I64 w := (hq (w, r) (by simp)).1
    unfold reuseImm at h
    split at h
    · rename_i he
      cases h
      refine ⟨?_, rfl, rfl, rfl⟩
      simp only [PI.exec, Rv1.run, hr, he]
    · split at h
      · rename_i k hk
        cases h
        have h1 : wrap64 (w * 2 ^ (k + 1)) = v := by simpa using List.find?_some hk
        have h2 : k < 8 := by simpa using List.mem_of_find?_eq_some hk
        refine ⟨?_, rfl, ?_, rfl⟩
        · simp only [PI.exec, Rv2.run, hr]
          rw [immW_mod (n := 64) ⟨by omega, by omega⟩ (by norm_num), ← h1, immW_wrap, immW_shl]
          norm_cast
        · simp only [PI.enc, immOk, decide_eq_true_eq]; omega
      · split at h
        · rename_i k hk
          cases h
          have h1 : w / 2 ^ (k + 1) = v := by simpa using List.find?_some hk
          have h2 : k < 8 := by simpa using List.mem_of_find?_eq_some hk
          have h3 : 0 ≤ w := by
            by_contra hneg
            exact hn (w, r) (by simp) (by simpa using hneg) k h2 h1
          refine ⟨?_, rfl, ?_, rfl⟩
          · simp only [PI.exec, Rv2.run, hr]
            rw [immW_mod (n := 64) ⟨by omega, by omega⟩ (by norm_num), ← h1]
            have : ((k : ℤ) + 1).toNat = k + 1 := by omega
            rw [this, immW_shr ⟨h3, hw.2⟩]
          · simp only [PI.enc, immOk, decide_eq_true_eq]; omega
        · split_ifs at h with c1 c2 c3 c4 c5 c6
          · cases h
            refine ⟨?_, rfl, c1, rfl⟩
            simp only [PI.exec, Rv2.run, hr]
            rw [immW_wrap]
            unfold immW
            rw [← BitVec.ofInt_add]
            congr 2; ring
          · cases h
            refine ⟨?_, rfl, rfl, rfl⟩
            simp only [PI.exec, Rv2.run, hr, get_x0]
            rw [← c2, immW_wrap]
            unfold immW
            rw [BitVec.ofInt_neg]
            simp
          · cases h
            refine ⟨?_, rfl, rfl, rfl⟩
            simp only [PI.exec, Rv2.run, hr]
            rw [← c3]
            congr 1
            unfold immW
            have e1 : (BitVec.ofInt 64 (-1)) = BitVec.allOnes 64 := by decide
            have e2 : BitVec.ofInt 64 (-1 - w) = -BitVec.ofInt 64 w - 1#64 := by
              rw [show -1 - w = -w + -1 by ring, BitVec.ofInt_add, BitVec.ofInt_neg, e1, ← BitVec.neg_one_eq_allOnes,
                BitVec.sub_eq_add_neg]
            rw [e1, BitVec.xor_allOnes, e2, BitVec.neg_eq_not_add, BitVec.add_sub_cancel]
          · cases h
            refine ⟨?_, rfl, rfl, rfl⟩
            simp only [PI.exec, Rv2.run, hr]
            rw [← c4, immW_wrap, immW_shl]
            congr 1
            unfold immW
            rw [← BitVec.ofInt_add]
            congr 1; ring
          · cases h
            refine ⟨?_, rfl, rfl, rfl⟩
            simp only [PI.exec, Rv2.run, hr]
            rw [← c5, immW_wrap, immW_shl]
            congr 1
            unfold immW
            rw [← BitVec.ofInt_add]
            congr 1; ring
          · cases h
            refine ⟨?_, rfl, rfl, rfl⟩
            simp only [PI.exec, Rv2.run, hr]
            rw [← c6, immW_wrap, immW_shl]
            congr 1
            unfold immW
            rw [← BitVec.ofInt_add]
            congr 1; ring
          · exact ih h hv (fun e he => hq e (by simp [he])) (fun e he => hn e (by simp [he]))

theorem addImm_ok {q : List (ℤ × R)} {s : St} {v : ℤ} {d : R} (hv : I64 v) (hq : QOk q s) (hd : s.get d = immW v) :
    QOk (addImm q v d) s := by
  unfold addImm
  split
  · intro e he
    rcases List.mem_cons.mp (List.mem_of_mem_take he) with rfl | he
    · exact ⟨hv, hd⟩
    · exact hq e he
  · exact hq

theorem exec_get_v {E : Env} {i : PI} {n : ℕ} (hq : i.dst ≠ some (.v n)) (s : St) :
    (i.exec E s).get (.v n) = s.get (.v n) := by
  cases hc : i.isCall with
  | false => exact exec_get_ne hc hq s
  | true => cases i <;> first | rfl | cases hc

theorem mem_addImm {q : List (ℤ × R)} {v : ℤ} {d : R} {e : ℤ × R} (h : e ∈ addImm q v d) :
    (∃ n, d = .v n ∧ e = (v, d)) ∨ e ∈ q := by
  unfold addImm at h
  split at h
  · rcases List.mem_cons.mp (List.mem_of_mem_take h) with rfl | h
    · exact Or.inl ⟨_, rfl, rfl⟩
    · exact Or.inr h
  · exact Or.inr h

theorem immScan_run {E : Env} (cs : List ℤ) (hcs : NoNegShift cs) (h64 : ∀ v ∈ cs, I64 v) :
    ∀ (is : List PI) (q : List (ℤ × R)) (s : St), LoadedOnce is → (∀ v ∈ consts is, v ∈ cs) →
    QOk q s → (∀ e ∈ q, e.1 ∈ cs ∧ (∃ n, e.2 = .v n) ∧ ∀ j ∈ is, j.dst ≠ some e.2) →
    run E (immScan q is) s = run E is s := by
  intro is
  induction is with
  | nil => intros; rfl
  | cons i is ih =>
    intro q s hl hc hq hr
    have hq' : QOk q (i.exec E s) := by
      intro e he
      obtain ⟨_, ⟨n, hn⟩, hj⟩ := hr e he
      refine ⟨(hq e he).1, ?_⟩
      rw [hn, exec_get_v (by rw [← hn]; exact hj i (by simp)), ← hn]
      exact (hq e he).2
    have hr' : ∀ e ∈ q, e.1 ∈ cs ∧ (∃ n, e.2 = .v n) ∧ ∀ j ∈ is, j.dst ≠ some e.2 :=
      fun e he => ⟨(hr e he).1, (hr e he).2.1, fun j hj => (hr e he).2.2 j (by simp [hj])⟩
    have hgo : ∀ d v, i = .li12 d v ∨ i = .liN d v → run E (immScan (addImm q v d) is) (i.exec E s) = run E is (i.exec E s) := by
      intro d v hi
      have hvc : v ∈ cs := hc v (by rcases hi with rfl | rfl <;> simp [consts])
      refine ih _ _ hl.2 (fun w hw => hc w (by rcases hi with rfl | rfl <;> simp [consts, hw])) ?_ ?_
      · intro e he
        rcases mem_addImm he with ⟨n, rfl, rfl⟩ | he
        · refine ⟨h64 v hvc, ?_⟩
          rcases hi with rfl | rfl <;> simp [PI.exec, get_set]
        · exact hq' e he
      · intro e he
        rcases mem_addImm he with ⟨n, rfl, rfl⟩ | he
        · refine ⟨hvc, ⟨n, rfl⟩, ?_⟩
          exact hl.1 _ (by rcases hi with rfl | rfl <;> rfl)
        · exact hr' e he
    have hother : (∀ v ∈ consts is, v ∈ cs) → run E (immScan q is) (i.exec E s) = run E is (i.exec E s) :=
      fun h => ih _ _ hl.2 h hq' hr'
    cases i with
    | li12 d v => exact hgo d v (Or.inl rfl)
    | liN d v =>
      simp only [immScan]
      cases hre : reuseImm v d q with
      | none => exact hgo d v (Or.inr rfl)
      | some j =>
        have hvc : v ∈ cs := hc v (by simp [consts])
        obtain ⟨h1, h2, _, _⟩ := reuseImm_ok (E := E) hre (h64 v hvc) hq
          (fun e he => hcs v hvc e.1 (hr e he).1)
        rw [Option.getD_some, run_plain h2, h1]
        exact hgo d v (Or.inr rfl)
    | br c a b l =>
      simp only [immScan, run]
      split
      · rfl
      · exact hother hc
    | jump l => rfl
    | jr a => rfl
    | ret => rfl
    | _ => exact hother hc

/-- **C57** (large constants).  If no virtual register loaded with a constant is written again in the block, and no constant of
the block is a negative one shifted right, the block does the same after `largeImmMaterialize`. -/
theorem largeImmMaterialize_run (E : Env) (is : List PI) (h64 : ∀ v ∈ consts is, I64 v) (hl : LoadedOnce is)
    (hn : NoNegShift (consts is)) (s : St) : run E (largeImmMaterialize is) s = run E is s :=
  immScan_run (consts is) hn h64 is [] s hl (fun _ h => h) (fun _ h => by cases h) (fun _ h => by cases h)

theorem immScan_enc : ∀ (is : List PI) (q : List (ℤ × R)), (∀ i ∈ is, i.enc = true) →
    ∀ i ∈ immScan q is, i.enc = true := by
  have hre : ∀ (v : ℤ) (d : R) (q : List (ℤ × R)) (i : PI), reuseImm v d q = some i → i.enc = true := by
    intro v d q
    induction q with
    | nil => intro i h; cases h
    | cons e q ih =>
      obtain ⟨w, r⟩ := e
      intro i h
      unfold reuseImm at h
      split at h
      · cases h; rfl
      · split at h
        · rename_i k hk
          cases h
          have h2 : k < 8 := by simpa using List.mem_of_find?_eq_some hk
          simp only [PI.enc, immOk, decide_eq_true_eq]; omega
        · split at h
          · rename_i k hk
            cases h
            have h2 : k < 8 := by simpa using List.mem_of_find?_eq_some hk
            simp only [PI.enc, immOk, decide_eq_true_eq]; omega
          · split_ifs at h with c1
            · cases h; exact c1
            all_goals first | exact ih _ h | (cases h; rfl)
  intro is
  induction is with
  | nil => intro q _ i hi; cases hi
  | cons j is ih =>
    intro q he i hi
    have he' : ∀ i ∈ is, i.enc = true := fun k hk => he k (by simp [hk])
    cases j with
    | liN d v =>
      simp only [immScan, List.mem_cons] at hi
      rcases hi with rfl | hi
      · cases h : reuseImm v d q with
        | none => rfl
        | some k => exact hre _ _ _ _ h
      · exact ih _ he' i hi
    | _ =>
      simp only [immScan, List.mem_cons] at hi
      rcases hi with rfl | hi
      · exact he _ (by simp)
      · exact ih _ he' i hi

/-- **C57**.  The immediates `largeImmMaterialize` introduces are encodable. -/
theorem largeImmMaterialize_enc (is : List PI) (h : ∀ i ∈ is, i.enc = true) :
    ∀ i ∈ largeImmMaterialize is, i.enc = true := immScan_enc is [] h

end Cmmc.Rvp
