import Verif.Rvp.Peep
import Verif.Isel.WordProps
import Mathlib.Data.List.Forall2

/-!
# The RISC-V peephole optimizations keep what a block does
-/

namespace Cmmc.Rvp

open Cmmc.Isel

/-! ## Basics -/

@[simp] theorem get_x0 (s : St) : s.get .x0 = 0 := rfl

theorem get_set (s : St) (d q : R) (x : W) :
    (s.set d x).get q = if q = d ∧ d ≠ .x0 then x else s.get q := by
  unfold St.set
  by_cases hd : d = .x0
  · simp [hd]
  · cases q <;> simp [St.get, hd] <;> rintro rfl <;> exact absurd rfl hd

theorem get_set_ne (s : St) {d q : R} (x : W) (h : q ≠ d) : (s.set d x).get q = s.get q := by
  rw [get_set, if_neg (fun e => h e.1)]

@[simp] theorem set_x0 (s : St) (x : W) : s.set .x0 x = s := by simp [St.set]

@[simp] theorem set_mem (s : St) (d : R) (x : W) : (s.set d x).mem = s.mem := by
  unfold St.set; split <;> rfl

/-- An instruction that goes on to the next one. -/
def PI.plain : PI → Bool
  | br .. | jump _ | jr _ | ret => false
  | _ => true

theorem run_plain {E : Env} {i : PI} (h : i.plain = true) (is : List PI) (s : St) :
    run E (i :: is) s = run E is (i.exec E s) := by
  cases i <;> first | rfl | cases h

/-- Blocks that do the same, whatever comes after. -/
theorem run_congr_append {E : Env} {as bs : List PI} (cs : List PI) (h : ∀ s, run E as s = run E bs s) (s : St) :
    run E (as ++ cs) s = run E (bs ++ cs) s := by
  have key : ∀ (l : List PI) (s : St), run E (l ++ cs) s =
      match run E l s with
      | .fall t => run E cs t
      | o => o := by
    intro l
    induction l with
    | nil => intro s; rfl
    | cons i l ih =>
      intro s
      cases i with
      | br c a b k =>
        simp only [List.cons_append, run]
        split
        · rfl
        · exact ih s
      | jump k => rfl
      | jr a => rfl
      | ret => rfl
      | _ => simp only [List.cons_append, run]; exact ih _
  rw [key, key, h]

/-- The result of a function depends only on what its blocks do. -/
theorem runs_congr {E : Env} {f f' : Fn}
    (h : List.Forall₂ (fun B C => B.1 = C.1 ∧ ∀ s, run E B.2 s = run E C.2 s) f f') {s t : St} :
    Runs E f f s t ↔ Runs E f' f' s t := by
  have hat : ∀ {g g' : Fn} (_ : List.Forall₂ (fun B C => B.1 = C.1 ∧ ∀ s, run E B.2 s = run E C.2 s) g g') (l : ℕ),
      List.Forall₂ (fun B C => B.1 = C.1 ∧ ∀ s, run E B.2 s = run E C.2 s) (g.at l) (g'.at l) := by
    intro g g' hg l
    induction hg with
    | nil => exact .nil
    | cons h0 h1 ih =>
      unfold Fn.at at ih ⊢
      simp only [List.dropWhile_cons]
      rw [h0.1]
      split
      · exact ih
      · exact .cons h0 h1
  have one : ∀ {f f' : Fn}, List.Forall₂ (fun B C => B.1 = C.1 ∧ ∀ s, run E B.2 s = run E C.2 s) f f' →
      ∀ {g s t}, Runs E f g s t →
      ∀ g', List.Forall₂ (fun B C => B.1 = C.1 ∧ ∀ s, run E B.2 s = run E C.2 s) g g' → Runs E f' g' s t := by
    intro f f' hf g s t hr
    induction hr with
    | ret h1 =>
      rintro _ (_ | ⟨h2, h3⟩)
      exact .ret (by rw [← h2.2]; exact h1)
    | fall h1 _ ih =>
      rintro _ (_ | ⟨h2, h3⟩)
      exact .fall (by rw [← h2.2]; exact h1) (ih _ h3)
    | jump h1 _ ih =>
      rintro _ (_ | ⟨h2, h3⟩)
      exact .jump (by rw [← h2.2]; exact h1) (ih _ (hat hf _))
  refine ⟨fun hr => one h hr _ h, fun hr => ?_⟩
  have h' : List.Forall₂ (fun B C => B.1 = C.1 ∧ ∀ s, run E B.2 s = run E C.2 s) f' f := by
    have := h.flip
    exact this.imp fun _ _ e => ⟨e.1.symm, fun s => (e.2 s).symm⟩
  exact one h' hr _ h'

/-! ## Operations with zero -/

theorem lo_zero : lo 0#64 = 0#32 := by decide
theorem sx_zero : sx 0#32 = 0#64 := by decide

theorem immW_one : immW 1 = 1#64 := by decide

theorem zero_shl (n : ℕ) {w : ℕ} : (0 : BitVec w) <<< n = 0 := by simp
theorem zero_shr (n : ℕ) {w : ℕ} : (0 : BitVec w) >>> n = 0 := by simp
theorem zero_sar (n : ℕ) {w : ℕ} : (0 : BitVec w).sshiftRight n = 0 := by simp
theorem zero_srem (y : BitVec 32) : rvSRem 0#32 y = 0#32 := by
  unfold rvSRem
  split
  · rfl
  · apply BitVec.eq_of_toInt_eq
    rw [BitVec.toInt_srem]
    simp

theorem sx_lo_imm {v : ℤ} (h : imm12 v = true) : sx (lo (immW v)) = immW v := by
  unfold immW imm12 at *
  rw [lo_ofInt, sx_ofInt] <;> simp only [decide_eq_true_eq] at h <;> omega

theorem slt_zero_imm {v : ℤ} (h : imm12 v = true) : (0#64).slt (immW v) = decide (0 < v) := by
  unfold immW imm12 at *
  simp only [decide_eq_true_eq] at h
  rw [BitVec.slt, toInt_ofInt64 (by omega) (by omega)]
  simp

theorem zeroOp_exec {E : Env} {i : PI} (h : i.enc = true) (s : St) :
    (zeroOp i).exec E s = i.exec E s ∧ (zeroOp i).plain = i.plain := by
  cases i with
  | op2 o d a b =>
    cases o <;> first
      | exact ⟨rfl, rfl⟩
      | (unfold zeroOp
         dsimp only
         repeat' split_ifs
         all_goals (first | exact ⟨rfl, rfl⟩ | refine ⟨?_, rfl⟩)
         all_goals (try rename_i hor; rcases hor with hor | hor)
         all_goals simp_all [PI.exec, Rv1.run, Rv2.run, lo_zero, sx_zero, zero_shl, zero_srem])
  | opI o d a v =>
    cases o <;> first
      | exact ⟨rfl, rfl⟩
      | (unfold zeroOp
         dsimp only
         repeat' split_ifs
         all_goals (first | exact ⟨rfl, rfl⟩ | refine ⟨?_, rfl⟩)
         all_goals simp_all [PI.exec, Rv1.run, Rv2.run, lo_zero, sx_zero, zero_shl, zero_shr, zero_sar, PI.enc, immOk,
           sx_lo_imm, slt_zero_imm, bit, immW_one]
         all_goals rw [if_neg (by omega)])
  | op1 o d a =>
    cases o <;> first
      | exact ⟨rfl, rfl⟩
      | (unfold zeroOp
         dsimp only
         repeat' split_ifs
         all_goals (first | exact ⟨rfl, rfl⟩ | refine ⟨?_, rfl⟩)
         all_goals simp_all [PI.exec, Rv1.run, lo_zero, sx_zero])
  | _ => exact ⟨rfl, rfl⟩

theorem run_zeroOp {E : Env} {i : PI} (h : i.enc = true) {is js : List PI}
    (hr : ∀ s, run E is s = run E js s) (s : St) : run E (zeroOp i :: is) s = run E (i :: js) s := by
  obtain ⟨h1, h2⟩ := zeroOp_exec (E := E) h s
  by_cases hp : i.plain = true
  · rw [run_plain (h2.trans hp), run_plain hp, h1, hr]
  · have : zeroOp i = i := by cases i <;> first | rfl | exact absurd rfl hp
    rw [this]
    cases i with
    | br c a b l => simp only [run, hr]
    | jump l => rfl
    | jr a => rfl
    | ret => rfl
    | _ => exact absurd rfl hp

/-- **C57** (operations with zero).  A block does the same after `simplifyOpWithZero`. -/
theorem simplifyOpWithZero_run (E : Env) (is : List PI) (h : ∀ i ∈ is, i.enc = true) (s : St) :
    run E (simplifyOpWithZero is) s = run E is s := by
  induction is generalizing s with
  | nil => rfl
  | cons i is ih =>
    exact run_zeroOp (h i (by simp)) (fun s => ih (fun j hj => h j (by simp [hj])) s) s

/-! ## Sign extensions -/

/-- The register holds the sign extension of its low half. -/
def Signed (x : W) : Prop := sx (lo x) = x

theorem signed_sx (v : BitVec 32) : Signed (sx v) := by unfold Signed; rw [lo_sx]

theorem signed_sra {x : W} {n : ℕ} (hn : 32 ≤ n) : Signed (x.sshiftRight n) := by
  unfold Signed
  rw [sx_lo_iff, BitVec.toInt_sshiftRight, Int.shiftRight_eq_div_pow]
  have h1 := BitVec.toInt_lt (x := x)
  have h2 := BitVec.le_toInt (x := x)
  have h3 : (2 ^ 32 : ℤ) ≤ ((2 ^ n : ℕ) : ℤ) := by
    have := Nat.pow_le_pow_right (n := 2) (by omega) hn
    exact_mod_cast this
  have h4 : (0 : ℤ) < ((2 ^ n : ℕ) : ℤ) := by omega
  generalize ((2 ^ n : ℕ) : ℤ) = P at *
  norm_num at h1 h2 h3
  constructor
  · rw [Int.le_ediv_iff_mul_le h4]
    linarith
  · rw [Int.ediv_lt_iff_lt_mul h4]
    linarith

theorem signed_srl {x : W} {n : ℕ} (hn : 33 ≤ n) : Signed (x >>> n) := by
  unfold Signed
  have h1 := x.isLt
  have h2 : (x >>> n).toNat < 2 ^ 31 := by
    rw [BitVec.toNat_ushiftRight, Nat.shiftRight_eq_div_pow]
    have := Nat.pow_le_pow_right (n := 2) (by omega) hn
    rw [Nat.div_lt_iff_lt_mul (by positivity)]
    nlinarith
  rw [sx_lo_iff, BitVec.toInt_eq_toNat_of_lt (by omega)]
  omega

theorem immW_mod {v : ℤ} {n : ℕ} (h : 0 ≤ v ∧ v < n) (hn : n ≤ 2 ^ 64) : (immW v).toNat % n = v.toNat := by
  unfold immW
  rw [BitVec.toNat_ofInt]
  have : v % ((2 ^ 64 : ℕ) : ℤ) = v := Int.emod_eq_of_lt h.1 (by push_cast; omega)
  rw [this, Nat.mod_eq_of_lt]
  omega

theorem signed_rd (m : W → BitVec 8) (w : Wd) (hw : w ≠ .d) (a : W) : Signed (rdMem m true w a) := by
  unfold Signed rdMem
  rw [sx_lo_iff]
  simp only [if_true]
  cases w with
  | d => exact absurd rfl hw
  | _ =>
    rw [BitVec.toInt_signExtend_of_le (by simp [Wd.bytes])]
    refine ⟨le_trans ?_ (BitVec.le_toInt _), lt_of_lt_of_le (BitVec.toInt_lt) ?_⟩ <;> simp [Wd.bytes]

/-- The instruction shifts right by exactly 32, which gives a zero extended word. -/
def PI.srl32 : PI → Bool
  | .opI .srl _ _ v => v == 32
  | _ => false

/-- What `isWProvider` says is true, except of a logical shift by exactly 32. -/
theorem isWProvider_signed {E : Env} {i : PI} (h : isWProvider i = true) (he : i.enc = true) (hs : i.srl32 = false)
    (s : St) : ∃ d, i.dst = some d ∧ Signed ((i.exec E s).get d) := by
  have hz : Signed 0 := by unfold Signed; decide
  have key : ∀ (d : R) (x : W), Signed x → Signed ((s.set d x).get d) := by
    intro d x hx
    rw [get_set]
    split
    · exact hx
    · cases d with
      | x0 => exact hz
      | _ => simp at *
  cases i with
  | op2 o d a b =>
    refine ⟨d, rfl, key _ _ ?_⟩
    cases o <;> first | (cases h; done) | (simp only [Rv2.run]; with_reducible exact signed_sx _)
  | opI o d a v =>
    refine ⟨d, rfl, key _ _ ?_⟩
    cases o
    all_goals first | (cases h; done) | (simp only [Rv2.run]; with_reducible exact signed_sx _) | skip
    · simp only [isWProvider, decide_eq_true_eq] at h
      simp only [PI.enc, immOk, decide_eq_true_eq] at he
      simp only [PI.srl32, beq_eq_false_iff_ne] at hs
      simp only [Rv2.run]
      rw [immW_mod (n := 64) (by exact_mod_cast he) (by norm_num)]
      exact signed_srl (by omega)
    · simp only [isWProvider, decide_eq_true_eq] at h
      simp only [PI.enc, immOk, decide_eq_true_eq] at he
      simp only [Rv2.run]
      rw [immW_mod (n := 64) (by exact_mod_cast he) (by norm_num)]
      exact signed_sra (by omega)
  | op1 o d a =>
    refine ⟨d, rfl, key _ _ ?_⟩
    cases o <;> first | (cases h; done) | (simp only [Rv1.run]; exact signed_sx _)
  | li12 d v => exact ⟨d, rfl, key _ _ (sx_lo_imm he)⟩
  | load sg w d a al =>
    refine ⟨d, rfl, key _ _ ?_⟩
    cases sg <;> cases w <;> first | (cases h; done) | exact signed_rd _ _ (by simp) _
  | _ => cases h

/-- An instruction changes no register but the one it writes (calls excepted). -/
theorem exec_get_ne {E : Env} {i : PI} (hc : i.isCall = false) {q : R} (hq : i.dst ≠ some q) (s : St) :
    (i.exec E s).get q = s.get q := by
  cases i with
  | call n => cases hc
  | store w x a al => cases q <;> rfl
  | br c a b l => rfl
  | jump l => rfl
  | jr a => rfl
  | ret => rfl
  | _ =>
    simp only [PI.dst, ne_eq, Option.some.injEq] at hq
    exact get_set_ne _ _ (fun e => hq e.symm)

/-- Every provider in the map has left a sign extended value. -/
def DOk (D : R → Option PI) (s : St) : Prop := ∀ r i, D r = some i → isWProvider i = true → Signed (s.get r)

theorem noteDef_ok {E : Env} {D : R → Option PI} {s : St} (hD : DOk D s) {i : PI} (hc : i.isCall = false)
    (he : i.enc = true) (hs : i.srl32 = false) : DOk (noteDef D i) (i.exec E s) := by
  intro r j hj hw
  cases hd : i.dst with
  | some d =>
    simp only [noteDef, hd] at hj
    split at hj
    · rename_i hr
      cases hj
      obtain ⟨d', hd', hsg⟩ := isWProvider_signed (E := E) hw he hs s
      rw [hd'] at hd
      cases hd
      rw [hr]; exact hsg
    · rename_i hr
      rw [exec_get_ne hc (by rw [hd]; simpa using fun e => hr e.symm)]
      exact hD r j hj hw
  | none =>
    simp only [noteDef, hd] at hj
    rw [exec_get_ne hc (by rw [hd]; simp)]
    exact hD r j hj hw

theorem sextScan_run {E : Env} : ∀ (is : List PI) (D : R → Option PI) (s : St), DOk D s →
    (∀ i ∈ is, i.enc = true) → (∀ i ∈ is, i.srl32 = false) → run E (sextScan D is) s = run E is s := by
  intro is
  induction is with
  | nil => intros; rfl
  | cons i is ih =>
    intro D s hD he hs
    have he' : ∀ i ∈ is, i.enc = true := fun j hj => he j (by simp [hj])
    have hs' : ∀ i ∈ is, i.srl32 = false := fun j hj => hs j (by simp [hj])
    by_cases hx : ∃ d a, i = .op1 .sextW d a
    · obtain ⟨d, a, rfl⟩ := hx
      unfold sextScan
      simp only
      split
      · rename_i hany
        obtain ⟨j, hj, hw⟩ : ∃ j, D a = some j ∧ isWProvider j = true := by
          cases hDa : D a with
          | none => rw [hDa] at hany; cases hany
          | some j => rw [hDa] at hany; exact ⟨j, rfl, hany⟩
        have hsig := hD a j hj hw
        have hex : (PI.op1 .sextW d a).exec E s = (PI.op1 .mv d a).exec E s := by
          unfold Signed at hsig
          simp only [PI.exec, Rv1.run, hsig]
        rw [run_plain rfl, run_plain rfl, hex]
        exact ih _ _ (noteDef_ok hD rfl rfl rfl) he' hs'
      · rw [run_plain rfl, run_plain rfl]
        exact ih _ _ (noteDef_ok hD rfl rfl rfl) he' hs'
    · have hsc : sextScan D (i :: is) = i :: sextScan (if i.isCall then fun _ => none else noteDef D i) is := by
        cases i with
        | op1 o d a => cases o <;> first | rfl | exact absurd ⟨d, a, rfl⟩ hx
        | _ => rfl
      rw [hsc]
      have hn : DOk (if i.isCall then fun _ => none else noteDef D i) (i.exec E s) := by
        split
        · intro r j hj; cases hj
        · rename_i hcall
          exact noteDef_ok hD (Bool.eq_false_iff.mpr hcall) (he i (by simp)) (hs i (by simp))
      by_cases hp : i.plain = true
      · rw [run_plain hp, run_plain hp]
        exact ih _ _ hn he' hs'
      · cases i with
        | br c a b l =>
          simp only [run]
          split
          · rfl
          · exact ih _ _ hn he' hs'
        | jump l => rfl
        | jr a => rfl
        | ret => rfl
        | _ => exact absurd rfl hp

/-- **C57** (sign extensions).  A block with encodable immediates and no logical shift right by exactly 32 does the same
after `removeSExtW`. -/
theorem removeSExtW_run (E : Env) (is : List PI) (he : ∀ i ∈ is, i.enc = true) (hs : ∀ i ∈ is, i.srl32 = false)
    (s : St) : run E (removeSExtW is) s = run E is s :=
  sextScan_run is _ s (fun _ _ h => by cases h) he hs

end Cmmc.Rvp
