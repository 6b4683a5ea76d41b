import Verif.Isel.StepSound

/-!
# Selection of conditional branches

`InstBranch` and the compare-and-branch instructions it becomes (`cmmc/Target/RISCV/RISCV.yml:1518-1683`,
without the floating point rule).
-/

namespace Cmmc.Isel

open Tm

/-- A conditional branch: the generic one, which tests a boolean, or the machine instruction
(`BEQ`, `BNE`, `BLT`, ...), which compares two registers. -/
inductive Br
  | gen (c : Tm)
  | cmp (c : CC) (l r : Tm)
  deriving Repr, DecidableEq

/-- Whether the branch is taken; `none` if an operand is undefined. -/
def Br.taken (env : ℕ → W) : Br → Option Bool
  | .gen c => (c.eval env).bind fun k => some (decide (prj .b k = 1))
  | .cmp c l r => (l.eval env).bind fun p => (r.eval env).bind fun q => some (c.run p q)

/-- One selection step of a branch. -/
inductive BRule : Br → Br → Prop
  /-- A step in an operand. -/
  | inGen {c c'} : Step c c' → BRule (.gen c) (.gen c')
  | inL {c l l' r} : Step l l' → BRule (.cmp c l r) (.cmp c l' r)
  | inR {c l r r'} : Step r r' → BRule (.cmp c l r) (.cmp c l r')
  /-- `RISCV.yml:1518-1535`.  Extra condition: no signed comparison of booleans. -/
  | zero {c t l z} : (∃ s, z = zero s ∨ z = imm s 0) → l.isImm = false → (c.signed = true → l.ty ≠ .b) →
      BRule (.gen (bin (.icmp c) t l z)) (.cmp c l (zero l.ty))
  /-- `RISCV.yml:1537-1553`. -/
  | ge1 {t l s} : l.isImm = false → l.ty ≠ .b →
      BRule (.gen (bin (.icmp .sge) t l (imm s 1))) (.cmp .sgt l (zero l.ty))
  /-- `RISCV.yml:1555-1571`.  Extra condition: the immediate is `-1`, where the code looks at the low 32
  bits only. -/
  | gtm1 {t l s} : l.isImm = false → l.ty ≠ .b →
      BRule (.gen (bin (.icmp .sgt) t l (imm s (-1)))) (.cmp .sge l (zero l.ty))
  /-- `RISCV.yml:1573-1589`. -/
  | lt1 {t l s} : l.isImm = false → l.ty ≠ .b →
      BRule (.gen (bin (.icmp .slt) t l (imm s 1))) (.cmp .sle l (zero l.ty))
  /-- `RISCV.yml:1591-1607`; condition as for `gtm1`. -/
  | lem1 {t l s} : l.isImm = false → l.ty ≠ .b →
      BRule (.gen (bin (.icmp .sle) t l (imm s (-1)))) (.cmp .slt l (zero l.ty))
  /-- `RISCV.yml:1609-1628`. -/
  | load {c t l s v} : l.isImm = false → (c.signed = true → l.ty ≠ .b) →
      BRule (.gen (bin (.icmp c) t l (imm s v))) (.cmp c l (li l.ty v))
  /-- `RISCV.yml:1630-1647`. -/
  | regs {c t l r} : l.isImm = false → r.isImm = false → (c.signed = true → l.ty ≠ .b) →
      BRule (.gen (bin (.icmp c) t l r)) (.cmp c l r)
  /-- `RISCV.yml:1672-1683`. -/
  | cond {c} : c.isImm = false → BRule (.gen c) (.cmp .ne c (zero c.ty))

inductive BSteps : Br → Br → Prop
  | refl {s} : BSteps s s
  | tail {s t u} : BSteps s t → BRule t u → BSteps s u

/-- The branch has its operands well formed and the given outcome. -/
def BOk (env : ℕ → W) : Br → Bool → Prop
  | .gen c, b => c.ty = .b ∧ ∃ k, Ok env c k ∧ decide (prj .b k = 1) = b
  | .cmp c l r, b => ∃ p q, Ok env l p ∧ Ok env r q ∧ c.run p q = b ∧ l.isImm = false ∧ r.isImm = false

theorem BOk.taken {env s b} (h : BOk env s b) : s.taken env = some b := by
  cases s with
  | gen c =>
    obtain ⟨-, k, hk, e⟩ := h
    simp only [Br.taken, hk.ev, Option.bind_some, e]
  | cmp c l r =>
    obtain ⟨p, q, hp, hq, e, -⟩ := h
    simp [Br.taken, hp.ev, hq.ev, e]

/-- What the comparison inside a generic branch computes, on whole registers. -/
theorem bok_icmp {env c t l r b} (h : BOk env (.gen (bin (.icmp c) t l r)) b)
    (hc : c.signed = true → l.ty ≠ .b) :
    ∃ p q, Ok env l p ∧ Ok env r q ∧ c.run p q = b ∧ r.ty = l.ty := by
  obtain ⟨-, k, hk, e⟩ := h
  obtain ⟨p, q, hp, hq, e1, -, h7, -⟩ := ok_bin.mp hk
  have hx := hp.holds
  have hy := hq.holds
  rw [← h7.2] at hy
  simp only [BOp.run, Option.some.injEq] at e1
  rw [CC.run_prj hc hx hy] at e1
  refine ⟨p, q, hp, hq, ?_, h7.2.symm⟩
  rw [← e, ← e1]
  cases c.run p q <;> decide

theorem cmp_zero {x : W} {c c' : CC} {n : ℤ} (hn : -2 ^ 63 ≤ n ∧ n < 2 ^ 63)
    (h : ∀ a : ℤ, c.rel a n ↔ c'.rel a 0) : c.run x (immW n) = c'.run x 0 := by
  apply CC.run_eq
  rw [immW_toInt hn, h]
  rfl

theorem BRule.sound {s t : Br} (h : BRule s t) {env : ℕ → W} {b : Bool} (hs : BOk env s b) :
    BOk env t b := by
  cases h with
  | inGen h =>
    obtain ⟨ht, k, hk, e⟩ := hs
    exact ⟨by rw [h.shape.1]; exact ht, k, h.sound hk, e⟩
  | inL h =>
    obtain ⟨p, q, hp, hq, e, h1, h2⟩ := hs
    exact ⟨p, q, h.sound hp, hq, e, h.shape.2.2, h2⟩
  | inR h =>
    obtain ⟨p, q, hp, hq, e, h1, h2⟩ := hs
    exact ⟨p, q, hp, h.sound hq, e, h1, h.shape.2.2⟩
  | zero hz hi hc =>
    obtain ⟨p, q, hp, hq, e, -⟩ := bok_icmp hs hc
    have h0 := isZero_ok hz hq
    subst h0
    exact ⟨p, 0, hp, ok_zero.mpr rfl, e, hi, rfl⟩
  | ge1 hi ht =>
    obtain ⟨p, q, hp, hq, e, -⟩ := bok_icmp hs (fun _ => ht)
    obtain ⟨rfl, hr, -⟩ := ok_imm.mp hq
    refine ⟨p, 0, hp, ok_zero.mpr rfl, ?_, hi, rfl⟩
    rw [← e]; exact (cmp_zero hr (by intro a; simp only [CC.rel]; omega)).symm
  | gtm1 hi ht =>
    obtain ⟨p, q, hp, hq, e, -⟩ := bok_icmp hs (fun _ => ht)
    obtain ⟨rfl, hr, -⟩ := ok_imm.mp hq
    refine ⟨p, 0, hp, ok_zero.mpr rfl, ?_, hi, rfl⟩
    rw [← e]; exact (cmp_zero hr (by intro a; simp only [CC.rel]; omega)).symm
  | lt1 hi ht =>
    obtain ⟨p, q, hp, hq, e, -⟩ := bok_icmp hs (fun _ => ht)
    obtain ⟨rfl, hr, -⟩ := ok_imm.mp hq
    refine ⟨p, 0, hp, ok_zero.mpr rfl, ?_, hi, rfl⟩
    rw [← e]; exact (cmp_zero hr (by intro a; simp only [CC.rel]; omega)).symm
  | lem1 hi ht =>
    obtain ⟨p, q, hp, hq, e, -⟩ := bok_icmp hs (fun _ => ht)
    obtain ⟨rfl, hr, -⟩ := ok_imm.mp hq
    refine ⟨p, 0, hp, ok_zero.mpr rfl, ?_, hi, rfl⟩
    rw [← e]; exact (cmp_zero hr (by intro a; simp only [CC.rel]; omega)).symm
  | @load c t l s v hi hc =>
    obtain ⟨p, q, hp, hq, e, hty⟩ := bok_icmp hs hc
    obtain ⟨rfl, hr, hh⟩ := ok_imm.mp hq
    have hty' : s = l.ty := hty
    subst hty'
    exact ⟨p, _, hp, ok_li.mpr ⟨rfl, hr, hh⟩, e, hi, rfl⟩
  | regs hi hj hc =>
    obtain ⟨p, q, hp, hq, e, -⟩ := bok_icmp hs hc
    exact ⟨p, q, hp, hq, e, hi, hj⟩
  | cond hi =>
    obtain ⟨ht, k, hk, e⟩ := hs
    refine ⟨k, 0, hk, ok_zero.mpr rfl, ?_, hi, rfl⟩
    have hkk := hk.holds
    rw [ht] at hkk
    rw [← e]
    rcases holds_b.mp hkk with rfl | rfl <;> decide

theorem BSteps.sound {s t : Br} (h : BSteps s t) {env : ℕ → W} {b : Bool} (hs : BOk env s b) :
    BOk env t b := by
  induction h with
  | refl => exact hs
  | tail _ h ih => exact h.sound ih

end Cmmc.Isel
