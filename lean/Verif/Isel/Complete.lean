import Verif.Isel.Branch

/-!
# The rules cover the integer operations
-/

namespace Cmmc.Isel

open Tm

/-- The generic operations the rules have an instruction for: everything but arithmetic and shifts at
`Int8`/`Int16`/`Bool`, `abs` at other types than `Int32`, signed comparison of booleans, sign extension
from a boolean, truncation to a boolean, and a select between immediates of more than 32 bits. -/
def Tm.Supported : Tm → Prop
  | .reg _ _ | .zero _ | .imm _ _ | .li _ _ => True
  | .un .neg t a => (t = .i32 ∨ t = .i64) ∧ a.Supported
  | .un .abs t a => t = .i32 ∧ a.Supported
  | .un .sext _ a => a.ty ≠ .b ∧ a.Supported
  | .un .zext _ a => a.Supported
  | .un .trunc t a => t ≠ .b ∧ a.Supported
  | .un (.r _) _ _ => False
  | .bin (.g o) t a b => (binSel o t).isSome = true ∧ a.Supported ∧ b.Supported
  | .bin (.icmp c) _ a b => (c.signed = true → a.ty ≠ .b) ∧ a.Supported ∧ b.Supported
  | .bin (.r _) _ _ _ => False
  | .sel _ c a b => (a.fits32 = true ∧ b.fits32 = true) ∧ c.Supported ∧ a.Supported ∧ b.Supported
  | .selG _ _ _ _ _ _ => False
  | .selA _ _ _ _ _ _ _ => False

theorem Steps.shape {s t : Tm} (h : Steps s t) : t.ty = s.ty ∧ t.isImm = s.isImm ∧
    (s.fits32 = true → t.fits32 = true) := by
  induction h with
  | refl => exact ⟨rfl, rfl, id⟩
  | tail _ h ih =>
    obtain ⟨h1, h2, h3⟩ := h.shape
    exact ⟨h1.trans ih.1, by rw [h3, ← ih.2.1, h2], fun _ => fits32_of_reg h3⟩

/-- Any operand can be moved to a register. -/
theorem exists_asReg (a : Tm) (ha : a.Machine) : ∃ a', AsReg a a' ∧ a'.isImm = false ∧ a'.Machine ∧ a'.ty = a.ty := by
  by_cases h : a.isImm = false
  · exact ⟨a, .keep h, h, ha, rfl⟩
  · cases a <;> simp [Tm.isImm] at h
    exact ⟨_, .load, rfl, trivial, rfl⟩

theorem steps_bin {o : BOp} {t : Ty} {a b : Tm} (ho : ∀ r, o ≠ .r r) {a' b' : Tm} (ha : Steps a a')
    (hb : Steps b b') (ma : a'.Machine) (mb : b'.Machine) :
    ∃ x y, Steps (bin o t a b) (bin o t x y) ∧ x.isImm = false ∧ y.isImm = false ∧ x.Machine ∧ y.Machine ∧
      x.ty = a.ty ∧ y.ty = b.ty := by
  obtain ⟨x, h1, h2, h3, h4⟩ := exists_asReg a' ma
  obtain ⟨y, g1, g2, g3, g4⟩ := exists_asReg b' mb
  refine ⟨x, y, ?_, h2, g2, h3, g3, h4.trans ha.ty_eq, g4.trans hb.ty_eq⟩
  refine (Steps.congr (f := fun a => bin o t a b) .binL ha).trans ?_
  refine (Steps.congr (f := fun b => bin o t a' b) .binR hb).trans ?_
  exact ((Steps.one (.immL h1 ho)).trans (Steps.one (.immR g1 ho)))

theorem steps_un {o : UOp} {t : Ty} {a : Tm} (ho : ∀ r, o ≠ .r r) {a' : Tm} (ha : Steps a a')
    (ma : a'.Machine) :
    ∃ x, Steps (un o t a) (un o t x) ∧ x.isImm = false ∧ x.Machine ∧ x.ty = a.ty := by
  obtain ⟨x, h1, h2, h3, h4⟩ := exists_asReg a' ma
  exact ⟨x, (Steps.congr (f := fun a => un o t a) .un ha).trans (.one (.immU h1 ho)), h2, h3,
    h4.trans ha.ty_eq⟩

theorem icmp_complete {c : CC} {x y : Tm} (hc : c.signed = true → x.ty ≠ .b) (hxy : x.ty = y.ty)
    (hx : x.isImm = false) (hy : y.isImm = false) (mx : x.Machine) (my : y.Machine) :
    ∃ m, Steps (bin (.icmp c) .b x y) m ∧ m.Machine := by
  have hc' : c.signed = true → y.ty ≠ .b := by rw [← hxy]; exact hc
  cases c with
  | eq =>
    refine ⟨bin (.r .sltu) .b (bin (.r .xor) x.ty x y) (imm x.ty 1), ?_, rfl, ⟨hx, mx, my⟩, trivial⟩
    exact (Steps.one (.icmpXor (.inl rfl))).trans
      ((Steps.tail .refl (.binL (.here (.sel2 (o' := .xor) rfl hx (fits_of_reg hy))))).trans
        (.one (.eqZero ⟨_, .inl rfl⟩ rfl)))
  | ne =>
    refine ⟨bin (.r .sltu) .b (zero y.ty) (bin (.r .xor) x.ty x y), ?_, rfl, trivial, ⟨hx, mx, my⟩⟩
    exact (Steps.one (.icmpXor (.inr rfl))).trans
      ((Steps.tail .refl (.binL (.here (.sel2 (o' := .xor) rfl hx (fits_of_reg hy))))).trans
        (.one (.neZero ⟨_, .inl rfl⟩ rfl)))
  | slt => exact ⟨_, .one (.slt (hc rfl) hx (fits_of_reg hy)), hx, mx, my⟩
  | sgt => exact ⟨_, .one (.sgt (hc rfl) hx hy), hy, my, mx⟩
  | ult => exact ⟨_, .one (.ult hx (fits_of_reg hy)), hx, mx, my⟩
  | ugt => exact ⟨_, .one (.ugt hx hy), hy, my, mx⟩
  | sle => exact ⟨_, .one (.sle (hc rfl) hx hy), rfl, ⟨hy, my, mx⟩, trivial⟩
  | ule => exact ⟨_, .one (.ule hx hy), rfl, ⟨hy, my, mx⟩, trivial⟩
  | sge =>
    exact ⟨_, (Steps.one .icmpSwap).trans (.one (.sle (hc' rfl) hy hx)), rfl, ⟨hx, mx, my⟩, trivial⟩
  | uge => exact ⟨_, (Steps.one .icmpSwap).trans (.one (.ule hy hx)), rfl, ⟨hx, mx, my⟩, trivial⟩

theorem complete {s : Tm} (hg : s.Generic) (ht : s.Typed) (hs : s.Supported) :
    ∃ m, Steps s m ∧ m.Machine := by
  induction s with
  | reg | zero | imm | li => exact ⟨_, .refl, trivial⟩
  | un o t a ih =>
    have hga : a.Generic := by cases o <;> simp_all [Generic]
    have hsa : a.Supported := by cases o <;> simp_all [Tm.Supported]
    obtain ⟨a', h1, h2⟩ := ih hga ht.2 hsa
    have ho : ∀ r, o ≠ .r r := by rintro r rfl; exact hg
    obtain ⟨x, g1, g2, g3, g4⟩ := steps_un (t := t) ho h1 h2
    have ht1 := ht.1
    cases o with
    | neg =>
      have h32 := hs.1
      obtain ⟨o', ho'⟩ : ∃ o', binSel .sub t = some o' := by
        rcases h32 with rfl | rfl <;> exact ⟨_, rfl⟩
      exact ⟨_, g1.trans ((Steps.one .neg).trans (.one (.sel2 ho' rfl (fits_of_reg g2)))), rfl, trivial, g3⟩
    | abs =>
      have := hs.1
      subst this
      exact ⟨_, g1.trans (.one (.abs g2)), rfl, ⟨rfl, trivial, g3⟩, g3⟩
    | sext =>
      have hb := hs.1
      rw [← g4] at hb
      exact ⟨_, g1.trans (.one (.sext hb g2)), g2, g3⟩
    | zext =>
      simp only [UOp.typed] at ht1
      rcases hty : a.ty with _ | _ | _ | _ | _
      · exact ⟨_, g1.trans (.one (.zextB (g4.trans hty) g2)), g2, g3⟩
      · exact ⟨_, g1.trans (.one (.zext8 (g4.trans hty) g2)), g2, g3, trivial⟩
      · exact ⟨_, g1.trans (.one (.zext16 (g4.trans hty) g2)), g2, g3⟩
      · exact ⟨_, g1.trans (.one (.zext32 (g4.trans hty) g2)), g2, g3⟩
      · rw [hty] at ht1
        exact absurd ht1 (by cases t <;> decide)
    | trunc =>
      simp only [UOp.typed] at ht1
      have hb := hs.1
      cases t with
      | b => exact absurd rfl hb
      | i8 => exact ⟨_, g1.trans (.one (.trunc8 g2)), g2, g3⟩
      | i16 => exact ⟨_, g1.trans (.one (.trunc16 g2)), g2, g3⟩
      | i32 => exact ⟨_, g1.trans (.one (.trunc32 g2)), g2, g3⟩
      | i64 => exact absurd ht1 (by cases a.ty <;> decide)
    | r o => exact absurd hg id
  | bin o t a b iha ihb =>
    have hga : a.Generic ∧ b.Generic := by cases o <;> simp_all [Generic]
    have hsa : a.Supported ∧ b.Supported := by cases o <;> simp_all [Tm.Supported]
    obtain ⟨a', h1, h2⟩ := iha hga.1 ht.2.1 hsa.1
    obtain ⟨b', h3, h4⟩ := ihb hga.2 ht.2.2 hsa.2
    have ho : ∀ r, o ≠ .r r := by rintro r rfl; exact hg
    obtain ⟨x, y, g1, g2, g3, g4, g5, g6, g7⟩ := steps_bin (t := t) ho h1 h3 h2 h4
    cases o with
    | g o =>
      obtain ⟨o', ho'⟩ := Option.isSome_iff_exists.mp hs.1
      exact ⟨_, g1.trans (.one (.sel2 ho' g2 (fits_of_reg g3))), g2, g4, g5⟩
    | icmp c =>
      have htb : t = .b := ht.1.1
      subst htb
      have hc := hs.1
      rw [← g6] at hc
      obtain ⟨m, k1, k2⟩ := icmp_complete hc (g6.trans (ht.1.2.trans g7.symm)) g2 g3 g4 g5
      exact ⟨m, g1.trans k1, k2⟩
    | r o => exact absurd hg id
  | sel t c a b ihc iha ihb =>
    obtain ⟨c', c1, c2⟩ := ihc hg.1 ht.2.1 hs.2.1
    obtain ⟨a', a1, a2⟩ := iha hg.2.1 ht.2.2.1 hs.2.2.1
    obtain ⟨b', b1, b2⟩ := ihb hg.2.2 ht.2.2.2 hs.2.2.2
    obtain ⟨x, x1, x2, x3, x4⟩ := exists_asReg c' c2
    refine ⟨selG .ne t x (zero x.ty) a' b', ?_, ⟨x2, rfl⟩, x3, trivial, a2, b2⟩
    refine (Steps.congr (f := fun c => sel t c a b) .selC c1).trans ?_
    refine (Steps.congr (f := fun a => sel t c' a b) .selL a1).trans ?_
    refine (Steps.congr (f := fun b => sel t c' a' b) .selR b1).trans ?_
    exact (Steps.one (.immC x1)).trans (.one (.selCond x2 (a1.shape.2.2 hs.1.1) (b1.shape.2.2 hs.1.2)))
  | selG => exact absurd hg id
  | selA => exact absurd hg id

end Cmmc.Isel
