import Verif.Isel.WordProps

/-!
# Well-formed evaluation of a tree
-/

namespace Cmmc.Isel

open Tm

/-- The tree evaluates to `v`, is typed and encodable, and all its registers hold values of their
types. -/
structure Ok (env : ℕ → W) (t : Tm) (v : W) : Prop where
  ev : t.eval env = some v
  hold : t.AllHold env
  typed : t.Typed
  enc : t.Enc

theorem Ok.holds {env t v} (h : Ok env t v) : Holds t.ty v := by
  have he := h.ev
  have hh := h.hold
  cases t <;> simp only [AllHold, eval, Tm.ty] at *
  · cases he; exact hh
  · cases he; exact holds_zero _
  · cases he; exact hh
  · cases he; exact hh
  · exact hh.1 v he
  · exact hh.1 v he
  · exact hh.1 v he
  · exact hh.1 v he
  · exact hh.1 v he

/-- The encodability condition at the root of a two-operand node. -/
def encB (o : BOp) (a b : Tm) : Prop :=
  match o with
  | .r o => a.isImm = false ∧ b.fits o = true
  | _ => True

def encU (o : UOp) (a : Tm) : Prop :=
  match o with
  | .r _ => a.isImm = false
  | _ => True

theorem ok_reg {env t n v} : Ok env (reg t n) v ↔ v = env n ∧ Holds t v := by
  constructor
  · intro h
    have he := h.ev
    simp only [eval, Option.some.injEq] at he
    exact ⟨he.symm, h.holds⟩
  · rintro ⟨rfl, h⟩
    exact ⟨rfl, h, trivial, trivial⟩

theorem ok_zero {env t v} : Ok env (zero t) v ↔ v = 0 := by
  constructor
  · intro h
    have he := h.ev
    simp only [eval, Option.some.injEq] at he
    exact he.symm
  · rintro rfl
    exact ⟨rfl, trivial, trivial, trivial⟩

theorem ok_imm {env t n v} :
    Ok env (imm t n) v ↔ v = immW n ∧ (-2 ^ 63 ≤ n ∧ n < 2 ^ 63) ∧ Holds t (immW n) := by
  constructor
  · intro h
    have he := h.ev
    simp only [eval, Option.some.injEq] at he
    exact ⟨he.symm, h.typed⟩
  · rintro ⟨rfl, h⟩
    exact ⟨rfl, h.2, h, trivial⟩

theorem ok_li {env t n v} :
    Ok env (li t n) v ↔ v = immW n ∧ (-2 ^ 63 ≤ n ∧ n < 2 ^ 63) ∧ Holds t (immW n) := by
  constructor
  · intro h
    have he := h.ev
    simp only [eval, Option.some.injEq] at he
    exact ⟨he.symm, h.typed⟩
  · rintro ⟨rfl, h⟩
    exact ⟨rfl, h.2, h, trivial⟩

theorem ok_un {env o t a v} : Ok env (un o t a) v ↔
    ∃ x, Ok env a x ∧ o.run t a.ty x = v ∧ Holds t v ∧ UOp.typed o t a.ty ∧ encU o a := by
  constructor
  · intro h
    have he := h.ev
    have hc := h.enc
    simp only [eval, Option.bind_eq_some_iff, Option.some.injEq] at he
    obtain ⟨x, hx, rfl⟩ := he
    refine ⟨x, ⟨hx, h.hold.2, h.typed.2, ?_⟩, rfl, h.holds, h.typed.1, ?_⟩ <;>
      cases o <;> simp_all [Enc, encU]
  · rintro ⟨x, ha, rfl, hv, ht, hc⟩
    have e : (un o t a).eval env = some (o.run t a.ty x) := by simp [eval, ha.ev]
    refine ⟨e, ⟨fun w hw => ?_, ha.hold⟩, ⟨ht, ha.typed⟩, ?_⟩
    · rw [e] at hw; cases hw; exact hv
    · have := ha.enc
      cases o <;> simp_all [Enc, encU]

theorem ok_bin {env o t a b v} : Ok env (bin o t a b) v ↔
    ∃ x y, Ok env a x ∧ Ok env b y ∧ o.run t a.ty x y = some v ∧ Holds t v ∧
      BOp.typed o t a.ty b.ty ∧ encB o a b := by
  constructor
  · intro h
    have he := h.ev
    have hc := h.enc
    simp only [eval, Option.bind_eq_some_iff] at he
    obtain ⟨x, hx, y, hy, e⟩ := he
    refine ⟨x, y, ⟨hx, h.hold.2.1, h.typed.2.1, ?_⟩, ⟨hy, h.hold.2.2, h.typed.2.2, ?_⟩, e, h.holds,
      h.typed.1, ?_⟩ <;> cases o <;> simp_all [Enc, encB]
  · rintro ⟨x, y, ha, hb, e, hv, ht, hc⟩
    have e : (bin o t a b).eval env = some v := by simp [eval, ha.ev, hb.ev, e]
    refine ⟨e, ⟨fun w hw => ?_, ha.hold, hb.hold⟩, ⟨ht, ha.typed, hb.typed⟩, ?_⟩
    · rw [e] at hw; cases hw; exact hv
    · have := ha.enc
      have := hb.enc
      cases o <;> simp_all [Enc, encB]

theorem ok_sel {env t c a b v} : Ok env (sel t c a b) v ↔
    ∃ k x y, Ok env c k ∧ Ok env a x ∧ Ok env b y ∧ v = (if prj .b k = 1 then x else y) ∧
      Holds t v ∧ (c.ty = .b ∧ a.ty = t ∧ b.ty = t) := by
  constructor
  · intro h
    have he := h.ev
    simp only [eval, Option.bind_eq_some_iff, Option.some.injEq] at he
    obtain ⟨k, hk, x, hx, y, hy, e⟩ := he
    exact ⟨k, x, y, ⟨hk, h.hold.2.1, h.typed.2.1, h.enc.1⟩, ⟨hx, h.hold.2.2.1, h.typed.2.2.1, h.enc.2.1⟩,
      ⟨hy, h.hold.2.2.2, h.typed.2.2.2, h.enc.2.2⟩, e.symm, h.holds, h.typed.1⟩
  · rintro ⟨k, x, y, hc, ha, hb, e, hv, ht⟩
    have e : (sel t c a b).eval env = some v := by simp [eval, hc.ev, ha.ev, hb.ev, e]
    refine ⟨e, ⟨fun w hw => ?_, hc.hold, ha.hold, hb.hold⟩, ⟨ht, hc.typed, ha.typed, hb.typed⟩,
      hc.enc, ha.enc, hb.enc⟩
    rw [e] at hw; cases hw; exact hv

theorem ok_selG {env c t l r a b v} : Ok env (selG c t l r a b) v ↔
    ∃ p q x y, Ok env l p ∧ Ok env r q ∧ Ok env a x ∧ Ok env b y ∧
      v = (if c.run p q then x else y) ∧ Holds t v ∧
      (l.isImm = false ∧ r.isImm = false ∧ a.fits32 = true ∧ b.fits32 = true) := by
  constructor
  · intro h
    have he := h.ev
    simp only [eval, Option.bind_eq_some_iff, Option.some.injEq] at he
    obtain ⟨p, hp, q, hq, x, hx, y, hy, e⟩ := he
    obtain ⟨-, h1, h2, h3, h4⟩ := h.hold
    obtain ⟨t1, t2, t3, t4⟩ := h.typed
    obtain ⟨e0, e1, e2, e3, e4⟩ := h.enc
    exact ⟨p, q, x, y, ⟨hp, h1, t1, e1⟩, ⟨hq, h2, t2, e2⟩, ⟨hx, h3, t3, e3⟩, ⟨hy, h4, t4, e4⟩,
      e.symm, h.holds, e0⟩
  · rintro ⟨p, q, x, y, hl, hr, ha, hb, e, hv, hc⟩
    have e : (selG c t l r a b).eval env = some v := by
      simp [eval, hl.ev, hr.ev, ha.ev, hb.ev, e]
    refine ⟨e, ⟨fun w hw => ?_, hl.hold, hr.hold, ha.hold, hb.hold⟩,
      ⟨hl.typed, hr.typed, ha.typed, hb.typed⟩, hc, hl.enc, hr.enc, ha.enc, hb.enc⟩
    rw [e] at hw; cases hw; exact hv

theorem ok_selA {env c o t l r a b v} : Ok env (selA c o t l r a b) v ↔
    ∃ p q x y, Ok env l p ∧ Ok env r q ∧ Ok env a x ∧ Ok env b y ∧
      v = (if c.run p q then o.run x y else x) ∧ Holds t v ∧
      (l.isImm = false ∧ r.isImm = false ∧ a.isImm = false ∧ b.fits o = true) := by
  constructor
  · intro h
    have he := h.ev
    simp only [eval, Option.bind_eq_some_iff, Option.some.injEq] at he
    obtain ⟨p, hp, q, hq, x, hx, y, hy, e⟩ := he
    obtain ⟨-, h1, h2, h3, h4⟩ := h.hold
    obtain ⟨t1, t2, t3, t4⟩ := h.typed
    obtain ⟨e0, e1, e2, e3, e4⟩ := h.enc
    exact ⟨p, q, x, y, ⟨hp, h1, t1, e1⟩, ⟨hq, h2, t2, e2⟩, ⟨hx, h3, t3, e3⟩, ⟨hy, h4, t4, e4⟩,
      e.symm, h.holds, e0⟩
  · rintro ⟨p, q, x, y, hl, hr, ha, hb, e, hv, hc⟩
    have e : (selA c o t l r a b).eval env = some v := by
      simp [eval, hl.ev, hr.ev, ha.ev, hb.ev, e]
    refine ⟨e, ⟨fun w hw => ?_, hl.hold, hr.hold, ha.hold, hb.hold⟩,
      ⟨hl.typed, hr.typed, ha.typed, hb.typed⟩, hc, hl.enc, hr.enc, ha.enc, hb.enc⟩
    rw [e] at hw; cases hw; exact hv

/-- A generic typed tree over well-formed registers is well formed. -/
theorem Ok.of_generic {env : ℕ → W} {t : Tm} (hg : t.Generic) (ht : t.Typed) (he : t.EnvOk env) :
    ∀ {v}, t.eval env = some v → Ok env t v := by
  induction t with
  | reg t n =>
    intro v hv
    simp only [eval, Option.some.injEq] at hv
    subst hv
    exact ok_reg.mpr ⟨rfl, he⟩
  | zero t =>
    intro v hv
    simp only [eval, Option.some.injEq] at hv
    exact ok_zero.mpr hv.symm
  | imm t n =>
    intro v hv
    simp only [eval, Option.some.injEq] at hv
    exact ok_imm.mpr ⟨hv.symm, ht⟩
  | li t n =>
    intro v hv
    simp only [eval, Option.some.injEq] at hv
    exact ok_li.mpr ⟨hv.symm, ht⟩
  | un o t a ih =>
    intro v hv
    simp only [eval, Option.bind_eq_some_iff, Option.some.injEq] at hv
    obtain ⟨x, hx, rfl⟩ := hv
    have hga : a.Generic := by cases o <;> simp_all [Generic]
    refine ok_un.mpr ⟨x, ih hga ht.2 he hx, rfl, ?_, ht.1, ?_⟩
    · cases o <;> simp only [UOp.run, Generic] at hg ⊢ <;> exact holds_inj _ _
    · cases o <;> simp_all [Generic, encU]
  | bin o t a b iha ihb =>
    intro v hv
    simp only [eval, Option.bind_eq_some_iff] at hv
    obtain ⟨x, hx, y, hy, e⟩ := hv
    have hga : a.Generic ∧ b.Generic := by cases o <;> simp_all [Generic]
    refine ok_bin.mpr ⟨x, y, iha hga.1 ht.2.1 he.1 hx, ihb hga.2 ht.2.2 he.2 hy, e, ?_, ht.1, ?_⟩
    · cases o with
      | g o =>
        simp only [BOp.run, Option.map_eq_some_iff] at e
        obtain ⟨z, -, rfl⟩ := e
        exact holds_inj _ _
      | icmp c =>
        simp only [BOp.run, Option.some.injEq] at e
        have : t = .b := ht.1.1
        subst this e
        exact holds_bit _
      | r o => simp [Generic] at hg
    · cases o <;> simp_all [Generic, encB]
  | sel t c a b ihc iha ihb =>
    intro v hv
    simp only [eval, Option.bind_eq_some_iff, Option.some.injEq] at hv
    obtain ⟨k, hk, x, hx, y, hy, e⟩ := hv
    have oa := iha hg.2.1 ht.2.2.1 he.2.1 hx
    have ob := ihb hg.2.2 ht.2.2.2 he.2.2 hy
    refine ok_sel.mpr ⟨k, x, y, ihc hg.1 ht.2.1 he.1 hk, oa, ob, e.symm, ?_, ht.1⟩
    have h1 := oa.holds
    have h2 := ob.holds
    rw [ht.1.2.1] at h1
    rw [ht.1.2.2] at h2
    subst e
    split_ifs <;> assumption
  | selG => exact absurd hg (by simp [Generic])
  | selA => exact absurd hg (by simp [Generic])

end Cmmc.Isel
