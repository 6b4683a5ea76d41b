import Verif.Isel.RuleSound

/-!
# Rewriting anywhere in a tree is sound
-/

namespace Cmmc.Isel

open Tm

theorem Rule.not_imm {s t : Tm} (h : Rule s t) : s.isImm = false ∧ t.isImm = false := by
  cases h <;> exact ⟨rfl, rfl⟩

theorem Step.shape {s t : Tm} (h : Step s t) : t.ty = s.ty ∧ s.isImm = false ∧ t.isImm = false := by
  cases h with
  | here h => exact ⟨h.ty_eq, h.not_imm⟩
  | _ => exact ⟨rfl, rfl, rfl⟩

theorem fits32_of_reg {a : Tm} (h : a.isImm = false) : a.fits32 = true := by
  cases a <;> simp_all [Tm.isImm, Tm.fits32]

theorem Step.sound {s t : Tm} (h : Step s t) {env : ℕ → W} : ∀ {v : W}, Ok env s v → Ok env t v := by
  induction h with
  | here h => exact h.sound
  | @un o t a a' h ih =>
    intro v hs
    obtain ⟨x, ha, e, h2, h3, h4⟩ := ok_un.mp hs
    obtain ⟨g1, g2, g3⟩ := h.shape
    refine ok_un.mpr ⟨x, ih ha, by rw [g1]; exact e, h2, by rw [g1]; exact h3, ?_⟩
    cases o <;> simp_all [encU]
  | @binL o t a a' b h ih =>
    intro v hs
    obtain ⟨x, y, ha, hb, e, h2, h3, h4⟩ := ok_bin.mp hs
    obtain ⟨g1, g2, g3⟩ := h.shape
    refine ok_bin.mpr ⟨x, y, ih ha, hb, by rw [g1]; exact e, h2, by rw [g1]; exact h3, ?_⟩
    cases o <;> simp_all [encB]
  | @binR o t a b b' h ih =>
    intro v hs
    obtain ⟨x, y, ha, hb, e, h2, h3, h4⟩ := ok_bin.mp hs
    obtain ⟨g1, g2, g3⟩ := h.shape
    refine ok_bin.mpr ⟨x, y, ha, ih hb, e, h2, by rw [g1]; exact h3, ?_⟩
    cases o <;> simp_all [encB, fits_of_reg g3]
  | selC h ih =>
    intro v hs
    obtain ⟨k, x, y, hc, ha, hb, e, h2, h3⟩ := ok_sel.mp hs
    exact ok_sel.mpr ⟨k, x, y, ih hc, ha, hb, e, h2, by rw [h.shape.1]; exact h3⟩
  | selL h ih =>
    intro v hs
    obtain ⟨k, x, y, hc, ha, hb, e, h2, h3⟩ := ok_sel.mp hs
    exact ok_sel.mpr ⟨k, x, y, hc, ih ha, hb, e, h2, by rw [h.shape.1]; exact h3⟩
  | selR h ih =>
    intro v hs
    obtain ⟨k, x, y, hc, ha, hb, e, h2, h3⟩ := ok_sel.mp hs
    exact ok_sel.mpr ⟨k, x, y, hc, ha, ih hb, e, h2, by rw [h.shape.1]; exact h3⟩
  | g1 h ih =>
    intro v hs
    obtain ⟨p, q, x, y, hl, hr, ha, hb, e, h2, h3, h4, h5, h6⟩ := ok_selG.mp hs
    exact ok_selG.mpr ⟨p, q, x, y, ih hl, hr, ha, hb, e, h2, h.shape.2.2, h4, h5, h6⟩
  | g2 h ih =>
    intro v hs
    obtain ⟨p, q, x, y, hl, hr, ha, hb, e, h2, h3, h4, h5, h6⟩ := ok_selG.mp hs
    exact ok_selG.mpr ⟨p, q, x, y, hl, ih hr, ha, hb, e, h2, h3, h.shape.2.2, h5, h6⟩
  | g3 h ih =>
    intro v hs
    obtain ⟨p, q, x, y, hl, hr, ha, hb, e, h2, h3, h4, h5, h6⟩ := ok_selG.mp hs
    exact ok_selG.mpr ⟨p, q, x, y, hl, hr, ih ha, hb, e, h2, h3, h4, fits32_of_reg h.shape.2.2, h6⟩
  | g4 h ih =>
    intro v hs
    obtain ⟨p, q, x, y, hl, hr, ha, hb, e, h2, h3, h4, h5, h6⟩ := ok_selG.mp hs
    exact ok_selG.mpr ⟨p, q, x, y, hl, hr, ha, ih hb, e, h2, h3, h4, h5, fits32_of_reg h.shape.2.2⟩
  | a1 h ih =>
    intro v hs
    obtain ⟨p, q, x, y, hl, hr, ha, hb, e, h2, h3, h4, h5, h6⟩ := ok_selA.mp hs
    exact ok_selA.mpr ⟨p, q, x, y, ih hl, hr, ha, hb, e, h2, h.shape.2.2, h4, h5, h6⟩
  | a2 h ih =>
    intro v hs
    obtain ⟨p, q, x, y, hl, hr, ha, hb, e, h2, h3, h4, h5, h6⟩ := ok_selA.mp hs
    exact ok_selA.mpr ⟨p, q, x, y, hl, ih hr, ha, hb, e, h2, h3, h.shape.2.2, h5, h6⟩
  | a3 h ih =>
    intro v hs
    obtain ⟨p, q, x, y, hl, hr, ha, hb, e, h2, h3, h4, h5, h6⟩ := ok_selA.mp hs
    exact ok_selA.mpr ⟨p, q, x, y, hl, hr, ih ha, hb, e, h2, h3, h4, h.shape.2.2, h6⟩
  | a4 h ih =>
    intro v hs
    obtain ⟨p, q, x, y, hl, hr, ha, hb, e, h2, h3, h4, h5, h6⟩ := ok_selA.mp hs
    exact ok_selA.mpr ⟨p, q, x, y, hl, hr, ha, ih hb, e, h2, h3, h4, h5, fits_of_reg h.shape.2.2⟩

theorem Steps.sound {s t : Tm} (h : Steps s t) {env : ℕ → W} {v : W} (hs : Ok env s v) : Ok env t v := by
  induction h with
  | refl => exact hs
  | tail _ h ih => exact h.sound ih

theorem Steps.ty_eq {s t : Tm} (h : Steps s t) : t.ty = s.ty := by
  induction h with
  | refl => rfl
  | tail _ h ih => rw [h.shape.1, ih]

theorem Steps.trans {s t u : Tm} (h1 : Steps s t) (h2 : Steps t u) : Steps s u := by
  induction h2 with
  | refl => exact h1
  | tail _ h ih => exact .tail ih h

theorem Steps.one {s t : Tm} (h : Rule s t) : Steps s t := .tail .refl (.here h)

theorem Steps.congr {f : Tm → Tm} (hf : ∀ {a a'}, Step a a' → Step (f a) (f a')) {s t : Tm}
    (h : Steps s t) : Steps (f s) (f t) := by
  induction h with
  | refl => exact .refl
  | tail _ h ih => exact .tail ih (hf h)

end Cmmc.Isel
