import Verif.Fe.Emit
/-!
# What `emitE` and `emitS` do, case by case (inversion lemmas)
-/
namespace Cmmc.Fe
open Cmmc

section
variable {sigs : Sigs} {P : Wd}

theorem bind_some' {α β : Type} {o : Option α} {f : α → Option β} {b : β} (h : (o >>= f) = some b) : ∃ a, o = some a ∧ f a = some b := by
  cases o with
  | none => cases h
  | some a => exact ⟨a, rfl, h⟩

theorem emitE_idx {a i : Expr} {c : Ctx} {q : QVal} {c' : Ctx} (h : emitE sigs P (.idx a i) c = some (q, c')) :
    ∃ qa c1 qi c2 oi ti c3 n e sg cst, emitE sigs P a c = some (qa, c1) ∧ emitE sigs P i c1 = some (qi, c2) ∧
      getRValue c2 qi = some (oi, ti, c3) ∧ qa.t = .lv (.arr n e) sg cst ∧
      q = ⟨((convertTo c3 oi ti ⟨P, false⟩).2.op (.gep e.cnt P.bits) [qa.o, (convertTo c3 oi ti ⟨P, false⟩).1]).1, .lv e sg cst⟩ ∧
      c' = ((convertTo c3 oi ti ⟨P, false⟩).2.op (.gep e.cnt P.bits) [qa.o, (convertTo c3 oi ti ⟨P, false⟩).1]).2 := by
  rw [emitE] at h
  obtain ⟨⟨qa, c1⟩, h1, h⟩ := bind_some' h
  obtain ⟨⟨qi, c2⟩, h2, h⟩ := bind_some' h
  obtain ⟨⟨oi, ti, c3⟩, h3, h⟩ := bind_some' h
  dsimp only at h
  split at h
  · rename_i n e sg cst ht
    simp only [Option.some.injEq, Prod.mk.injEq] at h
    exact ⟨qa, c1, qi, c2, oi, ti, c3, n, e, sg, cst, h1, h2, h3, ht, h.1.symm, h.2.symm⟩
  · cases h

theorem emitE_bin {op : BOp} {a b : Expr} {c : Ctx} {q : QVal} {c' : Ctx} (h : emitE sigs P (.bin op a b) c = some (q, c')) :
    ∃ qa c1 oa ta c2 qb c3 ob tb c4, emitE sigs P a c = some (qa, c1) ∧ getRValue c1 qa = some (oa, ta, c2) ∧
      emitE sigs P b c2 = some (qb, c3) ∧ getRValue c3 qb = some (ob, tb, c4) ∧
      q = ⟨(emitArith c4 op oa ta ob tb).1, .rv (emitArith c4 op oa ta ob tb).2.1⟩ ∧ c' = (emitArith c4 op oa ta ob tb).2.2 := by
  rw [emitE] at h
  obtain ⟨⟨qa, c1⟩, h1, h⟩ := bind_some' h
  obtain ⟨⟨oa, ta, c2⟩, h2, h⟩ := bind_some' h
  obtain ⟨⟨qb, c3⟩, h3, h⟩ := bind_some' h
  obtain ⟨⟨ob, tb, c4⟩, h4, h⟩ := bind_some' h
  dsimp only at h
  simp only [Option.some.injEq, Prod.mk.injEq] at h
  exact ⟨qa, c1, oa, ta, c2, qb, c3, ob, tb, c4, h1, h2, h3, h4, h.1.symm, h.2.symm⟩

/-- the control flow of `&&` and `||` -/
structure Logic (sigs : Sigs) (P : Wd) (and : Bool) (a b : Expr) (c : Ctx) (q : QVal) (c' : Ctx) : Prop where
  ex : ∃ qa c1 oa ta c2 qb c3 ob tb c4 o c5, emitE sigs P a c = some (qa, c1) ∧ getRValue c1 qa = some (oa, ta, c2) ∧
    let t := toBool c2 oa ta
    let d := (t.2.newBlock).2.newBlock.2.term
      (if and then .cbr t.1 t.2.nb (t.2.nb + 1) else .cbr t.1 (t.2.nb + 1) t.2.nb)
    emitE sigs P b (d.setCur t.2.nb) = some (qb, c3) ∧ getRValue c3 qb = some (ob, tb, c4) ∧
    let u := toBool c4 ob tb
    ((u.2.term (.br (t.2.nb + 1))).setCur (t.2.nb + 1)).phi
      [(t.2.cur, .cst (.int 1 (if and then 0 else 1))), (u.2.cur, u.1)] = some (o, c5) ∧
    q = ⟨(boolToInt c5 o).1, .rv ⟨.w32, true⟩⟩ ∧ c' = (boolToInt c5 o).2

theorem emitE_land {a b : Expr} {c : Ctx} {q : QVal} {c' : Ctx} (h : emitE sigs P (.land a b) c = some (q, c')) :
    Logic sigs P true a b c q c' := by
  rw [emitE] at h
  obtain ⟨⟨qa, c1⟩, h1, h⟩ := bind_some' h
  obtain ⟨⟨oa, ta, c2⟩, h2, h⟩ := bind_some' h
  dsimp only at h
  obtain ⟨⟨qb, c3⟩, h3, h⟩ := bind_some' h
  obtain ⟨⟨ob, tb, c4⟩, h4, h⟩ := bind_some' h
  dsimp only at h
  obtain ⟨⟨o, c5⟩, h5, h⟩ := bind_some' h
  dsimp only at h
  simp only [Option.some.injEq, Prod.mk.injEq] at h
  exact ⟨qa, c1, oa, ta, c2, qb, c3, ob, tb, c4, o, c5, h1, h2, h3, h4, h5, h.1.symm, h.2.symm⟩

theorem emitE_lor {a b : Expr} {c : Ctx} {q : QVal} {c' : Ctx} (h : emitE sigs P (.lor a b) c = some (q, c')) :
    Logic sigs P false a b c q c' := by
  rw [emitE] at h
  obtain ⟨⟨qa, c1⟩, h1, h⟩ := bind_some' h
  obtain ⟨⟨oa, ta, c2⟩, h2, h⟩ := bind_some' h
  dsimp only at h
  obtain ⟨⟨qb, c3⟩, h3, h⟩ := bind_some' h
  obtain ⟨⟨ob, tb, c4⟩, h4, h⟩ := bind_some' h
  dsimp only at h
  obtain ⟨⟨o, c5⟩, h5, h⟩ := bind_some' h
  dsimp only at h
  simp only [Option.some.injEq, Prod.mk.injEq] at h
  exact ⟨qa, c1, oa, ta, c2, qb, c3, ob, tb, c4, o, c5, h1, h2, h3, h4, h5, h.1.symm, h.2.symm⟩

theorem emitE_assign {a b : Expr} {c : Ctx} {q : QVal} {c' : Ctx} (h : emitE sigs P (.assign a b) c = some (q, c')) :
    ∃ qa c1 qb c2 ob tb c3 w sg, emitE sigs P a c = some (qa, c1) ∧ qa.t = .lv (.int w) sg false ∧
      emitE sigs P b c1 = some (qb, c2) ∧ getRValue c2 qb = some (ob, tb, c3) ∧
      q = ⟨(convertTo c3 ob tb ⟨w, sg⟩).1, .rv ⟨w, sg⟩⟩ ∧
      c' = ((convertTo c3 ob tb ⟨w, sg⟩).2.op (.store w.bits) [qa.o, (convertTo c3 ob tb ⟨w, sg⟩).1]).2 := by
  rw [emitE] at h
  obtain ⟨⟨qa, c1⟩, h1, h⟩ := bind_some' h
  dsimp only at h
  split at h
  · rename_i w sg ht
    obtain ⟨⟨qb, c2⟩, h2, h⟩ := bind_some' h
    obtain ⟨⟨ob, tb, c3⟩, h3, h⟩ := bind_some' h
    simp only [Option.some.injEq, Prod.mk.injEq] at h
    exact ⟨qa, c1, qb, c2, ob, tb, c3, w, sg, h1, ht, h2, h3, h.1.symm, h.2.symm⟩
  · cases h

theorem emitE_cassign {op : BOp} {a b : Expr} {c : Ctx} {q : QVal} {c' : Ctx} (h : emitE sigs P (.cassign op a b) c = some (q, c')) :
    ∃ qa c1 qb c2 ob tb c3 w sg, emitE sigs P a c = some (qa, c1) ∧ qa.t = .lv (.int w) sg false ∧
      let l := c1.op (.load w.bits) [qa.o]
      emitE sigs P b l.2 = some (qb, c2) ∧ getRValue c2 qb = some (ob, tb, c3) ∧
      let r := emitArith c3 op l.1 ⟨w, sg⟩ ob tb
      let v := convertTo r.2.2 r.1 r.2.1 ⟨w, sg⟩
      q = ⟨qa.o, .lv (.int w) sg false⟩ ∧ c' = (v.2.op (.store w.bits) [qa.o, v.1]).2 := by
  rw [emitE] at h
  obtain ⟨⟨qa, c1⟩, h1, h⟩ := bind_some' h
  dsimp only at h
  split at h
  · rename_i w sg ht
    obtain ⟨⟨qb, c2⟩, h2, h⟩ := bind_some' h
    obtain ⟨⟨ob, tb, c3⟩, h3, h⟩ := bind_some' h
    simp only [Option.some.injEq, Prod.mk.injEq] at h
    exact ⟨qa, c1, qb, c2, ob, tb, c3, w, sg, h1, ht, h2, h3, h.1.symm, h.2.symm⟩
  · cases h

theorem emitE_un {op : UOp} {a : Expr} {c : Ctx} {q : QVal} {c' : Ctx} (h : emitE sigs P (.un op a) c = some (q, c')) :
    ∃ qa c1 oa ta c2, emitE sigs P a c = some (qa, c1) ∧ getRValue c1 qa = some (oa, ta, c2) ∧
      q = ⟨(emitUn c2 op oa ta).1, .rv (emitUn c2 op oa ta).2.1⟩ ∧ c' = (emitUn c2 op oa ta).2.2 := by
  rw [emitE] at h
  obtain ⟨⟨qa, c1⟩, h1, h⟩ := bind_some' h
  obtain ⟨⟨oa, ta, c2⟩, h2, h⟩ := bind_some' h
  dsimp only at h
  simp only [Option.some.injEq, Prod.mk.injEq] at h
  exact ⟨qa, c1, oa, ta, c2, h1, h2, h.1.symm, h.2.symm⟩

/-- `++` and `--` after the operand -/
def incdecOps (pre inc : Bool) (w : Wd) (sg : Bool) (o : Opd) (c : Ctx) : Opd × Ctx :=
  let l := c.op (.load w.bits) [o]
  if w.bits / 8 < 4 then
    let v := convertTo l.2 l.1 ⟨w, sg⟩ ⟨.w32, sg⟩
    let n := v.2.op (.bin (if inc then .add else .sub) 32) [v.1, cint .w32 1]
    let n := n.2.op (.cast (if sg then .strunc else .ztrunc) 32 w.bits) [n.1]
    (if pre then n.1 else l.1, (n.2.op (.store w.bits) [o, n.1]).2)
  else
    let n := l.2.op (.bin (if inc then .add else .sub) w.bits) [l.1, cint w 1]
    (if pre then n.1 else l.1, (n.2.op (.store w.bits) [o, n.1]).2)

theorem emitE_incdec {pre inc : Bool} {a : Expr} {c : Ctx} {q : QVal} {c' : Ctx} (h : emitE sigs P (.incdec pre inc a) c = some (q, c')) :
    ∃ qa c1 w sg, emitE sigs P a c = some (qa, c1) ∧ qa.t = .lv (.int w) sg false ∧
      q = ⟨(incdecOps pre inc w sg qa.o c1).1, .rv ⟨w, sg⟩⟩ ∧ c' = (incdecOps pre inc w sg qa.o c1).2 := by
  rw [emitE] at h
  obtain ⟨⟨qa, c1⟩, h1, h⟩ := bind_some' h
  dsimp only at h
  split at h
  · rename_i w sg ht
    refine ⟨qa, c1, w, sg, h1, ht, ?_⟩
    unfold incdecOps
    dsimp only
    split at h
    · rename_i hw
      simp only [Option.some.injEq, Prod.mk.injEq] at h
      simp only [hw, if_true]
      exact ⟨h.1.symm, h.2.symm⟩
    · rename_i hw
      simp only [Option.some.injEq, Prod.mk.injEq] at h
      simp only [hw, if_false]
      exact ⟨h.1.symm, h.2.symm⟩
  · cases h

theorem emitE_sel {k a b : Expr} {c : Ctx} {q : QVal} {c' : Ctx} (h : emitE sigs P (.sel k a b) c = some (q, c')) :
    ∃ qk c1 ok tk c2 qa c3 qb c4 oa ta c5 ob tb c6 o,
      emitE sigs P k (c.newBlock.2.newBlock.2) = some (qk, c1) ∧ getRValue c1 qk = some (ok, tk, c2) ∧
      let t := toBool c2 ok tk
      let d := t.2.term (.cbr t.1 c.nb (c.nb + 1))
      emitE sigs P a (d.setCur c.nb) = some (qa, c3) ∧
      emitE sigs P b (c3.setCur (c.nb + 1)) = some (qb, c4) ∧
      getRValue (c4.newBlock.2.setCur c3.cur) qa = some (oa, ta, c5) ∧
      getRValue (c5.setCur c4.cur) qb = some (ob, tb, c6) ∧
      let ty := implicitTarget none ta tb
      let x := convertTo (c6.setCur c3.cur) oa ta ty
      let y := convertTo ((x.2.term (.br c4.nb)).setCur c4.cur) ob tb ty
      ((y.2.term (.br c4.nb)).setCur c4.nb).phi [(c3.cur, x.1), (c4.cur, y.1)] = some (o, c') ∧ q = ⟨o, .rv ty⟩ := by
  rw [emitE] at h
  dsimp only at h
  obtain ⟨⟨qk, c1⟩, h1, h⟩ := bind_some' h
  obtain ⟨⟨ok, tk, c2⟩, h2, h⟩ := bind_some' h
  dsimp only at h
  obtain ⟨⟨qa, c3⟩, h3, h⟩ := bind_some' h
  dsimp only at h
  obtain ⟨⟨qb, c4⟩, h4, h⟩ := bind_some' h
  dsimp only at h
  obtain ⟨⟨oa, ta, c5⟩, h5, h⟩ := bind_some' h
  dsimp only at h
  obtain ⟨⟨ob, tb, c6⟩, h6, h⟩ := bind_some' h
  dsimp only at h
  obtain ⟨⟨o, c7⟩, h7, h⟩ := bind_some' h
  dsimp only at h
  simp only [Option.some.injEq, Prod.mk.injEq] at h
  obtain ⟨rfl, rfl⟩ := h
  exact ⟨qk, c1, ok, tk, c2, qa, c3, qb, c4, oa, ta, c5, ob, tb, c6, o, h1, h2, h3, h4, h5, h6, h7, rfl⟩

theorem emitE_cast {t : IT} {a : Expr} {c : Ctx} {q : QVal} {c' : Ctx} (h : emitE sigs P (.cast t a) c = some (q, c')) :
    ∃ qa c1 oa ta c2, emitE sigs P a c = some (qa, c1) ∧ getRValue c1 qa = some (oa, ta, c2) ∧
      q = ⟨(convertTo c2 oa ta t).1, .rv t⟩ ∧ c' = (convertTo c2 oa ta t).2 := by
  rw [emitE] at h
  obtain ⟨⟨qa, c1⟩, h1, h⟩ := bind_some' h
  obtain ⟨⟨oa, ta, c2⟩, h2, h⟩ := bind_some' h
  dsimp only at h
  simp only [Option.some.injEq, Prod.mk.injEq] at h
  exact ⟨qa, c1, oa, ta, c2, h1, h2, h.1.symm, h.2.symm⟩

theorem emitE_comma {a b : Expr} {c : Ctx} {q : QVal} {c' : Ctx} (h : emitE sigs P (.comma a b) c = some (q, c')) :
    ∃ qa c1, emitE sigs P a c = some (qa, c1) ∧ emitE sigs P b c1 = some (q, c') := by
  rw [emitE] at h
  obtain ⟨⟨qa, c1⟩, h1, h⟩ := bind_some' h
  exact ⟨qa, c1, h1, h⟩

theorem emitE_call {f : String} {as : Args} {c : Ctx} {q : QVal} {c' : Ctx} (h : emitE sigs P (.call f as) c = some (q, c')) :
    ∃ ps r os c1, c.vars f = [] ∧ sigs f = some (ps, r) ∧ emitArgs sigs P ps as c = some (os, c1) ∧
      q = ⟨(c1.op (.call f (r.map (fun t => t.w.bits))) os).1, match r with | some t => .rv t | none => .void⟩ ∧
      c' = (c1.op (.call f (r.map (fun t => t.w.bits))) os).2 := by
  rw [emitE] at h
  split at h
  · rename_i ps r hv hs
    obtain ⟨⟨os, c1⟩, h1, h⟩ := bind_some' h
    simp only [Option.some.injEq, Prod.mk.injEq] at h
    exact ⟨ps, r, os, c1, hv, hs, h1, h.1.symm, h.2.symm⟩
  · cases h

theorem emitArgs_cons {t : IT} {ts : List IT} {a : Expr} {as : Args} {c : Ctx} {os : List Opd} {c' : Ctx}
    (h : emitArgs sigs P (t :: ts) (.cons a as) c = some (os, c')) :
    ∃ qa c1 oa ta c2 os', emitE sigs P a c = some (qa, c1) ∧ getRValue c1 qa = some (oa, ta, c2) ∧
      emitArgs sigs P ts as (convertTo c2 oa ta t).2 = some (os', c') ∧ os = (convertTo c2 oa ta t).1 :: os' := by
  rw [emitArgs] at h
  obtain ⟨⟨qa, c1⟩, h1, h⟩ := bind_some' h
  obtain ⟨⟨oa, ta, c2⟩, h2, h⟩ := bind_some' h
  dsimp only at h
  obtain ⟨⟨os', c3⟩, h3, h⟩ := bind_some' h
  simp only [Option.some.injEq, Prod.mk.injEq] at h
  obtain ⟨rfl, rfl⟩ := h
  exact ⟨qa, c1, oa, ta, c2, os', h1, h2, h3, rfl⟩

theorem emitC_inv {e : Expr} {c : Ctx} {o : Opd} {c' : Ctx} (h : emitC sigs P e c = some (o, c')) :
    ∃ q c1 o1 t c2, emitE sigs P e c = some (q, c1) ∧ getRValue c1 q = some (o1, t, c2) ∧ o = (toBool c2 o1 t).1 ∧ c' = (toBool c2 o1 t).2 := by
  rw [emitC] at h
  obtain ⟨⟨q, c1⟩, h1, h⟩ := bind_some' h
  obtain ⟨⟨o1, t, c2⟩, h2, h⟩ := bind_some' h
  simp only [Option.some.injEq] at h
  exact ⟨q, c1, o1, t, c2, h1, h2, by rw [h], by rw [h]⟩

end
end Cmmc.Fe
