import Verif.Fe.WfFunc
/-!
# How emitted code uses stack slots: as the address of loads, stores and `getelementptr`s only
-/
namespace Cmmc.Fe
open Cmmc
section
variable {sigs : Sigs} {P : Wd} {rt : Option IT}

/-- the operand is not the address of a stack slot -/
def valO (o : Opd) : Prop := ∀ k, o ≠ .inst (2 * k)

def opOk : Op → List Opd → Prop
  | .load _, as => as.length = 1
  | .store _, as => ∃ a v, as = [a, v] ∧ valO v
  | .gep .., as => ∃ a v, as = [a, v] ∧ valO v
  | .alloca .., _ => False
  | _, as => ∀ o ∈ as, valO o

structure Good (c : Ctx) : Prop where
  code : ∀ b i, Raw.inst i ∈ c.code b → opOk i.op i.args
  vars : ∀ x, ∀ q ∈ c.vars x, ∀ t, q.t = .rv t → valO q.o

theorem val_cst (x : Cst) : valO (.cst x) := fun k h => by cases h
theorem val_odd (j : Nat) : valO (.inst (2 * j + 1)) := fun k h => by injection h with h; omega
theorem val_cint (w : Wd) (v : Int) : valO (cint w v) := val_cst _

theorem good_op {c : Ctx} (h : Good c) {o : Op} {as : List Opd} (ho : opOk o as) : Good (c.op o as).2 ∧ valO (c.op o as).1 := by
  refine ⟨⟨fun b i hi => ?_, h.vars⟩, val_odd _⟩
  rcases mem_push.1 (show _ ∈ (c.push _).code b from hi) with hi | ⟨_, e⟩
  · exact h.code b i hi
  · cases e; exact ho

theorem good_term {c : Ctx} (h : Good c) (t : SSA.Term Cst) : Good (c.term t) := by
  refine ⟨fun b i hi => ?_, h.vars⟩
  rcases mem_push.1 (show _ ∈ (c.push _).code b from hi) with hi | ⟨_, e⟩
  · exact h.code b i hi
  · cases e

theorem good_same {c c' : Ctx} (h : Good c) (h1 : c'.code = c.code) (h2 : c'.vars = c.vars) : Good c' := ⟨by rw [h1]; exact h.code, by rw [h2]; exact h.vars⟩

theorem good_phi {c : Ctx} (h : Good c) {inc : List (Nat × Opd)} {o : Opd} {c' : Ctx} (e : c.phi inc = some (o, c')) : Good c' ∧ valO o := by
  unfold Ctx.phi at e
  split at e
  · simp only [Option.some.injEq, Prod.mk.injEq] at e
    obtain ⟨rfl, rfl⟩ := e
    refine ⟨⟨fun b i hi => ?_, h.vars⟩, val_odd _⟩
    rcases mem_push.1 (show _ ∈ (c.push _).code b from hi) with hi | ⟨_, e⟩
    · exact h.code b i hi
    · cases e
  · cases e

theorem vals1 {a : Opd} (h : valO a) : ∀ o ∈ [a], valO o := by intro o ho; rw [List.mem_singleton.1 ho]; exact h
theorem vals2 {a b : Opd} (h : valO a) (h' : valO b) : ∀ o ∈ [a, b], valO o := by
  intro o ho
  rcases List.mem_cons.1 ho with rfl | ho
  · exact h
  · exact vals1 h' o ho

theorem good_convertTo {c : Ctx} (h : Good c) {o : Opd} (ho : valO o) (s d : IT) : Good (convertTo c o s d).2 ∧ valO (convertTo c o s d).1 := by
  unfold convertTo
  split
  · exact ⟨h, ho⟩
  · split
    · exact ⟨h, val_cint _ _⟩
    · split
      · exact good_op h (vals1 ho)
      · exact good_op h (vals1 ho)

theorem good_toBool {c : Ctx} (h : Good c) {o : Opd} (ho : valO o) (s : IT) : Good (toBool c o s).2 ∧ valO (toBool c o s).1 := good_op h (vals2 ho (val_cint _ _))
theorem good_boolToInt {c : Ctx} (h : Good c) {o : Opd} (ho : valO o) : Good (boolToInt c o).2 ∧ valO (boolToInt c o).1 := good_op h (vals1 ho)

/-- operands of values -/
def qOk (q : QVal) : Prop := ∀ t, q.t = .rv t → valO q.o

theorem good_getRValue {c : Ctx} (h : Good c) {q : QVal} (hq : qOk q) {o : Opd} {t : IT} {c' : Ctx} (e : getRValue c q = some (o, t, c')) : Good c' ∧ valO o := by
  unfold getRValue at e
  split at e
  · rename_i ht
    simp only [Option.some.injEq, Prod.mk.injEq] at e
    obtain ⟨rfl, _, rfl⟩ := e
    exact ⟨h, hq _ ht⟩
  · split at e
    · simp only [Option.some.injEq, Prod.mk.injEq] at e
      obtain ⟨rfl, _, rfl⟩ := e
      exact ⟨h, val_cst _⟩
    · simp only [Option.some.injEq, Prod.mk.injEq] at e
      obtain ⟨rfl, _, rfl⟩ := e
      exact good_op h (by simp [opOk])
  · cases e

theorem good_makeBinaryOp {c : Ctx} (h : Good c) {l r : Opd} (hl : valO l) (hr : valO r) (op : BOp) (t : IT) :
    Good (makeBinaryOp c op t l r).2 ∧ valO (makeBinaryOp c op t l r).1 := by
  unfold makeBinaryOp
  split
  · rename_i o ho
    refine ⟨h, ?_⟩
    unfold foldBin at ho
    split at ho
    · obtain ⟨v, _, rfl⟩ := Option.map_eq_some_iff.1 ho
      exact val_cint _ _
    · cases ho
  · split
    · exact good_op h (vals2 hl hr)
    · obtain ⟨h1, h2⟩ := good_op h (o := .icmp (getCompareOp op t.sg) t.w.bits) (vals2 hl hr)
      exact good_boolToInt h1 h2

theorem good_emitArith {c : Ctx} (h : Good c) {l r : Opd} (hl : valO l) (hr : valO r) (op : BOp) (lt rt : IT) :
    Good (emitArith c op l lt r rt).2.2 ∧ valO (emitArith c op l lt r rt).1 := by
  unfold emitArith
  obtain ⟨h1, k1⟩ := good_convertTo h hl lt (implicitTarget (some op) lt rt)
  obtain ⟨h2, k2⟩ := good_convertTo h1 hr rt (implicitTarget (some op) lt rt)
  exact good_makeBinaryOp h2 k1 k2 op _

theorem good_emitUn {c : Ctx} (h : Good c) {o : Opd} (ho : valO o) (op : UOp) (t : IT) : Good (emitUn c op o t).2.2 ∧ valO (emitUn c op o t).1 := by
  unfold emitUn
  have h1 : Good (if t.w.bits / 8 < 4 then convertTo c o t (applyPromotion t) else (o, c)).2 ∧
      valO (if t.w.bits / 8 < 4 then convertTo c o t (applyPromotion t) else (o, c)).1 := by
    split
    · exact good_convertTo h ho _ _
    · exact ⟨h, ho⟩
  obtain ⟨h1, k1⟩ := h1
  dsimp only
  split
  · exact ⟨h1, val_cint _ _⟩
  · exact ⟨h1, val_cint _ _⟩
  · exact good_op h1 (o := .neg _) (vals1 k1)
  · exact ⟨h1, k1⟩
  · exact good_op h1 (o := .bin _ _) (vals2 k1 (val_cint _ _))
  · obtain ⟨h2, k2⟩ := good_toBool h1 k1 (applyPromotion t)
    obtain ⟨h3, k3⟩ := good_op h2 (o := .bin .xor 1) (as := [_, .cst (.int 1 1)]) (vals2 k2 (val_cst _))
    exact good_boolToInt h3 k3

theorem good_incdec {c : Ctx} (h : Good c) (pre inc : Bool) (w : Wd) (sg : Bool) (o : Opd) : Good (incdecOps pre inc w sg o c).2 ∧ valO (incdecOps pre inc w sg o c).1 := by
  unfold incdecOps
  obtain ⟨h1, k1⟩ := good_op h (o := .load w.bits) (as := [o]) (by simp [opOk])
  dsimp only
  split
  · obtain ⟨h2, k2⟩ := good_convertTo h1 k1 ⟨w, sg⟩ ⟨.w32, sg⟩
    obtain ⟨h3, k3⟩ := good_op h2 (o := .bin (if inc then .add else .sub) 32) (vals2 k2 (val_cint .w32 1))
    obtain ⟨h4, k4⟩ := good_op h3 (o := .cast (if sg then .strunc else .ztrunc) 32 w.bits) (vals1 k3)
    refine ⟨(good_op h4 (o := .store w.bits) ⟨_, _, rfl, k4⟩).1, ?_⟩
    cases pre
    · exact k1
    · exact k4
  · obtain ⟨h3, k3⟩ := good_op h1 (o := .bin (if inc then .add else .sub) w.bits) (vals2 k1 (val_cint w 1))
    refine ⟨(good_op h3 (o := .store w.bits) ⟨_, _, rfl, k3⟩).1, ?_⟩
    cases pre
    · exact k1
    · exact k3

theorem good_logic {and : Bool} {a b : Expr} {c : Ctx} {q : QVal} {c' : Ctx} (hc : Good c)
    (iha : ∀ c q c', Good c → emitE sigs P a c = some (q, c') → Good c' ∧ qOk q) (ihb : ∀ c q c', Good c → emitE sigs P b c = some (q, c') → Good c' ∧ qOk q)
    (h : Logic sigs P and a b c q c') : Good c' ∧ qOk q := by
  obtain ⟨qa, c1, oa, ta, c2, qb, c3, ob, tb, c4, o, c5, h1, h2, h3, h4, h5, rfl, rfl⟩ := h.ex
  obtain ⟨g1, k1⟩ := iha _ _ _ hc h1
  obtain ⟨g2, k2⟩ := good_getRValue g1 k1 h2
  obtain ⟨g3, k3⟩ := good_toBool g2 k2 ta
  have g4 := good_same (c' := (toBool c2 oa ta).2.newBlock.2.newBlock.2) g3 rfl rfl
  obtain ⟨g5, k5⟩ := ihb _ _ _ (by exact good_same (good_term g4 _) rfl rfl) h3
  obtain ⟨g6, k6⟩ := good_getRValue g5 k5 h4
  obtain ⟨g7, k7⟩ := good_toBool g6 k6 tb
  obtain ⟨g8, k8⟩ := good_phi (by exact good_same (good_term g7 _) rfl rfl) h5
  obtain ⟨g9, k9⟩ := good_boolToInt g8 k8
  exact ⟨g9, fun _ _ => k9⟩

mutual
theorem good_emitE : ∀ (e : Expr) (c : Ctx) (q : QVal) (c' : Ctx), Good c → emitE sigs P e c = some (q, c') → Good c' ∧ qOk q
  | .lit v t, c, q, c', hc, h => by
    simp only [emitE, Option.some.injEq, Prod.mk.injEq] at h
    obtain ⟨rfl, rfl⟩ := h
    exact ⟨hc, fun _ _ => val_cint _ _⟩
  | .id x, c, q, c', hc, h => by
    simp only [emitE] at h
    split at h
    · rename_i q' l hv
      simp only [Option.some.injEq, Prod.mk.injEq] at h
      obtain ⟨rfl, rfl⟩ := h
      exact ⟨hc, hc.vars x _ (by rw [hv]; simp)⟩
    · cases h
  | .idx a i, c, q, c', hc, h => by
    obtain ⟨qa, c1, qi, c2, oi, ti, c3, n, e, sg, cst, h1, h2, h3, _, rfl, rfl⟩ := emitE_idx h
    obtain ⟨g1, _⟩ := good_emitE a c qa c1 hc h1
    obtain ⟨g2, k2⟩ := good_emitE i c1 qi c2 g1 h2
    obtain ⟨g3, k3⟩ := good_getRValue g2 k2 h3
    obtain ⟨g4, k4⟩ := good_convertTo g3 k3 ti ⟨P, false⟩
    obtain ⟨g5, k5⟩ := good_op g4 (o := .gep e.cnt P.bits) (as := [qa.o, _]) ⟨_, _, rfl, k4⟩
    exact ⟨g5, fun _ _ => k5⟩
  | .bin op a b, c, q, c', hc, h => by
    obtain ⟨qa, c1, oa, ta, c2, qb, c3, ob, tb, c4, h1, h2, h3, h4, rfl, rfl⟩ := emitE_bin h
    obtain ⟨g1, k1⟩ := good_emitE a c qa c1 hc h1
    obtain ⟨g2, k2⟩ := good_getRValue g1 k1 h2
    obtain ⟨g3, k3⟩ := good_emitE b c2 qb c3 g2 h3
    obtain ⟨g4, k4⟩ := good_getRValue g3 k3 h4
    obtain ⟨g5, k5⟩ := good_emitArith g4 k2 k4 op ta tb
    exact ⟨g5, fun _ _ => k5⟩
  | .land a b, c, q, c', hc, h => good_logic hc (fun c q c' => good_emitE a c q c') (fun c q c' => good_emitE b c q c') (emitE_land h)
  | .lor a b, c, q, c', hc, h => good_logic hc (fun c q c' => good_emitE a c q c') (fun c q c' => good_emitE b c q c') (emitE_lor h)
  | .assign a b, c, q, c', hc, h => by
    obtain ⟨qa, c1, qb, c2, ob, tb, c3, w, sg, h1, _, h3, h4, rfl, rfl⟩ := emitE_assign h
    obtain ⟨g1, _⟩ := good_emitE a c qa c1 hc h1
    obtain ⟨g2, k2⟩ := good_emitE b c1 qb c2 g1 h3
    obtain ⟨g3, k3⟩ := good_getRValue g2 k2 h4
    obtain ⟨g4, k4⟩ := good_convertTo g3 k3 tb ⟨w, sg⟩
    exact ⟨(good_op g4 (o := .store w.bits) (as := [qa.o, _]) ⟨_, _, rfl, k4⟩).1, fun _ _ => k4⟩
  | .cassign op a b, c, q, c', hc, h => by
    obtain ⟨qa, c1, qb, c2, ob, tb, c3, w, sg, h1, _, h3, h4, rfl, rfl⟩ := emitE_cassign h
    obtain ⟨g1, _⟩ := good_emitE a c qa c1 hc h1
    obtain ⟨g2, k2⟩ := good_op g1 (o := .load w.bits) (as := [qa.o]) (by simp [opOk])
    obtain ⟨g3, k3⟩ := good_emitE b _ qb c2 g2 h3
    obtain ⟨g4, k4⟩ := good_getRValue g3 k3 h4
    obtain ⟨g5, k5⟩ := good_emitArith g4 k2 k4 op ⟨w, sg⟩ tb
    obtain ⟨g6, k6⟩ := good_convertTo g5 k5 (emitArith c3 op (c1.op (.load w.bits) [qa.o]).1 ⟨w, sg⟩ ob tb).2.1 ⟨w, sg⟩
    exact ⟨(good_op g6 (o := .store w.bits) (as := [qa.o, _]) ⟨_, _, rfl, k6⟩).1, fun _ h => by cases h⟩
  | .un op a, c, q, c', hc, h => by
    obtain ⟨qa, c1, oa, ta, c2, h1, h2, rfl, rfl⟩ := emitE_un h
    obtain ⟨g1, k1⟩ := good_emitE a c qa c1 hc h1
    obtain ⟨g2, k2⟩ := good_getRValue g1 k1 h2
    obtain ⟨g3, k3⟩ := good_emitUn g2 k2 op ta
    exact ⟨g3, fun _ _ => k3⟩
  | .incdec pre inc a, c, q, c', hc, h => by
    obtain ⟨qa, c1, w, sg, h1, _, rfl, rfl⟩ := emitE_incdec h
    obtain ⟨g1, _⟩ := good_emitE a c qa c1 hc h1
    obtain ⟨g2, k2⟩ := good_incdec g1 pre inc w sg qa.o
    exact ⟨g2, fun _ _ => k2⟩
  | .sel k a b, c, q, c', hc, h => by
    obtain ⟨qk, c1, ok, tk, c2, qa, c3, qb, c4, oa, ta, c5, ob, tb, c6, o, h1, h2, h3, h4, h5, h6, h7, rfl⟩ := emitE_sel h
    obtain ⟨g1, k1⟩ := good_emitE k _ qk c1 (by exact good_same hc rfl rfl) h1
    obtain ⟨g2, k2⟩ := good_getRValue g1 k1 h2
    obtain ⟨g3, k3⟩ := good_toBool g2 k2 tk
    obtain ⟨g4, k4⟩ := good_emitE a _ qa c3 (by exact good_same (good_term g3 _) rfl rfl) h3
    obtain ⟨g5, k5⟩ := good_emitE b _ qb c4 (by exact good_same g4 rfl rfl) h4
    obtain ⟨g6, k6⟩ := good_getRValue (by exact good_same g5 rfl rfl) k4 h5
    obtain ⟨g7, k7⟩ := good_getRValue (by exact good_same g6 rfl rfl) k5 h6
    obtain ⟨g8, k8⟩ := good_convertTo (good_same (c' := c6.setCur c3.cur) g7 rfl rfl) k6 ta (implicitTarget none ta tb)
    have g8' := good_same (c' := ((convertTo (c6.setCur c3.cur) oa ta (implicitTarget none ta tb)).2.term (.br c4.nb)).setCur c4.cur) (good_term g8 (.br c4.nb)) rfl rfl
    obtain ⟨g9, k9⟩ := good_convertTo g8' k7 tb (implicitTarget none ta tb)
    obtain ⟨g10, k10⟩ := good_phi (by exact good_same (good_term g9 (.br c4.nb)) rfl rfl) h7
    exact ⟨g10, fun _ _ => k10⟩
  | .cast t a, c, q, c', hc, h => by
    obtain ⟨qa, c1, oa, ta, c2, h1, h2, rfl, rfl⟩ := emitE_cast h
    obtain ⟨g1, k1⟩ := good_emitE a c qa c1 hc h1
    obtain ⟨g2, k2⟩ := good_getRValue g1 k1 h2
    obtain ⟨g3, k3⟩ := good_convertTo g2 k2 ta t
    exact ⟨g3, fun _ _ => k3⟩
  | .comma a b, c, q, c', hc, h => by
    obtain ⟨qa, c1, h1, h2⟩ := emitE_comma h
    obtain ⟨g1, _⟩ := good_emitE a c qa c1 hc h1
    exact good_emitE b c1 q c' g1 h2
  | .call f as, c, q, c', hc, h => by
    obtain ⟨ps, r, os, c1, _, _, h3, rfl, rfl⟩ := emitE_call h
    obtain ⟨g1, k1⟩ := good_emitArgs ps as c os c1 hc h3
    obtain ⟨g2, k2⟩ := good_op g1 (o := .call f (r.map (fun t => t.w.bits))) k1
    exact ⟨g2, fun _ _ => k2⟩
theorem good_emitArgs : ∀ (ts : List IT) (as : Args) (c : Ctx) (os : List Opd) (c' : Ctx), Good c → emitArgs sigs P ts as c = some (os, c') →
    Good c' ∧ ∀ o ∈ os, valO o
  | [], .nil, c, os, c', hc, h => by
    simp only [emitArgs, Option.some.injEq, Prod.mk.injEq] at h
    obtain ⟨rfl, rfl⟩ := h
    exact ⟨hc, by simp⟩
  | t :: ts, .cons a as, c, os, c', hc, h => by
    obtain ⟨qa, c1, oa, ta, c2, os', h1, h2, h3, rfl⟩ := emitArgs_cons h
    obtain ⟨g1, k1⟩ := good_emitE a c qa c1 hc h1
    obtain ⟨g2, k2⟩ := good_getRValue g1 k1 h2
    obtain ⟨g3, k3⟩ := good_convertTo g2 k2 ta t
    obtain ⟨g4, k4⟩ := good_emitArgs ts as _ os' c' g3 h3
    refine ⟨g4, ?_⟩
    intro o ho
    rcases List.mem_cons.1 ho with rfl | ho
    · exact k3
    · exact k4 o ho
  | [], .cons _ _, c, os, c', hc, h => by simp [emitArgs] at h
  | _ :: _, .nil, c, os, c', hc, h => by simp [emitArgs] at h
end

theorem good_emitC {e : Expr} {c : Ctx} {o : Opd} {c' : Ctx} (hc : Good c) (h : emitC sigs P e c = some (o, c')) : Good c' := by
  obtain ⟨q, c1, o1, t, c2, h1, h2, rfl, rfl⟩ := emitC_inv h
  obtain ⟨g1, k1⟩ := good_emitE e c q c1 hc h1
  obtain ⟨g2, k2⟩ := good_getRValue g1 k1 h2
  exact (good_toBool g2 k2 t).1

theorem good_addId {c c' : Ctx} (hc : Good c) {x : String} {q : QVal} (hq : qOk q) (h : c.addId x q = some c') : Good c' := by
  obtain ⟨sc, scs, _, _, rfl⟩ := addId_eq h
  refine ⟨hc.code, fun y q' hq' => ?_⟩
  dsimp only at hq'
  split at hq'
  · rcases List.mem_cons.1 hq' with rfl | hq'
    · exact hq
    · exact hc.vars y q' hq'
  · exact hc.vars y q' hq'

theorem good_popScope {c c' : Ctx} (hc : Good c) (h : c.popScope = some c') : Good c' := by
  obtain ⟨sc, scs, _, rfl⟩ := popScope_eq h
  exact ⟨hc.code, fun y q hq => hc.vars y q (popNames_vars _ _ _ _ hq)⟩

theorem good_bindConst {c : Ctx} (hc : Good c) (slot o : Opd) (w : Wd) (cst : Bool) : Good (bindConst c slot o w cst) := by
  unfold bindConst Ctx.addConst
  split
  · split
    · exact hc
    · exact good_same hc rfl rfl
  · exact hc

theorem lv_qOk (o : Opd) (ty : Ty) (sg cst : Bool) : qOk ⟨o, .lv ty sg cst⟩ := fun _ h => by cases h

theorem good_emitFC {k : Option Expr} {b n : Nat} {c c' : Ctx} (hc : Good c) (h : emitFC sigs P k b n c = some c') : Good c' := by
  cases k with
  | none =>
    simp only [emitFC, Option.some.injEq] at h
    rw [← h]; exact good_term hc _
  | some k =>
    obtain ⟨⟨o, c1⟩, h1, h⟩ := bind_some' h
    simp only [Option.some.injEq] at h
    rw [← h]
    exact good_term (good_emitC hc h1) _

theorem good_emitFI {k : Option Expr} {c c' : Ctx} (hc : Good c) (h : emitFI sigs P k c = some c') : Good c' := by
  cases k with
  | none =>
    simp only [emitFI, Option.some.injEq] at h
    rw [← h]; exact hc
  | some k =>
    obtain ⟨⟨o, c1⟩, h1, h⟩ := bind_some' h
    simp only [Option.some.injEq] at h
    rw [← h]
    exact (good_emitE _ _ _ _ hc h1).1

theorem good_emitS : ∀ (s : Stmt) (c c' : Ctx), Good c → emitS sigs P rt s c = some c' → Good c'
  | .skip, c, c', hc, h => by rw [emitS] at h; cases h; exact hc
  | .seq a b, c, c', hc, h => by
    obtain ⟨c1, h1, h2⟩ := emitS_seq h
    exact good_emitS b c1 c' (good_emitS a c c1 hc h1) h2
  | .expr e, c, c', hc, h => by
    obtain ⟨q, h1⟩ := emitS_expr h
    exact (good_emitE e c q c' hc h1).1
  | .decl x (.int w) sg cst (some e), c, c', hc, h => by
    obtain ⟨q, c1, o, t, c2, h1, h2, h3⟩ := emitS_declI h
    obtain ⟨g1, k1⟩ := good_emitE e _ q c1 (by exact good_same hc rfl rfl) h1
    obtain ⟨g2, k2⟩ := good_getRValue g1 k1 h2
    obtain ⟨g3, k3⟩ := good_convertTo g2 k2 t ⟨w, sg⟩
    have g4 := (good_op g3 (o := .store w.bits) (as := [.inst (2 * c.slots.length), _]) ⟨_, _, rfl, k3⟩).1
    exact good_addId (good_bindConst g4 _ _ _ _) (lv_qOk _ _ _ _) h3
  | .decl x (.int w) sg cst none, c, c', hc, h => by
    have g1 : Good (c.alloc 1).2 := good_same hc rfl rfl
    exact good_addId (good_op g1 (o := .store w.bits) (as := [.inst (2 * c.slots.length), cint w 0]) ⟨_, _, rfl, val_cint _ _⟩).1 (lv_qOk _ _ _ _) (emitS_declN h)
  | .decl x (.arr k ty) sg cst i, c, c', hc, h => by
    have g1 : Good (c.alloc (Ty.arr k ty).cnt).2 := good_same hc rfl rfl
    exact good_addId g1 (lv_qOk _ _ _ _) (emitS_declA h).2.2
  | .scope a, c, c', hc, h => by
    obtain ⟨c1, h1, h2⟩ := emitS_scope h
    exact good_popScope (good_emitS a _ c1 (by exact good_same hc rfl rfl) h1) h2
  | .ifThen k a, c, c', hc, h => by
    obtain ⟨o, c1, c2, h1, h2, rfl⟩ := emitS_ifThen h
    have g2 := good_emitS a _ c2 (by exact good_same (good_emitC hc h1) rfl rfl) h2
    exact good_same (good_term (good_same (c' := (c2.term (.br (c1.nb + 1))).setCur c1.cur) (good_term g2 (.br (c1.nb + 1))) rfl rfl) _) rfl rfl
  | .ifElse k a b, c, c', hc, h => by
    obtain ⟨o, c1, c2, c3, h1, h2, h3, rfl⟩ := emitS_ifElse h
    have g2 := good_emitS a _ c2 (by exact good_same (good_emitC hc h1) rfl rfl) h2
    have g3 : Good ((c2.term (.br (c1.nb + 1))).newBlock.2.setCur c1.cur) := good_same (good_term g2 (.br (c1.nb + 1))) rfl rfl
    have g4 := good_emitS b _ c3 (by exact good_same (good_term g3 (.cbr o c1.nb c2.nb)) rfl rfl) h3
    exact good_same (good_term g4 (.br (c1.nb + 1))) rfl rfl
  | .while k a, c, c', hc, h => by
    obtain ⟨o, c1, c2, h1, h2, rfl⟩ := emitS_while h
    have g0 : Good c.newBlock.2 := good_same hc rfl rfl
    have g1 := good_emitC (by exact good_same (good_term g0 (.br c.nb)) rfl rfl) h1
    have g1' : Good c1.newBlock.2.newBlock.2 := good_same g1 rfl rfl
    have g2 := good_emitS a _ c2 (by exact good_same (good_term g1' (.cbr o c1.nb (c1.nb + 1))) rfl rfl) h2
    exact good_same (good_term g2 (.br c.nb)) rfl rfl
  | .doWhile a k, c, c', hc, h => by
    obtain ⟨c1, o, c2, h1, h2, rfl⟩ := emitS_doWhile h
    have g0 : Good c.newBlock.2.newBlock.2.newBlock.2 := good_same hc rfl rfl
    have g1 := good_emitS a _ c1 (by exact good_same (good_term g0 (.br c.nb)) rfl rfl) h1
    have g2 := good_emitC (by exact good_same (good_term g1 (.br (c.nb + 1))) rfl rfl) h2
    exact good_same (good_term g2 (.cbr o c.nb (c.nb + 2))) rfl rfl
  | .for i k it a, c, c', hc, h => by
    obtain ⟨c0, c1, c2, c3, h0, h1, h2, h3, h4⟩ := emitS_for h
    have g0 := good_emitS i _ c0 (by exact good_same hc rfl rfl) h0
    have g0' : Good c0.newBlock.2.newBlock.2.newBlock.2.newBlock.2 := good_same g0 rfl rfl
    have g1 := good_emitFC (by exact good_same (good_term g0' (.br c0.nb)) rfl rfl) h1
    have g2 := good_emitS a _ c2 (by exact good_same g1 rfl rfl) h2
    have g3 := good_emitFI (by exact good_same (good_term g2 (.br (c0.nb + 2))) rfl rfl) h3
    exact good_popScope (by exact good_same (good_term g3 (.br c0.nb)) rfl rfl) h4
  | .brk, c, c', hc, h => by
    rw [emitS] at h
    split at h
    · cases h; exact good_term hc _
    · cases h
  | .cont, c, c', hc, h => by
    rw [emitS] at h
    split at h
    · cases h; exact good_term hc _
    · cases h
  | .ret none, c, c', hc, h => by
    rw [emitS] at h
    split at h
    · cases h; exact good_term hc _
    · cases h
  | .ret (some e), c, c', hc, h => by
    obtain ⟨t, q, c1, o, s, c2, _, h1, h2, rfl⟩ := emitS_ret h
    obtain ⟨g1, k1⟩ := good_emitE e c q c1 hc h1
    obtain ⟨g2, k2⟩ := good_getRValue g1 k1 h2
    exact good_term (good_convertTo g2 k2 s t).1 _

theorem good_emitParams : ∀ (ps : List (String × IT × Bool)) (i : Nat) (c c' : Ctx), Good c → emitParams i ps c = some c' → Good c'
  | [], i, c, c', hc, h => by rw [emitParams] at h; cases h; exact hc
  | (x, t, cst) :: ps, i, c, c', hc, h => by
    obtain ⟨c1, h1, h2⟩ := emitParams_cons h
    have g1 : Good (c.alloc 1).2 := good_same hc rfl rfl
    exact good_emitParams ps (i + 1) c1 c' (good_addId (good_op g1 (o := .store t.w.bits) (as := [.inst (2 * c.slots.length), .cst (.arg i)]) ⟨_, _, rfl, val_cst _⟩).1 (lv_qOk _ _ _ _) h1) h2

theorem good_emitFn {gs : List Glob} {fn : Fn} {c : Ctx} (h : emitFn sigs P gs fn = some c) : Good c := by
  unfold emitFn at h
  split at h
  · obtain ⟨c1, h1, h2⟩ : ∃ c1, emitParams 0 fn.params (ctx0 gs) = some c1 ∧ emitS sigs P fn.ret fn.body c1 = some c := bind_some' h
    have g0 : Good (ctx0 gs) := by
      refine ⟨fun b i hi => (by cases hi), fun x q hq t ht => ?_⟩
      simp only [ctx0, List.mem_map] at hq
      obtain ⟨g, _, rfl⟩ := hq
      cases ht
    exact good_emitS _ _ _ (good_emitParams _ _ _ _ g0 h1) h2
  · cases h

end
end Cmmc.Fe
