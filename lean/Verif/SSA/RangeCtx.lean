import Verif.SSA.RangeAna
/-!
# C94: IntegerRangeAnalysis with the facts about branches and switches (cmmc/Analysis/IntegerRangeAnalysis.cpp:48-88, 213-243, 567-735)

A comparison that a branch tests bounds its operands in the blocks that are only entered over one side of the branch. These facts are kept
per value and block (`mContextualRanges`); `query(val, dom, ctx)` intersects the range of the value with the facts of blocks that dominate the
block of `ctx`. All reads of the analysis itself are such queries.

Modelled: the rules of C93, reading with facts; the facts of conditional branches and switches. Not modelled: facts of selects
(`mInstContextualRanges`), and the other rules that C93 leaves out.
-/
namespace Cmmc.SSA

open Cmmc.Range (IRange)

/-- the integer part of `CompareOp` -/
inductive RCmp
  | eq | ne | slt | sle | sgt | sge | ult | ule | ugt | uge
deriving DecidableEq

/-- what they mean -/
def RCmp.holds : RCmp → BitVec 32 → BitVec 32 → Bool
  | .eq, a, b => decide (a = b)
  | .ne, a, b => decide (a ≠ b)
  | .slt, a, b => decide (a.toInt < b.toInt)
  | .sle, a, b => decide (a.toInt ≤ b.toInt)
  | .sgt, a, b => decide (b.toInt < a.toInt)
  | .sge, a, b => decide (b.toInt ≤ a.toInt)
  | .ult, a, b => decide (a.toNat < b.toNat)
  | .ule, a, b => decide (a.toNat ≤ b.toNat)
  | .ugt, a, b => decide (b.toNat < a.toNat)
  | .uge, a, b => decide (b.toNat ≤ a.toNat)

/-- `getInvertedOp` (Instruction.hpp:506-528) -/
def RCmp.inv : RCmp → RCmp
  | .eq => .ne | .ne => .eq
  | .slt => .sge | .sle => .sgt | .sgt => .sle | .sge => .slt
  | .ult => .uge | .ule => .ugt | .ugt => .ule | .uge => .ult

/-- `range.setSignedRange(mn, mx); range.sync();` on the full range -/
def signedFact (nd : Bool) (mn mx : Int) : Option (Option IRange) := ((Range.setSigned nd Range.full mn mx).bind (Range.sync nd)).map some

/-- `range.setUnsignedRange(mn, mx); range.sync();` on the full range -/
def unsignedFact (nd : Bool) (mn mx : Nat) : Option (Option IRange) := ((Range.setUnsigned nd Range.full mn mx).bind (Range.sync nd)).map some

/-- `lhsNewRange` of `setCompareContextual` (lines 580-686): `none`: an assertion fails; `some none`: no fact -/
def RCmp.factL (nd : Bool) : RCmp → IRange → Option (Option IRange)
  | .eq, r => some (some r)
  | .ne, _ => some none
  | .slt, r => signedFact nd Range.i32min (r.smax - 1)
  | .sle, r => signedFact nd Range.i32min r.smax
  | .sgt, r => signedFact nd (r.smin + 1) Range.i32max
  | .sge, r => signedFact nd r.smin Range.i32max
  | .ult, r => unsignedFact nd 0 (Range.sub64 r.umax 1)
  | .ule, r => unsignedFact nd 0 r.umax
  | .ugt, r => unsignedFact nd (r.umin + 1) Range.u32max
  | .uge, r => unsignedFact nd r.umin Range.u32max

/-- `rhsNewRange` -/
def RCmp.factR (nd : Bool) : RCmp → IRange → Option (Option IRange)
  | .eq, l => some (some l)
  | .ne, _ => some none
  | .slt, l => signedFact nd (l.smin + 1) Range.i32max
  | .sle, l => signedFact nd l.smin Range.i32max
  | .sgt, l => signedFact nd Range.i32min (l.smax - 1)
  | .sge, l => signedFact nd Range.i32min l.smax
  | .ult, l => unsignedFact nd (l.umin + 1) Range.u32max
  | .ule, l => unsignedFact nd l.umin Range.u32max
  | .ugt, l => unsignedFact nd 0 (Range.sub64 l.umax 1)
  | .uge, l => unsignedFact nd 0 l.umax

/-- `mContextualRanges`: by value and block -/
abbrev Facts := Nat → Nat → IRange

section
variable {L : Lang} (O : RangeOps L) (cmp : L.Op → Option RCmp) (nd : Bool) (F : L.F)

/-- `range = range.intersectSet(r)` for several blocks -/
def readFacts (K : Facts) (x : Nat) : List Nat → IRange → Option IRange
  | [], r => some r
  | b :: bs, r => match Range.intersectSet nd r (K x b) with
    | some r' => readFacts K x bs r'
    | none => none

/-- `query(val, dom, ctx, depth)` for an instruction `ctx` of block `c` (lines 48-88): facts of dominating blocks are used if the value is not
defined in `c`. Which of them are used depends on their number and the depth; here any selection. -/
inductive Reads (R : Ranges) (K : Facts) (c : Nat) : Opd L.C → IRange → Prop
  | cst {z : L.C} : Reads R K c (.cst z) (O.get R (.cst z))
  | plain {x : Nat} : Reads R K c (.inst x) (R x)
  | facts {x : Nat} {bs : List Nat} {r : IRange} : ¬ DefIn F x c → (∀ b ∈ bs, Domi F b c) → readFacts nd K x bs (R x) = some r → Reads R K c (.inst x) r

/-- `updateContextual` (lines 213-243) -/
def updFact (K : Facts) (x b : Nat) (t : IRange) : Option Facts :=
  (Range.intersectSet nd (K x b) t).map (fun r => fun y d => if y = x ∧ d = b then r else K y d)

/-- one visit: an instruction, a phi, a phi for its increment, one operand of a comparison for one side of a branch, a case of a switch -/
inductive CVisit : Ranges → Facts → Ranges → Facts → Prop
  | inst {R R' : Ranges} {K : Facts} {b : Nat} {B : L.B} {i : Inst L.Op L.C} {g : Opd L.C → IRange} {t : IRange} : F.blk b = some B → i ∈ B.body →
      (∀ o, Reads O nd F R K b o (g o)) → FineG g → O.Safe g i → O.transfer nd g i = some (some t) → updRange nd R i.id t = some R' → CVisit R K R' K
  | phi {R R' : Ranges} {K : Facts} {b : Nat} {B : L.B} {p : Phi L.C} {g : Opd L.C → IRange} {t : IRange} : F.blk b = some B → p ∈ B.phis →
      (∀ o, Reads O nd F R K b o (g o)) → FineG g → unionRanges nd g (O.ops p) none = some (some t) → updRange nd R p.id t = some R' → CVisit R K R' K
  | incr {R R' : Ranges} {K : Facts} {b : Nat} {B : L.B} {p : Phi L.C} {g : Opd L.C → IRange} {t : IRange} : F.blk b = some B → p ∈ B.phis →
      (∀ o, Reads O nd F R K b o (g o)) → FineG g → O.addRec nd F g p = some (some t) → updRange nd R p.id t = some R' → CVisit R K R' K
  /-- lines 567-710: `side` says for which target; `y` is the comparison, in block `d`. (For a value of the target block itself, which the code
  handles differently, nothing is done here: that block cannot be reached.) -/
  | branch {R : Ranges} {K K' : Facts} {b d y t t1 t2 x : Nat} {B D : L.B} {j : Inst L.Op L.C} {p : RCmp} {l r : Opd L.C} {g : Opd L.C → IRange} {side : Bool}
      {tr : IRange} : F.blk b = some B → B.term = .cbr (.inst y) t1 t2 → t1 ≠ t2 → F.blk d = some D → j ∈ D.body → j.id = y → cmp j.op = some p →
      j.args = [l, r] → (∀ o, Reads O nd F R K d o (g o)) → FineG g → t = (if side then t1 else t2) → t ≠ b → Domi F b t → (∀ q, Edge F q t → q = b) →
      ((l = .inst x ∧ (if side then p else p.inv).factL nd (g r) = some (some tr)) ∨ (r = .inst x ∧ (if side then p else p.inv).factR nd (g l) = some (some tr))) →
      updFact nd K x t tr = some K' → CVisit R K R K'
  /-- lines 567-578; the code does not check that no other case and not the default leads to the target (`switch_shared_bad`) -/
  | switch {R : Ranges} {K K' : Facts} {b t dflt x : Nat} {B : L.B} {k : Int} {cases : List (Int × Nat)} : F.blk b = some B → B.term = .sw (.inst x) dflt cases →
      (k, t) ∈ cases → dflt ≠ t → (∀ k', (k', t) ∈ cases → k' = k) → t ≠ b → Domi F b t → (∀ q, Edge F q t → q = b) →
      updFact nd K x t (Range.ofConst k) = some K' → CVisit R K R K'

/-- the results of the analysis, as long as no stored range is contradictory -/
inductive CAnalysis : Ranges → Facts → Prop
  | start : CAnalysis (fun _ => Range.full) (fun _ _ => Range.full)
  | visit {R R' : Ranges} {K K' : Facts} : CAnalysis R K → CVisit O cmp nd F R K R' K' → Fine R' → (∀ x b, Range.WF (K' x b)) → CAnalysis R' K'

/-- the language compares and switches as the opcodes say -/
structure CmpLaws : Prop where
  test : ∀ {op : L.Op} {p : RCmp} {vs : List L.V} {m m' : L.M} {v : L.V} {es : List L.E} {t : Bool}, cmp op = some p → L.sem op vs m = .ok v m' es →
    L.truth v = some t → ∃ x y, vs = [x, y] ∧
      ((∃ a b, O.i32 x = some a ∧ O.i32 y = some b ∧ t = p.holds a b) ∨ (O.i32 x = none ∧ O.i32 y = none))
  key : ∀ {v : L.V} {k : Int} {a : BitVec 32}, L.key v = some k → O.i32 v = some a → a = BitVec.ofInt 32 k
  mv : Movable L (fun op => (cmp op).isSome)

end

/-! ## facts of comparisons -/

theorem RCmp.inv_holds (p : RCmp) (a b : BitVec 32) : p.inv.holds a b = !p.holds a b := by
  cases p <;> simp only [RCmp.inv, RCmp.holds, ← decide_not, decide_eq_decide] <;> first | omega | simp

theorem signedFact_ok {nd : Bool} {mn mx : Int} {t : IRange} (h : signedFact nd mn mx = some (some t)) {a : BitVec 32} (h1 : Range.i32min ≤ mn)
    (h2 : mx ≤ Range.i32max) (h3 : mn ≤ a.toInt) (h4 : a.toInt ≤ mx) : Range.WF t ∧ Range.Mem a t := by
  unfold signedFact at h
  rw [Option.map_eq_some_iff] at h
  obtain ⟨t', h, e⟩ := h
  cases e
  obtain ⟨r', e1, e2, e3⟩ := Range.signed_sound nd h1 h2 h3 h4
  rw [show (do let r ← Range.setSigned nd Range.full mn mx; Range.sync nd r) = some t from h] at e1
  cases e1
  exact ⟨e2, e3⟩

theorem unsignedFact_ok {nd : Bool} {mn mx : Nat} {t : IRange} (h : unsignedFact nd mn mx = some (some t)) {a : BitVec 32}
    (h2 : mx ≤ Range.u32max) (h3 : mn ≤ a.toNat) (h4 : a.toNat ≤ mx) : Range.WF t ∧ Range.Mem a t := by
  unfold unsignedFact at h
  rw [Option.map_eq_some_iff] at h
  obtain ⟨t', h, e⟩ := h
  cases e
  obtain ⟨r', e1, e2, e3⟩ := Range.unsigned_sound nd h2 h3 h4
  rw [show (do let r ← Range.setUnsigned nd Range.full mn mx; Range.sync nd r) = some t from h] at e1
  cases e1
  exact ⟨e2, e3⟩

theorem sub64_one {n : Nat} (h1 : 1 ≤ n) (h2 : n ≤ 4294967295) : Range.sub64 n 1 = n - 1 := by
  unfold Range.sub64; omega

/-- operands for which the comparison holds satisfy the facts -/
theorem RCmp.factL_ok {nd : Bool} {p : RCmp} {r t : IRange} (w : Range.WF r) (h : p.factL nd r = some (some t)) {a b : BitVec 32}
    (mb : Range.Mem b r) (hh : p.holds a b = true) : Range.WF t ∧ Range.Mem a t := by
  have := Range.toInt_cases a
  have := mb.ulo; have := mb.uhi; have := mb.slo; have := mb.shi
  have := w.u; have := w.lo; have := w.hi
  have := a.isLt
  cases p <;> simp only [RCmp.factL, RCmp.holds, decide_eq_true_eq] at h hh
  case eq => subst hh; cases h; exact ⟨w, mb⟩
  case ne => simp at h
  case slt => exact signedFact_ok h (Int.le_refl _) (by simp only [Range.i32max]; omega) (by simp only [Range.i32min]; omega) (by omega)
  case sle => exact signedFact_ok h (Int.le_refl _) (by simp only [Range.i32max]; omega) (by simp only [Range.i32min]; omega) (by omega)
  case sgt => exact signedFact_ok h (by simp only [Range.i32min]; omega) (Int.le_refl _) (by omega) (by simp only [Range.i32max]; omega)
  case sge => exact signedFact_ok h (by simp only [Range.i32min]; omega) (Int.le_refl _) (by omega) (by simp only [Range.i32max]; omega)
  case ult =>
    rw [sub64_one (by omega) (by omega)] at h
    exact unsignedFact_ok h (by simp only [Range.u32max]; omega) (by omega) (by omega)
  case ule => exact unsignedFact_ok h (by simp only [Range.u32max]; omega) (by omega) (by omega)
  case ugt => exact unsignedFact_ok h (Nat.le_refl _) (by omega) (by simp only [Range.u32max]; omega)
  case uge => exact unsignedFact_ok h (Nat.le_refl _) (by omega) (by simp only [Range.u32max]; omega)

theorem RCmp.factR_ok {nd : Bool} {p : RCmp} {l t : IRange} (w : Range.WF l) (h : p.factR nd l = some (some t)) {a b : BitVec 32}
    (ma : Range.Mem a l) (hh : p.holds a b = true) : Range.WF t ∧ Range.Mem b t := by
  have := Range.toInt_cases b
  have := ma.ulo; have := ma.uhi; have := ma.slo; have := ma.shi
  have := w.u; have := w.lo; have := w.hi
  have := b.isLt
  cases p <;> simp only [RCmp.factR, RCmp.holds, decide_eq_true_eq] at h hh
  case eq => subst hh; cases h; exact ⟨w, ma⟩
  case ne => simp at h
  case slt => exact signedFact_ok h (by simp only [Range.i32min]; omega) (Int.le_refl _) (by omega) (by simp only [Range.i32max]; omega)
  case sle => exact signedFact_ok h (by simp only [Range.i32min]; omega) (Int.le_refl _) (by omega) (by simp only [Range.i32max]; omega)
  case sgt => exact signedFact_ok h (Int.le_refl _) (by simp only [Range.i32max]; omega) (by simp only [Range.i32min]; omega) (by omega)
  case sge => exact signedFact_ok h (Int.le_refl _) (by simp only [Range.i32max]; omega) (by simp only [Range.i32min]; omega) (by omega)
  case ult => exact unsignedFact_ok h (Nat.le_refl _) (by omega) (by simp only [Range.u32max]; omega)
  case ule => exact unsignedFact_ok h (Nat.le_refl _) (by omega) (by simp only [Range.u32max]; omega)
  case ugt =>
    rw [sub64_one (by omega) (by omega)] at h
    exact unsignedFact_ok h (by simp only [Range.u32max]; omega) (by omega) (by omega)
  case uge => exact unsignedFact_ok h (by simp only [Range.u32max]; omega) (by omega) (by omega)

/-! ## points of runs, with the branches that are taken -/
section
variable {L : Lang} {F : L.F}

/-- `PointInv` that knows which way a branch goes -/
structure RunInv (F : L.F) (Q : Nat → Nat → Env L → Prop) : Prop where
  entry : Q F.entry 0 (fun _ => none)
  enter : ∀ {q b : Nat} {B A : L.B} {env env' : Env L}, Live F q → F.blk q = some A → F.blk b = some B → evalTerm L env A.term = .goto b →
    Q q A.body.length env → enterPhis L (some q) env B.phis env = some env' → Q b 0 env'
  inst : ∀ {b k : Nat} {B : L.B} {i : Inst L.Op L.C} {env : Env L} {vs : List L.V} {v : L.V} {m m' : L.M} {es : List L.E}, Live F b → F.blk b = some B →
    B.body[k]? = some i → Q b k env → evals L env i.args = some vs → L.sem i.op vs m = .ok v m' es → Q b (k + 1) (setEnv L env i.id v)

theorem PointInv.runInv {Q : Nat → Nat → Env L → Prop} (I : PointInv F Q) : RunInv F Q where
  entry := I.entry
  enter := fun hq hA hB ht hQ he => I.enter _ _ _ _ _ _ hq ⟨_, hA, evalTerm_targets ht⟩ hA hB hQ he
  inst := fun hb hB hi hQ he hs => I.inst _ _ _ _ _ _ _ _ _ _ hb hB hi hQ he hs

/-- between two blocks -/
def Between2 (F : L.F) (Q : Nat → Nat → Env L → Prop) (s : St L) : Prop :=
  match s.pred with
  | none => s.cur = F.entry ∧ s.env = fun _ => none
  | some q => Live F q ∧ ∃ A, F.blk q = some A ∧ evalTerm L s.env A.term = .goto s.cur ∧ Q q A.body.length s.env

theorem Between2.live {Q : Nat → Nat → Env L → Prop} {s : St L} (h : Between2 F Q s) : Live F s.cur := by
  unfold Between2 at h
  split at h
  · rw [h.1]; exact ⟨_, .single _⟩
  · obtain ⟨h1, A, hA, ht, _⟩ := h
    exact h1.edge ⟨A, hA, evalTerm_targets ht⟩

theorem RunInv.phis {Q : Nat → Nat → Env L → Prop} (I : RunInv F Q) (P : Proper F) {s : St L} (h : Between2 F Q s) {B : L.B} (hB : F.blk s.cur = some B)
    {env : Env L} (he : enterPhis L s.pred s.env B.phis s.env = some env) : Q s.cur 0 env := by
  unfold Between2 at h
  cases hp : s.pred with
  | none =>
    rw [hp] at h he
    obtain ⟨h1, h2⟩ := h
    have := P.entryPhis B (h1 ▸ hB)
    rw [this] at he
    simp only [enterPhis, Option.some.injEq] at he
    rw [← he, h1, h2]
    exact I.entry
  | some q =>
    rw [hp] at h he
    obtain ⟨h1, A, hA, ht, h3⟩ := h
    exact I.enter h1 hA hB ht h3 he

theorem RunInv.body {Q : Nat → Nat → Env L → Prop} (I : RunInv F Q) {b : Nat} {B : L.B} (hb : Live F b) (hB : F.blk b = some B) :
    ∀ {is : List (Inst L.Op L.C)} {k : Nat} {rest : List (Inst L.Op L.C)} {env env' : Env L} {m m' : L.M} {es es' : List L.E}, B.body.drop k = is ++ rest → Q b k env →
      execBody L is env m es = .ok env' m' es' → Q b (k + is.length) env' := by
  intro is
  induction is with
  | nil => intro k rest env env' m m' es es' _ hq h; simp only [execBody, BodyRes.ok.injEq] at h; rw [← h.1]; exact hq
  | cons i is ih =>
    intro k rest env env' m m' es es' hk hq h
    simp only [execBody] at h
    split at h
    · simp at h
    · rename_i vs hvs
      split at h
      · rename_i v m1 es1 hs
        have hi : B.body[k]? = some i := by
          have := congrArg (fun l => l[0]?) hk
          simpa using this
        have hk' : B.body.drop (k + 1) = is ++ rest := by
          rw [← List.tail_drop, hk]; rfl
        have := ih (k := k + 1) hk' (I.inst hb hB hi hq hvs hs) h
        rw [List.length_cons, show k + (is.length + 1) = k + 1 + is.length by omega]
        exact this
      · simp at h
      · simp at h

theorem RunInv.step {Q : Nat → Nat → Env L → Prop} (I : RunInv F Q) (P : Proper F) {s s' : St L} (h : Between2 F Q s) (hs : SSA.step L F s = .inl s') :
    Between2 F Q s' := by
  unfold SSA.step at hs
  split at hs
  · simp at hs
  · rename_i B hB
    unfold stepBlk at hs
    split at hs
    · simp at hs
    · rename_i env1 he
      split at hs
      · simp at hs
      · simp at hs
      · rename_i env2 m2 es2 hx
        have h1 := I.phis P h hB he
        have h2 := I.body h.live hB (rest := []) (by rw [List.drop_zero, List.append_nil]) h1 hx
        rw [Nat.zero_add] at h2
        split at hs
        · simp at hs
        · simp at hs
        · rename_i t ht
          simp only [Sum.inl.injEq] at hs
          rw [← hs]
          exact ⟨h.live, B, hB, ht, h2⟩

theorem RunInv.run {Q : Nat → Nat → Env L → Prop} (I : RunInv F Q) (P : Proper F) : ∀ {n : Nat} {s s' : St L}, Between2 F Q s → SSA.run L F n s = .inl s' →
    Between2 F Q s' := by
  intro n
  induction n with
  | zero => intro s s' h hr; simp only [SSA.run, Sum.inl.injEq] at hr; rw [← hr]; exact h
  | succ n ih =>
    intro s s' h hr
    simp only [SSA.run] at hr
    split at hr
    · rename_i t ht; exact ih (I.step P h ht) hr
    · simp at hr

theorem RunInv.and {Q R : Nat → Nat → Env L → Prop} (h1 : RunInv F Q) (h2 : RunInv F R) : RunInv F (fun c k env => Q c k env ∧ R c k env) where
  entry := ⟨h1.entry, h2.entry⟩
  enter := fun hq hA hB ht h he => ⟨h1.enter hq hA hB ht h.1 he, h2.enter hq hA hB ht h.2 he⟩
  inst := fun hb hB hi h he hs => ⟨h1.inst hb hB hi h.1 he hs, h2.inst hb hB hi h.2 he hs⟩

/-! ## the certificate -/

/-- ranges and facts hold of the registers in block `c` -/
def CtxIn (O : RangeOps L) (F : L.F) (R : Ranges) (K : Facts) (c : Nat) (env : Env L) : Prop :=
  EnvIn O R env ∧ ∀ x b, Domi F b c → ∀ v a, env x = some v → O.i32 v = some a → Range.Mem a (K x b)

variable {O : RangeOps L} {cmp : L.Op → Option RCmp} {nd : Bool}

theorem readFacts_mem {K : Facts} (hK : ∀ x b, Range.WF (K x b)) {x : Nat} {a : BitVec 32} : ∀ {bs : List Nat} {r r' : IRange}, Range.WF r → Range.Mem a r →
    (∀ b ∈ bs, Range.Mem a (K x b)) → readFacts nd K x bs r = some r' → Range.Mem a r' := by
  intro bs
  induction bs with
  | nil => intro r r' _ hm _ h; simp only [readFacts, Option.some.injEq] at h; rw [← h]; exact hm
  | cons b bs ih =>
    intro r r' w hm hb h
    obtain ⟨r1, e, w1, h1⟩ := Range.intersectSet_exact nd w (hK x b) ⟨a, hm, hb b List.mem_cons_self⟩
    unfold readFacts at h
    rw [e] at h
    exact ih w1 ((h1 a).2 ⟨hm, hb b List.mem_cons_self⟩) (fun d hd => hb d (List.mem_cons_of_mem _ hd)) h

/-- what is read contains the value -/
theorem Reads.mem (W : RangeLaws O) {R : Ranges} {K : Facts} (hR : Fine R) (hK : ∀ x b, Range.WF (K x b)) {c : Nat} {o : Opd L.C} {r : IRange}
    (h : Reads O nd F R K c o r) {env : Env L} (hE : CtxIn O F R K c env) {v : L.V} {a : BitVec 32} (he : eval L env o = some v)
    (ha : O.i32 v = some a) : Range.Mem a r := by
  cases h with
  | cst => exact get_mem W hE.1 he ha
  | plain => exact hE.1 _ v a he ha
  | facts _ hd hr => exact readFacts_mem hK (hR _).1 (hE.1 _ v a he ha) (fun b hb => hE.2 _ b (hd b hb) v a he ha) hr

/-- the same for the operands of phis: their values are those before the phis -/
theorem Reads.mem_phi (W : RangeLaws O) {R : Ranges} {K : Facts} (hR : Fine R) (hK : ∀ x b, Range.WF (K x b)) {b q : Nat} {B : L.B} (hB : F.blk b = some B) {o : Opd L.C} {r : IRange}
    (h : Reads O nd F R K b o r) {env env' : Env L} (hE : EnvIn O R env) (hE' : CtxIn O F R K b env') (hp : enterPhis L (some q) env B.phis env = some env') {v : L.V} {a : BitVec 32} (he : eval L env o = some v)
    (ha : O.i32 v = some a) : Range.Mem a r := by
  cases h with
  | cst => exact get_mem W hE he ha
  | plain => exact hE _ v a he ha
  | @facts x bs _ hx hd hr =>
    have hxe : env' x = some v := by
      rw [enterPhis_other hp x (fun hm => hx ⟨B, hB, List.mem_append_left _ hm⟩)]; exact he
    exact readFacts_mem hK (hR _).1 (hE _ v a he ha) (fun b hb => hE'.2 _ b (hd b hb) v a hxe ha) hr

/-- `Kept.add` for points -/
theorem RunInv.addReg {I : Nat → Nat → Env L → Prop} (K : RunInv F I) {P : Nat → BitVec 32 → Prop}
    (hp : ∀ {b q o : Nat} {B A : L.B} {p : Phi L.C} {ov : Opd L.C} {env env' : Env L} {v : L.V} {a : BitVec 32}, o = A.body.length → Live F q → Live F b →
      F.blk b = some B → p ∈ B.phis → (q, ov) ∈ p.inc → I q o env → I b 0 env' → enterPhis L (some q) env B.phis env = some env' → Holds O P env →
      eval L env ov = some v → O.i32 v = some a → P p.id a)
    (hi : ∀ {b k : Nat} {B : L.B} {i : Inst L.Op L.C} {vs : List L.V} {m m' : L.M} {v : L.V} {es : List L.E} {env : Env L} {a : BitVec 32}, Live F b →
      F.blk b = some B → i ∈ B.body → I b k env → Holds O P env → evals L env i.args = some vs → L.sem i.op vs m = .ok v m' es →
      O.i32 v = some a → P i.id a) :
    RunInv F (fun c k env => I c k env ∧ Holds O P env) where
  entry := ⟨K.entry, fun x v a h _ => by simp at h⟩
  enter := by
    intro q b B A env env' hq hA hB ht hI h
    have hI' := K.enter hq hA hB ht hI.1 h
    refine ⟨hI', fun x v a hx ha => ?_⟩
    rcases enterPhis_cases h x with ⟨p, hp', rfl, q', o, hq', ho, he⟩ | ⟨_, he⟩
    · rw [hx] at he
      cases hq'
      exact hp rfl hq (hq.edge ⟨A, hA, evalTerm_targets ht⟩) hB hp' (Phi.at_mem ho) hI.1 hI' h hI.2 he.symm ha
    · rw [hx] at he; exact hI.2 x v a he.symm ha
  inst := by
    intro b k B i env vs v m m' es hb hB hi' hI he hs
    refine ⟨K.inst hb hB hi' hI.1 he hs, fun x w a hx ha => ?_⟩
    unfold setEnv at hx
    split at hx
    · rename_i hxi
      simp only [Option.some.injEq] at hx
      subst hx; subst hxi
      exact hi hb hB (List.mem_of_getElem? hi') hI.1 hI.2 he hs ha
    · exact hI.2 x w a hx ha

/-- a fact about a value in the blocks dominated by `t` that holds on the only way into `t` -/
theorem RunInv.addFact {I : Nat → Nat → Env L → Prop} (K : RunInv F I) (P : Proper F) {x t h b : Nat} (hd : DefIn F x h) (hdt : Domi F h t) (hne : h ≠ t)
    (hpred : ∀ q, Edge F q t → q = b) (hte : t ≠ F.entry) {Q : BitVec 32 → Prop}
    (hQ : ∀ {B : L.B} {env : Env L} {v : L.V} {a : BitVec 32}, Live F b → F.blk b = some B → evalTerm L env B.term = .goto t → I b B.body.length env →
      env x = some v → O.i32 v = some a → Q a) :
    RunInv F (fun c k env => I c k env ∧ (Domi F t c → ∀ v a, env x = some v → O.i32 v = some a → Q a)) where
  entry := ⟨K.entry, fun _ v a h _ => by simp at h⟩
  enter := by
    intro q c B A env env' hq hA hB ht hI he
    refine ⟨K.enter hq hA hB ht hI.1 he, fun hdom v a hx ha => ?_⟩
    have hedge : Edge F q c := ⟨A, hA, evalTerm_targets ht⟩
    have hc : Live F c := hq.edge hedge
    have hnx : x ∉ B.phis.map Phi.id := by
      intro hm
      have : c = h := P.home ⟨B, hB, List.mem_append_left _ hm⟩ hd
      subst this
      exact hne (hdt.antisymm hdom (hdom.live hc))
    rw [enterPhis_other he x hnx] at hx
    by_cases htc : t = c
    · subst htc
      have := hpred q hedge
      subst this
      exact hQ hq hA ht hI.1 hx ha
    · exact hI.2 (hdom.pred htc hedge) v a hx ha
  inst := by
    intro c k B i env vs v m m' es hc hB hi hI he hs
    refine ⟨K.inst hc hB hi hI.1 he hs, fun hdom w a hx ha => ?_⟩
    unfold setEnv at hx
    split at hx
    · rename_i hxi
      have : c = h := P.home (hxi ▸ ⟨B, hB, List.mem_append_right _ (List.mem_map.mpr ⟨i, List.mem_of_getElem? hi, rfl⟩)⟩) hd
      subst this
      exact absurd (hdt.antisymm hdom (hdom.live hc)) hne
    · exact hI.2 hdom w a hx ha

/-- ranges and facts hold at all points of all runs, with the help of an invariant -/
def CtxCert (O : RangeOps L) (F : L.F) (R : Ranges) (K : Facts) : Prop :=
  ∃ I : Nat → Nat → Env L → Prop, RunInv F I ∧ ∀ c k env, Live F c → I c k env → CtxIn O F R K c env

theorem CtxIn.updReg {R R' : Ranges} {K : Facts} (hR : Fine R) {x : Nat} {t : IRange} (hu : updRange nd R x t = some R') {c : Nat} {env : Env L}
    (hE : CtxIn O F R K c env) (hx : ∀ v a, env x = some v → O.i32 v = some a → Range.WF t ∧ Range.Mem a t) : CtxIn O F R' K c env :=
  ⟨updRange_mem hR hu hE.1 hx, hE.2⟩

theorem CtxIn.updCtx {R : Ranges} {K K' : Facts} (hK : ∀ x b, Range.WF (K x b)) {x t : Nat} {r : IRange} (hu : updFact nd K x t r = some K') {c : Nat} {env : Env L}
    (hE : CtxIn O F R K c env) (hx : Domi F t c → ∀ v a, env x = some v → O.i32 v = some a → Range.WF r ∧ Range.Mem a r) : CtxIn O F R K' c env := by
  refine ⟨hE.1, fun y b hb v a hy ha => ?_⟩
  unfold updFact at hu
  rw [Option.map_eq_some_iff] at hu
  obtain ⟨r1, hr, rfl⟩ := hu
  dsimp only
  split
  · rename_i h
    obtain ⟨rfl, rfl⟩ := h
    obtain ⟨h1, h2⟩ := hx hb v a hy ha
    obtain ⟨r', e, _, hm⟩ := Range.intersectSet_exact nd (hK y b) h1 ⟨a, hE.2 y b hb v a hy ha, h2⟩
    rw [hr] at e; cases e
    exact (hm a).2 ⟨hE.2 y b hb v a hy ha, h2⟩
  · exact hE.2 y b hb v a hy ha


/-- a point of a block reached by a run has the context of the blocks that dominate it -/
theorem CtxIn.up {R : Ranges} {K : Facts} {d b : Nat} {env : Env L} (h : CtxIn O F R K b env) (hd : Domi F d b) : CtxIn O F R K d env :=
  ⟨h.1, fun x e he => h.2 x e (he.trans hd)⟩

/-- the operands of a comparison that a branch tests, when it goes to `t` -/
theorem branch_fact (W : RangeLaws O) (C : CmpLaws O cmp) (P : Proper F) (m0 : L.M) {R : Ranges} {K : Facts} (hR : Fine R) (hK : ∀ x b, Range.WF (K x b))
    {b d y t t1 t2 x : Nat} {B D : L.B} {j : Inst L.Op L.C} {p : RCmp} {l r : Opd L.C} {g : Opd L.C → IRange} {side : Bool} {tr : IRange}
    (hb : Live F b) (hB : F.blk b = some B) (hT : B.term = .cbr (.inst y) t1 t2) (hne : t1 ≠ t2) (hD : F.blk d = some D) (hj : j ∈ D.body)
    (hy : j.id = y) (hc : cmp j.op = some p) (ha : j.args = [l, r]) (hg : ∀ o, Reads O nd F R K d o (g o)) (hF : FineG g)
    (ht : t = (if side then t1 else t2))
    (hx : (l = .inst x ∧ (if side then p else p.inv).factL nd (g r) = some (some tr)) ∨ (r = .inst x ∧ (if side then p else p.inv).factR nd (g l) = some (some tr)))
    {env : Env L} (hI : CtxIn O F R K b env) (hE : Eqns F (fun op => (cmp op).isSome) b B.body.length env)
    (hgo : evalTerm L env B.term = .goto t) {v : L.V} {a : BitVec 32} (hv : env x = some v) (hva : O.i32 v = some a) : Range.WF tr ∧ Range.Mem a tr := by
  have hav : Avail F b B.body.length j.id := P.term_avail hB hb (by rw [hT, hy]; simp [Term.args])
  have hdb : Domi F d b := by
    obtain ⟨d', h1, h2, _⟩ := hav
    have := P.home h1 ⟨D, hD, List.mem_append_right _ (List.mem_map.mpr ⟨j, hj, rfl⟩)⟩
    subst this
    exact h2
  obtain ⟨vs, w, e1, e2, e3⟩ := hE d D j hD hj (by show (cmp j.op).isSome = true; rw [hc]; rfl) hav
  rw [hy] at e2
  have htr : L.truth w = some side := by
    rw [hT] at hgo
    simp only [evalTerm, eval, e2, Option.bind_some] at hgo
    cases hw : L.truth w with
    | none => rw [hw] at hgo; simp at hgo
    | some s =>
      rw [hw] at hgo
      cases s <;> cases side <;> simp at hgo ht ⊢
      · exact absurd (ht.symm.trans hgo.symm) hne
      · exact absurd (hgo.trans ht) hne
  obtain ⟨u1, u2, rfl, hu⟩ := C.test hc (e3 m0) htr
  rw [ha] at e1
  simp only [evals] at e1
  split at e1
  · rename_i v1 vs1 f1 f2
    split at f2
    · rename_i v2 vs2 f3 f4
      simp only [Option.some.injEq] at f2 e1 f4
      subst f4; subst f2
      simp only [List.cons.injEq, and_true] at e1
      obtain ⟨rfl, rfl⟩ := e1
      have hId := hI.up hdb
      have hold : ∀ {a1 a2 : BitVec 32}, side = p.holds a1 a2 → (if side then p else p.inv).holds a1 a2 = true := by
        intro a1 a2 h
        cases side
        · simp only [Bool.false_eq_true, if_false]; rw [RCmp.inv_holds, ← h]; rfl
        · simp only [if_true]; exact h.symm
      rcases hx with ⟨rfl, hf⟩ | ⟨rfl, hf⟩
      · simp only [eval, hv, Option.some.injEq] at f1
        subst f1
        rcases hu with ⟨a1, a2, g1, g2, g3⟩ | ⟨g1, _⟩
        · rw [hva, Option.some.injEq] at g1
          subst g1
          exact RCmp.factL_ok (hF _).1 hf ((hg _).mem W hR hK hId f3 g2) (hold g3)
        · rw [hva] at g1; simp at g1
      · simp only [eval, hv, Option.some.injEq] at f3
        subst f3
        rcases hu with ⟨a1, a2, g1, g2, g3⟩ | ⟨_, g1⟩
        · rw [hva, Option.some.injEq] at g2
          subst g2
          exact RCmp.factR_ok (hF _).1 hf ((hg _).mem W hR hK hId f1 g1) (hold g3)
        · rw [hva] at g1; simp at g1
    · simp at f2
  · simp at e1

/-- the value of a switch that goes to the target of one case -/
theorem switch_fact (C : CmpLaws O cmp) {t dflt x : Nat} {B : L.B} {k : Int} {cases : List (Int × Nat)} (hT : B.term = .sw (.inst x) dflt cases)
    (hd : dflt ≠ t) (hk : ∀ k', (k', t) ∈ cases → k' = k) {env : Env L} (hgo : evalTerm L env B.term = .goto t) {v : L.V} {a : BitVec 32}
    (hv : env x = some v) (hva : O.i32 v = some a) : Range.WF (Range.ofConst k) ∧ Range.Mem a (Range.ofConst k) := by
  refine ⟨Range.ofConst_wf k, (Range.ofConst_mem k a).2 ?_⟩
  rw [hT] at hgo
  simp only [evalTerm, eval, hv, Option.bind_some] at hgo
  split at hgo
  · simp at hgo
  · rename_i z hz
    split at hgo
    · rename_i e he
      simp only [Next.goto.injEq] at hgo
      have h1 := List.mem_of_find?_eq_some he
      have h2 := List.find?_some he
      have h3 : e.1 = k := hk e.1 (by rw [← hgo]; exact h1)
      have h4 : e.1 = z := by simpa using h2
      exact C.key (by rw [hz, ← h4, h3]) hva
    · simp only [Next.goto.injEq] at hgo
      exact absurd hgo hd

/-- a fact of the block `t` with one way in -/
theorem CtxCert.fact (P : Proper F) (hmv : Movable L (fun op => (cmp op).isSome)) {R : Ranges} {K K' : Facts} (hK : ∀ x b, Range.WF (K x b))
    (hC : CtxCert O F R K) {b t x h : Nat} {tr : IRange} (hd : DefIn F x h) (hdb : Live F b → Domi F h b) (hbt : t ≠ b) (hdom : Domi F b t)
    (hpred : ∀ q, Edge F q t → q = b) (hu : updFact nd K x t tr = some K')
    (hQ : ∀ {B : L.B} {env : Env L} {v : L.V} {a : BitVec 32}, Live F b → F.blk b = some B → evalTerm L env B.term = .goto t → CtxIn O F R K b env →
      Eqns F (fun op => (cmp op).isSome) b B.body.length env → env x = some v → O.i32 v = some a → Range.WF tr ∧ Range.Mem a tr) :
    CtxCert O F R K' := by
  obtain ⟨I, J, hI⟩ := hC
  by_cases hl : Live F t
  · have hlb : Live F b := hdom.live hl
    have hht : Domi F h t := (hdb hlb).trans hdom
    have hne : h ≠ t := by
      rintro rfl
      exact hbt ((hdb hlb).antisymm hdom hlb)
    have hte : t ≠ F.entry := by
      rintro rfl
      exact hbt (domi_entry hdom).symm
    have J' := (J.and (eqns_inv hmv P).runInv).addFact (O := O) P hd hht hne hpred hte (Q := fun a => Range.WF tr ∧ Range.Mem a tr)
      (by
        intro B env v a hb hB hgo hh hv ha
        exact hQ hb hB hgo (hI _ _ _ hb hh.1) hh.2 hv ha)
    exact ⟨_, J', fun c k env hc hh => (hI c k env hc hh.1.1).updCtx hK hu (fun hdc => hh.2 hdc)⟩
  · exact ⟨I, J, fun c k env hc hh => (hI c k env hc hh).updCtx hK hu (fun hdc => absurd (hdc.live hc) hl)⟩

theorem CtxCert.visit (W : RangeLaws O) (C : CmpLaws O cmp) (P : Proper F) (m0 : L.M) {R R' : Ranges} {K K' : Facts} (hR : Fine R)
    (hK : ∀ x b, Range.WF (K x b)) (hC : CtxCert O F R K) (h : CVisit O cmp nd F R K R' K') : CtxCert O F R' K' := by
  have U := P.oneDef
  cases h with
  | @inst _ _ b B i g t hB hi hg hF hs ht hu =>
    obtain ⟨I, J, hI⟩ := hC
    have J' := J.addReg (O := O) (P := fun x a => x = i.id → Range.WF t ∧ Range.Mem a t)
      (by
        intro b' q o B' A p ov env env' v a _ _ _ hB' hp _ _ _ _ _ _ _ e
        exact absurd e (U.both hB' hB hp hi))
      (by
        intro b' k B' j vs m m' v es env a hb' hB' hj hIe _ he hx ha e
        have := P.home ⟨B', hB', List.mem_append_right _ (List.mem_map.mpr ⟨j, hj, e⟩)⟩ ⟨B, hB, List.mem_append_right _ (List.mem_map.mpr ⟨i, hi, rfl⟩)⟩
        subst this
        have := U.inst hB' hB hj hi e
        subst this
        exact transfer_sound W hF (fun h1 h2 => (hg _).mem W hR hK (hI _ _ _ hb' hIe) h1 h2) hs ht he hx ha)
    exact ⟨_, J', fun c k env hc hh => (hI c k env hc hh.1).updReg hR hu (fun v a hx ha => hh.2 _ v a hx ha rfl)⟩
  | @phi _ _ b B p g t hB hp hg hF ht hu =>
    obtain ⟨I, J, hI⟩ := hC
    obtain ⟨w, hm⟩ := unionRanges_none hF ht
    have J' := J.addReg (O := O) (P := fun x a => x = p.id → Range.WF t ∧ Range.Mem a t)
      (by
        intro b' q o B' A p' ov env env' v a _ hq hb' hB' hp' ho hIq hIb hent _ he ha e
        have := P.home ⟨B', hB', List.mem_append_left _ (List.mem_map.mpr ⟨p', hp', e⟩)⟩ ⟨B, hB, List.mem_append_left _ (List.mem_map.mpr ⟨p, hp, rfl⟩)⟩
        subst this
        have := U.phi hB' hB hp' hp e
        subst this
        exact ⟨w, hm ov (ops_cover W ho he ha) a ((hg ov).mem_phi W hR hK hB' (hI _ _ _ hq hIq).1 (hI _ _ _ hb' hIb) hent he ha)⟩)
      (by
        intro b' k B' j vs m m' v es env a _ hB' hj _ _ _ _ _ e
        exact absurd e.symm (U.both hB hB' hp hj))
    exact ⟨_, J', fun c k env hc hh => (hI c k env hc hh.1).updReg hR hu (fun v a hx ha => hh.2 _ v a hx ha rfl)⟩
  | @branch _ _ b d y t t1 t2 x B D j p l r g side tr hB hT hne hD hj hy hc ha hg hF ht htb hdom hpred hx hu =>
    have hxj : Opd.inst x ∈ j.args := by
      rw [ha]
      rcases hx with ⟨h, _⟩ | ⟨h, _⟩ <;> rw [h] <;> simp
    obtain ⟨h, hh⟩ := P.exists_ d D hD x (mem_operands.mpr (.inr (.inl ⟨j, hj, hxj⟩)))
    have hdb : Live F b → Domi F h b := by
      intro hb
      obtain ⟨d', h1, h2, _⟩ := P.term_avail hB hb (x := y) (by rw [hT]; simp [Term.args])
      have := P.home h1 ⟨D, hD, List.mem_append_right _ (List.mem_map.mpr ⟨j, hj, hy⟩)⟩
      subst this
      exact (P.useDom d' D x h hD (h2.live hb) (.inl ⟨j, hj, hxj⟩) hh).trans h2
    refine hC.fact P C.mv hK hh hdb htb hdom hpred hu ?_
    intro B' env v a hb hB' hgo hI hE hv hva
    have := Option.some.inj (hB'.symm.trans hB)
    subst this
    exact branch_fact W C P m0 hR hK hb hB hT hne hD hj hy hc ha hg hF ht hx hI hE hgo hv hva
  | @switch _ _ b t dflt x B k cases hB hT hmem hd hk htb hdom hpred hu =>
    have hxt : Opd.inst x ∈ B.term.args := by rw [hT]; simp [Term.args]
    obtain ⟨h, hh⟩ := P.exists_ b B hB x (mem_operands.mpr (.inr (.inr hxt)))
    refine hC.fact P C.mv hK hh (fun hb => P.useDom b B x h hB hb (.inr hxt) hh) htb hdom hpred hu ?_
    intro B' env v a hb hB' hgo hI hE hv hva
    have := Option.some.inj (hB'.symm.trans hB)
    subst this
    exact switch_fact C hT hd hk hgo hv hva
  | @incr _ _ b B p g t hB hp hg hF ht hu =>
    obtain ⟨I, J, hI⟩ := hC
    unfold RangeOps.addRec at ht
    dsimp only at ht
    split at ht
    · simp at ht
    · simp at ht
    · rename_i r hr
      split at ht
      · rename_i y hus
        split at ht
        · simp at ht
        · rename_i j hj
          split at ht
          · simp at ht
          · rename_i inc hinc
            split at ht
            · simp at ht
            · rename_i hc
              obtain ⟨w, hm⟩ := unionRanges_none hF hr
              obtain ⟨d, D, hD, hjD, hjid⟩ := inst?_spec hj
              generalize hcm : belowLow (BitVec.ofInt 32 inc) &&& belowLow (~~~r.zeros) = cm at ht hc
              have hcm1 : ∀ {n}, cm.getLsbD n = true → n < 32 ∧ (∀ k, k ≤ n → (BitVec.ofInt 32 inc).getLsbD k = false) ∧
                  ∀ k, k ≤ n → r.zeros.getLsbD k = true := by
                intro n hn
                rw [← hcm, BitVec.getLsbD_and, Bool.and_eq_true] at hn
                obtain ⟨h1, h2⟩ := belowLow_spec hn.1
                obtain ⟨_, h3⟩ := belowLow_spec hn.2
                refine ⟨h1, h2, fun k hk => ?_⟩
                have := h3 k hk
                rw [BitVec.getLsbD_not, decide_eq_true (by omega : k < 32), Bool.true_and] at this
                simpa using this
              have J' := J.addReg (O := O) (P := fun x a => (x = p.id ∨ x = y) → ∀ n, cm.getLsbD n = true → ∀ k, k ≤ n → a.getLsbD k = false)
                (by
                  intro b' q o' B' A p' o env env' v a _ hq hb' hB' hp' ho hIq hIb hent hH he ha e n hn k hk
                  rcases e with e | e
                  · have := P.home ⟨B', hB', List.mem_append_left _ (List.mem_map.mpr ⟨p', hp', e⟩)⟩ ⟨B, hB, List.mem_append_left _ (List.mem_map.mpr ⟨p, hp, rfl⟩)⟩
                    subst this
                    have := U.phi hB' hB hp' hp e
                    subst this
                    have ho' := ops_cover W ho he ha
                    by_cases hu' : isUserOf F p'.id o = true
                    · have h1 : o ∈ (O.ops p').filter (isUserOf F p'.id) := List.mem_filter.2 ⟨ho', hu'⟩
                      rw [hus, List.mem_singleton] at h1
                      subst h1
                      exact hH y v a he ha (.inr rfl) n hn k hk
                    · have h1 : o ∈ (O.ops p').filter (fun o => !isUserOf F p'.id o) := List.mem_filter.2 ⟨ho', by simpa using hu'⟩
                      exact (hm o h1 a ((hg o).mem_phi W hR hK hB' (hI _ _ _ hq hIq).1 (hI _ _ _ hb' hIb) hent he ha)).z k ((hcm1 hn).2.2 k hk)
                  · exact absurd (e.trans hjid.symm) (U.both hB' hD hp' hjD))
                (by
                  intro b' kk B' i vs m m' v es env a hb' hB' hi hIe hH he hx ha e n hn k hk
                  rcases e with e | e
                  · exact absurd e.symm (U.both hB hB' hp hi)
                  · have := U.inst hB' hD hi hjD (e.trans hjid.symm)
                    subst this
                    obtain ⟨hn32, hz1, _⟩ := hcm1 hn
                    unfold RangeOps.incOf at hinc
                    split at hinc
                    · rename_i y' c hk' hargs
                      split at hinc
                      · rename_i hy'
                        subst hy'
                        obtain ⟨x1, x2, a1, a2, rfl, g1, g2, _, rfl⟩ := W.bin hk' hx ha
                        rw [hargs] at he
                        simp only [evals, eval] at he
                        split at he
                        · rename_i v1 vs1 e1 e2
                          simp only [Option.some.injEq] at e2 he
                          subst e2
                          simp only [List.cons.injEq, and_true] at he
                          obtain ⟨rfl, rfl⟩ := he
                          rw [W.num hinc, Option.some.injEq] at g2
                          subst g2
                          exact low_add hn32 (hH _ _ _ e1 g1 (.inl rfl) n hn) hz1 k hk
                        · simp at he
                      · simp at hinc
                    · rename_i c y' hk' hargs
                      split at hinc
                      · rename_i hy'
                        subst hy'
                        obtain ⟨x1, x2, a1, a2, rfl, g1, g2, _, rfl⟩ := W.bin hk' hx ha
                        rw [hargs] at he
                        simp only [evals, eval] at he
                        split at he
                        · rename_i v1 vs1 e1 e2
                          split at e2
                          · rename_i v2 vs2 e3 e4
                            simp only [Option.some.injEq] at e1 e2 he e4
                            subst e4; subst e2
                            simp only [List.cons.injEq, and_true] at he
                            obtain ⟨rfl, rfl⟩ := he
                            subst e1
                            rw [W.num hinc, Option.some.injEq] at g1
                            subst g1
                            exact low_add hn32 hz1 (hH _ _ _ e3 g2 (.inl rfl) n hn) k hk
                          · simp at e2
                        · simp at he
                      · simp at hinc
                    · simp at hinc)
              refine ⟨_, J', fun c k env hc' hh => (hI c k env hc' hh.1).updReg hR hu (fun v a hx ha => ?_)⟩
              have hz : ∀ n, cm.getLsbD n = true → a.getLsbD n = false := fun n hn => hh.2 _ v a hx ha (.inl rfl) n hn n (Nat.le_refl n)
              rw [Option.map_eq_some_iff] at ht
              obtain ⟨t', ht, hte⟩ := ht
              cases hte
              have hbits := Range.bits_sound nd (z := cm) (o := 0#32) (v := a) hz (fun i h => by simp at h)
              obtain ⟨r', e1, e2, e3⟩ := hbits
              rw [show (do let r ← Range.setKnownBits nd Range.full cm 0#32; Range.sync nd r) = some t from ht] at e1
              cases e1
              exact ⟨e2, e3⟩
      · simp at ht

theorem CAnalysis.fine {R : Ranges} {K : Facts} (h : CAnalysis O cmp nd F R K) : Fine R ∧ ∀ x b, Range.WF (K x b) := by
  cases h with
  | start => exact ⟨fine_full, fun _ _ => Range.wf_full⟩
  | visit _ _ h1 h2 => exact ⟨h1, h2⟩

theorem CAnalysis.cert (W : RangeLaws O) (C : CmpLaws O cmp) (P : Proper F) (m0 : L.M) {R : Ranges} {K : Facts} (h : CAnalysis O cmp nd F R K) :
    CtxCert O F R K := by
  induction h with
  | start =>
    exact ⟨fun _ _ _ => True, ⟨trivial, fun _ _ _ _ _ _ => trivial, fun _ _ _ _ _ _ => trivial⟩,
      fun _ _ _ _ _ => ⟨fun _ _ _ _ _ => Range.mem_full _, fun _ _ _ _ _ _ _ => Range.mem_full _⟩⟩
  | visit h hv _ _ ih => exact ih.visit W C P m0 h.fine.1 h.fine.2 hv

/-- C94 (partial: without facts from selects, calls and address computations, and for divisions and absolute values on safe ranges):
whatever order things are visited in, at every point of a block that a run reaches, an operand that is a 32-bit integer is a member of every
range that the analysis answers for it in the context of this block. -/
theorem C94_contextualRanges_partial (W : RangeLaws O) (C : CmpLaws O cmp) (P : Proper F) {R : Ranges} {K : Facts} (h : CAnalysis O cmp nd F R K)
    {n : Nat} {m : L.M} {s : St L} {B : L.B} {env : Env L} {pre post : List (Inst L.Op L.C)} {env' : Env L} {m' : L.M} {es : List L.E}
    (hr : SSA.run L F n (start L F m) = .inl s) (hB : F.blk s.cur = some B) (hp : enterPhis L s.pred s.env B.phis s.env = some env)
    (hb : B.body = pre ++ post) (hx : execBody L pre env s.m s.tr = .ok env' m' es)
    {o : Opd L.C} {r : IRange} (ho : Reads O nd F R K s.cur o r) {v : L.V} {a : BitVec 32} (hv : eval L env' o = some v) (ha : O.i32 v = some a) :
    Range.Mem a r := by
  obtain ⟨I, J, hI⟩ := h.cert W C P m
  have h0 : Between2 F I (start L F m) := ⟨rfl, rfl⟩
  have h1 := J.run P h0 hr
  have h2 := J.phis P h1 hB hp
  have h3 := J.body h1.live hB (rest := post) (by rw [List.drop_zero]; exact hb) h2 hx
  exact ho.mem W h.fine.1 h.fine.2 (hI _ _ _ h1.live h3) hv ha

end

end Cmmc.SSA
