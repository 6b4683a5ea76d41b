import Verif.Range.Props
import Verif.SSA.Gvn
/-!
# C93: IntegerRangeAnalysis (cmmc/Analysis/IntegerRangeAnalysis.cpp): what it says about a value holds in every run

The analysis starts with the full range for every value and visits instructions in the order of a work list, intersecting the range of the
visited instruction with what follows from the ranges of its operands. The order, and the bound on the number of visits (`maxEnqueueCount`),
do not matter for the claim: the model visits instructions in any order, any number of times.

Modelled: the ranges of constants and the rules for instructions and phis (lines 347-489). Not modelled: facts about branches, switches and
selects (`mContextualRanges`, `mInstContextualRanges`), the rules for SCEV, calls and address computations, ranges of arguments of internal
functions (all of these answer "full" here), truncations (their operands are no i32, so the rule adds nothing).
-/
namespace Cmmc.SSA

open Cmmc.Range (IRange)

/-- the binary instructions with a rule -/
inductive RBin
  | add | sub | mul | sdiv | udiv | srem | urem | and | or | xor | shl | lshr | ashr | smax | smin
deriving DecidableEq

/-- what the analysis looks at in an opcode -/
inductive RKind
  | bin (k : RBin)
  | neg | abs | select
  | sext (w : Nat) | zext (w : Nat)
  | other
deriving DecidableEq

/-- the value of the instruction -/
def RBin.val : RBin → BitVec 32 → BitVec 32 → BitVec 32
  | .add, x, y => x + y
  | .sub, x, y => x - y
  | .mul, x, y => x * y
  | .sdiv, x, y => BitVec.sdiv x y
  | .udiv, x, y => x / y
  | .srem, x, y => BitVec.srem x y
  | .urem, x, y => x % y
  | .and, x, y => x &&& y
  | .or, x, y => x ||| y
  | .xor, x, y => x ^^^ y
  | .shl, x, y => x <<< y.toNat
  | .lshr, x, y => x >>> y.toNat
  | .ashr, x, y => x.sshiftRight y.toNat
  | .smax, x, y => if x.toInt ≤ y.toInt then y else x
  | .smin, x, y => if x.toInt ≤ y.toInt then x else y

/-- where it has one -/
def RBin.Dom : RBin → BitVec 32 → BitVec 32 → Prop
  | .sdiv, x, y => Range.SDivDefined x y
  | .udiv, _, y | .srem, _, y | .urem, _, y => y ≠ 0#32
  | .shl, _, y | .lshr, _, y | .ashr, _, y => y.toNat < 32
  | _, _, _ => True

/-- the range operation (Range/Model.lean) -/
def RBin.range (nd : Bool) : RBin → IRange → IRange → Option IRange
  | .add => Range.add nd | .sub => Range.sub nd | .mul => Range.mul nd
  | .sdiv => Range.sdiv nd | .udiv => Range.udiv nd | .srem => Range.srem nd | .urem => Range.urem nd
  | .and => Range.and nd | .or => Range.or nd | .xor => Range.xor nd
  | .shl => Range.shl nd | .lshr => Range.lshr nd | .ashr => Range.ashr nd
  | .smax => Range.smaxOp nd | .smin => Range.sminOp nd

/-- the part of the language the analysis looks at -/
structure RangeOps (L : Lang) where
  /-- the 32-bit integer a value is; `none` for values of other types and for undefined values -/
  i32 : L.V → Option (BitVec 32)
  /-- `ConstantInteger` of type i32: its sign-extended value -/
  num : L.C → Option Int
  /-- `isUndefined()` -/
  undef : L.C → Bool
  kind : L.Op → RKind

/-- the language computes what the opcodes say -/
structure RangeLaws {L : Lang} (O : RangeOps L) : Prop where
  num : ∀ {c : L.C} {z : Int}, O.num c = some z → O.i32 (L.cval c) = some (BitVec.ofInt 32 z)
  undef : ∀ {c : L.C}, O.undef c = true → O.i32 (L.cval c) = none
  bin : ∀ {op : L.Op} {k : RBin} {vs : List L.V} {m m' : L.M} {v : L.V} {es : List L.E} {r : BitVec 32}, O.kind op = .bin k →
    L.sem op vs m = .ok v m' es → O.i32 v = some r →
    ∃ x y a b, vs = [x, y] ∧ O.i32 x = some a ∧ O.i32 y = some b ∧ k.Dom a b ∧ r = k.val a b
  neg : ∀ {op : L.Op} {vs : List L.V} {m m' : L.M} {v : L.V} {es : List L.E} {r : BitVec 32}, O.kind op = .neg →
    L.sem op vs m = .ok v m' es → O.i32 v = some r → ∃ x a, vs = [x] ∧ O.i32 x = some a ∧ r = -a
  abs : ∀ {op : L.Op} {vs : List L.V} {m m' : L.M} {v : L.V} {es : List L.E} {r : BitVec 32}, O.kind op = .abs →
    L.sem op vs m = .ok v m' es → O.i32 v = some r → ∃ x a, vs = [x] ∧ O.i32 x = some a ∧ a ≠ 0x80000000#32 ∧ r = Range.absVal a
  select : ∀ {op : L.Op} {vs : List L.V} {m m' : L.M} {v : L.V} {es : List L.E} {r : BitVec 32}, O.kind op = .select →
    L.sem op vs m = .ok v m' es → O.i32 v = some r → ∃ c x y, vs = [c, x, y] ∧ (v = x ∨ v = y)
  sext : ∀ {op : L.Op} {w : Nat} {vs : List L.V} {m m' : L.M} {v : L.V} {es : List L.E} {r : BitVec 32}, O.kind op = .sext w →
    L.sem op vs m = .ok v m' es → O.i32 v = some r → 0 < w ∧ w ≤ 32 ∧ ∃ a : BitVec w, r = a.signExtend 32
  zext : ∀ {op : L.Op} {w : Nat} {vs : List L.V} {m m' : L.M} {v : L.V} {es : List L.E} {r : BitVec 32}, O.kind op = .zext w →
    L.sem op vs m = .ok v m' es → O.i32 v = some r → w ≤ 32 ∧ ∃ a : BitVec w, r = a.setWidth 32

section
variable {L : Lang} (O : RangeOps L) (nd : Bool) (F : L.F)

/-- `mRanges` -/
abbrev Ranges := Nat → IRange

/-- `query` without context (IntegerRangeAnalysis.cpp:48-60); constants: `IntegerRange(ConstantInteger*)` (38-45) -/
def RangeOps.get (R : Ranges) : Opd L.C → IRange
  | .inst x => R x
  | .cst c => match O.num c with
    | some z => Range.ofConst z
    | none => Range.full

/- The rules read operands with `g`: `getRange(operand, inst)`. -/

/-- `for(auto operand : inst->operands()) ... range->unionSet(subRange)` (lines 435-445, 452-474) -/
def unionRanges (g : Opd L.C → IRange) : List (Opd L.C) → Option IRange → Option (Option IRange)
  | [], acc => some acc
  | o :: os, none => unionRanges g os (some (g o))
  | o :: os, some r => match Range.unionSet nd r (g o) with
    | some r' => unionRanges g os (some r')
    | none => none

/-- `operand->isUndefined()` -/
def RangeOps.isUndef : Opd L.C → Bool
  | .cst c => O.undef c
  | .inst _ => false

/-- the incoming values that are not undefined -/
def RangeOps.ops (p : Phi L.C) : List (Opd L.C) := (p.inc.map Prod.snd).filter (fun o => !O.isUndef o)

/-- the rules for instructions (lines 347-432, 491-512): `none`: an assertion fails; `some none`: no rule -/
def RangeOps.transfer (g : Opd L.C → IRange) (i : Inst L.Op L.C) : Option (Option IRange) :=
  match O.kind i.op, i.args with
  | .bin k, [x, y] => (k.range nd (g x) (g y)).map some
  | .neg, [x] => (Range.neg nd (g x)).map some
  | .abs, [x] => (Range.abs nd (g x)).map some
  | .select, [_, x, y] => (Range.unionSet nd (g x) (g y)).map some
  | .sext w, [_] => ((Range.setSigned nd Range.full (-2 ^ (w - 1)) (2 ^ (w - 1) - 1)).bind (Range.sync nd)).map some
  | .zext w, [_] => ((Range.setUnsigned nd Range.full 0 (2 ^ w - 1)).bind (Range.sync nd)).map some
  | _, _ => some none

/-- `update` (lines 180-201) -/
def updRange (R : Ranges) (x : Nat) (t : IRange) : Option Ranges :=
  (Range.intersectSet nd (R x) t).map (fun r => fun y => if y = x then r else R y)

/-- `user == operand` for some user of the phi (lines 455-461) -/
def isUserOf {Op C : Type} (F : Func Op C) (x : Nat) : Opd C → Bool
  | .cst _ => false
  | .inst y => F.order.any (fun b => match F.blk b with
    | some B => B.body.any (fun j => j.id == y && j.args.any (fun a => match a with | .inst z => z == x | .cst _ => false)) ||
        B.phis.any (fun q => q.id == y && q.inc.any (fun e => match e.2 with | .inst z => z == x | .cst _ => false))
    | none => false)

/-- `add(exactly(phi), int_(inc))` (line 484); addition is matched in both orders -/
def RangeOps.incOf (x : Nat) (j : Inst L.Op L.C) : Option Int :=
  match O.kind j.op, j.args with
  | .bin .add, [.inst y, .cst c] => if y = x then O.num c else none
  | .bin .add, [.cst c, .inst y] => if y = x then O.num c else none
  | _, _ => none

/-- `(z & -z) - 1`: ones below the lowest one of `z` (lines 485-487) -/
def belowLow (z : BitVec 32) : BitVec 32 := (z &&& -z) - 1#32

/-- the low bits that are known to be zero in all the values of a phi that is incremented by a constant (lines 448-496): `none`: an
assertion fails; `some none`: the rule does not apply -/
def RangeOps.addRec (g : Opd L.C → IRange) (p : Phi L.C) : Option (Option IRange) :=
  let users := (O.ops p).filter (isUserOf F p.id)
  let others := (O.ops p).filter (fun o => !isUserOf F p.id o)
  match unionRanges nd g others none with
  | none => none
  | some none => some none
  | some (some r) =>
    match users with
    | [.inst y] =>
      match F.inst? y with
      | none => some none
      | some j =>
        match O.incOf p.id j with
        | none => some none
        | some inc =>
          let common := belowLow (BitVec.ofInt 32 inc) &&& belowLow (~~~r.zeros)
          if common = 0#32 then some none
          else ((Range.setKnownBits nd Range.full common 0#32).bind (Range.sync nd)).map some
    | _ => some none

/-- the two operations that are wrong on some ranges are not visited with these (`C06_sdiv_full_false`, `C07_abs_assert_fails`). Functions
without divisions by negative numbers and without `abs` have only such visits. -/
def RangeOps.Safe (g : Opd L.C → IRange) (i : Inst L.Op L.C) : Prop :=
  match O.kind i.op, i.args with
  | .bin .sdiv, [x, y] => Range.SDivSafe (g x) (g y)
  | .abs, [x] => (g x).smin ≠ -2147483648 ∨ (g x).smax < 0
  | _, _ => True

/-- one visit of an instruction, of a phi (lines 434-447), or of a phi for its increment -/
inductive RVisit : Ranges → Ranges → Prop
  | inst {R R' : Ranges} {b : Nat} {B : L.B} {i : Inst L.Op L.C} {t : IRange} : F.blk b = some B → i ∈ B.body → O.Safe (O.get R) i →
      O.transfer nd (O.get R) i = some (some t) → updRange nd R i.id t = some R' → RVisit R R'
  | phi {R R' : Ranges} {b : Nat} {B : L.B} {p : Phi L.C} {t : IRange} : F.blk b = some B → p ∈ B.phis →
      unionRanges nd (O.get R) (O.ops p) none = some (some t) → updRange nd R p.id t = some R' → RVisit R R'
  | incr {R R' : Ranges} {b : Nat} {B : L.B} {p : Phi L.C} {t : IRange} : F.blk b = some B → p ∈ B.phis →
      O.addRec nd F (O.get R) p = some (some t) → updRange nd R p.id t = some R' → RVisit R R'

/-- no stored range is contradictory. (Ranges of code that is never executed could become contradictory, and `sync` of a contradictory range
may answer anything: a phi would mix this with the ranges of executed code.) -/
def Fine (R : Ranges) : Prop := ∀ x, Range.WF (R x) ∧ ∃ v, Range.Mem v (R x)

/-- the same of what is read -/
def FineG (g : Opd L.C → IRange) : Prop := ∀ o, Range.WF (g o) ∧ ∃ v, Range.Mem v (g o)

/-- the results of the analysis -/
inductive RAnalysis : Ranges → Prop
  | start : RAnalysis (fun _ => Range.full)
  | visit {R R' : Ranges} : RAnalysis R → RVisit O nd F R R' → Fine R' → RAnalysis R'

/-! ## specification -/

/-- the registers hold members of the ranges -/
def EnvIn (R : Ranges) (env : Env L) : Prop := ∀ x v a, env x = some v → O.i32 v = some a → Range.Mem a (R x)

end

/-- every name is defined by one instruction or phi -/
structure OneDef {Op C : Type} (F : Func Op C) : Prop where
  inst : ∀ {b e : Nat} {B E : Block Op C} {i j : Inst Op C}, F.blk b = some B → F.blk e = some E → i ∈ B.body → j ∈ E.body → i.id = j.id → i = j
  phi : ∀ {b e : Nat} {B E : Block Op C} {p q : Phi C}, F.blk b = some B → F.blk e = some E → p ∈ B.phis → q ∈ E.phis → p.id = q.id → p = q
  both : ∀ {b e : Nat} {B E : Block Op C} {p : Phi C} {i : Inst Op C}, F.blk b = some B → F.blk e = some E → p ∈ B.phis → i ∈ E.body → p.id ≠ i.id

section
variable {L : Lang} {F : L.F}

/-- a property of the registers that every phi entry and every instruction of the function keeps -/
structure Kept (F : L.F) (I : Env L → Prop) : Prop where
  init : I (fun _ => none)
  phis : ∀ {b : Nat} {B : L.B} {q : Option Nat} {env env' : Env L}, F.blk b = some B → I env → enterPhis L q env B.phis env = some env' → I env'
  body : ∀ {b : Nat} {B : L.B} {i : Inst L.Op L.C} {vs : List L.V} {m m' : L.M} {v : L.V} {es : List L.E} {env : Env L}, F.blk b = some B →
    i ∈ B.body → I env → evals L env i.args = some vs → L.sem i.op vs m = .ok v m' es → I (setEnv L env i.id v)

theorem Kept.exec {I : Env L → Prop} (K : Kept F I) {b : Nat} {B : L.B} (hB : F.blk b = some B) : ∀ {is : List (Inst L.Op L.C)}, (∀ i ∈ is, i ∈ B.body) →
    ∀ {env env' : Env L} {m m' : L.M} {es es' : List L.E}, I env → execBody L is env m es = .ok env' m' es' → I env' := by
  intro is
  induction is with
  | nil => intro _ env env' m m' es es' hI h; simp only [execBody, BodyRes.ok.injEq] at h; rw [← h.1]; exact hI
  | cons i is ih =>
    intro hm env env' m m' es es' hI h
    simp only [execBody] at h
    split at h
    · simp at h
    · rename_i vs hvs
      split at h
      · rename_i v m1 es1 hs
        exact ih (fun j hj => hm j (List.mem_cons_of_mem _ hj)) (K.body hB (hm i List.mem_cons_self) hI hvs hs) h
      · simp at h
      · simp at h

theorem Kept.step {I : Env L → Prop} (K : Kept F I) {s s' : St L} (hI : I s.env) (h : SSA.step L F s = .inl s') : I s'.env := by
  unfold SSA.step at h
  split at h
  · simp at h
  · rename_i B hB
    unfold stepBlk at h
    split at h
    · simp at h
    · rename_i env1 he
      split at h
      · simp at h
      · simp at h
      · rename_i env2 m2 es2 hx
        have h1 := K.phis hB hI he
        have h2 := K.exec hB (fun _ hi => hi) h1 hx
        split at h
        · simp at h
        · simp at h
        · simp only [Sum.inl.injEq] at h; rw [← h]; exact h2

theorem Kept.run {I : Env L → Prop} (K : Kept F I) : ∀ {n : Nat} {s s' : St L}, I s.env → SSA.run L F n s = .inl s' → I s'.env := by
  intro n
  induction n with
  | zero => intro s s' hI h; simp only [SSA.run, Sum.inl.injEq] at h; rw [← h]; exact hI
  | succ n ih =>
    intro s s' hI h
    simp only [SSA.run] at h
    split at h
    · rename_i t ht; exact ih (K.step hI ht) h
    · simp at h

/-- the register of a phi after the phis: an incoming value; other registers are kept -/
theorem enterPhis_cases {q : Option Nat} {old : Env L} : ∀ {ps : List (Phi L.C)} {env env' : Env L}, enterPhis L q old ps env = some env' → ∀ x,
    (∃ p ∈ ps, p.id = x ∧ ∃ b o, q = some b ∧ p.at b = some o ∧ env' x = eval L old o) ∨ ((∀ p ∈ ps, p.id ≠ x) ∧ env' x = env x) := by
  intro ps
  induction ps with
  | nil => intro env env' h x; simp only [enterPhis, Option.some.injEq] at h; exact Or.inr ⟨fun _ hp => by simp at hp, by rw [← h]⟩
  | cons p ps ih =>
    intro env env' h x
    simp only [enterPhis] at h
    split at h
    · simp at h
    · rename_i v hv
      rcases ih h x with ⟨p', hp', h1⟩ | ⟨h1, h2⟩
      · exact Or.inl ⟨p', List.mem_cons_of_mem _ hp', h1⟩
      · by_cases hx : p.id = x
        · refine Or.inl ⟨p, List.mem_cons_self, hx, ?_⟩
          unfold phiVal at hv
          split at hv
          · simp at hv
          · rename_i b
            split at hv
            · simp at hv
            · rename_i o ho
              refine ⟨b, o, rfl, ho, ?_⟩
              rw [h2, hv, ← hx]; simp [setEnv]
        · refine Or.inr ⟨fun r hr => ?_, ?_⟩
          · rcases List.mem_cons.1 hr with rfl | hr
            · exact hx
            · exact h1 r hr
          · rw [h2]; simp only [setEnv]; rw [if_neg (fun he => hx he.symm)]

/-! ## soundness of the rules -/

/-- what is known of single registers -/
def Holds (O : RangeOps L) (P : Nat → BitVec 32 → Prop) (env : Env L) : Prop := ∀ x v a, env x = some v → O.i32 v = some a → P x a

/-- facts about registers can be added to an invariant when every definition establishes them, given the invariant and the facts -/
theorem Kept.add {O : RangeOps L} {I : Env L → Prop} (K : Kept F I) {P : Nat → BitVec 32 → Prop}
    (hp : ∀ {b : Nat} {B : L.B} {p : Phi L.C} {q : Nat} {o : Opd L.C} {env : Env L} {v : L.V} {a : BitVec 32}, F.blk b = some B → p ∈ B.phis →
      (q, o) ∈ p.inc → I env → Holds O P env → eval L env o = some v → O.i32 v = some a → P p.id a)
    (hi : ∀ {b : Nat} {B : L.B} {i : Inst L.Op L.C} {vs : List L.V} {m m' : L.M} {v : L.V} {es : List L.E} {env : Env L} {a : BitVec 32},
      F.blk b = some B → i ∈ B.body → I env → Holds O P env → evals L env i.args = some vs → L.sem i.op vs m = .ok v m' es →
      O.i32 v = some a → P i.id a) :
    Kept F (fun env => I env ∧ Holds O P env) where
  init := ⟨K.init, fun x v a h _ => by simp at h⟩
  phis := by
    intro b B q env env' hB hI h
    refine ⟨K.phis hB hI.1 h, fun x v a hx ha => ?_⟩
    rcases enterPhis_cases h x with ⟨p, hp', rfl, q', o, _, ho, he⟩ | ⟨_, he⟩
    · rw [hx] at he
      exact hp hB hp' (Phi.at_mem ho) hI.1 hI.2 he.symm ha
    · rw [hx] at he; exact hI.2 x v a he.symm ha
  body := by
    intro b B i vs m m' v es env hB hi' hI he hs
    refine ⟨K.body hB hi' hI.1 he hs, fun x w a hx ha => ?_⟩
    unfold setEnv at hx
    split at hx
    · rename_i hxi
      simp only [Option.some.injEq] at hx
      subst hx; subst hxi
      exact hi hB hi' hI.1 hI.2 he hs ha
    · exact hI.2 x w a hx ha

variable {O : RangeOps L} {nd : Bool}

theorem get_wf {R : Ranges} (h : Fine R) (o : Opd L.C) : Range.WF (O.get R o) := by
  cases o with
  | inst x => exact (h x).1
  | cst c =>
    show Range.WF (match O.num c with | some z => Range.ofConst z | none => Range.full)
    cases O.num c with
    | some z => exact Range.ofConst_wf _
    | none => exact Range.wf_full

theorem get_ne {R : Ranges} (h : Fine R) (o : Opd L.C) : ∃ v, Range.Mem v (O.get R o) := by
  cases o with
  | inst x => exact (h x).2
  | cst c =>
    show ∃ v, Range.Mem v (match O.num c with | some z => Range.ofConst z | none => Range.full)
    cases O.num c with
    | some z => exact ⟨_, (Range.ofConst_mem _ _).2 rfl⟩
    | none => exact ⟨0#32, Range.mem_full _⟩

/-- the value of an operand is in its range -/
theorem get_mem (W : RangeLaws O) {R : Ranges} {env : Env L} (h : EnvIn O R env) {o : Opd L.C} {v : L.V} {a : BitVec 32}
    (he : eval L env o = some v) (ha : O.i32 v = some a) : Range.Mem a (O.get R o) := by
  cases o with
  | inst x => exact h x v a he ha
  | cst c =>
    show Range.Mem a (match O.num c with | some z => Range.ofConst z | none => Range.full)
    simp only [eval, Option.some.injEq] at he
    subst he
    cases hz : O.num c with
    | some z =>
      rw [W.num hz] at ha
      exact (Range.ofConst_mem _ _).2 (by simpa using ha.symm)
    | none => exact Range.mem_full _

theorem get_fine {R : Ranges} (h : Fine R) : FineG (O.get R) := fun o => ⟨get_wf h o, get_ne h o⟩

theorem RBin.sound {k : RBin} {A B : IRange} (wA : Range.WF A) (wB : Range.WF B) {a b : BitVec 32} (ma : Range.Mem a A) (mb : Range.Mem b B)
    (d : k.Dom a b) (hs : k = .sdiv → Range.SDivSafe A B) : ∃ r, k.range nd A B = some r ∧ Range.WF r ∧ Range.Mem (k.val a b) r := by
  cases k with
  | add => exact Range.add_sound nd wA wB ma mb
  | sub => exact Range.sub_sound nd wA wB ma mb
  | mul => exact Range.mul_sound nd ma mb
  | sdiv => exact Range.sdiv_sound nd wA wB ma mb d (hs rfl)
  | udiv => exact Range.udiv_sound nd wA ma mb d
  | srem => exact Range.srem_sound nd wA wB ma mb d
  | urem => exact Range.urem_sound nd (a := A) wB mb d
  | and => exact Range.and_sound nd ma mb
  | or => exact Range.or_sound nd ma mb
  | xor => exact Range.xor_sound nd ma mb
  | shl => exact Range.shl_sound nd ma mb d
  | lshr => exact Range.lshr_sound nd ma mb d
  | ashr => exact Range.ashr_sound nd ma mb d
  | smax =>
    obtain ⟨r, h1, h2, h3⟩ := Range.C07_max_min_neg_sound.1 nd A B wA wB ⟨a, b, ma, mb, trivial⟩
    exact ⟨r, h1, h2, h3 a b ma mb trivial⟩
  | smin =>
    obtain ⟨r, h1, h2, h3⟩ := Range.C07_max_min_neg_sound.2.1 nd A B wA wB ⟨a, b, ma, mb, trivial⟩
    have h4 := h3 a b ma mb trivial
    refine ⟨r, h1, h2, ?_⟩
    exact h4

theorem unionRanges_some {g : Opd L.C → IRange} (hR : FineG g) : ∀ {os : List (Opd L.C)} {r t : IRange}, Range.WF r → (∃ v, Range.Mem v r) →
    unionRanges nd g os (some r) = some (some t) → Range.WF t ∧ (∀ a, Range.Mem a r → Range.Mem a t) ∧
      ∀ o ∈ os, ∀ a, Range.Mem a (g o) → Range.Mem a t := by
  intro os
  induction os with
  | nil =>
    intro r t w _ h
    simp only [unionRanges, Option.some.injEq] at h
    subst h
    exact ⟨w, fun _ h => h, fun _ h => by simp at h⟩
  | cons o os ih =>
    intro r t w ne h
    obtain ⟨r', e, w', hm⟩ := Range.unionSet_sound nd w (hR o).1 (.inl ne)
    unfold unionRanges at h
    rw [e] at h
    dsimp only at h
    obtain ⟨h1, h2, h3⟩ := ih w' (ne.imp fun v hv => hm v (.inl hv)) h
    refine ⟨h1, fun a ha => h2 a (hm a (.inl ha)), fun o' ho' a ha => ?_⟩
    rcases List.mem_cons.1 ho' with rfl | ho'
    · exact h2 a (hm a (.inr ha))
    · exact h3 o' ho' a ha

theorem unionRanges_none {g : Opd L.C → IRange} (hR : FineG g) {os : List (Opd L.C)} {t : IRange} (h : unionRanges nd g os none = some (some t)) :
    Range.WF t ∧ ∀ o ∈ os, ∀ a, Range.Mem a (g o) → Range.Mem a t := by
  cases os with
  | nil => simp [unionRanges] at h
  | cons o os =>
    simp only [unionRanges] at h
    obtain ⟨h1, h2, h3⟩ := unionRanges_some hR (hR o).1 (hR o).2 h
    refine ⟨h1, fun o' ho' a ha => ?_⟩
    rcases List.mem_cons.1 ho' with rfl | ho'
    · exact h2 a ha
    · exact h3 o' ho' a ha

theorem signExtend_bounds {w : Nat} (h0 : 0 < w) (h : w ≤ 32) (a : BitVec w) :
    -2 ^ (w - 1) ≤ (a.signExtend 32).toInt ∧ (a.signExtend 32).toInt ≤ 2 ^ (w - 1) - 1 := by
  rw [BitVec.toInt_signExtend_of_le h]
  have h1 := BitVec.le_two_mul_toInt (x := a)
  have h2 := BitVec.two_mul_toInt_lt (x := a)
  obtain ⟨k, rfl⟩ : ∃ k, w = k + 1 := ⟨w - 1, by omega⟩
  simp only [Nat.add_sub_cancel]
  rw [Int.pow_succ] at h1 h2
  omega

theorem setWidth_bounds {w : Nat} (h : w ≤ 32) (a : BitVec w) : (a.setWidth 32).toNat ≤ 2 ^ w - 1 := by
  rw [BitVec.toNat_setWidth_of_le h]
  have := a.isLt
  omega

/-- the rules for instructions are sound for one execution -/
theorem transfer_sound (W : RangeLaws O) {g : Opd L.C → IRange} (hR : FineG g) {env : Env L}
    (hE : ∀ {o : Opd L.C} {v : L.V} {a : BitVec 32}, eval L env o = some v → O.i32 v = some a → Range.Mem a (g o)) {i : Inst L.Op L.C} (hs : O.Safe g i)
    {t : IRange} (ht : O.transfer nd g i = some (some t)) {vs : List L.V} {m m' : L.M} {v : L.V} {es : List L.E} {r : BitVec 32}
    (he : evals L env i.args = some vs) (hx : L.sem i.op vs m = .ok v m' es) (hr : O.i32 v = some r) : Range.WF t ∧ Range.Mem r t := by
  unfold RangeOps.transfer at ht
  unfold RangeOps.Safe at hs
  split at ht
  · -- binary
    rename_i k x y hk hargs
    rw [Option.map_eq_some_iff] at ht
    obtain ⟨t', ht, hte⟩ := ht
    cases hte
    rw [hargs] at he hs
    obtain ⟨a, b, p, q, rfl, hp, hq, d, rfl⟩ := W.bin hk hx hr
    simp only [evals] at he
    split at he
    · rename_i v1 vs1 e1 e2
      split at e2
      · rename_i v2 vs2 e3 e4
        simp only [Option.some.injEq] at e2 he e4
        subst e4; subst e2
        simp only [List.cons.injEq, and_true] at he
        obtain ⟨rfl, rfl⟩ := he
        obtain ⟨r', h1, h2, h3⟩ := RBin.sound (nd := nd) (hR x).1 (hR y).1 (hE e1 hp) (hE e3 hq) d
          (fun e => by subst e; rw [hk] at hs; exact hs)
        rw [ht] at h1; cases h1
        exact ⟨h2, h3⟩
      · simp at e2
    · simp at he
  · -- neg
    rename_i x hk hargs
    rw [Option.map_eq_some_iff] at ht
    obtain ⟨t', ht, hte⟩ := ht
    cases hte
    rw [hargs] at he
    obtain ⟨a, p, rfl, hp, rfl⟩ := W.neg hk hx hr
    simp only [evals] at he
    split at he
    · rename_i v1 vs1 e1 e2
      simp only [Option.some.injEq] at e2 he
      subst e2
      simp only [List.cons.injEq, and_true] at he
      subst he
      obtain ⟨r', h1, h2, h3⟩ := Range.neg_sound nd (hR x).1 (hE e1 hp)
      rw [ht] at h1; cases h1
      exact ⟨h2, h3⟩
    · simp at he
  · -- abs
    rename_i x hk hargs
    rw [Option.map_eq_some_iff] at ht
    obtain ⟨t', ht, hte⟩ := ht
    cases hte
    rw [hargs] at he hs
    rw [hk] at hs
    obtain ⟨a, p, rfl, hp, hne, rfl⟩ := W.abs hk hx hr
    simp only [evals] at he
    split at he
    · rename_i v1 vs1 e1 e2
      simp only [Option.some.injEq] at e2 he
      subst e2
      simp only [List.cons.injEq, and_true] at he
      subst he
      obtain ⟨r', h1, h2, h3⟩ := Range.abs_sound nd (hR x).1 hs (hE e1 hp) (Range.absVal_toInt hne)
      rw [ht] at h1; cases h1
      exact ⟨h2, h3⟩
    · simp at he
  · -- select
    rename_i c x y hk hargs
    rw [Option.map_eq_some_iff] at ht
    obtain ⟨t', ht, hte⟩ := ht
    cases hte
    rw [hargs] at he
    obtain ⟨vc, vx, vy, rfl, hv⟩ := W.select hk hx hr
    have hxy : eval L env x = some vx ∧ eval L env y = some vy := by
      simp only [evals] at he
      split at he
      · rename_i v1 vs1 e1 e2
        split at e2
        · rename_i v2 vs2 e3 e4
          split at e4
          · rename_i v3 vs3 e5 e6
            simp only [Option.some.injEq] at e2 he e4 e6
            subst e6; subst e4; subst e2
            simp only [List.cons.injEq, and_true] at he
            exact ⟨by rw [e3, he.2.1], by rw [e5, he.2.2]⟩
          · simp at e4
        · simp at e2
      · simp at he
    have hm : Range.Mem r (g x) ∨ Range.Mem r (g y) := by
      rcases hv with rfl | rfl
      · exact .inl (hE hxy.1 hr)
      · exact .inr (hE hxy.2 hr)
    obtain ⟨r', h1, h2, h3⟩ := Range.unionSet_sound nd (hR x).1 (hR y).1 (hm.imp (fun h => ⟨r, h⟩) (fun h => ⟨r, h⟩))
    rw [ht] at h1; cases h1
    exact ⟨h2, h3 r hm⟩
  · -- sext
    rename_i w x hk hargs
    rw [Option.map_eq_some_iff] at ht
    obtain ⟨t', ht, hte⟩ := ht
    cases hte
    obtain ⟨h0, hw, a, rfl⟩ := W.sext hk hx hr
    obtain ⟨b1, b2⟩ := signExtend_bounds h0 hw a
    have h31 : (2 : Int) ^ (w - 1) ≤ 2147483648 := by
      have h := Nat.pow_le_pow_right (n := 2) (by decide) (show w - 1 ≤ 31 by omega)
      exact_mod_cast h
    obtain ⟨r', h1, h2, h3⟩ := Range.signed_sound nd (mn := -2 ^ (w - 1)) (mx := 2 ^ (w - 1) - 1) (by simp only [Range.i32min]; omega)
      (by simp only [Range.i32max]; omega) b1 b2
    rw [show (do let r ← Range.setSigned nd Range.full (-2 ^ (w - 1)) (2 ^ (w - 1) - 1); Range.sync nd r) = some t from ht] at h1
    cases h1
    exact ⟨h2, h3⟩
  · -- zext
    rename_i w x hk hargs
    rw [Option.map_eq_some_iff] at ht
    obtain ⟨t', ht, hte⟩ := ht
    cases hte
    obtain ⟨hw, a, rfl⟩ := W.zext hk hx hr
    have b2 := setWidth_bounds hw a
    have h32 : (2 : Nat) ^ w ≤ 4294967296 := Nat.pow_le_pow_right (n := 2) (by decide) hw
    obtain ⟨r', h1, h2, h3⟩ := Range.unsigned_sound nd (mn := 0) (mx := 2 ^ w - 1) (by simp only [Range.u32max]; omega) (Nat.zero_le _) b2
    rw [show (do let r ← Range.setUnsigned nd Range.full 0 (2 ^ w - 1); Range.sync nd r) = some t from ht] at h1
    cases h1
    exact ⟨h2, h3⟩
  · simp at ht

/-! ## the low bits of a phi -/

/-- the ones of `belowLow z` are below the lowest one of `z` -/
theorem belowLow_spec {z : BitVec 32} {i : Nat} (h : (belowLow z).getLsbD i = true) : i < 32 ∧ ∀ j, j ≤ i → z.getLsbD j = false := by
  have hi : i < 32 := by
    by_contra hn
    rw [BitVec.getLsbD_of_ge _ _ (by omega)] at h; simp at h
  refine ⟨hi, ?_⟩
  cases hk : Range.ctz z with
  | none =>
    intro j hj
    unfold Range.ctz at hk
    rw [List.find?_eq_none] at hk
    simpa using hk j (by simp; omega)
  | some k =>
    obtain ⟨h1, h2, h3⟩ := Range.ctz_spec hk
    have e : z &&& -z = 1#32 <<< k := by
      apply BitVec.eq_of_getLsbD_eq
      intro n hn
      rw [BitVec.getLsbD_and, BitVec.getLsbD_neg, BitVec.getLsbD_shiftLeft, BitVec.getLsbD_one]
      by_cases hnk : n = k
      · subst hnk
        have : ¬ ∃ j < n, z.getLsbD j = true := by rintro ⟨j, hj, hz⟩; rw [h3 j hj] at hz; simp at hz
        simp [hn, h2, this]
      · by_cases hlt : n < k
        · rw [h3 n hlt]; simp [hlt]
        · have : ∃ j < n, z.getLsbD j = true := ⟨k, by omega, h2⟩
          have h4 : n - k ≠ 0 := by omega
          simp [hn, hlt, this, h4]
    unfold belowLow at h
    rw [e] at h
    have h' : (Range.loMask k).getLsbD i = true := h
    have : i < k := by
      rw [Range.loMask_getLsbD k i h1] at h'
      simp at h'; omega
    intro j hj
    exact h3 j (by omega)

/-- sums of numbers with zero low bits -/
theorem low_add {a b : BitVec 32} {i : Nat} (hi : i < 32) (ha : ∀ j, j ≤ i → a.getLsbD j = false) (hb : ∀ j, j ≤ i → b.getLsbD j = false) :
    ∀ j, j ≤ i → (a + b).getLsbD j = false := by
  have h1 := Range.low_zero.mp (fun j (hj : j < i + 1) => ha j (by omega))
  have h2 := Range.low_zero.mp (fun j (hj : j < i + 1) => hb j (by omega))
  have h3 : (a + b).toNat % 2 ^ (i + 1) = 0 := by
    rw [BitVec.toNat_add, show (2 : Nat) ^ 32 = 4294967296 from rfl, Range.mod32_mod (by omega), Nat.add_mod, h1, h2]; simp
  intro j hj
  exact Range.low_zero.mpr h3 j (by omega)


/-- the ranges hold in all executions, with the help of an invariant -/
def Certified (O : RangeOps L) (F : L.F) (R : Ranges) : Prop := ∃ I : Env L → Prop, Kept F I ∧ ∀ env, I env → EnvIn O R env

theorem updRange_mem {R R' : Ranges} (hR : Fine R) {x : Nat} {t : IRange} (hu : updRange nd R x t = some R') {env : Env L} (hE : EnvIn O R env)
    (hx : ∀ v a, env x = some v → O.i32 v = some a → Range.WF t ∧ Range.Mem a t) : EnvIn O R' env := by
  unfold updRange at hu
  rw [Option.map_eq_some_iff] at hu
  obtain ⟨r, hr, rfl⟩ := hu
  intro y v a hy ha
  dsimp only
  split
  · rename_i h
    subst h
    obtain ⟨h1, h2⟩ := hx v a hy ha
    obtain ⟨r', e, _, hm⟩ := Range.intersectSet_exact nd (hR y).1 h1 ⟨a, hE y v a hy ha, h2⟩
    rw [hr] at e; cases e
    exact (hm a).2 ⟨hE y v a hy ha, h2⟩
  · exact hE y v a hy ha

theorem ops_cover (W : RangeLaws O) {p : Phi L.C} {q : Nat} {o : Opd L.C} (h : (q, o) ∈ p.inc) {env : Env L} {v : L.V} {a : BitVec 32}
    (he : eval L env o = some v) (ha : O.i32 v = some a) : o ∈ O.ops p := by
  unfold RangeOps.ops
  rw [List.mem_filter]
  refine ⟨List.mem_map.2 ⟨(q, o), h, rfl⟩, ?_⟩
  cases o with
  | inst x => rfl
  | cst c =>
    show (!O.undef c) = true
    cases hu : O.undef c with
    | false => rfl
    | true =>
      simp only [eval, Option.some.injEq] at he
      subst he
      rw [W.undef hu] at ha; simp at ha

theorem Certified.visit (W : RangeLaws O) (U : OneDef F) {R R' : Ranges} (hR : Fine R) (hC : Certified O F R) (h : RVisit O nd F R R') :
    Certified O F R' := by
  obtain ⟨I, K, hI⟩ := hC
  cases h with
  | @inst b B i t hB hi hs ht hu =>
    have K' := K.add (O := O) (P := fun x a => x = i.id → Range.WF t ∧ Range.Mem a t)
      (by
        intro b' B' p q o env v a hB' hp _ _ _ _ _ e
        exact absurd e (U.both hB' hB hp hi))
      (by
        intro b' B' j vs m m' v es env a hB' hj hIe _ he hx ha e
        have := U.inst hB' hB hj hi e
        subst this
        exact transfer_sound W (get_fine hR) (get_mem W (hI env hIe)) hs ht he hx ha)
    exact ⟨_, K', fun env hh => updRange_mem hR hu (hI env hh.1) (fun v a hx ha => hh.2 _ v a hx ha rfl)⟩
  | @phi b B p t hB hp ht hu =>
    obtain ⟨w, hm⟩ := unionRanges_none (get_fine hR) ht
    have K' := K.add (O := O) (P := fun x a => x = p.id → Range.WF t ∧ Range.Mem a t)
      (by
        intro b' B' p' q o env v a hB' hp' ho hIe _ he ha e
        have := U.phi hB' hB hp' hp e
        subst this
        exact ⟨w, hm o (ops_cover W ho he ha) a (get_mem W (hI env hIe) he ha)⟩)
      (by
        intro b' B' j vs m m' v es env a hB' hj _ _ _ _ _ e
        exact absurd e.symm (U.both hB hB' hp hj))
    exact ⟨_, K', fun env hh => updRange_mem hR hu (hI env hh.1) (fun v a hx ha => hh.2 _ v a hx ha rfl)⟩
  | @incr b B p t hB hp ht hu =>
    unfold RangeOps.addRec at ht
    dsimp only at ht
    split at ht
    · simp at ht
    · simp at ht
    · rename_i r hr
      split at ht
      · rename_i y hus
        split at ht
        · simp at ht
        · rename_i j hj
          split at ht
          · simp at ht
          · rename_i inc hinc
            split at ht
            · simp at ht
            · rename_i hc
              obtain ⟨w, hm⟩ := unionRanges_none (get_fine hR) hr
              obtain ⟨d, D, hD, hjD, hjid⟩ := inst?_spec hj
              generalize hcm : belowLow (BitVec.ofInt 32 inc) &&& belowLow (~~~r.zeros) = cm at ht hc
              have hcm1 : ∀ {n}, cm.getLsbD n = true → n < 32 ∧ (∀ k, k ≤ n → (BitVec.ofInt 32 inc).getLsbD k = false) ∧
                  ∀ k, k ≤ n → r.zeros.getLsbD k = true := by
                intro n hn
                rw [← hcm, BitVec.getLsbD_and, Bool.and_eq_true] at hn
                obtain ⟨h1, h2⟩ := belowLow_spec hn.1
                obtain ⟨_, h3⟩ := belowLow_spec hn.2
                refine ⟨h1, h2, fun k hk => ?_⟩
                have := h3 k hk
                rw [BitVec.getLsbD_not, decide_eq_true (by omega : k < 32), Bool.true_and] at this
                simpa using this
              have K' := K.add (O := O) (P := fun x a => (x = p.id ∨ x = y) → ∀ n, cm.getLsbD n = true → ∀ k, k ≤ n → a.getLsbD k = false)
                (by
                  intro b' B' p' q o env v a hB' hp' ho hIe hH he ha e n hn k hk
                  rcases e with e | e
                  · have := U.phi hB' hB hp' hp e
                    subst this
                    have ho' := ops_cover W ho he ha
                    by_cases hu' : isUserOf F p'.id o = true
                    · have h1 : o ∈ (O.ops p').filter (isUserOf F p'.id) := List.mem_filter.2 ⟨ho', hu'⟩
                      rw [hus, List.mem_singleton] at h1
                      subst h1
                      exact hH y v a he ha (.inr rfl) n hn k hk
                    · have h1 : o ∈ (O.ops p').filter (fun o => !isUserOf F p'.id o) := List.mem_filter.2 ⟨ho', by simpa using hu'⟩
                      exact (hm o h1 a (get_mem W (hI env hIe) he ha)).z k ((hcm1 hn).2.2 k hk)
                  · exact absurd (e.trans hjid.symm) (U.both hB' hD hp' hjD))
                (by
                  intro b' B' i vs m m' v es env a hB' hi hIe hH he hx ha e n hn k hk
                  rcases e with e | e
                  · exact absurd e.symm (U.both hB hB' hp hi)
                  · have := U.inst hB' hD hi hjD (e.trans hjid.symm)
                    subst this
                    obtain ⟨hn32, hz1, _⟩ := hcm1 hn
                    unfold RangeOps.incOf at hinc
                    split at hinc
                    · rename_i y' c hk' hargs
                      split at hinc
                      · rename_i hy'
                        subst hy'
                        obtain ⟨x1, x2, a1, a2, rfl, g1, g2, _, rfl⟩ := W.bin hk' hx ha
                        rw [hargs] at he
                        simp only [evals, eval] at he
                        split at he
                        · rename_i v1 vs1 e1 e2
                          simp only [Option.some.injEq] at e2 he
                          subst e2
                          simp only [List.cons.injEq, and_true] at he
                          obtain ⟨rfl, rfl⟩ := he
                          rw [W.num hinc, Option.some.injEq] at g2
                          subst g2
                          exact low_add hn32 (hH _ _ _ e1 g1 (.inl rfl) n hn) hz1 k hk
                        · simp at he
                      · simp at hinc
                    · rename_i c y' hk' hargs
                      split at hinc
                      · rename_i hy'
                        subst hy'
                        obtain ⟨x1, x2, a1, a2, rfl, g1, g2, _, rfl⟩ := W.bin hk' hx ha
                        rw [hargs] at he
                        simp only [evals, eval] at he
                        split at he
                        · rename_i v1 vs1 e1 e2
                          split at e2
                          · rename_i v2 vs2 e3 e4
                            simp only [Option.some.injEq] at e1 e2 he e4
                            subst e4; subst e2
                            simp only [List.cons.injEq, and_true] at he
                            obtain ⟨rfl, rfl⟩ := he
                            subst e1
                            rw [W.num hinc, Option.some.injEq] at g1
                            subst g1
                            exact low_add hn32 hz1 (hH _ _ _ e3 g2 (.inl rfl) n hn) k hk
                          · simp at e2
                        · simp at he
                      · simp at hinc
                    · simp at hinc)
              refine ⟨_, K', fun env hh => updRange_mem hR hu (hI env hh.1) (fun v a hx ha => ?_)⟩
              have hz : ∀ n, cm.getLsbD n = true → a.getLsbD n = false := fun n hn => hh.2 _ v a hx ha (.inl rfl) n hn n (Nat.le_refl n)
              rw [Option.map_eq_some_iff] at ht
              obtain ⟨t', ht, hte⟩ := ht
              cases hte
              have hbits := Range.bits_sound nd (z := cm) (o := 0#32) (v := a) hz (fun i h => by simp at h)
              obtain ⟨r', e1, e2, e3⟩ := hbits
              rw [show (do let r ← Range.setKnownBits nd Range.full cm 0#32; Range.sync nd r) = some t from ht] at e1
              cases e1
              exact ⟨e2, e3⟩
      · simp at ht

theorem fine_full : Fine (fun _ => Range.full) := fun _ => ⟨Range.wf_full, 0#32, Range.mem_full _⟩

theorem RAnalysis.fine {R : Ranges} (h : RAnalysis O nd F R) : Fine R := by
  cases h with
  | start => exact fine_full
  | visit _ _ h => exact h

theorem RAnalysis.certified (W : RangeLaws O) (U : OneDef F) {R : Ranges} (h : RAnalysis O nd F R) : Certified O F R := by
  induction h with
  | start =>
    exact ⟨fun _ => True, ⟨trivial, fun _ _ _ => trivial, fun _ _ _ _ _ => trivial⟩, fun _ _ _ _ _ _ _ => Range.mem_full _⟩
  | visit h hv _ ih => exact ih.visit W U h.fine hv

/-- C93 (partial: without facts from branches, calls and address computations, and for divisions and absolute values on safe ranges):
whatever order instructions are visited in and however often, in every run of the function every register that holds a 32-bit integer holds a
member of the range the analysis gives for it: at the entry of every block, and at every point inside a block. -/
theorem C93_rangeAnalysis_partial (W : RangeLaws O) (U : OneDef F) {R : Ranges} (h : RAnalysis O nd F R) :
    (∀ {n : Nat} {m : L.M} {s : St L}, SSA.run L F n (start L F m) = .inl s → EnvIn O R s.env) ∧
    (∀ {n : Nat} {m : L.M} {s : St L} {B : L.B} {env : Env L} {pre post : List (Inst L.Op L.C)} {env' : Env L} {m' : L.M} {es : List L.E},
      SSA.run L F n (start L F m) = .inl s → F.blk s.cur = some B → enterPhis L s.pred s.env B.phis s.env = some env →
      B.body = pre ++ post → execBody L pre env s.m s.tr = .ok env' m' es → EnvIn O R env') := by
  obtain ⟨I, K, hI⟩ := h.certified W U
  refine ⟨fun hr => hI _ (K.run K.init hr), fun hr hB hp hb hx => hI _ ?_⟩
  have h1 := K.phis hB (K.run K.init hr) hp
  exact K.exec hB (fun i hi => by rw [hb]; exact List.mem_append_left _ hi) h1 hx

end

/-- functions the verifier accepts (C38) define every name once -/
theorem Proper.oneDef {Op C : Type} {F : Func Op C} (P : Proper F) : OneDef F where
  inst := fun hb he hi hj h => (P.inst_unique hb he hi hj h).2
  phi := by
    intro b e B E p q hB hE hp hq h
    have h1 : DefIn F p.id b := ⟨B, hB, List.mem_append_left _ (List.mem_map.mpr ⟨p, hp, rfl⟩)⟩
    have h2 : DefIn F p.id e := h ▸ ⟨E, hE, List.mem_append_left _ (List.mem_map.mpr ⟨q, hq, rfl⟩)⟩
    have := P.home h1 h2
    subst this
    have := Option.some.inj (hB.symm.trans hE)
    subst this
    have hids := P.block_ids hB
    unfold Block.ids at hids
    rw [List.nodup_append] at hids
    exact List.inj_on_of_nodup_map hids.1 hp hq h
  both := by
    intro b e B E p i hB hE hp hi h
    have h1 : DefIn F p.id b := ⟨B, hB, List.mem_append_left _ (List.mem_map.mpr ⟨p, hp, rfl⟩)⟩
    have h2 : DefIn F p.id e := h ▸ ⟨E, hE, List.mem_append_right _ (List.mem_map.mpr ⟨i, hi, rfl⟩)⟩
    have := P.home h1 h2
    subst this
    have := Option.some.inj (hB.symm.trans hE)
    subst this
    have hids := P.block_ids hB
    unfold Block.ids at hids
    rw [List.nodup_append] at hids
    exact hids.2.2 _ (List.mem_map.mpr ⟨p, hp, rfl⟩) _ (List.mem_map.mpr ⟨i, hi, rfl⟩) h

/-- the rule for remainders that is not modelled (lines 386-389) is wrong: `x % y` is 0, so it may be known to be not negative, and `y` is
positive, but `x` is negative -/
theorem srem_context_bad : ∃ x y : BitVec 32, 0 < y.toInt ∧ 0 ≤ (BitVec.srem x y).toInt ∧ x.toInt < 0 := ⟨-4#32, 2#32, by decide⟩

end Cmmc.SSA
