import Verif.IR.CmpOps
/-!
# The pattern matchers of cmmc/Transforms/Util/PatternMatch.hpp

A matcher is modelled by the relation between a value and the values it captures when it succeeds. `exactly(v)` (same SSA value) is
equality of trees, `oneUse(m)` (lines 497-513) is `m` (it only restricts). The matchers do not backtrack, so a C++ match implies the
relation; the relation may hold in more cases, which only makes the theorems stronger.
-/
namespace Cmmc.IR

/-- matched with `BinaryOpMatcher<true>` (PatternMatch.hpp:210-282) -/
def BinOp.comm : BinOp → Bool
  | .add | .mul | .and | .or | .xor | .smin | .smax => true
  | _ => false

/-- `BinaryOpMatcher` (PatternMatch.hpp:186-205): both orders for the commutative operations -/
inductive MBin {w : Nat} (op : BinOp) : Expr w → Expr w → Expr w → Prop
  | fwd {a b} : MBin op (.bin op a b) a b
  | swp {a b} : op.comm = true → MBin op (.bin op b a) a b

/-- `CompareMatcher` (PatternMatch.hpp:305-328): the predicate is reversed when the operands are matched in the other order -/
inductive MCmp {w : Nat} : Expr 1 → Cmp → Expr w → Expr w → Prop
  | fwd {c a b} : MCmp (.icmp c a b) c a b
  | swp {c a b} : MCmp (.icmp c b a) c.rev a b

/-- `int_(i)` (PatternMatch.hpp:84-100): a constant whose `getSignExtended` is `i` -/
inductive MInt {w : Nat} : Expr w → Int → Prop
  | mk {c : BitVec w} : MInt (.const c) (sval c)

/-- `uint_(u)`: a constant whose `getZeroExtended` is `u` -/
inductive MUInt {w : Nat} : Expr w → Nat → Prop
  | mk {c : BitVec w} : MUInt (.const c) c.toNat

/-- `makeIntLike` (ArithmeticReduce.cpp:68): `ConstantInteger::get` keeps the low bits -/
def cst {w : Nat} (i : Int) : Expr w := .const (BitVec.ofInt w i)

/-- `not_(m)` (PatternMatch.hpp:289-291) -/
def MNot {w : Nat} (e a : Expr w) : Prop := ∃ m, MBin .xor e a m ∧ MInt m (-1)

/-- `makeNot` (ArithmeticReduce.cpp:69-73) -/
def mkNot {w : Nat} (e : Expr w) : Expr w := if w = 1 then .bin .xor e (cst 1) else .bin .xor e (cst (-1))

/-- `intLog2` (PatternMatch.hpp:477-495): `1 << k`, or a constant power of two (of the sign-extended value) -/
inductive MLog2 {w : Nat} : Expr w → Prop
  | shl {a k : Expr w} : MInt a 1 → MLog2 (.bin .shl a k)
  | pow {c : Expr w} {k : Nat} : MInt c (2 ^ k) → MLog2 c

/-! ## what a successful match says about values and definedness -/

variable {w : Nat} {ρ : Env} {nsw : Bool}

theorem binVal_comm {op : BinOp} (h : op.comm = true) (x y : BitVec w) : binVal op x y = binVal op y x := by
  cases op <;> simp only [BinOp.comm, Bool.false_eq_true] at h <;> simp only [binVal]
  · exact BitVec.add_comm _ _
  · exact BitVec.mul_comm _ _
  · exact BitVec.and_comm _ _
  · exact BitVec.or_comm _ _
  · exact BitVec.xor_comm _ _
  · split <;> split <;> first | rfl | (apply sval_inj.1; omega)
  · split <;> split <;> first | rfl | (apply sval_inj.1; omega)

theorem binDef_comm {op : BinOp} (h : op.comm = true) (x y : BitVec w) : binDef nsw op x y ↔ binDef nsw op y x := by
  cases op <;> simp only [BinOp.comm, Bool.false_eq_true] at h <;> simp only [binDef]
  · rw [Int.add_comm]
  · rw [Int.mul_comm]

theorem MBin.val {op : BinOp} {e a b : Expr w} (h : MBin op e a b) : val ρ e = binVal op (val ρ a) (val ρ b) := by
  cases h with
  | fwd => rfl
  | swp hc => exact binVal_comm hc _ _

theorem MBin.dfn {op : BinOp} {e a b : Expr w} (h : MBin op e a b) :
    Def nsw ρ e ↔ Def nsw ρ a ∧ Def nsw ρ b ∧ binDef nsw op (Cmmc.IR.val ρ a) (Cmmc.IR.val ρ b) := by
  cases h with
  | fwd => exact Iff.rfl
  | swp hc =>
    rw [binDef_comm hc]
    simp only [Def]
    constructor <;> rintro ⟨h1, h2, h3⟩ <;> exact ⟨h2, h1, h3⟩

theorem MCmp.val {c : Cmp} {e : Expr 1} {a b : Expr w} (h : MCmp e c a b) :
    val ρ e = BitVec.ofBool (cmpVal c (val ρ a) (val ρ b)) := by
  cases h with
  | fwd => rfl
  | @swp c =>
    simp only [Cmmc.IR.val]
    rw [(C36_icmp c _ _).1]

theorem MCmp.dfn {c : Cmp} {e : Expr 1} {a b : Expr w} (h : MCmp e c a b) : Def nsw ρ e ↔ Def nsw ρ a ∧ Def nsw ρ b := by
  cases h with
  | fwd => exact Iff.rfl
  | swp => simp only [Def]; exact and_comm

theorem MInt.val {e : Expr w} {i : Int} (h : MInt e i) : val ρ e = BitVec.ofInt w i := by
  cases h; simp only [Cmmc.IR.val, ofInt_sval]

theorem MInt.sval {e : Expr w} {i : Int} (h : MInt e i) : Cmmc.IR.sval (Cmmc.IR.val ρ e) = i := by
  cases h; rfl

theorem MInt.fits {e : Expr w} {i : Int} (h : MInt e i) : Fits w i := by
  cases h; exact sval_fits _

theorem MInt.dfn {e : Expr w} {i : Int} (h : MInt e i) : Def nsw ρ e ↔ True := by cases h; exact Iff.rfl

theorem MUInt.val {e : Expr w} {u : Nat} (h : MUInt e u) : val ρ e = BitVec.ofNat w u := by
  cases h; simp [Cmmc.IR.val]

theorem MUInt.toNat {e : Expr w} {u : Nat} (h : MUInt e u) : (Cmmc.IR.val ρ e).toNat = u := by cases h; rfl

theorem MUInt.dfn {e : Expr w} {u : Nat} (h : MUInt e u) : Def nsw ρ e ↔ True := by cases h; exact Iff.rfl

@[simp] theorem cst_val (i : Int) : val ρ (cst i : Expr w) = BitVec.ofInt w i := rfl
@[simp] theorem cst_dfn (i : Int) : Def nsw ρ (cst i : Expr w) ↔ True := Iff.rfl

theorem MNot.val {e a : Expr w} (h : MNot e a) : val ρ e = ~~~ (val ρ a) := by
  obtain ⟨m, h1, h2⟩ := h
  rw [h1.val, h2.val]
  simp only [binVal]
  rw [ofInt_neg_one, BitVec.xor_allOnes]

theorem MNot.dfn {e a : Expr w} (h : MNot e a) : Def nsw ρ e ↔ Def nsw ρ a := by
  obtain ⟨m, h1, h2⟩ := h
  rw [h1.dfn, h2.dfn]
  simp [binDef]

/-- `not_` never matches booleans: `getSignExtended` of a boolean is 0 or 1 -/
theorem MNot.wide {e a : Expr w} (h : MNot e a) : 1 < w := by
  obtain ⟨m, _, h2⟩ := h
  have := h2.fits
  unfold Fits lo at this
  by_contra hw
  rw [if_pos (by omega)] at this
  omega

@[simp] theorem mkNot_val (e : Expr w) : val ρ (mkNot e) = ~~~ (val ρ e) := by
  unfold mkNot
  split
  · rename_i h; subst h
    simp only [Cmmc.IR.val, binVal, cst]
    rcases bool_cases (Cmmc.IR.val ρ e) with h | h <;> rw [h] <;> decide
  · simp only [Cmmc.IR.val, binVal, cst]
    rw [ofInt_neg_one, BitVec.xor_allOnes]

@[simp] theorem mkNot_dfn (e : Expr w) : Def nsw ρ (mkNot e) ↔ Def nsw ρ e := by
  unfold mkNot
  split <;> simp [Def, binDef]

end Cmmc.IR
