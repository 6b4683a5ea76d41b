import Verif.IR.Expr
/-!
# `getReversedOp`, `getInvertedOp` (cmmc/IR/Instruction.hpp:453-560) and folding of floating-point comparisons
(cmmc/Transforms/Combine/ConstantPropagation.cpp:173-199): C36

Two floating-point numbers compare in exactly one of four ways (IEEE 754): less, equal, greater or unordered (a NaN is involved).
-/
namespace Cmmc.IR

/-- `getReversedOp`, integer part (Instruction.hpp:456-475) -/
def Cmp.rev : Cmp → Cmp
  | .eq => .eq | .ne => .ne
  | .slt => .sgt | .sle => .sge | .sgt => .slt | .sge => .sle
  | .ult => .ugt | .ule => .uge | .ugt => .ult | .uge => .ule

/-- `getInvertedOp`, integer part (Instruction.hpp:508-527) -/
def Cmp.inv : Cmp → Cmp
  | .eq => .ne | .ne => .eq
  | .slt => .sge | .sle => .sgt | .sgt => .sle | .sge => .slt
  | .ult => .uge | .ule => .ugt | .ugt => .ule | .uge => .ult

/-- outcome of comparing two floating-point numbers -/
inductive FRel
  | lt | eq | gt | un
deriving DecidableEq

/-- the outcome with the operands exchanged -/
def FRel.swap : FRel → FRel
  | .lt => .gt | .eq => .eq | .gt => .lt | .un => .un

/-- the floating-point part of `CompareOp` (Instruction.hpp:439-450) -/
inductive FCmp
  | oeq | one | olt | ole | ogt | oge | ueq | une | ult | ule | ugt | uge
deriving DecidableEq

/-- specification: an ordered comparison is false and an unordered one is true when a NaN is involved -/
def FCmp.holds : FCmp → FRel → Bool
  | .oeq, r => r == .eq
  | .one, r => r == .lt || r == .gt
  | .olt, r => r == .lt
  | .ole, r => r == .lt || r == .eq
  | .ogt, r => r == .gt
  | .oge, r => r == .gt || r == .eq
  | .ueq, r => r == .un || r == .eq
  | .une, r => r == .un || r == .lt || r == .gt
  | .ult, r => r == .un || r == .lt
  | .ule, r => r == .un || r == .lt || r == .eq
  | .ugt, r => r == .un || r == .gt
  | .uge, r => r == .un || r == .gt || r == .eq

/-- `getReversedOp`, floating-point part (Instruction.hpp:476-500) -/
def FCmp.rev : FCmp → FCmp
  | .oeq => .oeq | .one => .one | .olt => .ogt | .ole => .oge | .ogt => .olt | .oge => .ole
  | .ueq => .ueq | .une => .une | .ult => .ugt | .ule => .uge | .ugt => .ult | .uge => .ule

/-- `getInvertedOp`, floating-point part (Instruction.hpp:528-552) -/
def FCmp.inv : FCmp → FCmp
  | .oeq => .une | .one => .ueq | .olt => .uge | .ole => .ugt | .ogt => .ule | .oge => .ult
  | .ueq => .one | .une => .oeq | .ult => .oge | .ule => .ogt | .ugt => .ole | .uge => .olt

/-- the C++ comparison operators on `double` -/
def cLt (r : FRel) : Bool := r == .lt
def cLe (r : FRel) : Bool := r == .lt || r == .eq
def cGt (r : FRel) : Bool := r == .gt
def cGe (r : FRel) : Bool := r == .gt || r == .eq
def cEq (r : FRel) : Bool := r == .eq
def cNe (r : FRel) : Bool := !(r == .eq)

/-- `doCompareFP` (ConstantPropagation.cpp:173-199); `none`: `reportUnreachable` -/
def doCompareFP (c : FCmp) (r : FRel) : Option Bool :=
  match c with
  | .oeq => some (cEq r)
  | .olt => some (cLt r)
  | .ole => some (cLe r)
  | .ogt => some (cGt r)
  | .oge => some (cGe r)
  | .une => some (cNe r)
  | .ult => some (!cGe r)
  | .ule => some (!cGt r)
  | .ugt => some (!cLe r)
  | .uge => some (!cLt r)
  | .one | .ueq => none

/-- C36: exchanging the operands and reversing the predicate, or negating the result and inverting the predicate, never changes the
outcome of an integer comparison; both operations are involutions. -/
theorem C36_icmp (c : Cmp) {w : Nat} (x y : BitVec w) :
    cmpVal c.rev y x = cmpVal c x y ∧ cmpVal c.inv x y = !cmpVal c x y ∧ c.rev.rev = c ∧ c.inv.inv = c := by
  refine ⟨?_, ?_, ?_, ?_⟩
  · cases c <;> simp [Cmp.rev, cmpVal, eq_comm]
  · cases c <;> simp only [Cmp.inv, cmpVal, ne_eq, gt_iff_lt, ge_iff_le, ← decide_not, not_le, not_lt, not_not]
  · cases c <;> rfl
  · cases c <;> rfl

/-- C36: the same for floating-point comparisons, NaN included -/
theorem C36_fcmp (c : FCmp) (r : FRel) :
    c.rev.holds r.swap = c.holds r ∧ c.inv.holds r = !c.holds r ∧ c.rev.rev = c ∧ c.inv.inv = c := by
  cases c <;> cases r <;> decide

/-- C36: a floating-point comparison that is folded is folded to its outcome -/
theorem C36_fold_fcmp (c : FCmp) (r : FRel) (b : Bool) (h : doCompareFP c r = some b) : b = c.holds r := by
  revert h
  cases c <;> cases r <;> cases b <;> decide

/-- every predicate the front ends produce is folded; `FCmpOrderedNotEqual` and `FCmpUnorderedEqual` hit `reportUnreachable` -/
theorem C36_fold_fcmp_total (c : FCmp) (r : FRel) : (doCompareFP c r).isSome = true ↔ c ≠ .one ∧ c ≠ .ueq := by
  cases c <;> simp [doCompareFP]

end Cmmc.IR
