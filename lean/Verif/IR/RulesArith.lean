import Verif.IR.Match
/-!
# Integer rewrite rules of `ArithmeticReduce` (cmmc/Transforms/Combine/ArithmeticReduce.cpp), part 1: addition, multiplication, logic

One constructor per `if(pattern) return replacement;`, citing its lines. The rules collected in `RA` and `RB` are valid for wrapping
arithmetic. `target.isNativeSupported(...)` conditions are dropped (they only restrict).
-/
namespace Cmmc.IR

open Expr

/-- rules on `+`, `-`, `*`, `neg` -/
inductive RA : {w : Nat} → Expr w → Expr w → Prop
  /-- line 46-64: constants to the right of commutative operations -/
  | commute {w} {op : BinOp} {a b : Expr w} : op.comm = true → RA (bin op a b) (bin op b a)
  /-- line 91: a + 0 -> a -/
  | addZero {w} {e a b : Expr w} : MBin .add e a b → MInt b 0 → RA e a
  /-- line 96: a - 0 -> a -/
  | subZero {w} {e a b : Expr w} : MBin .sub e a b → MInt b 0 → RA e a
  /-- line 101, 378: a - c -> a + (-c) -/
  | subConst {w} {e a b : Expr w} {i : Int} : MBin .sub e a b → MInt b i → RA e (bin .add a (cst (-i)))
  /-- line 104: -(a - b) -> b - a -/
  | negSub {w} {s a b : Expr w} : MBin .sub s a b → RA (neg s) (bin .sub b a)
  /-- line 107: 0 - a -> -a -/
  | zeroSub {w} {e a b : Expr w} : MBin .sub e b a → MInt b 0 → RA e (neg a)
  /-- line 112: a - a -> 0 -/
  | subSelf {w} {e a : Expr w} : MBin .sub e a a → RA e (cst 0)
  /-- line 117: a * 0 -> 0 -/
  | mulZero {w} {e a b : Expr w} : MBin .mul e a b → MInt b 0 → RA e (cst 0)
  /-- line 122: a * 1 -> a -/
  | mulOne {w} {e a b : Expr w} : MBin .mul e a b → MInt b 1 → RA e a
  /-- line 134: a * -1 -> -a -/
  | mulNegOne {w} {e a b : Expr w} : MBin .mul e a b → MInt b (-1) → RA e (neg a)
  /-- line 253: a + -b -> a - b -/
  | addNeg {w} {e a b : Expr w} : MBin .add e a (neg b) → RA e (bin .sub a b)
  /-- line 257: a - -b -> a + b -/
  | subNeg {w} {e a b : Expr w} : MBin .sub e a (neg b) → RA e (bin .add a b)
  /-- line 270: a + a -> a * 2 -/
  | addSelf {w} {e a : Expr w} : MBin .add e a a → RA e (bin .mul a (cst 2))
  /-- line 273: a + a * b -> (b + 1) * a -/
  | addMulSelf {w} {e a b m : Expr w} : MBin .add e a m → MBin .mul m a b → RA e (bin .mul (bin .add b (cst 1)) a)
  /-- line 278-292: b * a + c * a -> (b + c) * a; the four ways to share a factor -/
  | addMulMul {w} {e m n a b c : Expr w} : MBin .add e m n → MBin .mul m a b → MBin .mul n a c → RA e (bin .mul (bin .add b c) a)
  /-- line 294-308: b * a - c * a -> (b - c) * a -/
  | subMulMul {w} {e m n a b c : Expr w} : MBin .sub e m n → MBin .mul m a b → MBin .mul n a c → RA e (bin .mul (bin .sub b c) a)
  /-- line 365: (x + c1) + c2 -> x + (c1 + c2) -/
  | addAdd {w} {e s x c d : Expr w} {i j : Int} : MBin .add e s d → MBin .add s x c → MInt c i → MInt d j → RA e (bin .add x (cst (i + j)))
  /-- line 368: (x - c1) + c2 -> x + (c2 - c1) -/
  | addSub {w} {e s x c d : Expr w} {i j : Int} : MBin .add e s d → MBin .sub s x c → MInt c i → MInt d j → RA e (bin .add x (cst (j - i)))
  /-- line 371: (x - c1) - c2 -> x + -(c1 + c2) -/
  | subSub {w} {e s x c d : Expr w} {i j : Int} : MBin .sub e s d → MBin .sub s x c → MInt c i → MInt d j → RA e (bin .add x (cst (-(i + j))))
  /-- line 374: (x + c1) - c2 -> x + (c1 - c2) -/
  | subAdd {w} {e s x c d : Expr w} {i j : Int} : MBin .sub e s d → MBin .add s x c → MInt c i → MInt d j → RA e (bin .add x (cst (i - j)))
  /-- line 682: ~x + 1 -> -x -/
  | notAddOne {w} {e n x c : Expr w} : MBin .add e n c → MNot n x → MInt c 1 → RA e (neg x)
  /-- line 687: ~(x - 1) -> -x -/
  | notSubOne {w} {e s x c : Expr w} : MNot e s → MBin .add s x c → MInt c (-1) → RA e (neg x)
  /-- line 697: ~(-x) -> x - 1 -/
  | notNeg {w} {e x : Expr w} : MNot e (neg x) → RA e (bin .add x (cst (-1)))
  /-- line 702: -(~x) -> x + 1 -/
  | negNot {w} {n x : Expr w} : MNot n x → RA (neg n) (bin .add x (cst 1))
  /-- line 707: (x | y) - (x & y) -> x ^ y -/
  | orSubAnd {w} {e o n x y : Expr w} : MBin .sub e o n → MBin .or o x y → MBin .and n x y → RA e (bin .xor x y)
  /-- line 893: -(-x) -> x -/
  | negNeg {w} {x : Expr w} : RA (neg (neg x)) x
  /-- line 946: b - (a + b) -> -a -/
  | subAddSelf {w} {e s a b : Expr w} : MBin .sub e b s → MBin .add s a b → RA e (neg a)
  /-- line 989: neg(x) * c -> x * -c -/
  | negMul {w} {e x c : Expr w} {i : Int} : MBin .mul e (neg x) c → MInt c i → RA e (bin .mul x (cst (-i)))
  /-- line 1113: -((a - b) + c) -> b - (a + c) -/
  | negAddSub {w} {t s a b c : Expr w} : MBin .add t s c → MBin .sub s a b → RA (neg t) (bin .sub b (bin .add a c))
  /-- line 1158: c1 - (x + c2) -> (c1 - c2) - x -/
  | constSubAdd {w} {e s x c d : Expr w} {i j : Int} : MBin .sub e c s → MBin .add s x d → MInt c i → MInt d j →
      RA e (bin .sub (cst (i - j)) x)
  /-- line 1243: -1 - x -> x ^ -1 -/
  | negOneSub {w} {e x c : Expr w} : MBin .sub e c x → MInt c (-1) → RA e (bin .xor x c)
  /-- line 544: 1 - x -> x ^ 1 on booleans -/
  | oneSubBool {e x c : Expr 1} : MBin .sub e c x → MInt c 1 → RA e (bin .xor x (cst 1))

theorem or_sub_and {w : Nat} (x y : BitVec w) : (x ||| y) - (x &&& y) = x ^^^ y := by
  have h : (x ^^^ y) + (x &&& y) = x ||| y := by
    rw [BitVec.add_eq_or_of_and_eq_zero]
    · ext i hi
      simp only [BitVec.getElem_or, BitVec.getElem_xor, BitVec.getElem_and]
      cases x[i] <;> cases y[i] <;> rfl
    · ext i hi
      simp only [BitVec.getElem_xor, BitVec.getElem_and, BitVec.getElem_zero]
      cases x[i] <;> cases y[i] <;> rfl
  rw [← h]; ring

theorem not_eq_neg_sub {w : Nat} (x : BitVec w) : ~~~x = -x - 1 := by
  have := BitVec.neg_eq_not_add x
  rw [this]; simp

theorem RA.sound {w : Nat} {e e' : Expr w} (h : RA e e') : Refines e e' := by
  intro ρ hd
  cases h with
  | commute hc =>
    simp only [Def] at hd ⊢
    refine ⟨⟨hd.2.1, hd.1, (binDef_comm hc _ _).1 hd.2.2⟩, ?_⟩
    simp only [val]; exact binVal_comm hc _ _
  | addZero h1 h2 => rw [h1.dfn] at hd; exact ⟨hd.1, by rw [h1.val, h2.val]; simp [binVal]⟩
  | subZero h1 h2 => rw [h1.dfn] at hd; exact ⟨hd.1, by rw [h1.val, h2.val]; simp [binVal]⟩
  | subConst h1 h2 =>
    rw [h1.dfn] at hd
    refine ⟨⟨hd.1, trivial, by simp [binDef]⟩, ?_⟩
    rw [h1.val, h2.val]; simp only [val, binVal, cst, BitVec.ofInt_neg]; ring
  | negSub h1 =>
    simp only [Def, h1.dfn] at hd ⊢
    refine ⟨⟨hd.1.2.1, hd.1.1, by simp [binDef]⟩, ?_⟩
    simp only [val, h1.val, binVal]; ring
  | zeroSub h1 h2 =>
    rw [h1.dfn] at hd
    refine ⟨⟨hd.2.1, by simp⟩, ?_⟩
    rw [h1.val, h2.val]; simp [binVal, val]
  | subSelf h1 => exact ⟨trivial, by rw [h1.val]; simp [binVal]⟩
  | mulZero h1 h2 => exact ⟨trivial, by rw [h1.val, h2.val]; simp [binVal]⟩
  | mulOne h1 h2 => rw [h1.dfn] at hd; exact ⟨hd.1, by rw [h1.val, h2.val]; simp [binVal]⟩
  | mulNegOne h1 h2 =>
    rw [h1.dfn] at hd
    refine ⟨⟨hd.1, by simp⟩, ?_⟩
    rw [h1.val, h2.val]; simp only [val, binVal, BitVec.ofInt_neg]; simp
  | addNeg h1 =>
    rw [h1.dfn] at hd
    refine ⟨⟨hd.1, hd.2.1.1, by simp [binDef]⟩, ?_⟩
    rw [h1.val]; simp only [val, binVal]; ring
  | subNeg h1 =>
    rw [h1.dfn] at hd
    refine ⟨⟨hd.1, hd.2.1.1, by simp [binDef]⟩, ?_⟩
    rw [h1.val]; simp only [val, binVal]; ring
  | addSelf h1 =>
    rw [h1.dfn] at hd
    refine ⟨⟨hd.1, trivial, by simp [binDef]⟩, ?_⟩
    rw [h1.val]; simp only [val, binVal, cst]
    rw [show BitVec.ofInt w 2 = BitVec.ofInt w 1 + BitVec.ofInt w 1 by rw [← BitVec.ofInt_add]; rfl, ofInt_one]
    ring
  | addMulSelf h1 h2 =>
    rw [h1.dfn, h2.dfn] at hd
    refine ⟨⟨⟨hd.2.1.2.1, trivial, by simp [binDef]⟩, hd.1, by simp [binDef]⟩, ?_⟩
    rw [h1.val, h2.val]; simp only [val, binVal, cst, ofInt_one]; ring
  | addMulMul h1 h2 h3 =>
    rw [h1.dfn, h2.dfn, h3.dfn] at hd
    refine ⟨⟨⟨hd.1.2.1, hd.2.1.2.1, by simp [binDef]⟩, hd.1.1, by simp [binDef]⟩, ?_⟩
    rw [h1.val, h2.val, h3.val]; simp only [val, binVal]; ring
  | subMulMul h1 h2 h3 =>
    rw [h1.dfn, h2.dfn, h3.dfn] at hd
    refine ⟨⟨⟨hd.1.2.1, hd.2.1.2.1, by simp [binDef]⟩, hd.1.1, by simp [binDef]⟩, ?_⟩
    rw [h1.val, h2.val, h3.val]; simp only [val, binVal]; ring
  | addAdd h1 h2 h3 h4 =>
    rw [h1.dfn, h2.dfn] at hd
    refine ⟨⟨hd.1.1, trivial, by simp [binDef]⟩, ?_⟩
    rw [h1.val, h2.val, h3.val, h4.val]; simp only [val, binVal, cst, BitVec.ofInt_add]; ring
  | addSub h1 h2 h3 h4 =>
    rw [h1.dfn, h2.dfn] at hd
    refine ⟨⟨hd.1.1, trivial, by simp [binDef]⟩, ?_⟩
    rw [h1.val, h2.val, h3.val, h4.val]
    simp only [val, binVal, cst, Int.sub_eq_add_neg, BitVec.ofInt_add, BitVec.ofInt_neg]; ring
  | subSub h1 h2 h3 h4 =>
    rw [h1.dfn, h2.dfn] at hd
    refine ⟨⟨hd.1.1, trivial, by simp [binDef]⟩, ?_⟩
    rw [h1.val, h2.val, h3.val, h4.val]
    simp only [val, binVal, cst, BitVec.ofInt_add, BitVec.ofInt_neg]; ring
  | subAdd h1 h2 h3 h4 =>
    rw [h1.dfn, h2.dfn] at hd
    refine ⟨⟨hd.1.1, trivial, by simp [binDef]⟩, ?_⟩
    rw [h1.val, h2.val, h3.val, h4.val]
    simp only [val, binVal, cst, Int.sub_eq_add_neg, BitVec.ofInt_add, BitVec.ofInt_neg]; ring
  | notAddOne h1 h2 h3 =>
    rw [h1.dfn, h2.dfn] at hd
    refine ⟨⟨hd.1, by simp⟩, ?_⟩
    rw [h1.val, h2.val, h3.val]; simp only [val, binVal, not_eq_neg_sub]; simp
  | notSubOne h1 h2 h3 =>
    rw [h1.dfn, h2.dfn] at hd
    refine ⟨⟨hd.1, by simp⟩, ?_⟩
    rw [h1.val, h2.val, h3.val]; simp only [val, binVal, not_eq_neg_sub, BitVec.ofInt_neg]; simp
  | notNeg h1 =>
    rw [h1.dfn] at hd
    refine ⟨⟨hd.1, trivial, by simp [binDef]⟩, ?_⟩
    rw [h1.val]; simp only [val, binVal, not_eq_neg_sub, cst, BitVec.ofInt_neg]; simp; ring
  | negNot h1 =>
    simp only [Def, h1.dfn] at hd
    refine ⟨⟨hd.1, trivial, by simp [binDef]⟩, ?_⟩
    simp only [val, binVal, h1.val, not_eq_neg_sub, cst, ofInt_one]; ring
  | orSubAnd h1 h2 h3 =>
    rw [h1.dfn, h2.dfn] at hd
    refine ⟨⟨hd.1.1, hd.1.2.1, by simp [binDef]⟩, ?_⟩
    rw [h1.val, h2.val, h3.val]; simp only [val, binVal, or_sub_and]
  | negNeg => exact ⟨hd.1.1, by simp [val]⟩
  | subAddSelf h1 h2 =>
    rw [h1.dfn, h2.dfn] at hd
    refine ⟨⟨hd.2.1.1, by simp⟩, ?_⟩
    rw [h1.val, h2.val]; simp only [val, binVal]; ring
  | negMul h1 h2 =>
    rw [h1.dfn] at hd
    refine ⟨⟨hd.1.1, trivial, by simp [binDef]⟩, ?_⟩
    rw [h1.val, h2.val]; simp only [val, binVal, cst, BitVec.ofInt_neg]; ring
  | negAddSub h1 h2 =>
    simp only [Def, h1.dfn, h2.dfn] at hd
    refine ⟨⟨hd.1.1.2.1, ⟨hd.1.1.1, hd.1.2.1, by simp [binDef]⟩, by simp [binDef]⟩, ?_⟩
    simp only [val, h1.val, h2.val, binVal]; ring
  | constSubAdd h1 h2 h3 h4 =>
    rw [h1.dfn, h2.dfn] at hd
    refine ⟨⟨trivial, hd.2.1.1, by simp [binDef]⟩, ?_⟩
    rw [h1.val, h2.val, h3.val, h4.val]
    simp only [val, binVal, cst, Int.sub_eq_add_neg, BitVec.ofInt_add, BitVec.ofInt_neg]; ring
  | negOneSub h1 h2 =>
    rw [h1.dfn] at hd
    refine ⟨⟨hd.2.1, hd.1, by simp [binDef]⟩, ?_⟩
    rw [h1.val]
    simp only [val, binVal, h2.val]
    rw [ofInt_neg_one, BitVec.xor_allOnes, not_eq_neg_sub, ← BitVec.neg_one_eq_allOnes]; simp; ring
  | @oneSubBool _ x _ h1 h2 =>
    rw [h1.dfn] at hd
    refine ⟨⟨hd.2.1, trivial, by simp [binDef]⟩, ?_⟩
    rw [h1.val]
    simp only [val, binVal, h2.val, cst]
    rcases bool_cases (val ρ x) with h | h <;> rw [h] <;> decide

/-- rules on the bitwise operations -/
inductive RB : {w : Nat} → Expr w → Expr w → Prop
  /-- line 202: a ^ a -> 0 -/
  | xorSelf {w} {e a : Expr w} : MBin .xor e a a → RB e (cst 0)
  /-- line 205: a ^ 0 -> a -/
  | xorZero {w} {e a b : Expr w} : MBin .xor e a b → MUInt b 0 → RB e a
  /-- line 208: a & a -> a -/
  | andSelf {w} {e a : Expr w} : MBin .and e a a → RB e a
  /-- line 211: a & 0 -> 0 -/
  | andZero {w} {e a b : Expr w} : MBin .and e a b → MUInt b 0 → RB e (cst 0)
  /-- line 214: a & -1 -> a -/
  | andOnes {w} {e a b : Expr w} : MBin .and e a b → MInt b (-1) → RB e a
  /-- line 217: a & 1 -> a on booleans -/
  | andOneBool {e a b : Expr 1} : MBin .and e a b → MUInt b 1 → RB e a
  /-- line 219: (zext a) & 1 -> zext a for a boolean a -/
  | andOneZext {w} {e b : Expr w} {a : Expr 1} : MBin .and e (cast .zext w a) b → MUInt b 1 → RB e (cast .zext w a)
  /-- line 222: a | a -> a -/
  | orSelf {w} {e a : Expr w} : MBin .or e a a → RB e a
  /-- line 225: a | 0 -> a -/
  | orZero {w} {e a b : Expr w} : MBin .or e a b → MUInt b 0 → RB e a
  /-- line 228: a | -1 -> -1 -/
  | orOnes {w} {e a b : Expr w} : MBin .or e a b → MInt b (-1) → RB e (cst (-1))
  /-- line 231: a | 1 -> 1 on booleans -/
  | orOneBool {e a b : Expr 1} : MBin .or e a b → MUInt b 1 → RB e (cst 1)
  /-- line 233: (zext a) | 1 -> 1 for a boolean a -/
  | orOneZext {w} {e b : Expr w} {a : Expr 1} : MBin .or e (cast .zext w a) b → MUInt b 1 → RB e (cst 1)
  /-- line 250: !!a -> a -/
  | notNot {w} {e n a : Expr w} : MNot e n → MNot n a → RB e a
  /-- line 671: ~x | ~y -> ~(x & y) -/
  | orNotNot {w} {e m n x y : Expr w} : MBin .or e m n → MNot m x → MNot n y → RB e (mkNot (bin .and x y))
  /-- line 676: ~x & ~y -> ~(x | y) -/
  | andNotNot {w} {e m n x y : Expr w} : MBin .and e m n → MNot m x → MNot n y → RB e (mkNot (bin .or x y))
  /-- line 1014-1018: (x + c) & 1 -> (x + (c & 1)) & 1 -/
  | andAddOne {w} {e s x c d : Expr w} {i : Int} : MBin .and e s d → MBin .add s x c → MInt c i → MInt d 1 →
      RB e (bin .and (bin .add x (cst (i % 2))) d)
  /-- line 1020-1028: (b ? y + c : z) & 1 -> (b ? y + (c & 1) : z) & 1 -/
  | andSelAddOne {w} {e s y z c d : Expr w} {b : Expr 1} {i : Int} : MBin .and e (select b s z) d → MBin .add s y c → MInt c i →
      MInt d 1 → RB e (bin .and (select b (bin .add y (cst (i % 2))) z) d)
  /-- line 1127: x & (x | y) -> x -/
  | andOr {w} {e o x y : Expr w} : MBin .and e x o → MBin .or o x y → RB e x
  /-- line 1130: x & ~(x | y) -> 0 -/
  | andNotOr {w} {e n o x y : Expr w} : MBin .and e x n → MNot n o → MBin .or o x y → RB e (cst 0)
  /-- line 1133: x | (x & y) -> x -/
  | orAnd {w} {e o x y : Expr w} : MBin .or e x o → MBin .and o x y → RB e x
  /-- line 1136: x | ~(x & y) -> -1 -/
  | orNotAnd {w} {e n o x y : Expr w} : MBin .or e x n → MNot n o → MBin .and o x y → RB e (cst (-1))
  /-- line 914-918: trunc to i1 commutes with & -/
  | andTrunc {w} {e : Expr 1} {x y : Expr w} : MBin .and e (cast .ztrunc 1 x) (cast .ztrunc 1 y) → RB e (cast .ztrunc 1 (bin .and x y))
  /-- line 663-666: zext (ztrunc x) -> x & mask -/
  | zextTrunc {w w'} {x : Expr w} : w' < w → RB (cast .zext w (cast .ztrunc w' x)) (bin .and x (cst (2 ^ w' - 1)))

theorem zext_bool_cases {w : Nat} (a : BitVec 1) : a.setWidth w = 0#w ∨ a.setWidth w = 1#w := by
  rcases bool_cases a with h | h <;> subst h
  · left; simp
  · right; apply BitVec.eq_of_toNat_eq; simp

theorem add_mod_two {w : Nat} (x : BitVec w) (i : Int) :
    (x + BitVec.ofInt w (i % 2)) &&& BitVec.ofInt w 1 = (x + BitVec.ofInt w i) &&& BitVec.ofInt w 1 := by
  have h1 : BitVec.ofInt w 1 = 1#w := by simp
  rw [h1]
  rcases Nat.eq_zero_or_pos w with h0 | h0
  · subst h0; exact Subsingleton.elim _ _
  have key : ∀ z : BitVec w, z &&& 1#w = BitVec.ofNat w (z.toNat % 2) := by
    intro z
    apply BitVec.eq_of_toNat_eq
    have h2 : 2 ≤ 2 ^ w := by
      calc 2 = 2 ^ 1 := rfl
        _ ≤ 2 ^ w := Nat.pow_le_pow_right (by omega) h0
    rw [BitVec.toNat_and, BitVec.toNat_ofNat, BitVec.toNat_ofNat, Nat.mod_eq_of_lt (a := 1) (by omega), Nat.and_one_is_mod,
      Nat.mod_eq_of_lt (a := z.toNat % 2) (by omega)]
  rw [key, key]
  congr 1
  have hd : 2 ∣ 2 ^ w := dvd_pow_self 2 (by omega)
  rw [BitVec.toNat_add, BitVec.toNat_add, Nat.mod_mod_of_dvd _ hd, Nat.mod_mod_of_dvd _ hd, Nat.add_mod, Nat.add_mod x.toNat]
  congr 2
  rw [BitVec.toNat_ofInt, BitVec.toNat_ofInt]
  have hp : ((2 : Nat) : Int) ∣ ((2 ^ w : Nat) : Int) := by exact_mod_cast hd
  have e1 : ∀ j : Int, ((j % ((2 ^ w : Nat) : Int)).toNat % 2 : Nat) = (j % 2).toNat := by
    intro j
    have h1 := Int.emod_emod_of_dvd j hp
    have h2 := Int.emod_nonneg j (b := ((2 ^ w : Nat) : Int)) (by positivity)
    push_cast at h1 h2 ⊢
    omega
  rw [e1, e1]; omega

theorem RB.sound {w : Nat} {e e' : Expr w} (h : RB e e') : Refines e e' := by
  intro ρ hd
  cases h with
  | xorSelf h1 => exact ⟨trivial, by rw [h1.val]; simp [binVal]⟩
  | xorZero h1 h2 => rw [h1.dfn] at hd; exact ⟨hd.1, by rw [h1.val, h2.val]; simp [binVal]⟩
  | andSelf h1 => rw [h1.dfn] at hd; exact ⟨hd.1, by rw [h1.val]; simp [binVal]⟩
  | andZero h1 h2 => exact ⟨trivial, by rw [h1.val, h2.val]; simp [binVal]⟩
  | andOnes h1 h2 => rw [h1.dfn] at hd; exact ⟨hd.1, by rw [h1.val, h2.val]; simp only [binVal, ofInt_neg_one, BitVec.and_allOnes]⟩
  | @andOneBool _ a _ h1 h2 =>
    rw [h1.dfn] at hd
    refine ⟨hd.1, ?_⟩
    rw [h1.val, h2.val]; simp only [binVal]
    rcases bool_cases (val ρ a) with h | h <;> rw [h] <;> decide
  | @andOneZext _ _ _ a h1 h2 =>
    rw [h1.dfn] at hd
    refine ⟨hd.1, ?_⟩
    rw [h1.val, h2.val]; simp only [binVal, val, castVal]
    rcases zext_bool_cases (w := w) (val ρ a) with h | h <;> rw [h] <;> simp
  | orSelf h1 => rw [h1.dfn] at hd; exact ⟨hd.1, by rw [h1.val]; simp [binVal]⟩
  | orZero h1 h2 => rw [h1.dfn] at hd; exact ⟨hd.1, by rw [h1.val, h2.val]; simp [binVal]⟩
  | orOnes h1 h2 => exact ⟨trivial, by rw [h1.val, h2.val]; simp only [binVal, cst_val, ofInt_neg_one, BitVec.or_allOnes]⟩
  | @orOneBool _ a _ h1 h2 =>
    refine ⟨trivial, ?_⟩
    rw [h1.val, h2.val]; simp only [binVal, cst_val]
    rcases bool_cases (val ρ a) with h | h <;> rw [h] <;> decide
  | @orOneZext _ _ _ a h1 h2 =>
    refine ⟨trivial, ?_⟩
    rw [h1.val, h2.val]; simp only [binVal, val, castVal, cst_val]
    rcases zext_bool_cases (w := w) (val ρ a) with h | h <;> rw [h] <;> simp
  | notNot h1 h2 => rw [h1.dfn, h2.dfn] at hd; exact ⟨hd, by rw [h1.val, h2.val]; simp⟩
  | orNotNot h1 h2 h3 =>
    rw [h1.dfn, h2.dfn, h3.dfn] at hd
    refine ⟨by rw [mkNot_dfn]; exact ⟨hd.1, hd.2.1, trivial⟩, ?_⟩
    rw [h1.val, h2.val, h3.val, mkNot_val]; simp only [val, binVal, BitVec.not_and]
  | andNotNot h1 h2 h3 =>
    rw [h1.dfn, h2.dfn, h3.dfn] at hd
    refine ⟨by rw [mkNot_dfn]; exact ⟨hd.1, hd.2.1, trivial⟩, ?_⟩
    rw [h1.val, h2.val, h3.val, mkNot_val]; simp only [val, binVal, BitVec.not_or]
  | andAddOne h1 h2 h3 h4 =>
    rw [h1.dfn, h2.dfn] at hd
    refine ⟨⟨⟨hd.1.1, trivial, by simp [binDef]⟩, hd.2.1, trivial⟩, ?_⟩
    rw [h1.val, h2.val, h3.val]
    simp only [val, binVal, cst_val, h4.val, add_mod_two]
  | @andSelAddOne _ _ _ _ _ _ _ b _ h1 h2 h3 h4 =>
    rw [h1.dfn] at hd
    simp only [Def, h2.dfn] at hd
    refine ⟨⟨⟨hd.1.1, ⟨hd.1.2.1.1, trivial, by simp [binDef]⟩, hd.1.2.2⟩, hd.2.1, trivial⟩, ?_⟩
    rw [h1.val]
    simp only [val, binVal, cst_val, h4.val, h2.val, h3.val]
    split
    · rw [add_mod_two]
    · rfl
  | andOr h1 h2 =>
    rw [h1.dfn] at hd
    refine ⟨hd.1, ?_⟩
    rw [h1.val, h2.val]; simp only [binVal]
    ext i hi; simp only [BitVec.getElem_or, BitVec.getElem_and]; cases (val ρ _)[i] <;> simp
  | @andNotOr _ _ _ _ x _ h1 h2 h3 =>
    refine ⟨trivial, ?_⟩
    rw [h1.val, h2.val, h3.val]; simp only [binVal, cst_val, ofInt_zero']
    ext i hi; simp only [BitVec.getElem_or, BitVec.getElem_and, BitVec.getElem_not]
    rw [show (0 : BitVec w) = 0#w from rfl, BitVec.getElem_zero]
    cases (val ρ x)[i] <;> simp
  | orAnd h1 h2 =>
    rw [h1.dfn] at hd
    refine ⟨hd.1, ?_⟩
    rw [h1.val, h2.val]; simp only [binVal]
    ext i hi; simp only [BitVec.getElem_or, BitVec.getElem_and]; cases (val ρ e')[i] <;> simp
  | @orNotAnd _ _ _ _ x _ h1 h2 h3 =>
    refine ⟨trivial, ?_⟩
    rw [h1.val, h2.val, h3.val]; simp only [binVal, cst_val, ofInt_neg_one]
    ext i hi; simp only [BitVec.getElem_or, BitVec.getElem_and, BitVec.getElem_not, BitVec.getElem_allOnes]
    cases (val ρ x)[i] <;> simp
  | andTrunc h1 =>
    rw [h1.dfn] at hd
    refine ⟨⟨hd.1, hd.2.1, trivial⟩, ?_⟩
    rw [h1.val]; simp only [val, binVal, castVal, BitVec.setWidth_and]
  | @zextTrunc _ w' x hw =>
    refine ⟨⟨hd, trivial, trivial⟩, ?_⟩
    simp only [val, binVal, castVal, cst_val]
    have hm : BitVec.ofInt w (2 ^ w' - 1) = BitVec.ofNat w (2 ^ w' - 1) := by
      rw [← BitVec.ofInt_natCast]
      congr 1
      have := Nat.two_pow_pos w'
      push_cast [Nat.cast_sub this]; rfl
    rw [hm]
    apply BitVec.eq_of_getLsbD_eq
    intro i hi
    rw [BitVec.getLsbD_and, BitVec.getLsbD_ofNat, Nat.testBit_two_pow_sub_one, BitVec.getLsbD_setWidth, BitVec.getLsbD_setWidth]
    by_cases h : i < w' <;> simp [h, hi]

end Cmmc.IR
