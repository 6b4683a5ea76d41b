import Verif.IR.RulesArith
/-!
# Integer rewrite rules of `ArithmeticReduce` (cmmc/Transforms/Combine/ArithmeticReduce.cpp), part 2: comparisons

All rules here are valid for wrapping arithmetic. `boolean(v)` of the matcher is the type `Expr 1`. Rules that the C++ code applies in more
cases than the constructor allows are the ones with a numeric side condition marked *restricted*; `Verif.IR.Witness` shows that the
condition cannot be dropped.
-/
namespace Cmmc.IR

open Expr

theorem ofBool_congr {p q : Prop} [Decidable p] [Decidable q] (h : p ↔ q) : BitVec.ofBool (decide p) = BitVec.ofBool (decide q) := by
  congr 1; exact decide_eq_decide.2 h

theorem ofBool_true_of {p : Prop} [Decidable p] (h : p) : BitVec.ofBool (decide p) = 1#1 := by simp [h]
theorem ofBool_false_of {p : Prop} [Decidable p] (h : ¬ p) : BitVec.ofBool (decide p) = 0#1 := by simp [h]

/-- a boolean is `ofBool` of being one -/
theorem bool_eq_ofBool (x : BitVec 1) : x = BitVec.ofBool (decide (x = 1)) := by
  rcases bool_cases x with h | h <;> subst h <;> decide

theorem bool_ext {x y : BitVec 1} (h : x = 1 ↔ y = 1) : x = y := by
  rcases bool_cases x with h1 | h1 <;> rcases bool_cases y with h2 | h2 <;> subst h1 <;> subst h2 <;> revert h <;> decide

theorem bool_not_eq_one (x : BitVec 1) : ~~~ x = 1 ↔ ¬ x = 1 := by
  rcases bool_cases x with h1 | h1 <;> subst h1 <;> decide

theorem bool_and_eq_one (x y : BitVec 1) : x &&& y = 1 ↔ x = 1 ∧ y = 1 := by
  rcases bool_cases x with h1 | h1 <;> rcases bool_cases y with h2 | h2 <;> subst h1 <;> subst h2 <;> decide

theorem bool_or_eq_one (x y : BitVec 1) : x ||| y = 1 ↔ x = 1 ∨ y = 1 := by
  rcases bool_cases x with h1 | h1 <;> rcases bool_cases y with h2 | h2 <;> subst h1 <;> subst h2 <;> decide

theorem bool_xor_one_eq_one (x : BitVec 1) : x ^^^ BitVec.ofInt 1 1 = 1 ↔ ¬ x = 1 := by
  rcases bool_cases x with h1 | h1 <;> subst h1 <;> decide

theorem zext_toNat {w : Nat} (hw : 0 < w) (a : BitVec 1) : (a.setWidth w).toNat = if a = 1 then 1 else 0 := by
  rcases bool_cases a with h | h <;> subst h
  · simp
  · have : 1 < 2 ^ w := Nat.one_lt_two_pow (by omega)
    simp only [BitVec.toNat_setWidth, if_true]
    exact Nat.mod_eq_of_lt this

theorem zext_eq {w : Nat} (a : BitVec 1) : a.setWidth w = if a = 1 then 1 else 0 := by
  rcases bool_cases a with h | h <;> subst h
  · simp
  · apply BitVec.eq_of_toNat_eq; simp

theorem one_ne_zero_bv {w : Nat} (hw : 0 < w) : (1 : BitVec w) ≠ 0 := by
  intro h
  have := congrArg BitVec.toNat h
  have h2 : 1 < 2 ^ w := Nat.one_lt_two_pow (by omega)
  simp at this
  omega

theorem zext_ne_zero {w : Nat} (hw : 0 < w) (a : BitVec 1) : a.setWidth w ≠ 0 ↔ a = 1 := by
  rw [zext_eq]
  split
  · exact iff_of_true (one_ne_zero_bv hw) (by assumption)
  · exact iff_of_false (fun h => h rfl) (by assumption)

theorem fits_one {w : Nat} (hw : 0 < w) (hw2 : w ≠ 0 := by omega) (h2 : w = 1 ∨ 2 ≤ w := by omega) : Fits w 1 := by
  refine ⟨by have := lo_nonpos w; omega, ?_⟩
  unfold hi
  rcases h2 with h | h
  · subst h; decide
  · rw [if_neg (by omega)]
    have : (2 : Int) ≤ 2 ^ (w - 1) := by
      calc (2 : Int) = 2 ^ 1 := rfl
        _ ≤ 2 ^ (w - 1) := pow_le_pow_right₀ (by omega) (by omega)
    omega

theorem sval_one {w : Nat} (hw : 0 < w) : sval (1 : BitVec w) = 1 := by
  rw [← ofInt_one, sval_ofInt (fits_one hw)]

theorem toNat_ofInt_of_nonneg {w : Nat} {i : Int} (h0 : 0 ≤ i) (h1 : i < 2 ^ w) : ((BitVec.ofInt w i).toNat : Int) = i := by
  have hp : ((2 ^ w : Nat) : Int) = 2 ^ w := by push_cast; rfl
  rw [BitVec.toNat_ofInt, hp, Int.emod_eq_of_lt h0 h1]
  omega

/-- `MLog2` values are powers of two below `2^w` -/
theorem MLog2.pow2 {w : Nat} {p : Expr w} {ρ : Env} (hw : 0 < w) (h : MLog2 p) (hd : Def false ρ p) :
    ∃ k, k < w ∧ (Cmmc.IR.val ρ p).toNat = 2 ^ k := by
  cases h with
  | @shl a k h1 =>
    simp only [Def, binDef] at hd
    refine ⟨(Cmmc.IR.val ρ k).toNat, hd.2.2, ?_⟩
    simp only [Cmmc.IR.val, binVal, h1.val]
    rw [ofInt_one]
    rw [BitVec.toNat_shiftLeft]
    have h2 : 1 < 2 ^ w := Nat.one_lt_two_pow (by omega)
    have : (1 : BitVec w).toNat = 1 := by simp; omega
    rw [this, Nat.one_shiftLeft]
    exact Nat.mod_eq_of_lt (Nat.pow_lt_pow_right (by omega) hd.2.2)
  | @pow _ k h1 =>
    have hf := h1.fits
    have hlt : ((2 : Int) ^ k) < 2 ^ w := by
      have := hi_sub_lo w; have := lo_nonpos w; have := hf.2; omega
    have hk : k < w := by
      by_contra hc
      have : (2 : Int) ^ w ≤ 2 ^ k := pow_le_pow_right₀ (by omega) (by omega)
      omega
    refine ⟨k, hk, ?_⟩
    rw [h1.val]
    have := toNat_ofInt_of_nonneg (w := w) (i := 2 ^ k) (by positivity) hlt
    exact_mod_cast this

theorem sval_dvd_iff {w : Nat} {k : Nat} (hk : k ≤ w) (x : BitVec w) : (2 : Int) ^ k ∣ sval x ↔ 2 ^ k ∣ x.toNat := by
  have hd : (2 : Int) ^ k ∣ 2 ^ w := pow_dvd_pow 2 hk
  have hn : (2 : Int) ^ k ∣ (x.toNat : Int) ↔ 2 ^ k ∣ x.toNat := by
    rw [← Int.natCast_dvd_natCast]; push_cast; rfl
  rw [← hn, sval_eq]
  split
  · rfl
  · exact ⟨fun h => by simpa using Int.dvd_add h hd, fun h => Int.dvd_sub h hd⟩

theorem and_pred_pow2 {w : Nat} {k : Nat} {x p : BitVec w} (hk : k < w) (hp : p.toNat = 2 ^ k) :
    (x &&& (p - BitVec.ofInt w 1)).toNat = x.toNat % 2 ^ k := by
  have hpk : p = BitVec.ofNat w (2 ^ k) := by rw [← hp]; simp
  have h2 : (2 : Nat) ^ k < 2 ^ w := Nat.pow_lt_pow_right (by omega) hk
  have h1 : 0 < 2 ^ k := Nat.two_pow_pos k
  have : p - BitVec.ofInt w 1 = BitVec.ofNat w (2 ^ k - 1) := by
    rw [hpk]
    have e1 : BitVec.ofInt w 1 = BitVec.ofNat w 1 := by simp
    rw [e1]
    apply BitVec.eq_of_toNat_eq
    rw [BitVec.toNat_sub_of_le]
    · have h3 : 1 < 2 ^ w := by omega
      rw [BitVec.toNat_ofNat, BitVec.toNat_ofNat, BitVec.toNat_ofNat, Nat.mod_eq_of_lt h2, Nat.mod_eq_of_lt h3,
        Nat.mod_eq_of_lt (by omega : 2 ^ k - 1 < 2 ^ w)]
    · rw [BitVec.le_def, BitVec.toNat_ofNat, BitVec.toNat_ofNat, Nat.mod_eq_of_lt h2]
      exact le_trans (Nat.mod_le _ _) h1
  rw [this, BitVec.toNat_and, BitVec.toNat_ofNat, Nat.mod_eq_of_lt (by omega : 2 ^ k - 1 < 2 ^ w)]
  exact Nat.and_two_pow_sub_one_eq_mod _ _

/-- `legalize` of the conjunction rule (lines 752-763) -/
def legalizeAnd : Cmp → Int → Cmp × Int
  | .slt, i => (.sle, i - 1)
  | .sgt, i => (.sge, i + 1)
  | c, i => (c, i)

/-- `legalize` of the disjunction rule (lines 797-808) -/
def legalizeOr : Cmp → Int → Cmp × Int
  | .sle, i => (.slt, i + 1)
  | .sge, i => (.sgt, i - 1)
  | c, i => (c, i)

/-- lines 777-790: the replacement of `i1 <= v && v <= i2`; `none`: no replacement -/
def boundsAnd {w : Nat} (v : Expr w) (i1 i2 : Int) : Option (Expr 1) :=
  if i1 > i2 then some (cst 0)
  else if i1 = i2 then some (icmp .eq v (cst i1))
  else if i1 + 65536 ≥ i2 then some (icmp .ult (bin .sub v (cst i1)) (cst (i2 - i1 + 1)))
  else none

/-- lines 822-835: the replacement of `v < i1 || v > i2` -/
def boundsOr {w : Nat} (v : Expr w) (i1 i2 : Int) : Option (Expr 1) :=
  if i1 > i2 then some (cst 1)
  else if i1 = i2 then some (icmp .ne v (cst i1))
  else if i1 + 65536 ≥ i2 then some (icmp .ugt (bin .sub v (cst i1)) (cst (i2 - i1)))
  else none

/-- rules whose result is a comparison or a boolean -/
inductive RC : Expr 1 → Expr 1 → Prop
  /-- line 239-248: uint >= 0 -/
  | ugeZero {w} {e : Expr 1} {a b : Expr w} : MCmp e .uge a b → MUInt b 0 → RC e (cst 1)
  /-- line 239-248: uint < 0 -/
  | ultZero {w} {e : Expr 1} {a b : Expr w} : MCmp e .ult a b → MUInt b 0 → RC e (cst 0)
  /-- line 319-337: (zext i1 a) == c -/
  | zextEq {w} {e : Expr 1} {a : Expr 1} {b : Expr w} {u : Nat} : 0 < w → MCmp e .eq (cast .zext w a) b → MUInt b u →
      RC e (if u = 0 then mkNot a else if u = 1 then a else cst 0)
  /-- line 319-337: (zext i1 a) != c -/
  | zextNe {w} {e : Expr 1} {a : Expr 1} {b : Expr w} {u : Nat} : 0 < w → MCmp e .ne (cast .zext w a) b → MUInt b u →
      RC e (if u = 0 then a else if u = 1 then mkNot a else cst 1)
  /-- line 346: i1 v == true -> v -/
  | eqTrue {e : Expr 1} {a b : Expr 1} : MCmp e .eq a b → MUInt b 1 → RC e a
  /-- line 407: not cmp -/
  | notCmp {w} {e m b : Expr 1} {c : Cmp} {x y : Expr w} : MBin .xor e m b → MCmp m c x y → MUInt b 1 → RC e (icmp c.inv x y)
  /-- line 414-425: a cmp a -/
  | cmpSelf {w} {e : Expr 1} {c : Cmp} {a : Expr w} : MCmp e c a a →
      RC e (cst (match c with | .eq | .sle | .sge | .ule | .uge => 1 | _ => 0))
  /-- line 443-455, restricted to == and != (see `RN` for the signed comparisons): -x cmp c -> -c cmp x -/
  | negCmp {w} {e : Expr 1} {c : Cmp} {x b : Expr w} {i : Int} : MCmp e c (neg x) b → MInt b i → c = .eq ∨ c = .ne →
      RC e (icmp c (cst (-i)) x)
  /-- line 469-478: (a == c1) & (b == c2) -> ((a^c1) | (b^c2)) == 0 -/
  | andEqEq {w} {e m n : Expr 1} {a b c d : Expr w} {i j : Int} : MBin .and e m n → MCmp m .eq a c → MInt c i → MCmp n .eq b d → MInt d j →
      RC e (icmp .eq (bin .or (if i = 0 then a else bin .xor a (cst i)) (if j = 0 then b else bin .xor b (cst j))) (cst 0))
  /-- line 480-486: (a & 1 != 0) & (b & 1 != 0) -> trunc (a & 1 & b) to i1 -/
  | andOddOdd {w} {e m n : Expr 1} {x y a b c d z1 z2 : Expr w} : MBin .and e m n → MCmp m .ne x z1 → MInt z1 0 → MBin .and x a c → MUInt c 1 →
      MCmp n .ne y z2 → MInt z2 0 → MBin .and y b d → MUInt d 1 → RC e (cast .ztrunc 1 (bin .and x b))
  /-- line 488-492: (a != 0) | (b != 0) -> (a | b) != 0 -/
  | orNeNe {w} {e m n : Expr 1} {a b z1 z2 : Expr w} : MBin .or e m n → MCmp m .ne a z1 → MInt z1 0 → MCmp n .ne b z2 → MInt z2 0 →
      RC e (icmp .ne (bin .or a b) (cst 0))
  /-- line 562-567: ((zext a) & (zext b)) != 0 -> a & b -/
  | andZextNe {w} {e a b : Expr 1} {m z : Expr w} : 0 < w → MCmp e .ne m z → MBin .and m (cast .zext w a) (cast .zext w b) → MUInt z 0 →
      RC e (bin .and a b)
  /-- line 562-567: ((zext a) & (zext b)) == 0 -> not (a & b) -/
  | andZextEq {w} {e a b : Expr 1} {m z : Expr w} : 0 < w → MCmp e .eq m z → MBin .and m (cast .zext w a) (cast .zext w b) → MUInt z 0 →
      RC e (mkNot (bin .and a b))
  /-- line 644-660: x % 2^k, used only by comparisons with 0 -> x & (2^k - 1); stated on the using comparison -/
  | sremPow2 {w} {e : Expr 1} {c : Cmp} {r x p z : Expr w} : 0 < w → c = .eq ∨ c = .ne → MCmp e c r z → MUInt z 0 → MBin .srem r x p → MLog2 p →
      RC e (icmp c (bin .and x (bin .sub p (cst 1))) z)
  /-- line 749-791: range check by a conjunction. *Restricted*: `17 ≤ w` -/
  | andBounds {w} {e m n : Expr 1} {c d : Cmp} {v a b : Expr w} {i j i' j' : Int} {e' : Expr 1} : 17 ≤ w → MBin .and e m n → MCmp m c v a → MInt a i →
      MCmp n d v b → MInt b j → legalizeAnd c i = (.sge, i') → legalizeAnd d j = (.sle, j') → boundsAnd v i' j' = some e' → RC e e'
  /-- line 771-774: the same with the bounds exchanged. *Restricted*: `17 ≤ w` -/
  | andBounds' {w} {e m n : Expr 1} {c d : Cmp} {v a b : Expr w} {i j i' j' : Int} {e' : Expr 1} : 17 ≤ w → MBin .and e m n → MCmp m c v a → MInt a i →
      MCmp n d v b → MInt b j → legalizeAnd c i = (.sle, i') → legalizeAnd d j = (.sge, j') → boundsAnd v j' i' = some e' → RC e e'
  /-- line 794-836: range check by a disjunction -/
  | orBounds {w} {e m n : Expr 1} {c d : Cmp} {v a b : Expr w} {i j i' j' : Int} {e' : Expr 1} : MBin .or e m n → MCmp m c v a → MInt a i →
      MCmp n d v b → MInt b j → legalizeOr c i = (.slt, i') → legalizeOr d j = (.sgt, j') → boundsOr v i' j' = some e' → RC e e'
  /-- line 816-819: the same with the bounds exchanged -/
  | orBounds' {w} {e m n : Expr 1} {c d : Cmp} {v a b : Expr w} {i j i' j' : Int} {e' : Expr 1} : MBin .or e m n → MCmp m c v a → MInt a i →
      MCmp n d v b → MInt b j → legalizeOr c i = (.sgt, i') → legalizeOr d j = (.slt, j') → boundsOr v j' i' = some e' → RC e e'
  /-- line 901-906: (srem x, 2) == 1 -> (and x, -max) == 1 -/
  | sremTwoEqOne {w} {e : Expr 1} {r x t o : Expr w} : MCmp e .eq r o → MInt o 1 → MBin .srem r x t → MInt t 2 →
      RC e (icmp .eq (bin .and x (cst (-(2 ^ (w - 1) - 1)))) o)
  /-- line 909-911: (and x, 1) != 0 -> trunc x to i1 -/
  | andOneNe {w} {e : Expr 1} {m x o z : Expr w} : MCmp e .ne m z → MInt z 0 → MBin .and m x o → MInt o 1 → RC e (cast .ztrunc 1 x)
  /-- line 1007-1012: (x < y) || (x != y) -> x != y -/
  | ltOrNe {w} {e m n : Expr 1} {x y : Expr w} : MBin .or e m n → MCmp m .slt x y → MCmp n .ne x y → RC e n
  /-- line 1162-1167: x > -1 && y > -1 -> (x | y) > -1 -/
  | andNonneg {w} {e m n : Expr 1} {x y a b : Expr w} : MBin .and e m n → MCmp m .sgt x a → MInt a (-1) → MCmp n .sgt y b → MInt b (-1) →
      RC e (icmp .sgt (bin .or x y) a)
  /-- line 1168-1176: x < 0 && y < 0 -> trunc ((x & y) >> (w-1)) -/
  | andNeg {w} {e m n : Expr 1} {x y a b : Expr w} : 1 < w → MBin .and e m n → MCmp m .slt x a → MInt a 0 → MCmp n .slt y b → MInt b 0 →
      RC e (cast .ztrunc 1 (bin .lshr (bin .and x y) (cst (w - 1))))
  /-- line 1177-1182: x > -1 || y > -1 -> (x & y) > -1 -/
  | orNonneg {w} {e m n : Expr 1} {x y a b : Expr w} : MBin .or e m n → MCmp m .sgt x a → MInt a (-1) → MCmp n .sgt y b → MInt b (-1) →
      RC e (icmp .sgt (bin .and x y) a)
  /-- line 1183-1191: x < 0 || y < 0 -> trunc ((x | y) >> (w-1)) -/
  | orNeg {w} {e m n : Expr 1} {x y a b : Expr w} : 1 < w → MBin .or e m n → MCmp m .slt x a → MInt a 0 → MCmp n .slt y b → MInt b 0 →
      RC e (cast .ztrunc 1 (bin .lshr (bin .or x y) (cst (w - 1))))
  /-- line 1194-1199: x <= c -> x < c + 1. *Restricted*: `c ≠ MAX` -/
  | sleLt {w} {e : Expr 1} {x c : Expr w} {i : Int} : MCmp e .sle x c → MInt c i → i < hi w → RC e (icmp .slt x (cst (i + 1)))
  /-- line 1200-1203: x >= c -> x > c - 1. *Restricted*: `c ≠ MIN` -/
  | sgeGt {w} {e : Expr 1} {x c : Expr w} {i : Int} : MCmp e .sge x c → MInt c i → lo w < i → RC e (icmp .sgt x (cst (i - 1)))
  /-- line 1214-1224 (== only, see `RN` for <): (x - zext b) == x -> not b -/
  | subZextEq {w} {e b : Expr 1} {s x : Expr w} : 0 < w → MCmp e .eq s x → MBin .sub s x (cast .zext w b) → RC e (mkNot b)
  /-- line 1214-1224: (x - zext b) != x -> b -/
  | subZextNe {w} {e b : Expr 1} {s x : Expr w} : 0 < w → MCmp e .ne s x → MBin .sub s x (cast .zext w b) → RC e b
  /-- line 1246-1266: (zext b + 1) cmp 1 -/
  | zextAddOne {w} {e b : Expr 1} {c : Cmp} {s o o' : Expr w} : 3 ≤ w → MCmp e c s o → MInt o 1 → MBin .add s (cast .zext w b) o' → MInt o' 1 →
      RC e (match c with
        | .eq | .sle | .ule => mkNot b
        | .ne | .sgt | .ugt => b
        | .slt | .ult => cst 0
        | .sge | .uge => cst 1)
  /-- line 1269-1330 with equal predicates (`<` or `<=`): x < y && x < z -> x < smin y z -/
  | andLtMin {w} {e m n : Expr 1} {c : Cmp} {x y z : Expr w} : c = .slt ∨ c = .sle → MBin .and e m n → MCmp m c x y → MCmp n c x z →
      RC e (icmp c x (bin .smin y z))
  /-- line 1269-1330 with equal predicates (`>` or `>=`): x > y && x > z -> x > smax y z -/
  | andGtMax {w} {e m n : Expr 1} {c : Cmp} {x y z : Expr w} : c = .sgt ∨ c = .sge → MBin .and e m n → MCmp m c x y → MCmp n c x z →
      RC e (icmp c x (bin .smax y z))

/-! ## soundness -/

/-- the comparison as a proposition -/
def cmpProp {w : Nat} : Cmp → BitVec w → BitVec w → Prop
  | .eq, x, y => x = y
  | .ne, x, y => x ≠ y
  | .slt, x, y => sval x < sval y
  | .sle, x, y => sval x ≤ sval y
  | .sgt, x, y => sval x > sval y
  | .sge, x, y => sval x ≥ sval y
  | .ult, x, y => x.toNat < y.toNat
  | .ule, x, y => x.toNat ≤ y.toNat
  | .ugt, x, y => x.toNat > y.toNat
  | .uge, x, y => x.toNat ≥ y.toNat

theorem cmpVal_iff {w : Nat} (c : Cmp) (x y : BitVec w) : cmpVal c x y = true ↔ cmpProp c x y := by
  cases c <;> simp only [cmpVal, cmpProp, decide_eq_true_eq]

theorem icmp_one {w : Nat} {ρ : Env} (c : Cmp) (a b : Expr w) : val ρ (icmp c a b) = 1 ↔ cmpProp c (val ρ a) (val ρ b) := by
  simp only [val, ofBool_eq_one, cmpVal_iff]

theorem MCmp.one {w : Nat} {ρ : Env} {c : Cmp} {e : Expr 1} {a b : Expr w} (h : MCmp e c a b) :
    Cmmc.IR.val ρ e = 1 ↔ cmpProp c (Cmmc.IR.val ρ a) (Cmmc.IR.val ρ b) := by
  rw [h.val, ofBool_eq_one, cmpVal_iff]

theorem cst1_one {ρ : Env} : val ρ (cst 1 : Expr 1) = 1 ↔ True := by rw [cst_val]; exact iff_of_true (by decide) trivial
theorem cst0_one {ρ : Env} : val ρ (cst 0 : Expr 1) = 1 ↔ False := by rw [cst_val]; exact iff_of_false (by decide) not_false

theorem mkNot_one {ρ : Env} (e : Expr 1) : val ρ (mkNot e) = 1 ↔ ¬ val ρ e = 1 := by rw [mkNot_val, bool_not_eq_one]

theorem and_one {ρ : Env} {e m n : Expr 1} (h : MBin .and e m n) : val ρ e = 1 ↔ val ρ m = 1 ∧ val ρ n = 1 := by
  rw [h.val]; exact bool_and_eq_one _ _
theorem or_one {ρ : Env} {e m n : Expr 1} (h : MBin .or e m n) : val ρ e = 1 ↔ val ρ m = 1 ∨ val ρ n = 1 := by
  rw [h.val]; exact bool_or_eq_one _ _

theorem neg_iff_msb {w : Nat} (hw : 1 < w) (x : BitVec w) : sval x < 0 ↔ x.msb = true := by
  unfold sval
  rw [if_neg (by omega), BitVec.msb_eq_toInt]
  simp

theorem trunc_lshr_msb {w : Nat} (hw : 1 < w) (x : BitVec w) :
    (x >>> (BitVec.ofInt w (w - 1)).toNat).setWidth 1 = BitVec.ofBool x.msb := by
  have h1 : (BitVec.ofInt w ((w : Int) - 1)).toNat = w - 1 := by
    have hlt : (w : Int) < 2 ^ w := by exact_mod_cast Nat.lt_two_pow_self
    have := toNat_ofInt_of_nonneg (w := w) (i := (w : Int) - 1) (by omega) (by omega)
    omega
  rw [h1]
  apply BitVec.eq_of_getLsbD_eq
  intro i hi
  have : i = 0 := by omega
  subst this
  simp [BitVec.getLsbD_ushiftRight, BitVec.msb_eq_getLsbD_last]

theorem shamt_ok {w : Nat} (hw : 1 < w) : (BitVec.ofInt w ((w : Int) - 1)).toNat < w := by
  have hlt : (w : Int) < 2 ^ w := by exact_mod_cast Nat.lt_two_pow_self
  have := toNat_ofInt_of_nonneg (w := w) (i := (w : Int) - 1) (by omega) (by omega)
  omega

theorem width_of_neg {w : Nat} {e : Expr w} {i : Int} (h : MInt e i) (hi : i < 0) : 1 < w := by
  have := h.fits
  unfold Fits lo at this
  by_contra hw
  rw [if_pos (by omega)] at this
  omega

theorem width_pos {w : Nat} {e : Expr w} {i : Int} (h : MInt e i) (h0 : i ≠ 0) : 0 < w := by
  have := h.fits
  by_contra hw
  have : w = 0 := by omega
  subst this
  unfold Fits lo hi at this
  simp at this
  omega

theorem width_posU {w : Nat} {e : Expr w} {u : Nat} (h : MUInt e u) (h0 : u ≠ 0) : 0 < w := by
  cases h with
  | @mk c =>
    by_contra hw
    have : w = 0 := by omega
    subst this
    have := c.isLt
    omega

theorem setWidth_one_eq_one {w : Nat} (x : BitVec w) : x.setWidth 1 = 1 ↔ x.toNat % 2 = 1 := by
  rw [← BitVec.toNat_inj, BitVec.toNat_setWidth]; simp

theorem and_one_toNat {w : Nat} (hw : 0 < w) (x : BitVec w) : (x &&& BitVec.ofInt w 1).toNat = x.toNat % 2 := by
  have h1 : BitVec.ofInt w 1 = 1#w := by simp
  have h2 : 1 < 2 ^ w := Nat.one_lt_two_pow (by omega)
  rw [h1, BitVec.toNat_and, BitVec.toNat_ofNat, Nat.mod_eq_of_lt h2, Nat.and_one_is_mod]

theorem ne_zero_iff_toNat {w : Nat} (x : BitVec w) : x ≠ 0 ↔ x.toNat ≠ 0 := by
  rw [Ne, ← BitVec.toNat_inj]; simp

theorem or_eq_zero {w : Nat} (x y : BitVec w) : x ||| y = 0 ↔ x = 0 ∧ y = 0 := by
  constructor
  · intro h
    constructor <;> ext i hi
    all_goals
      have := congrArg (fun z : BitVec w => z[i]) h
      simp only [BitVec.getElem_or] at this
      rw [show (0 : BitVec w) = 0#w from rfl, BitVec.getElem_zero] at this ⊢
      simp at this
      simp [this]
  · rintro ⟨h1, h2⟩; subst h1; subst h2; simp

theorem xor_eq_zero {w : Nat} (x y : BitVec w) : x ^^^ y = 0 ↔ x = y := by
  constructor
  · intro h
    ext i hi
    have := congrArg (fun z : BitVec w => z[i]) h
    simp only [BitVec.getElem_xor] at this
    rw [show (0 : BitVec w) = 0#w from rfl, BitVec.getElem_zero] at this
    simpa using this
  · rintro rfl; simp

/-- unsigned range check -/
theorem sub_toNat_le {w : Nat} (x : BitVec w) {a b : Int} (ha : lo w ≤ a) (hb : b ≤ hi w) (hab : a ≤ b) :
    (((x - BitVec.ofInt w a).toNat : Nat) : Int) ≤ b - a ↔ a ≤ sval x ∧ sval x ≤ b := by
  rw [wrap_sub]
  have h1 := le_sval x
  have h2 := sval_le x
  have h3 := hi_sub_lo w
  have hp : ((2 ^ w : Nat) : Int) = 2 ^ w := by push_cast; rfl
  rw [BitVec.toNat_ofInt, hp, Int.toNat_of_nonneg (Int.emod_nonneg _ (by positivity))]
  by_cases h : a ≤ sval x
  · rw [Int.emod_eq_of_lt (by omega) (by omega)]; omega
  · have : (sval x - a) % 2 ^ w = sval x - a + 2 ^ w := by
      rw [← Int.add_emod_right, Int.emod_eq_of_lt (by omega) (by omega)]
    rw [this]; omega

theorem legalizeAnd_spec {c d : Cmp} {i j : Int} (h : legalizeAnd c i = (d, j)) {w : Nat} (x y : BitVec w) (hy : sval y = i)
    (hd : d = .sge ∨ d = .sle) : cmpProp c x y ↔ if d = .sge then j ≤ sval x else sval x ≤ j := by
  cases c <;> simp only [legalizeAnd, Prod.mk.injEq] at h <;> obtain ⟨h1, h2⟩ := h <;> subst h1 <;> subst h2 <;>
    simp at hd <;> simp [cmpProp, hy] <;> omega

theorem legalizeOr_spec {c d : Cmp} {i j : Int} (h : legalizeOr c i = (d, j)) {w : Nat} (x y : BitVec w) (hy : sval y = i)
    (hd : d = .sgt ∨ d = .slt) : cmpProp c x y ↔ if d = .sgt then j < sval x else sval x < j := by
  cases c <;> simp only [legalizeOr, Prod.mk.injEq] at h <;> obtain ⟨h1, h2⟩ := h <;> subst h1 <;> subst h2 <;>
    simp at hd <;> simp [cmpProp, hy] <;> omega

theorem legalizeAnd_lo {c : Cmp} {i j : Int} (h : legalizeAnd c i = (.sge, j)) : i ≤ j := by
  cases c <;> simp [legalizeAnd] at h <;> omega
theorem legalizeAnd_hi {c : Cmp} {i j : Int} (h : legalizeAnd c i = (.sle, j)) : j ≤ i := by
  cases c <;> simp [legalizeAnd] at h <;> omega

theorem legalizeOr_lo {c : Cmp} {i j : Int} (h : legalizeOr c i = (.slt, j)) : i ≤ j := by
  cases c <;> simp [legalizeOr] at h <;> omega
theorem legalizeOr_hi {c : Cmp} {i j : Int} (h : legalizeOr c i = (.sgt, j)) : j ≤ i := by
  cases c <;> simp [legalizeOr] at h <;> omega

theorem boundsAnd_sound {w : Nat} (hw : 17 ≤ w) {v : Expr w} {i j : Int} {e' : Expr 1} (hi' : lo w ≤ i) (hj : j ≤ hi w)
    (h : boundsAnd v i j = some e') {ρ : Env} (hv : Def false ρ v) :
    Def false ρ e' ∧ (val ρ e' = 1 ↔ i ≤ sval (val ρ v) ∧ sval (val ρ v) ≤ j) := by
  unfold boundsAnd at h
  have hh := hi_nonneg w
  have hl := lo_nonpos w
  have hs := hi_sub_lo w
  split at h
  · injection h with h; subst h
    refine ⟨trivial, ?_⟩
    rw [cst_val]
    exact iff_of_false (by decide) (by omega)
  split at h
  · injection h with h; subst h
    rename_i h1 h2; subst h2
    refine ⟨⟨hv, trivial⟩, ?_⟩
    simp only [icmp_one, cmpProp, cst_val]
    rw [← sval_inj, sval_ofInt ⟨hi', hj⟩]; omega
  split at h
  · injection h with h; subst h
    refine ⟨⟨⟨hv, trivial, by simp [binDef]⟩, trivial⟩, ?_⟩
    rw [icmp_one]; simp only [cmpProp, cst_val, val, binVal]
    have hp : (131072 : Int) ≤ 2 ^ w := by
      calc (131072 : Int) = 2 ^ 17 := rfl
        _ ≤ 2 ^ w := pow_le_pow_right₀ (by omega) hw
    have hn := toNat_ofInt_of_nonneg (w := w) (i := j - i + 1) (by omega) (by omega)
    have := sub_toNat_le (val ρ v) hi' hj (by omega)
    rw [← this]
    zify
    rw [hn]
    omega
  · cases h

theorem boundsOr_sound {w : Nat} {v : Expr w} {i j : Int} {e' : Expr 1} (hi' : lo w ≤ i) (hj : j ≤ hi w)
    (h : boundsOr v i j = some e') {ρ : Env} (hv : Def false ρ v) :
    Def false ρ e' ∧ (val ρ e' = 1 ↔ sval (val ρ v) < i ∨ j < sval (val ρ v)) := by
  unfold boundsOr at h
  have hh := hi_nonneg w
  have hl := lo_nonpos w
  have hs := hi_sub_lo w
  split at h
  · injection h with h; subst h
    refine ⟨trivial, ?_⟩
    rw [cst_val]
    exact iff_of_true (by decide) (by omega)
  split at h
  · injection h with h; subst h
    rename_i h1 h2; subst h2
    refine ⟨⟨hv, trivial⟩, ?_⟩
    simp only [icmp_one, cmpProp, cst_val]
    rw [Ne, ← sval_inj, sval_ofInt ⟨hi', hj⟩]; omega
  split at h
  · injection h with h; subst h
    refine ⟨⟨⟨hv, trivial, by simp [binDef]⟩, trivial⟩, ?_⟩
    rw [icmp_one]; simp only [cmpProp, cst_val, val, binVal]
    have hn := toNat_ofInt_of_nonneg (w := w) (i := j - i) (by omega) (by omega)
    have := sub_toNat_le (val ρ v) hi' hj (by omega)
    zify
    rw [hn]
    omega
  · cases h

theorem or_toInt_nonneg {w : Nat} (hw : 1 < w) (x y : BitVec w) : sval (x ||| y) < 0 ↔ sval x < 0 ∨ sval y < 0 := by
  rw [neg_iff_msb hw, neg_iff_msb hw, neg_iff_msb hw]; simp

theorem and_toInt_nonneg {w : Nat} (hw : 1 < w) (x y : BitVec w) : sval (x &&& y) < 0 ↔ sval x < 0 ∧ sval y < 0 := by
  rw [neg_iff_msb hw, neg_iff_msb hw, neg_iff_msb hw]; simp

theorem fits_tmod {w : Nat} (x : BitVec w) (n : Int) : Fits w ((sval x).tmod n) := by
  have h1 := le_sval x
  have h2 := sval_le x
  have h3 := Int.natAbs_tmod (sval x) n
  have h4 : (sval x).natAbs % n.natAbs ≤ (sval x).natAbs := Nat.mod_le _ _
  have h5 := lo_nonpos w
  have h6 := hi_nonneg w
  rcases le_total 0 (sval x) with h | h
  · have := Int.tmod_nonneg n h
    exact ⟨by omega, by omega⟩
  · have := Int.tmod_nonneg n (a := -sval x) (by omega)
    rw [Int.neg_tmod] at this
    exact ⟨by omega, by omega⟩

theorem tmod_two_eq_one (x : Int) : x.tmod 2 = 1 ↔ 0 ≤ x ∧ x % 2 = 1 := by
  rcases le_total 0 x with h | h
  · rw [Int.tmod_eq_emod_of_nonneg h]; omega
  · have := Int.tmod_nonneg 2 (a := -x) (by omega)
    rw [Int.neg_tmod] at this
    constructor
    · omega
    · rintro ⟨h1, h2⟩; omega

theorem sval_mod_two {w : Nat} (hw : 0 < w) (x : BitVec w) : sval x % 2 = (x.toNat : Int) % 2 := by
  have hd : (2 : Int) ∣ 2 ^ w := dvd_pow_self 2 (by omega)
  rw [sval_eq]; split <;> omega

theorem and_sign_one {w : Nat} (hw : 2 < w) (x : BitVec w) :
    x &&& BitVec.ofInt w (-(2 ^ (w - 1) - 1)) = 1 ↔ 0 ≤ sval x ∧ x.toNat % 2 = 1 := by
  have hm : BitVec.ofInt w (-(2 ^ (w - 1) - 1)) = BitVec.twoPow w (w - 1) ||| BitVec.twoPow w 0 := by
    rw [← BitVec.add_eq_or_of_and_eq_zero]
    · apply BitVec.eq_of_toNat_eq
      have h2 := two_pow_split (show 1 < w by omega)
      have h4 : (4 : Int) ≤ 2 ^ (w - 1) := by
        calc (4 : Int) = 2 ^ 2 := rfl
          _ ≤ 2 ^ (w - 1) := pow_le_pow_right₀ (by omega) (by omega)
      have e1 : BitVec.ofInt w (-(2 ^ (w - 1) - 1)) = BitVec.ofInt w (2 ^ (w - 1) + 1) := by
        rw [ofInt_congr, ← Int.add_emod_right]; congr 1; omega
      have e2 := toNat_ofInt_of_nonneg (w := w) (i := 2 ^ (w - 1) + 1) (by omega) (by omega)
      rw [e1, BitVec.toNat_add, BitVec.toNat_twoPow, BitVec.toNat_twoPow]
      zify
      rw [e2]
      have e3 : ((2 : Int) ^ (w - 1) % 2 ^ w) = 2 ^ (w - 1) := Int.emod_eq_of_lt (by omega) (by omega)
      have e4 : ((2 : Int) ^ 0 % 2 ^ w) = 1 := Int.emod_eq_of_lt (by omega) (by omega)
      rw [e3, e4]
      exact (Int.emod_eq_of_lt (by omega) (by omega)).symm
    · rw [BitVec.and_twoPow, BitVec.getLsbD_twoPow]
      simp; omega
  rw [hm, BitVec.and_or_distrib_left, BitVec.and_twoPow, BitVec.and_twoPow]
  have h1 : x.getLsbD (w - 1) = true ↔ sval x < 0 := by rw [neg_iff_msb (by omega), BitVec.msb_eq_getLsbD_last]
  have h2 : x.getLsbD 0 = true ↔ x.toNat % 2 = 1 := by simp [BitVec.getLsbD, Nat.testBit_zero]
  have e0 : BitVec.twoPow w 0 = 1 := by simp [BitVec.twoPow]
  have hne : BitVec.twoPow w (w - 1) ||| (1 : BitVec w) ≠ 1 := by
    intro h
    have := congrArg (fun z : BitVec w => z.getLsbD (w - 1)) h
    simp only [BitVec.getLsbD_or, BitVec.getLsbD_twoPow] at this
    rw [show (1 : BitVec w) = 1#w from rfl, BitVec.getLsbD_one] at this
    simp at this; omega
  have hne2 : BitVec.twoPow w (w - 1) ||| (0 : BitVec w) ≠ 1 := by
    intro h
    have := congrArg (fun z : BitVec w => z.getLsbD (w - 1)) h
    simp only [BitVec.getLsbD_or, BitVec.getLsbD_twoPow] at this
    rw [show (1 : BitVec w) = 1#w from rfl, BitVec.getLsbD_one] at this
    simp at this; omega
  have hne3 : (0 : BitVec w) ||| 0 ≠ 1 := by
    intro h; exact one_ne_zero_bv (w := w) (by omega) (by rw [← h]; simp)
  rw [e0]
  by_cases ha : x.getLsbD (w - 1) = true <;> by_cases hb : x.getLsbD 0 = true
  · rw [if_pos ha, if_pos hb]; rw [h1] at ha; exact iff_of_false hne (by omega)
  · rw [if_pos ha, if_neg hb]; rw [h1] at ha; exact iff_of_false hne2 (by omega)
  · rw [if_neg ha, if_pos hb]; rw [h1] at ha; rw [h2] at hb
    exact iff_of_true (by simp) (by omega)
  · rw [if_neg ha, if_neg hb]; rw [h2] at hb; exact iff_of_false hne3 (by omega)

theorem srem_pow2_zero {w k : Nat} (hk : k < w) {x p : BitVec w} (hp : p.toNat = 2 ^ k) (hf : Fits w ((sval x).tdiv (sval p))) :
    BitVec.ofInt w ((sval x).tmod (sval p)) = 0 ↔ x.toNat % 2 ^ k = 0 := by
  have hft := fits_tmod x (sval p)
  rw [eq_zero_iff, sval_ofInt hft, ← Int.dvd_iff_tmod_eq_zero, ← Nat.dvd_iff_mod_eq_zero, ← sval_dvd_iff (by omega)]
  rw [sval_eq p, hp]
  split
  · push_cast; rfl
  · rename_i hc
    have hw : 1 < w := by
      by_contra hw
      have : w = 1 := by omega
      subst this
      have : k = 0 := by omega
      subst this
      exact hc (by decide)
    have : k = w - 1 := by
      by_contra hne
      apply hc
      unfold hi; rw [if_neg (by omega)]
      have : (2 : Int) ^ k < 2 ^ (w - 1) := pow_lt_pow_right₀ (by omega) (by omega)
      push_cast; omega
    have e : ((2 ^ k : Nat) : Int) - 2 ^ w = -(2 ^ k) := by
      have h2 := two_pow_split hw; rw [this]; push_cast; omega
    rw [e]
    exact Int.neg_dvd

theorem zext_cmp {w : Nat} (hw : 0 < w) (a : BitVec 1) (b : BitVec w) :
    a.setWidth w = b ↔ if b.toNat = 0 then ¬ a = 1 else if b.toNat = 1 then a = 1 else False := by
  rw [← BitVec.toNat_inj, zext_toNat hw]
  have key : ∀ (P : Prop) [Decidable P] (n : Nat), ((if P then 1 else 0) = n ↔ if n = 0 then ¬ P else if n = 1 then P else False) := by
    intro P _ n
    rcases n with _ | _ | n <;> by_cases hp : P <;> simp [hp]
  exact key _ _

theorem RC.sound {e e' : Expr 1} (h : RC e e') : Refines e e' := by
  intro ρ hd
  cases h with
  | ugeZero h1 h2 => exact ⟨trivial, bool_ext (by rw [h1.one, cst1_one]; simp [cmpProp, h2.toNat])⟩
  | ultZero h1 h2 => exact ⟨trivial, bool_ext (by rw [h1.one, cst0_one]; simp [cmpProp, h2.toNat])⟩
  | @zextEq w _ a _ u hw h1 h2 =>
    rw [h1.dfn] at hd
    refine ⟨by split_ifs; exacts [(mkNot_dfn a).2 hd.1, hd.1, trivial], bool_ext ?_⟩
    rw [h1.one]
    simp only [cmpProp, val, castVal]
    rw [zext_cmp hw, h2.toNat]
    split_ifs
    · exact mkNot_one a
    · exact Iff.rfl
    · exact cst0_one
  | @zextNe w _ a _ u hw h1 h2 =>
    rw [h1.dfn] at hd
    refine ⟨by split_ifs; exacts [hd.1, (mkNot_dfn a).2 hd.1, trivial], bool_ext ?_⟩
    rw [h1.one]
    simp only [cmpProp, val, castVal, Ne]
    rw [zext_cmp hw, h2.toNat]
    split_ifs
    · exact not_not.symm
    · exact mkNot_one a
    · rw [cst1_one]; simp
  | eqTrue h1 h2 =>
    rw [h1.dfn] at hd
    refine ⟨hd.1, bool_ext ?_⟩
    rw [h1.one]; simp only [cmpProp, h2.val]; exact Iff.rfl
  | notCmp h1 h2 h3 =>
    rw [h1.dfn, h2.dfn] at hd
    refine ⟨hd.1, bool_ext ?_⟩
    rw [h1.val, h3.val]
    simp only [binVal]
    refine Iff.trans ?_ (bool_xor_one_eq_one _).symm
    rw [icmp_one, h2.one, ← cmpVal_iff, ← cmpVal_iff, (C36_icmp _ _ _).2.1]
    simp
  | @cmpSelf w _ c a h1 =>
    refine ⟨trivial, bool_ext ?_⟩
    rw [h1.one]
    cases c <;> simp only [cmpProp, cst1_one, cst0_one] <;> simp
  | @negCmp w _ c x b i h1 h2 h3 =>
    rw [h1.dfn] at hd
    refine ⟨⟨trivial, hd.1.1⟩, bool_ext ?_⟩
    rw [h1.one, icmp_one]
    have : -(val ρ x) = BitVec.ofInt w i ↔ BitVec.ofInt w (-i) = val ρ x := by
      rw [BitVec.ofInt_neg]
      constructor
      · intro h; rw [← h]; simp
      · intro h; rw [← h]; simp
    rcases h3 with h3 | h3 <;> subst h3 <;> simp only [cmpProp, cst_val, h2.val, val, this, Ne]
  | @andEqEq w _ _ _ a b c d i j h1 h2 h3 h4 h5 =>
    rw [h1.dfn, h2.dfn, h4.dfn] at hd
    have key : ∀ (v : Expr w) (k : Int), Def false ρ v → Def false ρ (if k = 0 then v else bin .xor v (cst k)) ∧
        (val ρ (if k = 0 then v else bin .xor v (cst k)) = 0 ↔ val ρ v = BitVec.ofInt w k) := by
      intro v k hv
      split_ifs with hk
      · subst hk; exact ⟨hv, by rw [ofInt_zero']⟩
      · exact ⟨⟨hv, trivial, trivial⟩, by simp only [val, binVal, cst_val]; exact xor_eq_zero _ _⟩
    obtain ⟨ka, ka'⟩ := key a i hd.1.1
    obtain ⟨kb, kb'⟩ := key b j hd.2.1.1
    refine ⟨⟨⟨ka, kb, trivial⟩, trivial⟩, bool_ext ?_⟩
    rw [icmp_one, and_one h1, h2.one, h4.one]
    simp only [cmpProp, cst_val, ofInt_zero', h3.val, h5.val]
    rw [← ka', ← kb']
    exact or_eq_zero _ _
  | @andOddOdd w _ _ _ x y a b c d z1 z2 h1 h2 h3 h4 h5 h6 h7 h8 h9 =>
    have hw := width_posU h5 (by decide)
    rw [h1.dfn, h2.dfn, h6.dfn, h8.dfn] at hd
    refine ⟨⟨hd.1.1, hd.2.1.1.1, trivial⟩, bool_ext ?_⟩
    rw [and_one h1, h2.one, h6.one]
    simp only [cmpProp, h3.val, h7.val, ofInt_zero', val, castVal, binVal, h4.val, h5.val, h8.val, h9.val]
    have e1 : BitVec.ofNat w 1 = BitVec.ofInt w 1 := by simp
    rw [setWidth_one_eq_one, ne_zero_iff_toNat, ne_zero_iff_toNat, e1, and_one_toNat hw, and_one_toNat hw, BitVec.toNat_and, and_one_toNat hw]
    rw [← Nat.and_one_is_mod (_ &&& _), Nat.and_assoc, Nat.and_one_is_mod]
    rcases Nat.mod_two_eq_zero_or_one (val ρ a).toNat with h | h <;> rcases Nat.mod_two_eq_zero_or_one (val ρ b).toNat with h' | h' <;>
      rw [h, h'] <;> decide
  | @orNeNe w _ _ _ a b z1 z2 h1 h2 h3 h4 h5 =>
    rw [h1.dfn, h2.dfn, h4.dfn] at hd
    refine ⟨⟨⟨hd.1.1, hd.2.1.1, trivial⟩, trivial⟩, bool_ext ?_⟩
    rw [icmp_one, or_one h1, h2.one, h4.one]
    simp only [cmpProp, cst_val, ofInt_zero', h3.val, h5.val, val, binVal, Ne]
    rw [or_eq_zero]; tauto
  | @andZextNe w _ a b m z hw h1 h2 h3 =>
    rw [h1.dfn, h2.dfn] at hd
    refine ⟨⟨hd.1.1, hd.1.2.1, trivial⟩, bool_ext ?_⟩
    rw [h1.one]
    simp only [cmpProp, h2.val, h3.val, val, castVal, binVal]
    rw [← BitVec.setWidth_and, show BitVec.ofNat w 0 = 0 from rfl, zext_ne_zero hw]
  | @andZextEq w _ a b m z hw h1 h2 h3 =>
    rw [h1.dfn, h2.dfn] at hd
    refine ⟨(mkNot_dfn _).2 ⟨hd.1.1, hd.1.2.1, trivial⟩, bool_ext ?_⟩
    rw [h1.one, mkNot_one]
    simp only [cmpProp, h2.val, h3.val, val, castVal, binVal]
    rw [← BitVec.setWidth_and, show BitVec.ofNat w 0 = 0 from rfl, ← zext_ne_zero hw, Ne, not_not]
  | @sremPow2 w _ c r x p z hw hc h1 h2 h3 h4 =>
    rw [h1.dfn, h3.dfn] at hd
    obtain ⟨k, hk, hp⟩ := h4.pow2 hw hd.1.2.1
    refine ⟨⟨⟨hd.1.1, ⟨hd.1.2.1, trivial, by simp [binDef]⟩, trivial⟩, hd.2⟩, bool_ext ?_⟩
    have e1 := srem_pow2_zero hk hp hd.1.2.2.2
    have e2 : val ρ x &&& (val ρ p - BitVec.ofInt w 1) = 0 ↔ (val ρ x).toNat % 2 ^ k = 0 := by
      rw [← and_pred_pow2 hk hp, ← BitVec.toNat_inj]; simp
    rw [h1.one, icmp_one]
    rcases hc with hc | hc <;> subst hc <;> simp only [cmpProp, h2.val, h3.val, val, binVal, cst_val] <;>
      rw [show BitVec.ofNat w 0 = 0 from rfl]
    · rw [e1, e2]
    · exact not_congr (e2.trans e1.symm)
  | andBounds hw h1 h2 h3 h4 h5 h6 h7 h8 =>
    rw [h1.dfn, h2.dfn] at hd
    have := h3.fits; have := h5.fits
    obtain ⟨k1, k2⟩ := boundsAnd_sound hw (by have := legalizeAnd_lo h6; unfold Fits at *; omega)
      (by have := legalizeAnd_hi h7; unfold Fits at *; omega) h8 hd.1.1
    refine ⟨k1, bool_ext ?_⟩
    rw [k2, and_one h1, h2.one, h4.one, legalizeAnd_spec h6 _ _ h3.sval (by simp), legalizeAnd_spec h7 _ _ h5.sval (by simp)]
    simp
  | andBounds' hw h1 h2 h3 h4 h5 h6 h7 h8 =>
    rw [h1.dfn, h2.dfn] at hd
    have := h3.fits; have := h5.fits
    obtain ⟨k1, k2⟩ := boundsAnd_sound hw (by have := legalizeAnd_lo h7; unfold Fits at *; omega)
      (by have := legalizeAnd_hi h6; unfold Fits at *; omega) h8 hd.1.1
    refine ⟨k1, bool_ext ?_⟩
    rw [k2, and_one h1, h2.one, h4.one, legalizeAnd_spec h6 _ _ h3.sval (by simp), legalizeAnd_spec h7 _ _ h5.sval (by simp)]
    simp [and_comm]
  | orBounds h1 h2 h3 h4 h5 h6 h7 h8 =>
    rw [h1.dfn, h2.dfn] at hd
    have := h3.fits; have := h5.fits
    obtain ⟨k1, k2⟩ := boundsOr_sound (by have := legalizeOr_lo h6; unfold Fits at *; omega)
      (by have := legalizeOr_hi h7; unfold Fits at *; omega) h8 hd.1.1
    refine ⟨k1, bool_ext ?_⟩
    rw [k2, or_one h1, h2.one, h4.one, legalizeOr_spec h6 _ _ h3.sval (by simp), legalizeOr_spec h7 _ _ h5.sval (by simp)]
    simp
  | orBounds' h1 h2 h3 h4 h5 h6 h7 h8 =>
    rw [h1.dfn, h2.dfn] at hd
    have := h3.fits; have := h5.fits
    obtain ⟨k1, k2⟩ := boundsOr_sound (by have := legalizeOr_lo h7; unfold Fits at *; omega)
      (by have := legalizeOr_hi h6; unfold Fits at *; omega) h8 hd.1.1
    refine ⟨k1, bool_ext ?_⟩
    rw [k2, or_one h1, h2.one, h4.one, legalizeOr_spec h6 _ _ h3.sval (by simp), legalizeOr_spec h7 _ _ h5.sval (by simp)]
    simp [or_comm]
  | @sremTwoEqOne w _ r x t o h1 h2 h3 h4 =>
    have hw : 2 < w := by
      have := h4.fits.2
      unfold hi at this
      by_contra hc
      rcases (show w = 0 ∨ w = 1 ∨ w = 2 by omega) with h | h | h <;> subst h <;> norm_num at this
    rw [h1.dfn, h3.dfn] at hd
    refine ⟨⟨⟨hd.1.1, trivial, trivial⟩, hd.2⟩, bool_ext ?_⟩
    rw [icmp_one, h1.one]
    simp only [cmpProp, val, binVal, h2.val, h3.val, cst_val]
    rw [h4.sval, ofInt_one, and_sign_one hw, ← sval_inj, sval_ofInt (fits_tmod _ _), sval_one (by omega), tmod_two_eq_one,
      sval_mod_two (by omega)]
    omega
  | @andOneNe w _ m x o z h1 h2 h3 h4 =>
    have hw := width_pos h4 (by decide)
    rw [h1.dfn, h3.dfn] at hd
    refine ⟨hd.1.1, bool_ext ?_⟩
    rw [h1.one]
    simp only [cmpProp, h2.val, h3.val, h4.val, val, castVal, binVal, ofInt_zero']
    rw [setWidth_one_eq_one, ne_zero_iff_toNat, and_one_toNat hw]; omega
  | ltOrNe h1 h2 h3 =>
    rw [h1.dfn] at hd
    refine ⟨hd.2.1, bool_ext ?_⟩
    rw [or_one h1, h2.one, h3.one]
    simp only [cmpProp, ← sval_inj, Ne]; omega
  | @andNonneg w _ _ _ x y a b h1 h2 h3 h4 h5 =>
    have hw := width_of_neg h3 (by decide)
    rw [h1.dfn, h2.dfn, h4.dfn] at hd
    refine ⟨⟨⟨hd.1.1, hd.2.1.1, trivial⟩, hd.1.2⟩, bool_ext ?_⟩
    rw [icmp_one, and_one h1, h2.one, h4.one]
    simp only [cmpProp, h3.sval, h5.sval, val, binVal]
    have := or_toInt_nonneg hw (val ρ x) (val ρ y)
    omega
  | @andNeg w _ _ _ x y a b hw h1 h2 h3 h4 h5 =>
    rw [h1.dfn, h2.dfn, h4.dfn] at hd
    refine ⟨⟨⟨hd.1.1, hd.2.1.1, trivial⟩, trivial, shamt_ok hw⟩, bool_ext ?_⟩
    rw [and_one h1, h2.one, h4.one]
    simp only [cmpProp, h3.sval, h5.sval, val, binVal, castVal, cst_val]
    rw [trunc_lshr_msb hw, ofBool_eq_one, ← neg_iff_msb hw, and_toInt_nonneg hw]
  | @orNonneg w _ _ _ x y a b h1 h2 h3 h4 h5 =>
    have hw := width_of_neg h3 (by decide)
    rw [h1.dfn, h2.dfn, h4.dfn] at hd
    refine ⟨⟨⟨hd.1.1, hd.2.1.1, trivial⟩, hd.1.2⟩, bool_ext ?_⟩
    rw [icmp_one, or_one h1, h2.one, h4.one]
    simp only [cmpProp, h3.sval, h5.sval, val, binVal]
    have := and_toInt_nonneg hw (val ρ x) (val ρ y)
    omega
  | @orNeg w _ _ _ x y a b hw h1 h2 h3 h4 h5 =>
    rw [h1.dfn, h2.dfn, h4.dfn] at hd
    refine ⟨⟨⟨hd.1.1, hd.2.1.1, trivial⟩, trivial, shamt_ok hw⟩, bool_ext ?_⟩
    rw [or_one h1, h2.one, h4.one]
    simp only [cmpProp, h3.sval, h5.sval, val, binVal, castVal, cst_val]
    rw [trunc_lshr_msb hw, ofBool_eq_one, ← neg_iff_msb hw, or_toInt_nonneg hw]
  | sleLt h1 h2 h3 =>
    rw [h1.dfn] at hd
    refine ⟨⟨hd.1, trivial⟩, bool_ext ?_⟩
    rw [icmp_one, h1.one]
    simp only [cmpProp, h2.sval, cst_val]
    rw [sval_ofInt (by have := h2.fits; unfold Fits at *; omega)]; omega
  | sgeGt h1 h2 h3 =>
    rw [h1.dfn] at hd
    refine ⟨⟨hd.1, trivial⟩, bool_ext ?_⟩
    rw [icmp_one, h1.one]
    simp only [cmpProp, h2.sval, cst_val]
    rw [sval_ofInt (by have := h2.fits; unfold Fits at *; omega)]; omega
  | @subZextEq w _ b s x hw h1 h2 =>
    rw [h1.dfn, h2.dfn] at hd
    refine ⟨(mkNot_dfn _).2 hd.1.2.1, bool_ext ?_⟩
    rw [mkNot_one, h1.one, ← zext_ne_zero hw, Ne, not_not]
    simp only [cmpProp, h2.val, val, binVal, castVal]
    exact sub_eq_self.symm
  | @subZextNe w _ b s x hw h1 h2 =>
    rw [h1.dfn, h2.dfn] at hd
    refine ⟨hd.1.2.1, bool_ext ?_⟩
    rw [h1.one, ← zext_ne_zero hw]
    simp only [cmpProp, h2.val, val, binVal, castVal]
    exact (not_congr sub_eq_self).symm
  | @zextAddOne w _ b c s o o' hw h1 h2 h3 h4 =>
    rw [h1.dfn, h3.dfn] at hd
    have hb : Def false ρ b := hd.1.1
    refine ⟨by cases c <;> first | exact trivial | exact hb | exact (mkNot_dfn _).2 hb, bool_ext ?_⟩
    have hs1 : sval (BitVec.ofInt w 1) = 1 := by rw [ofInt_one, sval_one (by omega)]
    have hp : (8 : Int) ≤ 2 ^ w := by
      calc (8 : Int) = 2 ^ 3 := rfl
        _ ≤ 2 ^ w := pow_le_pow_right₀ (by omega) hw
    have hp1 : (4 : Int) ≤ 2 ^ (w - 1) := by
      calc (4 : Int) = 2 ^ 2 := rfl
        _ ≤ 2 ^ (w - 1) := pow_le_pow_right₀ (by omega) (by omega)
    have hn1 : (BitVec.ofInt w 1).toNat = 1 := by
      have := toNat_ofInt_of_nonneg (w := w) (i := 1) (by omega) (by omega); omega
    have hf2 : Fits w 2 := by
      refine ⟨by have := lo_nonpos w; omega, ?_⟩
      unfold hi; rw [if_neg (by omega)]; omega
    have hs2 : sval (BitVec.ofInt w 2) = 2 := sval_ofInt hf2
    have hn2 : (BitVec.ofInt w 2).toNat = 2 := by
      have := toNat_ofInt_of_nonneg (w := w) (i := 2) (by omega) (by omega); omega
    have hv : val ρ s = if val ρ b = 1 then BitVec.ofInt w 2 else BitVec.ofInt w 1 := by
      simp only [h3.val, h4.val, val, castVal, binVal]
      rw [zext_eq]
      split
      · rw [← ofInt_one, ← BitVec.ofInt_add]; rfl
      · simp
    rw [h1.one]
    have hne : BitVec.ofInt w 2 ≠ BitVec.ofInt w 1 := by
      intro h; rw [h] at hn2; omega
    by_cases hb1 : val ρ b = 1
    · rw [if_pos hb1] at hv
      cases c <;> simp only [cmpProp, hv, h2.val, hs1, hs2, hn1, hn2, mkNot_one, cst1_one, cst0_one, Ne, hne, hb1] <;> decide
    · rw [if_neg hb1] at hv
      cases c <;> simp only [cmpProp, hv, h2.val, hs1, hn1, mkNot_one, cst1_one, cst0_one, Ne, hb1] <;> decide
  | @andLtMin w _ _ _ c x y z hc h1 h2 h3 =>
    rw [h1.dfn, h2.dfn, h3.dfn] at hd
    refine ⟨⟨hd.1.1, hd.1.2, hd.2.1.2, trivial⟩, bool_ext ?_⟩
    rw [icmp_one, and_one h1, h2.one, h3.one]
    rcases hc with hc | hc <;> subst hc <;> simp only [cmpProp, val, binVal] <;> split <;> omega
  | @andGtMax w _ _ _ c x y z hc h1 h2 h3 =>
    rw [h1.dfn, h2.dfn, h3.dfn] at hd
    refine ⟨⟨hd.1.1, hd.1.2, hd.2.1.2, trivial⟩, bool_ext ?_⟩
    rw [icmp_one, and_one h1, h2.one, h3.one]
    rcases hc with hc | hc <;> subst hc <;> simp only [cmpProp, val, binVal] <;> split <;> omega

end Cmmc.IR
