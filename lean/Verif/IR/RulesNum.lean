import Verif.IR.RulesSel
/-!
# Integer rewrite rules of `ArithmeticReduce` (cmmc/Transforms/Combine/ArithmeticReduce.cpp), part 4: shifts, min/max, abs, division

All rules here are valid for wrapping arithmetic; *restricted* marks a side condition the C++ code does not check.
-/
namespace Cmmc.IR

open Expr

/-- bounds computed at lines 1053-1065 -/
def sdivLower (c q : Int) : Int := if q > 0 then c * q else c * q - (c - 1)
def sdivUpper (c q : Int) : Int := if q > 0 then c * q + c else if q = 0 then c * q + c else c * q + 1

inductive RN : {w : Nat} → Expr w → Expr w → Prop
  /-- line 496-502: (x << c1) << c2 -/
  | shlShl {w} {x a b : Expr w} {i j : Int} : MInt a i → MInt b j →
      RN (bin .shl (bin .shl x a) b) (if 0 ≤ i + j ∧ i + j < w then bin .shl x (cst (i + j)) else cst 0)
  /-- line 503-508: (x >>u c1) >>u c2 -/
  | lshrLshr {w} {x a b : Expr w} {i j : Int} : MInt a i → MInt b j →
      RN (bin .lshr (bin .lshr x a) b) (if 0 ≤ i + j ∧ i + j < w then bin .lshr x (cst (i + j)) else cst 0)
  /-- line 509-514: (x >>s c1) >>s c2. *Restricted*: the sum of the shift amounts is below the width -/
  | ashrAshr {w} {x a b : Expr w} {i j : Int} : MInt a i → MInt b j → 0 ≤ i + j → i + j < w →
      RN (bin .ashr (bin .ashr x a) b) (bin .ashr x (cst (i + j)))
  /-- line 532: a << 0 -> a -/
  | shlZero {w} {x a : Expr w} : MUInt a 0 → RN (bin .shl x a) x
  /-- line 535: a << c, c >= width -> 0 -/
  | shlBig {w} {x a : Expr w} {u : Nat} : MUInt a u → w ≤ u → RN (bin .shl x a) (cst 0)
  /-- line 538: a >>s 0 -> a -/
  | ashrZero {w} {x a : Expr w} : MUInt a 0 → RN (bin .ashr x a) x
  /-- line 540: a >>u 0 -> a -/
  | lshrZero {w} {x a : Expr w} : MUInt a 0 → RN (bin .lshr x a) x
  /-- line 571-574: smin(smin(a, b), c), c one of a, b -/
  | minMin {w} {e m a b c : Expr w} : MBin .smin e m c → MBin .smin m a b → a = c ∨ b = c → RN e (bin .smin a b)
  /-- line 576-579: smax(smax(a, b), c), c one of a, b -/
  | maxMax {w} {e m a b c : Expr w} : MBin .smax e m c → MBin .smax m a b → a = c ∨ b = c → RN e (bin .smax a b)
  /-- line 581-584: smin(smax(a, b), c), c one of a, b -/
  | minMax {w} {e m a b c : Expr w} : MBin .smin e m c → MBin .smax m a b → a = c ∨ b = c → RN e c
  /-- line 586-589: smax(smin(a, b), c), c one of a, b -/
  | maxMin {w} {e m a b c : Expr w} : MBin .smax e m c → MBin .smin m a b → a = c ∨ b = c → RN e c
  /-- line 592-595: smin(a, INT_MIN) -/
  | minMIN {e a b : Expr 32} : MBin .smin e a b → MInt b (-2147483648) → RN e (cst (-2147483648))
  /-- line 597-600: smin(a, INT_MAX) -/
  | minMAX {e a b : Expr 32} : MBin .smin e a b → MInt b 2147483647 → RN e a
  /-- line 602-605: smax(a, INT_MAX) -/
  | maxMAX {e a b : Expr 32} : MBin .smax e a b → MInt b 2147483647 → RN e (cst 2147483647)
  /-- line 607-610: smax(a, INT_MIN) -/
  | maxMIN {e a b : Expr 32} : MBin .smax e a b → MInt b (-2147483648) → RN e a
  /-- line 613-615: a < b ? a : b -/
  | selMin {w} {t : Expr 1} {c : Cmp} {a b : Expr w} : MCmp t c a b → c = .slt ∨ c = .sle → RN (select t a b) (bin .smin a b)
  /-- line 616-618: a > b ? a : b -/
  | selMax {w} {t : Expr 1} {c : Cmp} {a b : Expr w} : MCmp t c a b → c = .sgt ∨ c = .sge → RN (select t a b) (bin .smax a b)
  /-- line 619-620: a < b ? b : a -/
  | selMax' {w} {t : Expr 1} {c : Cmp} {a b : Expr w} : MCmp t c a b → c = .slt ∨ c = .sle → RN (select t b a) (bin .smax a b)
  /-- line 621-623: a > b ? b : a -/
  | selMin' {w} {t : Expr 1} {c : Cmp} {a b : Expr w} : MCmp t c a b → c = .sgt ∨ c = .sge → RN (select t b a) (bin .smin a b)
  /-- line 629-634: x > c1 ? c1 : smax(x, c2), c1 > c2 -/
  | clamp {w} {t : Expr 1} {c : Cmp} {x a b m : Expr w} {i j : Int} : MCmp t c x a → MInt a i → MBin .smax m x b → MInt b j →
      c = .sgt ∨ c = .sge → i > j → RN (select t a m) (bin .smin m a)
  /-- line 636-641: x < c1 ? c1 : smin(x, c2), c1 < c2 -/
  | clamp' {w} {t : Expr 1} {c : Cmp} {x a b m : Expr w} {i j : Int} : MCmp t c x a → MInt a i → MBin .smin m x b → MInt b j →
      c = .slt ∨ c = .sle → i < j → RN (select t a m) (bin .smax m a)
  /-- line 845-847: x > 0 ? x : -x -/
  | abs1 {w} {t : Expr 1} {c : Cmp} {x z : Expr w} : MCmp t c x z → MInt z 0 → c = .sgt ∨ c = .sge → RN (select t x (neg x)) (abs x)
  /-- line 849-851: x < 0 ? x : -x -/
  | abs2 {w} {t : Expr 1} {c : Cmp} {x z : Expr w} : MCmp t c x z → MInt z 0 → c = .slt ∨ c = .sle → RN (select t x (neg x)) (neg (abs x))
  /-- line 853-856: x > 0 ? -x : x -/
  | abs3 {w} {t : Expr 1} {c : Cmp} {x z : Expr w} : MCmp t c x z → MInt z 0 → c = .sgt ∨ c = .sge → RN (select t (neg x) x) (neg (abs x))
  /-- line 857-859: x < 0 ? -x : x -/
  | abs4 {w} {t : Expr 1} {c : Cmp} {x z : Expr w} : MCmp t c x z → MInt z 0 → c = .slt ∨ c = .sle → RN (select t (neg x) x) (abs x)
  /-- line 861-864: x < 1 ? x : -x -/
  | abs5 {w} {t : Expr 1} {x z : Expr w} : MCmp t .slt x z → MInt z 1 → RN (select t x (neg x)) (neg (abs x))
  /-- line 866-869: x < 1 ? -x : x -/
  | abs6 {w} {t : Expr 1} {x z : Expr w} : MCmp t .slt x z → MInt z 1 → RN (select t (neg x) x) (abs x)
  /-- line 871-874: x > -1 ? x : -x -/
  | abs7 {w} {t : Expr 1} {x z : Expr w} : MCmp t .sgt x z → MInt z (-1) → RN (select t x (neg x)) (abs x)
  /-- line 876-879: x > -1 ? -x : x -/
  | abs8 {w} {t : Expr 1} {x z : Expr w} : MCmp t .sgt x z → MInt z (-1) → RN (select t (neg x) x) (neg (abs x))
  /-- line 884: abs(abs(x)) -/
  | absAbs {w} {x : Expr w} : RN (abs (abs x)) (abs x)
  /-- line 888: abs(-x) -/
  | absNeg {w} {x : Expr w} : RN (abs (neg x)) (abs x)
  /-- line 897: abs(srem(x, 2)) -> x & 1 -/
  | absSrem2 {w} {r x t : Expr w} : MBin .srem r x t → MInt t 2 → RN (abs r) (bin .and x (cst 1))
  /-- line 139: 0 / a -> 0 -/
  | zeroSdiv {w} {z a : Expr w} : MInt z 0 → RN (bin .sdiv z a) (cst 0)
  | zeroUdiv {w} {z a : Expr w} : MUInt z 0 → RN (bin .udiv z a) (cst 0)
  /-- line 144: a / a -> 1 -/
  | sdivSelf {w} {a : Expr w} : RN (bin .sdiv a a) (cst 1)
  | udivSelf {w} {a : Expr w} : RN (bin .udiv a a) (cst 1)
  /-- line 149: a / 1 -> a -/
  | sdivOne {w} {a o : Expr w} : MInt o 1 → RN (bin .sdiv a o) a
  | udivOne {w} {a o : Expr w} : MUInt o 1 → RN (bin .udiv a o) a
  /-- line 154: a / -1 -> -a -/
  | sdivNegOne {w} {a o : Expr w} : MInt o (-1) → RN (bin .sdiv a o) (neg a)
  /-- line 181-190: a / c1 / c2 -> a / (c1 * c2) when the product is representable -/
  | sdivSdiv {w} {x a b : Expr w} {i j : Int} : MInt a i → MInt b j → Fits w (i * j) →
      RN (bin .sdiv (bin .sdiv x a) b) (bin .sdiv x (cst (i * j)))
  /-- line 189: a / c1 / c2 -> 0 when the product is not representable. *Restricted*: the product is not `2^(w-1)` -/
  | sdivSdivZero {w} {x a b : Expr w} {i j : Int} : MInt a i → MInt b j → ¬ Fits w (i * j) → 1 < w → i * j ≠ 2 ^ (w - 1) →
      RN (bin .sdiv (bin .sdiv x a) b) (cst 0)
  /-- line 192: 0 % a -> 0 -/
  | zeroSrem {w} {z a : Expr w} : MInt z 0 → RN (bin .srem z a) (cst 0)
  | zeroUrem {w} {z a : Expr w} : MUInt z 0 → RN (bin .urem z a) (cst 0)
  /-- line 195: a % a -> 0 -/
  | sremSelf {w} {a : Expr w} : RN (bin .srem a a) (cst 0)
  | uremSelf {w} {a : Expr w} : RN (bin .urem a a) (cst 0)
  /-- line 198: a % 1 -> 0 -/
  | sremOne {w} {a o : Expr w} : MInt o 1 → RN (bin .srem a o) (cst 0)
  | uremOne {w} {a o : Expr w} : MUInt o 1 → RN (bin .urem a o) (cst 0)
  /-- line 312-315: x % 2^k -> x & (2^k - 1), unsigned -/
  | uremPow2 {w} {x p : Expr w} : 0 < w → MLog2 p → RN (bin .urem x p) (bin .and x (bin .sub p (cst 1)))
  /-- line 1051-1078: x / c == q -> x in [lower, upper). *Restricted*: `upper ≤ 2^31` -/
  | sdivEq {e : Expr 1} {d x a b : Expr 32} {c q : Int} : MCmp e .eq d b → MInt b q → MBin .sdiv d x a → MInt a c → 0 < c →
      -2147483647 ≤ sdivLower c q → sdivUpper c q ≤ 2147483648 →
      RN e (icmp .ult (if sdivLower c q = 0 then x else bin .add x (cst (-sdivLower c q))) (cst (sdivUpper c q - sdivLower c q)))

theorem sval_of_shamt {w : Nat} {x : BitVec w} (h : x.toNat < w) : sval x = x.toNat := by
  rw [sval_eq, if_pos]
  unfold hi
  split
  · have : w = 1 := by omega
    subst this; norm_num; omega
  · have : w - 1 < 2 ^ (w - 1) := Nat.lt_two_pow_self
    have h2 : ((2 ^ (w - 1) : Nat) : Int) = 2 ^ (w - 1) := by push_cast; rfl
    omega

theorem shamt_toNat {w : Nat} {i : Int} (h0 : 0 ≤ i) (h1 : i < w) : ((BitVec.ofInt w i).toNat : Int) = i := by
  have : (w : Int) < 2 ^ w := by exact_mod_cast Nat.lt_two_pow_self
  exact toNat_ofInt_of_nonneg h0 (by omega)

theorem sval_neg {w : Nat} (x : BitVec w) : sval (-x) = -sval x ∨ -x = x := by
  by_cases h : Fits w (-sval x)
  · left
    conv => rhs; rw [← sval_ofInt h]
    rw [BitVec.ofInt_neg, ofInt_sval]
  · right
    have h1 := le_sval x
    have h2 := sval_le x
    have e : -x = BitVec.ofInt w (-sval x) := by rw [BitVec.ofInt_neg, ofInt_sval]
    have e2 : x = BitVec.ofInt w (sval x) := (ofInt_sval x).symm
    rw [e]; conv => rhs; rw [e2]
    rw [ofInt_congr]
    unfold Fits lo hi at *
    by_cases hw : w ≤ 1
    · simp only [hw, if_true] at h h1 h2
      rcases (show w = 0 ∨ w = 1 by omega) with h' | h' <;> subst h' <;> norm_num at h h1 h2 ⊢
    · simp only [hw, if_false] at h h1 h2
      have h3 := two_pow_split (show 1 < w by omega)
      have : sval x = -2 ^ (w - 1) := by omega
      rw [this, ← Int.add_emod_right (-2 ^ (w - 1)), h3]; congr 1; omega

theorem abs_val {w : Nat} (x : BitVec w) : BitVec.ofInt w |sval x| = if 0 ≤ sval x then x else -x := by
  split
  · rw [abs_of_nonneg (by assumption), ofInt_sval]
  · rw [abs_of_neg (by omega), BitVec.ofInt_neg, ofInt_sval]

theorem abs_neg_val {w : Nat} (x : BitVec w) : BitVec.ofInt w |sval (-x)| = BitVec.ofInt w |sval x| := by
  rcases sval_neg x with h | h
  · rw [h, abs_neg]
  · rw [h]

theorem abs_abs_val {w : Nat} (x : BitVec w) : BitVec.ofInt w |sval (BitVec.ofInt w |sval x|)| = BitVec.ofInt w |sval x| := by
  rw [abs_val x]
  split
  · rw [abs_val, if_pos (by assumption)]
  · rw [abs_neg_val, abs_val, if_neg (by assumption)]

theorem tdiv_tdiv' (x i j : Int) : (x.tdiv i).tdiv j = x.tdiv (i * j) := by
  have key : ∀ a b c : Nat, ((a : Int).tdiv b).tdiv c = (a : Int).tdiv ((b : Int) * c) := by
    intro a b c
    rw [← Int.ofNat_tdiv, ← Int.ofNat_tdiv, ← Int.natCast_mul, ← Int.ofNat_tdiv, Nat.div_div_eq_div_mul]
  rcases Int.natAbs_eq x with hx | hx <;> rcases Int.natAbs_eq i with hi | hi <;> rcases Int.natAbs_eq j with hj | hj <;>
    rw [hx, hi, hj] <;> simp only [Int.neg_tdiv, Int.tdiv_neg, Int.neg_mul, Int.mul_neg, Int.neg_neg, key]

theorem tdiv_zero_of_abs {x n : Int} (h : x.natAbs < n.natAbs) : x.tdiv n = 0 := by
  have h1 : (x.tdiv n).natAbs = x.natAbs / n.natAbs := Int.natAbs_tdiv x n
  rw [Nat.div_eq_of_lt h] at h1
  omega

theorem tdiv_facts (x : Int) {c : Int} (hc : 0 < c) : c * x.tdiv c + x.tmod c = x ∧ x.tmod c < c ∧ -c < x.tmod c ∧
    (0 ≤ x → 0 ≤ x.tmod c ∧ 0 ≤ x.tdiv c) ∧ (x ≤ 0 → x.tmod c ≤ 0 ∧ x.tdiv c ≤ 0) := by
  refine ⟨Int.mul_tdiv_add_tmod x c, Int.tmod_lt_of_pos x hc, Int.lt_tmod_of_pos x hc, ?_, ?_⟩
  · intro h; exact ⟨Int.tmod_nonneg c h, Int.tdiv_nonneg h (by omega)⟩
  · intro h
    have h1 := Int.tmod_nonneg c (a := -x) (by omega)
    have h2 := Int.tdiv_nonneg (a := -x) (b := c) (by omega) (by omega)
    rw [Int.neg_tmod] at h1
    rw [Int.neg_tdiv] at h2
    omega

theorem sdiv_eq_iff {x c q : Int} (hc : 0 < c) : x.tdiv c = q ↔ sdivLower c q ≤ x ∧ x < sdivUpper c q := by
  obtain ⟨h1, h2, h3, h4, h5⟩ := tdiv_facts x hc
  generalize x.tdiv c = t at *
  generalize x.tmod c = r at *
  unfold sdivLower sdivUpper
  constructor
  · intro h; subst h
    rcases lt_trichotomy t 0 with ht | ht | ht
    · rw [if_neg (by omega), if_neg (by omega), if_neg (by omega)]
      have : x ≤ 0 := by by_contra hx; have := h4 (by omega); omega
      have := h5 this; omega
    · subst ht; rw [if_neg (by omega), if_neg (by omega), if_pos rfl]; omega
    · rw [if_pos ht, if_pos ht]
      have : 0 ≤ x := by by_contra hx; have := h5 (by omega); omega
      have := h4 this; omega
  · intro h
    by_contra hne
    rcases lt_trichotomy q 0 with hq | hq | hq
    · rw [if_neg (by omega), if_neg (by omega), if_neg (by omega)] at h
      have hcq : c * q ≤ -c := by nlinarith
      have hx : x ≤ 0 := by omega
      have hx' := h5 hx
      rcases lt_or_gt_of_ne hne with hl | hl
      · have : c * t ≤ c * q - c := by nlinarith
        omega
      · have : c * t ≥ c * q + c := by nlinarith
        omega
    · subst hq
      rw [if_neg (by omega), if_neg (by omega), if_pos rfl] at h
      rcases lt_or_gt_of_ne hne with hl | hl
      · have : c * t ≤ -c := by nlinarith
        have : ¬ 0 ≤ x := fun hx => by have := h4 hx; omega
        have := h5 (by omega)
        omega
      · have : c * t ≥ c := by nlinarith
        have : ¬ x ≤ 0 := fun hx => by have := h5 hx; omega
        have := h4 (by omega)
        omega
    · rw [if_pos hq, if_pos hq] at h
      have hcq : c ≤ c * q := by nlinarith
      have hx : 0 ≤ x := by omega
      have hx' := h4 hx
      rcases lt_or_gt_of_ne hne with hl | hl
      · have : c * t ≤ c * q - c := by nlinarith
        omega
      · have : c * t ≥ c * q + c := by nlinarith
        omega

theorem fits_tdiv_one {w : Nat} (x : BitVec w) : Fits w ((sval x).tdiv 1) := by rw [Int.tdiv_one]; exact sval_fits x

theorem sel_abs {w : Nat} {ρ : Env} {t : Expr 1} {x : Expr w} (hd : Def false ρ x) (ht : (val ρ t = 1 → 0 ≤ sval (val ρ x)) ∧ (val ρ t ≠ 1 → sval (val ρ x) ≤ 0)) :
    Def false ρ (Expr.abs x) ∧ val ρ (Expr.abs x) = val ρ (select t x (neg x)) := by
  refine ⟨⟨hd, by simp⟩, ?_⟩
  simp only [val, abs_val]
  split_ifs with h1 h2 h2
  · rfl
  · have : sval (val ρ x) = 0 := le_antisymm (ht.2 h2) h1
    rw [← eq_zero_iff] at this
    rw [this]; simp
  · exact absurd (ht.1 h2) h1
  · rfl

theorem sel_abs' {w : Nat} {ρ : Env} {t : Expr 1} {x : Expr w} (hd : Def false ρ x) (ht : (val ρ t = 1 → sval (val ρ x) ≤ 0) ∧ (val ρ t ≠ 1 → 0 ≤ sval (val ρ x))) :
    Def false ρ (Expr.abs x) ∧ val ρ (Expr.abs x) = val ρ (select t (neg x) x) := by
  refine ⟨⟨hd, by simp⟩, ?_⟩
  simp only [val, abs_val]
  split_ifs with h1 h2 h2
  · have : sval (val ρ x) = 0 := le_antisymm (ht.1 h2) h1
    rw [← eq_zero_iff] at this
    rw [this]; simp
  · rfl
  · rfl
  · exact absurd (ht.2 h2) h1

theorem neg_sel {w : Nat} {ρ : Env} {t : Expr 1} {x y z : Expr w} (h : Def false ρ y ∧ val ρ y = val ρ (select t (neg x) z)) (hz : z = x) :
    Def false ρ (neg y) ∧ val ρ (neg y) = val ρ (select t x (neg x)) := by
  subst hz
  refine ⟨⟨h.1, by simp⟩, ?_⟩
  have h2 := h.2
  simp only [val] at h2 ⊢
  rw [h2]; split <;> simp

theorem neg_sel' {w : Nat} {ρ : Env} {t : Expr 1} {x y z : Expr w} (h : Def false ρ y ∧ val ρ y = val ρ (select t z (neg x))) (hz : z = x) :
    Def false ρ (neg y) ∧ val ρ (neg y) = val ρ (select t (neg x) x) := by
  subst hz
  refine ⟨⟨h.1, by simp⟩, ?_⟩
  have h2 := h.2
  simp only [val] at h2 ⊢
  rw [h2]; split <;> simp

theorem RN.sound {w : Nat} {e e' : Expr w} (h : RN e e') : Refines e e' := by
  intro ρ hd
  cases h with
  | @shlShl _ x a b i j h1 h2 =>
    obtain ⟨⟨hx, _, ha⟩, _, hb⟩ := hd
    simp only [binDef] at ha hb
    have ea := sval_of_shamt ha; have eb := sval_of_shamt hb
    rw [h1.sval] at ea; rw [h2.sval] at eb
    have hval : val ρ (bin .shl (bin .shl x a) b) = val ρ x <<< ((val ρ a).toNat + (val ρ b).toNat) := by
      simp only [val, binVal, BitVec.shiftLeft_add]
    rw [hval]
    split
    · rename_i hc
      have := shamt_toNat (w := w) hc.1 hc.2
      refine ⟨⟨hx, trivial, by simp only [binDef, cst_val]; omega⟩, ?_⟩
      simp only [val, binVal, cst_val]
      congr 1; omega
    · refine ⟨trivial, ?_⟩
      rw [cst_val, ofInt_zero', BitVec.shiftLeft_eq_zero (by omega)]; rfl
  | @lshrLshr _ x a b i j h1 h2 =>
    obtain ⟨⟨hx, _, ha⟩, _, hb⟩ := hd
    simp only [binDef] at ha hb
    have ea := sval_of_shamt ha; have eb := sval_of_shamt hb
    rw [h1.sval] at ea; rw [h2.sval] at eb
    have hval : val ρ (bin .lshr (bin .lshr x a) b) = val ρ x >>> ((val ρ a).toNat + (val ρ b).toNat) := by
      simp only [val, binVal, BitVec.shiftRight_add]
    rw [hval]
    split
    · rename_i hc
      have := shamt_toNat (w := w) hc.1 hc.2
      refine ⟨⟨hx, trivial, by simp only [binDef, cst_val]; omega⟩, ?_⟩
      simp only [val, binVal, cst_val]
      congr 1; omega
    · refine ⟨trivial, ?_⟩
      rw [cst_val, ofInt_zero', BitVec.ushiftRight_eq_zero (by omega)]; rfl
  | @ashrAshr _ x a b i j h1 h2 h3 h4 =>
    obtain ⟨⟨hx, _, ha⟩, _, hb⟩ := hd
    simp only [binDef] at ha hb
    have ea := sval_of_shamt ha; have eb := sval_of_shamt hb
    rw [h1.sval] at ea; rw [h2.sval] at eb
    have := shamt_toNat (w := w) h3 h4
    refine ⟨⟨hx, trivial, by simp only [binDef, cst_val]; omega⟩, ?_⟩
    simp only [val, binVal, cst_val]
    have hf : Fits w (sval (val ρ x) / 2 ^ (val ρ a).toNat) := by
      have k1 := le_sval (val ρ x); have k2 := sval_le (val ρ x)
      have k3 := lo_nonpos w; have k4 := hi_nonneg w
      have hp := two_pow_pos' (val ρ a).toNat
      constructor
      · rw [Int.le_ediv_iff_mul_le hp]; nlinarith
      · apply Int.ediv_le_of_le_mul hp; nlinarith
    rw [sval_ofInt hf, Int.ediv_ediv_of_nonneg (by positivity), ← pow_add]
    congr 3; omega
  | shlZero h1 => exact ⟨hd.1, by simp only [val, binVal, h1.toNat, BitVec.shiftLeft_zero]⟩
  | shlBig h1 h2 =>
    have := hd.2.2
    simp only [binDef, h1.toNat] at this
    omega
  | ashrZero h1 => exact ⟨hd.1, by simp only [val, binVal, h1.toNat]; simp [ofInt_sval]⟩
  | lshrZero h1 => exact ⟨hd.1, by simp only [val, binVal, h1.toNat, BitVec.ushiftRight_zero]⟩
  | minMin h1 h2 h3 =>
    rw [h1.dfn, h2.dfn] at hd
    refine ⟨hd.1, ?_⟩
    rw [h1.val, h2.val]; simp only [val, binVal]
    rcases h3 with h3 | h3 <;> subst h3 <;> split_ifs <;> first | rfl | omega | (apply sval_inj.1; omega)
  | maxMax h1 h2 h3 =>
    rw [h1.dfn, h2.dfn] at hd
    refine ⟨hd.1, ?_⟩
    rw [h1.val, h2.val]; simp only [val, binVal]
    rcases h3 with h3 | h3 <;> subst h3 <;> split_ifs <;> first | rfl | omega | (apply sval_inj.1; omega)
  | minMax h1 h2 h3 =>
    rw [h1.dfn, h2.dfn] at hd
    refine ⟨hd.2.1, ?_⟩
    rw [h1.val, h2.val]; simp only [binVal]
    rcases h3 with h3 | h3 <;> subst h3 <;> split_ifs <;> first | rfl | omega | (apply sval_inj.1; omega)
  | maxMin h1 h2 h3 =>
    rw [h1.dfn, h2.dfn] at hd
    refine ⟨hd.2.1, ?_⟩
    rw [h1.val, h2.val]; simp only [binVal]
    rcases h3 with h3 | h3 <;> subst h3 <;> split_ifs <;> first | rfl | omega | (apply sval_inj.1; omega)
  | @minMIN _ a b h1 h2 =>
    refine ⟨trivial, ?_⟩
    have := le_sval (val ρ a)
    have hl : lo 32 = -2147483648 := by decide
    rw [h1.val]; simp only [binVal, cst_val]
    have hs := h2.sval (ρ := ρ)
    rw [← h2.val (ρ := ρ)]
    split_ifs <;> first | rfl | (apply sval_inj.1; omega)
  | @minMAX _ a b h1 h2 =>
    rw [h1.dfn] at hd
    refine ⟨hd.1, ?_⟩
    have := sval_le (val ρ a)
    have hl : hi 32 = 2147483647 := by decide
    have hs := h2.sval (ρ := ρ)
    rw [h1.val]; simp only [binVal]
    split_ifs <;> first | rfl | (apply sval_inj.1; omega)
  | @maxMAX _ a b h1 h2 =>
    refine ⟨trivial, ?_⟩
    have := sval_le (val ρ a)
    have hl : hi 32 = 2147483647 := by decide
    rw [h1.val]; simp only [binVal, cst_val]
    have hs := h2.sval (ρ := ρ)
    rw [← h2.val (ρ := ρ)]
    split_ifs <;> first | rfl | (apply sval_inj.1; omega)
  | @maxMIN _ a b h1 h2 =>
    rw [h1.dfn] at hd
    refine ⟨hd.1, ?_⟩
    have := le_sval (val ρ a)
    have hl : lo 32 = -2147483648 := by decide
    have hs := h2.sval (ρ := ρ)
    rw [h1.val]; simp only [binVal]
    split_ifs <;> first | rfl | (apply sval_inj.1; omega)
  | selMin h1 h2 =>
    refine ⟨⟨hd.2.1, hd.2.2, trivial⟩, ?_⟩
    rw [sel_bool]; simp only [val, binVal]
    rcases h2 with h2 | h2 <;> subst h2 <;> rw [if_congr (h1.one.trans (by simp only [cmpProp]; exact Iff.rfl)) rfl rfl] <;>
      split_ifs <;> first | rfl | omega | (apply sval_inj.1; omega)
  | selMax h1 h2 =>
    refine ⟨⟨hd.2.1, hd.2.2, trivial⟩, ?_⟩
    rw [sel_bool]; simp only [val, binVal]
    rcases h2 with h2 | h2 <;> subst h2 <;> rw [if_congr (h1.one.trans (by simp only [cmpProp]; exact Iff.rfl)) rfl rfl] <;>
      split_ifs <;> first | rfl | omega | (apply sval_inj.1; omega)
  | selMax' h1 h2 =>
    refine ⟨⟨hd.2.2, hd.2.1, trivial⟩, ?_⟩
    rw [sel_bool]; simp only [val, binVal]
    rcases h2 with h2 | h2 <;> subst h2 <;> rw [if_congr (h1.one.trans (by simp only [cmpProp]; exact Iff.rfl)) rfl rfl] <;>
      split_ifs <;> first | rfl | omega | (apply sval_inj.1; omega)
  | selMin' h1 h2 =>
    refine ⟨⟨hd.2.2, hd.2.1, trivial⟩, ?_⟩
    rw [sel_bool]; simp only [val, binVal]
    rcases h2 with h2 | h2 <;> subst h2 <;> rw [if_congr (h1.one.trans (by simp only [cmpProp]; exact Iff.rfl)) rfl rfl] <;>
      split_ifs <;> first | rfl | omega | (apply sval_inj.1; omega)
  | @clamp _ t c x a b m i j h1 h2 h3 h4 h5 h6 =>
    refine ⟨⟨hd.2.2, hd.2.1, trivial⟩, ?_⟩
    have e1 := h2.sval (ρ := ρ); have e2 := h4.sval (ρ := ρ)
    rw [sel_bool]; simp only [val, binVal, h3.val]
    rcases h5 with h5 | h5 <;> subst h5 <;> rw [if_congr (h1.one.trans (by simp only [cmpProp]; exact Iff.rfl)) rfl rfl] <;>
      split_ifs <;> first | rfl | omega | (apply sval_inj.1; omega)
  | @clamp' _ t c x a b m i j h1 h2 h3 h4 h5 h6 =>
    refine ⟨⟨hd.2.2, hd.2.1, trivial⟩, ?_⟩
    have e1 := h2.sval (ρ := ρ); have e2 := h4.sval (ρ := ρ)
    rw [sel_bool]; simp only [val, binVal, h3.val]
    rcases h5 with h5 | h5 <;> subst h5 <;> rw [if_congr (h1.one.trans (by simp only [cmpProp]; exact Iff.rfl)) rfl rfl] <;>
      split_ifs <;> first | rfl | omega | (apply sval_inj.1; omega)
  | @abs1 _ t c x z h1 h2 h3 =>
    apply sel_abs hd.2.1
    rw [Ne, h1.one]
    rcases h3 with h3 | h3 <;> subst h3 <;> simp only [cmpProp, h2.sval] <;> omega
  | @abs2 _ t c x z h1 h2 h3 =>
    refine neg_sel (sel_abs' hd.2.1 ?_) rfl
    rw [Ne, h1.one]
    rcases h3 with h3 | h3 <;> subst h3 <;> simp only [cmpProp, h2.sval] <;> omega
  | @abs3 _ t c x z h1 h2 h3 =>
    refine neg_sel' (sel_abs hd.2.2 ?_) rfl
    rw [Ne, h1.one]
    rcases h3 with h3 | h3 <;> subst h3 <;> simp only [cmpProp, h2.sval] <;> omega
  | @abs4 _ t c x z h1 h2 h3 =>
    apply sel_abs' hd.2.2
    rw [Ne, h1.one]
    rcases h3 with h3 | h3 <;> subst h3 <;> simp only [cmpProp, h2.sval] <;> omega
  | @abs5 _ t x z h1 h2 =>
    refine neg_sel (sel_abs' hd.2.1 ?_) rfl
    rw [Ne, h1.one]; simp only [cmpProp, h2.sval]; omega
  | @abs6 _ t x z h1 h2 =>
    apply sel_abs' hd.2.2
    rw [Ne, h1.one]; simp only [cmpProp, h2.sval]; omega
  | @abs7 _ t x z h1 h2 =>
    apply sel_abs hd.2.1
    rw [Ne, h1.one]; simp only [cmpProp, h2.sval]; omega
  | @abs8 _ t x z h1 h2 =>
    refine neg_sel' (sel_abs hd.2.2 ?_) rfl
    rw [Ne, h1.one]; simp only [cmpProp, h2.sval]; omega
  | absAbs => exact ⟨⟨hd.1.1, by simp⟩, by simp only [val]; exact (abs_abs_val _).symm⟩
  | absNeg => exact ⟨⟨hd.1.1, by simp⟩, by simp only [val]; exact (abs_neg_val _).symm⟩
  | @absSrem2 _ r x t h1 h2 =>
    have hw := width_pos h2 (by decide)
    have hd1 := hd.1
    rw [h1.dfn] at hd1
    refine ⟨⟨hd1.1, trivial, trivial⟩, ?_⟩
    simp only [val, binVal, h1.val, cst_val, h2.sval]
    rw [sval_ofInt (fits_tmod _ _)]
    apply BitVec.eq_of_toNat_eq
    rw [and_one_toNat hw]
    have e : |(sval (val ρ x)).tmod 2| = (((val ρ x).toNat % 2 : Nat) : Int) := by
      have e1 := Int.natAbs_tmod (sval (val ρ x)) 2
      have e2 := sval_mod_two hw (val ρ x)
      rw [Int.abs_eq_natAbs, e1, show (2 : Int).natAbs = 2 from rfl]
      omega
    rw [e, BitVec.ofInt_natCast, BitVec.toNat_ofNat]
    have : 1 < 2 ^ w := Nat.one_lt_two_pow (by omega)
    exact (Nat.mod_eq_of_lt (by omega)).symm
  | zeroSdiv h1 =>
    refine ⟨trivial, ?_⟩
    simp only [val, binVal, h1.sval, cst_val, Int.zero_tdiv]
  | zeroUdiv h1 =>
    refine ⟨trivial, ?_⟩
    simp only [val, binVal, h1.toNat, cst_val, Nat.zero_div]; simp
  | sdivSelf =>
    refine ⟨trivial, ?_⟩
    have h := hd.2.2.1
    rw [Ne, eq_zero_iff] at h
    simp only [val, binVal, cst_val, Int.tdiv_self h]
  | @udivSelf _ a =>
    refine ⟨trivial, ?_⟩
    have h := hd.2.2
    simp only [binDef] at h
    rw [ne_zero_iff_toNat] at h
    simp only [val, binVal, cst_val]
    rw [Nat.div_self (by omega)]; simp
  | sdivOne h1 => exact ⟨hd.1, by simp only [val, binVal, h1.sval, Int.tdiv_one, ofInt_sval]⟩
  | udivOne h1 => exact ⟨hd.1, by simp only [val, binVal, h1.toNat, Nat.div_one]; simp⟩
  | sdivNegOne h1 =>
    refine ⟨⟨hd.1, by simp⟩, ?_⟩
    simp only [val, binVal, h1.sval]
    rw [show (-1 : Int) = -(1 : Int) from rfl, Int.tdiv_neg, Int.tdiv_one, BitVec.ofInt_neg, ofInt_sval]
  | @sdivSdiv _ x a b i j h1 h2 h3 =>
    obtain ⟨⟨hx, _, ha0, ha⟩, _, hb0, hb⟩ := hd
    simp only [val, binVal] at hb
    rw [h1.sval] at ha hb
    rw [h2.sval, sval_ofInt ha, tdiv_tdiv'] at hb
    have ha0 : i ≠ 0 := by rw [Ne, eq_zero_iff, h1.sval] at ha0; exact ha0
    have hb0 : j ≠ 0 := by rw [Ne, eq_zero_iff, h2.sval] at hb0; exact hb0
    refine ⟨⟨hx, trivial, ?_, ?_⟩, ?_⟩
    · rw [cst_val, Ne, eq_zero_iff, sval_ofInt h3]; exact mul_ne_zero ha0 hb0
    · rw [cst_val, sval_ofInt h3]; exact hb
    · simp only [val, binVal, cst_val, h1.sval, h2.sval]
      rw [sval_ofInt h3, sval_ofInt ha, tdiv_tdiv']
  | @sdivSdivZero _ x a b i j h1 h2 h3 h4 h5 =>
    obtain ⟨⟨hx, _, ha0, ha⟩, _, hb0, hb⟩ := hd
    refine ⟨trivial, ?_⟩
    rw [h1.sval] at ha
    simp only [val, binVal, cst_val, h1.sval, h2.sval]
    rw [sval_ofInt ha, tdiv_tdiv']
    rw [tdiv_zero_of_abs]
    have k1 := le_sval (val ρ x); have k2 := sval_le (val ρ x)
    unfold Fits lo hi at *
    rw [if_neg (by omega)] at k1 k2
    simp only [show ¬ w ≤ 1 by omega, if_false] at h3
    omega
  | zeroSrem h1 =>
    refine ⟨trivial, ?_⟩
    simp only [val, binVal, h1.sval, cst_val, Int.zero_tmod]
  | zeroUrem h1 =>
    refine ⟨trivial, ?_⟩
    simp only [val, binVal, h1.toNat, cst_val, Nat.zero_mod]; simp
  | sremSelf => exact ⟨trivial, by simp only [val, binVal, cst_val, Int.tmod_self]⟩
  | uremSelf => exact ⟨trivial, by simp only [val, binVal, cst_val, Nat.mod_self]; simp⟩
  | sremOne h1 => exact ⟨trivial, by simp only [val, binVal, h1.sval, cst_val, Int.tmod_one]⟩
  | uremOne h1 => exact ⟨trivial, by simp only [val, binVal, h1.toNat, cst_val, Nat.mod_one]; simp⟩
  | @uremPow2 _ x p hw h1 =>
    obtain ⟨k, hk, hp⟩ := h1.pow2 hw hd.2.1
    refine ⟨⟨hd.1, ⟨hd.2.1, trivial, by simp [binDef]⟩, trivial⟩, ?_⟩
    simp only [val, binVal, cst_val]
    apply BitVec.eq_of_toNat_eq
    have hlt : (val ρ x).toNat % 2 ^ k < 2 ^ w := lt_of_le_of_lt (Nat.mod_le _ _) (val ρ x).isLt
    rw [and_pred_pow2 hk hp, hp, BitVec.toNat_ofNat, Nat.mod_eq_of_lt hlt]
  | @sdivEq _ d x a b c q h1 h2 h3 h4 h5 h6 h7 =>
    rw [h1.dfn, h3.dfn] at hd
    obtain ⟨⟨hx, _, ha0, ha⟩, _⟩ := hd
    rw [h4.sval] at ha
    have hlo : lo 32 = -2147483648 := by decide
    have hhi : hi 32 = 2147483647 := by decide
    have hv : val ρ (if sdivLower c q = 0 then x else bin .add x (cst (-sdivLower c q))) = val ρ x - BitVec.ofInt 32 (sdivLower c q) := by
      split
      · rename_i h; rw [h]; simp
      · simp only [val, binVal, cst_val, BitVec.ofInt_neg, BitVec.sub_eq_add_neg]
    refine ⟨⟨?_, trivial⟩, bool_ext ?_⟩
    · split
      · exact hx
      · exact ⟨hx, trivial, by simp [binDef]⟩
    rw [icmp_one, h1.one]
    simp only [cmpProp, cst_val]
    rw [hv, ← sval_inj, h3.val]
    simp only [binVal]
    rw [h4.sval, sval_ofInt ha, h2.sval, sdiv_eq_iff h5]
    have hlt : sdivLower c q < sdivUpper c q := by
      unfold sdivLower sdivUpper; split_ifs <;> omega
    have e := sub_toNat_le (val ρ x) (a := sdivLower c q) (b := sdivUpper c q - 1) (by omega) (by omega) (by omega)
    have e2 := toNat_ofInt_of_nonneg (w := 32) (i := sdivUpper c q - sdivLower c q) (by omega) (by norm_num; omega)
    zify
    rw [e2]
    omega

end Cmmc.IR
