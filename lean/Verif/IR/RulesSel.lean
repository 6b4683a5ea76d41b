import Verif.IR.RulesCmp
/-!
# Integer rewrite rules of `ArithmeticReduce` (cmmc/Transforms/Combine/ArithmeticReduce.cpp), part 3: selections, shifts, min/max, division

All rules here are valid for wrapping arithmetic; *restricted* marks a side condition the C++ code does not check.
-/
namespace Cmmc.IR

open Expr

/-- rules on `select` and casts -/
inductive RS : {w : Nat} → Expr w → Expr w → Prop
  /-- line 261: select c?a:a -> a -/
  | same {w} {c : Expr 1} {a : Expr w} : RS (select c a a) a
  /-- line 265-267: constant condition -/
  | condConst {w} {c : Expr 1} {u : Nat} {a b : Expr w} : MUInt c u → RS (select c a b) (if u ≠ 0 then a else b)
  /-- line 351-356: select x 1 0 -> zext x -/
  | oneZero {w} {c : Expr 1} {a b : Expr w} : MUInt a 1 → MUInt b 0 → RS (select c a b) (cast .zext w c)
  /-- line 352-354: on booleans -/
  | oneZeroBool {c a b : Expr 1} : MUInt a 1 → MUInt b 0 → RS (select c a b) c
  /-- line 383-393: select c, x, x + 1 -> x + 1 - zext c -/
  | incr {w} {c : Expr 1} {x y o : Expr w} : MBin .add y x o → MUInt o 1 → RS (select c x y) (bin .sub y (cast .zext w c))
  /-- line 397-404: select (not c), x, y -> select c, y, x -/
  | selNot {w} {n c : Expr 1} {x y : Expr w} : MNot n c → RS (select n x y) (select c y x)
  /-- line 517: select c1, c2, false -> c1 & c2 -/
  | andB {c x z : Expr 1} : MInt z 0 → RS (select c x z) (bin .and c x)
  /-- line 520: select c1, c2, true -> !c1 | c2 -/
  | orNotB {c x z : Expr 1} : MInt z 1 → RS (select c x z) (bin .or (bin .xor c (cst 1)) x)
  /-- line 524: select c1, false, c2 -> !c1 & c2 -/
  | andNotB {c x z : Expr 1} : MInt z 0 → RS (select c z x) (bin .and (bin .xor c (cst 1)) x)
  /-- line 528: select c1, true, c2 -> c1 | c2 -/
  | orB {c x z : Expr 1} : MInt z 1 → RS (select c z x) (bin .or c x)
  /-- line 546: 1 - zext b -> zext (b ^ 1) -/
  | oneSubZext {w} {e o : Expr w} {b : Expr 1} : MBin .sub e o (cast .zext w b) → MInt o 1 → RS e (cast .zext w (bin .xor b (cst 1)))
  /-- line 952-956: a == b ? a : smax(a, b) -> smax(a, b) -/
  | eqMax {w} {c : Expr 1} {a b m : Expr w} : MCmp c .eq a b → MBin .smax m a b → RS (select c a m) m
  /-- line 959-962: x >= 0 ? 0 : -1 -> x >>s (w-1) -/
  | signGe {w} {c : Expr 1} {x z a b : Expr w} : 1 < w → MCmp c .sge x z → MInt z 0 → MInt a 0 → MInt b (-1) →
      RS (select c a b) (bin .ashr x (cst (w - 1)))
  /-- line 959-962 with `makeSignedCast` between different widths -/
  | signGeCast {w w'} {c : Expr 1} {x z : Expr w} {a b : Expr w'} {op : CastOp} : 1 < w → op = .sext ∨ op = .strunc → MCmp c .sge x z → MInt z 0 →
      MInt a 0 → MInt b (-1) → RS (select c a b) (cast op w' (bin .ashr x (cst (w - 1))))
  /-- line 963-966: x > -1 ? 0 : -1 -> x >>s (w-1) -/
  | signGt {w} {c : Expr 1} {x z a b : Expr w} : MCmp c .sgt x z → MInt z (-1) → MInt a 0 → MInt b (-1) →
      RS (select c a b) (bin .ashr x (cst (w - 1)))
  /-- line 963-966 with `makeSignedCast` between different widths -/
  | signGtCast {w w'} {c : Expr 1} {x z : Expr w} {a b : Expr w'} {op : CastOp} : op = .sext ∨ op = .strunc → MCmp c .sgt x z → MInt z (-1) →
      MInt a 0 → MInt b (-1) → RS (select c a b) (cast op w' (bin .ashr x (cst (w - 1))))
  /-- line 970-973: select x, c1, c1+1 -> c2 - zext x -/
  | constIncr {w} {c : Expr 1} {a b : Expr w} {i : Int} : MInt a i → MInt b (i + 1) → RS (select c a b) (bin .sub b (cast .zext w c))
  /-- line 974-977: select x, c1, c1-1 -> zext x + c2 -/
  | constDecr {w} {c : Expr 1} {a b : Expr w} {i : Int} : MInt a i → MInt b (i - 1) → RS (select c a b) (bin .add (cast .zext w c) b)
  /-- line 979-982: select c, x - 1, x -> x - zext c -/
  | decr {w} {c : Expr 1} {x y o : Expr w} : MBin .add y x o → MInt o (-1) → RS (select c y x) (bin .sub x (cast .zext w c))
  /-- line 983-986, 1030-1033: select c, x + 1, x -> x + zext c -/
  | incr' {w} {c : Expr 1} {x y o : Expr w} : MBin .add y x o → MInt o 1 → RS (select c y x) (bin .add x (cast .zext w c))
  /-- line 994-996: trunc(trunc(x)) -> trunc(x) (the types are the same) -/
  | zz {w} {x : Expr w} : RS (cast .ztrunc w (cast .ztrunc w x)) (cast .ztrunc w x)
  /-- line 997-999 -/
  | zs {w} {x : Expr w} : RS (cast .ztrunc w (cast .strunc w x)) (cast .ztrunc w x)
  /-- line 1000-1002 -/
  | ss {w} {x : Expr w} : RS (cast .strunc w (cast .strunc w x)) (cast .strunc w x)
  /-- line 1003-1005 -/
  | sz {w} {x : Expr w} : RS (cast .strunc w (cast .ztrunc w x)) (cast .strunc w x)
  /-- line 1036-1048: zext (x < 0) -> x >>u (w-1) -/
  | zextNeg {w} {c : Expr 1} {x z : Expr w} : 1 < w → MCmp c .slt x z → MInt z 0 → RS (cast .zext w c) (bin .lshr x (cst (w - 1)))
  /-- line 1092-1094: a ? (b ? x : y) : y -> (a & b) ? x : y -/
  | nest {w} {a b : Expr 1} {x y : Expr w} : RS (select a (select b x y) y) (select (bin .and a b) x y)
  /-- line 1096-1099: a ? zext b : 0 -/
  | zAnd {w} {a b : Expr 1} {z : Expr w} : MInt z 0 → RS (select a (cast .zext w b) z) (cast .zext w (bin .and a b))
  /-- line 1100-1103: a ? zext b : 1 -/
  | zOrNot {w} {a b : Expr 1} {z : Expr w} : MInt z 1 → RS (select a (cast .zext w b) z) (cast .zext w (bin .or (mkNot a) b))
  /-- line 1104-1107: a ? 0 : zext b -/
  | zAndNot {w} {a b : Expr 1} {z : Expr w} : MInt z 0 → RS (select a z (cast .zext w b)) (cast .zext w (bin .and (mkNot a) b))
  /-- line 1108-1111: a ? 1 : zext b -/
  | zOr {w} {a b : Expr 1} {z : Expr w} : MInt z 1 → RS (select a z (cast .zext w b)) (cast .zext w (bin .or a b))
  /-- line 1122-1125: (b ? y : 0) - z -> b ? y - z : -z -/
  | subSel {w} {e y z o : Expr w} {b : Expr 1} : MBin .sub e (select b y o) z → MInt o 0 → RS e (select b (bin .sub y z) (neg z))
  /-- line 1226-1230: x % c < 0 ? x % c + c : x % c -> x & (c - 1) for a power of two c -/
  | modPow2 {w} {t : Expr 1} {r x c d s z : Expr w} {k : Nat} : MCmp t .slt r z → MInt z 0 → MBin .srem r x c → MUInt c (2 ^ k) → MBin .add s r d →
      MUInt d (2 ^ k) → RS (select t s r) (bin .and x (cst (2 ^ k - 1)))

theorem sel_bool {w : Nat} {ρ : Env} {c : Expr 1} {a b : Expr w} : val ρ (select c a b) = if val ρ c = 1 then val ρ a else val ρ b := rfl

theorem ashr_sign {w : Nat} (hw : 1 < w) (x : BitVec w) :
    BitVec.ofInt w (sval x / 2 ^ (BitVec.ofInt w ((w : Int) - 1)).toNat) = if sval x < 0 then BitVec.ofInt w (-1) else 0 := by
  have h1 : (BitVec.ofInt w ((w : Int) - 1)).toNat = w - 1 := by
    have hlt : (w : Int) < 2 ^ w := by exact_mod_cast Nat.lt_two_pow_self
    have := toNat_ofInt_of_nonneg (w := w) (i := (w : Int) - 1) (by omega) (by omega)
    omega
  rw [h1]
  have h2 := le_sval x
  have h3 := sval_le x
  unfold lo at h2
  unfold hi at h3
  rw [if_neg (by omega)] at h2 h3
  have hp := two_pow_pos' (w - 1)
  split
  · congr 1
    rw [Int.ediv_eq_iff_of_pos hp]
    constructor <;> linarith
  · rw [Int.ediv_eq_zero_of_lt (by omega) (by omega), ofInt_zero']

theorem bool_or_eq {w : Nat} (a b : BitVec 1) : (a ||| b).setWidth w = if a = 1 then 1 else b.setWidth w := by
  rw [zext_eq, zext_eq, if_congr (bool_or_eq_one a b) rfl rfl]
  by_cases ha : a = 1
  · simp [ha]
  · rw [if_neg ha]; congr 1; simp only [ha, false_or]

theorem bool_and_eq {w : Nat} (a b : BitVec 1) : (a &&& b).setWidth w = if a = 1 then b.setWidth w else 0 := by
  rcases bool_cases a with h | h <;> rcases bool_cases b with h' | h' <;> subst h <;> subst h' <;> simp

theorem bool_not_eq {w : Nat} (b : BitVec 1) : (b ^^^ BitVec.ofInt 1 1).setWidth w = 1 - b.setWidth w := by
  rcases bool_cases b with h' | h' <;> subst h' <;> simp <;> (apply BitVec.eq_of_toNat_eq; simp)

theorem bool_ite_not {α : Type} (a : BitVec 1) (x y : α) : (if ~~~ a = 1 then x else y) = if a = 1 then y else x := by
  rcases bool_cases a with h | h <;> subst h <;> rfl

theorem lshr_msb {w : Nat} (hw : 1 < w) (x : BitVec w) :
    x >>> (BitVec.ofInt w (w - 1)).toNat = (BitVec.ofBool x.msb).setWidth w := by
  have h1 : (BitVec.ofInt w ((w : Int) - 1)).toNat = w - 1 := by
    have hlt : (w : Int) < 2 ^ w := by exact_mod_cast Nat.lt_two_pow_self
    have := toNat_ofInt_of_nonneg (w := w) (i := (w : Int) - 1) (by omega) (by omega)
    omega
  rw [h1]
  apply BitVec.eq_of_getLsbD_eq
  intro i hi
  rw [BitVec.getLsbD_ushiftRight, BitVec.getLsbD_setWidth]
  rcases Nat.eq_zero_or_pos i with h | h
  · subst h; simp [BitVec.msb_eq_getLsbD_last]; omega
  · rw [BitVec.getLsbD_of_ge _ _ (by omega), BitVec.getLsbD_of_ge _ _ (by omega)]; simp

theorem sval_pow2 {w k : Nat} (hk : k < w) {p : BitVec w} (hp : p.toNat = 2 ^ k) : sval p = 2 ^ k ∨ sval p = -(2 ^ k) := by
  rw [sval_eq p, hp]
  split
  · left; push_cast; rfl
  · right
    rename_i hc
    have hw : 1 < w := by
      by_contra hw
      have : w = 1 := by omega
      subst this
      have : k = 0 := by omega
      subst this
      exact hc (by decide)
    have : k = w - 1 := by
      by_contra hne
      apply hc
      unfold hi; rw [if_neg (by omega)]
      have : (2 : Int) ^ k < 2 ^ (w - 1) := pow_lt_pow_right₀ (by omega) (by omega)
      push_cast; omega
    have h2 := two_pow_split hw; rw [this]; push_cast; omega

theorem emod_of_tmod (s m : Int) (hm : 0 < m) : s % m = if s.tmod m < 0 then s.tmod m + m else s.tmod m := by
  have h1 := Int.tmod_lt_of_pos s hm
  have h2 := Int.lt_tmod_of_pos s hm
  have h3 := Int.dvd_self_sub_tmod (x := s) (m := m)
  obtain ⟨q, hq⟩ := h3
  have hs : s = s.tmod m + m * q := by omega
  split
  · conv => lhs; rw [hs]
    rw [Int.add_mul_emod_self_left, ← Int.add_emod_right, Int.emod_eq_of_lt (by omega) (by omega)]
  · conv => lhs; rw [hs]
    rw [Int.add_mul_emod_self_left, Int.emod_eq_of_lt (by omega) (by omega)]

theorem sval_emod_pow2 {w k : Nat} (hk : k ≤ w) (x : BitVec w) : sval x % 2 ^ k = ((x.toNat % 2 ^ k : Nat) : Int) := by
  have hd : (2 : Int) ^ k ∣ 2 ^ w := pow_dvd_pow 2 hk
  rw [sval_eq]
  split
  · push_cast; rfl
  · push_cast
    rw [Int.sub_emod, Int.emod_eq_zero_of_dvd hd, Int.sub_zero, Int.emod_emod]

theorem mod_pow2 {w k : Nat} (hk : k < w) {x p : BitVec w} (hp : p.toNat = 2 ^ k) :
    (if (sval x).tmod (sval p) < 0 then BitVec.ofInt w ((sval x).tmod (sval p)) + p else BitVec.ofInt w ((sval x).tmod (sval p))) =
      BitVec.ofNat w (x.toNat % 2 ^ k) := by
  have ht : (sval x).tmod (sval p) = (sval x).tmod (2 ^ k) := by
    rcases sval_pow2 hk hp with h | h <;> rw [h]
    rw [Int.tmod_neg]
  have hpp : p = BitVec.ofInt w (2 ^ k) := by
    have : ((2 : Int) ^ k) = ((2 ^ k : Nat) : Int) := by push_cast; rfl
    rw [this, BitVec.ofInt_natCast, ← hp]; simp
  rw [ht, hpp, ← BitVec.ofInt_natCast, ← sval_emod_pow2 (by omega), emod_of_tmod _ _ (two_pow_pos' k)]
  split
  · rw [BitVec.ofInt_add]
  · rfl

theorem RS.sound {w : Nat} {e e' : Expr w} (h : RS e e') : Refines e e' := by
  intro ρ hd
  cases h with
  | same => exact ⟨hd.2.1, by rw [sel_bool]; split <;> rfl⟩
  | @condConst _ c u a b h1 =>
    refine ⟨by split_ifs; exacts [hd.2.1, hd.2.2], ?_⟩
    rw [sel_bool]
    cases h1 with
    | @mk c =>
      simp only [val]
      rcases bool_cases c with h | h <;> subst h
      · simp
      · simp
  | oneZero h1 h2 =>
    refine ⟨hd.1, ?_⟩
    rw [sel_bool, h1.val, h2.val]; simp only [val, castVal]
    exact zext_eq _
  | @oneZeroBool c a b h1 h2 =>
    refine ⟨hd.1, ?_⟩
    rw [sel_bool, h1.val, h2.val]
    rcases bool_cases (val ρ c) with h | h <;> rw [h] <;> decide
  | incr h1 h2 =>
    refine ⟨⟨hd.2.2, hd.1, by simp [binDef]⟩, ?_⟩
    rw [sel_bool]; simp only [val, binVal, h1.val, h2.val, castVal, zext_eq]
    split
    · rw [show BitVec.ofNat w 1 = 1 from rfl]; ring
    · simp
  | selNot h1 =>
    have := h1.wide
    omega
  | andB h1 =>
    refine ⟨⟨hd.1, hd.2.1, trivial⟩, ?_⟩
    rw [sel_bool, h1.val]; simp only [val, binVal]
    rename_i c x _
    rcases bool_cases (val ρ c) with h | h <;> rcases bool_cases (val ρ x) with h' | h' <;> rw [h, h'] <;> decide
  | orNotB h1 =>
    refine ⟨⟨⟨hd.1, trivial, trivial⟩, hd.2.1, trivial⟩, ?_⟩
    rw [sel_bool, h1.val]; simp only [val, binVal, cst_val]
    rename_i c x _
    rcases bool_cases (val ρ c) with h | h <;> rcases bool_cases (val ρ x) with h' | h' <;> rw [h, h'] <;> decide
  | andNotB h1 =>
    refine ⟨⟨⟨hd.1, trivial, trivial⟩, hd.2.2, trivial⟩, ?_⟩
    rw [sel_bool, h1.val]; simp only [val, binVal, cst_val]
    rename_i c x _
    rcases bool_cases (val ρ c) with h | h <;> rcases bool_cases (val ρ x) with h' | h' <;> rw [h, h'] <;> decide
  | orB h1 =>
    refine ⟨⟨hd.1, hd.2.2, trivial⟩, ?_⟩
    rw [sel_bool, h1.val]; simp only [val, binVal]
    rename_i c x _
    rcases bool_cases (val ρ c) with h | h <;> rcases bool_cases (val ρ x) with h' | h' <;> rw [h, h'] <;> decide
  | oneSubZext h1 h2 =>
    rw [h1.dfn] at hd
    refine ⟨⟨hd.2.1, trivial, trivial⟩, ?_⟩
    rw [h1.val]; simp only [val, binVal, castVal, cst_val, h2.val, ofInt_one]
    exact bool_not_eq _
  | eqMax h1 h2 =>
    refine ⟨hd.2.2, ?_⟩
    rw [sel_bool]
    split
    · rename_i h
      rw [h1.one] at h
      simp only [cmpProp] at h
      rw [h2.val, h]; simp [binVal]
    · rfl
  | signGe hw h1 h2 h3 h4 =>
    have hd1 := hd.1
    rw [h1.dfn] at hd1
    refine ⟨⟨hd1.1, trivial, shamt_ok hw⟩, ?_⟩
    rw [sel_bool, if_congr (h1.one.trans (by simp only [cmpProp]; exact Iff.rfl)) rfl rfl]
    simp only [val, binVal, cst_val, h3.val, h4.val, h2.sval, ashr_sign hw, ofInt_zero']
    split_ifs <;> first | rfl | omega
  | @signGeCast w1 _ c x z a b op hw hop h1 h2 h3 h4 =>
    have hd1 := hd.1
    rw [h1.dfn] at hd1
    refine ⟨⟨hd1.1, trivial, shamt_ok hw⟩, ?_⟩
    rw [sel_bool, if_congr (h1.one.trans (by simp only [cmpProp]; exact Iff.rfl)) rfl rfl]
    have hneg : Fits w1 (-1) := ⟨by unfold lo; rw [if_neg (by omega)]; have := two_pow_pos' (w1 - 1); omega, by have := hi_nonneg w1; omega⟩
    rcases hop with hop | hop <;> subst hop <;>
      simp only [val, binVal, castVal, cst_val, h3.val, h4.val, h2.sval, ashr_sign hw, ofInt_zero'] <;>
      split_ifs <;> first | omega | (rw [sval_ofInt hneg]) | (rw [sval_zero, ofInt_zero'])
  | signGt h1 h2 h3 h4 =>
    have hw := width_of_neg h2 (by decide)
    have hd1 := hd.1
    rw [h1.dfn] at hd1
    refine ⟨⟨hd1.1, trivial, shamt_ok hw⟩, ?_⟩
    rw [sel_bool, if_congr (h1.one.trans (by simp only [cmpProp]; exact Iff.rfl)) rfl rfl]
    simp only [val, binVal, cst_val, h3.val, h4.val, h2.sval, ashr_sign hw, ofInt_zero']
    split_ifs <;> first | rfl | omega
  | @signGtCast w1 _ c x z a b op hop h1 h2 h3 h4 =>
    have hw := width_of_neg h2 (by decide)
    have hd1 := hd.1
    rw [h1.dfn] at hd1
    refine ⟨⟨hd1.1, trivial, shamt_ok hw⟩, ?_⟩
    rw [sel_bool, if_congr (h1.one.trans (by simp only [cmpProp]; exact Iff.rfl)) rfl rfl]
    have hneg : Fits w1 (-1) := ⟨by unfold lo; rw [if_neg (by omega)]; have := two_pow_pos' (w1 - 1); omega, by have := hi_nonneg w1; omega⟩
    rcases hop with hop | hop <;> subst hop <;>
      simp only [val, binVal, castVal, cst_val, h3.val, h4.val, h2.sval, ashr_sign hw, ofInt_zero'] <;>
      split_ifs <;> first | omega | (rw [sval_ofInt hneg]) | (rw [sval_zero, ofInt_zero'])
  | constIncr h1 h2 =>
    refine ⟨⟨hd.2.2, hd.1, by simp [binDef]⟩, ?_⟩
    rw [sel_bool]; simp only [val, binVal, h1.val, h2.val, castVal, zext_eq, BitVec.ofInt_add, ofInt_one]
    split
    · ring
    · ring
  | constDecr h1 h2 =>
    refine ⟨⟨hd.1, hd.2.2, by simp [binDef]⟩, ?_⟩
    rw [sel_bool]
    simp only [val, binVal, h1.val, h2.val, castVal, zext_eq, Int.sub_eq_add_neg, BitVec.ofInt_neg, BitVec.ofInt_add, ofInt_one]
    split
    · ring
    · ring
  | decr h1 h2 =>
    refine ⟨⟨hd.2.2, hd.1, by simp [binDef]⟩, ?_⟩
    rw [sel_bool]; simp only [val, binVal, h1.val, h2.val, castVal, zext_eq, BitVec.ofInt_neg, ofInt_one]
    split
    · ring
    · ring
  | incr' h1 h2 =>
    refine ⟨⟨hd.2.2, hd.1, by simp [binDef]⟩, ?_⟩
    rw [sel_bool]; simp only [val, binVal, h1.val, h2.val, castVal, zext_eq, ofInt_one]
    split
    · ring
    · ring
  | zz => exact ⟨hd, by simp only [val, castVal, BitVec.setWidth_eq]⟩
  | zs => exact ⟨hd, by simp only [val, castVal, BitVec.setWidth_eq, ofInt_sval]⟩
  | ss => exact ⟨hd, by simp only [val, castVal, ofInt_sval]⟩
  | sz => exact ⟨hd, by simp only [val, castVal, BitVec.setWidth_eq]⟩
  | @zextNeg _ c x z hw h1 h2 =>
    have hd1 := hd
    simp only [Def] at hd1
    rw [h1.dfn] at hd1
    refine ⟨⟨hd1.1, trivial, shamt_ok hw⟩, ?_⟩
    simp only [val, binVal, castVal, cst_val]
    rw [lshr_msb hw]
    congr 1
    apply bool_ext
    rw [h1.one, ofBool_eq_one, ← neg_iff_msb hw]
    simp only [cmpProp, h2.sval]
  | @nest _ a b x y =>
    refine ⟨⟨⟨hd.1, hd.2.1.1, trivial⟩, hd.2.1.2⟩, ?_⟩
    rw [sel_bool, sel_bool, sel_bool]
    have e : val ρ (bin .and a b) = 1 ↔ val ρ a = 1 ∧ val ρ b = 1 := bool_and_eq_one _ _
    rw [if_congr e rfl rfl]
    by_cases ha : val ρ a = 1
    · rw [if_pos ha, if_congr (and_iff_right ha) rfl rfl]
    · rw [if_neg ha, if_neg (fun h => ha h.1)]
  | zAnd h1 =>
    refine ⟨⟨hd.1, hd.2.1, trivial⟩, ?_⟩
    simp only [val, castVal, binVal, h1.val, bool_and_eq, ofInt_zero']
  | zOrNot h1 =>
    refine ⟨⟨(mkNot_dfn _).2 hd.1, hd.2.1, trivial⟩, ?_⟩
    simp only [val, castVal, binVal, h1.val, bool_or_eq, ofInt_one, mkNot_val, bool_ite_not]
  | zAndNot h1 =>
    refine ⟨⟨(mkNot_dfn _).2 hd.1, hd.2.2, trivial⟩, ?_⟩
    simp only [val, castVal, binVal, h1.val, bool_and_eq, ofInt_zero', mkNot_val, bool_ite_not]
  | zOr h1 =>
    refine ⟨⟨hd.1, hd.2.2, trivial⟩, ?_⟩
    simp only [val, castVal, binVal, h1.val, bool_or_eq, ofInt_one]
  | subSel h1 h2 =>
    rw [h1.dfn] at hd
    refine ⟨⟨hd.1.1, ⟨hd.1.2.1, hd.2.1, by simp [binDef]⟩, hd.2.1, by simp⟩, ?_⟩
    rw [h1.val]
    simp only [val, binVal, h2.val, ofInt_zero']
    split
    · rfl
    · ring
  | @modPow2 _ t r x c d s z k h1 h2 h3 h4 h5 h6 =>
    have hk : k < w := by
      have h := (val ρ c).isLt
      rw [h4.toNat] at h
      exact (Nat.pow_lt_pow_iff_right (by omega)).1 h
    have hd1 := hd.2.2
    rw [h3.dfn] at hd1
    refine ⟨⟨hd1.1, trivial, trivial⟩, ?_⟩
    have hr : val ρ r = BitVec.ofInt w ((sval (val ρ x)).tmod (sval (val ρ c))) := h3.val
    have hcd : val ρ d = val ρ c := by rw [h4.val, h6.val]
    rw [sel_bool, if_congr (h1.one.trans (c := (sval (val ρ x)).tmod (sval (val ρ c)) < 0) ?_) rfl rfl]
    · have hs : val ρ s = val ρ r + val ρ d := h5.val
      rw [hs, hcd, hr, mod_pow2 hk (h4.toNat)]
      have := and_pred_pow2 (x := val ρ x) hk (h4.toNat (ρ := ρ))
      apply BitVec.eq_of_toNat_eq
      have hlt : (val ρ x).toNat % 2 ^ k < 2 ^ w := lt_of_le_of_lt (Nat.mod_le _ _) (val ρ x).isLt
      rw [BitVec.toNat_ofNat, Nat.mod_eq_of_lt hlt, ← this]
      simp only [val, binVal, cst_val]
      congr 2
      rw [h4.val, show BitVec.ofNat w (2 ^ k) = BitVec.ofInt w (2 ^ k) by
        rw [← BitVec.ofInt_natCast]; push_cast; rfl]
      rw [Int.sub_eq_add_neg, BitVec.ofInt_add, BitVec.ofInt_neg, BitVec.sub_eq_add_neg]
    · simp only [cmpProp, h2.sval, hr]
      rw [sval_ofInt (fits_tmod _ _)]

end Cmmc.IR
