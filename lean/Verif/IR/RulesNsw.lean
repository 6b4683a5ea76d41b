import Verif.IR.RulesNum
/-!
# Integer rewrite rules of `ArithmeticReduce`, part 5: rules that need the absence of signed overflow; closure; the bad rules

C26: `C26_wrapping`, `C26_contexts`, `C26_no_overflow` and the `C26_bad_*` witnesses.
-/
namespace Cmmc.IR

open Expr

/-- rules that are valid for programs without signed overflow (the source language makes overflow undefined) -/
inductive RO : {w : Nat} → Expr w → Expr w → Prop
  /-- line 159: a / -a -> -1 -/
  | divNeg {w} {a : Expr w} : RO (bin .sdiv a (neg a)) (cst (-1))
  /-- line 164: -a / a -> -1 -/
  | negDiv {w} {a : Expr w} : RO (bin .sdiv (neg a) a) (cst (-1))
  /-- line 443-455: -x cmp c -> -c cmp x, signed comparisons. *Restricted*: `-c` is representable -/
  | negCmp {w} {e : Expr 1} {c : Cmp} {x b : Expr w} {i : Int} : MCmp e c (neg x) b → MInt b i → c = .slt ∨ c = .sle ∨ c = .sgt ∨ c = .sge →
      Fits w (-i) → RO e (icmp c (cst (-i)) x)
  /-- line 921-924: (x * c1) / c2 -> x * (c1 / c2) when c2 divides c1 -/
  | divMul {w} {m x a b : Expr w} {i j : Int} : MBin .mul m x a → MInt a i → MInt b j → j ≠ 0 → i.tmod j = 0 →
      RO (bin .sdiv m b) (bin .mul x (cst (i.tdiv j)))
  /-- line 927-929: (x * c1) % c2 -> 0 when c2 divides c1 -/
  | remMul {w} {m x a b : Expr w} {i j : Int} : MBin .mul m x a → MInt a i → MInt b j → j ≠ 0 → i.tmod j = 0 →
      RO (bin .srem m b) (cst 0)
  /-- line 936-938: (-x) / c -> x / (-c) -/
  | negDivConst {w} {x b : Expr w} {i : Int} : MInt b i → RO (bin .sdiv (neg x) b) (bin .sdiv x (cst (-i)))
  /-- line 941-943: (-x) % c -> -(x % c) -/
  | negRemConst {w} {x b : Expr w} {i : Int} : MInt b i → RO (bin .srem (neg x) b) (neg (bin .srem x (cst i)))
  /-- line 1139-1155: x * x cmp 0 -/
  | sqCmp {w} {e : Expr 1} {c : Cmp} {m x z : Expr w} {e' : Expr 1} : MCmp e c m z → MInt z 0 → MBin .mul m x x →
      (match c with
        | .eq | .sle => e' = icmp .eq x (cst 0)
        | .ne | .sgt => e' = icmp .ne x (cst 0)
        | .slt => e' = cst 0
        | .sge => e' = cst 1
        | _ => False) → RO e e'
  /-- line 1214-1224: (x - zext b) < x -> b -/
  | subZextLt {w} {e b : Expr 1} {s x : Expr w} : 0 < w → MCmp e .slt s x → MBin .sub s x (cast .zext w b) → RO e b

theorem sval_neg_of_fits {w : Nat} {x : BitVec w} (h : Fits w (-sval x)) : sval (-x) = -sval x := by
  conv => rhs; rw [← sval_ofInt h]
  rw [BitVec.ofInt_neg, ofInt_sval]

theorem sval_mul_of_fits {w : Nat} {x y : BitVec w} (h : Fits w (sval x * sval y)) : sval (x * y) = sval x * sval y := by
  conv => rhs; rw [← sval_ofInt h]
  rw [BitVec.ofInt_mul, ofInt_sval, ofInt_sval]

theorem sval_sub_of_fits {w : Nat} {x y : BitVec w} (h : Fits w (sval x - sval y)) : sval (x - y) = sval x - sval y := by
  conv => rhs; rw [← sval_ofInt h]
  rw [Int.sub_eq_add_neg, BitVec.ofInt_add, BitVec.ofInt_neg, ofInt_sval, ofInt_sval, BitVec.sub_eq_add_neg]

/-- a computation without signed overflow is defined in the wrapping reading as well -/
theorem Def.mono {ρ : Env} : {w : Nat} → (e : Expr w) → Def true ρ e → Def false ρ e
  | _, .var _ _, _ => trivial
  | _, .const _, _ => trivial
  | _, .neg a, h => ⟨Def.mono a h.1, by simp⟩
  | _, .abs a, h => ⟨Def.mono a h.1, by simp⟩
  | _, .bin op a b, h => ⟨Def.mono a h.1, Def.mono b h.2.1, by
      have := h.2.2
      cases op <;> simp only [binDef] at this ⊢ <;> first | exact this | simp⟩
  | _, .icmp _ a b, h => ⟨Def.mono a h.1, Def.mono b h.2⟩
  | _, .select c a b, h => ⟨Def.mono c h.1, Def.mono a h.2.1, Def.mono b h.2.2⟩
  | _, .cast _ _ a, h => Def.mono (ρ := ρ) a h

theorem fits_of_abs {w : Nat} {i j : Int} (h1 : Fits w i) (h2 : Fits w (-i)) (h3 : j.natAbs ≤ i.natAbs) : Fits w j := by
  unfold Fits at *; omega

theorem RO.sound {w : Nat} {e e' : Expr w} (h : RO e e') : RefinesNSW e e' := by
  intro ρ hd
  cases h with
  | @divNeg _ a =>
    refine ⟨trivial, ?_⟩
    obtain ⟨_, ⟨_, hf⟩, h0, _⟩ := hd
    have hs := sval_neg_of_fits (hf rfl)
    rw [Ne, eq_zero_iff] at h0
    simp only [val] at h0 hs
    simp only [val, binVal, cst_val, hs]
    rw [Int.tdiv_neg, Int.tdiv_self (by omega)]
  | @negDiv _ a =>
    refine ⟨trivial, ?_⟩
    obtain ⟨⟨_, hf⟩, _, h0, _⟩ := hd
    have hs := sval_neg_of_fits (hf rfl)
    rw [Ne, eq_zero_iff] at h0
    simp only [val, binVal, cst_val, hs]
    rw [Int.neg_tdiv, Int.tdiv_self (by omega)]
  | @negCmp _ _ c x b i h1 h2 h3 h4 =>
    rw [h1.dfn] at hd
    obtain ⟨⟨hx, hf⟩, _⟩ := hd
    refine ⟨⟨trivial, hx.mono⟩, bool_ext ?_⟩
    rw [icmp_one, h1.one]
    have hs := sval_neg_of_fits (hf rfl)
    rcases h3 with h3 | h3 | h3 | h3 <;> subst h3 <;> simp only [cmpProp, cst_val, val, hs, h2.sval, sval_ofInt h4] <;> omega
  | @divMul _ m x a b i j h1 h2 h3 h4 h5 =>
    simp only [Def, h1.dfn] at hd
    obtain ⟨⟨hx, _, hf⟩, _, _, _⟩ := hd
    have hf := hf rfl
    refine ⟨⟨hx.mono, trivial, by simp [binDef]⟩, ?_⟩
    simp only [val, binVal, cst_val, h1.val, h3.sval]
    rw [sval_mul_of_fits hf, h2.sval, Int.mul_tdiv_assoc _ (Int.dvd_of_tmod_eq_zero h5), BitVec.ofInt_mul, ofInt_sval]
  | @remMul _ m x a b i j h1 h2 h3 h4 h5 =>
    simp only [Def, h1.dfn] at hd
    obtain ⟨⟨hx, _, hf⟩, _, _, _⟩ := hd
    have hf := hf rfl
    refine ⟨trivial, ?_⟩
    simp only [val, binVal, cst_val, h1.val, h3.sval]
    rw [sval_mul_of_fits hf, h2.sval,
      Int.tmod_eq_zero_of_dvd (Dvd.dvd.mul_left (Int.dvd_of_tmod_eq_zero h5) _)]
  | @negDivConst _ x b i h1 =>
    obtain ⟨⟨hx, hf⟩, _, h0, hq⟩ := hd
    have hf := hf rfl
    have hs := sval_neg_of_fits hf
    simp only [val] at hq
    rw [hs, h1.sval] at hq
    rw [Ne, eq_zero_iff, h1.sval] at h0
    have key : (sval (val ρ x)).tdiv (sval (BitVec.ofInt w (-i))) = (-sval (val ρ x)).tdiv i ∧ sval (BitVec.ofInt w (-i)) ≠ 0 := by
      by_cases hi' : Fits w (-i)
      · rw [sval_ofInt hi', Int.tdiv_neg, Int.neg_tdiv]; exact ⟨rfl, by omega⟩
      · have hc : BitVec.ofInt w (-i) = BitVec.ofInt w i := by
          have := sval_neg (BitVec.ofInt w i)
          rw [sval_ofInt h1.fits, ← BitVec.ofInt_neg] at this
          rcases this with h | h
          · rw [← h] at hi'; exact absurd (sval_fits _) hi'
          · exact h
        rw [hc, sval_ofInt h1.fits]
        refine ⟨?_, h0⟩
        have k := h1.fits; have kx := sval_fits (val ρ x)
        by_cases hw : w ≤ 1
        · have : sval (val ρ x) = 0 := by
            unfold Fits lo at hf kx
            simp only [hw, if_true] at hf kx
            omega
          rw [this]; simp
        · unfold Fits lo hi at *
          simp only [hw, if_false] at *
          have h2p := two_pow_pos' (w - 1)
          rw [tdiv_zero_of_abs (by omega), tdiv_zero_of_abs (by omega)]
    refine ⟨⟨hx.mono, trivial, ?_, ?_⟩, ?_⟩
    · rw [cst_val, Ne, eq_zero_iff]; exact key.2
    · rw [cst_val, key.1]; exact hq
    · simp only [val, binVal, cst_val]
      rw [key.1, hs, h1.sval]
  | @negRemConst _ x b i h1 =>
    obtain ⟨⟨hx, hf⟩, _, h0, hq⟩ := hd
    have hf := hf rfl
    have hs := sval_neg_of_fits hf
    have hc : sval (BitVec.ofInt w i) = i := sval_ofInt h1.fits
    refine ⟨⟨⟨hx.mono, trivial, ?_, ?_⟩, by simp⟩, ?_⟩
    · rw [cst_val, Ne, eq_zero_iff, hc]; rw [Ne, eq_zero_iff, h1.sval] at h0; exact h0
    · rw [cst_val, hc]
      exact fits_of_abs (sval_fits _) hf (Int.natAbs_tdiv_le_natAbs _ _)
    · simp only [val, binVal, cst_val]
      rw [hc, hs, h1.sval, Int.neg_tmod, BitVec.ofInt_neg]
  | @sqCmp _ _ c m x z _ h1 h2 h3 h4 =>
    rw [h1.dfn, h3.dfn] at hd
    obtain ⟨⟨hx, _, hf⟩, _⟩ := hd
    have hf := hf rfl
    have hm : sval (val ρ m) = sval (val ρ x) * sval (val ρ x) := by rw [h3.val]; exact sval_mul_of_fits hf
    have hnn : 0 ≤ sval (val ρ x) * sval (val ρ x) := mul_self_nonneg _
    have hz : sval (val ρ x) * sval (val ρ x) = 0 ↔ val ρ x = 0 := by rw [mul_self_eq_zero, eq_zero_iff]
    have hz' : val ρ m = 0 ↔ val ρ x = 0 := by rw [eq_zero_iff, hm, hz]
    have hz2 := h2.val (ρ := ρ)
    rw [ofInt_zero'] at hz2
    cases c <;> simp only at h4 <;> (try exact h4.elim) <;> subst h4 <;>
      refine ⟨by first | trivial | exact ⟨hx.mono, trivial⟩, bool_ext ?_⟩ <;> rw [h1.one] <;>
      (first | rw [cst0_one] | rw [cst1_one] | rw [icmp_one]) <;>
      simp only [cmpProp, cst_val, ofInt_zero', hz2, sval_zero, hm, hz', Ne, ← hz] <;> (first | omega | exact iff_of_false not_false (not_lt.mpr hnn) | exact iff_of_true trivial hnn)
  | @subZextLt _ _ b s x hw h1 h2 =>
    rw [h1.dfn, h2.dfn] at hd
    obtain ⟨⟨_, hb, hf⟩, _⟩ := hd
    have hf := hf rfl
    refine ⟨Def.mono b hb, bool_ext ?_⟩
    rw [h1.one]
    simp only [cmpProp, h2.val, binVal]
    rw [sval_sub_of_fits hf]
    simp only [val, castVal]
    rw [zext_eq]
    split
    · rw [sval_one hw]; simp [*]
    · rw [sval_zero]; simp; assumption

/-- the rules valid for wrapping arithmetic -/
inductive RuleW : {w : Nat} → Expr w → Expr w → Prop
  | a {w} {e e' : Expr w} : RA e e' → RuleW e e'
  | b {w} {e e' : Expr w} : RB e e' → RuleW e e'
  | c {e e' : Expr 1} : RC e e' → RuleW e e'
  | s {w} {e e' : Expr w} : RS e e' → RuleW e e'
  | n {w} {e e' : Expr w} : RN e e' → RuleW e e'

/-- C26: each of the modelled rewrites of `ArithmeticReduce` (all but the rules of `RO` and the cases excluded by a *restricted* side
condition) may be applied to any expression it matches: whenever the original is defined, with wrapping arithmetic, the replacement is
defined and has the same value. -/
theorem C26_wrapping {w : Nat} {e e' : Expr w} (h : RuleW e e') : Refines e e' := by
  cases h with
  | a h => exact h.sound
  | b h => exact h.sound
  | c h => exact h.sound
  | s h => exact h.sound
  | n h => exact h.sound

/-- C26: for programs without signed overflow the rules of `RO` are valid too. -/
theorem C26_no_overflow {w : Nat} {e e' : Expr w} (h : RO e e') : RefinesNSW e e' := h.sound

/-! ## rewriting anywhere, any number of times -/

/-- replacing one subexpression -/
inductive In (R : {w : Nat} → Expr w → Expr w → Prop) : {w : Nat} → Expr w → Expr w → Prop
  | here {w} {e e' : Expr w} : R e e' → In R e e'
  | neg {w} {a a' : Expr w} : In R a a' → In R (neg a) (neg a')
  | abs {w} {a a' : Expr w} : In R a a' → In R (abs a) (abs a')
  | binL {w op} {a a' b : Expr w} : In R a a' → In R (bin op a b) (bin op a' b)
  | binR {w op} {a b b' : Expr w} : In R b b' → In R (bin op a b) (bin op a b')
  | icmpL {w c} {a a' b : Expr w} : In R a a' → In R (icmp c a b) (icmp c a' b)
  | icmpR {w c} {a b b' : Expr w} : In R b b' → In R (icmp c a b) (icmp c a b')
  | selC {w} {c c' : Expr 1} {a b : Expr w} : In R c c' → In R (select c a b) (select c' a b)
  | selL {w} {c : Expr 1} {a a' b : Expr w} : In R a a' → In R (select c a b) (select c a' b)
  | selR {w} {c : Expr 1} {a b b' : Expr w} : In R b b' → In R (select c a b) (select c a b')
  | cast {w op w'} {a a' : Expr w} : In R a a' → In R (Expr.cast op w' a) (Expr.cast op w' a')

/-- any number of rewrites -/
inductive Steps (R : {w : Nat} → Expr w → Expr w → Prop) {w : Nat} : Expr w → Expr w → Prop
  | refl {e} : Steps R e e
  | step {e f g} : In R e f → Steps R f g → Steps R e g

theorem binDef_congr {nsw : Bool} {w : Nat} {op : BinOp} {x x' y y' : BitVec w} (hx : x' = x) (hy : y' = y) (h : binDef nsw op x y) :
    binDef nsw op x' y' := by subst hx; subst hy; exact h

theorem binDef_mono {b : Bool} {w : Nat} {op : BinOp} {x y : BitVec w} (h : binDef b op x y) : binDef false op x y := by
  cases op <;> simp only [binDef] at h ⊢ <;> first | exact h | simp

/-- defined in the given reading → defined in the wrapping reading -/
theorem Def.weaken {b : Bool} {ρ : Env} {w : Nat} (e : Expr w) (h : Def b ρ e) : Def false ρ e := by
  cases b
  · exact h
  · exact Def.mono e h

/-- a local replacement that is sound under reading `b` is sound in every context -/
theorem In.sound {R : {w : Nat} → Expr w → Expr w → Prop} {b : Bool} {ρ : Env}
    (hR : ∀ {w : Nat} {e e' : Expr w}, R e e' → Def b ρ e → Def false ρ e' ∧ val ρ e' = val ρ e)
    {w : Nat} {e e' : Expr w} (h : In R e e') : Def b ρ e → Def false ρ e' ∧ val ρ e' = val ρ e := by
  induction h with
  | here h => exact hR h
  | neg _ ih => intro hd; obtain ⟨h1, h2⟩ := ih hd.1; exact ⟨⟨h1, by simp⟩, by simp only [val, h2]⟩
  | abs _ ih => intro hd; obtain ⟨h1, h2⟩ := ih hd.1; exact ⟨⟨h1, by simp⟩, by simp only [val, h2]⟩
  | binL _ ih =>
    intro hd; obtain ⟨h1, h2⟩ := ih hd.1
    exact ⟨⟨h1, hd.2.1.weaken, binDef_congr h2 rfl (binDef_mono hd.2.2)⟩, by simp only [val, h2]⟩
  | binR _ ih =>
    intro hd; obtain ⟨h1, h2⟩ := ih hd.2.1
    exact ⟨⟨hd.1.weaken, h1, binDef_congr rfl h2 (binDef_mono hd.2.2)⟩, by simp only [val, h2]⟩
  | icmpL _ ih => intro hd; obtain ⟨h1, h2⟩ := ih hd.1; exact ⟨⟨h1, hd.2.weaken⟩, by simp only [val, h2]⟩
  | icmpR _ ih => intro hd; obtain ⟨h1, h2⟩ := ih hd.2; exact ⟨⟨hd.1.weaken, h1⟩, by simp only [val, h2]⟩
  | selC _ ih => intro hd; obtain ⟨h1, h2⟩ := ih hd.1; exact ⟨⟨h1, hd.2.1.weaken, hd.2.2.weaken⟩, by simp only [val, h2]⟩
  | selL _ ih => intro hd; obtain ⟨h1, h2⟩ := ih hd.2.1; exact ⟨⟨hd.1.weaken, h1, hd.2.2.weaken⟩, by simp only [val, h2]⟩
  | selR _ ih => intro hd; obtain ⟨h1, h2⟩ := ih hd.2.2; exact ⟨⟨hd.1.weaken, hd.2.1.weaken, h1⟩, by simp only [val, h2]⟩
  | cast _ ih => intro hd; obtain ⟨h1, h2⟩ := ih hd; exact ⟨h1, by simp only [val, h2]⟩

/-- C26: any number of rewrites, at any positions, preserves the value of every defined expression. -/
theorem C26_contexts {w : Nat} {e e' : Expr w} (h : Steps RuleW e e') : Refines e e' := by
  induction h with
  | refl => exact fun ρ hd => ⟨hd, rfl⟩
  | step h1 _ ih =>
    intro ρ hd
    obtain ⟨k1, k2⟩ := In.sound (b := false) (fun hr hd => C26_wrapping hr ρ hd) h1 hd
    obtain ⟨k3, k4⟩ := ih ρ k1
    exact ⟨k3, k4.trans k2⟩

/-- C26: in a program without signed overflow a rule of `RO` may be applied at any position, followed by any number of the other rewrites.
What is not proved: a second application of an `RO` rule (the first rewrites may introduce wrapping operations). -/
theorem C26_no_overflow_contexts_partial {w : Nat} {e f g : Expr w} (h1 : In RO e f) (h2 : Steps RuleW f g) : RefinesNSW e g := by
  intro ρ hd
  obtain ⟨k1, k2⟩ := In.sound (b := true) (fun hr hd => C26_no_overflow hr ρ hd) h1 hd
  obtain ⟨k3, k4⟩ := C26_contexts h2 ρ k1
  exact ⟨k3, k4.trans k2⟩

/-! the hypotheses are satisfiable: `(x + 3) + 4 -> x + 7` and then, inside a comparison, `(x + 7) <= 9 -> (x + 7) < 10` -/

example : Steps RuleW (icmp .sle (bin .add (bin .add (var 32 0) (const 3)) (const 4)) (const 9))
    (icmp .slt (bin .add (var 32 0) (cst 7)) (cst 10)) := by
  refine .step (.icmpL (.here (.a (.addAdd (i := 3) (j := 4) .fwd .fwd (.mk (c := 3)) (.mk (c := 4)))))) ?_
  exact .step (.here (.c (.sleLt (i := 9) .fwd (.mk (c := 9)) (by decide)))) .refl

example : Def true (fun _ _ => 5) (bin .sdiv (bin .mul (var 32 0) (const 6)) (const 3)) ∧
    RO (bin .sdiv (bin .mul (var 32 0) (const 6)) (const 3)) (bin .mul (var 32 0) (cst 2)) :=
  ⟨by simp only [Def, binDef, Fits]; decide,
    .divMul (i := 6) (j := 3) .fwd (.mk (c := 6)) (.mk (c := 3)) (by decide) (by decide)⟩

/-! ## rewrites performed by the C++ code that are wrong

Each theorem gives a match of a C++ rule in a case excluded by a *restricted* side condition and shows that the replacement changes the
value of a program without signed overflow. -/

/-- an environment giving the values of `xs` to the leaves `0, 1, ...` -/
def envOf (xs : List Int) : Env := fun w n => BitVec.ofInt w (xs.getD n 0)

theorem not_nsw {w : Nat} {e e' : Expr w} (xs : List Int) (hd : Def true (envOf xs) e) (hne : val (envOf xs) e' ≠ val (envOf xs) e) :
    ¬ RefinesNSW e e' := fun h => hne (h _ hd).2

/-- line 181-189: x / 65536 / 32768 -> 0, wrong for x = INT_MIN -/
theorem C26_bad_div_div : ¬ RefinesNSW (bin .sdiv (bin .sdiv (var 32 0) (const 65536)) (const 32768)) (cst 0) :=
  not_nsw [-2147483648] (by simp only [Def, binDef, Fits]; decide) (by decide)

/-- line 443-455: -x < INT_MIN -> INT_MIN < x, wrong for x = 1 -/
theorem C26_bad_neg_cmp : ¬ RefinesNSW (icmp .slt (neg (var 32 0)) (const (BitVec.ofInt 32 (-2147483648))))
    (icmp .slt (cst 2147483648) (var 32 0)) :=
  not_nsw [1] (by simp only [Def, binDef, Fits]; decide) (by decide)

/-- line 458-466: ((x % 10 + 7) % 10 + 5) % 10 -> (x % 10 + 2) % 10, wrong for x = -9 -/
theorem C26_bad_rem_chain :
    ¬ RefinesNSW (bin .srem (bin .add (bin .srem (bin .add (bin .srem (var 32 0) (const 10)) (const 7)) (const 10)) (const 5)) (const 10))
      (bin .srem (bin .add (bin .srem (var 32 0) (const 10)) (cst 2)) (const 10)) :=
  not_nsw [-9] (by simp only [Def, binDef, Fits]; decide) (by decide)

/-- line 509-514: (x >>s 20) >>s 20 -> 0, wrong for x = -1 -/
theorem C26_bad_ashr : ¬ RefinesNSW (bin .ashr (bin .ashr (var 32 0) (const 20)) (const 20)) (cst 0) :=
  not_nsw [-1] (by simp only [Def, binDef, Fits]; decide) (by decide)

/-- line 736-745: x == a ? b : a -> (a ^ b) ^ x on booleans, wrong for x = 1, a = b = 0 -/
theorem C26_bad_alternate : ¬ RefinesNSW (select (icmp .eq (var 1 0) (var 1 1)) (var 1 2) (var 1 1))
    (bin .xor (bin .xor (var 1 1) (var 1 2)) (var 1 0)) :=
  not_nsw [1, 0, 0] (by simp only [Def, binDef, Fits]; decide) (by decide)

/-- line 749-791 at 8 bits: x >= -128 && x <= 127 -> (x - -128) <u 256 = 0 -/
theorem C26_bad_bounds8 : ¬ RefinesNSW (bin .and (icmp .sge (var 8 0) (const (BitVec.ofInt 8 (-128)))) (icmp .sle (var 8 0) (const 127)))
    (icmp .ult (bin .sub (var 8 0) (cst (-128))) (cst 256)) :=
  not_nsw [0] (by simp only [Def, binDef, Fits]; decide) (by decide)

/-- line 1051-1078: x / 1500000000 == 1 -> (x - 1500000000) <u 1500000000, wrong for x = -2100000000 -/
theorem C26_bad_div_eq : ¬ RefinesNSW (icmp .eq (bin .sdiv (var 32 0) (const 1500000000)) (const 1))
    (icmp .ult (bin .add (var 32 0) (cst (-1500000000))) (cst 1500000000)) :=
  not_nsw [-2100000000] (by simp only [Def, binDef, Fits]; decide) (by decide)

/-- line 1194-1199: x <= INT_MAX -> x < INT_MIN -/
theorem C26_bad_sle : ¬ RefinesNSW (icmp .sle (var 32 0) (const 2147483647)) (icmp .slt (var 32 0) (cst 2147483648)) :=
  not_nsw [0] (by simp only [Def, binDef, Fits]; decide) (by decide)

/-- line 1200-1203: x >= INT_MIN -> x > INT_MAX -/
theorem C26_bad_sge : ¬ RefinesNSW (icmp .sge (var 32 0) (const (BitVec.ofInt 32 (-2147483648)))) (icmp .sgt (var 32 0) (cst (-2147483649))) :=
  not_nsw [0] (by simp only [Def, binDef, Fits]; decide) (by decide)

/-- line 1285-1330: x >= y && x > z -> x < smax (y - 1) z (the predicate of a `>=` is changed to `<`) -/
theorem C26_bad_merge_ge : ¬ RefinesNSW (bin .and (icmp .sge (var 32 0) (var 32 1)) (icmp .sgt (var 32 0) (var 32 2)))
    (icmp .slt (var 32 0) (bin .smax (bin .add (var 32 1) (cst (-1))) (var 32 2))) :=
  not_nsw [5, 1, 1] (by simp only [Def, binDef, Fits]; decide) (by decide)

/-- line 1285-1330: x < y && x <= z -> x < smin y (z + 1), wrong for z = INT_MAX -/
theorem C26_bad_merge_le : ¬ RefinesNSW (bin .and (icmp .slt (var 32 0) (var 32 1)) (icmp .sle (var 32 0) (var 32 2)))
    (icmp .slt (var 32 0) (bin .smin (var 32 1) (bin .add (var 32 2) (cst 1)))) :=
  not_nsw [0, 1, 2147483647] (by simp only [Def, binDef, Fits]; decide) (by decide)

end Cmmc.IR
