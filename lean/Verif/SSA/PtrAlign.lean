import Verif.SSA.RangeAna
/-!
# C97: PointerAlignmentAnalysis (cmmc/Analysis/PointerAlignmentAnalysis.cpp): the alignments it finds hold in every run

The analysis starts with the alignment of the pointee type for every pointer and visits instructions in the order of a work list, raising the
alignment of the visited pointer. The order, and the bound on the number of visits (`maxEnqueueCount`), do not matter for the claim: the model
visits instructions in any order, any number of times.

Modelled: the rules for `alloc`, `phi` (including pointers that are advanced in a loop), `select`, `getelementptr`, casts and `ptradd`, and the use
of the known zero bits of indices from IntegerRangeAnalysis (C93). Addresses are numbers modulo `2^64`, indices 32-bit integers. Not modelled:
the use of SCEVAnalysis for indices (lines 164-170), which is wrong: see `align_scev_bad` in PtrAlignEx.lean.
-/
namespace Cmmc.SSA

/-- what the analysis looks at in an opcode. `gep c ss`: `c` is the sum of the field offsets, `ss` are the strides of the integer operands
(`GetElementPtrInst::gatherOffsets`, IR/Instruction.cpp:590-629); the last operand is the base. -/
inductive AKind
  | alloc (a : Nat) | select | gep (c : Int) (ss : List Nat) | cast | ptrAdd | other

/-- the part of the language the analysis looks at -/
structure AlignOps (L : Lang) extends RangeOps L where
  /-- the address a value is; `none` for values of other types -/
  ptr : L.V → Option (BitVec 64)
  /-- the value of an offset constant of `ptradd` -/
  off : L.C → Option Int
  /-- the alignment of a global, or of the pointee type of another constant (lines 62-67, 197-201) -/
  calign : L.C → Nat
  akind : L.Op → AKind

/-- the sum of strides times indices -/
def dot : List Nat → List Int → Int
  | s :: ss, z :: zs => s * z + dot ss zs
  | _, _ => 0

/-- powers of two of 32 bits -/
def P2 (n : Nat) : Prop := ∃ k, k < 32 ∧ n = 2 ^ k

/-- the language computes what the opcodes say, and objects are placed at aligned addresses -/
structure AlignLaws {L : Lang} (O : AlignOps L) : Prop where
  num : ∀ {c : L.C} {z : Int}, O.num c = some z → O.i32 (L.cval c) = some (BitVec.ofInt 32 z) ∧ -2 ^ 31 ≤ z ∧ z < 2 ^ 31
  noNum : ∀ {c : L.C}, O.num c = none → O.i32 (L.cval c) = none
  calign : ∀ c : L.C, P2 (O.calign c) ∧ ∀ a, O.ptr (L.cval c) = some a → O.calign c ∣ a.toNat
  alloc : ∀ {op : L.Op} {n : Nat} {vs : List L.V} {m m' : L.M} {v : L.V} {es : List L.E} {r : BitVec 64}, O.akind op = .alloc n →
    L.sem op vs m = .ok v m' es → O.ptr v = some r → n ∣ r.toNat
  allocP2 : ∀ {op : L.Op} {n : Nat}, O.akind op = .alloc n → P2 n
  select : ∀ {op : L.Op} {vs : List L.V} {m m' : L.M} {v : L.V} {es : List L.E} {r : BitVec 64}, O.akind op = .select →
    L.sem op vs m = .ok v m' es → O.ptr v = some r → ∃ c x y, vs = [c, x, y] ∧ (v = x ∨ v = y)
  gep : ∀ {op : L.Op} {c : Int} {ss : List Nat} {vs : List L.V} {m m' : L.M} {v : L.V} {es : List L.E} {r : BitVec 64}, O.akind op = .gep c ss →
    L.sem op vs m = .ok v m' es → O.ptr v = some r → ∃ (is : List L.V) (p : L.V) (zs : List (BitVec 32)) (a : BitVec 64), vs = is ++ [p] ∧
      O.ptr p = some a ∧ is.map O.i32 = zs.map some ∧ r = a + BitVec.ofInt 64 (c + dot ss (zs.map BitVec.toInt))
  cast : ∀ {op : L.Op} {vs : List L.V} {m m' : L.M} {v : L.V} {es : List L.E} {r : BitVec 64}, O.akind op = .cast →
    L.sem op vs m = .ok v m' es → O.ptr v = some r → ∃ x, vs = [x] ∧ O.ptr x = some r
  ptrAdd : ∀ {op : L.Op} {x : L.V} {c : L.C} {z : Int} {m m' : L.M} {v : L.V} {es : List L.E} {r : BitVec 64}, O.akind op = .ptrAdd →
    O.off c = some z → L.sem op [x, L.cval c] m = .ok v m' es → O.ptr v = some r → ∃ a, O.ptr x = some a ∧ r = a + BitVec.ofInt 64 z

/-- `static_cast<uint32_t>(z & -z)`: the lowest bit of `z` among the `n` lowest bits -/
def low : Int → Nat → Nat
  | _, 0 => 0
  | z, n + 1 => if z % 2 = 1 then 1 else 2 * low (z / 2) n

section
variable {L : Lang} (O : AlignOps L) (F : L.F) (R : Ranges)

/-- `PointerAlignmentAnalysisResult` with the alignments of the types for pointers without an entry -/
abbrev Aligns := Nat → Nat

/-- `lookup` (lines 197-201) -/
def AlignOps.look (A : Aligns) : Opd L.C → Nat
  | .inst x => A x
  | .cst c => O.calign c

/-- the constant part of the offset (`gatherOffsets`) -/
def AlignOps.constOff : List Nat → List (Opd L.C) → Int
  | s :: ss, .cst c :: is => (match O.num c with | some z => s * z | none => 0) + AlignOps.constOff ss is
  | _ :: ss, .inst _ :: is => AlignOps.constOff ss is
  | _, _ => 0

/-- the loop over the other indices (lines 146-174) -/
def varAlign : List Nat → List (Opd L.C) → Nat → Nat
  | s :: ss, .inst x :: is, al =>
    let scale := max 1 (low (((R x).zeros.toNat : Int) + 1) 32)
    let times : Int := s * scale
    varAlign ss is (if times ≠ 0 then min al (low times 32) else al)
  | _ :: ss, .cst _ :: is, al => varAlign ss is al
  | _, _, al => al

/-- the alignment that follows for an instruction (lines 83-85, 131-190) -/
def AlignOps.transferA (g : Opd L.C → Nat) (i : Inst L.Op L.C) : Option Nat :=
  match O.akind i.op with
  | .alloc n => some n
  | .select => match i.args with
    | [_, x, y] => some (min (g x) (g y))
    | _ => none
  | .cast => match i.args with
    | [x] => some (g x)
    | _ => none
  | .ptrAdd => match i.args with
    | [x, .cst c] => (O.off c).map (fun z => if low z 32 ≠ 0 then min (g x) (low z 32) else g x)
    | _ => none
  | .gep c ss => match i.args.getLast? with
    | some b =>
      let C := c + O.constOff ss i.args.dropLast
      some (varAlign (L := L) R ss i.args.dropLast (if C ≠ 0 then min (g b) (low C 32) else g b))
    | none => none
  | .other => none

/-- a pointer that is the phi `u`, advanced by a constant: by how much (lines 102-108, 113-120). The second pattern of the code, `getOperand(0)`,
only is the whole offset for one index; for more indices the types of the phi and the address would not agree. -/
def AlignOps.selfInc (u : Nat) : Opd L.C → Option Int
  | .inst y => match F.inst? y with
    | some i => match O.akind i.op, i.args with
      | .gep c [s], [.cst d, .inst x] => if x = u ∧ c = 0 then (O.num d).map (fun z => z * s) else none
      | _, _ => none
    | none => none
  | .cst _ => none

/-- the alignment of a phi (lines 92-129) -/
def AlignOps.phiAl (A : Aligns) (u : Nat) : List (Opd L.C) → Nat
  | [] => 16
  | o :: os =>
    let m := AlignOps.phiAl A u os
    match O.selfInc F u o with
    | some t => if t ≠ 0 then min m (low t 32) else m
    | none => match o with
      | .inst y => if y = u then m else min m (A y)
      | .cst c => min m (O.calign c)

/-- `update` (lines 43-60) -/
def updA (A : Aligns) (x n : Nat) : Aligns := if A x < n then (fun y => if y = x then n else A y) else A

/-- one visit -/
inductive AVisit : Aligns → Aligns → Prop
  | inst {A : Aligns} {b : Nat} {B : L.B} {i : Inst L.Op L.C} {n : Nat} : F.blk b = some B → i ∈ B.body →
      O.transferA R (O.look A) i = some n → AVisit A (updA A i.id n)
  | phi {A : Aligns} {b : Nat} {B : L.B} {p : Phi L.C} : F.blk b = some B → p ∈ B.phis →
      AVisit A (updA A p.id (O.phiAl F A p.id (p.inc.map Prod.snd)))

/-- the results of the analysis, from the alignments `abi` of the types. (For `alloc` the code starts with the alignment of the object
even if it should be smaller than that of the type.) -/
inductive AAnalysis (abi : Aligns) : Aligns → Prop
  | start : AAnalysis abi abi
  | visit {A A' : Aligns} : AAnalysis abi A → AVisit O F R A A' → AAnalysis abi A'

/-- addresses in registers are multiples of the alignments -/
def AlIn (A : Aligns) (env : Env L) : Prop := ∀ x v a, env x = some v → O.ptr v = some a → A x ∣ a.toNat

end

/-! ## arithmetic -/

theorem low_spec (n : Nat) : ∀ z : Int, low z n = 0 ∨ ∃ k, k < n ∧ low z n = 2 ^ k ∧ (2 ^ k : Int) ∣ z := by
  induction n with
  | zero => intro z; exact .inl rfl
  | succ n ih =>
    intro z
    unfold low
    split
    · exact .inr ⟨0, by omega, rfl, by simp⟩
    · rename_i h
      rcases ih (z / 2) with h0 | ⟨k, hk, e, hd⟩
      · exact .inl (by rw [h0])
      · refine .inr ⟨k + 1, by omega, by rw [e, pow_succ]; ring, ?_⟩
        obtain ⟨d, hd⟩ := hd
        refine ⟨d, ?_⟩
        have : z = 2 * (z / 2) := by omega
        rw [this, hd, pow_succ]; ring

theorem low_zero (n : Nat) : ∀ z : Int, low z n = 0 → (2 ^ n : Int) ∣ z := by
  induction n with
  | zero => intro z _; simp
  | succ n ih =>
    intro z h
    unfold low at h
    split at h
    · simp at h
    · rename_i h1
      obtain ⟨d, hd⟩ := ih (z / 2) (by omega)
      refine ⟨d, ?_⟩
      have : z = 2 * (z / 2) := by omega
      rw [this, hd, pow_succ]; ring

theorem P2.dvd {n m : Nat} (hn : P2 n) (hm : P2 m) (h : n ≤ m) : n ∣ m := by
  obtain ⟨j, _, rfl⟩ := hn
  obtain ⟨k, _, rfl⟩ := hm
  exact pow_dvd_pow 2 ((Nat.pow_le_pow_iff_right (by norm_num)).mp h)

theorem P2.pos {n : Nat} (hn : P2 n) : 0 < n := by
  obtain ⟨j, _, rfl⟩ := hn
  positivity

theorem P2.dvd_low {n : Nat} (hn : P2 n) {z : Int} {m : Nat} (h : n ≤ low z m) : (n : Int) ∣ z := by
  have hp := hn.pos
  obtain ⟨j, _, rfl⟩ := hn
  rcases low_spec m z with h0 | ⟨k, _, e, hd⟩
  · omega
  · rw [e] at h
    have hjk : j ≤ k := (Nat.pow_le_pow_iff_right (by norm_num)).mp h
    refine dvd_trans ?_ hd
    push_cast
    exact pow_dvd_pow 2 hjk

theorem P2.dvd64 {n : Nat} (hn : P2 n) : n ∣ 2 ^ 64 := by
  obtain ⟨j, hj, rfl⟩ := hn
  exact pow_dvd_pow 2 (by omega)

theorem P2.add {n : Nat} (hn : P2 n) {a : BitVec 64} {z : Int} (ha : n ∣ a.toNat) (hz : (n : Int) ∣ z) : n ∣ (a + BitVec.ofInt 64 z).toNat := by
  rw [BitVec.toNat_add, Nat.dvd_mod_iff hn.dvd64]
  refine Nat.dvd_add ha ?_
  rw [← Int.natCast_dvd_natCast, BitVec.toNat_ofInt, Int.toNat_of_nonneg (Int.emod_nonneg _ (by norm_num))]
  have h64 : (n : Int) ∣ ((2 ^ 64 : Nat) : Int) := Int.natCast_dvd_natCast.mpr hn.dvd64
  rw [Int.emod_def]
  exact Int.dvd_sub hz (Dvd.dvd.mul_right h64 _)

/-- known zero bits of an index -/
theorem zeros_dvd {k : Nat} (hk : k < 32) {zs a : BitVec 32} (hz : (2 ^ k : Int) ∣ (zs.toNat : Int) + 1)
    (h : ∀ i, zs.getLsbD i = true → a.getLsbD i = false) : (2 ^ k : Int) ∣ a.toInt := by
  have hz' : 2 ^ k ∣ zs.toNat + 1 := by
    rw [← Int.natCast_dvd_natCast]; push_cast; exact hz
  have hpos : 0 < 2 ^ k := by positivity
  have hmod : zs.toNat % 2 ^ k = 2 ^ k - 1 := by
    obtain ⟨d, hd⟩ := hz'
    have hd0 : d ≠ 0 := by rintro rfl; omega
    obtain ⟨e, rfl⟩ := Nat.exists_eq_succ_of_ne_zero hd0
    have : zs.toNat = 2 ^ k * e + (2 ^ k - 1) := by
      rw [Nat.mul_succ] at hd; omega
    rw [this, Nat.mul_add_mod]
    exact Nat.mod_eq_of_lt (by omega)
  have hbit : ∀ i, i < k → a.toNat.testBit i = false := by
    intro i hi
    refine h i ?_
    show zs.toNat.testBit i = true
    have h1 : (zs.toNat % 2 ^ k).testBit i = true := by
      rw [hmod, Nat.testBit_two_pow_sub_one]; simpa using hi
    rw [Nat.testBit_mod_two_pow] at h1
    simpa [hi] using h1
  have ha : a.toNat % 2 ^ k = 0 := by
    apply Nat.eq_of_testBit_eq
    intro i
    rw [Nat.testBit_mod_two_pow, Nat.zero_testBit]
    by_cases hi : i < k
    · simp [hi, hbit i hi]
    · simp [hi]
  have had : (2 ^ k : Int) ∣ (a.toNat : Int) := by
    have := Int.natCast_dvd_natCast.mpr (Nat.dvd_of_mod_eq_zero ha)
    push_cast at this; exact this
  rw [BitVec.toInt_eq_toNat_cond]
  split
  · exact had
  · refine Int.dvd_sub had ?_
    have h32 : (2 ^ k : Int) ∣ 2 ^ 32 := pow_dvd_pow 2 (Nat.le_of_lt hk)
    exact_mod_cast h32

theorem index_dvd {n s : Nat} (hn : P2 n) {r : Range.IRange} {a : BitVec 32} (hm : Range.Mem a r)
    (h : ((s : Int) * (max 1 (low ((r.zeros.toNat : Int) + 1) 32) : Nat)) ≠ 0 →
      n ≤ low ((s : Int) * (max 1 (low ((r.zeros.toNat : Int) + 1) 32) : Nat)) 32) : (n : Int) ∣ s * a.toInt := by
  by_cases ht : ((s : Int) * (max 1 (low ((r.zeros.toNat : Int) + 1) 32) : Nat)) = 0
  · rcases mul_eq_zero.mp ht with h0 | h0
    · rw [h0]; simp
    · omega
  · have hd := hn.dvd_low (h ht)
    refine dvd_trans hd (mul_dvd_mul_left _ ?_)
    rcases low_spec 32 ((r.zeros.toNat : Int) + 1) with h0 | ⟨k, hk, e, hd'⟩
    · rw [h0]; simp
    · have : max 1 (low ((r.zeros.toNat : Int) + 1) 32) = 2 ^ k := by
        rw [e]; exact max_eq_right (Nat.one_le_two_pow)
      rw [this]; push_cast
      exact zeros_dvd hk hd' (fun i hi => hm.z i hi)

/-! ## invariants -/

section
variable {L : Lang} {F : L.F}

/-- what is known of the addresses in single registers -/
def HoldsA (O : AlignOps L) (P : Nat → BitVec 64 → Prop) (env : Env L) : Prop := ∀ x v a, env x = some v → O.ptr v = some a → P x a

/-- facts about registers can be added to an invariant when every definition establishes them, given the invariant and the facts -/
theorem Kept.addA {O : AlignOps L} {I : Env L → Prop} (K : Kept F I) {P : Nat → BitVec 64 → Prop}
    (hp : ∀ {b : Nat} {B : L.B} {p : Phi L.C} {q : Nat} {o : Opd L.C} {env : Env L} {v : L.V} {a : BitVec 64}, F.blk b = some B → p ∈ B.phis →
      (q, o) ∈ p.inc → I env → HoldsA O P env → eval L env o = some v → O.ptr v = some a → P p.id a)
    (hi : ∀ {b : Nat} {B : L.B} {i : Inst L.Op L.C} {vs : List L.V} {m m' : L.M} {v : L.V} {es : List L.E} {env : Env L} {a : BitVec 64},
      F.blk b = some B → i ∈ B.body → I env → HoldsA O P env → evals L env i.args = some vs → L.sem i.op vs m = .ok v m' es →
      O.ptr v = some a → P i.id a) :
    Kept F (fun env => I env ∧ HoldsA O P env) where
  init := ⟨K.init, fun x v a h _ => by simp at h⟩
  phis := by
    intro b B q env env' hB hI h
    refine ⟨K.phis hB hI.1 h, fun x v a hx ha => ?_⟩
    rcases enterPhis_cases h x with ⟨p, hp', rfl, q', o, _, ho, he⟩ | ⟨_, he⟩
    · rw [hx] at he
      exact hp hB hp' (Phi.at_mem ho) hI.1 hI.2 he.symm ha
    · rw [hx] at he; exact hI.2 x v a he.symm ha
  body := by
    intro b B i vs m m' v es env hB hi' hI he hs
    refine ⟨K.body hB hi' hI.1 he hs, fun x w a hx ha => ?_⟩
    unfold setEnv at hx
    split at hx
    · rename_i hxi
      simp only [Option.some.injEq] at hx
      subst hx; subst hxi
      exact hi hB hi' hI.1 hI.2 he hs ha
    · exact hI.2 x w a hx ha

theorem Kept.and {I J : Env L → Prop} (K : Kept F I) (K' : Kept F J) : Kept F (fun env => I env ∧ J env) where
  init := ⟨K.init, K'.init⟩
  phis := fun hB hI h => ⟨K.phis hB hI.1 h, K'.phis hB hI.2 h⟩
  body := fun hB hi hI he hs => ⟨K.body hB hi hI.1 he hs, K'.body hB hi hI.2 he hs⟩

variable {O : AlignOps L} {R : Ranges}

theorem look_dvd (W : AlignLaws O) {A : Aligns} {env : Env L} (h : AlIn O A env) {o : Opd L.C} {v : L.V} {a : BitVec 64}
    (he : eval L env o = some v) (ha : O.ptr v = some a) : O.look A o ∣ a.toNat := by
  cases o with
  | inst x => exact h x v a he ha
  | cst c =>
    simp only [eval, Option.some.injEq] at he
    subst he
    exact (W.calign c).2 a ha

theorem evals_append {env : Env L} : ∀ {is : List (Opd L.C)} {b : Opd L.C} {vs : List L.V}, evals L env (is ++ [b]) = some vs →
    ∃ ws w, vs = ws ++ [w] ∧ evals L env is = some ws ∧ eval L env b = some w := by
  intro is
  induction is with
  | nil =>
    intro b vs h
    simp only [List.nil_append, evals] at h
    split at h
    · rename_i v ws h1 h2
      simp only [Option.some.injEq] at h h2
      subst h2; subst h
      exact ⟨[], v, rfl, rfl, h1⟩
    · simp at h
  | cons o is ih =>
    intro b vs h
    simp only [List.cons_append, evals] at h
    split at h
    · rename_i v ws h1 h2
      simp only [Option.some.injEq] at h
      subst h
      obtain ⟨ws', w, rfl, h3, h4⟩ := ih h2
      exact ⟨v :: ws', w, rfl, by simp only [evals]; rw [h1, h3], h4⟩
    · simp at h

theorem varAlign_le : ∀ (ss : List Nat) (is : List (Opd L.C)) (al : Nat), varAlign (L := L) R ss is al ≤ al := by
  intro ss
  induction ss with
  | nil => intro is al; cases is <;> simp [varAlign]
  | cons s ss ih =>
    intro is al
    match is with
    | [] => simp [varAlign]
    | .cst c :: is => simp only [varAlign]; exact ih is al
    | .inst x :: is =>
      simp only [varAlign]
      refine (ih is _).trans ?_
      split
      · exact min_le_left _ _
      · exact le_refl _

theorem varAlign_dvd (W : AlignLaws O) {env : Env L} (hR : EnvIn O.toRangeOps R env) {n : Nat} (hn : P2 n) :
    ∀ (ss : List Nat) (is : List (Opd L.C)) (al : Nat) (ws : List L.V) (zs : List (BitVec 32)), evals L env is = some ws →
      ws.map O.i32 = zs.map some → n ≤ varAlign (L := L) R ss is al → (n : Int) ∣ dot ss (zs.map BitVec.toInt) - O.constOff ss is := by
  intro ss
  induction ss with
  | nil => intro is al ws zs _ _ _; simp [dot, AlignOps.constOff]
  | cons s ss ih =>
    intro is al ws zs he hz hle
    match is with
    | [] =>
      simp only [evals, Option.some.injEq] at he
      subst he
      have : zs = [] := by simpa using hz
      subst this
      simp [dot, AlignOps.constOff]
    | o :: is =>
      simp only [evals] at he
      split at he
      case h_2 => simp at he
      rename_i v ws' h1 h2
      simp only [Option.some.injEq] at he
      subst he
      match zs with
      | [] => simp at hz
      | z :: zs =>
        simp only [List.map_cons, List.cons.injEq] at hz
        match o with
        | .cst c =>
          simp only [varAlign] at hle
          have hi := ih is al ws' zs h2 hz.2 hle
          simp only [eval, Option.some.injEq] at h1
          subst h1
          cases hc : O.num c with
          | none => rw [W.noNum hc] at hz; simp at hz
          | some d =>
            obtain ⟨h3, h4, h5⟩ := W.num hc
            rw [h3] at hz
            simp only [Option.some.injEq] at hz
            have hd : z.toInt = d := by
              rw [← hz.1, BitVec.toInt_ofInt]
              exact Int.bmod_eq_of_le (by norm_num at *; omega) (by norm_num at *; omega)
            simp only [List.map_cons, dot, AlignOps.constOff, hc, hd]
            have : (s : Int) * d + dot ss (zs.map BitVec.toInt) - (s * d + O.constOff ss is) = dot ss (zs.map BitVec.toInt) - O.constOff ss is := by ring
            rw [this]; exact hi
        | .inst x =>
          simp only [varAlign] at hle
          have hi := ih is _ ws' zs h2 hz.2 hle
          have h3 := hle.trans (varAlign_le ss is _)
          have hm : Range.Mem z (R x) := hR x v z h1 hz.1
          have hd : (n : Int) ∣ s * z.toInt := by
            refine index_dvd hn hm (fun ht => ?_)
            rw [if_pos ht] at h3
            exact h3.trans (min_le_right _ _)
          simp only [List.map_cons, dot, AlignOps.constOff]
          have : (s : Int) * z.toInt + dot ss (zs.map BitVec.toInt) - O.constOff ss is = s * z.toInt + (dot ss (zs.map BitVec.toInt) - O.constOff ss is) := by ring
          rw [this]; exact Int.dvd_add hd hi

/-! ## the results are zero or powers of two -/

def P0 (n : Nat) : Prop := n = 0 ∨ P2 n

theorem P0.min {n m : Nat} (hn : P0 n) (hm : P0 m) : P0 (min n m) := by
  rcases Nat.le_total n m with h | h
  · rw [Nat.min_eq_left h]; exact hn
  · rw [Nat.min_eq_right h]; exact hm

theorem low_P0 (z : Int) : P0 (low z 32) := by
  rcases low_spec 32 z with h | ⟨k, hk, e, _⟩
  · exact .inl h
  · exact .inr ⟨k, by omega, e⟩

theorem varAlign_P0 : ∀ (ss : List Nat) (is : List (Opd L.C)) {al : Nat}, P0 al → P0 (varAlign (L := L) R ss is al) := by
  intro ss
  induction ss with
  | nil => intro is al h; cases is <;> simpa [varAlign] using h
  | cons s ss ih =>
    intro is al h
    match is with
    | [] => simpa [varAlign] using h
    | .cst c :: is => simp only [varAlign]; exact ih is h
    | .inst x :: is =>
      simp only [varAlign]
      refine ih is ?_
      split
      · exact h.min (low_P0 _)
      · exact h

theorem look_P2 (W : AlignLaws O) {A : Aligns} (hA : ∀ x, P2 (A x)) (o : Opd L.C) : P2 (O.look A o) := by
  cases o with
  | inst x => exact hA x
  | cst c => exact (W.calign c).1

theorem transferA_P0 (W : AlignLaws O) {g : Opd L.C → Nat} (hg : ∀ o, P2 (g o)) {i : Inst L.Op L.C} {n : Nat}
    (h : O.transferA R g i = some n) : P0 n := by
  unfold AlignOps.transferA at h
  split at h
  · rename_i hk; cases h
    exact .inr (W.allocP2 hk)
  · split at h
    · cases h; exact P0.min (.inr (hg _)) (.inr (hg _))
    · simp at h
  · split at h
    · cases h; exact .inr (hg _)
    · simp at h
  · split at h
    · rw [Option.map_eq_some_iff] at h
      obtain ⟨z, _, rfl⟩ := h
      split
      · exact P0.min (.inr (hg _)) (low_P0 _)
      · exact .inr (hg _)
    · simp at h
  · split at h
    · cases h
      refine varAlign_P0 _ _ ?_
      split
      · exact P0.min (.inr (hg _)) (low_P0 _)
      · exact .inr (hg _)
    · simp at h
  · simp at h

theorem transferA_sound (W : AlignLaws O) {A : Aligns} (hA : ∀ x, P2 (A x)) {env : Env L} (hR : EnvIn O.toRangeOps R env) (hE : AlIn O A env)
    {i : Inst L.Op L.C} {n : Nat} (h : O.transferA R (O.look A) i = some n) (hn : P2 n) {vs : List L.V} (he : evals L env i.args = some vs)
    {m m' : L.M} {v : L.V} {es : List L.E} (hs : L.sem i.op vs m = .ok v m' es) {r : BitVec 64} (hr : O.ptr v = some r) : n ∣ r.toNat := by
  unfold AlignOps.transferA at h
  split at h
  · rename_i hk; cases h
    exact W.alloc hk hs hr
  · rename_i hk
    split at h
    · rename_i c x y hargs
      cases h
      rw [hargs] at he
      obtain ⟨v1, v2, v3, rfl, hv⟩ := W.select hk hs hr
      simp only [evals] at he
      split at he
      case h_2 => simp at he
      rename_i w1 ws1 e1 e2
      split at e2
      case h_2 => simp at e2
      rename_i w2 ws2 e3 e4
      split at e4
      case h_2 => simp at e4
      rename_i w3 ws3 e5 e6
      simp only [Option.some.injEq] at e6 e4 e2 he
      subst e6; subst e4; subst e2
      simp only [List.cons.injEq, and_true] at he
      obtain ⟨rfl, rfl, rfl⟩ := he
      rcases hv with rfl | rfl
      · exact dvd_trans (hn.dvd (look_P2 W hA x) (min_le_left _ _)) (look_dvd W hE e3 hr)
      · exact dvd_trans (hn.dvd (look_P2 W hA y) (min_le_right _ _)) (look_dvd W hE e5 hr)
    · simp at h
  · rename_i hk
    split at h
    · rename_i x hargs
      cases h
      rw [hargs] at he
      obtain ⟨v1, rfl, hv⟩ := W.cast hk hs hr
      simp only [evals] at he
      split at he
      case h_2 => simp at he
      rename_i w1 ws1 e1 e2
      simp only [Option.some.injEq] at e2 he
      subst e2
      simp only [List.cons.injEq, and_true] at he
      subst he
      exact look_dvd W hE e1 hv
    · simp at h
  · rename_i hk
    split at h
    · rename_i x c hargs
      rw [Option.map_eq_some_iff] at h
      obtain ⟨z, hz, hzn⟩ := h
      rw [hargs] at he
      simp only [evals, eval] at he
      split at he
      case h_2 => simp at he
      rename_i w1 ws1 e1 e2
      simp only [Option.some.injEq] at e2 he
      subst e2; subst he
      obtain ⟨a, ha, rfl⟩ := W.ptrAdd hk hz hs hr
      have hb := look_dvd W hE e1 ha
      split at hzn
      · subst hzn
        exact hn.add (dvd_trans (hn.dvd (look_P2 W hA x) (min_le_left _ _)) hb) (hn.dvd_low (min_le_right _ _))
      · rename_i h0
        have h0 : low z 32 = 0 := by omega
        subst hzn
        refine hn.add hb ?_
        refine dvd_trans ?_ (low_zero 32 z h0)
        obtain ⟨k, hk, e⟩ := hn
        rw [e]; push_cast
        exact pow_dvd_pow 2 (Nat.le_of_lt hk)
    · simp at h
  · rename_i c ss hk
    split at h
    · rename_i b hb
      cases h
      obtain ⟨is, p, zs, a, rfl, ha, hz, rfl⟩ := W.gep hk hs hr
      have hargs : i.args = i.args.dropLast ++ [b] := by
        rw [List.getLast?_eq_some_iff] at hb
        obtain ⟨ys, hys⟩ := hb
        rw [hys]; simp
      rw [hargs] at he
      obtain ⟨ws, w, hvs, h1, h2⟩ := evals_append he
      obtain ⟨rfl, hpw⟩ := List.append_inj' hvs rfl
      simp only [List.cons.injEq, and_true] at hpw
      subst hpw
      have hle := varAlign_le (L := L) (R := R) ss i.args.dropLast (if c + O.constOff ss i.args.dropLast ≠ 0 then
        min (O.look A b) (low (c + O.constOff ss i.args.dropLast) 32) else O.look A b)
      have hv := varAlign_dvd W hR hn ss i.args.dropLast _ is zs h1 hz (le_refl _)
      have hlb : varAlign (L := L) R ss i.args.dropLast (if c + O.constOff ss i.args.dropLast ≠ 0 then
        min (O.look A b) (low (c + O.constOff ss i.args.dropLast) 32) else O.look A b) ≤ O.look A b := by
        refine hle.trans ?_
        split
        · exact min_le_left _ _
        · exact le_refl _
      refine hn.add (dvd_trans (hn.dvd (look_P2 W hA b) hlb) (look_dvd W hE h2 ha)) ?_
      have hc : ((varAlign (L := L) R ss i.args.dropLast (if c + O.constOff ss i.args.dropLast ≠ 0 then
        min (O.look A b) (low (c + O.constOff ss i.args.dropLast) 32) else O.look A b) : Nat) : Int) ∣ c + O.constOff ss i.args.dropLast := by
        by_cases h0 : c + O.constOff ss i.args.dropLast = 0
        · rw [h0]; exact dvd_zero _
        · rw [if_pos h0] at hle hn ⊢
          exact hn.dvd_low (hle.trans (min_le_right _ _))
      have e : c + dot ss (zs.map BitVec.toInt) = (c + O.constOff ss i.args.dropLast) + (dot ss (zs.map BitVec.toInt) - O.constOff ss i.args.dropLast) := by ring
      rw [e]
      exact Int.dvd_add hc hv
    · simp at h
  · simp at h

/-! ## phis -/

theorem phiAl_P0 (W : AlignLaws O) {A : Aligns} (hA : ∀ x, P2 (A x)) (u : Nat) : ∀ os : List (Opd L.C), P0 (O.phiAl F A u os) := by
  intro os
  induction os with
  | nil => exact .inr ⟨4, by norm_num, rfl⟩
  | cons o os ih =>
    simp only [AlignOps.phiAl]
    split
    · split
      · exact ih.min (low_P0 _)
      · exact ih
    · split
      · split
        · exact ih
        · exact ih.min (.inr (hA _))
      · exact ih.min (.inr (W.calign _).1)

theorem phiAl_le {A : Aligns} {u n : Nat} : ∀ {os : List (Opd L.C)}, n ≤ O.phiAl F A u os → ∀ o ∈ os,
    (∃ t, O.selfInc F u o = some t ∧ (t = 0 ∨ n ≤ low t 32)) ∨ (O.selfInc F u o = none ∧ (o = .inst u ∨ n ≤ O.look A o)) := by
  intro os
  induction os with
  | nil => intro _ o ho; simp at ho
  | cons o os ih =>
    intro h o' ho'
    simp only [AlignOps.phiAl] at h
    have key : n ≤ O.phiAl F A u os ∧ ((∃ t, O.selfInc F u o = some t ∧ (t = 0 ∨ n ≤ low t 32)) ∨
        (O.selfInc F u o = none ∧ (o = .inst u ∨ n ≤ O.look A o))) := by
      split at h
      · rename_i t ht
        split at h
        · exact ⟨h.trans (min_le_left _ _), .inl ⟨t, ht, .inr (h.trans (min_le_right _ _))⟩⟩
        · rename_i h0
          exact ⟨h, .inl ⟨t, ht, .inl (by omega)⟩⟩
      · rename_i hn
        split at h
        · rename_i y
          split at h
          · rename_i hy
            exact ⟨h, .inr ⟨hn, .inl (by rw [hy])⟩⟩
          · exact ⟨h.trans (min_le_left _ _), .inr ⟨hn, .inr (h.trans (min_le_right _ _))⟩⟩
        · exact ⟨h.trans (min_le_left _ _), .inr ⟨hn, .inr (h.trans (min_le_right _ _))⟩⟩
    rcases List.mem_cons.mp ho' with rfl | ho'
    · exact key.2
    · exact ih key.1 o' ho'

/-- a pointer advanced by a constant -/
theorem selfInc_spec {u x : Nat} {t : Int} (h : O.selfInc F u (.inst x) = some t) : ∃ (b : Nat) (B : L.B) (i : Inst L.Op L.C) (s : Nat) (d : L.C)
    (z : Int), F.blk b = some B ∧ i ∈ B.body ∧ i.id = x ∧ O.akind i.op = .gep 0 [s] ∧ i.args = [.cst d, .inst u] ∧ O.num d = some z ∧ t = z * s := by
  unfold AlignOps.selfInc at h
  dsimp only at h
  split at h
  · rename_i i hi
    obtain ⟨b, B, hB, hiB, hid⟩ := inst?_spec hi
    split at h
    · rename_i c s d y hk hargs
      split at h
      · rename_i hc
        rw [Option.map_eq_some_iff] at h
        obtain ⟨z, hz, rfl⟩ := h
        obtain ⟨rfl, rfl⟩ := hc
        exact ⟨b, B, i, s, d, z, hB, hiB, hid, hk, hargs, hz, rfl⟩
      · simp at h
    · simp at h
  · simp at h

/-! ## the analysis -/

/-- there is an invariant of the function that contains the ranges and the alignments -/
def CertAl (O : AlignOps L) (F : L.F) (R : Ranges) (A : Aligns) : Prop :=
  (∃ I : Env L → Prop, Kept F I ∧ ∀ env, I env → EnvIn O.toRangeOps R env ∧ AlIn O A env) ∧ ∀ x, P2 (A x)

theorem updA_P2 {A : Aligns} (hA : ∀ x, P2 (A x)) {x n : Nat} (hn : P0 n) (y : Nat) : P2 (updA A x n y) := by
  unfold updA
  split
  · rename_i h
    dsimp only
    split
    · rcases hn with rfl | hn
      · omega
      · exact hn
    · exact hA y
  · exact hA y

theorem updA_in {A : Aligns} {x n : Nat} {env : Env L} (hE : AlIn O A env)
    (hx : A x < n → ∀ v a, env x = some v → O.ptr v = some a → n ∣ a.toNat) : AlIn O (updA A x n) env := by
  intro y v a hy ha
  unfold updA
  split
  · rename_i h
    dsimp only
    split
    · rename_i e
      rw [e] at hy
      exact hx h v a hy ha
    · exact hE y v a hy ha
  · exact hE y v a hy ha

theorem CertAl.visit (W : AlignLaws O) (U : OneDef F) {A A' : Aligns} (hC : CertAl O F R A) (h : AVisit O F R A A') : CertAl O F R A' := by
  obtain ⟨⟨I, K, hI⟩, hA⟩ := hC
  cases h with
  | @inst b B i n hB hi ht =>
    have h0 := transferA_P0 W (look_P2 W hA) ht
    refine ⟨?_, updA_P2 hA h0⟩
    have K' := K.addA (O := O) (P := fun x a => x = i.id → A i.id < n → n ∣ a.toNat)
      (by
        intro b' B' p q o env v a hB' hp _ _ _ _ _ e
        exact absurd e (U.both hB' hB hp hi))
      (by
        intro b' B' j vs m m' v es env a hB' hj hIe _ he hx ha e hlt
        have := U.inst hB' hB hj hi e
        subst this
        have hn : P2 n := by
          rcases h0 with h | h
          · omega
          · exact h
        exact transferA_sound W hA (hI env hIe).1 (hI env hIe).2 ht hn he hx ha)
    exact ⟨_, K', fun env hh => ⟨(hI env hh.1).1, updA_in (hI env hh.1).2 (fun hlt v a hx ha => hh.2 _ v a hx ha rfl hlt)⟩⟩
  | @phi b B p hB hp =>
    have h0 := phiAl_P0 (F := F) W hA p.id (p.inc.map Prod.snd)
    refine ⟨?_, updA_P2 hA h0⟩
    generalize hnn : O.phiAl F A p.id (p.inc.map Prod.snd) = n at h0 ⊢
    have hle := phiAl_le (O := O) (F := F) (A := A) (u := p.id) (n := n) (os := p.inc.map Prod.snd) (by omega)
    have K' := K.addA (O := O) (P := fun x a => A p.id < n → (x = p.id ∨ ∃ t, Opd.inst x ∈ p.inc.map Prod.snd ∧ O.selfInc F p.id (.inst x) = some t) →
        n ∣ a.toNat)
      (by
        intro b' B' p' q o env v a hB' hp' ho hIe hH he ha hlt e
        have hn : P2 n := by
          rcases h0 with h | h
          · omega
          · exact h
        rcases e with e | ⟨t, _, ht⟩
        · have := U.phi hB' hB hp' hp e
          subst this
          have hmem : o ∈ p'.inc.map Prod.snd := List.mem_map.2 ⟨(q, o), ho, rfl⟩
          rcases hle o hmem with ⟨t, ht, _⟩ | ⟨_, rfl | hl⟩
          · cases o with
            | inst y => exact hH y v a he ha hlt (.inr ⟨t, hmem, ht⟩)
            | cst c => simp [AlignOps.selfInc] at ht
          · exact hH _ v a he ha hlt (.inl rfl)
          · exact dvd_trans (hn.dvd (look_P2 W hA o) hl) (look_dvd W (hI env hIe).2 he ha)
        · obtain ⟨_, C, i, _, _, _, hC, hi, hid, _⟩ := selfInc_spec ht
          exact absurd hid.symm (U.both hB' hC hp' hi))
      (by
        intro b' B' j vs m m' v es env a hB' hj hIe hH he hx ha hlt e
        have hn : P2 n := by
          rcases h0 with h | h
          · omega
          · exact h
        rcases e with e | ⟨t, hmem, ht⟩
        · exact absurd e.symm (U.both hB hB' hp hj)
        · obtain ⟨_, C, i, s, d, z, hC, hi, hid, hk, hargs, hz, rfl⟩ := selfInc_spec ht
          have := U.inst hB' hC hj hi hid.symm
          subst this
          obtain ⟨is, w, zs, a0, rfl, hw, hzs, rfl⟩ := W.gep hk hx ha
          rw [hargs] at he
          obtain ⟨ws, w', hvs, h1, h2⟩ := evals_append (is := [Opd.cst d]) (b := .inst p.id) he
          obtain ⟨rfl, hpw⟩ := List.append_inj' hvs rfl
          simp only [List.cons.injEq, and_true] at hpw
          subst hpw
          simp only [evals, eval, Option.some.injEq] at h1
          subst h1
          obtain ⟨h3, h4, h5⟩ := W.num hz
          match zs, hzs with
          | [y], hzs =>
            simp only [List.map_cons, List.map_nil, List.cons.injEq, and_true] at hzs
            rw [h3, Option.some.injEq] at hzs
            have hd : y.toInt = z := by
              rw [← hzs, BitVec.toInt_ofInt]
              exact Int.bmod_eq_of_le (by norm_num at *; omega) (by norm_num at *; omega)
            have hbase := hH p.id w a0 h2 hw hlt (.inl rfl)
            refine hn.add hbase ?_
            simp only [List.map_cons, List.map_nil, dot, hd]
            have e : (0 : Int) + (s * z + 0) = z * s := by ring
            rw [e]
            rcases hle _ hmem with ⟨t, ht', h | h⟩ | ⟨h, _⟩
            · rw [ht, Option.some.injEq] at ht'
              rw [ht', h]; exact dvd_zero _
            · rw [ht, Option.some.injEq] at ht'
              rw [ht']; exact hn.dvd_low h
            · rw [ht] at h; simp at h
          | _ :: _ :: _, hzs => simp at hzs)
    exact ⟨_, K', fun env hh => ⟨(hI env hh.1).1, updA_in (hI env hh.1).2 (fun hlt v a hx ha => hh.2 _ v a hx ha hlt (.inl rfl))⟩⟩

theorem AAnalysis.certified (W : AlignLaws O) (U : OneDef F) {abi : Aligns} (hR : Certified O.toRangeOps F R)
    (hA : ∃ I : Env L → Prop, Kept F I ∧ ∀ env, I env → AlIn O abi env) (h2 : ∀ x, P2 (abi x)) {A : Aligns} (h : AAnalysis O F R abi A) :
    CertAl O F R A := by
  induction h with
  | start =>
    obtain ⟨I, K, hI⟩ := hR
    obtain ⟨J, K', hJ⟩ := hA
    exact ⟨⟨_, K.and K', fun env hh => ⟨hI env hh.1, hJ env hh.2⟩⟩, h2⟩
  | visit _ hv ih => exact ih.visit W U hv

/-- C97 (partial: without the use of SCEVAnalysis): whatever order instructions are visited in and however often, in every run of a function
in which registers hold addresses that are aligned for their type (an invariant of the function), every register that holds an address holds a
multiple of the alignment the analysis gives for it: at the entry of every block, and at every point inside a block. -/
theorem C97_pointerAlignment_partial {nd : Bool} (W : AlignLaws O) (W' : RangeLaws O.toRangeOps) (U : OneDef F) {abi : Aligns}
    (hR : RAnalysis O.toRangeOps nd F R) (hA : ∃ I : Env L → Prop, Kept F I ∧ ∀ env, I env → AlIn O abi env) (h2 : ∀ x, P2 (abi x))
    {A : Aligns} (h : AAnalysis O F R abi A) :
    (∀ {n : Nat} {m : L.M} {s : St L}, SSA.run L F n (start L F m) = .inl s → AlIn O A s.env) ∧
    (∀ {n : Nat} {m : L.M} {s : St L} {B : L.B} {env : Env L} {pre post : List (Inst L.Op L.C)} {env' : Env L} {m' : L.M} {es : List L.E},
      SSA.run L F n (start L F m) = .inl s → F.blk s.cur = some B → enterPhis L s.pred s.env B.phis s.env = some env →
      B.body = pre ++ post → execBody L pre env s.m s.tr = .ok env' m' es → AlIn O A env') := by
  obtain ⟨⟨I, K, hI⟩, _⟩ := h.certified W U (hR.certified W' U) hA h2
  refine ⟨fun hr => (hI _ (K.run K.init hr)).2, fun hr hB hp hb hx => (hI _ ?_).2⟩
  have h1 := K.phis hB (K.run K.init hr) hp
  exact K.exec hB (fun i hi => by rw [hb]; exact List.mem_append_left _ hi) h1 hx

end

end Cmmc.SSA
