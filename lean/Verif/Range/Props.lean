import Verif.Range.SDiv
/-!
# C01–C09: what users of `IntegerRange` rely on

`Mem`, `WF`, `Tighter`, `Sound1`, `Sound2`, `SDivDefined` are in `Spec.lean`; the operations are in `Model.lean`.
-/
namespace Cmmc.Range

/-- from a pointwise statement to `Sound2` -/
theorem Sound2.of {op : Bool → IRange → IRange → Option IRange} {dom : BitVec 32 → BitVec 32 → Prop}
    {f : BitVec 32 → BitVec 32 → BitVec 32}
    (h : ∀ nd A B x y, WF A → WF B → Mem x A → Mem y B → dom x y → ∃ r, op nd A B = some r ∧ WF r ∧ Mem (f x y) r) :
    Sound2 op dom f := by
  intro nd A B wA wB ⟨x, y, mx, my, d⟩
  obtain ⟨r, e, w, _⟩ := h nd A B x y wA wB mx my d
  refine ⟨r, e, w, fun x' y' mx' my' d' => ?_⟩
  obtain ⟨r', e', _, m⟩ := h nd A B x' y' wA wB mx' my' d'
  rw [e] at e'; cases e'; exact m

theorem Sound1.of {op : Bool → IRange → Option IRange} {dom : BitVec 32 → Prop} {f : BitVec 32 → BitVec 32}
    (h : ∀ nd A x, WF A → Mem x A → dom x → ∃ r, op nd A = some r ∧ WF r ∧ Mem (f x) r) : Sound1 op dom f := by
  intro nd A wA ⟨x, mx, d⟩
  obtain ⟨r, e, w, _⟩ := h nd A x wA mx d
  refine ⟨r, e, w, fun x' mx' d' => ?_⟩
  obtain ⟨r', e', _, m⟩ := h nd A x' wA mx' d'
  rw [e] at e'; cases e'; exact m

/-! ## C01 normalisation -/

/-- C01: on every in-limit range with a member, `sync` succeeds, keeps exactly the same values, and every view of the
result is at least as precise as before (so the bounds stay in the limits). -/
theorem C01_sync_exact (nd : Bool) (A : IRange) (w : WF A) (ne : ∃ v, Mem v A) :
    ∃ A', sync nd A = some A' ∧ WF A' ∧ Tighter A' A ∧ ∀ v, Mem v A' ↔ Mem v A := by
  obtain ⟨r, e, t, h⟩ := sync_spec nd A w ne
  exact ⟨r, e, t.wf w, t, fun v => ⟨fun m => t.mem m, h v⟩⟩

/-- the restriction to ranges with a member is needed: on this empty range (bits say `…101`, bounds say ≤ 4)
`sync` invents the member 5, in both build modes. -/
theorem C01_sync_empty_witness :
    let A : IRange := { full with umin := 0, umax := 4, zeros := 2#32, ones := 5#32 }
    (¬ ∃ v, Mem v A) ∧ ∃ A', (∀ nd, sync nd A = some A') ∧ Mem 5#32 A' := by
  refine ⟨?_, ?_⟩
  · rintro ⟨v, m⟩
    have h1 := m.uhi
    have h1 : v.toNat ≤ 4 := h1
    have b0 := m.o 0 (by decide)
    have b2 := m.o 2 (by decide)
    have hb : ∀ w : Fin 5, (w.val.testBit 0 && w.val.testBit 2) = false := by decide
    have := hb ⟨v.toNat, by omega⟩
    simp only [BitVec.getLsbD] at b0 b2
    simp [b0, b2] at this
  · refine ⟨ofConst 5, by decide, (ofConst_mem 5 _).mpr rfl⟩

example : WF { full with umin := 3, umax := 100, zeros := 1#32 } ∧ Mem 4#32 { full with umin := 3, umax := 100, zeros := 1#32 } := by
  refine ⟨⟨by decide, by decide, by decide⟩, ⟨by decide, by decide, by decide, by decide, ?_, ?_⟩⟩
  · intro i h
    have hi := BitVec.lt_of_getLsbD h
    have : ∀ i : Fin 32, (1#32).getLsbD i = true → (4#32).getLsbD i = false := by decide
    exact this ⟨i, hi⟩ h
  · intro i h; simp [full] at h

/-! ## C02–C08 operations -/

/-- C02: wrapping addition, subtraction and multiplication. -/
theorem C02_add_sub_mul_sound :
    Sound2 add (fun _ _ => True) (· + ·) ∧ Sound2 sub (fun _ _ => True) (· - ·) ∧ Sound2 mul (fun _ _ => True) (· * ·) :=
  ⟨Sound2.of fun nd _ _ _ _ wa wb ma mb _ => add_sound nd wa wb ma mb,
   Sound2.of fun nd _ _ _ _ wa wb ma mb _ => sub_sound nd wa wb ma mb,
   Sound2.of fun nd _ _ _ _ _ _ ma mb _ => mul_sound nd ma mb⟩

/-- C03: bitwise operations. -/
theorem C03_bitwise_sound :
    Sound2 and (fun _ _ => True) (· &&& ·) ∧ Sound2 or (fun _ _ => True) (· ||| ·) ∧ Sound2 xor (fun _ _ => True) (· ^^^ ·) :=
  ⟨Sound2.of fun nd _ _ _ _ _ _ ma mb _ => and_sound nd ma mb,
   Sound2.of fun nd _ _ _ _ _ _ ma mb _ => or_sound nd ma mb,
   Sound2.of fun nd _ _ _ _ _ _ ma mb _ => xor_sound nd ma mb⟩

/-- C04: shifts, for the shift amounts for which the instruction is defined. -/
theorem C04_shift_sound :
    Sound2 shl (fun _ y => y.toNat < 32) (fun x y => x <<< y.toNat) ∧
    Sound2 lshr (fun _ y => y.toNat < 32) (fun x y => x >>> y.toNat) ∧
    Sound2 ashr (fun _ y => y.toNat < 32) (fun x y => x.sshiftRight y.toNat) :=
  ⟨Sound2.of fun nd _ _ _ _ _ _ ma mb d => shl_sound nd ma mb d,
   Sound2.of fun nd _ _ _ _ _ _ ma mb d => lshr_sound nd ma mb d,
   Sound2.of fun nd _ _ _ _ _ _ ma mb d => ashr_sound nd ma mb d⟩

/-- C05: unsigned division and remainder. -/
theorem C05_udiv_urem_sound :
    Sound2 udiv (fun _ y => y ≠ 0#32) (· / ·) ∧ Sound2 urem (fun _ y => y ≠ 0#32) (· % ·) :=
  ⟨Sound2.of fun nd _ _ _ _ wa _ ma mb d => udiv_sound nd wa ma mb d,
   Sound2.of fun nd _ _ _ _ _ wb _ mb d => urem_sound nd wb mb d⟩

/-- C06, remainder part: `srem` is sound wherever the divisor is nonzero. -/
theorem C06_srem_sound : Sound2 srem (fun _ y => y ≠ 0#32) BitVec.srem :=
  Sound2.of fun nd _ _ _ _ wa wb ma mb d => srem_sound nd wa wb ma mb d

/-- C06, division part. Full statement: `Sound2 sdiv SDivDefined BitVec.sdiv`, which is false of the code
(`C06_sdiv_full_false`). Proved here: it holds for all ranges for which the `INT_MIN / -1` patch is not taken or does
not matter, i.e. the dividend range excludes INT_MIN, or the divisor range excludes -1 (by sign or bound), or the
divisor range straddles 0 and the dividend reaches INT_MAX. -/
theorem C06_sdiv_sound_partial (nd : Bool) (A B : IRange) (wA : WF A) (wB : WF B)
    (safe : A.smin ≠ -2147483648 ∨ B.smax < -1 ∨ 0 ≤ B.smin ∨ (0 < B.smax ∧ A.smax = 2147483647))
    (ne : ∃ x y, Mem x A ∧ Mem y B ∧ SDivDefined x y) :
    ∃ r, sdiv nd A B = some r ∧ WF r ∧ ∀ x y, Mem x A → Mem y B → SDivDefined x y → Mem (BitVec.sdiv x y) r := by
  obtain ⟨x, y, mx, my, d⟩ := ne
  obtain ⟨r, e, w, _⟩ := sdiv_sound nd wA wB mx my d safe
  refine ⟨r, e, w, fun x' y' mx' my' d' => ?_⟩
  obtain ⟨r', e', _, m⟩ := sdiv_sound nd wA wB mx' my' d' safe
  rw [e] at e'; cases e'; exact m

/-- the full C06 claim fails: dividing the full range by the constant -1 yields a range that does not contain
`1 / -1 = -1` (it is `[INT_MIN, INT_MIN + 1]`). -/
theorem C06_sdiv_full_false : ¬ Sound2 sdiv SDivDefined BitVec.sdiv := by
  intro h
  have hm1 : Mem (BitVec.ofInt 32 (-1)) (ofConst (-1)) := (ofConst_mem (-1) _).mpr rfl
  have hd : SDivDefined 1#32 (BitVec.ofInt 32 (-1)) := ⟨by decide, by decide⟩
  obtain ⟨r, e, _, hr⟩ := h true full (ofConst (-1)) wf_full (ofConst_wf (-1)) ⟨1#32, _, mem_full _, hm1, hd⟩
  have m := hr _ _ (mem_full 1#32) hm1 hd
  have e2 : (sdiv true full (ofConst (-1))).map (fun r => r.smax) = some (-2147483647) := by decide
  rw [e] at e2
  have e2 : r.smax = -2147483647 := by simpa using e2
  have h2 := m.shi
  rw [e2] at h2
  exact absurd h2 (by decide)

/-- C07: signed max / min / negation. -/
theorem C07_max_min_neg_sound :
    Sound2 smaxOp (fun _ _ => True) (fun x y => if x.toInt ≤ y.toInt then y else x) ∧
    Sound2 sminOp (fun _ _ => True) (fun x y => if x.toInt ≤ y.toInt then x else y) ∧
    Sound1 neg (fun _ => True) (fun x => -x) := by
  refine ⟨Sound2.of fun nd _ _ x y wa wb ma mb _ => smax_sound nd wa wb ma mb ?_,
    Sound2.of fun nd _ _ x y wa wb ma mb _ => smin_sound nd wa wb ma mb ?_,
    Sound1.of fun nd _ _ wa ma _ => neg_sound nd wa ma⟩
  · split <;> omega
  · split <;> omega

/-- absolute value of an i32, wrapping at INT_MIN -/
def absVal (x : BitVec 32) : BitVec 32 := if x.toInt < 0 then -x else x

theorem absVal_toInt {x : BitVec 32} (h : x ≠ 0x80000000#32) : (absVal x).toInt = x.toInt.natAbs := by
  have hc := toInt_cases x
  have hne : x.toInt ≠ -2147483648 := by
    intro h'; apply h; apply BitVec.eq_of_toInt_eq; rw [h']; decide
  unfold absVal
  split
  · rw [toInt_eq_of_bmod BitVec.toInt_neg (by omega) (by omega)]; omega
  · omega

/-- C07, absolute value. Full statement: `Sound1 abs (· ≠ INT_MIN) absVal`, false of the code in builds with
assertions (`C07_abs_assert_fails`). Proved: sound for every range that does not have INT_MIN as its lower bound
together with a non-negative upper bound. -/
theorem C07_abs_sound_partial (nd : Bool) (A : IRange) (w : WF A) (ha : A.smin ≠ -2147483648 ∨ A.smax < 0)
    (ne : ∃ x, Mem x A ∧ x ≠ 0x80000000#32) :
    ∃ r, abs nd A = some r ∧ WF r ∧ ∀ x, Mem x A → x ≠ 0x80000000#32 → Mem (absVal x) r := by
  obtain ⟨x, m, d⟩ := ne
  obtain ⟨r, e, w', _⟩ := abs_sound nd w ha m (absVal_toInt d)
  refine ⟨r, e, w', fun x' m' d' => ?_⟩
  obtain ⟨r', e', _, m2⟩ := abs_sound nd w ha m' (absVal_toInt d')
  rw [e] at e'; cases e'; exact m2

/-- in a build with assertions, `abs` of the full range aborts -/
theorem C07_abs_assert_fails : abs false full = none := by decide

/-- in a release build, `abs` of any range with lower bound INT_MIN and a non-negative upper bound still contains
`|x|` for every member `x ≠ INT_MIN` (but its signed upper bound is 2^31, outside the i32 limits) -/
theorem C07_abs_release (A : IRange) (w : WF A) (h1 : A.smin = -2147483648) (h2 : 0 ≤ A.smax) :
    ∃ r, abs true A = some r ∧ r.smax = 2147483648 ∧ ∀ x, Mem x A → x ≠ 0x80000000#32 → Mem (absVal x) r := by
  have hi := w.hi
  have e : abs true A = (do let r ← setSigned true full 0 2147483648; sync true r) := by
    unfold abs
    rw [if_pos ⟨by omega, by omega⟩]
    have : max (A.smin.natAbs : Int) A.smax.natAbs = 2147483648 := by rw [h1]; omega
    rw [this]
  have e2 : abs true A = some { full with umax := 2147483648, smin := 0, smax := 2147483648 } := by
    rw [e]; decide
  refine ⟨_, e2, rfl, ?_⟩
  intro x _ d
  have ht := absVal_toInt d
  have hc := toInt_cases (absVal x)
  have mf := mem_full (absVal x)
  exact ⟨Nat.zero_le _, by show _ ≤ 2147483648; omega, by show (0:Int) ≤ _; omega, by show _ ≤ (2147483648:Int); omega, mf.z, mf.o⟩

/-- C08: union, intersection, disjointness test. -/
theorem C08_sets (nd : Bool) (A B : IRange) (wA : WF A) (wB : WF B) :
    ((∃ v, Mem v A ∨ Mem v B) → ∃ r, unionSet nd A B = some r ∧ WF r ∧ ∀ v, (Mem v A ∨ Mem v B) → Mem v r) ∧
    ((∃ v, Mem v A ∧ Mem v B) → ∃ r, intersectSet nd A B = some r ∧ WF r ∧ ∀ v, Mem v r ↔ (Mem v A ∧ Mem v B)) ∧
    (intersectWith A B = false → ¬ ∃ v, Mem v A ∧ Mem v B) := by
  refine ⟨?_, intersectSet_exact nd wA wB, ?_⟩
  · rintro ⟨v, m | m⟩
    · exact unionSet_sound nd wA wB (Or.inl ⟨v, m⟩)
    · exact unionSet_sound nd wA wB (Or.inr ⟨v, m⟩)
  · rintro h ⟨v, m, m'⟩
    rw [intersectWith_of_common m m'] at h
    exact absurd h (by decide)

/-- C09: constants, suffixes and sign predicates read off a range are true of every member. (`isEmpty` is excluded:
`C09_isEmpty_wrong`.) -/
theorem C09_facts_partial (A : IRange) (w : WF A) :
    (∀ c, inferConstant A = some c → ∀ v, Mem v A → v.toInt = c) ∧
    (∀ (c : Int) v, Mem v (ofConst c) ↔ v = BitVec.ofInt 32 c) ∧
    (∃ suf len, inferSuffix A = some (suf, len) ∧ len ≤ 32 ∧ ∀ v, Mem v A → v.toNat % 2 ^ len = suf.toNat) ∧
    (isNonNegative A = true → ∀ v, Mem v A → 0 ≤ v.toInt) ∧
    (isPositive A = true → ∀ v, Mem v A → 0 < v.toInt) ∧
    (isNoSignedOverflow A = true → ∀ v, Mem v A → -2147483648 < v.toInt ∧ v.toInt < 2147483647) ∧
    (isFull A = true → ∀ v, Mem v A) := by
  refine ⟨fun c h v m => inferConstant_sound w h m, ofConst_mem, ?_, ?_, ?_, ?_, ?_⟩
  · obtain ⟨s, l, e, h1, _, h3⟩ := inferSuffix_spec A
    exact ⟨s, l, e, h1, h3⟩
  · intro h v m; have := m.slo; simp only [isNonNegative, decide_eq_true_eq] at h; omega
  · intro h v m; have := m.slo; simp only [isPositive, decide_eq_true_eq] at h; omega
  · intro h v m; have := m.slo; have := m.shi
    unfold isNoSignedOverflow at h
    rw [Bool.and_eq_true] at h
    have h1 := of_decide_eq_true h.1; have h2 := of_decide_eq_true h.2
    simp only [i32min] at h1; simp only [i32max] at h2; omega
  · intro h v
    simp only [isFull, decide_eq_true_eq] at h
    rw [h]; exact mem_full v

/-- `isEmpty` answers "empty" for the full range (its unsigned comparison is reversed) -/
theorem C09_isEmpty_wrong : isEmpty full = true ∧ ∀ v, Mem v full := ⟨by decide, mem_full⟩

/-! ## Non-vacuity: a concrete pair of ranges meeting the hypotheses of C02–C08 -/

example : WF (ofConst 7) ∧ WF full ∧ Mem (BitVec.ofInt 32 7) (ofConst 7) ∧ Mem 3#32 full ∧ SDivDefined (BitVec.ofInt 32 7) 3#32 :=
  ⟨ofConst_wf 7, wf_full, (ofConst_mem 7 _).mpr rfl, mem_full _, by decide, by decide⟩
example : (add true (ofConst 7) (ofConst 5)).bind inferConstant = some 12 := by decide
example : (getNonNegative true).map isNonNegative = some true := by decide

end Cmmc.Range
