import Verif.Range.Ops1
/-! Soundness of the remaining range operations: sets, division, remainder, shifts, min/max/abs/neg. -/
set_option linter.unusedSimpArgs false
namespace Cmmc.Range

theorem three_ok (nd : Bool) {r0 : IRange} {sl sh : Int} {ul uh : Nat} {z o : BitVec 32} {v : BitVec 32}
    (h1 : i32min ≤ sl) (h2 : sh ≤ i32max) (h3 : uh ≤ u32max)
    (m : Mem v { zeros := z, ones := o, umin := ul, umax := uh, smin := sl, smax := sh }) :
    ∃ r, (do let r ← setSigned nd r0 sl sh; let r ← setUnsigned nd r ul uh; let r ← setKnownBits nd r z o; sync nd r) = some r
      ∧ WF r ∧ Tighter r { zeros := z, ones := o, umin := ul, umax := uh, smin := sl, smax := sh }
      ∧ ∀ u, Mem u { zeros := z, ones := o, umin := ul, umax := uh, smin := sl, smax := sh } → Mem u r := by
  have w : WF { zeros := z, ones := o, umin := ul, umax := uh, smin := sl, smax := sh } :=
    ⟨by simpa [u32max] using h3, by simpa [i32min] using h1, by simpa [i32max] using h2⟩
  obtain ⟨r, e, t, h⟩ := sync_spec nd _ w ⟨v, m⟩
  refine ⟨r, ?_, t.wf w, t, h⟩
  have a1 := m.slo; have a2 := m.shi; have a3 := m.ulo; have a4 := m.uhi
  exact bind_ok (setSigned_ok nd r0 (Int.le_trans a1 a2) h1 h2)
    (bind_ok (setUnsigned_ok nd _ (Nat.le_trans a3 a4)) (bind_ok (setKnownBits_ok nd _ v m.z m.o) e))

theorem mem_mono {r r' : IRange} (t : Tighter r' r) {v : BitVec 32} (m : Mem v r') : Mem v r := by
  have := t.ulo; have := t.uhi; have := t.slo; have := t.shi
  have := m.ulo; have := m.uhi; have := m.slo; have := m.shi
  exact ⟨by omega, by omega, by omega, by omega, fun i h => m.z i (t.z i h), fun i h => m.o i (t.o i h)⟩

theorem unionSet_sound (nd : Bool) {a b : IRange} (wa : WF a) (wb : WF b) (h : (∃ v, Mem v a) ∨ ∃ v, Mem v b) :
    ∃ r, unionSet nd a b = some r ∧ WF r ∧ ∀ u, (Mem u a ∨ Mem u b) → Mem u r := by
  have key : ∀ u, (Mem u a ∨ Mem u b) → Mem u { zeros := a.zeros &&& b.zeros, ones := a.ones &&& b.ones, umin := min a.umin b.umin, umax := max a.umax b.umax, smin := min a.smin b.smin, smax := max a.smax b.smax } := by
    intro u hu
    rcases hu with m | m
    all_goals
      have := m.ulo; have := m.uhi; have := m.slo; have := m.shi
      refine ⟨?_, ?_, ?_, ?_, ?_, ?_⟩
      · show min _ _ ≤ _; omega
      · show _ ≤ max _ _; omega
      · show min _ _ ≤ _; omega
      · show _ ≤ max _ _; omega
      · intro i hi
        rw [BitVec.getLsbD_and, Bool.and_eq_true] at hi
        first | exact m.z i hi.1 | exact m.z i hi.2
      · intro i hi
        rw [BitVec.getLsbD_and, Bool.and_eq_true] at hi
        first | exact m.o i hi.1 | exact m.o i hi.2
  have a1 := wa.u; have a2 := wa.lo; have a3 := wa.hi; have b1 := wb.u; have b2 := wb.lo; have b3 := wb.hi
  obtain ⟨v, m⟩ : ∃ v, Mem v a ∨ Mem v b := by
    rcases h with ⟨v, m⟩ | ⟨v, m⟩
    · exact ⟨v, Or.inl m⟩
    · exact ⟨v, Or.inr m⟩
  obtain ⟨r, e, w, _, hm⟩ := three_ok nd (r0 := full) (by simp only [i32min]; omega) (by simp only [i32max]; omega)
    (by simp only [u32max]; omega) (key v m)
  exact ⟨r, e, w, fun u hu => hm u (key u hu)⟩

theorem intersectSet_exact (nd : Bool) {a b : IRange} (wa : WF a) (wb : WF b) (h : ∃ v, Mem v a ∧ Mem v b) :
    ∃ r, intersectSet nd a b = some r ∧ WF r ∧ ∀ u, Mem u r ↔ (Mem u a ∧ Mem u b) := by
  have key : ∀ u, Mem u { zeros := a.zeros ||| b.zeros, ones := a.ones ||| b.ones, umin := max a.umin b.umin, umax := min a.umax b.umax, smin := max a.smin b.smin, smax := min a.smax b.smax } ↔ (Mem u a ∧ Mem u b) := by
    intro u
    constructor
    · intro m
      have h1 : max a.umin b.umin ≤ _ := m.ulo
      have h2 : _ ≤ min a.umax b.umax := m.uhi
      have h3 : max a.smin b.smin ≤ _ := m.slo
      have h4 : _ ≤ min a.smax b.smax := m.shi
      refine ⟨⟨by omega, by omega, by omega, by omega, ?_, ?_⟩, ⟨by omega, by omega, by omega, by omega, ?_, ?_⟩⟩ <;> intro i hi
      · exact m.z i (by rw [BitVec.getLsbD_or, hi]; rfl)
      · exact m.o i (by rw [BitVec.getLsbD_or, hi]; rfl)
      · exact m.z i (by rw [BitVec.getLsbD_or, hi]; simp)
      · exact m.o i (by rw [BitVec.getLsbD_or, hi]; simp)
    · rintro ⟨m, m'⟩
      have := m.ulo; have := m.uhi; have := m.slo; have := m.shi
      have := m'.ulo; have := m'.uhi; have := m'.slo; have := m'.shi
      refine ⟨?_, ?_, ?_, ?_, ?_, ?_⟩
      · show max _ _ ≤ _; omega
      · show _ ≤ min _ _; omega
      · show max _ _ ≤ _; omega
      · show _ ≤ min _ _; omega
      · intro i hi
        rw [BitVec.getLsbD_or, Bool.or_eq_true] at hi
        rcases hi with hi | hi
        · exact m.z i hi
        · exact m'.z i hi
      · intro i hi
        rw [BitVec.getLsbD_or, Bool.or_eq_true] at hi
        rcases hi with hi | hi
        · exact m.o i hi
        · exact m'.o i hi
  have a1 := wa.u; have a2 := wa.lo; have a3 := wa.hi; have b1 := wb.u; have b2 := wb.lo; have b3 := wb.hi
  obtain ⟨v, m⟩ := h
  obtain ⟨r, e, w, t, hm⟩ := three_ok nd (r0 := full) (by simp only [i32min]; omega) (by simp only [i32max]; omega)
    (by simp only [u32max]; omega) ((key v).mpr m)
  exact ⟨r, e, w, fun u => ⟨fun hu => (key u).mp (mem_mono t hu), fun hu => hm u ((key u).mpr hu)⟩⟩

theorem intersectWith_of_common {a b : IRange} {v : BitVec 32} (ma : Mem v a) (mb : Mem v b) :
    intersectWith a b = true := by
  have := ma.ulo; have := ma.uhi; have := ma.slo; have := ma.shi
  have := mb.ulo; have := mb.uhi; have := mb.slo; have := mb.shi
  unfold intersectWith
  rw [Bool.and_eq_true, Bool.and_eq_true]
  refine ⟨⟨decide_eq_true (by omega), decide_eq_true (by omega)⟩, decide_eq_true ?_⟩
  apply BitVec.eq_of_getLsbD_eq
  intro i _
  rw [BitVec.getLsbD_and, BitVec.getLsbD_or, BitVec.getLsbD_or, BitVec.getLsbD_zero]
  cases hv : v.getLsbD i
  · have h1 : a.ones.getLsbD i = false := by
      cases h : a.ones.getLsbD i
      · rfl
      · rw [ma.o i h] at hv; exact absurd hv (by decide)
    have h2 : b.ones.getLsbD i = false := by
      cases h : b.ones.getLsbD i
      · rfl
      · rw [mb.o i h] at hv; exact absurd hv (by decide)
    rw [h1, h2]; simp
  · have h1 : a.zeros.getLsbD i = false := by
      cases h : a.zeros.getLsbD i
      · rfl
      · rw [ma.z i h] at hv; exact absurd hv (by decide)
    have h2 : b.zeros.getLsbD i = false := by
      cases h : b.zeros.getLsbD i
      · rfl
      · rw [mb.z i h] at hv; exact absurd hv (by decide)
    rw [h1, h2]; simp

theorem ofConst_mem (s : Int) (v : BitVec 32) : Mem v (ofConst s) ↔ v = BitVec.ofInt 32 s := by
  constructor
  · intro m
    apply BitVec.eq_of_toNat_eq
    have h1 : (BitVec.ofInt 32 s).toNat ≤ _ := m.ulo
    have h2 : _ ≤ (BitVec.ofInt 32 s).toNat := m.uhi
    omega
  · rintro rfl
    refine ⟨Nat.le_refl _, Nat.le_refl _, Int.le_refl _, Int.le_refl _, ?_, fun i h => h⟩
    intro i h
    have h : (~~~(BitVec.ofInt 32 s)).getLsbD i = true := h
    rw [BitVec.getLsbD_not, Bool.and_eq_true] at h
    simpa using h.2

theorem ofConst_wf (s : Int) : WF (ofConst s) := by
  have := toInt_cases (BitVec.ofInt 32 s)
  have h := (BitVec.ofInt 32 s).isLt
  refine ⟨?_, ?_, ?_⟩
  · show (BitVec.ofInt 32 s).toNat ≤ _; omega
  · show _ ≤ (BitVec.ofInt 32 s).toInt; omega
  · show (BitVec.ofInt 32 s).toInt ≤ _; omega

theorem inferConstant_sound {r : IRange} (w : WF r) {c : Int} (h : inferConstant r = some c) {v : BitVec 32} (m : Mem v r) :
    v.toInt = c := by
  have := m.ulo; have := m.uhi; have := m.slo; have := m.shi; have := w.u
  unfold inferConstant at h
  split at h
  · simp only [Option.some.injEq] at h; omega
  · split at h
    · simp only [Option.some.injEq] at h
      rw [← h]
      congr 1
      apply BitVec.eq_of_toNat_eq
      rw [BitVec.toNat_ofNat]
      rw [Nat.mod_eq_of_lt (by omega)]
      omega
    · split at h
      · rename_i hk
        simp only [Option.some.injEq] at h
        rw [← h]
        congr 1
        apply BitVec.eq_of_getLsbD_eq
        intro i hi
        have hk := congrArg (fun b => b.getLsbD i) hk
        simp only [BitVec.getLsbD_or, BitVec.getLsbD_allOnes, decide_eq_true hi] at hk
        cases ho : r.ones.getLsbD i
        · rw [ho, Bool.false_or] at hk; exact m.z i hk
        · exact m.o i ho
      · exact absurd h (by simp)

theorem udiv_sound (nd : Bool) {a b : IRange} (wa : WF a) {x y : BitVec 32} (mx : Mem x a) (my : Mem y b) (hy : y ≠ 0#32) :
    ∃ r, udiv nd a b = some r ∧ WF r ∧ Mem (x / y) r := by
  have hy' : 0 < y.toNat := by
    rcases Nat.eq_zero_or_pos y.toNat with h | h
    · exact absurd (BitVec.eq_of_toNat_eq (by simpa using h)) hy
    · exact h
  have := mx.ulo; have := mx.uhi; have := my.ulo; have := my.uhi; have := wa.u
  unfold udiv
  rw [if_neg (by omega)]
  apply unsigned_sound
  · have : a.umax / max 1 b.umin ≤ a.umax := Nat.div_le_self _ _
    simp only [u32max]; omega
  · rw [BitVec.toNat_udiv]
    exact Nat.le_trans (Nat.div_le_div_right (by omega)) (Nat.div_le_div_left (by omega) hy')
  · rw [BitVec.toNat_udiv]
    exact Nat.le_trans (Nat.div_le_div_right (by omega)) (Nat.div_le_div_left (by omega) (by omega))

theorem urem_sound (nd : Bool) {a b : IRange} (wb : WF b) {x y : BitVec 32} (my : Mem y b) (hy : y ≠ 0#32) :
    ∃ r, urem nd a b = some r ∧ WF r ∧ Mem (x % y) r := by
  have hy' : 0 < y.toNat := by
    rcases Nat.eq_zero_or_pos y.toNat with h | h
    · exact absurd (BitVec.eq_of_toNat_eq (by simpa using h)) hy
    · exact h
  have := my.ulo; have := my.uhi; have hb := wb.u
  have e : sub64 b.umax 1 = b.umax - 1 := by
    unfold sub64
    have : b.umax + 18446744073709551616 - 1 = (b.umax - 1) + 18446744073709551616 := by omega
    rw [this, Nat.add_mod_right, Nat.mod_eq_of_lt (by omega)]
  have hm := Nat.mod_lt x.toNat hy'
  unfold urem
  rw [if_neg (by omega), e]
  apply unsigned_sound
  · simp only [u32max]; omega
  · omega
  · rw [BitVec.toNat_umod]; omega

theorem srem_bound {x y : Int} (hy : y ≠ 0) : -(y.natAbs : Int) < x.tmod y ∧ x.tmod y < y.natAbs ∧ (0 ≤ x → 0 ≤ x.tmod y)
    ∧ (x.tmod y).natAbs ≤ x.natAbs := by
  have h1 : (x.tmod y).natAbs = x.natAbs % y.natAbs := by
    simp [Int.natAbs_tmod]
  have h2 := Nat.mod_lt x.natAbs (show 0 < y.natAbs by omega)
  have h3 := Nat.mod_le x.natAbs y.natAbs
  refine ⟨by omega, by omega, fun h => Int.tmod_nonneg _ h, by omega⟩

theorem toInt_ne_zero {y : BitVec 32} (hy : y ≠ 0#32) : y.toInt ≠ 0 := by
  intro h
  apply hy
  exact BitVec.eq_of_toInt_eq (by simpa using h)

theorem srem_sound (nd : Bool) {a b : IRange} (wa : WF a) (wb : WF b) {x y : BitVec 32} (mx : Mem x a) (my : Mem y b)
    (hy : y ≠ 0#32) : ∃ r, srem nd a b = some r ∧ WF r ∧ Mem (BitVec.srem x y) r := by
  have hy' := toInt_ne_zero hy
  have b1 := srem_bound (x := x.toInt) hy'
  have e := BitVec.toInt_srem x y
  have := mx.slo; have := mx.shi; have := my.slo; have := my.shi
  have := wa.lo; have := wa.hi; have := wb.lo; have := wb.hi
  generalize hx : x.toInt = X at *
  generalize hq : y.toInt = Y at *
  unfold srem
  rw [if_neg (by omega)]
  split
  · have g : (if isNonNegative a = true then 0 else -b.smax + 1) ≤ X.tmod Y ∧ (-b.smax + 1 ≤ (if isNonNegative a = true then 0 else -b.smax + 1)) := by
      split
      · rename_i h; simp [isNonNegative] at h; exact ⟨b1.2.2.1 (by omega), by omega⟩
      · exact ⟨by omega, by omega⟩
    have g1 := g.1; have g2 := g.2
    have hs := setSigned_ok nd full (mn := (if isNonNegative a = true then 0 else -b.smax + 1)) (mx := b.smax - 1) (by omega) (by simp only [i32min]; omega) (by simp only [i32max]; omega)
    have m0 : Mem (x.srem y) { full with smin := (if isNonNegative a = true then 0 else -b.smax + 1), smax := b.smax - 1 } :=
      (mem_full _).setS (by rw [e]; omega) (by rw [e]; omega)
    have w0 : WF { full with smin := (if isNonNegative a = true then 0 else -b.smax + 1), smax := b.smax - 1 } :=
      ⟨wf_full.u, (by show -2147483648 ≤ (if isNonNegative a = true then (0:Int) else -b.smax + 1); omega), (by show b.smax - 1 ≤ _; omega)⟩
    have hc : Mem (x.srem y) (sremClamp a b { full with smin := (if isNonNegative a = true then 0 else -b.smax + 1), smax := b.smax - 1 }) ∧
        WF (sremClamp a b { full with smin := (if isNonNegative a = true then 0 else -b.smax + 1), smax := b.smax - 1 }) := by
      unfold sremClamp
      split
      · rename_i hcl
        refine ⟨m0.setS ?_ ?_, ?_, ?_, ?_⟩
        · show max (if isNonNegative a = true then (0:Int) else -b.smax + 1) (-(max (a.smax.natAbs : Int) a.smin.natAbs)) ≤ _
          rw [e]; omega
        · show _ ≤ min (b.smax - 1) (max (a.smax.natAbs : Int) a.smin.natAbs)
          rw [e]; omega
        · exact w0.u
        · show _ ≤ max (if isNonNegative a = true then (0:Int) else -b.smax + 1) (-(max (a.smax.natAbs : Int) a.smin.natAbs)); omega
        · show min (b.smax - 1) (max (a.smax.natAbs : Int) a.smin.natAbs) ≤ _; omega
      · exact ⟨m0, w0⟩
    obtain ⟨r, e', w, hm⟩ := sync_ok nd hc.2 hc.1
    exact ⟨r, bind_ok hs e', w, hm _ hc.1⟩
  · split
    · apply signed_sound
      · simp only [i32min]; omega
      · simp only [i32max]; omega
      · rw [e]; omega
      · rw [e]; omega
    · apply signed_sound
      · simp only [i32min]; omega
      · simp only [i32max]; omega
      · rw [e]; omega
      · rw [e]; omega

/-! ### shifts -/

theorem shiftLoop_some (nd : Bool) (f : Nat → BitVec 32 × BitVec 32) (val : Nat → BitVec 32) :
    ∀ (l : List Nat), (∀ i ∈ l, (∀ j, (f i).1.getLsbD j = true → (val i).getLsbD j = false) ∧ (∀ j, (f i).2.getLsbD j = true → (val i).getLsbD j = true)) →
    ∀ r0 u0, WF r0 → Mem u0 r0 →
    ∃ r', shiftLoop nd f l (some r0) = some (some r') ∧ WF r' ∧ (∀ u, Mem u r0 → Mem u r') ∧ ∀ i ∈ l, Mem (val i) r' := by
  intro l
  induction l with
  | nil => intro _ r0 u0 w _; exact ⟨r0, rfl, w, fun u h => h, by simp⟩
  | cons i is ih =>
    intro hf r0 u0 w m
    obtain ⟨hz, ho⟩ := hf i (by simp)
    have ms := (mem_full (val i)).setB hz ho
    have ws : WF { full with zeros := (f i).1, ones := (f i).2 } := ⟨wf_full.u, wf_full.lo, wf_full.hi⟩
    obtain ⟨r1, e1, w1, h1⟩ := unionSet_sound nd w ws (Or.inl ⟨u0, m⟩)
    obtain ⟨r', e', w', h2, h3⟩ := ih (fun j hj => hf j (by simp [hj])) r1 u0 w1 (h1 _ (Or.inl m))
    refine ⟨r', bind_ok (setKnownBits_ok nd full (val i) hz ho) (bind_ok e1 e'), w', fun u h => h2 u (h1 u (Or.inl h)), ?_⟩
    intro j hj
    rcases List.mem_cons.mp hj with rfl | hj
    · exact h2 _ (h1 _ (Or.inr ms))
    · exact h3 j hj

theorem shiftLoop_none (nd : Bool) (f : Nat → BitVec 32 × BitVec 32) (val : Nat → BitVec 32) (l : List Nat)
    (hf : ∀ i ∈ l, (∀ j, (f i).1.getLsbD j = true → (val i).getLsbD j = false) ∧ (∀ j, (f i).2.getLsbD j = true → (val i).getLsbD j = true))
    {i0 : Nat} (h0 : i0 ∈ l) :
    ∃ r', shiftLoop nd f l none = some (some r') ∧ WF r' ∧ ∀ i ∈ l, Mem (val i) r' := by
  cases l with
  | nil => simp at h0
  | cons i is =>
    obtain ⟨hz, ho⟩ := hf i (by simp)
    have ms := (mem_full (val i)).setB hz ho
    have ws : WF { full with zeros := (f i).1, ones := (f i).2 } := ⟨wf_full.u, wf_full.lo, wf_full.hi⟩
    obtain ⟨r', e', w', h2, h3⟩ := shiftLoop_some nd f val is (fun j hj => hf j (by simp [hj])) _ _ ws ms
    refine ⟨r', bind_ok (setKnownBits_ok nd full (val i) hz ho) (bind_ok (show unionOpt nd none _ = some _ from rfl) e'), w', ?_⟩
    intro j hj
    rcases List.mem_cons.mp hj with rfl | hj
    · exact h2 _ ms
    · exact h3 j hj

theorem mem_shiftAmounts {b : IRange} {y : BitVec 32} (my : Mem y b) (hy : y.toNat < 32) : y.toNat ∈ shiftAmounts b := by
  have := my.slo; have := my.shi
  have := toInt_cases y
  unfold shiftAmounts
  rw [List.mem_filter, List.mem_range, Bool.and_eq_true]
  exact ⟨hy, decide_eq_true (by omega), decide_eq_true (by omega)⟩

theorem shiftAmounts_lt {b : IRange} {i : Nat} (h : i ∈ shiftAmounts b) : i < 32 := by
  unfold shiftAmounts at h
  rw [List.mem_filter, List.mem_range] at h
  exact h.1

theorem lshr_sound (nd : Bool) {a b : IRange} {x y : BitVec 32} (mx : Mem x a) (my : Mem y b) (hy : y.toNat < 32) :
    ∃ r, lshr nd a b = some r ∧ WF r ∧ Mem (x >>> y.toNat) r := by
  obtain ⟨r, e, w, h⟩ := shiftLoop_none nd (fun i => ((a.zeros >>> i) ||| hiMask i, a.ones >>> i)) (fun i => x >>> i)
    (shiftAmounts b) (by
      intro i hi
      have hi := shiftAmounts_lt hi
      constructor <;> intro j hj
      · simp only [BitVec.getLsbD_or, Bool.or_eq_true, BitVec.getLsbD_ushiftRight] at hj ⊢
        rcases hj with hj | hj
        · exact mx.z _ hj
        · rw [hiMask_getLsbD _ _ (by omega)] at hj
          simp at hj
          apply BitVec.getLsbD_of_ge; omega
      · simp only [BitVec.getLsbD_ushiftRight] at hj ⊢
        exact mx.o _ hj) (mem_shiftAmounts my hy)
  have m := h _ (mem_shiftAmounts my hy)
  obtain ⟨r', e', w', h'⟩ := sync_ok nd w m
  exact ⟨r', bind_ok e e', w', h' _ m⟩

theorem sign_bit {z : BitVec 32} (h : z &&& 0x80000000#32 ≠ 0#32) : z.getLsbD 31 = true := by
  cases hz : z.getLsbD 31
  · exfalso; apply h
    apply BitVec.eq_of_getLsbD_eq
    intro i hi
    rw [BitVec.getLsbD_and]
    by_cases h31 : i = 31
    · subst h31; rw [hz]; rfl
    · have : (0x80000000#32).getLsbD i = false := by
        have : i < 31 := by omega
        have e : (0x80000000#32) = BitVec.twoPow 32 31 := by decide
        rw [e, BitVec.getLsbD_twoPow]; simp; omega
      rw [this]; simp
  · rfl

theorem ashr_sound (nd : Bool) {a b : IRange} {x y : BitVec 32} (mx : Mem x a) (my : Mem y b) (hy : y.toNat < 32) :
    ∃ r, ashr nd a b = some r ∧ WF r ∧ Mem (x.sshiftRight y.toNat) r := by
  obtain ⟨r, e, w, h⟩ := shiftLoop_none nd (fun i =>
      ((a.zeros >>> i) ||| (if a.zeros &&& 0x80000000#32 ≠ 0#32 then hiMask i else 0#32),
       (a.ones >>> i) ||| (if a.ones &&& 0x80000000#32 ≠ 0#32 then hiMask i else 0#32))) (fun i => x.sshiftRight i)
    (shiftAmounts b) (by
      intro i hi
      have hi := shiftAmounts_lt hi
      constructor <;> intro j hj
      · simp only [BitVec.getLsbD_or, Bool.or_eq_true, BitVec.getLsbD_ushiftRight] at hj
        rw [BitVec.getLsbD_sshiftRight]
        rcases hj with hj | hj
        · have := BitVec.lt_of_getLsbD hj
          rw [if_pos (by omega), mx.z _ hj]; simp
        · split at hj
          · rename_i hs
            rw [hiMask_getLsbD _ _ (by omega)] at hj
            simp at hj
            rw [if_neg (by omega), BitVec.msb_eq_getLsbD_last, mx.z _ (sign_bit hs)]; simp
          · simp at hj
      · simp only [BitVec.getLsbD_or, Bool.or_eq_true, BitVec.getLsbD_ushiftRight] at hj
        rw [BitVec.getLsbD_sshiftRight]
        rcases hj with hj | hj
        · have := BitVec.lt_of_getLsbD hj
          rw [if_pos (by omega), mx.o _ hj]; simp; omega
        · split at hj
          · rename_i hs
            rw [hiMask_getLsbD _ _ (by omega)] at hj
            simp at hj
            rw [if_neg (by omega), BitVec.msb_eq_getLsbD_last, mx.o _ (sign_bit hs)]; simp; omega
          · simp at hj) (mem_shiftAmounts my hy)
  have m := h _ (mem_shiftAmounts my hy)
  obtain ⟨r', e', w', h'⟩ := sync_ok nd w m
  exact ⟨r', bind_ok e e', w', h' _ m⟩

theorem shl_sound (nd : Bool) {a b : IRange} {x y : BitVec 32} (mx : Mem x a) (my : Mem y b) (hy : y.toNat < 32) :
    ∃ r, shl nd a b = some r ∧ WF r ∧ Mem (x <<< y.toNat) r := by
  obtain ⟨r, e, w, h⟩ := shiftLoop_none nd (fun i => ((a.zeros <<< i) ||| loMask i, a.ones <<< i)) (fun i => x <<< i)
    (shiftAmounts b) (by
      intro i hi
      have hi := shiftAmounts_lt hi
      constructor <;> intro j hj
      · simp only [BitVec.getLsbD_or, Bool.or_eq_true, BitVec.getLsbD_shiftLeft] at hj ⊢
        rcases hj with hj | hj
        · rw [Bool.and_eq_true] at hj
          rw [mx.z _ hj.2]; simp
        · rw [loMask_getLsbD _ _ (by omega)] at hj
          rw [hj]; simp
      · simp only [BitVec.getLsbD_shiftLeft] at hj ⊢
        rw [Bool.and_eq_true] at hj
        rw [mx.o _ hj.2, hj.1]; rfl) (mem_shiftAmounts my hy)
  have m := h _ (mem_shiftAmounts my hy)
  have g1 := my.slo; have g2 := my.shi
  have g3 := toInt_cases y
  have hb : (max 0 b.smin).toNat ≤ y.toNat := by omega
  have hen : y.toNat ≤ (min 31 b.smax).toNat := by omega
  have hen2 : (min 31 b.smax).toNat ≤ 31 := by omega
  have ht : (BitVec.twoPow 32 y.toNat).toNat = 2 ^ y.toNat := by
    rw [BitVec.toNat_twoPow]
    exact Nat.mod_eq_of_lt (Nat.pow_lt_pow_right (by omega) hy)
  have p1 : 2 ^ (min 31 b.smax).toNat ≤ 2 ^ 31 := Nat.pow_le_pow_right (by omega) hen2
  obtain ⟨m1, e1, w1, h1⟩ := unsigned_sound nd (mn := 2 ^ (max 0 b.smin).toNat) (mx := 2 ^ (min 31 b.smax).toNat) (v := BitVec.twoPow 32 y.toNat)
    (by simp only [u32max]; omega)
    (by rw [ht]; exact Nat.pow_le_pow_right (by omega) hb) (by rw [ht]; exact Nat.pow_le_pow_right (by omega) hen)
  obtain ⟨r2, e2, w2, h2⟩ := mul_sound nd mx h1
  rw [BitVec.mul_twoPow_eq_shiftLeft] at h2
  obtain ⟨r3, e3, w3, h3⟩ := intersectSet_exact nd w2 w ⟨_, h2, m⟩
  have h3' := (h3 _).mpr ⟨h2, m⟩
  obtain ⟨r4, e4, w4, h4⟩ := sync_ok nd w3 h3'
  refine ⟨r4, ?_, w4, h4 _ h3'⟩
  unfold shl
  refine bind_ok e ?_
  rw [if_neg (by omega)]
  obtain ⟨q, eq1, eq2⟩ : ∃ q, setUnsigned nd full (2 ^ (max 0 b.smin).toNat) (2 ^ (min 31 b.smax).toNat) = some q ∧ sync nd q = some m1 := by
    cases hq : setUnsigned nd full (2 ^ (max 0 b.smin).toNat) (2 ^ (min 31 b.smax).toNat) with
    | none => rw [hq] at e1; exact absurd e1 (by simp)
    | some q => rw [hq] at e1; exact ⟨q, rfl, e1⟩
  exact bind_ok eq1 (bind_ok eq2 (bind_ok e2 (bind_ok e3 e4)))

/-! ### min / max / abs / neg -/

theorem smax_sound (nd : Bool) {a b : IRange} (wa : WF a) (wb : WF b) {x y v : BitVec 32} (mx : Mem x a) (my : Mem y b)
    (hv : v.toInt = max x.toInt y.toInt) : ∃ r, smaxOp nd a b = some r ∧ WF r ∧ Mem v r := by
  have := mx.slo; have := mx.shi; have := my.slo; have := my.shi
  have := wa.lo; have := wa.hi; have := wb.lo; have := wb.hi
  apply signed_sound
  · simp only [i32min]; omega
  · simp only [i32max]; omega
  · omega
  · omega

theorem smin_sound (nd : Bool) {a b : IRange} (wa : WF a) (wb : WF b) {x y v : BitVec 32} (mx : Mem x a) (my : Mem y b)
    (hv : v.toInt = min x.toInt y.toInt) : ∃ r, sminOp nd a b = some r ∧ WF r ∧ Mem v r := by
  have := mx.slo; have := mx.shi; have := my.slo; have := my.shi
  have := wa.lo; have := wa.hi; have := wb.lo; have := wb.hi
  apply signed_sound
  · simp only [i32min]; omega
  · simp only [i32max]; omega
  · omega
  · omega

theorem full_sync_sound (nd : Bool) (v : BitVec 32) : ∃ r, sync nd full = some r ∧ WF r ∧ Mem v r := by
  obtain ⟨r, e, w, h⟩ := sync_ok nd wf_full (mem_full v)
  exact ⟨r, e, w, h _ (mem_full v)⟩

theorem neg_sound (nd : Bool) {a : IRange} (wa : WF a) {x : BitVec 32} (mx : Mem x a) :
    ∃ r, neg nd a = some r ∧ WF r ∧ Mem (-x) r := by
  have := mx.slo; have := mx.shi
  have := wa.lo; have := wa.hi
  unfold neg
  split
  · rename_i h
    simp only [i32min] at h
    have e : (-x).toInt = -x.toInt := by
      apply toInt_eq_of_bmod BitVec.toInt_neg <;> omega
    apply signed_sound
    · simp only [i32min]; omega
    · simp only [i32max]; omega
    · omega
    · omega
  · exact full_sync_sound nd _

theorem abs_sound (nd : Bool) {a : IRange} (wa : WF a) (ha : a.smin ≠ -2147483648 ∨ a.smax < 0) {x v : BitVec 32} (mx : Mem x a)
    (hv : v.toInt = x.toInt.natAbs) :
    ∃ r, abs nd a = some r ∧ WF r ∧ Mem v r := by
  have := mx.slo; have := mx.shi
  have := wa.lo; have := wa.hi
  unfold abs
  split
  · apply signed_sound
    · simp only [i32min]; omega
    · simp only [i32max]; omega
    · omega
    · omega
  · split
    · rename_i h; simp only [i32min] at h
      apply signed_sound
      · simp only [i32min]; omega
      · simp only [i32max]; omega
      · omega
      · omega
    · exact full_sync_sound nd _

theorem getNonNegative_sound (nd : Bool) {v : BitVec 32} (h : 0 ≤ v.toInt) :
    ∃ r, getNonNegative nd = some r ∧ WF r ∧ Mem v r := by
  have := toInt_cases v
  apply signed_sound
  · simp only [i32min]; omega
  · simp only [i32max]; omega
  · omega
  · simp only [i32max]; omega

end Cmmc.Range
