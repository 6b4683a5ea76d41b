import Verif.Layout.Model
import Mathlib.Tactic.Linarith
import Mathlib.Tactic.Ring
/-!
# C17 (layout) and C33 (getelementptr)

Specification: a *path* selects a sub-object of a type (`subAt`); its byte range is `[offAt, offAt + size)`. The array stride is a
parameter, because the code uses two: `ArrayType::getSize` pads elements to their alignment, `getelementptr` does not.
-/
namespace Cmmc.Layout

inductive Step
  | idx (i : Nat)
  | field (k : Nat)
deriving DecidableEq, Repr

/-- the type of the sub-object at a path, if the path is in bounds -/
def subAt : Ty → List Step → Option Ty
  | t, [] => some t
  | .arr n t, .idx i :: p => if i < n then subAt t p else none
  | .struct fs, .field k :: p => (fs.get k).bind fun t => subAt t p
  | _, _ :: _ => none

/-- the byte offset of a path for a given array stride -/
def offAt (d : DL) (stride : Ty → Nat) : Ty → List Step → Option Nat
  | _, [] => some 0
  | .arr _ t, .idx i :: p => (offAt d stride t p).map fun o => i * stride t + o
  | .struct fs, .field k :: p =>
    (fieldOffset d fs k).bind fun o => (fs.get k).bind fun t => (offAt d stride t p).map fun o' => o + o'
  | _, _ :: _ => none

/-- the padded stride implied by `ArrayType::getSize` -/
def paddedStride (d : DL) (t : Ty) : Nat := roundUp (t.size d) (t.align d)
/-- the stride used by `getelementptr` -/
def gepStride (d : DL) (t : Ty) : Nat := t.size d

/-- a stride that separates elements and fits the array size -/
def StrideOK (d : DL) (stride : Ty → Nat) : Prop := ∀ t : Ty, t.size d ≤ stride t ∧ stride t ≤ roundUp (t.size d) (t.align d)

/-- alignments are positive -/
def DL.Pos (d : DL) : Prop := ∀ s, 0 < d.builtinAlign s
/-- alignments are powers of two -/
def DL.Pow2 (d : DL) : Prop := ∀ s, ∃ k, d.builtinAlign s = 2 ^ k

theorem roundUp_ge {x a : Nat} (ha : 0 < a) : x ≤ roundUp x a := by
  unfold roundUp
  have h2 := Nat.div_add_mod (x + a - 1) a
  have h3 := Nat.mod_lt (x + a - 1) ha
  rw [Nat.mul_comm] at h2
  omega
theorem roundUp_dvd {x a : Nat} : a ∣ roundUp x a := Nat.dvd_mul_left _ _
theorem roundUp_lt {x a : Nat} (ha : 0 < a) : roundUp x a < x + a := by
  unfold roundUp
  have := Nat.div_mul_le_self (x + a - 1) a
  omega

theorem maxAlign_ge (d : DL) : ∀ (fs : Fields) (m : Nat), m ≤ fs.maxAlign d m
  | .nil, _ => by simp [Fields.maxAlign]
  | .cons t fs, m => by
    rw [Fields.maxAlign]
    exact le_trans (le_max_left _ _) (maxAlign_ge d fs _)

mutual
theorem align_pos {d : DL} (hd : d.Pos) : ∀ t : Ty, 0 < t.align d
  | .scalar s => by rw [Ty.align]; exact hd s
  | .arr _ t => by rw [Ty.align]; exact align_pos hd t
  | .struct fs => by rw [Ty.align]; exact Nat.lt_of_lt_of_le (by omega) (maxAlign_ge d fs 1)
end

theorem padded_ok {d : DL} (hd : d.Pos) : StrideOK d (paddedStride d) :=
  fun t => ⟨roundUp_ge (align_pos hd t), Nat.le_refl _⟩
theorem gep_ok {d : DL} (hd : d.Pos) : StrideOK d (gepStride d) :=
  fun t => ⟨Nat.le_refl _, roundUp_ge (align_pos hd t)⟩

theorem sizeFrom_ge {d : DL} (hd : d.Pos) : ∀ (fs : Fields) (off : Nat), off ≤ fs.sizeFrom d off
  | .nil, _ => by rw [Fields.sizeFrom]
  | .cons t fs, off => by
    rw [Fields.sizeFrom]
    have := sizeFrom_ge hd fs (roundUp off (t.align d) + t.size d)
    have := roundUp_ge (x := off) (align_pos hd t)
    omega

theorem offsetFrom_spec {d : DL} (hd : d.Pos) : ∀ (fs : Fields) (off i : Nat) (t : Ty), fs.get i = some t →
    ∃ o, fs.offsetFrom d off i = some o ∧ off ≤ o ∧ t.align d ∣ o ∧ o + t.size d ≤ fs.sizeFrom d off
  | .nil, _, _, _, h => by simp [Fields.get] at h
  | .cons t fs, off, 0, t', h => by
    simp only [Fields.get, Option.some.injEq] at h
    subst h
    refine ⟨_, by rw [Fields.offsetFrom], roundUp_ge (align_pos hd t), roundUp_dvd, ?_⟩
    rw [Fields.sizeFrom]
    exact sizeFrom_ge hd fs _
  | .cons t fs, off, i + 1, t', h => by
    simp only [Fields.get] at h
    obtain ⟨o, e, h1, h2, h3⟩ := offsetFrom_spec hd fs (roundUp off (t.align d) + t.size d) i t' h
    refine ⟨o, by rw [Fields.offsetFrom]; exact e, ?_, h2, by rw [Fields.sizeFrom]; exact h3⟩
    have := roundUp_ge (x := off) (align_pos hd t)
    omega

theorem offsetFrom_disj {d : DL} (hd : d.Pos) : ∀ (fs : Fields) (off i j : Nat) (t t' : Ty), i < j → fs.get i = some t →
    fs.get j = some t' → ∃ o o', fs.offsetFrom d off i = some o ∧ fs.offsetFrom d off j = some o' ∧ o + t.size d ≤ o'
  | .nil, _, _, _, _, _, _, h, _ => by simp [Fields.get] at h
  | .cons t fs, off, 0, 0, _, _, h, _, _ => by omega
  | .cons t fs, off, 0, j + 1, t1, t', _, h, h' => by
    simp only [Fields.get, Option.some.injEq] at h h'
    subst h
    obtain ⟨o, e, h1, _⟩ := offsetFrom_spec hd fs (roundUp off (t.align d) + t.size d) j t' h'
    exact ⟨_, o, by rw [Fields.offsetFrom], by rw [Fields.offsetFrom]; exact e, h1⟩
  | .cons t fs, off, i + 1, 0, _, _, h, _, _ => by omega
  | .cons t fs, off, i + 1, j + 1, t1, t', hij, h, h' => by
    simp only [Fields.get] at h h'
    obtain ⟨o, o', e, e', hl⟩ := offsetFrom_disj hd fs (roundUp off (t.align d) + t.size d) i j t1 t' (by omega) h h'
    exact ⟨o, o', by rw [Fields.offsetFrom]; exact e, by rw [Fields.offsetFrom]; exact e', hl⟩

/-- C17: struct fields. Every field has an offset; it is a multiple of the field's alignment, the field ends inside the struct,
fields do not overlap and come in order. -/
theorem C17_struct_fields {d : DL} (hd : d.Pos) (fs : Fields) :
    (∀ i t, fs.get i = some t → ∃ o, fieldOffset d fs i = some o ∧ t.align d ∣ o ∧ o + t.size d ≤ (Ty.struct fs).size d) ∧
    (∀ i j t t' o o', i < j → fs.get i = some t → fs.get j = some t' → fieldOffset d fs i = some o →
      fieldOffset d fs j = some o' → o + t.size d ≤ o') := by
  constructor
  · intro i t h
    obtain ⟨o, e, _, h2, h3⟩ := offsetFrom_spec hd fs 0 i t h
    exact ⟨o, e, h2, by rw [Ty.size]; exact h3⟩
  · intro i j t t' o o' hij h h' e e'
    obtain ⟨p, p', q, q', hl⟩ := offsetFrom_disj hd fs 0 i j t t' hij h h'
    unfold fieldOffset at e e'
    rw [q] at e; rw [q'] at e'
    simp only [Option.some.injEq] at e e'
    omega

/-- generic: sub-objects exist at an offset inside the object -/
theorem inBounds {d : DL} (hd : d.Pos) {stride : Ty → Nat} (hs : StrideOK d stride) : ∀ (p : List Step) (t s : Ty),
    subAt t p = some s → ∃ o, offAt d stride t p = some o ∧ o + s.size d ≤ t.size d
  | [], t, s, h => by
    have h : some t = some s := by cases t <;> simpa [subAt] using h
    simp only [Option.some.injEq] at h
    subst h
    exact ⟨0, by cases t <;> simp [offAt], by omega⟩
  | .idx i :: p, .arr n t, s, h => by
    simp only [subAt] at h
    split at h
    · rename_i hi
      obtain ⟨o, e, hl⟩ := inBounds hd hs p t s h
      refine ⟨i * stride t + o, by simp [offAt, e], ?_⟩
      rw [Ty.size]
      obtain ⟨s1, s2⟩ := hs t
      have h1 : i * stride t + stride t = (i + 1) * stride t := by ring
      have h2 : (i + 1) * stride t ≤ n * stride t := Nat.mul_le_mul_right _ hi
      have h3 : n * stride t ≤ roundUp (t.size d) (t.align d) * n := by rw [Nat.mul_comm]; exact Nat.mul_le_mul_right _ s2
      omega
    · simp at h
  | .field k :: p, .struct fs, s, h => by
    simp only [subAt] at h
    cases hg : fs.get k with
    | none => rw [hg] at h; simp at h
    | some t =>
      rw [hg] at h
      simp only [Option.bind_some] at h
      obtain ⟨o, e, hl⟩ := inBounds hd hs p t s h
      obtain ⟨o', e', _, hl'⟩ := (C17_struct_fields hd fs).1 k t hg
      refine ⟨o' + o, by simp [offAt, e, e', hg], by omega⟩
  | .idx i :: p, .scalar _, s, h => by simp [subAt] at h
  | .idx i :: p, .struct _, s, h => by simp [subAt] at h
  | .field i :: p, .scalar _, s, h => by simp [subAt] at h
  | .field i :: p, .arr _ _, s, h => by simp [subAt] at h

/-- neither path extends the other -/
def Incomparable (p q : List Step) : Prop := ¬ p <+: q ∧ ¬ q <+: p

theorem disjoint_paths {d : DL} (hd : d.Pos) {stride : Ty → Nat} (hs : StrideOK d stride) : ∀ (p q : List Step) (t s s' : Ty)
    (o o' : Nat), Incomparable p q → subAt t p = some s → subAt t q = some s' → offAt d stride t p = some o →
    offAt d stride t q = some o' → o + s.size d ≤ o' ∨ o' + s'.size d ≤ o
  | [], q, _, _, _, _, _, hi, _, _, _, _ => absurd (List.nil_prefix) hi.1
  | _ :: _, [], _, _, _, _, _, hi, _, _, _, _ => absurd (List.nil_prefix) hi.2
  | .idx i :: p, .idx j :: q, .arr n t, s, s', o, o', hinc, h, h', e, e' => by
    simp only [subAt] at h h'
    split at h <;> [skip; simp at h]
    split at h' <;> [skip; simp at h']
    obtain ⟨a, ea, la⟩ := inBounds hd hs p t s h
    obtain ⟨b, eb, lb⟩ := inBounds hd hs q t s' h'
    simp only [offAt, ea, eb, Option.map_some, Option.some.injEq] at e e'
    obtain ⟨s1, s2⟩ := hs t
    rcases Nat.lt_trichotomy i j with hij | hij | hij
    · left
      have h1 : i * stride t + stride t = (i + 1) * stride t := by ring
      have h2 : (i + 1) * stride t ≤ j * stride t := Nat.mul_le_mul_right _ hij
      omega
    · subst hij
      have := disjoint_paths hd hs p q t s s' a b ⟨fun hp => hinc.1 (by simpa using hp), fun hp => hinc.2 (by simpa using hp)⟩
        h h' ea eb
      omega
    · right
      have h1 : j * stride t + stride t = (j + 1) * stride t := by ring
      have h2 : (j + 1) * stride t ≤ i * stride t := Nat.mul_le_mul_right _ hij
      omega
  | .field i :: p, .field j :: q, .struct fs, s, s', o, o', hinc, h, h', e, e' => by
    simp only [subAt] at h h'
    cases hgi : fs.get i with
    | none => rw [hgi] at h; simp at h
    | some ti =>
    cases hgj : fs.get j with
    | none => rw [hgj] at h'; simp at h'
    | some tj =>
    rw [hgi] at h; rw [hgj] at h'
    simp only [Option.bind_some] at h h'
    obtain ⟨a, ea, la⟩ := inBounds hd hs p ti s h
    obtain ⟨b, eb, lb⟩ := inBounds hd hs q tj s' h'
    obtain ⟨c, ec, _, lc⟩ := (C17_struct_fields hd fs).1 i ti hgi
    obtain ⟨c', ec', _, lc'⟩ := (C17_struct_fields hd fs).1 j tj hgj
    simp only [offAt, ea, eb, ec, ec', hgi, hgj, Option.bind_some, Option.map_some, Option.some.injEq] at e e'
    rcases Nat.lt_trichotomy i j with hij | hij | hij
    · have := (C17_struct_fields hd fs).2 i j ti tj c c' hij hgi hgj ec ec'
      omega
    · subst hij
      rw [hgi] at hgj; simp only [Option.some.injEq] at hgj; subst hgj
      rw [ec] at ec'; simp only [Option.some.injEq] at ec'; subst ec'
      have := disjoint_paths hd hs p q ti s s' a b ⟨fun hp => hinc.1 (by simpa using hp), fun hp => hinc.2 (by simpa using hp)⟩
        h h' ea eb
      omega
    · have := (C17_struct_fields hd fs).2 j i tj ti c' c hij hgj hgi ec' ec
      omega
  | .idx _ :: _, .field _ :: _, .arr _ _, _, _, _, _, _, _, h, _, _ => by simp [subAt] at h
  | .idx _ :: _, .field _ :: _, .struct _, _, _, _, _, _, h, _, _, _ => by simp [subAt] at h
  | .idx _ :: _, .field _ :: _, .scalar _, _, _, _, _, _, h, _, _, _ => by simp [subAt] at h
  | .field _ :: _, .idx _ :: _, .arr _ _, _, _, _, _, _, h, _, _, _ => by simp [subAt] at h
  | .field _ :: _, .idx _ :: _, .struct _, _, _, _, _, _, _, h, _, _ => by simp [subAt] at h
  | .field _ :: _, .idx _ :: _, .scalar _, _, _, _, _, _, h, _, _, _ => by simp [subAt] at h
  | .idx _ :: _, .idx _ :: _, .struct _, _, _, _, _, _, h, _, _, _ => by simp [subAt] at h
  | .idx _ :: _, .idx _ :: _, .scalar _, _, _, _, _, _, h, _, _, _ => by simp [subAt] at h
  | .field _ :: _, .field _ :: _, .arr _ _, _, _, _, _, _, h, _, _, _ => by simp [subAt] at h
  | .field _ :: _, .field _ :: _, .scalar _, _, _, _, _, _, h, _, _, _ => by simp [subAt] at h

/-- C17: all sub-objects of any nested type, with the array stride implied by the size computation, lie inside the object, and
sub-objects neither of which contains the other do not overlap. -/
theorem C17_subobjects {d : DL} (hd : d.Pos) (t : Ty) :
    (∀ p s, subAt t p = some s → ∃ o, offAt d (paddedStride d) t p = some o ∧ o + s.size d ≤ t.size d) ∧
    (∀ p q s s' o o', Incomparable p q → subAt t p = some s → subAt t q = some s' →
      offAt d (paddedStride d) t p = some o → offAt d (paddedStride d) t q = some o' →
      o + s.size d ≤ o' ∨ o' + s'.size d ≤ o) :=
  ⟨fun p s h => inBounds hd (padded_ok hd) p t s h,
   fun p q s s' o o' hi h h' e e' => disjoint_paths hd (padded_ok hd) p q t s s' o o' hi h h' e e'⟩

/-! ### alignment -/

theorem max_pow2 {a b : Nat} (ha : ∃ k, a = 2 ^ k) (hb : ∃ k, b = 2 ^ k) : (∃ k, max a b = 2 ^ k) ∧ a ∣ max a b ∧ b ∣ max a b := by
  obtain ⟨i, rfl⟩ := ha
  obtain ⟨j, rfl⟩ := hb
  rcases le_total i j with h | h
  · have : max (2 ^ i) (2 ^ j) = 2 ^ j := max_eq_right (Nat.pow_le_pow_right (by omega) h)
    rw [this]; exact ⟨⟨j, rfl⟩, Nat.pow_dvd_pow 2 h, Nat.dvd_refl _⟩
  · have : max (2 ^ i) (2 ^ j) = 2 ^ i := max_eq_left (Nat.pow_le_pow_right (by omega) h)
    rw [this]; exact ⟨⟨i, rfl⟩, Nat.dvd_refl _, Nat.pow_dvd_pow 2 h⟩

mutual
theorem align_pow2 {d : DL} (hd : d.Pow2) : ∀ t : Ty, ∃ k, t.align d = 2 ^ k
  | .scalar s => by rw [Ty.align]; exact hd s
  | .arr _ t => by rw [Ty.align]; exact align_pow2 hd t
  | .struct fs => by rw [Ty.align]; exact (maxAlign_pow2 hd fs 1 ⟨0, rfl⟩).1
theorem maxAlign_pow2 {d : DL} (hd : d.Pow2) : ∀ (fs : Fields) (m : Nat), (∃ k, m = 2 ^ k) →
    (∃ k, fs.maxAlign d m = 2 ^ k) ∧ m ∣ fs.maxAlign d m
  | .nil, m, h => by rw [Fields.maxAlign]; exact ⟨h, Nat.dvd_refl _⟩
  | .cons t fs, m, h => by
    rw [Fields.maxAlign]
    obtain ⟨h1, h2, _⟩ := max_pow2 h (align_pow2 hd t)
    obtain ⟨h3, h4⟩ := maxAlign_pow2 hd fs _ h1
    exact ⟨h3, Nat.dvd_trans h2 h4⟩
end

theorem field_align_dvd {d : DL} (hd : d.Pow2) : ∀ (fs : Fields) (m i : Nat) (t : Ty), (∃ k, m = 2 ^ k) → fs.get i = some t →
    t.align d ∣ fs.maxAlign d m
  | .nil, _, _, _, _, h => by simp [Fields.get] at h
  | .cons t fs, m, 0, t', hm, h => by
    simp only [Fields.get, Option.some.injEq] at h
    subst h
    rw [Fields.maxAlign]
    obtain ⟨h1, _, h3⟩ := max_pow2 hm (align_pow2 hd t)
    exact Nat.dvd_trans h3 (maxAlign_pow2 hd fs _ h1).2
  | .cons t fs, m, i + 1, t', hm, h => by
    simp only [Fields.get] at h
    rw [Fields.maxAlign]
    exact field_align_dvd hd fs _ i t' (max_pow2 hm (align_pow2 hd t)).1 h

theorem pow2_pos {d : DL} (hd : d.Pow2) : d.Pos := fun s => by obtain ⟨k, e⟩ := hd s; rw [e]; exact Nat.pow_pos (by omega)

/-- every array crossed by the path has a stride that is a multiple of the alignment of its element type -/
def AlignedAlong (d : DL) (stride : Ty → Nat) : Ty → List Step → Prop
  | .arr _ t, .idx _ :: p => t.align d ∣ stride t ∧ AlignedAlong d stride t p
  | .struct fs, .field k :: p => ∀ t, fs.get k = some t → AlignedAlong d stride t p
  | _, _ => True

theorem alignedAlong_of_all {d : DL} {stride : Ty → Nat} (hst : ∀ t : Ty, t.align d ∣ stride t) :
    ∀ (p : List Step) (t : Ty), AlignedAlong d stride t p
  | [], t => by cases t <;> simp [AlignedAlong]
  | .idx i :: p, .arr n t => ⟨hst t, alignedAlong_of_all hst p t⟩
  | .field i :: p, .struct fs => fun t _ => alignedAlong_of_all hst p t
  | .idx i :: p, .scalar _ => by simp [AlignedAlong]
  | .idx i :: p, .struct _ => by simp [AlignedAlong]
  | .field i :: p, .scalar _ => by simp [AlignedAlong]
  | .field i :: p, .arr _ _ => by simp [AlignedAlong]

theorem aligned_generic {d : DL} (hd : d.Pow2) {stride : Ty → Nat} :
    ∀ (p : List Step) (t s : Ty) (o : Nat), AlignedAlong d stride t p → subAt t p = some s → offAt d stride t p = some o →
    s.align d ∣ t.align d ∧ s.align d ∣ o
  | [], t, s, o, _, h, e => by
    have h : some t = some s := by cases t <;> simpa [subAt] using h
    have e : some 0 = some o := by cases t <;> simpa [offAt] using e
    simp only [Option.some.injEq] at h e
    subst h; subst e
    exact ⟨Nat.dvd_refl _, Nat.dvd_zero _⟩
  | .idx i :: p, .arr n t, s, o, ha, h, e => by
    obtain ⟨hst, ha⟩ := ha
    simp only [subAt] at h
    split at h <;> [skip; simp at h]
    simp only [offAt, Option.map_eq_some_iff] at e
    obtain ⟨o', e', rfl⟩ := e
    obtain ⟨h1, h2⟩ := aligned_generic hd p t s o' ha h e'
    refine ⟨by rw [Ty.align]; exact h1, ?_⟩
    exact Nat.dvd_add (Nat.dvd_trans h1 (Nat.dvd_trans hst (Nat.dvd_mul_left _ _))) h2
  | .field k :: p, .struct fs, s, o, ha, h, e => by
    simp only [subAt] at h
    cases hg : fs.get k with
    | none => rw [hg] at h; simp at h
    | some t =>
      rw [hg] at h
      simp only [Option.bind_some] at h
      obtain ⟨c, ec, hc, _⟩ := (C17_struct_fields (pow2_pos hd) fs).1 k t hg
      simp only [offAt, ec, hg, Option.bind_some, Option.map_eq_some_iff] at e
      obtain ⟨o', e', rfl⟩ := e
      obtain ⟨h1, h2⟩ := aligned_generic hd p t s o' (ha t hg) h e'
      refine ⟨?_, Nat.dvd_add (Nat.dvd_trans h1 hc) h2⟩
      rw [Ty.align]
      exact Nat.dvd_trans h1 (field_align_dvd hd fs 1 k t ⟨0, rfl⟩ hg)
  | .idx i :: p, .scalar _, s, _, _, h, _ => by simp [subAt] at h
  | .idx i :: p, .struct _, s, _, _, h, _ => by simp [subAt] at h
  | .field i :: p, .scalar _, s, _, _, h, _ => by simp [subAt] at h
  | .field i :: p, .arr _ _, s, _, _, h, _ => by simp [subAt] at h

/-- C17: with power-of-two builtin alignments, an object placed at a multiple of its alignment has all its sub-objects (padded
array stride) at multiples of theirs. -/
theorem C17_subobjects_aligned {d : DL} (hd : d.Pow2) (t s : Ty) (p : List Step) (o base : Nat) (h : subAt t p = some s)
    (e : offAt d (paddedStride d) t p = some o) (hb : t.align d ∣ base) : s.align d ∣ base + o := by
  obtain ⟨h1, h2⟩ := aligned_generic hd p t s o (alignedAlong_of_all (fun t => roundUp_dvd) p t) h e
  exact Nat.dvd_add (Nat.dvd_trans h1 hb) h2

/-! ### scalar count -/

/-- the paths to the innermost (non-array) elements of nested arrays -/
def elemPaths : Ty → List (List Step)
  | .arr n t => (List.range n).flatMap fun i => (elemPaths t).map fun p => Step.idx i :: p
  | _ => [[]]

theorem flatMap_length (l : List Nat) (f : Nat → List (List Step)) (k : Nat) (h : ∀ i, (f i).length = k) :
    (l.flatMap f).length = l.length * k := by
  induction l with
  | nil => simp
  | cons a l ih => simp only [List.flatMap_cons, List.length_append, ih, h, List.length_cons]; ring

/-- C17: `getScalarCount` of an array is the number of innermost elements, and they all have type `getScalarType`. -/
theorem C17_scalarCount : ∀ (n : Nat) (t : Ty), (elemPaths (.arr n t)).length = (Ty.arr n t).scalarCount ∧
    ∀ p ∈ elemPaths (.arr n t), subAt (.arr n t) p = some (Ty.arr n t).scalarType
  | n, .arr m t => by
    obtain ⟨h1, h2⟩ := C17_scalarCount m t
    constructor
    · rw [elemPaths, Ty.scalarCount, flatMap_length _ _ ((Ty.arr m t).scalarCount) (by intro i; simp [h1])]
      simp
    · intro p hp
      rw [elemPaths] at hp
      simp only [List.mem_flatMap, List.mem_range, List.mem_map] at hp
      obtain ⟨i, hi, q, hq, rfl⟩ := hp
      simp only [subAt]
      rw [if_pos hi, h2 q hq, Ty.scalarType]
  | n, .scalar s => by
    constructor
    · rw [elemPaths, flatMap_length _ _ 1 (by intro i; simp [elemPaths])]; simp [Ty.scalarCount]
    · intro p hp
      rw [elemPaths] at hp
      simp only [elemPaths, List.mem_flatMap, List.mem_range, List.mem_map, List.mem_singleton] at hp
      obtain ⟨i, hi, q, rfl, rfl⟩ := hp
      simp [subAt, hi, Ty.scalarType]
  | n, .struct fs => by
    constructor
    · rw [elemPaths, flatMap_length _ _ 1 (by intro i; simp [elemPaths])]; simp [Ty.scalarCount]
    · intro p hp
      rw [elemPaths] at hp
      simp only [elemPaths, List.mem_flatMap, List.mem_range, List.mem_map, List.mem_singleton] at hp
      obtain ⟨i, hi, q, rfl, rfl⟩ := hp
      simp [subAt, hi, Ty.scalarType]

/-! ## C33: getelementptr -/

/-- value of an index operand -/
def Idx.toStep (env : Nat → Nat) : Idx → Option Step
  | .const v => if 0 ≤ v then some (.idx v.toNat) else none
  | .undef => some (.idx 0)
  | .var x => some (.idx (env x))
  | .field k => some (.field k)

/-- the address offset the generated code computes: constant part plus scaled run-time indices -/
def evalOffset (env : Nat → Nat) (r : Int × List (Nat × Nat)) : Int := r.1 + (r.2.map fun q => (q.1 * env q.2 : Int)).sum

theorem gather_spec {d : DL} (hd : d.Pos) (env : Nat → Nat) : ∀ (is : List Idx) (t s : Ty) (p : List Step),
    is.mapM (Idx.toStep env) = some p → subAt t p = some s →
    ∃ r o, gather d t is = some r ∧ offAt d (gepStride d) t p = some o ∧ evalOffset env r = o
  | [], t, s, p, hp, h => by
    simp only [List.mapM_nil, Option.pure_def, Option.some.injEq] at hp
    subst hp
    exact ⟨(0, []), 0, by cases t <;> rfl, by cases t <;> simp [offAt], by simp [evalOffset]⟩
  | i :: is, t, s, p, hp, h => by
    simp only [List.mapM_cons, Option.pure_def, Option.bind_eq_bind, Option.bind_eq_some_iff, Option.some.injEq] at hp
    obtain ⟨st, hst, p', hp', rfl⟩ := hp
    cases i with
    | const v =>
      simp only [Idx.toStep] at hst
      split at hst <;> [skip; simp at hst]
      rename_i hv
      simp only [Option.some.injEq] at hst
      subst hst
      cases t with
      | arr n t =>
        simp only [subAt] at h
        split at h <;> [skip; simp at h]
        obtain ⟨r, o, e1, e2, e3⟩ := gather_spec hd env is t s p' hp' h
        refine ⟨(t.size d * v + r.1, r.2), _, by simp [gather, e1], by simp only [offAt, e2]; rfl, ?_⟩
        unfold evalOffset at e3 ⊢
        have hvn : ((v.toNat : Nat) : Int) = v := Int.toNat_of_nonneg hv
        simp only [gepStride]
        push_cast
        rw [hvn, ← e3]; ring
      | scalar _ => simp [subAt] at h
      | struct _ => simp [subAt] at h
    | undef =>
      simp only [Idx.toStep, Option.some.injEq] at hst
      subst hst
      cases t with
      | arr n t =>
        simp only [subAt] at h
        split at h <;> [skip; simp at h]
        obtain ⟨r, o, e1, e2, e3⟩ := gather_spec hd env is t s p' hp' h
        refine ⟨r, _, by simp [gather, e1], by simp only [offAt, e2]; rfl, ?_⟩
        rw [e3]; simp
      | scalar _ => simp [subAt] at h
      | struct _ => simp [subAt] at h
    | var x =>
      simp only [Idx.toStep, Option.some.injEq] at hst
      subst hst
      cases t with
      | arr n t =>
        simp only [subAt] at h
        split at h <;> [skip; simp at h]
        obtain ⟨r, o, e1, e2, e3⟩ := gather_spec hd env is t s p' hp' h
        refine ⟨(r.1, (t.size d, x) :: r.2), _, by simp [gather, e1], by simp only [offAt, e2]; rfl, ?_⟩
        unfold evalOffset at e3 ⊢
        simp only [List.map_cons, List.sum_cons, gepStride]
        push_cast
        rw [← e3]; ring
      | scalar _ => simp [subAt] at h
      | struct _ => simp [subAt] at h
    | field k =>
      simp only [Idx.toStep, Option.some.injEq] at hst
      subst hst
      cases t with
      | struct fs =>
        simp only [subAt] at h
        cases hg : fs.get k with
        | none => rw [hg] at h; simp at h
        | some t =>
          rw [hg] at h
          simp only [Option.bind_some] at h
          obtain ⟨r, o, e1, e2, e3⟩ := gather_spec hd env is t s p' hp' h
          obtain ⟨c, ec, _⟩ := (C17_struct_fields hd fs).1 k t hg
          refine ⟨(c + r.1, r.2), c + o, by simp [gather, ec, hg, e1], by simp [offAt, e2, ec, hg], ?_⟩
          unfold evalOffset at e3 ⊢
          push_cast
          rw [← e3]; ring
      | scalar _ => simp [subAt] at h
      | arr _ _ => simp [subAt] at h

/-- C33: for a `getelementptr` whose first index is 0 and whose other indices (constant or run-time) are in bounds, the offsets
gathered are those of the selected sub-object, and the sub-object lies inside the pointee. -/
theorem C33_gep_in_bounds {d : DL} (hd : d.Pos) (env : Nat → Nat) (t s : Ty) (is : List Idx) (p : List Step)
    (hp : is.mapM (Idx.toStep env) = some p) (h : subAt t p = some s) :
    ∃ r o, gatherOffsets d t (.const 0 :: is) = some r ∧ offAt d (gepStride d) t p = some o ∧
      evalOffset env r = o ∧ o + s.size d ≤ t.size d := by
  obtain ⟨r, o, e1, e2, e3⟩ := gather_spec hd env is t s p hp h
  obtain ⟨o', e', hl⟩ := inBounds hd (gep_ok hd) p t s h
  rw [e2] at e'; simp only [Option.some.injEq] at e'; subst e'
  refine ⟨_, o, by simp only [gatherOffsets, e1]; rfl, e2, ?_, hl⟩
  unfold evalOffset at *
  rw [← e3]; simp

/-- C33: two in-bounds `getelementptr`s into the same object select the same sub-object, nested ones, or disjoint ones. -/
theorem C33_gep_disjoint {d : DL} (hd : d.Pos) (t s s' : Ty) (p q : List Step) (o o' : Nat) (hi : Incomparable p q)
    (h : subAt t p = some s) (h' : subAt t q = some s') (e : offAt d (gepStride d) t p = some o)
    (e' : offAt d (gepStride d) t q = some o') : o + s.size d ≤ o' ∨ o' + s'.size d ≤ o :=
  disjoint_paths hd (gep_ok hd) p q t s s' o o' hi h h' e e'

/-- C33: if the size of every array element type crossed by the path is a multiple of its alignment (no tail padding needed), the
`getelementptr` address is aligned for the selected sub-object. Missing: the unconditional statement, which is false
(`C33_gep_misaligned_witness`). -/
theorem C33_gep_aligned_partial {d : DL} (hd : d.Pow2) (t s : Ty) (p : List Step) (o base : Nat)
    (htight : AlignedAlong d (fun t => t.size d) t p)
    (h : subAt t p = some s) (e : offAt d (gepStride d) t p = some o) (hb : t.align d ∣ base) : s.align d ∣ base + o := by
  obtain ⟨h1, h2⟩ := aligned_generic hd p t s o htight h e
  exact Nat.dvd_add (Nat.dvd_trans h1 hb) h2

/-- the usual layout of the 32-bit targets -/
def exDL : DL := ⟨4, fun s => match s with | .int b => if b = 64 then 8 else if b = 32 then 4 else if b = 16 then 2 else 1 | .f32 => 4 | .f64 => 8 | .ptr => 4⟩

theorem exDL_pow2 : exDL.Pow2 := by
  intro s
  cases s with
  | int b =>
    simp only [exDL]
    split
    · exact ⟨3, rfl⟩
    · split
      · exact ⟨2, rfl⟩
      · split
        · exact ⟨1, rfl⟩
        · exact ⟨0, rfl⟩
  | f32 => exact ⟨2, rfl⟩
  | f64 => exact ⟨3, rfl⟩
  | ptr => exact ⟨2, rfl⟩

def exStruct : Ty := .struct (.cons (.scalar (.int 32)) (.cons (.scalar (.int 8)) .nil))

/-- C33: without that condition alignment fails, because `getelementptr` does not add tail padding: the `i32` of the second element
of `[2 * {i32, i8}]` is at offset 5, while the array size is computed with stride 8. -/
theorem C33_gep_misaligned_witness :
    subAt (.arr 2 exStruct) [.idx 1, .field 0] = some (.scalar (.int 32)) ∧
    offAt exDL (gepStride exDL) (.arr 2 exStruct) [.idx 1, .field 0] = some 5 ∧
    (Ty.arr 2 exStruct).size exDL = 16 := ⟨rfl, by decide, by decide⟩

/-- C17/C33 hypotheses are met by a nested example -/
example : subAt (.arr 3 exStruct) [.idx 2, .field 1] = some (.scalar (.int 8)) ∧
    offAt exDL (paddedStride exDL) (.arr 3 exStruct) [.idx 2, .field 1] = some 20 := ⟨rfl, by decide⟩

example : AlignedAlong exDL (fun t => t.size exDL) (.arr 3 (.arr 4 (.scalar (.int 32)))) [.idx 2, .idx 3] ∧
    offAt exDL (gepStride exDL) (.arr 3 (.arr 4 (.scalar (.int 32)))) [.idx 2, .idx 3] = some 44 := by
  refine ⟨⟨?_, ?_, trivial⟩, by decide⟩ <;> decide

end Cmmc.Layout
