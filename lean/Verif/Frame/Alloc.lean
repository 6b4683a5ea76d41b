import Mathlib.Data.List.Nodup
import Mathlib.Data.List.Perm.Basic
import Mathlib.Tactic.Linarith
/-!
# Stack-frame allocation (cmmc/CodeGen/StackAllocation.cpp:332-431) and C18

`int32_t` is modelled by `Int` (frames larger than 2 GiB are not considered); C++ integer division is `Int.tdiv`. Failed `assert`s and
`unordered_map::at` of a missing key are `none`. The `unordered_map` of stack objects is a list in an arbitrary order, so every
iteration order is covered; keys are distinct in a map (`NodupIds`).
-/
namespace Cmmc.Frame

/-- `StackObjectUsage` (CodeGen/MIR.hpp:371) -/
inductive Usage
  | argument | calleeArgument | local | regSpill | calleeSaved
deriving DecidableEq, Repr

/-- `StackObject` (CodeGen/MIR.hpp:372-377) with its key: the id of the `MIROperand` -/
structure Obj where
  id : Nat
  size : Nat
  align : Nat
  offset : Int
  usage : Usage
deriving DecidableEq, Repr

/-- `alignTo` (StackAllocation.cpp:352-355) -/
def alignTo (sp : Int) (align base : Int) : Option Int :=
  if align ≤ sp then
    if align = 0 then none else some ((base + align - 1).tdiv align * align)
  else none

/-- the loop over callee arguments (StackAllocation.cpp:357-362) -/
def calleeArgTop (objs : List Obj) : Int :=
  objs.foldl (fun b o => if o.usage = .calleeArgument then max b (o.offset + o.size) else b) 0

/-- `func.stackObjects().at(id)` -/
def lookup (objs : List Obj) (id : Nat) : Option Obj := objs.find? (fun o => o.id == id)

def setOffset (objs : List Obj) (id : Nat) (off : Int) : List Obj :=
  objs.map fun o => if o.id = id then { o with offset := off } else o

/-- `allocateFor` (StackAllocation.cpp:397-401) applied to the object with key `id` -/
def allocateFor (sp : Int) (st : List Obj × Int) (id : Nat) : Option (List Obj × Int) := do
  let o ← lookup st.1 id
  let b ← alignTo sp o.align st.2
  return (setOffset st.1 id b, b + o.size)

/-- keys of callee-saved objects, sorted by decreasing register number (StackAllocation.cpp:388-395); keys are compared by their
register number, which is their id -/
def calleeSavedKeys (objs : List Obj) : List Nat :=
  ((objs.filter fun o => o.usage = .calleeSaved).map Obj.id).mergeSort (fun a b => decide (a ≥ b))

/-- keys of locals and spills in iteration order (StackAllocation.cpp:405-408) -/
def localKeys (objs : List Obj) : List Nat :=
  (objs.filter fun o => o.usage = .local ∨ o.usage = .regSpill).map Obj.id

/-- `allocateStackObjects` from line 349 on (StackAllocation.cpp:349-419); returns the objects with their final offsets and the frame
size passed to the prologue -/
def allocateStackObjects (sp pre : Int) (objs : List Obj) : Option (List Obj × Int) := do
  let base ← alignTo sp sp (calleeArgTop objs)
  let s1 ← (calleeSavedKeys objs).foldlM (allocateFor sp) (objs, base)
  let s2 ← (localKeys objs).foldlM (allocateFor sp) s1
  let top ← alignTo sp sp s2.2
  let gap := (pre + sp - 1).tdiv sp * sp - pre
  let stackSize := top + gap
  if (stackSize + pre).tmod sp = 0 then
    return (s2.1.map fun o => if o.usage = .argument then { o with offset := o.offset + (stackSize + pre) } else o, stackSize)
  else none

/-! ## Specification -/

/-- the part of a stack object that allocation must not change -/
def Obj.fixed (o : Obj) : Nat × Nat × Nat × Usage := (o.id, o.size, o.align, o.usage)

def NodupIds (objs : List Obj) : Prop := (objs.map Obj.id).Nodup

/-- objects placed by the allocator -/
def Usage.placed : Usage → Prop
  | .local | .regSpill | .calleeSaved => True
  | _ => False

/-- `[offset, offset + size)` of the two objects do not intersect -/
def Disjoint (a b : Obj) : Prop := a.offset + a.size ≤ b.offset ∨ b.offset + b.size ≤ a.offset

/-! ## Proofs -/

theorem alignTo_spec {sp a base r : Int} (ha : 0 < a) (hb : 0 ≤ base) (h : alignTo sp a base = some r) :
    base ≤ r ∧ a ∣ r ∧ r < base + a := by
  unfold alignTo at h
  split at h <;> [skip; simp at h]
  rw [if_neg (by omega)] at h
  simp only [Option.some.injEq] at h
  rw [Int.tdiv_eq_ediv_of_nonneg (by omega)] at h
  have h1 := Int.mul_ediv_add_emod (base + a - 1) a
  have h2 := Int.emod_lt_of_pos (base + a - 1) ha
  have h3 := Int.emod_nonneg (base + a - 1) (b := a) (by omega)
  rw [Int.mul_comm] at h1
  refine ⟨by omega, ⟨_, by rw [← h, Int.mul_comm]⟩, by omega⟩

theorem alignTo_some {sp a base : Int} (ha : 0 < a) (h : a ≤ sp) : ∃ r, alignTo sp a base = some r := by
  unfold alignTo
  rw [if_pos h, if_neg (by omega)]
  exact ⟨_, rfl⟩

theorem calleeArgTop_aux (objs : List Obj) : ∀ b : Int, b ≤ objs.foldl (fun (b : Int) o => if o.usage = .calleeArgument then max b (o.offset + o.size) else b) b ∧
    ∀ o ∈ objs, o.usage = .calleeArgument → o.offset + o.size ≤
      objs.foldl (fun (b : Int) o => if o.usage = .calleeArgument then max b (o.offset + o.size) else b) b := by
  induction objs with
  | nil => intro b; simp
  | cons o objs ih =>
    intro b
    simp only [List.foldl_cons]
    obtain ⟨h1, h2⟩ := ih (if o.usage = .calleeArgument then max b (o.offset + o.size) else b)
    refine ⟨le_trans ?_ h1, ?_⟩
    · split <;> omega
    · intro p hp hu
      rcases List.mem_cons.1 hp with rfl | hp
      · rw [if_pos hu] at h1 ⊢
        exact le_trans (le_max_right _ _) h1
      · exact h2 p hp hu

/-- state of the bump allocation: `done` are the keys placed so far -/
structure Inv (orig : List Obj) (base0 : Int) (done : List Nat) (st : List Obj × Int) : Prop where
  fixed : st.1.map Obj.fixed = orig.map Obj.fixed
  le : base0 ≤ st.2
  untouched : ∀ o ∈ st.1, o.id ∉ done → o ∈ orig
  placed : ∀ o ∈ st.1, o.id ∈ done → base0 ≤ o.offset ∧ (o.align : Int) ∣ o.offset ∧ o.offset + o.size ≤ st.2
  disj : ∀ o ∈ st.1, ∀ o' ∈ st.1, o.id ∈ done → o'.id ∈ done → o.id ≠ o'.id → Disjoint o o'

theorem mem_of_fixed {l m : List Obj} (h : l.map Obj.fixed = m.map Obj.fixed) {o : Obj} (ho : o ∈ l) : ∃ p ∈ m, p.fixed = o.fixed := by
  have : o.fixed ∈ m.map Obj.fixed := by rw [← h]; exact List.mem_map_of_mem ho
  simpa using this

theorem ids_of_fixed {l m : List Obj} (h : l.map Obj.fixed = m.map Obj.fixed) : l.map Obj.id = m.map Obj.id := by
  have : (l.map Obj.fixed).map Prod.fst = (m.map Obj.fixed).map Prod.fst := by rw [h]
  simpa [List.map_map, Function.comp_def, Obj.fixed] using this

theorem setOffset_fixed (l : List Obj) (id : Nat) (off : Int) : (setOffset l id off).map Obj.fixed = l.map Obj.fixed := by
  unfold setOffset
  rw [List.map_map]
  apply List.map_congr_left
  intro o _
  simp only [Function.comp]
  split <;> rfl

theorem nodup_eq {l : List Obj} (h : NodupIds l) {a b : Obj} (ha : a ∈ l) (hb : b ∈ l) (e : a.id = b.id) : a = b :=
  List.inj_on_of_nodup_map h ha hb e

theorem allocateFor_inv {orig : List Obj} {base0 sp : Int} {done : List Nat} {st st' : List Obj × Int} {id : Nat}
    (h0 : 0 ≤ base0) (hn : NodupIds orig) (hal : ∀ o ∈ orig, 0 < o.align) (hI : Inv orig base0 done st)
    (h : allocateFor sp st id = some st') : Inv orig base0 (done ++ [id]) st' := by
  unfold allocateFor at h
  simp only [Option.bind_eq_bind, Option.pure_def, Option.bind_eq_some_iff, Option.some.injEq] at h
  obtain ⟨o, ho, b, hb, rfl⟩ := h
  have hom : o ∈ st.1 := List.mem_of_find?_eq_some ho
  have hoid : o.id = id := by simpa using List.find?_some ho
  obtain ⟨p, hp, hpf⟩ := mem_of_fixed hI.fixed hom
  have hoa : 0 < o.align := by
    have := hal p hp
    have e : p.align = o.align := by have := congrArg (fun x => x.2.2.1) hpf; simpa [Obj.fixed] using this
    omega
  obtain ⟨b1, b2, _⟩ := alignTo_spec (by exact_mod_cast hoa) (le_trans h0 hI.le) hb
  have hns : NodupIds st.1 := by unfold NodupIds; rw [ids_of_fixed hI.fixed]; exact hn
  have hback : ∀ q ∈ setOffset st.1 id b, (q.id = id ∧ q = { o with offset := b }) ∨ (q.id ≠ id ∧ q ∈ st.1) := by
    intro q hq
    unfold setOffset at hq
    obtain ⟨r, hr, rfl⟩ := List.mem_map.1 hq
    split
    · rename_i e
      have : r = o := nodup_eq hns hr hom (by omega)
      subst this
      exact Or.inl ⟨e, rfl⟩
    · rename_i e; exact Or.inr ⟨e, hr⟩
  refine ⟨?_, ?_, ?_, ?_, ?_⟩
  · rw [setOffset_fixed]; exact hI.fixed
  · have := hI.le; simp only; omega
  · intro q hq hqd
    rw [List.mem_append, List.mem_singleton, not_or] at hqd
    rcases hback q hq with ⟨e, _⟩ | ⟨_, h2⟩
    · exact absurd e hqd.2
    · exact hI.untouched q h2 hqd.1
  · intro q hq hqd
    rw [List.mem_append, List.mem_singleton] at hqd
    rcases hback q hq with ⟨e, rfl⟩ | ⟨h1, h2⟩
    · exact ⟨le_trans hI.le b1, b2, le_refl _⟩
    · obtain ⟨x, y, z⟩ := hI.placed q h2 (hqd.resolve_right h1)
      exact ⟨x, y, by simp only; omega⟩
  · intro q hq r hr hqd hrd hne
    rw [List.mem_append, List.mem_singleton] at hqd hrd
    rcases hback q hq with ⟨e, rfl⟩ | ⟨h1, h2⟩ <;> rcases hback r hr with ⟨e', rfl⟩ | ⟨h1', h2'⟩
    · exact absurd rfl hne
    · obtain ⟨x, y, z⟩ := hI.placed r h2' (hrd.resolve_right h1')
      right; simp only; omega
    · obtain ⟨x, y, z⟩ := hI.placed q h2 (hqd.resolve_right h1)
      left; simp only; omega
    · exact hI.disj q h2 r h2' (hqd.resolve_right h1) (hrd.resolve_right h1') hne

theorem foldlM_inv {orig : List Obj} {base0 sp : Int} (h0 : 0 ≤ base0) (hn : NodupIds orig) (hal : ∀ o ∈ orig, 0 < o.align) :
    ∀ (keys done : List Nat) (st st' : List Obj × Int), Inv orig base0 done st → (done ++ keys).Nodup →
      keys.foldlM (allocateFor sp) st = some st' → Inv orig base0 (done ++ keys) st'
  | [], done, st, st', hI, _, h => by
    simp only [List.foldlM_nil, Option.pure_def, Option.some.injEq] at h
    subst h; simpa using hI
  | k :: keys, done, st, st', hI, hnd, h => by
    simp only [List.foldlM_cons, Option.bind_eq_bind, Option.bind_eq_some_iff] at h
    obtain ⟨s1, h1, h2⟩ := h
    have hk : k ∉ done := by
      have := List.nodup_append.1 hnd
      intro hc
      exact this.2.2 k hc k (by simp) rfl
    have := foldlM_inv h0 hn hal keys (done ++ [k]) s1 st' (allocateFor_inv h0 hn hal hI h1) (by simpa using hnd) h2
    simpa using this

theorem foldlM_some {orig : List Obj} {base0 sp : Int} (h0 : 0 ≤ base0) (hn : NodupIds orig)
    (hal : ∀ o ∈ orig, 0 < o.align ∧ (o.align : Int) ≤ sp) :
    ∀ (keys done : List Nat) (st : List Obj × Int), Inv orig base0 done st → (done ++ keys).Nodup →
      (∀ k ∈ keys, k ∈ orig.map Obj.id) → ∃ st', keys.foldlM (allocateFor sp) st = some st'
  | [], done, st, hI, _, _ => ⟨st, rfl⟩
  | k :: keys, done, st, hI, hnd, hmem => by
    have hk : k ∉ done := by
      have := List.nodup_append.1 hnd
      intro hc
      exact this.2.2 k hc k (by simp) rfl
    have : k ∈ st.1.map Obj.id := by rw [ids_of_fixed hI.fixed]; exact hmem k (by simp)
    obtain ⟨o, ho, hoid⟩ := List.mem_map.1 this
    have hf : ∃ o', lookup st.1 k = some o' := by
      unfold lookup
      rw [← Option.isSome_iff_exists, List.find?_isSome]
      exact ⟨o, ho, by simp [hoid]⟩
    obtain ⟨o', ho'⟩ := hf
    have hom : o' ∈ st.1 := List.mem_of_find?_eq_some ho'
    obtain ⟨p, hp, hpf⟩ := mem_of_fixed hI.fixed hom
    have e : p.align = o'.align := by have := congrArg (fun x => x.2.2.1) hpf; simpa [Obj.fixed] using this
    obtain ⟨a1, a2⟩ := hal p hp
    obtain ⟨b, hb⟩ := alignTo_some (sp := sp) (a := (o'.align : Int)) (base := st.2) (by omega) (by omega)
    have hs : allocateFor sp st k = some (setOffset st.1 k b, b + o'.size) := by
      unfold allocateFor; rw [ho']; simp [hb]
    obtain ⟨st', e'⟩ := foldlM_some h0 hn hal keys (done ++ [k]) _
      (allocateFor_inv h0 hn (fun o ho => (hal o ho).1) hI hs) (by simpa using hnd) (fun k' hk' => hmem k' (by simp [hk']))
    exact ⟨st', by simp only [List.foldlM_cons, Option.bind_eq_bind, hs, Option.bind_some]; exact e'⟩

theorem keys_perm (objs : List Obj) : (calleeSavedKeys objs).Perm ((objs.filter fun o => o.usage = .calleeSaved).map Obj.id) :=
  List.mergeSort_perm _ _

theorem keys_nodup {objs : List Obj} (hn : NodupIds objs) : (calleeSavedKeys objs ++ localKeys objs).Nodup := by
  rw [List.nodup_append]
  refine ⟨?_, ?_, ?_⟩
  · rw [(keys_perm objs).nodup_iff]
    exact List.Nodup.sublist (List.Sublist.map _ List.filter_sublist) hn
  · exact List.Nodup.sublist (List.Sublist.map _ List.filter_sublist) hn
  · intro a ha b hb e
    rw [(keys_perm objs).mem_iff] at ha
    unfold localKeys at hb
    simp only [List.mem_map, List.mem_filter, decide_eq_true_eq] at ha hb
    obtain ⟨x, ⟨hx, hxu⟩, rfl⟩ := ha
    obtain ⟨y, ⟨hy, hyu⟩, rfl⟩ := hb
    have := nodup_eq hn hx hy e
    subst this
    rw [hxu] at hyu
    simp at hyu

theorem mem_keys {objs : List Obj} (hn : NodupIds objs) {o : Obj} (ho : o ∈ objs) :
    o.id ∈ calleeSavedKeys objs ++ localKeys objs ↔ o.usage.placed := by
  rw [List.mem_append, (keys_perm objs).mem_iff]
  unfold localKeys
  simp only [List.mem_map, List.mem_filter, decide_eq_true_eq]
  constructor
  · rintro (⟨x, ⟨hx, hu⟩, e⟩ | ⟨x, ⟨hx, hu⟩, e⟩)
    · have := nodup_eq hn hx ho e
      subst this; rw [hu]; trivial
    · have := nodup_eq hn hx ho e
      subst this; rcases hu with hu | hu <;> rw [hu] <;> trivial
  · intro h
    cases hu : o.usage <;> rw [hu] at h
    · exact absurd h (by simp [Usage.placed])
    · exact absurd h (by simp [Usage.placed])
    · exact Or.inr ⟨o, ⟨ho, Or.inl hu⟩, rfl⟩
    · exact Or.inr ⟨o, ⟨ho, Or.inr hu⟩, rfl⟩
    · exact Or.inl ⟨o, ⟨ho, hu⟩, rfl⟩

theorem roundGap {sp pre : Int} (hsp : 0 < sp) (hpre : 0 ≤ pre) :
    0 ≤ (pre + sp - 1).tdiv sp * sp - pre ∧ sp ∣ (pre + sp - 1).tdiv sp * sp := by
  refine ⟨?_, ⟨_, Int.mul_comm _ _⟩⟩
  rw [Int.tdiv_eq_ediv_of_nonneg (by omega)]
  have h1 := Int.mul_ediv_add_emod (pre + sp - 1) sp
  have h2 := Int.emod_lt_of_pos (pre + sp - 1) hsp
  rw [Int.mul_comm] at h1
  omega

/-- C18, definedness: if every object has a positive alignment not above the stack alignment, allocation succeeds (no `assert`
fails). -/
theorem C18_defined {sp pre : Int} (hsp : 0 < sp) (hpre : 0 ≤ pre) (objs : List Obj) (hn : NodupIds objs)
    (hal : ∀ o ∈ objs, 0 < o.align ∧ (o.align : Int) ≤ sp) : ∃ r, allocateStackObjects sp pre objs = some r := by
  obtain ⟨base, hb⟩ := alignTo_some (base := calleeArgTop objs) hsp (le_refl sp)
  have h0 := (calleeArgTop_aux objs 0).1
  obtain ⟨b1, _, _⟩ := alignTo_spec hsp h0 hb
  have hb0 : 0 ≤ base := le_trans h0 b1
  have hI : Inv objs base [] (objs, base) := ⟨rfl, le_refl _, fun o h _ => h, by simp, by simp⟩
  have hmem : ∀ k ∈ calleeSavedKeys objs ++ localKeys objs, k ∈ objs.map Obj.id := by
    intro k hk
    rw [List.mem_append, (keys_perm objs).mem_iff] at hk
    unfold localKeys at hk
    simp only [List.mem_map, List.mem_filter] at hk ⊢
    rcases hk with ⟨x, ⟨hx, _⟩, e⟩ | ⟨x, ⟨hx, _⟩, e⟩ <;> exact ⟨x, hx, e⟩
  obtain ⟨s2, hs2⟩ := foldlM_some hb0 hn hal (calleeSavedKeys objs ++ localKeys objs) [] (objs, base) hI
    (by simpa using keys_nodup hn) hmem
  have hI2 := foldlM_inv hb0 hn (fun o ho => (hal o ho).1) _ _ _ _ hI (by simpa using keys_nodup hn) hs2
  rw [List.foldlM_append] at hs2
  simp only [Option.bind_eq_bind, Option.bind_eq_some_iff] at hs2
  obtain ⟨s1, e1, e2⟩ := hs2
  obtain ⟨top, ht⟩ := alignTo_some (base := s2.2) hsp (le_refl sp)
  obtain ⟨_, t2, _⟩ := alignTo_spec hsp (le_trans hb0 hI2.le) ht
  have hz : (top + ((pre + sp - 1).tdiv sp * sp - pre) + pre).tmod sp = 0 := by
    have : top + ((pre + sp - 1).tdiv sp * sp - pre) + pre = top + (pre + sp - 1).tdiv sp * sp := by omega
    rw [this]
    exact Int.tmod_eq_zero_of_dvd (Int.dvd_add t2 (roundGap hsp hpre).2)
  unfold allocateStackObjects
  simp only [hb, e1, e2, ht, hz, Option.bind_eq_bind, Option.bind_some, if_true]
  exact ⟨_, rfl⟩

/-- C18. For every set of stack objects with distinct keys and positive alignments, when allocation succeeds with frame size `F`
(plus `pre` bytes pushed by the prologue):
* ids, sizes, alignments and usages are unchanged, in the same order;
* every local, spill and callee-saved object lies above every outgoing (callee) argument, inside `[0, F)`, at a multiple of its
  alignment, and no two of them overlap;
* outgoing arguments keep their offset; incoming arguments are shifted by exactly the total frame, so that they denote the same
  address after `sp` has been lowered by `F + pre`;
* the total frame `F + pre` is a multiple of the stack alignment and every outgoing argument fits below the locals. -/
theorem C18_slots {sp pre F : Int} (hsp : 0 < sp) (hpre : 0 ≤ pre) {objs out : List Obj} (hn : NodupIds objs)
    (hal : ∀ o ∈ objs, 0 < o.align) (h : allocateStackObjects sp pre objs = some (out, F)) :
    out.map Obj.fixed = objs.map Obj.fixed ∧
    (∀ o ∈ out, o.usage.placed → 0 ≤ o.offset ∧ (o.align : Int) ∣ o.offset ∧ o.offset + o.size ≤ F ∧
      ∀ a ∈ objs, a.usage = .calleeArgument → a.offset + a.size ≤ o.offset) ∧
    (∀ o ∈ out, ∀ o' ∈ out, o.usage.placed → o'.usage.placed → o.id ≠ o'.id → Disjoint o o') ∧
    (∀ o ∈ out, o.usage = .calleeArgument → o ∈ objs) ∧
    (∀ o ∈ out, o.usage = .argument → ∃ p ∈ objs, p.fixed = o.fixed ∧ o.offset = p.offset + (F + pre)) ∧
    sp ∣ F + pre ∧ 0 ≤ F ∧ (∀ a ∈ objs, a.usage = .calleeArgument → a.offset + a.size ≤ F) := by
  unfold allocateStackObjects at h
  simp only [Option.bind_eq_bind, Option.bind_eq_some_iff, Option.pure_def] at h
  obtain ⟨base, hb, s1, e1, s2, e2, top, ht, h⟩ := h
  split at h <;> [skip; simp at h]
  rename_i hz
  simp only [Option.some.injEq, Prod.mk.injEq] at h
  obtain ⟨hout, hF⟩ := h
  obtain ⟨h0, h0'⟩ := calleeArgTop_aux objs 0
  obtain ⟨b1, _, _⟩ := alignTo_spec hsp h0 hb
  have hb0 : 0 ≤ base := le_trans h0 b1
  have hI : Inv objs base [] (objs, base) := ⟨rfl, le_refl _, fun o h _ => h, by simp, by simp⟩
  have hfold : (calleeSavedKeys objs ++ localKeys objs).foldlM (allocateFor sp) (objs, base) = some s2 := by
    rw [List.foldlM_append]; simp [e1, e2]
  have hI2 := foldlM_inv hb0 hn hal _ _ _ _ hI (by simpa using keys_nodup hn) hfold
  rw [List.nil_append] at hI2
  obtain ⟨t1, t2, _⟩ := alignTo_spec hsp (le_trans hb0 hI2.le) ht
  obtain ⟨g1, g2⟩ := roundGap hsp hpre
  have htop : top ≤ F := by omega
  have hmemk : ∀ o ∈ s2.1, (o.id ∈ calleeSavedKeys objs ++ localKeys objs ↔ o.usage.placed) := by
    intro o ho
    obtain ⟨p, hp, hpf⟩ := mem_of_fixed hI2.fixed ho
    have ei : p.id = o.id := by have := congrArg (fun x => x.1) hpf; simpa [Obj.fixed] using this
    have eu : p.usage = o.usage := by have := congrArg (fun x => x.2.2.2) hpf; simpa [Obj.fixed] using this
    rw [← ei, ← eu]; exact mem_keys hn hp
  have hback : ∀ q ∈ out, (q.usage ≠ .argument ∧ q ∈ s2.1) ∨
      (q.usage = .argument ∧ ∃ r ∈ s2.1, r.usage = .argument ∧ q = { r with offset := r.offset + (F + pre) }) := by
    intro q hq
    rw [← hout] at hq
    obtain ⟨r, hr, rfl⟩ := List.mem_map.1 hq
    split
    · rename_i e; exact Or.inr ⟨e, r, hr, e, by rw [hF]⟩
    · rename_i e; exact Or.inl ⟨e, hr⟩
  have hplaced : ∀ q ∈ out, q.usage.placed → q ∈ s2.1 := by
    intro q hq hp
    rcases hback q hq with ⟨_, h⟩ | ⟨e, _⟩
    · exact h
    · rw [e] at hp; exact absurd hp (by simp [Usage.placed])
  refine ⟨?_, ?_, ?_, ?_, ?_, ?_, ?_, ?_⟩
  · rw [← hout, List.map_map, ← hI2.fixed]
    apply List.map_congr_left
    intro o _
    simp only [Function.comp]
    split <;> rfl
  · intro o ho hp
    have hos := hplaced o ho hp
    obtain ⟨x, y, z⟩ := hI2.placed o hos ((hmemk o hos).2 hp)
    refine ⟨by omega, y, by omega, ?_⟩
    intro a ha hu
    have := h0' a ha hu
    have b1 : List.foldl (fun (b : Int) o => if o.usage = .calleeArgument then max b (o.offset + o.size) else b) 0 objs ≤ base := b1
    omega
  · intro o ho o' ho' hp hp' hne
    exact hI2.disj o (hplaced o ho hp) o' (hplaced o' ho' hp') ((hmemk o (hplaced o ho hp)).2 hp) ((hmemk o' (hplaced o' ho' hp')).2 hp') hne
  · intro o ho hu
    rcases hback o ho with ⟨_, h⟩ | ⟨e, _⟩
    · refine hI2.untouched o h ?_
      rw [hmemk o h, hu]; simp [Usage.placed]
    · rw [hu] at e; simp at e
  · intro o ho hu
    rcases hback o ho with ⟨e, _⟩ | ⟨_, r, hr, hru, rfl⟩
    · exact absurd hu e
    · refine ⟨r, hI2.untouched r hr ?_, rfl, rfl⟩
      rw [hmemk r hr, hru]; simp [Usage.placed]
  · have : F + pre = top + (pre + sp - 1).tdiv sp * sp := by omega
    rw [this]; exact Int.dvd_add t2 g2
  · have := hI2.le; omega
  · intro a ha hu
    have := h0' a ha hu
    have := hI2.le
    have b1 : List.foldl (fun (b : Int) o => if o.usage = .calleeArgument then max b (o.offset + o.size) else b) 0 objs ≤ base := b1
    omega

def exFrame : List Obj :=
  [⟨1, 4, 4, 0, .calleeArgument⟩, ⟨2, 4, 4, 4, .calleeArgument⟩, ⟨3, 1, 1, 0, .local⟩, ⟨4, 8, 8, 0, .regSpill⟩,
   ⟨5, 8, 8, 0, .calleeSaved⟩, ⟨6, 8, 8, 0, .calleeSaved⟩, ⟨7, 4, 4, 0, .argument⟩]

/-- a frame meeting the hypotheses -/
example : ∃ out F, allocateStackObjects 16 8 exFrame = some (out, F) := by
  obtain ⟨⟨out, F⟩, h⟩ := C18_defined (sp := 16) (pre := 8) (by decide) (by decide) exFrame (by unfold NodupIds; decide) (by decide)
  exact ⟨out, F, h⟩

/-- An object whose alignment exceeds the stack alignment makes the `assert` of `alignTo` fail. This happens for an 8-aligned local in
a leaf function on the MIPS and ARM targets, whose `getStackPointerAlignment(false)` is 4 (MIPSTarget.cpp:103, ARMTarget.cpp:78). -/
theorem C18_overaligned_local_fails : allocateStackObjects 4 0 [⟨1, 8, 8, 0, .local⟩] = none := by
  have h1 : calleeSavedKeys [⟨1, 8, 8, 0, .local⟩] = [] := by simp [calleeSavedKeys]
  unfold allocateStackObjects
  rw [h1]
  rfl

end Cmmc.Frame
