import Verif.Support.IList
/-!
# C14: intrusive lists behave like sequences

Specification: a family of sequences of items and the set of existing items (`Abs`), changed by the list operations in the
obvious way (`AStep`). The theorem says that the pointer implementation, run on any history of operations that is legal for the
sequences, never hits undefined behaviour, always terminates, and every observation (size, forward iteration, backward
iteration, front, back, which items still exist) agrees with the sequences. Several lists share the memory, so items may be moved
between lists with `erase(node, false)` and `insert`.
-/
namespace Cmmc.IList

/-- a position: an item, or `end()` -/
abbrev Pos := Option Nat

inductive Op (ι : Type)
  | create (x : Nat)
  | insert (i : ι) (pos : Pos) (x : Nat)
  | erase (i : ι) (x : Nat) (destroy : Bool)
  | eraseRange (i : ι) (beg last : Pos)
  | popFront (i : ι)
  | popBack (i : ι)
  | removeIf (i : ι) (p : Nat → Bool)
  | clear (i : ι)

/-! ## Specification: sequences -/

structure Abs (ι : Type) where
  lists : ι → List Nat
  exists_ : Nat → Prop

def upd {ι : Type} [DecidableEq ι] {β : Type} (f : ι → β) (i : ι) (b : β) : ι → β := fun j => if j = i then b else f j

section
variable {ι : Type} [DecidableEq ι]

/-- what each operation means for the sequences, and when it is legal. `reserved` are the addresses of the list objects'
sentinels, which no item can have. -/
inductive AStep (reserved : Nat → Prop) : Abs ι → Op ι → Abs ι → Prop
  | create (s : Abs ι) (x : Nat) (h : ¬ s.exists_ x) (hr : ¬ reserved x) :
      AStep reserved s (.create x) ⟨s.lists, fun y => y = x ∨ s.exists_ y⟩
  | insert (s : Abs ι) (i : ι) (xs ys : List Nat) (x : Nat) (h : s.lists i = xs ++ ys) (hx : s.exists_ x)
      (hn : ∀ j, x ∉ s.lists j) (hlen : (s.lists i).length < 2147483647) :
      AStep reserved s (.insert i ys.head? x) ⟨upd s.lists i (xs ++ x :: ys), s.exists_⟩
  | erase (s : Abs ι) (i : ι) (xs ys : List Nat) (x : Nat) (destroy : Bool) (h : s.lists i = xs ++ x :: ys) :
      AStep reserved s (.erase i x destroy)
        ⟨upd s.lists i (xs ++ ys), fun y => s.exists_ y ∧ ¬ (destroy = true ∧ y = x)⟩
  | eraseRange (s : Abs ι) (i : ι) (xs ys zs : List Nat) (h : s.lists i = xs ++ ys ++ zs) :
      AStep reserved s (.eraseRange i (ys ++ zs).head? zs.head?)
        ⟨upd s.lists i (xs ++ zs), fun y => s.exists_ y ∧ y ∉ ys⟩
  | popFront (s : Abs ι) (i : ι) (x : Nat) (xs : List Nat) (h : s.lists i = x :: xs) :
      AStep reserved s (.popFront i) ⟨upd s.lists i xs, fun y => s.exists_ y ∧ y ≠ x⟩
  | popBack (s : Abs ι) (i : ι) (x : Nat) (xs : List Nat) (h : s.lists i = xs ++ [x]) :
      AStep reserved s (.popBack i) ⟨upd s.lists i xs, fun y => s.exists_ y ∧ y ≠ x⟩
  | removeIf (s : Abs ι) (i : ι) (p : Nat → Bool) :
      AStep reserved s (.removeIf i p)
        ⟨upd s.lists i ((s.lists i).filter (fun x => !p x)), fun y => s.exists_ y ∧ ¬ (y ∈ s.lists i ∧ p y = true)⟩
  | clear (s : Abs ι) (i : ι) :
      AStep reserved s (.clear i) ⟨upd s.lists i [], fun y => s.exists_ y ∧ y ∉ s.lists i⟩

/-! ## Implementation -/

structure Conc (ι : Type) where
  mem : Mem
  objs : ι → LObj

def posPtr (L : LObj) : Pos → Nat
  | none => L.tail
  | some a => a

def wrap (s : Conc ι) (i : ι) (r : Option (Mem × LObj)) : Option (Conc ι) := r.map fun p => ⟨p.1, upd s.objs i p.2⟩

/-- run one operation of the implementation -/
def exec (s : Conc ι) : Op ι → Option (Conc ι)
  | .create x => some { s with mem := setCell s.mem x ⟨0, 0, 0⟩ }
  | .insert i pos x => wrap s i (insert s.mem (s.objs i) (posPtr (s.objs i) pos) x)
  | .erase i x d => wrap s i (erase s.mem (s.objs i) x d)
  | .eraseRange i b e => wrap s i (eraseRange s.mem (s.objs i) (posPtr (s.objs i) b) (posPtr (s.objs i) e))
  | .popFront i => wrap s i (popFront s.mem (s.objs i))
  | .popBack i => wrap s i (popBack s.mem (s.objs i))
  | .removeIf i p => wrap s i (removeIf p s.mem (s.objs i))
  | .clear i => wrap s i (clear s.mem (s.objs i))

def execAll (s : Conc ι) : List (Op ι) → Option (Conc ι)
  | [] => some s
  | o :: os => (exec s o).bind fun s' => execAll s' os

/-- a history of operations and its effect on the sequences -/
inductive ARun (reserved : Nat → Prop) : Abs ι → List (Op ι) → Abs ι → Prop
  | nil (s) : ARun reserved s [] s
  | cons {s s' s'' o os} : AStep reserved s o s' → ARun reserved s' os s'' → ARun reserved s (o :: os) s''

/-- the addresses of the sentinels -/
def Reserved (heads tails : ι → Nat) (a : Nat) : Prop := a = 0 ∨ ∃ i, a = heads i ∨ a = tails i

/-- freshly constructed lists (IntrusiveList.hpp:134): memory contains exactly the sentinels, linked to each other -/
def Fresh (heads tails : ι → Nat) (s : Conc ι) : Prop :=
  (∀ i, (s.objs i).head = heads i ∧ (s.objs i).tail = tails i ∧ (s.objs i).count = 0 ∧
    s.mem (heads i) = some ⟨0, tails i, 0⟩ ∧ s.mem (tails i) = some ⟨heads i, 0, 0⟩) ∧
  (∀ i, heads i ≠ tails i) ∧ (∀ i j, i ≠ j → heads i ≠ heads j ∧ heads i ≠ tails j ∧ tails i ≠ tails j) ∧
  ∀ a, ¬ Reserved heads tails a → s.mem a = none

structure R (heads tails : ι → Nat) (s : Abs ι) (c : Conc ι) : Prop where
  addr : ∀ i, (c.objs i).head = heads i ∧ (c.objs i).tail = tails i
  rep : ∀ i, Rep c.mem (c.objs i) (s.lists i)
  disj : ∀ i j, i ≠ j → ∀ a ∈ full (c.objs i) (s.lists i), a ∉ full (c.objs j) (s.lists j)
  mem : ∀ i, ∀ a ∈ s.lists i, s.exists_ a
  ex : ∀ a, s.exists_ a → (c.mem a).isSome ∧ ¬ Reserved heads tails a
  nex : ∀ a, ¬ s.exists_ a → ¬ Reserved heads tails a → c.mem a = none

theorem full_congr {L L' : LObj} (h1 : L'.head = L.head) (h2 : L'.tail = L.tail) (xs : List Nat) : full L' xs = full L xs := by
  unfold full; rw [h1, h2]

theorem R.notin {heads tails : ι → Nat} {s : Abs ι} {c : Conc ι} (r : R heads tails s c) {x : Nat} (hx : s.exists_ x)
    (i : ι) (h : x ∉ s.lists i) : x ∉ full (c.objs i) (s.lists i) := by
  unfold full
  simp only [List.mem_cons, List.mem_append, not_or, List.not_mem_nil, not_false_eq_true, and_true]
  refine ⟨?_, h, ?_⟩
  · rintro rfl; exact (r.ex _ hx).2 (Or.inr ⟨i, Or.inl (r.addr i).1⟩)
  · rintro rfl; exact (r.ex _ hx).2 (Or.inr ⟨i, Or.inr (r.addr i).2⟩)

/-- common step: list `i` changes from `old` to `new`, only cells of the old list and `extra` change -/
theorem R.update {heads tails : ι → Nat} {s : Abs ι} {c : Conc ι} (r : R heads tails s c) (i : ι) (m' : Mem) (L' : LObj)
    (new : List Nat) (ex' : Nat → Prop) (hL : L'.head = (c.objs i).head ∧ L'.tail = (c.objs i).tail)
    (rep : Rep m' L' new) (extra : Nat → Prop)
    (hextra : ∀ a, extra a → s.exists_ a ∧ ∀ j, a ∉ s.lists j)
    (hnew : ∀ a ∈ new, a ∈ s.lists i ∨ extra a)
    (frame : ∀ a, a ∉ full (c.objs i) (s.lists i) → ¬ extra a → m' a = c.mem a)
    (hex1 : ∀ a, ex' a → s.exists_ a) (hexnew : ∀ a ∈ new, ex' a)
    (hex2 : ∀ a, s.exists_ a → ¬ ex' a → a ∈ s.lists i ∧ m' a = none)
    (hex3 : ∀ a, ex' a → a ∈ s.lists i ∨ extra a → (m' a).isSome) :
    R heads tails ⟨upd s.lists i new, ex'⟩ ⟨m', upd c.objs i L'⟩ := by
  have hfull : ∀ a ∈ full L' new, a ∈ full (c.objs i) (s.lists i) ∨ extra a := by
    intro a ha
    rw [full_congr hL.1 hL.2] at ha
    simp only [full, List.mem_cons, List.mem_append] at ha ⊢
    rcases ha with h | h | h
    · tauto
    · rcases hnew a h with h | h <;> tauto
    · tauto
  have hoth : ∀ j, j ≠ i → ∀ a ∈ full (c.objs j) (s.lists j), a ∉ full (c.objs i) (s.lists i) ∧ ¬ extra a := by
    intro j hj a ha
    refine ⟨r.disj j i hj a ha, fun he => ?_⟩
    obtain ⟨h1, h2⟩ := hextra a he
    exact r.notin h1 j (h2 j) ha
  constructor
  · intro j
    show (upd c.objs i L' j).head = _ ∧ (upd c.objs i L' j).tail = _
    unfold upd
    split
    · rename_i h; subst h; rw [hL.1, hL.2]; exact r.addr j
    · exact r.addr j
  · intro j
    show Rep m' (upd c.objs i L' j) (upd s.lists i new j)
    unfold upd
    split
    · exact rep
    · rename_i hj
      refine (r.rep j).congr ?_
      intro a ha
      obtain ⟨h1, h2⟩ := hoth j hj a ha
      exact frame a h1 h2
  · intro j k hjk a ha hb
    have ha : a ∈ full (upd c.objs i L' j) (upd s.lists i new j) := ha
    have hb : a ∈ full (upd c.objs i L' k) (upd s.lists i new k) := hb
    unfold upd at ha hb
    split at ha <;> split at hb
    · rename_i h1 h2; exact hjk (h1.trans h2.symm)
    · rename_i h1 h2
      obtain ⟨h3, h4⟩ := hoth k h2 a hb
      rcases hfull a ha with h | h
      · exact h3 h
      · exact h4 h
    · rename_i h1 h2
      obtain ⟨h3, h4⟩ := hoth j h1 a ha
      rcases hfull a hb with h | h
      · exact h3 h
      · exact h4 h
    · exact r.disj j k hjk a ha hb
  · intro j a ha
    have ha : a ∈ upd s.lists i new j := ha
    show ex' a
    unfold upd at ha
    split at ha
    · exact hexnew a ha
    · rename_i hj
      by_cases he : ex' a
      · exact he
      · have := (hex2 a (r.mem j a ha) he).1
        exact absurd (by simp [full, this]) (r.disj j i hj a (by simp [full, ha]))
  · intro a ha
    have hs := hex1 a ha
    refine ⟨?_, (r.ex a hs).2⟩
    by_cases h : a ∈ s.lists i ∨ extra a
    · exact hex3 a ha h
    · simp only [not_or] at h
      show (m' a).isSome
      rw [frame a (r.notin hs i h.1) h.2]
      exact (r.ex a hs).1
  · intro a ha hr
    show m' a = none
    by_cases hs : s.exists_ a
    · exact (hex2 a hs ha).2
    · rw [frame a ?_ ?_]
      · exact r.nex a hs hr
      · intro h
        simp only [full, List.mem_cons, List.mem_append, List.not_mem_nil, or_false] at h
        rcases h with h | h | h
        · exact hr (Or.inr ⟨i, Or.inl (h.trans (r.addr i).1)⟩)
        · exact hs (r.mem i a h)
        · exact hr (Or.inr ⟨i, Or.inr (h.trans (r.addr i).2)⟩)
      · intro h; exact hs (hextra a h).1

theorem posPtr_head (L : LObj) (ys : List Nat) : posPtr L ys.head? = (ys ++ [L.tail]).head (by simp) := by
  cases ys <;> rfl

theorem rep_alive {m : Mem} {L : LObj} {xs : List Nat} (h : Rep m L xs) {a : Nat} (ha : a ∈ xs) : (m a).isSome :=
  h.alive a (by simp [full, ha])

theorem list_nodup {m : Mem} {L : LObj} {xs : List Nat} (h : Rep m L xs) : xs.Nodup := by
  have := h.nodup
  unfold full at this
  rw [List.nodup_cons] at this
  exact (List.nodup_append.mp this.2).1

theorem sim_erase {heads tails : ι → Nat} {s : Abs ι} {c : Conc ι} (r : R heads tails s c) (i : ι) (xs ys : List Nat) (x : Nat)
    (d : Bool) (h : s.lists i = xs ++ x :: ys) :
    ∃ c', wrap c i (erase c.mem (c.objs i) x d) = some c' ∧
      R heads tails ⟨upd s.lists i (xs ++ ys), fun y => s.exists_ y ∧ ¬ (d = true ∧ y = x)⟩ c' := by
  have hr := r.rep i
  rw [h] at hr
  have hr' : Rep c.mem (c.objs i) (xs ++ [x] ++ ys) := by simpa using hr
  have hnd := list_nodup hr
  obtain ⟨m', e, rep, fr, d1, d2⟩ := erase_spec hr' d
  refine ⟨_, by unfold wrap; rw [e]; rfl, ?_⟩
  have hxn : x ∉ xs ++ ys := by
    rw [List.nodup_append] at hnd
    simp only [List.nodup_cons, List.mem_append] at hnd ⊢
    rintro (h' | h')
    · exact hnd.2.2 x h' x (by simp) rfl
    · exact hnd.2.1.1 h'
  have hsub : ∀ a ∈ xs ++ ys, a ∈ s.lists i := by
    intro a ha
    rw [h]
    simp only [List.mem_append, List.mem_cons] at ha ⊢; tauto
  refine r.update i m' _ _ _ ⟨rfl, rfl⟩ rep (fun _ => False) (fun _ h => h.elim) (fun a ha => Or.inl (hsub a ha)) ?_ ?_ ?_ ?_ ?_
  · intro a ha _
    rw [h] at ha
    exact fr a (by simpa using ha)
  · intro a ha; exact ha.1
  · intro a ha
    refine ⟨r.mem i a (hsub a ha), ?_⟩
    rintro ⟨_, rfl⟩
    exact hxn ha
  · intro a hs hn
    have : d = true ∧ a = x := by
      by_cases hq : d = true ∧ a = x
      · exact hq
      · exact absurd ⟨hs, hq⟩ hn
    obtain ⟨hd, rfl⟩ := this
    exact ⟨by rw [h]; simp, d1 hd⟩
  · rintro a ⟨hs, hn⟩ (ha | ha)
    · by_cases hax : a = x
      · subst hax
        have hd : d = false := by
          cases d
          · rfl
          · exact absurd ⟨rfl, rfl⟩ hn
        rw [d2 hd]; exact rep_alive (r.rep i) ha
      · apply rep_alive rep
        rw [h] at ha
        simp only [List.mem_append, List.mem_cons] at ha ⊢; tauto
    · exact ha.elim

theorem sim_eraseRange {heads tails : ι → Nat} {s : Abs ι} {c : Conc ι} (r : R heads tails s c) (i : ι) (xs ys zs : List Nat)
    (h : s.lists i = xs ++ ys ++ zs) :
    ∃ c', wrap c i (eraseRange c.mem (c.objs i) (posPtr (c.objs i) (ys ++ zs).head?) (posPtr (c.objs i) zs.head?)) = some c' ∧
      R heads tails ⟨upd s.lists i (xs ++ zs), fun y => s.exists_ y ∧ y ∉ ys⟩ c' := by
  have hr := r.rep i
  rw [h] at hr
  have hr1 : Rep c.mem (c.objs i) (xs ++ (ys ++ zs)) := by simpa using hr
  have hr2 : Rep c.mem (c.objs i) (xs ++ ys.reverse.reverse ++ zs) := by simpa using hr
  obtain ⟨m', e, rep, fr, d1⟩ := eraseLoop_spec ys.reverse hr2
  obtain ⟨cb, hcb, eb⟩ := pv_some hr1.link.2
  have ee : eraseRange c.mem (c.objs i) (posPtr (c.objs i) (ys ++ zs).head?) (posPtr (c.objs i) zs.head?) =
      some (m', { c.objs i with count := (c.objs i).count - ys.reverse.length }) := by
    unfold eraseRange
    rw [posPtr_head, posPtr_head, hcb]
    simp only [Option.bind_some]
    rw [eb]; exact e
  refine ⟨_, by unfold wrap; rw [ee]; rfl, ?_⟩
  have hnd := list_nodup hr
  have hsub : ∀ a ∈ xs ++ zs, a ∈ s.lists i := by
    intro a ha
    rw [h]
    simp only [List.mem_append] at ha ⊢; tauto
  have hdis : ∀ a ∈ xs ++ zs, a ∉ ys := by
    intro a ha hy
    rw [List.append_assoc, List.nodup_append, List.nodup_append] at hnd
    rcases List.mem_append.mp ha with h' | h'
    · exact hnd.2.2 a h' a (by simp [hy]) rfl
    · exact hnd.2.1.2.2 a hy a h' rfl
  refine r.update i m' _ _ _ ⟨rfl, rfl⟩ rep (fun _ => False) (fun _ h => h.elim) (fun a ha => Or.inl (hsub a ha)) ?_ ?_ ?_ ?_ ?_
  · intro a ha _
    rw [h] at ha
    exact fr a (by simpa using ha)
  · intro a ha; exact ha.1
  · intro a ha; exact ⟨r.mem i a (hsub a ha), hdis a ha⟩
  · intro a hs hn
    have : a ∈ ys := by
      by_cases hq : a ∈ ys
      · exact hq
      · exact absurd ⟨hs, hq⟩ hn
    exact ⟨by rw [h]; simp [this], d1 a (by simpa using this)⟩
  · rintro a ⟨hs, hn⟩ (ha | ha)
    · apply rep_alive rep
      rw [h] at ha
      simp only [List.mem_append] at ha ⊢; tauto
    · exact ha.elim

theorem upd_eq {β : Type} (f : ι → β) (i : ι) (b : β) : upd f i b i = b := by simp [upd]

theorem sim {heads tails : ι → Nat} {s s' : Abs ι} {c : Conc ι} {o : Op ι} (r : R heads tails s c)
    (h : AStep (Reserved heads tails) s o s') : ∃ c', exec c o = some c' ∧ R heads tails s' c' := by
  cases h with
  | create x h hres =>
    refine ⟨_, rfl, r.addr, ?_, r.disj, ?_, ?_, ?_⟩
    · intro i
      refine (r.rep i).congr ?_
      intro a ha
      apply setCell_ne
      rintro rfl
      simp only [full, List.mem_cons, List.mem_append, List.not_mem_nil, or_false] at ha
      rcases ha with ha | ha | ha
      · exact hres (Or.inr ⟨i, Or.inl (ha.trans (r.addr i).1)⟩)
      · exact h (r.mem i a ha)
      · exact hres (Or.inr ⟨i, Or.inr (ha.trans (r.addr i).2)⟩)
    · intro i a ha; exact Or.inr (r.mem i a ha)
    · rintro a (rfl | ha)
      · exact ⟨by simp [setCell], hres⟩
      · refine ⟨?_, (r.ex a ha).2⟩
        show (setCell c.mem x _ a).isSome
        unfold setCell; split
        · rfl
        · exact (r.ex a ha).1
    · intro a ha hra
      simp only [not_or] at ha
      show setCell c.mem x _ a = none
      rw [setCell_ne ha.1]
      exact r.nex a ha.2 hra
  | insert i xs ys x h hx hn hlen =>
    have hr := r.rep i
    have hnf := r.notin hx i (hn i)
    rw [h] at hr hlen hnf
    obtain ⟨m', e, rep, fr, hal⟩ := insert_spec hr (r.ex x hx).1 hnf hlen
    refine ⟨_, by show wrap c i (insert _ _ _ _) = _; rw [posPtr_head]; unfold wrap; rw [e]; rfl, ?_⟩
    refine r.update i m' _ _ _ ⟨rfl, rfl⟩ rep (fun a => a = x) ?_ ?_ ?_ ?_ ?_ ?_ ?_
    · rintro a rfl; exact ⟨hx, hn⟩
    · intro a ha
      rw [h]
      simp only [List.mem_append, List.mem_cons] at ha ⊢; tauto
    · intro a ha hax
      apply fr
      rw [h] at ha
      simp only [full, List.mem_append, List.mem_cons] at ha ⊢
      tauto
    · intro a ha; exact ha
    · intro a ha
      by_cases hax : a = x
      · subst hax; exact hx
      · apply r.mem i
        rw [h]
        simp only [List.mem_append, List.mem_cons] at ha ⊢; tauto
    · intro a h1 h2; exact absurd h1 h2
    · rintro a ha (h' | rfl)
      · apply rep_alive rep
        rw [h] at h'
        simp only [List.mem_append, List.mem_cons] at h' ⊢; tauto
      · exact hal
  | erase i xs ys x d h => exact sim_erase r i xs ys x d h
  | eraseRange i xs ys zs h => exact sim_eraseRange r i xs ys zs h
  | popFront i x xs h =>
    obtain ⟨c', e, r'⟩ := sim_erase r i [] xs x true (by simpa using h)
    have hr : Rep c.mem (c.objs i) ([] ++ x :: xs) := by have := r.rep i; rw [h] at this; simpa using this
    obtain ⟨cb, hcb, eb⟩ := nx_some hr.link.1
    have hcb : c.mem (c.objs i).head = some cb := hcb
    have hcnt : (c.objs i).count ≠ 0 := by rw [hr.count]; simp only [List.nil_append, List.length_cons]; omega
    refine ⟨c', ?_, ?_⟩
    · show wrap c i (popFront _ _) = _
      unfold popFront front
      rw [if_neg hcnt, hcb]
      simp only [Option.map_some, Option.bind_some]
      rw [eb]; exact e
    · simpa using r'
  | popBack i x xs h =>
    obtain ⟨c', e, r'⟩ := sim_erase r i xs [] x true (by simpa using h)
    have hr : Rep c.mem (c.objs i) ((xs ++ [x]) ++ []) := by have := r.rep i; rw [h] at this; simpa using this
    obtain ⟨cb, hcb, eb⟩ := pv_some hr.link.2
    have hcb : c.mem (c.objs i).tail = some cb := hcb
    have hcnt : (c.objs i).count ≠ 0 := by
      rw [hr.count]; simp only [List.append_nil, List.length_append, List.length_cons]; omega
    have hy : ((c.objs i).head :: (xs ++ [x])).getLast (by simp) = x := by
      rw [List.getLast_cons (by simp)]; simp
    rw [hy] at eb
    refine ⟨c', ?_, ?_⟩
    · show wrap c i (popBack _ _) = _
      unfold popBack back
      rw [if_neg hcnt, hcb]
      simp only [Option.map_some, Option.bind_some]
      rw [eb]; exact e
    · simpa using r'
  | removeIf i p =>
    have hr : Rep c.mem (c.objs i) ((s.lists i).reverse.reverse ++ []) := by simpa using r.rep i
    obtain ⟨m', n, e, rep, fr, d1⟩ := removeLoop_spec (p := p) _ hr
    have hr2 : Rep c.mem (c.objs i) (s.lists i ++ []) := by simpa using r.rep i
    obtain ⟨cb, hcb, eb⟩ := pv_some hr2.link.2
    have hcb : c.mem (c.objs i).tail = some cb := hcb
    simp only [List.reverse_reverse, List.append_nil, List.filter_reverse] at e rep fr
    refine ⟨⟨m', upd c.objs i { c.objs i with count := n }⟩, ?_, ?_⟩
    · show wrap c i (removeIf _ _ _) = _
      unfold removeIf wrap
      rw [hcb]
      simp only [Option.bind_some]
      rw [eb, e]; rfl
    · refine r.update i m' _ _ _ ⟨rfl, rfl⟩ rep (fun _ => False) (fun _ h => h.elim)
        (fun a ha => Or.inl (List.mem_filter.mp ha).1) ?_ ?_ ?_ ?_ ?_
      · intro a ha _; exact fr a ha
      · intro a ha; exact ha.1
      · intro a ha
        obtain ⟨h1, h2⟩ := List.mem_filter.mp ha
        refine ⟨r.mem i a h1, ?_⟩
        rintro ⟨_, h3⟩; rw [h3] at h2; simp at h2
      · intro a hs hn
        have : a ∈ s.lists i ∧ p a = true := by
          by_cases hq : a ∈ s.lists i ∧ p a = true
          · exact hq
          · exact absurd ⟨hs, hq⟩ hn
        exact ⟨this.1, d1 a (by simpa using this.1) this.2⟩
      · rintro a ⟨hs, hn⟩ (ha | ha)
        · apply rep_alive rep
          rw [List.mem_filter]
          refine ⟨ha, ?_⟩
          cases hp : p a
          · rfl
          · exact absurd ⟨ha, hp⟩ hn
        · exact ha.elim
  | clear i =>
    obtain ⟨c', e, r'⟩ := sim_eraseRange r i [] (s.lists i) [] (by simp)
    have hr : Rep c.mem (c.objs i) ([] ++ s.lists i) := by simpa using r.rep i
    obtain ⟨cb, hcb, eb⟩ := nx_some hr.link.1
    have hcb : c.mem (c.objs i).head = some cb := hcb
    refine ⟨c', ?_, by simpa using r'⟩
    show wrap c i (clear _ _) = _
    unfold clear beginP endP
    rw [hcb]
    simp only [Option.map_some, Option.bind_some]
    rw [eb]
    simp only [List.append_nil, posPtr_head, List.nil_append, List.head_cons] at e
    exact e

theorem fresh_R {heads tails : ι → Nat} {c : Conc ι} (h : Fresh heads tails c) :
    R heads tails ⟨fun _ => [], fun _ => False⟩ c := by
  obtain ⟨h1, h2, h3, h4⟩ := h
  have hf : ∀ i, full (c.objs i) [] = [heads i, tails i] := by
    intro i; unfold full; rw [(h1 i).1, (h1 i).2.1]; rfl
  constructor
  · intro i; exact ⟨(h1 i).1, (h1 i).2.1⟩
  · intro i
    obtain ⟨_, _, e3, e4, e5⟩ := h1 i
    constructor
    · show (full (c.objs i) []).Nodup
      rw [hf]; simp [h2 i]
    · show Chain c.mem (full (c.objs i) [])
      rw [hf]; unfold Chain nx pv; rw [e4, e5]; exact ⟨rfl, rfl, trivial⟩
    · intro a ha
      have ha : a ∈ full (c.objs i) [] := ha
      rw [hf] at ha
      simp only [List.mem_cons, List.not_mem_nil, or_false] at ha
      rcases ha with rfl | rfl
      · rw [e4]; rfl
      · rw [e5]; rfl
    · intro a ha; simp at ha
    · rw [e3]; rfl
  · intro i j hij a ha hb
    have ha : a ∈ full (c.objs i) [] := ha
    have hb : a ∈ full (c.objs j) [] := hb
    rw [hf] at ha hb
    simp only [List.mem_cons, List.not_mem_nil, or_false] at ha hb
    have q := h3 i j hij
    have q' := h3 j i (Ne.symm hij)
    rcases ha with rfl | rfl <;> rcases hb with hb | hb
    · exact q.1 hb
    · exact q.2.1 hb
    · exact q'.2.1 hb.symm
    · exact q.2.2 hb
  · intro i a ha; simp at ha
  · intro a ha; exact ha.elim
  · intro a _ hr; exact h4 a hr

theorem run_sim {heads tails : ι → Nat} {s s' : Abs ι} {os : List (Op ι)} (h : ARun (Reserved heads tails) s os s') :
    ∀ {c : Conc ι}, R heads tails s c → ∃ c', execAll c os = some c' ∧ R heads tails s' c' := by
  induction h with
  | nil s => intro c r; exact ⟨c, rfl, r⟩
  | cons hs _ ih =>
    intro c r
    obtain ⟨c1, e1, r1⟩ := sim r hs
    obtain ⟨c2, e2, r2⟩ := ih r1
    exact ⟨c2, by unfold execAll; rw [e1]; exact e2, r2⟩

/-- C14: for any number of lists and any history of operations that is legal for sequences, the implementation runs without
undefined behaviour and terminates, and afterwards every list has exactly the items of its sequence: forward iteration yields
them in order, reverse iteration in reverse order, `size`, `empty`, `front` and `back` agree, and exactly the items the
specification says were destroyed are gone. -/
theorem C14_list_refines_sequence {heads tails : ι → Nat} {c : Conc ι} (hf : Fresh heads tails c)
    (os : List (Op ι)) (s : Abs ι) (h : ARun (Reserved heads tails) ⟨fun _ => [], fun _ => False⟩ os s) :
    ∃ c', execAll c os = some c' ∧
      (∀ i, items c'.mem (c'.objs i) = some (s.lists i) ∧ itemsRev c'.mem (c'.objs i) = some (s.lists i).reverse ∧
        (c'.objs i).count = (s.lists i).length ∧
        (s.lists i ≠ [] → front c'.mem (c'.objs i) = (s.lists i).head? ∧ back c'.mem (c'.objs i) = (s.lists i).getLast?)) ∧
      (∀ a, ¬ Reserved heads tails a → ((c'.mem a).isSome ↔ s.exists_ a)) := by
  obtain ⟨c', e, r⟩ := run_sim h (fresh_R hf)
  refine ⟨c', e, fun i => ⟨items_spec (r.rep i), itemsRev_spec (r.rep i), (r.rep i).count, ?_⟩, ?_⟩
  · intro hne
    have hcnt : (c'.objs i).count ≠ 0 := by
      rw [(r.rep i).count]
      have := List.length_pos_iff.mpr hne
      omega
    have h1 : Rep c'.mem (c'.objs i) ([] ++ s.lists i) := by simpa using r.rep i
    have h2 : Rep c'.mem (c'.objs i) (s.lists i ++ []) := by simpa using r.rep i
    obtain ⟨x, hx, ex⟩ := nx_some h1.link.1
    obtain ⟨y, hy, ey⟩ := pv_some h2.link.2
    have hx : c'.mem (c'.objs i).head = some x := hx
    have hy : c'.mem (c'.objs i).tail = some y := hy
    unfold front back
    rw [if_neg hcnt, if_neg hcnt, hx, hy]
    simp only [Option.map_some]
    rw [ex, ey]
    constructor
    · cases hl : s.lists i with
      | nil => exact absurd hl hne
      | cons a l => rfl
    · rw [List.getLast_cons hne, List.getLast?_eq_getLast_of_ne_nil hne]
  · intro a hr
    constructor
    · intro hs
      by_cases he : s.exists_ a
      · exact he
      · rw [r.nex a he hr] at hs; simp at hs
    · intro he; exact (r.ex a he).1

end

/-- a concrete start state with two lists, and a history moving an item between them -/
example : ∃ c : Conc Bool, Fresh (fun b => if b then 1 else 3) (fun b => if b then 2 else 4) c := by
  refine ⟨⟨fun a => if a = 1 then some ⟨0, 2, 0⟩ else if a = 2 then some ⟨1, 0, 0⟩ else if a = 3 then some ⟨0, 4, 0⟩ else
    if a = 4 then some ⟨3, 0, 0⟩ else none, fun b => if b then ⟨1, 2, 1, 0⟩ else ⟨3, 4, 3, 0⟩⟩, ?_, ?_, ?_, ?_⟩
  · intro i; cases i <;> decide
  · intro i; cases i <;> decide
  · intro i j; cases i <;> cases j <;> simp
  · intro a h
    simp only [Reserved, Bool.exists_bool] at h
    simp only [not_or] at h
    simp_all

example : ∃ s, ARun (Reserved (fun b : Bool => if b then 1 else 3) (fun b => if b then 2 else 4))
    ⟨fun _ => [], fun _ => False⟩
    [.create 10, .create 11, .insert true none 10, .insert true (some 10) 11, .erase true 10 false, .insert false none 10] s ∧
    s.lists true = [11] ∧ s.lists false = [10] := by
  have hres : ∀ x, x > 4 → ¬ Reserved (fun b : Bool => if b then 1 else 3) (fun b => if b then 2 else 4) x := by
    intro x hx h
    simp only [Reserved, Bool.exists_bool] at h
    simp at h
    omega
  exact ⟨_, .cons (.create _ 10 (by simp) (hres _ (by omega))) <|
    .cons (.create _ 11 (by simp) (hres _ (by omega))) <|
    .cons (.insert _ true [] [] 10 rfl (by simp) (by simp) (by simp)) <|
    .cons (.insert _ true [] [10] 11 (by simp [upd]) (by simp) (by intro j; cases j <;> simp [upd]) (by simp [upd])) <|
    .cons (.erase _ true [11] [] 10 false (by simp [upd])) <|
    .cons (.insert _ false [] [] 10 (by simp [upd]) (by simp) (by intro j; cases j <;> simp [upd]) (by simp [upd])) <|
    .nil _, by simp [upd]⟩

end Cmmc.IList
