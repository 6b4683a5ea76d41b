import Mathlib.Data.List.Basic
/-!
# Model of `LabelAllocator` (cmmc/Support/LabelAllocator.cpp:22-29) and of the parts of `String`
(cmmc/Support/StringFlyWeight.cpp:69-110, .hpp:24-55) it uses.

* a `String` is its character storage and an `int32_t` id (`-1` = no id); the cached hash is a function of the storage, so
  `operator==` (l.75-79) is equality of storage and id.
* `mBase` is a map from id-less strings to the last id handed out; it is a function to `Option Int` here.
* `++iter->second` overflows `int32_t` after 2^31-1 requests for one base: undefined, modelled by `none`.
-/
namespace Cmmc.Label

/-- `String` (StringFlyWeight.hpp:24-27) -/
structure Str where
  storage : List Char
  id : Int
deriving DecidableEq, Repr

/-- `withoutID` (StringFlyWeight.cpp:91-93) -/
def Str.withoutID (s : Str) : Str := { s with id := -1 }
/-- `withID` (StringFlyWeight.cpp:94-96) -/
def Str.withID (s : Str) (i : Int) : Str := { s with id := i }
/-- `operator<<` (StringFlyWeight.cpp:101-106): the storage followed by the decimal id, if any -/
def Str.text (s : Str) : List Char := s.storage ++ (if 0 ≤ s.id then (Nat.repr s.id.toNat).toList else [])

/-- `mBase` (LabelAllocator.hpp:24) -/
abbrev State := Str → Option Int

/-- an allocator without history -/
def empty : State := fun _ => none

/-- `LabelAllocator::allocate` (LabelAllocator.cpp:22-29) -/
def allocate (m : State) (base : Str) : Option (State × Str) :=
  let key := base.withoutID
  match m key with
  | some n =>
    if n + 1 > 2147483647 then none
    else some (fun k => if k = key then some (n + 1) else m k, key.withID (n + 1))
  | none =>
    some (fun k => if k = key then some 0 else m k, if key.storage = [] then key.withID 0 else key)

/-- serve a history of requests, returning the labels handed out -/
def serve : State → List Str → Option (List Str)
  | _, [] => some []
  | m, r :: rs =>
    match allocate m r with
    | none => none
    | some (m', l) => (serve m' rs).map (l :: ·)

/-! ## properties -/

/-- the labels that could have been handed out for a state -/
def Used (m : State) (l : Str) : Prop :=
  ∃ n, m l.withoutID = some n ∧ l.id ≤ n

structure Inv (m : State) (k : Int) : Prop where
  keys : ∀ s n, m s = some n → s.id = -1
  nonneg : ∀ s n, m s = some n → 0 ≤ n ∧ n < k

theorem allocate_spec {m : State} {k : Int} (I : Inv m k) (hk : k ≤ 2147483647) (hk0 : 0 ≤ k) (r : Str) :
    ∃ m' l, allocate m r = some (m', l) ∧ Inv m' (k + 1) ∧ l.storage = r.storage ∧ ¬ Used m l ∧ Used m' l ∧
      (∀ x, Used m x → Used m' x) := by
  unfold allocate
  dsimp only
  have hwo : ∀ x : Str, x.withoutID.withoutID = x.withoutID := fun x => rfl
  cases h : m r.withoutID with
  | some n =>
    obtain ⟨h0, h1⟩ := I.nonneg _ _ h
    have hc : ¬ (n + 1 > 2147483647) := by omega
    dsimp only
    rw [if_neg hc]
    refine ⟨_, _, rfl, ⟨?_, ?_⟩, rfl, ?_, ?_, ?_⟩
    · intro s i hs
      split at hs
      · rename_i e; rw [e]; rfl
      · exact I.keys s i hs
    · intro s i hs
      split at hs
      · simp only [Option.some.injEq] at hs; omega
      · have := I.nonneg s i hs; omega
    · rintro ⟨i, hi, hle⟩
      have e : (r.withoutID.withID (n + 1)).withoutID = r.withoutID := rfl
      rw [e, h] at hi
      simp only [Option.some.injEq] at hi
      have : (r.withoutID.withID (n + 1)).id = n + 1 := rfl
      omega
    · refine ⟨n + 1, ?_, Int.le_refl _⟩
      have e : (r.withoutID.withID (n + 1)).withoutID = r.withoutID := rfl
      rw [e]; simp
    · rintro x ⟨i, hi, hle⟩
      by_cases hx : x.withoutID = r.withoutID
      · refine ⟨n + 1, by simp [hx], ?_⟩
        rw [hx, h] at hi
        simp only [Option.some.injEq] at hi
        omega
      · exact ⟨i, by simp [hx, hi], hle⟩
  | none =>
    have hst : ∀ l : Str, l.storage = r.storage → l.withoutID = r.withoutID := by
      intro l hl; unfold Str.withoutID; rw [hl]
    have hl : (if r.withoutID.storage = [] then r.withoutID.withID 0 else r.withoutID).storage = r.storage := by
      split <;> rfl
    refine ⟨_, _, rfl, ⟨?_, ?_⟩, hl, ?_, ?_, ?_⟩
    · intro s i hs
      split at hs
      · rename_i e; rw [e]; rfl
      · exact I.keys s i hs
    · intro s i hs
      split at hs
      · simp only [Option.some.injEq] at hs; omega
      · have := I.nonneg s i hs; omega
    · rintro ⟨i, hi, _⟩
      rw [hst _ hl, h] at hi
      simp at hi
    · refine ⟨0, ?_, ?_⟩
      · rw [hst _ hl]; simp
      · split <;> simp [Str.withID, Str.withoutID]
    · rintro x ⟨i, hi, hle⟩
      have hx : x.withoutID ≠ r.withoutID := by
        intro e; rw [e, h] at hi; simp at hi
      exact ⟨i, by simp [hx, hi], hle⟩

theorem serve_spec : ∀ (rs : List Str) (m : State) (k : Int), Inv m k → 0 ≤ k → k + rs.length ≤ 2147483648 →
    ∃ ls, serve m rs = some ls ∧ ls.map (·.storage) = rs.map (·.storage) ∧ ls.Nodup ∧ ∀ l ∈ ls, ¬ Used m l := by
  intro rs
  induction rs with
  | nil => intro m k _ _ _; exact ⟨[], rfl, rfl, List.nodup_nil, by simp⟩
  | cons r rs ih =>
    intro m k I h0 hk
    simp only [List.length_cons] at hk
    obtain ⟨m', l, e, I', hs, hn, hu, hmono⟩ := allocate_spec I (by omega) h0 r
    obtain ⟨ls, e', hs', hnd, hnu⟩ := ih m' (k + 1) I' (by omega) (by omega)
    refine ⟨l :: ls, by unfold serve; rw [e]; dsimp only; rw [e']; rfl, by simp [hs, hs'], ?_, ?_⟩
    · rw [List.nodup_cons]; exact ⟨fun h => hnu l h hu, hnd⟩
    · intro x hx
      rcases List.mem_cons.mp hx with rfl | hx
      · exact hn
      · exact fun h => hnu x hx (hmono x h)

theorem empty_inv : Inv empty 0 := ⟨by simp [empty], by simp [empty]⟩

/-- C12 (labels as values): over every history of at most 2^31 requests the allocator never runs into the counter overflow,
every label keeps the requested prefix, and all labels are pairwise different. -/
theorem C12_labels_distinct (reqs : List Str) (h : reqs.length ≤ 2147483648) :
    ∃ ls, serve empty reqs = some ls ∧ ls.map (·.storage) = reqs.map (·.storage) ∧ ls.Nodup := by
  obtain ⟨ls, e, hs, hnd, _⟩ := serve_spec reqs empty 0 empty_inv (by omega) (by omega)
  exact ⟨ls, e, hs, hnd⟩

/-! ### printed text -/

/-- the full textual claim is false: requests `a`, `a`, `a1` yield the labels `a`, `a`#1 and `a1`, the last two print alike -/
theorem C12_text_collision :
    (serve empty [⟨['a'], -1⟩, ⟨['a'], -1⟩, ⟨['a', '1'], -1⟩]).map (·.map Str.text)
      = some [['a'], ['a', '1'], ['a', '1']] := by decide

theorem span_unique {p : Char → Bool} : ∀ {a b d e : List Char}, (∀ c ∈ d, p c = true) → (∀ c ∈ e, p c = true) →
    (∀ c, a.getLast? = some c → p c = false) → (∀ c, b.getLast? = some c → p c = false) → a ++ d = b ++ e → a = b ∧ d = e := by
  intro a b d e hd he ha hb h
  have h' : d.reverse ++ a.reverse = e.reverse ++ b.reverse := by
    rw [← List.reverse_append, ← List.reverse_append, h]
  have tw : ∀ {d a : List Char}, (∀ c ∈ d, p c = true) → (∀ c, a.getLast? = some c → p c = false) →
      (d.reverse ++ a.reverse).takeWhile p = d.reverse := by
    intro d a hd ha
    rw [List.takeWhile_append_of_pos (by simpa using hd)]
    have : a.reverse.takeWhile p = [] := by
      cases hr : a.reverse with
      | nil => rfl
      | cons c cs =>
        have : a.getLast? = some c := by rw [← List.head?_reverse, hr]; rfl
        rw [List.takeWhile_cons_of_neg (by simp [ha c this])]
    rw [this, List.append_nil]
  have e1 : d.reverse = e.reverse := by
    rw [← tw hd ha, h', tw he hb]
  have : d = e := List.reverse_injective e1
  subst this
  exact ⟨List.append_cancel_right h, rfl⟩

theorem repr_digits (n : Nat) : ∀ c ∈ (Nat.repr n).toList, c.isDigit = true := by
  intro c hc
  rw [Nat.toList_repr] at hc
  exact Nat.isDigit_of_mem_toDigits (by decide) (by decide) hc

/-- C12 (printed text), for prefixes that do not end in a digit: the printed texts are pairwise different too.
Missing for the full claim: prefixes ending in a digit, where it is false (`C12_text_collision`). -/
theorem C12_text_distinct_partial (reqs : List Str) (h : reqs.length ≤ 2147483648)
    (hp : ∀ r ∈ reqs, ∀ c, r.storage.getLast? = some c → c.isDigit = false) :
    ∃ ls, serve empty reqs = some ls ∧ (ls.map Str.text).Nodup := by
  obtain ⟨ls, e, hs, hnd, _⟩ := serve_spec reqs empty 0 empty_inv (by omega) (by omega)
  -- ids handed out are -1 or non-negative
  have hid : ∀ (rs : List Str) (m : State) (ls : List Str), (∀ s n, m s = some n → 0 ≤ n) → serve m rs = some ls → ∀ l ∈ ls, -1 ≤ l.id := by
    intro rs
    induction rs with
    | nil => intro m ls _ h; simp only [serve, Option.some.injEq] at h; subst h; simp
    | cons r rs ih =>
      intro m ls hm h
      unfold serve at h
      cases ha : allocate m r with
      | none => rw [ha] at h; simp at h
      | some p =>
        obtain ⟨m', l⟩ := p
        rw [ha] at h
        dsimp only at h
        cases hs : serve m' rs with
        | none => rw [hs] at h; simp at h
        | some ls' =>
          rw [hs] at h
          simp only [Option.map_some, Option.some.injEq] at h
          subst h
          have hm' : (∀ s n, m' s = some n → 0 ≤ n) ∧ -1 ≤ l.id := by
            unfold allocate at ha
            dsimp only at ha
            split at ha
            · rename_i n hn
              have := hm _ _ hn
              split at ha
              · simp at ha
              · simp only [Option.some.injEq, Prod.mk.injEq] at ha
                obtain ⟨rfl, rfl⟩ := ha
                refine ⟨?_, by show (-1 : Int) ≤ n + 1; omega⟩
                intro s i hs
                dsimp only at hs
                split at hs
                · simp only [Option.some.injEq] at hs; omega
                · exact hm s i hs
            · simp only [Option.some.injEq, Prod.mk.injEq] at ha
              obtain ⟨rfl, rfl⟩ := ha
              refine ⟨?_, by split <;> simp [Str.withID, Str.withoutID]⟩
              intro s i hs
              dsimp only at hs
              split at hs
              · simp only [Option.some.injEq] at hs; omega
              · exact hm s i hs
          intro x hx
          rcases List.mem_cons.mp hx with rfl | hx
          · exact hm'.2
          · exact ih m' ls' hm'.1 hs x hx
  refine ⟨ls, e, ?_⟩
  have hids := hid reqs empty ls (by simp [empty]) e
  have hpl : ∀ l ∈ ls, ∀ c, l.storage.getLast? = some c → c.isDigit = false := by
    intro l hl
    have : l.storage ∈ ls.map (·.storage) := List.mem_map.mpr ⟨l, hl, rfl⟩
    rw [hs, List.mem_map] at this
    obtain ⟨r, hr, er⟩ := this
    rw [← er]; exact hp r hr
  unfold List.Nodup
  rw [List.pairwise_map]
  refine List.Pairwise.imp_of_mem ?_ hnd
  intro a b ha hb hab htext
  apply hab
  unfold Str.text at htext
  obtain ⟨h1, h2⟩ := span_unique (p := Char.isDigit) (by
      intro c hc; split at hc
      · exact repr_digits _ c hc
      · simp at hc) (by
      intro c hc; split at hc
      · exact repr_digits _ c hc
      · simp at hc) (hpl a ha) (hpl b hb) htext
  have hne : ∀ n, (Nat.repr n).toList ≠ [] := by
    intro n
    rw [Nat.toList_repr]
    exact Nat.toDigits_ne_nil
  have hia := hids a ha
  have hib := hids b hb
  have hidEq : a.id = b.id := by
    split at h2 <;> split at h2
    · rw [Nat.toList_repr, Nat.toList_repr] at h2
      have h3 := congrArg (fun l => Nat.ofDigitChars 10 l 0) h2
      rw [Nat.ofDigitChars_toDigits (by decide) (by decide), Nat.ofDigitChars_toDigits (by decide) (by decide)] at h3
      omega
    · exact absurd h2 (hne _)
    · exact absurd h2.symm (hne _)
    · omega
  cases a; cases b; simp_all

example : ∀ r ∈ [(⟨['a'], -1⟩ : Str), ⟨['a'], 3⟩, ⟨[], -1⟩], ∀ c, r.storage.getLast? = some c → c.isDigit = false := by decide
example : (serve empty [⟨['a'], -1⟩, ⟨['a'], 3⟩, ⟨[], -1⟩]).map (·.map Str.text) = some [['a'], ['a', '1'], ['0']] := by decide

end Cmmc.Label
