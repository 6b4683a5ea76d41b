import Verif.IR.SimpleValue
/-!
# C99: PointerBaseAnalysis (cmmc/Analysis/PointerBaseAnalysis.cpp:110-246): the allocation or global every pointer points into

`SimpleValueAnalysis` (C98) takes pointers with different bases for pointers to different memory.
-/
namespace Cmmc.PtrBase

/-- how a pointer comes about (l.115-151): global or `Alloc`; function argument; `GetElementPtr`, `PtrCast`, `PtrAdd` of a pointer; `Select`; `Phi` with the incoming values; anything else (loads, calls) -/
inductive Def
  | root
  | arg
  | derive (y : Nat)
  | select (a b : Nat)
  | phi (inc : List Nat)
  | other

/-! ## what a function does with pointers (the specification) -/

/-- the values that names have taken so far, newest first. An address carries the object it belongs to: `site a` is the allocation or global that created it, and
pointer arithmetic does not leave the object. A name may use any value its operands ever had. The base given for an argument (l.171-187) is taken as true. -/
inductive Trace {P : Type} (site : P → Nat) (argBase : Nat → Option Nat) (D : Nat → Def) : List (Nat × P) → Prop
  | nil : Trace site argBase D []
  | root {t x p} : Trace site argBase D t → D x = .root → site p = x → Trace site argBase D ((x, p) :: t)
  | arg {t x p} : Trace site argBase D t → D x = .arg → (∀ b, argBase x = some b → site p = b) → Trace site argBase D ((x, p) :: t)
  | derive {t x y p q} : Trace site argBase D t → D x = .derive y → (y, q) ∈ t → site p = site q → Trace site argBase D ((x, p) :: t)
  | left {t x a b p} : Trace site argBase D t → D x = .select a b → (a, p) ∈ t → Trace site argBase D ((x, p) :: t)
  | right {t x a b p} : Trace site argBase D t → D x = .select a b → (b, p) ∈ t → Trace site argBase D ((x, p) :: t)
  | phi {t x inc y p} : Trace site argBase D t → D x = .phi inc → y ∈ inc → (y, p) ∈ t → Trace site argBase D ((x, p) :: t)
  | other {t x p} : Trace site argBase D t → D x = .other → Trace site argBase D ((x, p) :: t)

/-! ## the analysis -/

/-- `storage` -/
abbrev Sto := Nat → Option Nat

/-- the loop over the incoming values (l.212-229); values without an entry never occur there, an instruction is visited when all its sources have one -/
def phiBase (st : Sto) (x : Nat) : List Nat → Option Nat → Option Nat
  | [], src => src
  | y :: ys, src =>
    if y = x then phiBase st x ys src
    else
      match st y with
      | none => none
      | some f => if src = none ∨ src = some f then phiBase st x ys (some f) else none

/-- the base of a pointer whose sources have one (l.198-230) -/
def baseOf (D : Nat → Def) (st : Sto) (x : Nat) : Option Nat :=
  match D x with
  | .derive y => st y
  | .select a b => match st a, st b with | some s, some t => if s = t then some s else none | _, _ => none
  | .phi inc => phiBase st x inc none
  | _ => none

/-- `setStorage` (l.154-164) for a pointer without an entry -/
def visit (D : Nat → Def) (st : Sto) (x : Nat) : Sto :=
  match st x with
  | some _ => st
  | none => fun z => if z = x then baseOf D st x else st z

/-- globals, arguments and allocations (l.166-192) -/
def init (argBase : Nat → Option Nat) (D : Nat → Def) : Sto := fun x => match D x with | .root => some x | .arg => argBase x | _ => none

/-- the queue (l.194-234); `order` is the order in which it is emptied, whatever that is -/
def bases (argBase : Nat → Option Nat) (D : Nat → Def) (order : List Nat) : Sto := order.foldl (visit D) (init argBase D)

/-! ## the entries agree with the sources -/

/-- an entry agrees with the entries it was computed from -/
def Agrees (argBase : Nat → Option Nat) (D : Nat → Def) (st : Sto) (x b : Nat) : Prop :=
  match D x with
  | .root => b = x
  | .arg => argBase x = some b
  | .derive y => st y = some b
  | .select a c => st a = some b ∧ st c = some b
  | .phi inc => ∀ y ∈ inc, y ≠ x → st y = some b
  | .other => False

theorem phiBase_spec (st : Sto) (x b : Nat) : ∀ (inc : List Nat) (src : Option Nat), phiBase st x inc src = some b → (src = none ∨ src = some b) ∧ ∀ y ∈ inc, y ≠ x → st y = some b := by
  intro inc
  induction inc with
  | nil => intro src h; simp only [phiBase] at h; exact ⟨Or.inr h, by simp⟩
  | cons y ys ih =>
    intro src h
    simp only [phiBase] at h
    split at h
    · rename_i hy
      obtain ⟨h1, h2⟩ := ih src h
      refine ⟨h1, fun z hz hne => ?_⟩
      rcases List.mem_cons.1 hz with rfl | hz
      · exact absurd hy hne
      · exact h2 z hz hne
    · split at h
      · cases h
      · rename_i f hf
        split at h
        · rename_i hs
          obtain ⟨h1, h2⟩ := ih (some f) h
          have hfb : f = b := by rcases h1 with h1 | h1 <;> simp_all
          subst hfb
          refine ⟨hs, fun z hz hne => ?_⟩
          rcases List.mem_cons.1 hz with rfl | hz
          · exact hf
          · exact h2 z hz hne
        · cases h

theorem baseOf_agrees {argBase : Nat → Option Nat} {D : Nat → Def} {st : Sto} {x b : Nat} (h : baseOf D st x = some b) : Agrees argBase D st x b := by
  unfold baseOf at h
  unfold Agrees
  cases hD : D x with
  | root => simp [hD] at h
  | arg => simp [hD] at h
  | derive y => simpa [hD] using h
  | select a c =>
    simp only [hD] at h ⊢
    cases ha : st a <;> cases hc : st c <;> simp_all
  | phi inc => simp only [hD] at h ⊢; exact (phiBase_spec st x b inc none h).2
  | other => simp [hD] at h

theorem Agrees.mono {argBase : Nat → Option Nat} {D : Nat → Def} {st st' : Sto} (hm : ∀ y b, st y = some b → st' y = some b) {x b : Nat} (h : Agrees argBase D st x b) : Agrees argBase D st' x b := by
  unfold Agrees at h ⊢
  cases hD : D x with
  | root => simpa [hD] using h
  | arg => simpa [hD] using h
  | derive y => simp only [hD] at h ⊢; exact hm _ _ h
  | select a c => simp only [hD] at h ⊢; exact ⟨hm _ _ h.1, hm _ _ h.2⟩
  | phi inc => simp only [hD] at h ⊢; exact fun y hy hne => hm _ _ (h y hy hne)
  | other => simp [hD] at h

theorem visit_mono (D : Nat → Def) (st : Sto) (x : Nat) : ∀ y b, st y = some b → visit D st x y = some b := by
  intro y b h
  unfold visit
  cases hx : st x with
  | some _ => exact h
  | none =>
    simp only
    split
    · rename_i hy; subst hy; rw [hx] at h; cases h
    · exact h

theorem visit_agrees {argBase : Nat → Option Nat} {D : Nat → Def} {st : Sto} (hs : ∀ x b, st x = some b → Agrees argBase D st x b) (z : Nat) :
    ∀ x b, visit D st z x = some b → Agrees argBase D (visit D st z) x b := by
  intro x b h
  refine Agrees.mono (visit_mono D st z) ?_
  unfold visit at h
  cases hz : st z with
  | some _ => simp only [hz] at h; exact hs x b h
  | none =>
    simp only [hz] at h
    split at h
    · rename_i hx; subst hx; exact baseOf_agrees h
    · exact hs x b h

theorem bases_agrees (argBase : Nat → Option Nat) (D : Nat → Def) (order : List Nat) : ∀ x b, bases argBase D order x = some b → Agrees argBase D (bases argBase D order) x b := by
  unfold bases
  have h0 : ∀ x b, init argBase D x = some b → Agrees argBase D (init argBase D) x b := by
    intro x b h
    unfold init at h
    unfold Agrees
    cases hD : D x <;> simp only [hD] at h ⊢
    · exact (Option.some.inj h).symm
    · exact h
    all_goals cases h
  generalize init argBase D = st at h0 ⊢
  induction order generalizing st with
  | nil => exact h0
  | cons z zs ih => exact ih (visit D st z) (visit_agrees h0 z)

/-! ## the bases are right -/

section
variable {P : Type} {site : P → Nat} {argBase : Nat → Option Nat} {D : Nat → Def} {order : List Nat} {t : List (Nat × P)}

/-- **C99** every value a pointer ever takes points into the object of its base -/
theorem C99_pointerBase_partial (ht : Trace site argBase D t) : ∀ {x : Nat} {p : P} {b : Nat}, (x, p) ∈ t → bases argBase D order x = some b → site p = b := by
  have hA := bases_agrees argBase D order
  induction ht with
  | nil => intro x p b h; cases h
  | root _ hD hp ih | arg _ hD hp ih =>
    intro x p b h hb
    rcases List.mem_cons.1 h with h | h
    · cases h
      have := hA _ _ hb
      simp only [Agrees, hD] at this
      first | exact hp.trans this.symm | exact hp b this
    · exact ih h hb
  | other _ hD ih =>
    intro x p b h hb
    rcases List.mem_cons.1 h with h | h
    · cases h
      have := hA _ _ hb
      simp only [Agrees, hD] at this
    · exact ih h hb
  | derive _ hD hq hp ih =>
    intro x p b h hb
    rcases List.mem_cons.1 h with h | h
    · cases h
      have := hA _ _ hb
      simp only [Agrees, hD] at this
      exact hp.trans (ih hq this)
    · exact ih h hb
  | left _ hD hq ih =>
    intro x p b h hb
    rcases List.mem_cons.1 h with h | h
    · cases h
      have := hA _ _ hb
      simp only [Agrees, hD] at this
      exact ih hq this.1
    · exact ih h hb
  | right _ hD hq ih =>
    intro x p b h hb
    rcases List.mem_cons.1 h with h | h
    · cases h
      have := hA _ _ hb
      simp only [Agrees, hD] at this
      exact ih hq this.2
    · exact ih h hb
  | @phi t x' inc y q _ hD hy hq ih =>
    intro x p b h hb
    rcases List.mem_cons.1 h with h | h
    · cases h
      have := hA _ _ hb
      simp only [Agrees, hD] at this
      by_cases hyx : y = x'
      · subst hyx; exact ih hq hb
      · exact ih hq (this y hy hyx)
    · exact ih h hb

/-- **C99** pointers with different bases are never equal: what `Facts.base` of C98 asks -/
theorem C99_different_bases (ht : Trace site argBase D t) {x y : Nat} {p q : P} {b c : Nat} (hx : (x, p) ∈ t) (hy : (y, q) ∈ t) (hb : bases argBase D order x = some b)
    (hc : bases argBase D order y = some c) (hne : b ≠ c) : p ≠ q := by
  rintro rfl
  exact hne ((C99_pointerBase_partial ht hx hb).symm.trans (C99_pointerBase_partial ht hy hc))

end

/-! ## examples -/
namespace Ex

/-- 1 and 2 are allocations; 3 points into 1, 4 is a phi of 3 and itself, 5 is advanced from 4, 6 selects between 5 and 3, 7 selects between 3 and 2, 8 is loaded, 9 is an argument -/
def D : Nat → Def
  | 1 => .root | 2 => .root | 3 => .derive 1 | 4 => .phi [3, 4] | 5 => .derive 4 | 6 => .select 5 3 | 7 => .select 3 2 | 9 => .arg | _ => .other

def arg : Nat → Option Nat := fun x => if x = 9 then some 9 else none

example : (bases arg D [3, 7, 4, 5, 6]) 6 = some 1 ∧ (bases arg D [3, 7, 4, 5, 6]) 2 = some 2 ∧ (bases arg D [3, 7, 4, 5, 6]) 7 = none ∧ (bases arg D [3, 7, 4, 5, 6]) 8 = none ∧
    (bases arg D [3, 7, 4, 5, 6]) 9 = some 9 := by decide

/-- pointers are pairs of a site and an offset; the phi takes its own value of the round before -/
def tr : List (Nat × (Nat × Nat)) := [(7, (2, 0)), (6, (1, 8)), (5, (1, 8)), (4, (1, 4)), (4, (1, 4)), (2, (2, 0)), (9, (9, 3)), (3, (1, 4)), (1, (1, 0))]

theorem tr_ok : Trace Prod.fst arg D tr :=
  .right (.left (.derive (.phi (.phi (.root (.arg (.derive (.root .nil rfl rfl) rfl (q := (1, 0)) (by simp) rfl) rfl (by intro b h; simpa [arg] using h)) rfl rfl) rfl (y := 3) (by simp) (by simp))
    rfl (y := 4) (by simp) (by simp)) rfl (q := (1, 4)) (by simp) rfl) rfl (by simp)) rfl (by simp)

example : ((1, 8) : Nat × Nat) ≠ (2, 0) :=
  C99_different_bases (order := [3, 7, 4, 5, 6]) tr_ok (x := 6) (y := 2) (b := 1) (c := 2) (by simp [tr]) (by simp [tr]) (by decide) (by decide) (by decide)

end Ex

end Cmmc.PtrBase
