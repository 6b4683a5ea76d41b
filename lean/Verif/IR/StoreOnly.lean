import Verif.IR.PtrBase
/-!
# C100: SimpleStoreEliminate (cmmc/Transforms/DCE/StoreEliminate.cpp:185-245): stores to allocations that are only stored to
-/
namespace Cmmc.PtrBase

/-- the instructions the pass tells apart: `Store` (whether the value is a pointer), `GetElementPtr` of `y` with result `x`, and all others with their pointer operands -/
inductive SInst
  | store (addr val : Nat) (ptr : Bool)
  | gep (x y : Nat)
  | oth (ops : List Nat)
  deriving DecidableEq

/-- a pointer operand of an instruction -/
def SInst.uses (z : Nat) : SInst → Prop
  | .store a v p => z = a ∨ (p = true ∧ z = v)
  | .gep _ y => z = y
  | .oth ops => z ∈ ops

/-- the definitions of pointers are instructions of the function -/
structure Agree (D : Nat → Def) (is : List SInst) : Prop where
  gep : ∀ x y, SInst.gep x y ∈ is → D x = .derive y
  derive : ∀ x y, D x = .derive y → SInst.gep x y ∈ is ∨ ∃ ops, SInst.oth ops ∈ is ∧ y ∈ ops
  select : ∀ x a b, D x = .select a b → ∃ ops, SInst.oth ops ∈ is ∧ a ∈ ops ∧ b ∈ ops
  phi : ∀ x inc, D x = .phi inc → ∃ ops, SInst.oth ops ∈ is ∧ ∀ y ∈ inc, y ∈ ops

/-- a name whose value another part of the program may get to know: it is stored, or an operand of something else than a store or a GEP -/
def Escapes (is : List SInst) (y : Nat) : Prop := (∃ a, SInst.store a y true ∈ is) ∨ ∃ ops, SInst.oth ops ∈ is ∧ y ∈ ops

/-- `Trace` of C99, where arguments do not point into the own allocation `A`, and neither do loaded pointers and results of calls, unless a pointer into `A` has escaped before -/
inductive Flow {P : Type} (site : P → Nat) (D : Nat → Def) (is : List SInst) (A : Nat) : List (Nat × P) → Prop
  | nil : Flow site D is A []
  | root {t x p} : Flow site D is A t → D x = .root → site p = x → Flow site D is A ((x, p) :: t)
  | arg {t x p} : Flow site D is A t → D x = .arg → site p ≠ A → Flow site D is A ((x, p) :: t)
  | derive {t x y p q} : Flow site D is A t → D x = .derive y → (y, q) ∈ t → site p = site q → Flow site D is A ((x, p) :: t)
  | left {t x a b p} : Flow site D is A t → D x = .select a b → (a, p) ∈ t → Flow site D is A ((x, p) :: t)
  | right {t x a b p} : Flow site D is A t → D x = .select a b → (b, p) ∈ t → Flow site D is A ((x, p) :: t)
  | phi {t x inc y p} : Flow site D is A t → D x = .phi inc → y ∈ inc → (y, p) ∈ t → Flow site D is A ((x, p) :: t)
  | other {t x p} : Flow site D is A t → D x = .other → (site p = A → ∃ y q, Escapes is y ∧ (y, q) ∈ t ∧ site q = A) → Flow site D is A ((x, p) :: t)

/-! ## the pass -/

/-- some store goes to the allocation (l.187-201) -/
def storedTo (st : Sto) (is : List SInst) (A : Nat) : Bool := is.any (fun i => match i with | .store a _ _ => st a == some A | _ => false)

/-- a user of a GEP that rules its base out (l.211-215) -/
def badUser (x : Nat) : SInst → Bool
  | .oth ops => ops.contains x
  | _ => false

/-- an instruction that takes `A` out of `interested` (l.203-222) -/
def erases (st : Sto) (is : List SInst) (A : Nat) : SInst → Bool
  | .store _ v p => p && v == A
  | .gep x _ => st x == some A && is.any (badUser x)
  | .oth ops => ops.contains A

/-- `A` stays in `interested` -/
def interested (st : Sto) (is : List SInst) (A : Nat) : Bool := storedTo st is A && !is.any (erases st is A)

/-- the stores that are removed for the allocation (l.228-244) -/
def removed (st : Sto) (is : List SInst) (A : Nat) : SInst → Bool
  | .store a _ _ => interested st is A && st a == some A
  | _ => false

/-! ## nothing reads the allocation -/

/-- no pointer into `A` computed by a GEP is itself stored. The pass checks this for `A` only, not for GEPs of it (Finding 99) -/
def NoGepStored (st : Sto) (is : List SInst) (A : Nat) : Prop := ∀ a v, SInst.store a v true ∈ is → st v = some A → v = A

/-- the queue of the base analysis is empty: another visit changes nothing -/
def Closed (D : Nat → Def) (st : Sto) : Prop := ∀ x, visit D st x = st

section
variable {P : Type} {site : P → Nat} {D : Nat → Def} {is : List SInst} {A : Nat} {st : Sto} {t : List (Nat × P)}

theorem Closed.derive (hc : Closed D st) {x y b : Nat} (hD : D x = .derive y) (hy : st y = some b) : st x = some b ∨ ∃ c, st x = some c := by
  cases hx : st x with
  | some c => exact Or.inr ⟨c, rfl⟩
  | none =>
    have h := congrFun (hc x) x
    simp only [visit, hx, if_true, baseOf, hD, hy] at h
    cases h

/-- no operand of anything but stores and GEPs can point into the allocation, if names with base `A` are the only ones that can -/
theorem interested_oth (hi : interested st is A = true) {ops : List Nat} (ho : SInst.oth ops ∈ is) {y : Nat} (hy : y ∈ ops) (hg : y = A ∨ (∃ z, SInst.gep y z ∈ is) ∧ st y = some A) : False := by
  simp only [interested, Bool.and_eq_true, Bool.not_eq_true', List.any_eq_false] at hi
  rcases hg with rfl | ⟨⟨z, hz⟩, hs⟩
  · exact hi.2 _ ho (by simpa [erases] using hy)
  · refine hi.2 _ hz ?_
    simp only [erases, hs, beq_self_eq_true, Bool.true_and, List.any_eq_true]
    exact ⟨_, ho, by simpa [badUser] using hy⟩

/-- in every run the names that point into `A` are `A` and GEPs whose base is `A` -/
theorem flow_names (argBase : Nat → Option Nat) (hag : ∀ x b, st x = some b → Agrees argBase D st x b) (hA : st A = some A) (hc : Closed D st) (hD : Agree D is) (hi : interested st is A = true)
    (hn : NoGepStored st is A) (ht : Flow site D is A t) : ∀ {x : Nat} {p : P}, (x, p) ∈ t → site p = A → x = A ∨ (∃ z, SInst.gep x z ∈ is) ∧ st x = some A := by
  have hst : ∀ y, (y = A ∨ (∃ z, SInst.gep y z ∈ is) ∧ st y = some A) → st y = some A := by
    rintro y (rfl | ⟨-, h⟩)
    · exact hA
    · exact h
  induction ht with
  | nil => intro x p h; cases h
  | root _ _ hp ih =>
    intro x p h hs
    rcases List.mem_cons.1 h with h | h
    · cases h; exact Or.inl (hp.symm.trans hs)
    · exact ih h hs
  | arg _ _ hp ih =>
    intro x p h hs
    rcases List.mem_cons.1 h with h | h
    · cases h; exact absurd hs hp
    · exact ih h hs
  | @derive t x' y p' q _ hd hq hp ih =>
    intro x p h hs
    rcases List.mem_cons.1 h with h | h
    · cases h
      have hy := ih hq (hp.symm.trans hs)
      rcases hD.derive _ _ hd with hg | ⟨ops, ho, hyo⟩
      · refine Or.inr ⟨⟨y, hg⟩, ?_⟩
        have hb : ∃ c, st x' = some c := by
          rcases hc.derive hd (hst y hy) with h | h
          · exact ⟨_, h⟩
          · exact h
        obtain ⟨c, hcx⟩ := hb
        have h2 := hag _ _ hcx
        simp only [Agrees, hd] at h2
        rw [hcx, ← h2, hst y hy]
      · exact (interested_oth hi ho hyo hy).elim
    · exact ih h hs
  | left _ hd hq ih =>
    intro x p h hs
    rcases List.mem_cons.1 h with h | h
    · cases h
      obtain ⟨ops, ho, ha, -⟩ := hD.select _ _ _ hd
      exact (interested_oth hi ho ha (ih hq hs)).elim
    · exact ih h hs
  | right _ hd hq ih =>
    intro x p h hs
    rcases List.mem_cons.1 h with h | h
    · cases h
      obtain ⟨ops, ho, -, hb⟩ := hD.select _ _ _ hd
      exact (interested_oth hi ho hb (ih hq hs)).elim
    · exact ih h hs
  | phi _ hd hy hq ih =>
    intro x p h hs
    rcases List.mem_cons.1 h with h | h
    · cases h
      obtain ⟨ops, ho, hall⟩ := hD.phi _ _ hd
      exact (interested_oth hi ho (hall _ hy) (ih hq hs)).elim
    · exact ih h hs
  | other _ _ hp ih =>
    intro x p h hs
    rcases List.mem_cons.1 h with h | h
    · cases h
      obtain ⟨y, q, he, hq, hsq⟩ := hp hs
      have hy := ih hq hsq
      rcases he with ⟨a, ha⟩ | ⟨ops, ho, hyo⟩
      · have hyA := hn a y ha (hst y hy)
        subst hyA
        simp only [interested, Bool.and_eq_true, Bool.not_eq_true', List.any_eq_false] at hi
        exact (hi.2 _ ha (by simp [erases])).elim
      · exact (interested_oth hi ho hyo hy).elim
    · exact ih h hs

/-- **C100** if the pass removes a store, the store writes to the allocation, and in every run no instruction but stores and GEPs ever has a pointer into that allocation as an operand: no load, call or return
can see the stored value -/
theorem C100_storeOnly_partial {argBase : Nat → Option Nat} {order : List Nat} (hc : Closed D (bases argBase D order)) (hD : Agree D is) (hroot : D A = .root)
    (hn : NoGepStored (bases argBase D order) is A) (ht : Flow site D is A t) {a v : Nat} {b : Bool} (hr : removed (bases argBase D order) is A (.store a v b) = true) :
    (∀ {p}, Trace site argBase D t → (a, p) ∈ t → site p = A) ∧ ∀ {ops y p}, SInst.oth ops ∈ is → y ∈ ops → (y, p) ∈ t → site p ≠ A := by
  simp only [removed, Bool.and_eq_true, beq_iff_eq] at hr
  refine ⟨fun htr h => C99_pointerBase_partial htr h hr.2, fun ho hy hp hs => ?_⟩
  have hA : bases argBase D order A = some A := by
    unfold bases
    have h0 : init argBase D A = some A := by simp [init, hroot]
    generalize init argBase D = s0 at h0 ⊢
    clear hr hn hc
    induction order generalizing s0 with
    | nil => exact h0
    | cons z zs ih => exact ih _ (visit_mono D s0 z _ _ h0)
  exact interested_oth hr.1 ho hy (flow_names argBase (bases_agrees argBase D order) hA hc hD hr.1 hn ht hp hs)

end

namespace Ex

/-- allocation 1 with GEP 3 (through GEP 2) is stored to, allocation 4 is stored to and loaded -/
def D2 : Nat → Def
  | 1 => .root | 2 => .derive 1 | 3 => .derive 2 | 4 => .root | _ => .other

def prog2 : List SInst := [.gep 2 1, .gep 3 2, .store 3 7 false, .store 1 7 false, .store 4 7 false, .oth [4]]

def bs2 : Sto := bases (fun _ => none) D2 [2, 3]

example : prog2.filter (fun i => !removed bs2 prog2 1 i) = [.gep 2 1, .gep 3 2, .store 4 7 false, .oth [4]] ∧ interested bs2 prog2 4 = false := by decide

theorem closed2 : Closed D2 bs2 := by
  intro x
  funext z
  unfold visit
  cases hx : bs2 x with
  | some c => rfl
  | none =>
    simp only
    split
    · rename_i hz
      subst hz
      rw [hx]
      match z, hx with
      | 0, _ => rfl
      | 1, h => revert h; decide
      | 2, h => revert h; decide
      | 3, h => revert h; decide
      | 4, h => revert h; decide
      | n + 5, _ => rfl
    · rfl

theorem agree2 : Agree D2 prog2 where
  gep := by intro x y h; simp [prog2] at h; rcases h with ⟨rfl, rfl⟩ | ⟨rfl, rfl⟩ <;> rfl
  derive := by
    intro x y h
    left
    unfold D2 at h
    split at h <;> first | cases h; done | (cases h; simp [prog2])
  select := by intro x a b h; unfold D2 at h; split at h <;> cases h
  phi := by intro x inc h; unfold D2 at h; split at h <;> cases h

def tr2 : List (Nat × (Nat × Nat)) := [(3, (1, 8)), (2, (1, 4)), (4, (4, 0)), (1, (1, 0))]

theorem flow2 : Flow Prod.fst D2 prog2 1 tr2 := .derive (.derive (.root (.root .nil rfl rfl) rfl rfl) rfl (q := (1, 0)) (by simp) rfl) rfl (q := (1, 4)) (by simp) rfl

example : ((4, 0) : Nat × Nat).1 ≠ 1 :=
  (C100_storeOnly_partial closed2 agree2 rfl (by intro a v h; simp [prog2] at h) flow2 (a := 3) (v := 7) (b := false) (by decide)).2 (ops := [4]) (y := 4) (by simp [prog2]) (by simp) (by simp [tr2])

/-- a GEP of allocation 1 is stored to allocation 4, loaded again as 5, and dereferenced; the store to 1 is removed all the same (Finding 99) -/
def D3 : Nat → Def
  | 1 => .root | 2 => .derive 1 | 4 => .root | _ => .other
def prog3 : List SInst := [.gep 2 1, .store 2 7 false, .store 4 2 true, .oth [4], .oth [5]]

theorem store_gep_bad : removed (bases (fun _ => none) D3 [2]) prog3 1 (.store 2 7 false) = true ∧
    ∃ t : List (Nat × (Nat × Nat)), Flow Prod.fst D3 prog3 1 t ∧ ∃ p, SInst.oth [5] ∈ prog3 ∧ (5, p) ∈ t ∧ p.1 = 1 :=
  ⟨by decide, [(5, (1, 4)), (4, (4, 0)), (2, (1, 4)), (1, (1, 0))],
    .other (.root (.derive (.root .nil rfl rfl) rfl (q := (1, 0)) (by simp) rfl) rfl rfl) rfl (fun _ => ⟨2, (1, 4), Or.inl ⟨4, by simp [prog3]⟩, by simp, rfl⟩), (1, 4), by simp [prog3], by simp, rfl⟩

end Ex

end Cmmc.PtrBase
