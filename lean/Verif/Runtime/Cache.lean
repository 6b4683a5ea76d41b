import Mathlib.Tactic.Linarith
/-!
# Memoisation of pure recursive functions: `cmmcCacheLookup` (cmmc/Runtime/cmmc_sysy_rt.cpp:278-299) and the `StatelessCache` pass
(cmmc/Transforms/Misc/StatelessCache.cpp:52-145): C22

A pure function of two `int` arguments is given by its code: for every argument pair a decision tree that may call the function
recursively any number of times (`hasRecursive`: the pass requires that it calls nothing else). Functions of one argument get the
constant 0 as second key (lines 119-120 of the pass). `float` arguments are bit-cast, so they are bit patterns as well.
-/
namespace Cmmc.Cache

abbrev Args := BitVec 32 × BitVec 32

/-- the body of a pure recursive function, after its arguments are known -/
inductive Body
  | ret (v : BitVec 32)
  | call (a : Args) (k : BitVec 32 → Body)

/-- `LUTEntry` (lines 279-283) -/
structure Entry where
  key : BitVec 64
  val : BitVec 32
  hasVal : Bool
deriving DecidableEq

abbrev Table := Nat → Entry

def Table.set (t : Table) (i : Nat) (e : Entry) : Table := fun j => if j = i then e else t j

/-- line 286: `static_cast<uint64_t>(key1) << 32 | static_cast<uint64_t>(key2)`; the casts sign-extend -/
def keyOf (a : Args) : BitVec 64 := (a.1.signExtend 64 <<< 32) ||| a.2.signExtend 64

/-- line 287 -/
def slotOf (a : Args) : Nat := (keyOf a).toNat % 1021

/-- the probing loop (lines 291-306): slot found, or `none` when it ends with `break`; `count` starts at 5 -/
def probe (t : Table) (key : BitVec 64) (hb : Nat) (count cur : Nat) : Option Nat :=
  if (t cur).hasVal = false then some cur
  else if (t cur).key = key then some cur
  else if count + 1 ≥ 5 then none
  else
    let cur := cur + hb
    probe t key hb (count + 1) (if cur ≥ 1021 then cur - 1021 else cur)
termination_by 5 - count

/-- `cmmcCacheLookup` (lines 285-312): the slot returned and the table afterwards -/
def lookup (t : Table) (a : Args) : Nat × Table :=
  let key := keyOf a
  let ha := key.toNat % 1021
  match probe t key (1 + key.toNat % 1019) 5 ha with
  | some p => (p, if (t p).hasVal then t else t.set p { t p with key := key })
  | none => (ha, t.set ha { t ha with hasVal := false, key := key })

/-- the function before the pass (big-step) -/
inductive Eval (code : Args → Body) : Body → BitVec 32 → Prop
  | ret {v} : Eval code (.ret v) v
  | call {a k r v} : Eval code (code a) r → Eval code (k r) v → Eval code (.call a k) v

/-- the function after the pass: `MBody` runs a body in a table; `MCall` is the whole transformed function (entry block with the
lookup, early exit, evaluation, stores before each return) -/
inductive MBody (code : Args → Body) : Table → Body → BitVec 32 → Table → Prop
  | ret {t v} : MBody code t (.ret v) v t
  /-- early exit: the slot has a value -/
  | hit {t a k v t'} : ((lookup t a).2 (lookup t a).1).hasVal = true →
      MBody code (lookup t a).2 (k ((lookup t a).2 (lookup t a).1).val) v t' → MBody code t (.call a k) v t'
  /-- evaluate, then store `hasVal = 1` and the value through the pointers obtained on entry -/
  | miss {t a k r t1 v t'} : ((lookup t a).2 (lookup t a).1).hasVal = false → MBody code (lookup t a).2 (code a) r t1 →
      MBody code (t1.set (lookup t a).1 { t1 (lookup t a).1 with hasVal := true, val := r }) (k r) v t' →
      MBody code t (.call a k) v t'

/-- table before the first call: a zero-initialised global -/
def emptyTable : Table := fun _ => ⟨0, 0, false⟩

/-! ## lookup -/

theorem probe5 (t : Table) (key : BitVec 64) (hb cur : Nat) :
    probe t key hb 5 cur = if (t cur).hasVal = false ∨ (t cur).key = key then some cur else none := by
  rw [probe]
  by_cases h1 : (t cur).hasVal = false
  · simp [h1]
  · by_cases h2 : (t cur).key = key <;> simp [h1, h2]

/-- what the lookup amounts to -/
def lookup' (t : Table) (a : Args) : Nat × Table :=
  (slotOf a,
    if (t (slotOf a)).hasVal = false then t.set (slotOf a) { t (slotOf a) with key := keyOf a }
    else if (t (slotOf a)).key = keyOf a then t
    else t.set (slotOf a) { t (slotOf a) with hasVal := false, key := keyOf a })

theorem lookup_eq (t : Table) (a : Args) : lookup t a = lookup' t a := by
  unfold lookup lookup'
  simp only [probe5]
  have hs : (keyOf a).toNat % 1021 = slotOf a := rfl
  rw [hs]
  by_cases h1 : (t (slotOf a)).hasVal = false
  · rw [if_pos (Or.inl h1), if_pos h1]
    simp [h1]
  · rw [if_neg h1]
    by_cases h2 : (t (slotOf a)).key = keyOf a
    · rw [if_pos (Or.inr h2), if_pos h2]
      have h1 : (t (slotOf a)).hasVal = true := by simpa using h1
      simp [h1]
    · rw [if_neg (by simp [h1, h2]), if_neg h2]

/-- the lookup always returns the slot of the key, sets its key, keeps the value only if the key was right, and leaves every other
slot alone -/
theorem lookup_spec (t : Table) (a : Args) :
    (lookup t a).1 = slotOf a ∧ (∀ j, j ≠ slotOf a → (lookup t a).2 j = t j) ∧ ((lookup t a).2 (slotOf a)).key = keyOf a ∧
    (((lookup t a).2 (slotOf a)).hasVal = true → t (slotOf a) = (lookup t a).2 (slotOf a)) := by
  rw [lookup_eq]
  unfold lookup'
  have hs : (keyOf a).toNat % 1021 = slotOf a := rfl
  by_cases h1 : (t (slotOf a)).hasVal = false
  · rw [if_pos h1]
    exact ⟨rfl, fun j hj => by simp [Table.set, hj], by simp [Table.set], fun h => by simp [Table.set, h1] at h⟩
  · rw [if_neg h1]
    by_cases h2 : (t (slotOf a)).key = keyOf a
    · rw [if_pos h2]
      exact ⟨rfl, fun _ _ => rfl, h2, fun _ => rfl⟩
    · rw [if_neg h2]
      exact ⟨rfl, fun j hj => by simp [Table.set, hj], by simp [Table.set], fun h => by simp [Table.set] at h⟩

/-! ## keys -/

/-- with a non-negative second argument (in particular for one-argument functions) keys identify the arguments -/
theorem keyOf_inj {a b : Args} (ha : a.2.msb = false) (hb : b.2.msb = false) (h : keyOf a = keyOf b) : a = b := by
  have bit : ∀ (c : Args), c.2.msb = false → ∀ i, (keyOf c).getLsbD i =
      (if i < 32 then c.2.getLsbD i else (decide (i < 64) && c.1.getLsbD (i - 32))) := by
    intro c hc i
    unfold keyOf
    rw [BitVec.getLsbD_or, BitVec.getLsbD_shiftLeft, BitVec.getLsbD_signExtend, BitVec.getLsbD_signExtend]
    by_cases h1 : i < 32
    · simp [h1, show i < 64 by omega]
    · by_cases h2 : i < 64
      · simp [h1, h2, hc, show i - 32 < 32 by omega, show i - 32 < 64 by omega]
      · simp [h1, h2]
  refine Prod.ext ?_ ?_
  · apply BitVec.eq_of_getLsbD_eq
    intro i hi
    have h1 := bit a ha (i + 32)
    have h2 := bit b hb (i + 32)
    rw [h] at h1
    rw [h1] at h2
    simpa [show ¬ (i + 32 < 32) by omega, show i + 32 < 64 by omega] using h2
  · apply BitVec.eq_of_getLsbD_eq
    intro i hi
    have h1 := bit a ha i
    have h2 := bit b hb i
    rw [h] at h1
    rw [h1] at h2
    simpa [hi] using h2

/-- without that condition they do not: the sign extension of the second argument overwrites the first one -/
theorem C22_key_collision : keyOf (1, -1) = keyOf (2, -1) := by decide

/-! ## correctness -/

/-- `b` is called directly by a body, for some results of the earlier calls -/
inductive Calls : Body → Args → Prop
  | here {a k} : Calls (.call a k) a
  | later {a k r b} : Calls (k r) b → Calls (.call a k) b

/-- `b` may be active (at some depth) during the evaluation of `a` -/
inductive Below (code : Args → Body) : Args → Args → Prop
  | direct {a b} : Calls (code a) b → Below code a b
  | trans {a b c} : Calls (code a) b → Below code b c → Below code a c

/-- the arguments the program may use: closed under recursive calls; keys identify arguments; no call nested inside another one (at
any depth) uses the slot of the outer one -/
structure Safe (code : Args → Body) (A : Args → Prop) : Prop where
  closed : ∀ a b, A a → Calls (code a) b → A b
  keys : ∀ a b, A a → A b → keyOf a = keyOf b → a = b
  nest : ∀ a b, A a → Below code a b → slotOf a ≠ slotOf b

/-- all cached values are right -/
def TableOK (code : Args → Body) (A : Args → Prop) (t : Table) : Prop :=
  ∀ a, A a → (t (slotOf a)).hasVal = true → (t (slotOf a)).key = keyOf a → Eval code (code a) (t (slotOf a)).val

/-- slots that a body (at any depth) may touch -/
def Touches (code : Args → Body) (b : Body) (j : Nat) : Prop := ∃ c, Calls b c ∧ (slotOf c = j ∨ ∃ d, Below code c d ∧ slotOf d = j)

theorem mbody_frame {code : Args → Body} {t t' : Table} {b : Body} {v : BitVec 32} (h : MBody code t b v t') :
    ∀ j, ¬ Touches code b j → t' j = t j := by
  induction h with
  | ret => intro j _; rfl
  | @hit t a k v t' hh _ ih =>
    intro j hj
    have hja : j ≠ slotOf a := fun e => hj ⟨a, .here, Or.inl e.symm⟩
    rw [ih j (fun ⟨c, hc, h⟩ => hj ⟨c, .later hc, h⟩), (lookup_spec t a).2.1 j hja]
  | @miss t a k r t1 v t' hh _ _ ih1 ih2 =>
    intro j hj
    have hja : j ≠ slotOf a := fun e => hj ⟨a, .here, Or.inl e.symm⟩
    rw [ih2 j (fun ⟨c, hc, h⟩ => hj ⟨c, .later hc, h⟩)]
    simp only [Table.set, (lookup_spec t a).1]
    rw [if_neg hja, ih1 j, (lookup_spec t a).2.1 j hja]
    rintro ⟨c, hc, h | ⟨d, hd, h⟩⟩
    · exact hj ⟨a, .here, Or.inr ⟨c, .direct hc, h⟩⟩
    · exact hj ⟨a, .here, Or.inr ⟨d, .trans hc hd, h⟩⟩

theorem lookup_ok {code : Args → Body} {A : Args → Prop} {t : Table} (ht : TableOK code A t) (a : Args) : TableOK code A (lookup t a).2 := by
  obtain ⟨h1, h2, h3, h4⟩ := lookup_spec t a
  intro b hb hv hk
  by_cases e : slotOf b = slotOf a
  · rw [e] at hv hk ⊢
    have := h4 hv
    rw [← this] at hv hk ⊢
    rw [← e] at hv hk ⊢
    exact ht b hb hv hk
  · rw [h2 _ e] at hv hk ⊢
    exact ht b hb hv hk

theorem not_touch_self {code : Args → Body} {A : Args → Prop} (hS : Safe code A) {a : Args} (ha : A a) : ¬ Touches code (code a) (slotOf a) := by
  rintro ⟨c, hc, h | ⟨d, hd, h⟩⟩
  · exact hS.nest a c ha (.direct hc) h.symm
  · exact hS.nest a d ha (.trans hc hd) h.symm

theorem store_ok {code : Args → Body} {A : Args → Prop} (hS : Safe code A) {t t1 : Table} {a : Args} {r : BitVec 32} (ha : A a)
    (h1 : MBody code (lookup t a).2 (code a) r t1) (ht1 : TableOK code A t1) (hr : Eval code (code a) r) :
    TableOK code A (t1.set (lookup t a).1 { t1 (lookup t a).1 with hasVal := true, val := r }) := by
  obtain ⟨e1, e2, e3, e4⟩ := lookup_spec t a
  have hfr := mbody_frame h1 (slotOf a) (not_touch_self hS ha)
  intro b hb hv hk
  rw [e1] at hv hk ⊢
  by_cases e : slotOf b = slotOf a
  · simp only [Table.set, e, if_true] at hk ⊢
    rw [hfr, e3] at hk
    have := hS.keys a b ha hb hk
    subst this
    exact hr
  · simp only [Table.set, if_neg e] at hv hk ⊢
    exact ht1 b hb hv hk

theorem eval_det {code : Args → Body} {b : Body} {v v' : BitVec 32} (h : Eval code b v) (h' : Eval code b v') : v = v' := by
  induction h generalizing v' with
  | ret => cases h'; rfl
  | call _ _ ih1 ih2 =>
    cases h' with
    | call g1 g2 => have := ih1 g1; subst this; exact ih2 g2

theorem mbody_sound {code : Args → Body} {A : Args → Prop} (hS : Safe code A) {t t' : Table} {b : Body} {v : BitVec 32}
    (h : MBody code t b v t') : TableOK code A t → (∀ c, Calls b c → A c) → Eval code b v ∧ TableOK code A t' := by
  induction h with
  | ret => intro ht _; exact ⟨.ret, ht⟩
  | @hit t a k v t' hh _ ih =>
    intro ht hA
    have ha := hA a .here
    obtain ⟨e1, e2, e3, e4⟩ := lookup_spec t a
    have hok := lookup_ok ht a
    rw [e1] at hh ih
    obtain ⟨g1, g2⟩ := ih hok (fun c hc => hA c (.later hc))
    exact ⟨.call (hok a ha hh e3) g1, g2⟩
  | @miss t a k r t1 v t' hh h1 _ ih1 ih2 =>
    intro ht hA
    have ha := hA a .here
    obtain ⟨g1, g2⟩ := ih1 (lookup_ok ht a) (fun c hc => hS.closed a c ha hc)
    obtain ⟨g3, g4⟩ := ih2 (store_ok hS ha h1 g2 g1) (fun c hc => hA c (.later hc))
    exact ⟨.call g1 g3, g4⟩

theorem mbody_complete {code : Args → Body} {A : Args → Prop} (hS : Safe code A) {b : Body} {v : BitVec 32} (h : Eval code b v) :
    ∀ t, TableOK code A t → (∀ c, Calls b c → A c) → ∃ t', MBody code t b v t' := by
  induction h with
  | ret => intro t _ _; exact ⟨t, .ret⟩
  | @call a k r v h1 h2 ih1 ih2 =>
    intro t ht hA
    have ha := hA a .here
    obtain ⟨e1, e2, e3, e4⟩ := lookup_spec t a
    have hok := lookup_ok ht a
    have hA' : ∀ c, Calls (k r) c → A c := fun c hc => hA c (.later hc)
    by_cases hh : ((lookup t a).2 (lookup t a).1).hasVal = true
    · have hv : ((lookup t a).2 (lookup t a).1).val = r := by
        rw [e1] at hh ⊢
        exact eval_det (hok a ha hh e3) h1
      obtain ⟨t', g⟩ := ih2 _ hok hA'
      refine ⟨t', .hit hh ?_⟩
      rw [hv]; exact g
    · have hh : ((lookup t a).2 (lookup t a).1).hasVal = false := by simpa using hh
      obtain ⟨t1, g1⟩ := ih1 _ hok (fun c hc => hS.closed a c ha hc)
      have ok1 := (mbody_sound hS g1 hok (fun c hc => hS.closed a c ha hc)).2
      obtain ⟨t', g2⟩ := ih2 _ (store_ok hS ha g1 ok1 h1) hA'
      exact ⟨t', .miss hh g1 g2⟩

/-- a program calling the transformed function on a list of arguments, one after the other -/
def history (l : List Args) (k : List (BitVec 32) → Body) : Body :=
  match l with
  | [] => k []
  | a :: l => .call a fun r => history l fun rs => k (r :: rs)

theorem tableOK_empty (code : Args → Body) (A : Args → Prop) : TableOK code A emptyTable := by
  intro a _ h; simp [emptyTable] at h

/-- C22 (partial). For a client program `main` (any sequence of calls, each depending on earlier results) whose calls stay inside a
set `A` of arguments that is closed under recursion, on which keys identify the arguments and on which no call nested in another one
uses the outer one's slot: the program computes `v` with the memoised function iff it computes `v` with the original one. Missing:
the two conditions on keys and nested slots cannot be dropped, see `C22_key_collision_witness` and `C22_nested_rekey_witness`; the
pass does not check them. -/
theorem C22_memo_correct_partial (code : Args → Body) (A : Args → Prop) (hS : Safe code A) (main : Body) (hm : ∀ c, Calls main c → A c)
    (v : BitVec 32) : (∃ t', MBody code emptyTable main v t') ↔ Eval code main v := by
  constructor
  · rintro ⟨t', h⟩
    exact (mbody_sound hS h (tableOK_empty code A) hm).1
  · intro h
    exact mbody_complete hS h _ (tableOK_empty code A) hm

/-! ## the conditions are met by a real function, and are needed -/

/-- the naive Fibonacci function, cut off above `n` -/
def fib (n : Nat) (a : Args) : Body :=
  if a.1.toNat < 2 ∨ n < a.1.toNat then .ret a.1 else .call (a.1 - 1, 0) fun x => .call (a.1 - 2, 0) fun y => .ret (x + y)

theorem slot_zero : ∀ x y : BitVec 32, x.toNat < 1021 → y.toNat < 1021 → slotOf (x, 0) = slotOf (y, 0) → x = y := by
  have key : ∀ x : BitVec 32, x.toNat < 1021 → (keyOf (x, 0)).toNat = x.toNat * 4294967296 := by
    intro x hx
    unfold keyOf
    have hm : x.msb = false := by rw [BitVec.msb_eq_false_iff_two_mul_lt]; omega
    rw [BitVec.toNat_or, BitVec.toNat_shiftLeft, BitVec.signExtend_eq_setWidth_of_msb_false hm]
    simp only [BitVec.toNat_setWidth]
    rw [Nat.mod_eq_of_lt (a := x.toNat) (by omega), Nat.shiftLeft_eq, Nat.mod_eq_of_lt (by omega)]
    simp
  intro x y hx hy h
  unfold slotOf at h
  rw [key x hx, key y hy] at h
  apply BitVec.eq_of_toNat_eq
  omega

/-- Fibonacci on arguments below 1021 is safe to memoise: the hypotheses of `C22_memo_correct_partial` hold -/
theorem fib_safe : Safe (fib 1020) (fun a => a.2 = 0 ∧ a.1.toNat < 1021) := by
  have calls : ∀ a b : Args, Calls (fib 1020 a) b → b.2 = 0 ∧ b.1.toNat < a.1.toNat ∧ a.1.toNat ≤ 1020 := by
    intro a b h
    unfold fib at h
    split at h
    · cases h
    · rename_i hn
      have hb : 2 ≤ a.1.toNat ∧ a.1.toNat ≤ 1020 := by omega
      cases h with
      | here =>
        refine ⟨rfl, ?_, hb.2⟩
        have h1 : (1 : BitVec 32).toNat = 1 := rfl
        simp only [BitVec.toNat_sub, h1]
        omega
      | later h =>
        cases h with
        | here =>
          refine ⟨rfl, ?_, hb.2⟩
          have h1 : (2 : BitVec 32).toNat = 2 := rfl
          simp only [BitVec.toNat_sub, h1]
          omega
        | later h => cases h
  have below : ∀ a b : Args, Below (fib 1020) a b → b.2 = 0 ∧ b.1.toNat < a.1.toNat ∧ a.1.toNat ≤ 1020 := by
    intro a b h
    induction h with
    | direct h => exact calls _ _ h
    | trans h _ ih =>
      have := calls _ _ h
      exact ⟨ih.1, by omega, this.2.2⟩
  refine ⟨?_, ?_, ?_⟩
  · rintro a b ⟨_, _⟩ h
    have := calls a b h
    exact ⟨this.1, by omega⟩
  · rintro ⟨x, _⟩ ⟨y, _⟩ ⟨rfl, hx⟩ ⟨h2, hy⟩ h
    simp only at h2; subst h2
    exact keyOf_inj (show (0 : BitVec 32).msb = false by decide) (show (0 : BitVec 32).msb = false by decide) h
  · rintro ⟨x, _⟩ ⟨y, _⟩ ⟨rfl, hx⟩ h he
    obtain ⟨h1, h2, h3⟩ := below _ _ h
    simp only at h1; subst h1
    have := slot_zero x y hx (by simp only at h2 h3 hx ⊢; omega) he
    subst this
    simp at h2

/-- derived rules with the value and the slot spelled out -/
theorem MBody.hit' {code : Args → Body} {t a k v t'} (r : BitVec 32) (h : ((lookup' t a).2 (lookup' t a).1).hasVal = true)
    (hr : ((lookup' t a).2 (lookup' t a).1).val = r) (hb : MBody code (lookup' t a).2 (k r) v t') : MBody code t (.call a k) v t' := by
  rw [← lookup_eq] at h hr hb
  subst hr
  exact .hit h hb

theorem MBody.miss' {code : Args → Body} {t a k v t'} (r : BitVec 32) (t1 : Table)
    (h : ((lookup' t a).2 (lookup' t a).1).hasVal = false) (hb : MBody code (lookup' t a).2 (code a) r t1)
    (hc : MBody code (t1.set (lookup' t a).1 { t1 (lookup' t a).1 with hasVal := true, val := r }) (k r) v t') :
    MBody code t (.call a k) v t' := by
  rw [← lookup_eq] at h hb hc
  exact .miss h hb hc

/-- a function of two arguments whose keys collide: `g (a, b) = a` -/
def gCode (a : Args) : Body := .ret a.1

/-- C22 fails for arguments with a negative second component: after `g(1,-1)` the memoised `g(2,-1)` returns 1. -/
theorem C22_key_collision_witness :
    Eval gCode (.call (1, -1) fun _ => .call (2, -1) fun y => .ret y) 2 ∧
    ∃ t', MBody gCode emptyTable (.call (1, -1) fun _ => .call (2, -1) fun y => .ret y) 1 t' := by
  refine ⟨.call .ret (.call .ret .ret), ?_⟩
  constructor
  apply MBody.miss' 1
  · decide
  · exact .ret
  · exact MBody.hit' 1 (by decide) (by decide) .ret

/-- `h 1021 = h 0 + h 0`, `h 0 = 5`: both arguments use slot 0 -/
def hCode (a : Args) : Body := if a.1 = 1021 then .call (0, 0) fun x => .call (0, 0) fun y => .ret (x + y) else .ret 5

/-- C22 fails when a nested call uses the slot of an outer one: evaluating `h 1021` re-keys the slot to 0 and then stores `h 1021` in
it, so that afterwards the memoised `h 0` returns 10 instead of 5. -/
theorem C22_nested_rekey_witness :
    Eval hCode (.call (1021, 0) fun _ => .call (0, 0) fun y => .ret y) 5 ∧
    ∃ t', MBody hCode emptyTable (.call (1021, 0) fun _ => .call (0, 0) fun y => .ret y) 10 t' := by
  have h5 : hCode (0, 0) = .ret 5 := by simp [hCode]
  have hb : hCode (1021, 0) = .call (0, 0) fun x => .call (0, 0) fun y => .ret (x + y) := by simp [hCode]
  constructor
  · refine .call (r := 10) ?_ (.call (r := 5) (by rw [h5]; exact .ret) .ret)
    rw [hb]
    exact .call (r := 5) (by rw [h5]; exact .ret) (.call (r := 5) (by rw [h5]; exact .ret) .ret)
  · constructor
    apply MBody.miss' 10
    · decide
    · rw [hb]
      apply MBody.miss' 5
      · decide
      · rw [h5]; exact .ret
      · exact MBody.hit' 5 (by decide) (by decide) .ret
    · exact MBody.hit' 10 (by decide) (by decide) .ret

end Cmmc.Cache
