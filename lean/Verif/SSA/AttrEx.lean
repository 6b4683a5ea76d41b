import Verif.SSA.AttrMain
import Verif.SSA.CutEx
/-!
# C86 on a concrete language with a stack
-/
namespace Cmmc.SSA.Ex
open Cmmc.SSA

/-- opcodes; `call` calls function 0, `callPtr` a function that reads the global at address -1 -/
inductive AOp
  | alloc
  | load
  | store
  | gep
  | sel
  | add
  | lt
  | call
  | print
  | callPtr
  deriving DecidableEq

/-- contents, the first address of the frame of the running function, the first free address -/
structure AMem where
  mem : Int → Int
  fb : Int
  sp : Int

/-- a language where addresses are integers: globals are negative, frames follow each other upwards from 0 -/
def aSem : AOp → List Int → AMem → Res Int AMem Int Unit
  | .alloc, [], m => if m.fb ≤ m.sp then .ok m.sp ⟨fun a => if a = m.sp then 0 else m.mem a, m.fb, m.sp + 1⟩ [] else .ub
  | .load, [a], m => if a < m.sp then .ok (m.mem a) m [] else .ub
  | .store, [a, v], m => if a < m.sp then .ok 0 ⟨fun x => if x = a then v else m.mem x, m.fb, m.sp⟩ [] else .ub
  | .gep, [i, a], m => if m.fb ≤ a ∧ a + i < m.fb then .ub else .ok (a + i) m []
  | .sel, [c, a, b], m => .ok (if c = 0 then b else a) m []
  | .add, [a, b], m => .ok (a + b) m []
  | .lt, [a, b], m => .ok (if a < b then 1 else 0) m []
  | .print, [a], m => .ok 0 m [a]
  | .callPtr, [], m => .ok (m.mem (-1)) m []
  | _, _, _ => .ub

/-- constants from 1000 on are parameters -/
def AL : Lang where
  V := Int
  M := AMem
  E := Int
  H := Unit
  Op := AOp
  C := Int
  decOp := inferInstance
  decC := inferInstance
  cval := id
  sem := aSem
  truth := fun v => some (v != 0)
  key := some

def AV : Frames AL where
  param := fun (c : Int) => if 1000 ≤ c then some (c - 1000).toNat else none
  callee := fun (op : AOp) => if op = .call then some 0 else none
  enter := fun (m : AMem) => ⟨m.mem, m.sp, m.sp⟩
  leave := fun (m mc : AMem) => ⟨fun a => if a < m.sp then mc.mem a else m.mem a, m.fb, m.sp⟩
  void := (0 : Int)

def aKind : AOp → OpKind
  | .alloc => .alloc
  | .load => .load
  | .store => .store
  | .gep => .gep
  | .sel => .select
  | .print => .ext ⟨false, true, true, false, false, true⟩
  | .callPtr => .indirect
  | _ => .other

/-- what the memories `m` and `m'` have in common if they differ only outside of `r` -/
def aEqv (r : Int → Prop) (m m' : AMem) : Prop := m.fb = m'.fb ∧ m.sp = m'.sp ∧ m.fb ≤ m.sp ∧ ∀ a, r a → a < m.sp → m.mem a = m'.mem a

/-- the cases in which an opcode is defined -/
inductive AStep : AOp → List Int → AMem → Int → AMem → List Int → Prop
  | alloc (m : AMem) (h : m.fb ≤ m.sp) : AStep .alloc [] m m.sp ⟨fun a => if a = m.sp then 0 else m.mem a, m.fb, m.sp + 1⟩ []
  | load (m : AMem) (a : Int) (h : a < m.sp) : AStep .load [a] m (m.mem a) m []
  | store (m : AMem) (a v : Int) (h : a < m.sp) : AStep .store [a, v] m 0 ⟨fun x => if x = a then v else m.mem x, m.fb, m.sp⟩ []
  | gep (m : AMem) (i a : Int) (h : ¬ (m.fb ≤ a ∧ a + i < m.fb)) : AStep .gep [i, a] m (a + i) m []
  | sel (m : AMem) (c a b : Int) : AStep .sel [c, a, b] m (if c = 0 then b else a) m []
  | add (m : AMem) (a b : Int) : AStep .add [a, b] m (a + b) m []
  | lt (m : AMem) (a b : Int) : AStep .lt [a, b] m (if a < b then 1 else 0) m []
  | print (m : AMem) (a : Int) : AStep .print [a] m 0 m [a]
  | callPtr (m : AMem) : AStep .callPtr [] m (m.mem (-1)) m []

theorem AStep.of {op : AOp} {vs : List Int} {m m' : AMem} {v : Int} {es : List Int} (h : aSem op vs m = .ok v m' es) : AStep op vs m v m' es := by
  unfold aSem at h
  split at h <;> (try split at h) <;> first | (cases h; done) | skip
  all_goals (simp only [Res.ok.injEq] at h; obtain ⟨rfl, rfl, rfl⟩ := h)
  · exact .alloc _ ‹_›
  · exact .load _ _ ‹_›
  · exact .store _ _ _ ‹_›
  · exact .gep _ _ _ ‹_›
  · rename_i c a b hc; have := AStep.sel m c a b; rw [if_pos hc] at this; exact this
  · rename_i c a b hc; have := AStep.sel m c a b; rw [if_neg hc] at this; exact this
  · exact .add _ _ _
  · rename_i a b hc; have := AStep.lt m a b; rw [if_pos hc] at this; exact this
  · rename_i a b hc; have := AStep.lt m a b; rw [if_neg hc] at this; exact this
  · exact .print _ _
  · exact .callPtr _

theorem AStep.to {op : AOp} {vs : List Int} {m m' : AMem} {v : Int} {es : List Int} (h : AStep op vs m v m' es) : aSem op vs m = .ok v m' es := by
  cases h <;> simp_all [aSem]

theorem aSem_halt (op : AOp) (vs : List Int) (m : AMem) (es : List Int) (h : Unit) : aSem op vs m ≠ .halt es h := by
  intro hs
  unfold aSem at hs
  split at hs <;> (try split at hs) <;> cases hs

theorem aWrites {op : AOp} {vs : List Int} {m m' : AMem} {v : Int} {es : List Int} (h : AStep op vs m v m' es) (hst : op = .store → ∃ a, vs[0]? = some a ∧ m.fb ≤ a) : m.fb = m'.fb ∧ ∀ a, a < m.fb → m.mem a = m'.mem a := by
  cases h with
  | alloc _ h => exact ⟨rfl, fun a ha => by dsimp only; rw [if_neg (by omega)]⟩
  | store _ a w h =>
    obtain ⟨a', h1, h2⟩ := hst rfl
    simp only [List.getElem?_cons_zero, Option.some.injEq] at h1
    subst h1
    exact ⟨rfl, fun x hx => by dsimp only; rw [if_neg (by omega)]⟩
  | _ => exact ⟨rfl, fun _ _ => rfl⟩

theorem aReads {op : AOp} {vs : List Int} {m m' m1 : AMem} {v : Int} {es : List Int} {r : Int → Prop} (he : aEqv r m m') (h : AStep op vs m v m1 es)
    (hl : op = .load → (∃ a, vs[0]? = some a ∧ m.fb ≤ a) ∧ ∃ r' : Int → Prop, r = fun a => r' a ∨ m.fb ≤ a) (hi : op ≠ .callPtr) : ∃ m1', AStep op vs m' v m1' es ∧ aEqv r m1 m1' := by
  obtain ⟨h1, h2, h3, h4⟩ := he
  cases h with
  | alloc _ h =>
    refine ⟨⟨fun a => if a = m'.sp then 0 else m'.mem a, m'.fb, m'.sp + 1⟩, ?_, h1, congrArg (· + 1) h2, by dsimp only; omega, ?_⟩
    · rw [h2]; exact .alloc m' (by omega)
    · intro a ha hlt
      dsimp only at hlt ⊢
      rw [← h2]
      by_cases hc : a = m.sp
      · rw [if_pos hc, if_pos hc]
      · rw [if_neg hc, if_neg hc]; exact h4 a ha (by omega)
  | store _ a w h =>
    refine ⟨⟨fun x => if x = a then w else m'.mem x, m'.fb, m'.sp⟩, .store m' a w (by omega), h1, h2, h3, ?_⟩
    intro x hx hlt
    dsimp only at hlt ⊢
    by_cases hc : x = a
    · rw [if_pos hc, if_pos hc]
    · rw [if_neg hc, if_neg hc]; exact h4 x hx hlt
  | load _ a h =>
    obtain ⟨⟨a', h5, h6⟩, r', rfl⟩ := hl rfl
    simp only [List.getElem?_cons_zero, Option.some.injEq] at h5
    subst h5
    refine ⟨m', ?_, h1, h2, h3, h4⟩
    rw [h4 a (.inr h6) h]
    exact .load m' a (by omega)
  | gep _ i a h => exact ⟨m', .gep m' i a (by rw [← h1]; exact h), h1, h2, h3, h4⟩
  | sel => exact ⟨m', .sel m' _ _ _, h1, h2, h3, h4⟩
  | add => exact ⟨m', .add m' _ _, h1, h2, h3, h4⟩
  | lt => exact ⟨m', .lt m' _ _, h1, h2, h3, h4⟩
  | print => exact ⟨m', .print m' _, h1, h2, h3, h4⟩
  | callPtr => exact absurd rfl hi

/-- the laws hold -/
def aSpaces : Spaces AL AV aKind where
  Fr := Int
  frame := AMem.fb
  Stack := fun (fb a : Int) => fb ≤ a
  same := fun (m m' : AMem) => m.fb = m'.fb ∧ ∀ a, a < m.fb → m.mem a = m'.mem a
  Loc := Int → Prop
  eqv := aEqv
  own := fun (fb : Int) r a => r a ∨ fb ≤ a
  same_refl := fun m => ⟨rfl, fun _ _ => rfl⟩
  same_trans := fun m m' m'' h h' => ⟨h.1.trans h'.1, fun a ha => (h.2 a ha).trans (h'.2 a (h.1 ▸ ha))⟩
  same_leave := by
    rintro ⟨mem, fb, sp⟩ mc ⟨_, h⟩
    show (⟨_, _, _⟩ : AMem) = _
    congr 1
    funext a
    dsimp only
    split
    · rename_i ha; exact (h a ha).symm
    · rfl
  frame_leave := fun m mc => rfl
  frame_sem := by
    intro op vs m v m' es _ h
    cases AStep.of h <;> rfl
  eqv_enter := by
    rintro r m m' ⟨h1, h2, h3, h4⟩
    refine ⟨h2, h2, Int.le_refl _, ?_⟩
    rintro a (ha | ha) hlt
    · exact h4 a ha hlt
    · exact absurd (show a < AMem.sp m from hlt) (Int.not_lt.2 ha)
  eqv_leave := by
    rintro r m m' mc mc' ⟨h1, h2, h3, h4⟩ hf ⟨g1, g2, g3, g4⟩
    refine ⟨h1, h2, h3, ?_⟩
    intro a ha hlt
    have hf' : AMem.fb mc = AMem.sp m := hf
    have hlt' : a < AMem.sp m := hlt
    show (if a < AMem.sp m then AMem.mem mc a else AMem.mem m a) = if a < AMem.sp m' then AMem.mem mc' a else AMem.mem m' a
    rw [← h2, if_pos hlt', if_pos hlt']
    exact g4 a (.inl ha) (by omega)
  alloc := by
    intro op vs m v m' es _ hk h
    cases AStep.of h with
    | alloc _ hle => exact hle
    | _ => cases hk
  gep := by
    intro op vs m v m' es a _ hk h ha hs
    cases AStep.of h with
    | gep _ i b hn =>
      obtain rfl : b = a := Option.some.inj ha
      have hs' : AMem.fb m ≤ b := hs
      show AMem.fb m ≤ b + i
      by_contra hc
      exact hn ⟨hs', by omega⟩
    | _ => cases hk
  cast := by
    intro op vs m v m' es a _ hk
    cases op <;> rcases hk with hk | hk <;> cases hk
  select := by
    intro op vs m v m' es _ hk h
    cases AStep.of h with
    | sel _ c a b =>
      by_cases hc : c = (0 : Int)
      · right; show some b = some (if c = (0 : Int) then b else a); rw [if_pos hc]
      · left; show some a = some (if c = (0 : Int) then b else a); rw [if_neg hc]
    | _ => cases hk
  silent := by
    intro op vs m _ he hi
    refine ⟨?_, fun es h => aSem_halt op vs m es h⟩
    intro v m' es h
    cases AStep.of h with
    | print => exact absurd (he _ rfl) (by simp)
    | _ => rfl
  writes := by
    intro op vs m v m' es _ h hst _ _
    exact aWrites (AStep.of h) (fun hop => hst (.inl (by rw [hop]; rfl)))
  reads := by
    intro op vs m m' r _ he hl _ hi
    refine ⟨?_, fun es h hs => absurd hs (aSem_halt op vs m es h)⟩
    intro v m1 es h
    obtain ⟨m1', g1, g2⟩ := aReads he (AStep.of h) (fun hop => hl (.inl (by rw [hop]; rfl))) (fun hop => hi (by rw [hop]; rfl))
    exact ⟨m1', g1.to, g2⟩

/-- a function given by its blocks -/
def mkA (bs : List (Nat × Block AOp Int)) : Func AOp Int :=
  { entry := (bs.map Prod.fst).headD 0
    order := bs.map Prod.fst
    blk := fun b => (bs.find? (fun e => e.1 == b)).map Prod.snd }

def shapeB (bs : List (Nat × Block AOp Int)) : Bool :=
  decide (bs.map Prod.fst).Nodup && decide (mkA bs).allIds.Nodup && !bs.isEmpty && bs.all (fun e => e.2.term.targets.all (fun t => decide (t ∈ bs.map Prod.fst)))

theorem mkA_shape (bs : List (Nat × Block AOp Int)) (h : shapeB bs = true) : Shape (mkA bs) := by
  unfold shapeB at h
  simp only [Bool.and_eq_true, decide_eq_true_eq, List.all_eq_true] at h
  obtain ⟨⟨⟨h1, h2⟩, h3⟩, h4⟩ := h
  have hfind : ∀ b B, (mkA bs).blk b = some B → (b, B) ∈ bs := by
    intro b B hB
    simp only [mkA, Option.map_eq_some_iff] at hB
    obtain ⟨e, he, rfl⟩ := hB
    have := List.find?_some he
    simp only [beq_iff_eq] at this
    subst this
    exact List.mem_of_find?_eq_some he
  refine ⟨h1, fun b B hB => List.mem_map.2 ⟨_, hfind b B hB, rfl⟩, ?_, ?_, ?_, h2⟩
  · intro b hb
    obtain ⟨e, he, rfl⟩ := List.mem_map.1 hb
    cases hf : bs.find? (fun e' => e'.1 == e.1) with
    | none => rw [List.find?_eq_none] at hf; exact absurd (beq_self_eq_true e.1) (hf e he)
    | some e' => exact ⟨e'.2, by simp only [mkA, hf, Option.map_some]⟩
  · cases bs with
    | nil => simp at h3
    | cons e bs => simp [mkA]
  · rintro a b ⟨B, hB, ht⟩
    exact h4 _ (hfind a B hB) b ht

/-- `int f(int n) { int a[2]; int* p = n < 0 ? a : &a[1]; *p = n; while(0 < *p) { int r = f(*p + -1); *p = 0; return r + 2; } return *p; }`: reads and writes its frame, calls itself -/
def attrF : Func AOp Int := mkA
  [(0, ⟨[], [⟨10, .alloc, []⟩, ⟨11, .alloc, []⟩, ⟨12, .gep, [.cst 1, .inst 10]⟩, ⟨13, .lt, [.cst 1000, .cst 0]⟩, ⟨14, .sel, [.inst 13, .inst 10, .inst 12]⟩, ⟨15, .store, [.inst 14, .cst 1000]⟩], .br 1⟩),
   (1, ⟨[⟨16, [(0, .inst 14), (2, .inst 12)]⟩], [⟨17, .load, [.inst 16]⟩, ⟨18, .lt, [.cst 0, .inst 17]⟩], .cbr (.inst 18) 2 3⟩),
   (2, ⟨[], [⟨19, .add, [.inst 17, .cst (-1)]⟩, ⟨20, .call, [.inst 19]⟩, ⟨21, .add, [.inst 20, .cst 2]⟩, ⟨22, .store, [.inst 12, .cst 0]⟩], .cbr (.inst 21) 3 1⟩),
   (3, ⟨[⟨23, [(1, .inst 17), (2, .inst 21)]⟩], [], .ret (some (.inst 23))⟩)]

/-- a function that calls it and stores into the global at address -2 -/
def attrG : Func AOp Int := mkA [(0, ⟨[], [⟨30, .call, [.cst 1000]⟩, ⟨31, .store, [.cst (-2), .inst 30]⟩], .ret (some (.inst 30))⟩)]

/-- a function that calls `f` and prints its result, for ever -/
def attrH : Func AOp Int := mkA [(0, ⟨[], [⟨40, .call, [.cst 1000]⟩, ⟨41, .print, [.inst 40]⟩], .br 0⟩)]

/-- a function that calls a function through a pointer -/
def attrI : Func AOp Int := mkA [(0, ⟨[], [⟨50, .callPtr, []⟩], .ret (some (.inst 50))⟩)]

def attrP : Nat → Option AL.F
  | 0 => some attrF
  | 1 => some attrG
  | 2 => some attrH
  | _ => none

theorem attrP_shape : ∀ f F, attrP f = some F → Shape F := by
  intro f F hF
  match f, hF with
  | 0, hF => cases hF; exact mkA_shape _ (by decide +kernel)
  | 1, hF => cases hF; exact mkA_shape _ (by decide +kernel)
  | 2, hF => cases hF; exact mkA_shape _ (by decide +kernel)
  | n + 3, hF => cases hF

/-- nothing is known at first -/
def noAttrs : Nat → Attrs := fun _ => ⟨false, false, false, false, false, false⟩

theorem noAttrs_ok {L : Lang} {V : Frames L} {kind : L.Op → OpKind} (S : Spaces L V kind) (P : Nat → Option L.F) : AttrsOk S P noAttrs :=
  { noReturn := fun _ h => (nomatch h), noWrite := fun _ h => (nomatch h), noEffect := fun _ h => (nomatch h), noRead := fun _ _ h => (nomatch h), stateless := fun _ _ h => (nomatch h), noRecurse := fun _ _ _ h => (nomatch h) }

def attrAll : Nat → Attrs := inferModule AV.callee aKind (fun _ => 2) (fun _ => [0, 1, 2, 3]) [0, 1, 2] attrP noAttrs

/-- `f` gets `Stateless` although it reads, writes and calls itself; `g` writes but does not read; `h` does not return -/
theorem attrAll_eq : attrAll 0 = ⟨false, true, true, true, true, false⟩ ∧ attrAll 1 = ⟨false, true, false, false, false, true⟩ ∧ attrAll 2 = ⟨true, true, true, false, false, true⟩ := by
  refine ⟨?_, ?_, ?_⟩ <;> rfl

theorem attrAll_ok : AttrsOk aSpaces attrP attrAll := C86_functionAttrInfer aSpaces attrP_shape _ _ _ (noAttrs_ok _ _)

theorem attrP_noIndirect : NoIndirect (L := AL) aKind attrP := by
  have key : ∀ bs : List (Nat × Block AOp Int), shapeB bs = true → (bs.all (fun e => e.2.body.all (fun i => decide (i.op ≠ .callPtr)))) = true →
      ∀ b B, (mkA bs).blk b = some B → ∀ i ∈ B.body, aKind i.op ≠ .indirect := by
    intro bs _ h b B hB i hi hk
    simp only [mkA, Option.map_eq_some_iff] at hB
    obtain ⟨e, he, rfl⟩ := hB
    have h1 := List.all_eq_true.1 (List.all_eq_true.1 h e (List.mem_of_find?_eq_some he)) i hi
    simp only [decide_eq_true_eq] at h1
    cases ho : i.op <;> rw [ho] at hk h1 <;> first | (cases hk; done) | exact h1 rfl
  intro f F hF
  match f, hF with
  | 0, hF => cases hF; exact key _ (by decide +kernel) (by decide +kernel)
  | 1, hF => cases hF; exact key _ (by decide +kernel) (by decide +kernel)
  | 2, hF => cases hF; exact key _ (by decide +kernel) (by decide +kernel)
  | n + 3, hF => cases hF

/-- so every call of `f` that ends leaves the memory as it is, and its result depends on nothing in it -/
theorem attrF_stateless : NoEffectSem AV attrP 0 ∧ NoReadSem aSpaces attrP 0 := attrAll_ok.stateless attrP_noIndirect 0 (by rw [attrAll_eq.1])

/-- calls of `f` do end: in a memory with two frames -/
def attrM (x : Int) : AMem := ⟨fun a => if a = 3 then x else 0, 2, 5⟩

theorem attrF_call (d : Nat) (x : Int) : AV.call attrP (d + 1) 0 [(-5 : Int)] (attrM x) = .ok (-5 : Int) (attrM x) [] := by
  have h : Ends (AV.lang (AV.call attrP d) [(-5 : Int)]) attrF (AV.enter (attrM x))
      (.ret (some (-5 : Int)) ⟨fun a => if a = 5 then -5 else if a = 6 then 0 else if a = 5 then 0 else (attrM x).mem a, 5, 7⟩ []) := ⟨3, rfl⟩
  have h0 : AV.call attrP (d + 1) 0 [(-5 : Int)] (attrM x) = _ := Frames.invoke_eq (V := AV) h
  obtain ⟨v, hv⟩ := attrF_stateless.1 (d + 1) [(-5 : Int)] (attrM x) (by rw [h0]; simp [Frames.result])
  rw [hv] at h0
  simp only [Frames.result] at h0
  injection h0 with e1
  rw [hv, e1]
  rfl

/-- with calls through pointers the attribute `NoMemoryRead` is wrong: the function reads a global -/
theorem attr_indirect : (inferAttrs AV.callee aKind noAttrs [] 0 attrI).noRead = true ∧ ¬ NoReadSem aSpaces (fun f => if f = 0 then some attrI else none) 0 := by
  refine ⟨by rfl, ?_⟩
  intro h
  have key : ∀ x : Int, AV.call (fun f => if f = 0 then some attrI else none) 1 0 [] ⟨fun _ => x, 0, 0⟩ = .ok x ⟨fun a => if a < 0 then x else x, 0, 0⟩ [] := by
    intro x
    have h : Ends (AV.lang (AV.call (fun f => if f = 0 then some attrI else none) 0) []) attrI (AV.enter ⟨fun _ => x, 0, 0⟩) (.ret (some x) ⟨fun _ => x, 0, 0⟩ []) := ⟨1, rfl⟩
    exact Frames.invoke_eq (V := AV) h
  have := (h 1 [] ⟨fun _ => 0, 0, 0⟩ ⟨fun _ => 1, 0, 0⟩ (fun _ => False) ⟨rfl, rfl, Int.le_refl _, fun a ha => ha.elim⟩).1 _ _ _ (key 0)
  obtain ⟨m1, h1, _⟩ := this
  rw [key 1] at h1
  injection h1 with e1
  exact absurd (show (1 : Int) = 0 from e1) (by decide)

end Cmmc.SSA.Ex
