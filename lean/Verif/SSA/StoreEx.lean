import Verif.SSA.StorePass
import Verif.SSA.AttrEx
import Verif.SSA.SinkEx
/-!
# C87 on a concrete language with a stack
-/
namespace Cmmc.SSA.Ex
open Cmmc.SSA

abbrev zAlloc : XOp := .mul
abbrev zAtomic : XOp := .exit

/-- addresses are integers: globals are negative, frames follow each other upwards; `mul` is `alloca`, `exit` an atomic add -/
def zSem : XOp → List Int → AMem → Res Int AMem Int Unit
  | .mul, [], m => if m.fb ≤ m.sp then .ok m.sp ⟨fun a => if a = m.sp then 0 else m.mem a, m.fb, m.sp + 1⟩ [] else .ub
  | .load, [a], m => .ok (m.mem a) m []
  | .store, [a, v], m => .ok 0 ⟨fun x => if x = a then v else m.mem x, m.fb, m.sp⟩ []
  | .exit, [a, v], m => .ok (m.mem a) ⟨fun x => if x = a then m.mem a + v else m.mem x, m.fb, m.sp⟩ []
  | .add, [a, b], m => .ok (a + b) m []
  | .lt, [a, b], m => .ok (if a < b then 1 else 0) m []
  | .print, [a], m => .ok 0 m [a]
  | _, _, _ => .ub

def ZL : Lang where
  V := Int
  M := AMem
  E := Int
  H := Unit
  Op := XOp
  C := Int
  decOp := inferInstance
  decC := inferInstance
  cval := id
  sem := zSem
  truth := fun v => some (v != 0)
  key := some

/-- a new frame is empty; constants from 1000 on are parameters -/
def ZV : Frames ZL where
  param := fun (c : Int) => if 1000 ≤ c then some (c - 1000).toNat else none
  callee := fun _ => none
  enter := fun (m : AMem) => ⟨fun a => if a < m.sp then m.mem a else 0, m.sp, m.sp⟩
  leave := fun (m mc : AMem) => ⟨fun a => if a < m.sp then mc.mem a else m.mem a, m.fb, m.sp⟩
  void := (0 : Int)

def zKind : XOp → OpKind
  | .mul => .alloc
  | .load => .load
  | .store => .store
  | .exit => .atomic
  | .print => .ext ⟨false, true, true, false, false, true⟩
  | _ => .other

def zEqv (r : Int → Prop) (m m' : AMem) : Prop := m.fb = m'.fb ∧ m.sp = m'.sp ∧ ∀ a, r a → m.mem a = m'.mem a

inductive ZStep : XOp → List Int → AMem → Int → AMem → List Int → Prop
  | alloc (m : AMem) (h : m.fb ≤ m.sp) : ZStep .mul [] m m.sp ⟨fun a => if a = m.sp then 0 else m.mem a, m.fb, m.sp + 1⟩ []
  | load (m : AMem) (a : Int) : ZStep .load [a] m (m.mem a) m []
  | store (m : AMem) (a v : Int) : ZStep .store [a, v] m 0 ⟨fun x => if x = a then v else m.mem x, m.fb, m.sp⟩ []
  | atomic (m : AMem) (a v : Int) : ZStep .exit [a, v] m (m.mem a) ⟨fun x => if x = a then m.mem a + v else m.mem x, m.fb, m.sp⟩ []
  | add (m : AMem) (a b : Int) : ZStep .add [a, b] m (a + b) m []
  | lt (m : AMem) (a b : Int) : ZStep .lt [a, b] m (if a < b then 1 else 0) m []
  | print (m : AMem) (a : Int) : ZStep .print [a] m 0 m [a]

theorem ZStep.of {op : XOp} {vs : List Int} {m m' : AMem} {v : Int} {es : List Int} (h : zSem op vs m = .ok v m' es) : ZStep op vs m v m' es := by
  unfold zSem at h
  split at h <;> (try split at h) <;> first | (cases h; done) | skip
  all_goals (simp only [Res.ok.injEq] at h; obtain ⟨rfl, rfl, rfl⟩ := h)
  · exact .alloc _ ‹_›
  · exact .load _ _
  · exact .store _ _ _
  · exact .atomic _ _ _
  · exact .add _ _ _
  · rename_i a b hc; have := ZStep.lt m a b; rw [if_pos hc] at this; exact this
  · rename_i a b hc; have := ZStep.lt m a b; rw [if_neg hc] at this; exact this
  · exact .print _ _

theorem ZStep.to {op : XOp} {vs : List Int} {m m' : AMem} {v : Int} {es : List Int} (h : ZStep op vs m v m' es) : zSem op vs m = .ok v m' es := by
  cases h <;> simp_all [zSem]

theorem zSem_halt (op : XOp) (vs : List Int) (m : AMem) (es : List Int) (h : Unit) : zSem op vs m ≠ .halt es h := by
  intro hs
  unfold zSem at hs
  split at hs <;> (try split at hs) <;> cases hs

theorem zWrites {op : XOp} {vs : List Int} {m m' : AMem} {v : Int} {es : List Int} (h : ZStep op vs m v m' es) (hst : op = .store ∨ op = .exit → ∃ a, vs[0]? = some a ∧ m.fb ≤ a) : m.fb = m'.fb ∧ ∀ a, a < m.fb → m.mem a = m'.mem a := by
  cases h with
  | alloc _ h => exact ⟨rfl, fun a ha => by dsimp only; rw [if_neg (by omega)]⟩
  | store _ a w =>
    obtain ⟨a', h1, h2⟩ := hst (.inl rfl)
    simp only [List.getElem?_cons_zero, Option.some.injEq] at h1
    subst h1
    exact ⟨rfl, fun x hx => by dsimp only; rw [if_neg (by omega)]⟩
  | atomic _ a w =>
    obtain ⟨a', h1, h2⟩ := hst (.inr rfl)
    simp only [List.getElem?_cons_zero, Option.some.injEq] at h1
    subst h1
    exact ⟨rfl, fun x hx => by dsimp only; rw [if_neg (by omega)]⟩
  | _ => exact ⟨rfl, fun _ _ => rfl⟩

theorem zReads {op : XOp} {vs : List Int} {m m' m1 : AMem} {v : Int} {es : List Int} {r : Int → Prop} (he : zEqv r m m') (h : ZStep op vs m v m1 es)
    (hl : op = .load ∨ op = .exit → ∃ a, vs[0]? = some a ∧ r a) : ∃ m1', ZStep op vs m' v m1' es ∧ zEqv r m1 m1' := by
  obtain ⟨h1, h2, h4⟩ := he
  cases h with
  | alloc _ h =>
    refine ⟨⟨fun a => if a = m'.sp then 0 else m'.mem a, m'.fb, m'.sp + 1⟩, ?_, h1, congrArg (· + 1) h2, ?_⟩
    · rw [h2]; exact .alloc m' (by omega)
    · intro a ha
      dsimp only
      rw [← h2]
      by_cases hc : a = m.sp
      · rw [if_pos hc, if_pos hc]
      · rw [if_neg hc, if_neg hc]; exact h4 a ha
  | store _ a w =>
    refine ⟨⟨fun x => if x = a then w else m'.mem x, m'.fb, m'.sp⟩, .store m' a w, h1, h2, ?_⟩
    intro x hx
    dsimp only
    by_cases hc : x = a
    · rw [if_pos hc, if_pos hc]
    · rw [if_neg hc, if_neg hc]; exact h4 x hx
  | load _ a =>
    obtain ⟨a', h5, h6⟩ := hl (.inl rfl)
    simp only [List.getElem?_cons_zero, Option.some.injEq] at h5
    subst h5
    refine ⟨m', ?_, h1, h2, h4⟩
    rw [h4 a h6]
    exact .load m' a
  | atomic _ a w =>
    obtain ⟨a', h5, h6⟩ := hl (.inr rfl)
    simp only [List.getElem?_cons_zero, Option.some.injEq] at h5
    subst h5
    refine ⟨⟨fun x => if x = a then m'.mem a + w else m'.mem x, m'.fb, m'.sp⟩, ?_, h1, h2, ?_⟩
    · rw [h4 a h6]; exact .atomic m' a w
    · intro x hx
      dsimp only
      by_cases hc : x = a
      · rw [if_pos hc, if_pos hc, h4 a h6]
      · rw [if_neg hc, if_neg hc]; exact h4 x hx
  | add => exact ⟨m', .add m' _ _, h1, h2, h4⟩
  | lt => exact ⟨m', .lt m' _ _, h1, h2, h4⟩
  | print => exact ⟨m', .print m' _, h1, h2, h4⟩

def zSpaces : Spaces ZL ZV zKind where
  Fr := Int
  frame := AMem.fb
  Stack := fun (fb a : Int) => fb ≤ a
  same := fun (m m' : AMem) => m.fb = m'.fb ∧ ∀ a, a < m.fb → m.mem a = m'.mem a
  Loc := Int → Prop
  eqv := zEqv
  own := fun (fb : Int) r a => r a ∨ fb ≤ a
  same_refl := fun m => ⟨rfl, fun _ _ => rfl⟩
  same_trans := fun m m' m'' h h' => ⟨h.1.trans h'.1, fun a ha => (h.2 a ha).trans (h'.2 a (h.1 ▸ ha))⟩
  same_leave := by
    rintro ⟨mem, fb, sp⟩ mc ⟨_, h⟩
    show (⟨_, _, _⟩ : AMem) = _
    congr 1
    funext a
    dsimp only
    split
    · rename_i ha
      have := h a ha
      have h2 : (if a < sp then mem a else 0) = AMem.mem mc a := this
      rw [if_pos ha] at h2
      exact h2.symm
    · rfl
  frame_leave := fun m mc => rfl
  frame_sem := by
    intro op vs m v m' es _ h
    cases ZStep.of h <;> rfl
  eqv_enter := by
    rintro r m m' ⟨h1, h2, h4⟩
    refine ⟨h2, h2, ?_⟩
    intro a ha
    show (if a < AMem.sp m then AMem.mem m a else 0) = if a < AMem.sp m' then AMem.mem m' a else 0
    rw [← h2]
    split
    · rename_i hlt
      rcases ha with ha | ha
      · exact h4 a ha
      · exact absurd hlt (Int.not_lt.2 ha)
    · rfl
  eqv_leave := by
    rintro r m m' mc mc' ⟨h1, h2, h4⟩ _ ⟨g1, g2, g4⟩
    refine ⟨h1, h2, ?_⟩
    intro a ha
    show (if a < AMem.sp m then AMem.mem mc a else AMem.mem m a) = if a < AMem.sp m' then AMem.mem mc' a else AMem.mem m' a
    rw [← h2]
    split
    · exact g4 a (.inl ha)
    · exact h4 a ha
  alloc := by
    intro op vs m v m' es _ hk h
    cases ZStep.of h with
    | alloc _ hle => exact hle
    | _ => cases hk
  gep := by
    intro op vs m v m' es a _ hk
    cases op <;> cases hk
  cast := by
    intro op vs m v m' es a _ hk
    cases op <;> rcases hk with hk | hk <;> cases hk
  select := by
    intro op vs m v m' es _ hk
    cases op <;> cases hk
  silent := by
    intro op vs m _ he hi
    refine ⟨?_, fun es h => zSem_halt op vs m es h⟩
    intro v m' es h
    cases ZStep.of h with
    | print => exact absurd (he _ rfl) (by simp)
    | _ => rfl
  writes := by
    intro op vs m v m' es _ h hst _ _
    exact zWrites (ZStep.of h) (fun hop => hst (by rcases hop with rfl | rfl; exact .inl rfl; exact .inr rfl))
  reads := by
    intro op vs m m' r _ he hl _ hi
    refine ⟨?_, fun es h hs => absurd hs (zSem_halt op vs m es h)⟩
    intro v m1 es h
    obtain ⟨m1', g1, g2⟩ := zReads he (ZStep.of h) (fun hop => by
      obtain ⟨⟨a, h1, h2⟩, r', rfl⟩ := hl (by rcases hop with rfl | rfl; exact .inl rfl; exact .inr rfl)
      exact ⟨a, h1, .inr h2⟩)
    exact ⟨m1', g1.to, g2⟩

theorem zOver {m m' : AMem} {a w : Int} (h : zEqv (fun x => x ≠ a) m m') : zSem .store [a, w] m' = .ok 0 ⟨fun x => if x = a then w else m.mem x, m.fb, m.sp⟩ [] := by
  obtain ⟨h1, h2, h3⟩ := h
  rw [(ZStep.store m' a w).to, h1, h2]
  congr 2
  funext x
  split
  · rfl
  · rename_i hx; exact (h3 x hx).symm

def zStores : Stores zSpaces where
  but := fun (a : Int) => fun x => x ≠ a
  apart := fun (a y : Int) => a ≠ y
  eqv_trans := by
    rintro r m m' m'' ⟨h1, h2, h3⟩ ⟨g1, g2, g3⟩
    exact ⟨h1.trans g1, h2.trans g2, fun a ha => (h3 a ha).trans (g3 a ha)⟩
  store := by
    intro op a vs m v m' es _ hk h
    cases ZStep.of h with
    | store _ _ w => exact ⟨⟨rfl, rfl, fun x hx => if_neg hx⟩, rfl⟩
    | _ => cases hk
  over := by
    rintro op a vs m m' v m1 es _ hk ⟨h1, h2, h3⟩ h
    cases ZStep.of h with
    | store _ _ w =>
      exact zOver ⟨h1, h2, h3⟩
    | _ => cases hk
  elsewhere := by
    intro op a y vs m m' _ hk hap he
    refine ⟨?_, fun es h hs => absurd hs (zSem_halt op (y :: vs) m es h)⟩
    intro v m1 es h
    obtain ⟨m1', g1, g2⟩ := zReads he (ZStep.of h) (fun _ => ⟨y, rfl, fun e => hap e.symm⟩)
    exact ⟨m1', g1.to, g2⟩
  gone := by
    rintro m a mc mc' ha ⟨_, _, h⟩
    show (⟨_, _, _⟩ : AMem) = ⟨_, _, _⟩
    congr 1
    funext x
    split
    · rename_i hx
      refine h x ?_
      rintro rfl
      exact absurd hx (Int.not_lt.2 ha)
    · rfl

/-- `int f(int n) { int a; g = n; int x = h; print(x); if(x < n) g = 1; else { g = 2; x = 0; } a = x; x = a; a = 5; print(x); return x; }` -/
def zF : Func XOp Int := mk
  [(0, ⟨[], [⟨10, zAlloc, []⟩, ⟨11, .store, [.cst (-1), .cst 1000]⟩, ⟨12, .load, [.cst (-2)]⟩, ⟨13, .lt, [.inst 12, .cst 1000]⟩, ⟨14, .print, [.inst 12]⟩], .cbr (.inst 13) 1 2⟩),
   (1, ⟨[], [⟨15, .store, [.cst (-1), .cst 1]⟩], .br 3⟩),
   (2, ⟨[], [⟨16, .store, [.cst (-1), .cst 2]⟩], .br 3⟩),
   (3, ⟨[⟨17, [(1, .inst 12), (2, .cst 0)]⟩], [⟨18, .store, [.inst 10, .inst 17]⟩, ⟨19, .load, [.inst 10]⟩, ⟨20, .store, [.inst 10, .cst 5]⟩, ⟨21, .print, [.inst 19]⟩], .ret (some (.inst 19))⟩)]

theorem zF_wf : LiveWf (zF : ZL.F) := (mk_proper _ (by decide +kernel)).1.liveWf_of_allLive (L := ZL) (mk_proper _ (by decide +kernel)).2

def zB0 : Block XOp Int := ⟨[], [⟨10, zAlloc, []⟩, ⟨11, .store, [.cst (-1), .cst 1000]⟩, ⟨12, .load, [.cst (-2)]⟩, ⟨13, .lt, [.inst 12, .cst 1000]⟩, ⟨14, .print, [.inst 12]⟩], .cbr (.inst 13) 1 2⟩
def zB3 : Block XOp Int := ⟨[⟨17, [(1, .inst 12), (2, .cst 0)]⟩], [⟨18, .store, [.inst 10, .inst 17]⟩, ⟨19, .load, [.inst 10]⟩, ⟨20, .store, [.inst 10, .cst 5]⟩, ⟨21, .print, [.inst 19]⟩], .ret (some (.inst 19))⟩
def zS11 : Inst XOp Int := ⟨11, .store, [.cst (-1), .cst 1000]⟩
def zS20 : Inst XOp Int := ⟨20, .store, [.inst 10, .cst 5]⟩

/-- distinct globals; the frame does not leak into `print`; dominance is only asked for `10` and blocks 1, 2, 3 -/
def zCfg : SECfg XOp Int where
  dist := fun o o' => match o, o' with | .cst a, .cst b => decide (a ≠ b ∧ a < 1000 ∧ b < 1000) | _, _ => false
  isPtr := fun _ => false
  leak := fun i _ => i.op != .print
  dom := fun a _ => a == 0

def zTags : List Nat := tagRounds ZV.callee zKind [0, 1, 2, 3] zF 1 []

/-- the test finds the first store to `g` and the last one to `a`, no other -/
theorem zF_found : zF.order.flatMap (fun b => match zF.blk b with | some B => (B.body.filter (storeInvisible ZV.callee zKind noAttrs zCfg zTags zF b)).map Inst.id | none => []) = [11, 20] := by decide +kernel

theorem zDist {c c' : Int} (hd : zCfg.dist (.cst c) (.cst c') = true) : c ≠ c' ∧ c < 1000 ∧ c' < 1000 := by
  simp only [zCfg, decide_eq_true_eq] at hd
  exact hd

theorem z_sound (call : CallSem ZL) (vs : List Int) (F : ZL.F) (m0 : AMem) (addr : Opd Int) : Sound zSpaces zStores zCfg call vs F m0 addr where
  dist := by
    intro B i e m o a y _ _ hd ha hy
    match addr, o, hd, ha, hy with
    | .cst c, .cst c', hd, ha, hy =>
      obtain ⟨h1, h2, h3⟩ := zDist hd
      have hv : ∀ c : Int, c < 1000 → (ZV.lang call vs).cval c = c := by
        intro c hc
        show (match (if (1000 : Int) ≤ c then some (c - 1000).toNat else none) with | some j => (vs[j]?).getD c | none => c) = c
        rw [if_neg (by omega)]
      have ha' : (ZV.lang call vs).cval c = a := Option.some.inj ha
      have hy' : (ZV.lang call vs).cval c' = y := Option.some.inj hy
      rw [hv c h2] at ha'
      rw [hv c' h3] at hy'
      show a ≠ y
      rw [← ha', ← hy']
      exact h1
    | .inst _, .cst _, hd, _, _ => cases hd
    | .inst _, .inst _, hd, _, _ => cases hd
    | .cst _, .inst _, hd, _, _ => cases hd
  leak := by
    intro B i e m us a z _ _ _ _ hl _ _ m' he
    have hop : i.op = .print := by
      simp only [zCfg, bne_eq_false_iff_eq] at hl
      exact hl
    refine ⟨?_, fun es h hs => absurd hs (zSem_halt i.op us m es h)⟩
    intro v m1 es h
    obtain ⟨m1', g1, g2⟩ := zReads he (ZStep.of h) (fun hh => by rw [hop] at hh; rcases hh with hh | hh <;> cases hh)
    exact ⟨m1', g1.to, g2⟩

def zP (F : Func XOp Int) : Nat → Option ZL.F := fun f => if f = 0 then some F else none

theorem zP_direct (F : Func XOp Int) : NoIndirect (L := ZL) zKind (zP F) := by
  intro f G _ b B _ i _ hk
  cases ho : i.op <;> rw [ho] at hk <;> cases hk

def unusedB (F : Func XOp Int) (x : Nat) : Bool := F.blocks.all (fun B => !(B.opds.contains (.inst x)))

theorem unused_of {F : Func XOp Int} (hl : F.Listed) {x : Nat} (h : unusedB F x = true) : ∀ c D, F.blk c = some D → Opd.inst x ∉ D.opds := by
  intro c D hD hm
  have := List.all_eq_true.1 h D (hl.mem hD)
  simp [hm] at this

def noAtomicB (F : Func XOp Int) : Bool := F.blocks.all (fun B => B.body.all (fun i => i.op != zAtomic))

theorem noAtomic_of {F : Func XOp Int} (hl : F.Listed) (h : noAtomicB F = true) (addr : Opd Int) : ∀ c D j, F.blk c = some D → j ∈ D.body → ZV.callee j.op = none → zKind j.op = .atomic → j.args[0]? ≠ some addr := by
  intro c D j hD hj _ hk _
  have := List.all_eq_true.1 (List.all_eq_true.1 h D (hl.mem hD)) j hj
  cases ho : j.op <;> rw [ho] at hk this <;> first | (cases hk; done) | (simp at this; done)

theorem zF_step1 : StoreStep zStores noAttrs (zP zF) 0 0 (zF : ZL.F) zB0
    zS11 (.cst (-1 : Int)) zCfg zTags where
  fn := rfl
  wf := zF_wf
  blk := rfl
  mem := show zS11 ∈ zB0.body from .tail _ (.head _)
  arg := rfl
  found := by decide +kernel
  attrs := noAttrs_ok _ _
  direct := zP_direct _
  tags := tagRounds_ok zF_wf.toShape _ _
  sound := fun d vs m _ => z_sound _ _ _ _ _
  unused := unused_of zF_wf.listed (by decide +kernel)
  noAtomic := noAtomic_of zF_wf.listed (by decide +kernel) _

def zG : Func XOp Int := zF.eraseInst 11

theorem zF_step2 : StoreStep zStores noAttrs (zP zG) 0 3 (zG : ZL.F) zB3
    zS20 (.inst 10) zCfg (tagRounds ZV.callee zKind [0, 1, 2, 3] zG 1 []) where
  fn := rfl
  wf := (C87_storeEliminate_partial zF_step1).2
  blk := rfl
  mem := show zS20 ∈ zB3.body from .tail _ (.tail _ (.head _))
  arg := rfl
  found := by decide +kernel
  attrs := noAttrs_ok _ _
  direct := zP_direct _
  tags := tagRounds_ok (C87_storeEliminate_partial zF_step1).2.toShape _ _
  sound := fun d vs m _ => z_sound _ _ _ _ _
  unused := unused_of (C87_storeEliminate_partial zF_step1).2.listed (by decide +kernel)
  noAtomic := noAtomic_of (C87_storeEliminate_partial zF_step1).2.listed (by decide +kernel) _

/-- both stores removed, the program does the same -/
theorem zF_both : CallsLike ZV (zP zF) (setFn (setFn (zP zF) 0 (zF.eraseInst 11)) 0 (zG.eraseInst 20)) := by
  have h1 : setFn (zP zF) 0 (zF.eraseInst 11) = zP zG := by
    funext g
    unfold setFn zP
    split <;> rfl
  refine C87_storeEliminate_pass_partial (Q := zStores) (.tail (.tail .refl ⟨_, _, _, _, _, _, _, _, _, zF_step1, rfl⟩) ⟨noAttrs, 0, 3, zG, zB3, zS20, .inst 10, zCfg, tagRounds ZV.callee zKind [0, 1, 2, 3] zG 1 [], ?_, rfl⟩)
  rw [show setFn (zP zF) 0 (Func.eraseInst zF zS11.id) = zP zG from h1]
  exact zF_step2

/-- calls of `f` are defined: with `h = 3`, `f(7)` prints 3 twice, returns 3 and leaves `g = 1` -/
theorem zF_call (d : Nat) : ∃ m', ZV.call (zP zF) (d + 1) 0 [(7 : Int)] ⟨fun a => if a = -2 then 3 else 0, 0, 0⟩ = .ok (3 : Int) m' ([3, 3] : List Int) ∧ AMem.mem m' (-1) = 1 := by
  have h : Ends (ZV.lang (ZV.call (zP zF) d) [(7 : Int)]) zF (ZV.enter ⟨fun a => if a = -2 then 3 else 0, 0, 0⟩) _ := ⟨3, rfl⟩
  exact ⟨_, Frames.invoke_eq (V := ZV) h, rfl⟩

/-- `int f() { g = 1; atomic_add(&g, 1); return 0; }` -/
def zAt : Func XOp Int := mk [(0, ⟨[], [⟨10, .store, [.cst (-1), .cst 1]⟩, ⟨11, zAtomic, [.cst (-1), .cst 1]⟩], .ret (some (.cst 0))⟩)]

/-- An atomic add to the same address is taken for a store: the test says that the store before it is invisible, but without it `g` is 1, not 2, afterwards. -/
theorem atomic_needed : storeInvisible ZV.callee zKind noAttrs zCfg [] zAt 0 ⟨10, .store, [.cst (-1), .cst 1]⟩ = true ∧ LiveWf (zAt : ZL.F) ∧ ¬ CallsLike ZV (zP zAt) (setFn (zP zAt) 0 (zAt.eraseInst 10)) := by
  refine ⟨by decide +kernel, (mk_proper _ (by decide +kernel)).1.liveWf_of_allLive (L := ZL) (mk_proper _ (by decide +kernel)).2, ?_⟩
  intro h
  have e1 : Ends (ZV.lang (ZV.call (zP zAt) 0) []) zAt (ZV.enter ⟨fun _ => 0, 0, 0⟩) _ := ⟨1, rfl⟩
  have h1 : ZV.call (zP zAt) 1 0 [] ⟨fun _ => 0, 0, 0⟩ = _ := Frames.invoke_eq (V := ZV) e1
  have e2 : Ends (ZV.lang (ZV.call (setFn (zP zAt) 0 (zAt.eraseInst 10)) 0) []) (zAt.eraseInst 10) (ZV.enter ⟨fun _ => 0, 0, 0⟩) _ := ⟨1, rfl⟩
  have h2 : ZV.call (setFn (zP zAt) 0 (zAt.eraseInst 10)) 1 0 [] ⟨fun _ => 0, 0, 0⟩ = _ := Frames.invoke_eq (V := ZV) e2
  have := h 1 0 [] ⟨fun _ => 0, 0, 0⟩ (by rw [h1]; simp [Frames.result])
  rw [h1, h2] at this
  simp only [Frames.result] at this
  injection this with _ e
  have e3 := congrArg (fun m : AMem => m.mem (-1)) e
  exact absurd e3 (by decide)

end Cmmc.SSA.Ex
