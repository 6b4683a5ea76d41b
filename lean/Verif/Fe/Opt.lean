import Verif.Fe.WfFunc
import Verif.Fe.Behave
import Verif.Fe.Ex
import Verif.SSA.PhiElim
import Verif.SSA.Cse
import Verif.SSA.Dce
import Verif.SSA.Branches
import Verif.SSA.CutEx
/-!
# Emitted code is in SSA form (C64), and from the source to optimised code (C65)
-/
namespace Cmmc.Fe
open Cmmc

section
variable {X : Ext}

/-- **C64.** The code that the front end emits for a function it accepts: the instruction numbers are unique, branches go to blocks of the
function, and in blocks that can be reached every operand is computed before it is used, on every path; phis name exactly their predecessors.
BlockEliminate (the first pass) terminates on it, and what it leaves behaves exactly like the emitted code, has only reachable blocks, and is
accepted by the verifier. -/
theorem C64_emitted_ssa {sigs : Sigs} {P : Wd} {gs : List Glob} {fn : Fn} {c : Ctx} (h : emitFn sigs P gs fn = some c) (o : SSA.Orders) (u : Nat → Cst) :
    SSA.LiveWf (finish fn c) ∧ ∃ G, SSA.blockEliminate u (finish fn c) = some G ∧ G.verify o = some true ∧ SSA.Proper G ∧ SSA.AllLive G ∧
      (∀ b, b ∈ G.order ↔ SSA.Live (finish fn c) b) ∧
      ∀ (tc : Calls X) (as : List Nat), SSA.Refines (irL tc as) (finish fn c) G ∧ SSA.Refines (irL tc as) G (finish fn c) := by
  obtain ⟨A, hA⟩ := inv_emitFn h
  have W : SSA.LiveWf (finish fn c) := hA.liveWf
  refine ⟨W, ?_⟩
  obtain ⟨G, r, dead, hG, E, PG⟩ := SSA.liveWf_proper (u := u) W
  have key : ∀ (tc : Calls X) (as : List Nat), G.verify o = some true ∧ (∀ b, b ∈ G.order ↔ SSA.Live (finish fn c) b) ∧
      SSA.Refines (irL tc as) (finish fn c) G ∧ SSA.Refines (irL tc as) G (finish fn c) := by
    intro tc as
    obtain ⟨G', h1, _, _, h4, h5, h6, _, _, h9⟩ := SSA.C63_blockEliminate (L := irL tc as) o u (F := finish fn c) W
    have hG1 : G' = G := Option.some.inj (h1.symm.trans hG)
    subst hG1
    exact ⟨h9, h4, h5, h6⟩
  obtain ⟨h1, h2, _⟩ := key (fun _ _ _ => .ub) []
  exact ⟨G, hG, h1, PG, E.allLive, h2, fun tc as => (key tc as).2.2⟩

/-! ## through the optimiser -/

/-- `isMovableExpr` (BlockUtil.cpp:157-174) on the instructions of the front end: everything but calls, memory accesses and `alloca` -/
def mvOp : Op → Bool
  | .bin .. | .neg _ | .icmp .. | .cast .. | .gep .. => true
  | _ => false

/-- the sinks of NoSideEffectEliminate: calls and stores. `alloca` counts as a sink here, because in `irSem` it makes the object it returns a
fresh one; the pass also deletes an `alloca` that is not used. -/
def effOp : Op → Bool
  | .store _ | .call .. | .alloca .. => true
  | _ => false

/-- constants of type `i1` -/
def uintCst : Cst → Option Nat
  | .int 1 n => if n < 2 then some n else none
  | _ => none

theorem mv_irL (tc : Calls X) (as : List Nat) : SSA.Movable (irL tc as) mvOp := by
  intro op h vs
  show (∀ m, irSem tc op vs m = .ub) ∨ ∃ v, ∀ m, irSem tc op vs m = .ok v m []
  cases op <;> simp only [mvOp, Bool.false_eq_true] at h <;> unfold irSem
  case bin op w =>
    match vs with
    | [.int a, .int b] =>
      by_cases hd : IR.binDef false op (BitVec.ofNat w a) (BitVec.ofNat w b)
      · right; exact ⟨_, fun m => by simp only [if_pos hd]; rfl⟩
      · left; intro m; simp only [if_neg hd]
    | [] => exact .inl fun _ => rfl
    | [.int _] => exact .inl fun _ => rfl
    | [.undef] => exact .inl fun _ => rfl
    | [.ptr ..] => exact .inl fun _ => rfl
    | .undef :: _ :: _ => exact .inl fun _ => rfl
    | .ptr .. :: _ :: _ => exact .inl fun _ => rfl
    | .int _ :: .undef :: _ => exact .inl fun _ => rfl
    | .int _ :: .ptr .. :: _ => exact .inl fun _ => rfl
    | .int _ :: .int _ :: _ :: _ => exact .inl fun _ => rfl
  case neg w =>
    match vs with
    | [.int a] => exact .inr ⟨_, fun _ => rfl⟩
    | [] => exact .inl fun _ => rfl
    | .undef :: _ => exact .inl fun _ => rfl
    | .ptr .. :: _ => exact .inl fun _ => rfl
    | .int _ :: _ :: _ => exact .inl fun _ => rfl
  case cast op w w' =>
    match vs with
    | [.int a] => exact .inr ⟨_, fun _ => rfl⟩
    | [] => exact .inl fun _ => rfl
    | .undef :: _ => exact .inl fun _ => rfl
    | .ptr .. :: _ => exact .inl fun _ => rfl
    | .int _ :: _ :: _ => exact .inl fun _ => rfl
  case icmp op w =>
    match vs with
    | [.int a, .int b] => exact .inr ⟨_, fun _ => rfl⟩
    | [] => exact .inl fun _ => rfl
    | [.int _] => exact .inl fun _ => rfl
    | [.undef] => exact .inl fun _ => rfl
    | [.ptr ..] => exact .inl fun _ => rfl
    | .undef :: _ :: _ => exact .inl fun _ => rfl
    | .ptr .. :: _ :: _ => exact .inl fun _ => rfl
    | .int _ :: .undef :: _ => exact .inl fun _ => rfl
    | .int _ :: .ptr .. :: _ => exact .inl fun _ => rfl
    | .int _ :: .int _ :: _ :: _ => exact .inl fun _ => rfl
  case gep cnt w =>
    match vs with
    | [.ptr o f, .int b] => exact .inr ⟨_, fun _ => rfl⟩
    | [] => exact .inl fun _ => rfl
    | [.int _] => exact .inl fun _ => rfl
    | [.undef] => exact .inl fun _ => rfl
    | [.ptr ..] => exact .inl fun _ => rfl
    | .undef :: _ :: _ => exact .inl fun _ => rfl
    | .int _ :: _ :: _ => exact .inl fun _ => rfl
    | .ptr .. :: .undef :: _ => exact .inl fun _ => rfl
    | .ptr .. :: .ptr .. :: _ => exact .inl fun _ => rfl
    | .ptr .. :: .int _ :: _ :: _ => exact .inl fun _ => rfl

theorem pure_irL (tc : Calls X) (as : List Nat) : SSA.PureOps (irL tc as) effOp := by
  intro op vs m h
  show irSem tc op vs m = .ub ∨ ∃ v, irSem tc op vs m = .ok v m []
  cases op <;> simp only [effOp, Bool.true_eq_false] at h
  case load w =>
    unfold irSem
    match vs with
    | [.ptr (.loc k) off] =>
      simp only
      split
      · split
        · exact .inr ⟨_, rfl⟩
        · exact .inl rfl
      · exact .inl rfl
    | [.ptr (.glob g) off] =>
      simp only
      split
      · exact .inr ⟨_, rfl⟩
      · exact .inl rfl
    | [] => exact .inl rfl
    | .undef :: _ => exact .inl rfl
    | .int _ :: _ => exact .inl rfl
    | .ptr (.loc _) _ :: _ :: _ => exact .inl rfl
    | .ptr (.glob _) _ :: _ :: _ => exact .inl rfl
  all_goals
    have key := fun op (h' : mvOp op = true) => mv_irL tc as op h' vs
  case bin a b => exact (key (.bin a b) rfl).imp (fun h => h m) (fun ⟨v, h⟩ => ⟨v, h m⟩)
  case neg a => exact (key (.neg a) rfl).imp (fun h => h m) (fun ⟨v, h⟩ => ⟨v, h m⟩)
  case icmp a b => exact (key (.icmp a b) rfl).imp (fun h => h m) (fun ⟨v, h⟩ => ⟨v, h m⟩)
  case cast a b c => exact (key (.cast a b c) rfl).imp (fun h => h m) (fun ⟨v, h⟩ => ⟨v, h m⟩)
  case gep a b => exact (key (.gep a b) rfl).imp (fun h => h m) (fun ⟨v, h⟩ => ⟨v, h m⟩)

theorem uint_irL (tc : Calls X) (as : List Nat) : ∀ c k, uintCst c = some k → (irL tc as).truth ((irL tc as).cval c) = some (decide (k ≠ 0)) := by
  intro c k h
  unfold uintCst at h
  split at h
  · rename_i n
    split at h
    · rename_i hn
      cases h
      have : k = 0 ∨ k = 1 := by omega
      rcases this with rfl | rfl <;> rfl
    · cases h
  · cases h

/-- BlockEliminate, PhiEliminate, SimpleCSE, NoSideEffectEliminate, SimplifyBranch, one after the other -/
def optimise (ord : List Nat → List Nat) (ty : Nat → Nat → Bool) (u : Nat → Cst) (F : SSA.Func Op Cst) : Option (SSA.Func Op Cst) :=
  (SSA.blockEliminate u F).bind fun F =>
  (SSA.phiEliminate ord F).bind fun F =>
  (SSA.noSideEffectEliminate effOp (SSA.simpleCSE ty mvOp F)).map (SSA.simplifyBranch uintCst)

/-- `F` is an implementation of the function `fn` of the source: for all arguments and worlds it returns what `fn` returns with the same
effects, does not come back if a call that `fn` makes does not come back, runs for ever if `fn` does, and has the same events -/
def Implements (sigs : Sigs) (call tc : Calls X) (gs : List Glob) (fn : Fn) (F : SSA.Func Op Cst) : Prop :=
  ∀ (as : List Nat), ArgsOk fn.params as → ∀ (m : Mem X), ConstOk gs m.w →
    (∀ v w' tr, SEnds sigs call (globEnv gs) fn as m.w (.ret v w' tr) →
      ∃ m', SSA.Ends (irL tc as) F m (.ret (result fn v) m' tr) ∧ m'.w = w') ∧
    (∀ hh tr, SEnds sigs call (globEnv gs) fn as m.w (.halt hh tr) → SSA.Ends (irL tc as) F m (.halt hh tr)) ∧
    (SDiverges sigs call (globEnv gs) fn as m.w → SSA.Diverges (irL tc as) F m ∧
      ∀ tr, SEmits sigs call (globEnv gs) fn as m.w tr ↔ SSA.Emits (irL tc as) F m tr)

theorem Implements.refines {sigs : Sigs} {call tc : Calls X} {gs : List Glob} {fn : Fn} {F G : SSA.Func Op Cst} (h : Implements sigs call tc gs fn F)
    (hr : ∀ as, SSA.Refines (irL tc as) F G) : Implements sigs call tc gs fn G := by
  intro as ha m hm
  obtain ⟨h1, h2, h3⟩ := h as ha m hm
  obtain ⟨r1, r2⟩ := hr as m
  refine ⟨fun v w' tr hs => ?_, fun hh tr hs => r1 _ (h2 hh tr hs) (by simp), fun hd => ?_⟩
  · obtain ⟨m', h4, h5⟩ := h1 v w' tr hs
    exact ⟨m', r1 _ h4 (by simp), h5⟩
  · obtain ⟨h4, h5⟩ := h3 hd
    obtain ⟨h6, h7⟩ := r2 h4
    exact ⟨h6, fun tr => (h5 tr).trans (h7 tr)⟩

/-- the passes after BlockEliminate -/
theorem optimise_tail {tc : Calls X} {F G1 : SSA.Func Op Cst} (W : SSA.LiveWf F) {u : Nat → Cst} (e1 : SSA.blockEliminate u F = some G1) (P1 : SSA.Proper G1) (L1 : SSA.AllLive G1)
    {ord : List Nat → List Nat} (hord : ∀ l, (ord l).Perm l) (ty : Nat → Nat → Bool) : ∃ G, optimise ord ty u F = some G ∧ ∀ as, SSA.Refines (irL tc as) F G := by
  have r1 : ∀ as, SSA.Refines (irL tc as) F G1 := by
    intro as
    obtain ⟨G', h1, _, _, _, h5, _⟩ := SSA.C63_blockEliminate (L := irL tc as) ⟨fun _ l => l, fun _ l => l, fun _ l => l, fun _ _ => .refl _, fun _ _ => .refl _, fun _ _ => .refl _⟩ u
      (F := F) W
    have : G' = G1 := Option.some.inj (h1.symm.trans e1)
    rw [← this]; exact h5
  obtain ⟨G2, e2, P2⟩ : ∃ G2 : SSA.Func Op Cst, SSA.phiEliminate (Op := Op) (C := Cst) ord G1 = some G2 ∧ SSA.Proper G2 := by
    obtain ⟨G, e, _, P, _⟩ := SSA.C40_phiEliminate (L := irL tc []) hord G1 P1 L1
    exact ⟨G, e, P⟩
  have r2 : ∀ as, SSA.Refines (irL tc as) G1 G2 := by
    intro as
    obtain ⟨G', e', r', _⟩ := SSA.C40_phiEliminate (L := irL tc as) hord G1 P1 L1
    have : G' = G2 := Option.some.inj (e'.symm.trans e2)
    rw [← this]; exact r'
  obtain ⟨G3, e3⟩ : ∃ G3, SSA.simpleCSE (Op := Op) (C := Cst) ty mvOp G2 = G3 := ⟨_, rfl⟩
  have P3 : SSA.Proper G3 := by
    rw [← e3]
    exact (SSA.C39_simpleCSE (ty := ty) (mv_irL tc []) G2 P2).2.1
  have r3 : ∀ as, SSA.Refines (irL tc as) G2 G3 := by
    intro as
    rw [← e3]
    exact (SSA.C39_simpleCSE (ty := ty) (mv_irL tc as) G2 P2).1
  obtain ⟨G4, e4⟩ : ∃ G4 : SSA.Func Op Cst, SSA.noSideEffectEliminate (Op := Op) (C := Cst) effOp G3 = some G4 := by
    obtain ⟨G, e, _⟩ := SSA.C31_noSideEffectEliminate (pure_irL tc []) G3 P3.listed
    exact ⟨G, e⟩
  have r4 : ∀ as, SSA.Refines (irL tc as) G3 G4 := by
    intro as
    obtain ⟨G', e', _, r'⟩ := SSA.C31_noSideEffectEliminate (pure_irL tc as) G3 P3.listed
    have : G' = G4 := Option.some.inj (e'.symm.trans e4)
    rw [← this]; exact r'
  refine ⟨SSA.simplifyBranch uintCst G4, ?_, ?_⟩
  · unfold optimise
    rw [e1, Option.bind_some, e2, Option.bind_some, e3, e4, Option.map_some]
  · exact fun as => (r1 as).trans ((r2 as).trans ((r3 as).trans ((r4 as).trans (SSA.C37_simplifyBranch (L := irL tc as) (uint_irL tc as) G4))))

/-- the passes terminate on functions in SSA form without dead blocks, and the result behaves like the function -/
theorem optimise_ok {tc : Calls X} {F : SSA.Func Op Cst} (PF : SSA.Proper F) (LF : SSA.AllLive F) {ord : List Nat → List Nat} (hord : ∀ l, (ord l).Perm l)
    (ty : Nat → Nat → Bool) (u : Nat → Cst) : ∃ G, optimise ord ty u F = some G ∧ ∀ as, SSA.Refines (irL tc as) F G := by
  have W : SSA.LiveWf F := PF.liveWf_of_allLive (L := irL tc []) LF
  obtain ⟨G1, r, dead, e1, E, P1⟩ := SSA.liveWf_proper (u := u) W
  exact optimise_tail W e1 P1 E.allLive hord ty

/-- **C65.** From source to optimised code: the passes terminate on what the front end emits, and the result does what the source says. -/
theorem C65_optimised {sigs : Sigs} {P : Wd} (hP : 32 ≤ P.bits) {gs : List Glob} {fn : Fn} {c : Ctx} (h : emitFn sigs P gs fn = some c)
    (hwf : fn.body.wf = true) {call tc : Calls X} (hX : Separate X)
    (href : ∀ f ns w, ConstOk gs w → call f ns w ≠ .ub → tc f ns w = call f ns w)
    (hic : ∀ f ns w n w' es, ConstOk gs w → call f ns w = .ok n w' es → ConstOk gs w')
    {ord : List Nat → List Nat} (hord : ∀ l, (ord l).Perm l) (ty : Nat → Nat → Bool) (u : Nat → Cst) :
    ∃ G, optimise ord ty u (finish fn c) = some G ∧ Implements sigs call tc gs fn G := by
  have h0 : Implements sigs call tc gs fn (finish fn c) := fun as ha m hm => C61_function hP h hwf hX href hic ha m hm
  obtain ⟨A, hA⟩ := inv_emitFn h
  obtain ⟨G1, r, dead, e1, E, P1⟩ := SSA.liveWf_proper (u := u) hA.liveWf
  obtain ⟨G, e, r⟩ := optimise_tail (tc := tc) hA.liveWf e1 P1 E.allLive hord ty
  exact ⟨G, e, h0.refines r⟩

end

end Cmmc.Fe
