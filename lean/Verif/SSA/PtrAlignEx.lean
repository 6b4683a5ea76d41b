import Verif.SSA.PtrAlign
import Verif.SSA.RangeAnaEx
/-!
# C97 on a concrete function, and the use of SCEVAnalysis that is wrong
-/
namespace Cmmc.SSA.Ex
open Cmmc.SSA

/-- 32-bit integers and addresses -/
inductive PV
  | i (a : BitVec 32)
  | p (a : BitVec 64)
deriving DecidableEq

/-- `load` is used as an address computation `base + 4 * index` -/
def psem : XOp → List PV → (Int → Int) → Res PV (Int → Int) Int Unit
  | .add, [.i a, .i b], m => .ok (.i (a + b)) m []
  | .lt, [.i a, .i b], m => .ok (.i (if a.toInt < b.toInt then 1#32 else 0#32)) m []
  | .load, [.i a, .p b], m => .ok (.p (b + BitVec.ofInt 64 (0 + dot [4] [a.toInt]))) m []
  | _, _, _ => .ub

/-- constants that are no 32-bit integers are an array at address 65552 -/
def pcval (c : Int) : PV := if -2 ^ 31 ≤ c ∧ c < 2 ^ 31 then .i (BitVec.ofInt 32 c) else .p 65552#64

def PL : Lang := { X with
  V := PV
  sem := psem
  cval := pcval
  truth := fun v => match v with | .i a => some (decide (a ≠ 0#32)) | .p _ => none
  key := fun _ => none }

def pI32 : PV → Option (BitVec 32)
  | .i a => some a
  | .p _ => none

def pPtr : PV → Option (BitVec 64)
  | .i _ => none
  | .p a => some a

def pROps : RangeOps PL where
  i32 := pI32
  num := fun (c : Int) => if -2 ^ 31 ≤ c ∧ c < 2 ^ 31 then some c else none
  undef _ := false
  kind := fun (op : XOp) => match op with | .add => .bin .add | _ => .other

def pOps : AlignOps PL := { pROps with
  ptr := pPtr
  off := fun (c : Int) => none
  calign := fun _ => 16
  akind := fun (op : XOp) => match op with | .load => .gep 0 [4] | _ => .other }

theorem psem_add {vs : List PV} {m m' : Int → Int} {v : PV} {es : List Int} (h : psem .add vs m = .ok v m' es) :
    ∃ a b, vs = [.i a, .i b] ∧ v = .i (a + b) := by
  match vs, h with
  | [.i a, .i b], h =>
    have h2 : Res.ok (PV.i (a + b)) m [] = Res.ok v m' es := h
    cases h2
    exact ⟨a, b, rfl, rfl⟩
  | [], h => exact absurd h (by simp [psem])
  | [_], h => exact absurd h (by simp [psem])
  | [.p _, _], h => exact absurd h (by simp [psem])
  | [.i _, .p _], h => exact absurd h (by simp [psem])
  | _ :: _ :: _ :: _, h => exact absurd h (by simp [psem])

theorem pRLaws : RangeLaws pROps where
  num := by
    intro (c : Int) z h
    simp only [pROps] at h
    split at h
    · rename_i hc
      cases h
      show pI32 (pcval c) = _
      unfold pcval; rw [if_pos hc]; rfl
    · simp at h
  undef := by intro c h; simp [pROps] at h
  bin := by
    intro (op : XOp) k (vs : List PV) m m' v es r hk hs hv
    cases op <;> first | (exfalso; simp [pROps] at hk; done) | skip
    have : k = .add := by simpa [pROps] using hk.symm
    subst this
    obtain ⟨a, b, rfl, rfl⟩ := psem_add hs
    exact ⟨_, _, a, b, rfl, rfl, rfl, trivial, (Option.some.inj hv).symm⟩
  neg := by intro (op : XOp) vs m m' v es r hk; cases op <;> simp [pROps] at hk
  abs := by intro (op : XOp) vs m m' v es r hk; cases op <;> simp [pROps] at hk
  select := by intro (op : XOp) vs m m' v es r hk; cases op <;> simp [pROps] at hk
  sext := by intro (op : XOp) w vs m m' v es r hk; cases op <;> simp [pROps] at hk
  zext := by intro (op : XOp) w vs m m' v es r hk; cases op <;> simp [pROps] at hk

theorem pcval_ptr {c : Int} {a : BitVec 64} (h : pPtr (pcval c) = some a) : a = 65552#64 := by
  unfold pcval at h
  split at h
  · simp [pPtr] at h
  · simpa [pPtr] using h.symm

theorem psem_load {vs : List PV} {m m' : Int → Int} {v : PV} {es : List Int} (h : psem .load vs m = .ok v m' es) :
    ∃ a b, vs = [.i a, .p b] ∧ v = .p (b + BitVec.ofInt 64 (0 + dot [4] [a.toInt])) := by
  match vs, h with
  | [.i a, .p b], h =>
    have h2 : Res.ok (PV.p (b + BitVec.ofInt 64 (0 + dot [4] [a.toInt]))) m [] = Res.ok v m' es := h
    cases h2
    exact ⟨a, b, rfl, rfl⟩
  | [], h => exact absurd h (by simp [psem])
  | [_], h => exact absurd h (by simp [psem])
  | [.p _, _], h => exact absurd h (by simp [psem])
  | [.i _, .i _], h => exact absurd h (by simp [psem])
  | _ :: _ :: _ :: _, h => exact absurd h (by simp [psem])

theorem pLaws : AlignLaws pOps where
  num := by
    intro (c : Int) z h
    refine ⟨pRLaws.num h, ?_⟩
    simp only [pOps, pROps] at h
    split at h
    · rename_i hc
      cases h
      exact hc
    · simp at h
  noNum := by
    intro (c : Int) h
    simp only [pOps, pROps] at h
    split at h
    · simp at h
    · rename_i hc
      show pI32 (pcval c) = none
      unfold pcval; rw [if_neg hc]; rfl
  calign := by
    intro (c : Int)
    refine ⟨⟨4, by norm_num, rfl⟩, fun a h => ?_⟩
    rw [pcval_ptr h]
    show 16 ∣ (65552#64).toNat
    decide
  alloc := by intro (op : XOp) n vs m m' v es r hk; cases op <;> simp [pOps] at hk
  allocP2 := by intro (op : XOp) n hk; cases op <;> simp [pOps] at hk
  select := by intro (op : XOp) vs m m' v es r hk; cases op <;> simp [pOps] at hk
  cast := by intro (op : XOp) vs m m' v es r hk; cases op <;> simp [pOps] at hk
  ptrAdd := by intro (op : XOp) x c z m m' v es r hk; cases op <;> simp [pOps] at hk
  gep := by
    intro (op : XOp) c ss (vs : List PV) m m' v es r hk hs hr
    cases op <;> first | (exfalso; simp [pOps] at hk; done) | skip
    have hk' : c = 0 ∧ ss = [4] := by
      simp only [pOps] at hk
      injection hk with h1 h2
      exact ⟨h1.symm, h2.symm⟩
    obtain ⟨rfl, rfl⟩ := hk'
    obtain ⟨a, b, rfl, rfl⟩ := psem_load hs
    exact ⟨[.i a], .p b, [a], b, rfl, rfl, rfl, (Option.some.inj hr).symm⟩

/-- `int *p = g; int i = 0; do { q = &g[i]; p = p + 2; i += 4; } while(i < 400);` -/
def walk : Func XOp Int := mk [
  (0, ⟨[], [], .br 1⟩),
  (1, ⟨[⟨10, [(0, .cst 0), (1, .inst 12)]⟩, ⟨20, [(0, .cst 2147483648), (1, .inst 21)]⟩],
    [⟨11, .load, [.inst 10, .cst 2147483648]⟩, ⟨21, .load, [.cst 2, .inst 20]⟩, ⟨12, .add, [.inst 10, .cst 4]⟩, ⟨14, .lt, [.inst 12, .cst 400]⟩],
    .cbr (.inst 14) 1 2⟩),
  (2, ⟨[], [], .ret (some (.inst 12))⟩)]

theorem walk_proper : Proper (walk : PL.F) := (mk_proper _ (by decide +kernel)).1

def phi20 : Phi Int := ⟨20, [(0, .cst 2147483648), (1, .inst 21)]⟩
def gep11 : Inst XOp Int := ⟨11, .load, [.inst 10, .cst 2147483648]⟩
def gep21 : Inst XOp Int := ⟨21, .load, [.cst 2, .inst 20]⟩

theorem walk_block : (walk : PL.F).blk 1 = some ⟨[phi10, phi20], [gep11, gep21, ⟨12, .add, [.inst 10, .cst 4]⟩, ⟨14, .lt, [.inst 12, .cst 400]⟩],
    .cbr (.inst 14) 1 2⟩ := rfl

theorem walk_rec : pROps.addRec false (walk : PL.F) (pROps.get (fun _ => Range.full)) (phi10 : Phi PL.C) = some (some low2) := by decide +kernel

theorem walk_ranges : RAnalysis pROps false (walk : PL.F) count4R1 := by
  have hi : Range.intersectSet false Range.full low2 = some low2 := by decide +kernel
  refine .visit .start (.incr walk_block List.mem_cons_self walk_rec ?_) ?_
  · unfold updRange; rw [hi]; rfl
  · intro x
    unfold count4R1
    split
    · exact low2_fine
    · exact full_fine

/-- types: all pointers are `int*` -/
theorem walk_abi : ∃ I : Env PL → Prop, Kept (L := PL) walk I ∧ ∀ env, I env → AlIn pOps (fun _ => 4) env := by
  have K0 : Kept (L := PL) walk (fun _ => True) := ⟨trivial, fun _ _ _ => trivial, fun _ _ _ _ _ => trivial⟩
  have hev : ∀ {env : Env PL}, HoldsA pOps (fun _ a => 4 ∣ a.toNat) env → ∀ {o : Opd PL.C} {v : PL.V} {a : BitVec 64},
      eval PL env o = some v → pOps.ptr v = some a → 4 ∣ a.toNat := by
    intro env hH o v a he ha
    cases o with
    | inst x => exact hH x v a he ha
    | cst c =>
      simp only [eval, Option.some.injEq] at he
      subst he
      rw [pcval_ptr (c := c) ha]
      decide
  have hevs : ∀ {env : Env PL}, HoldsA pOps (fun _ a => 4 ∣ a.toNat) env → ∀ {os : List (Opd PL.C)} {vs : List PL.V}, evals PL env os = some vs →
      ∀ v ∈ vs, ∀ a, pOps.ptr v = some a → 4 ∣ a.toNat := by
    intro env hH os
    induction os with
    | nil => intro vs h v hv; simp only [evals, Option.some.injEq] at h; subst h; simp at hv
    | cons o os ih =>
      intro vs h v hv a ha
      simp only [evals] at h
      split at h
      · rename_i w ws h1 h2
        simp only [Option.some.injEq] at h
        subst h
        rcases List.mem_cons.mp hv with rfl | hv
        · exact hev hH h1 ha
        · exact ih h2 v hv a ha
      · simp at h
  refine ⟨_, K0.addA (O := pOps) (P := fun _ a => 4 ∣ a.toNat) ?_ ?_, fun env hh x v a hx ha => hh.2 x v a hx ha⟩
  · intro b B p q o env v a _ _ _ _ hH he ha
    exact hev hH he ha
  · intro b B i vs m m' v es env a _ _ _ hH he hs ha
    have h1 : ∃ op : XOp, i.op = op := ⟨i.op, rfl⟩
    obtain ⟨op, hop⟩ := h1
    have hs' : psem op vs m = .ok v m' es := by rw [← hop]; exact hs
    by_cases hl : op = .load
    · subst hl
      obtain ⟨x, y, rfl, rfl⟩ := psem_load hs'
      have hy := hevs hH he (.p y) (List.mem_cons_of_mem _ List.mem_cons_self) y rfl
      have : a = y + BitVec.ofInt 64 (0 + dot [4] [x.toInt]) := (Option.some.inj ha).symm
      rw [this]
      refine P2.add ⟨2, by norm_num, rfl⟩ hy ?_
      simp only [dot]
      exact ⟨x.toInt, by push_cast; ring⟩
    · exfalso
      match op, vs, hs' with
      | .add, [.i x, .i y], h =>
        have h2 : Res.ok (PV.i (x + y)) m [] = Res.ok v m' es := h
        cases h2
        simp [pOps, pPtr] at ha
      | .lt, [.i x, .i y], h =>
        have h2 : Res.ok (PV.i (if x.toInt < y.toInt then 1#32 else 0#32)) m [] = Res.ok v m' es := h
        cases h2
        simp [pOps, pPtr] at ha

theorem walk21 : pOps.transferA count4R1 (pOps.look (updA (fun _ => 4) 20 8)) (gep21 : Inst PL.Op PL.C) = some 8 := by decide +kernel

theorem walk11 : pOps.transferA count4R1 (pOps.look (updA (updA (fun _ => 4) 20 8) 21 8)) (gep11 : Inst PL.Op PL.C) = some 16 := by decide +kernel

/-- the analysis finds that `p` and `p + 2` are multiples of 8 and `&g[i]` is a multiple of 16 -/
theorem walk_analysis : AAnalysis pOps (walk : PL.F) count4R1 (fun _ => 4) (updA (updA (updA (fun _ => 4) 20 8) 21 8) 11 16) := by
  have h1 : AAnalysis pOps (walk : PL.F) count4R1 (fun _ => 4) (updA (fun _ => 4) 20 8) := by
    have := AAnalysis.visit (.start (abi := fun _ => 4)) (AVisit.phi (O := pOps) (R := count4R1) walk_block (p := phi20) (List.mem_cons_of_mem _ List.mem_cons_self))
    rwa [show pOps.phiAl (walk : PL.F) (fun _ => 4) phi20.id (phi20.inc.map Prod.snd) = 8 from by decide +kernel] at this
  have v2 : AVisit pOps (walk : PL.F) count4R1 (updA (fun _ => 4) 20 8) (updA (updA (fun _ => 4) 20 8) (Inst.id (gep21 : Inst PL.Op PL.C)) 8) :=
    AVisit.inst walk_block (List.mem_cons_of_mem _ List.mem_cons_self) walk21
  have v3 : AVisit pOps (walk : PL.F) count4R1 (updA (updA (fun _ => 4) 20 8) 21 8)
      (updA (updA (updA (fun _ => 4) 20 8) 21 8) (Inst.id (gep11 : Inst PL.Op PL.C)) 16) :=
    AVisit.inst walk_block List.mem_cons_self walk11
  exact AAnalysis.visit (AAnalysis.visit h1 v2) v3

/-- in every run `&g[i]` is a multiple of 16 whenever it has been computed -/
theorem walk_aligned {n : Nat} {m : Int → Int} {s : St PL} (h : SSA.run PL walk n (start PL walk m) = .inl s) {a : BitVec 64}
    (hv : s.env 11 = some (.p a)) : 16 ∣ a.toNat := by
  have := (C97_pointerAlignment_partial pLaws pRLaws walk_proper.oneDef walk_ranges walk_abi (fun _ => ⟨2, by norm_num, rfl⟩) walk_analysis).1 h 11 _ a hv rfl
  exact this

/-- three steps into the run it is `&g[4]` -/
theorem walk_run : ∃ s : St PL, SSA.run PL walk 3 (start PL walk (fun _ => 0)) = .inl s ∧ s.env 11 = some (.p 65568#64) := by
  exact ⟨_, rfl, rfl⟩

/-- Finding 97: for an index `{0,+,b,+,...}` the analysis takes `b` as the factor of the index and does not look at the coefficients behind it.
With `{0,+,4,+,2}` (which is `i*(i+3)`) it assumes that the index is a multiple of 4, so that the address of an `int` would be a multiple of 16;
in iteration 2 the index is 10. -/
theorem align_scev_bad : ∃ c1 c2 n : Int, c1 = 4 ∧ (∀ i : Int, c1 * i + c2 * (i * (i - 1) / 2) = i * (i + 3)) ∧ ¬ c1 ∣ c1 * n + c2 * (n * (n - 1) / 2) := by
  refine ⟨4, 2, 2, rfl, fun i => ?_, by decide⟩
  have h : 2 ∣ i * (i - 1) := by
    rcases Int.emod_two_eq_zero_or_one i with h | h
    · exact Dvd.dvd.mul_right (Int.dvd_of_emod_eq_zero h) _
    · exact Dvd.dvd.mul_left (Int.dvd_of_emod_eq_zero (by omega)) _
  have h2 : 2 * (i * (i - 1) / 2) = i * (i - 1) := Int.mul_ediv_cancel' h
  rw [h2]; ring

end Cmmc.SSA.Ex
