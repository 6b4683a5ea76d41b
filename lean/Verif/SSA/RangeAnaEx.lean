import Verif.SSA.RangeAna
import Verif.SSA.ScevEx
/-!
# C93 on a concrete function
-/
namespace Cmmc.SSA.Ex
open Cmmc.SSA

/-- 32-bit additions and multiplications; the comparison has no rule -/
def rOps : RangeOps W32 where
  i32 v := some (BitVec.ofInt 32 v)
  num c := some c
  undef _ := false
  kind := fun (op : XOp) => match op with | .add => .bin .add | .mul => .bin .mul | _ => .other

theorem ofInt_wrap32 (z : Int) : BitVec.ofInt 32 (wrap32 z) = BitVec.ofInt 32 z := by
  apply BitVec.eq_of_toInt_eq
  rw [BitVec.toInt_ofInt, BitVec.toInt_ofInt]
  unfold wrap32
  exact Int.bmod_bmod

theorem rLaws : RangeLaws rOps where
  num := by intro c z h; cases h; exact congrArg some (ofInt_wrap32 _)
  undef := by intro c h; simp [rOps] at h
  bin := by
    intro (op : XOp) k (vs : List Int) m m' v es r hk hs hv
    have hsh : ∃ a b : Int, vs = [a, b] := by
      cases op <;> first | (exfalso; simp [rOps] at hk; done) | skip
      all_goals
        match vs, hs with
        | [a, b], _ => exact ⟨a, b, rfl⟩
        | [], hs => exact absurd hs (by simp [W32, w32sem, X, xsem])
        | [_], hs => exact absurd hs (by simp [W32, w32sem, X, xsem])
        | _ :: _ :: _ :: _, hs => exact absurd hs (by simp [W32, w32sem, X, xsem])
    obtain ⟨a, b, rfl⟩ := hsh
    refine ⟨a, b, BitVec.ofInt 32 a, BitVec.ofInt 32 b, rfl, rfl, rfl, ?_⟩
    have hv' : BitVec.ofInt 32 v = r := Option.some.inj hv
    cases op <;> first | (exfalso; simp [rOps] at hk; done) | skip
    · have : k = .add := by simpa [rOps] using hk.symm
      subst this
      have h1 : wrap32 (a + b) = v := by
        have h2 : Res.ok (wrap32 (a + b)) m [] = Res.ok v m' es := hs
        cases h2; rfl
      exact ⟨trivial, by rw [← hv', ← h1, ofInt_wrap32]; exact BitVec.ofInt_add _ _⟩
    · have : k = .mul := by simpa [rOps] using hk.symm
      subst this
      have h1 : wrap32 (a * b) = v := by
        have h2 : Res.ok (wrap32 (a * b)) m [] = Res.ok v m' es := hs
        cases h2; rfl
      exact ⟨trivial, by rw [← hv', ← h1, ofInt_wrap32]; exact BitVec.ofInt_mul _ _⟩
  neg := by intro (op : XOp) vs m m' v es r hk; cases op <;> simp [rOps] at hk
  abs := by intro (op : XOp) vs m m' v es r hk; cases op <;> simp [rOps] at hk
  select := by intro (op : XOp) vs m m' v es r hk; cases op <;> simp [rOps] at hk
  sext := by intro (op : XOp) w vs m m' v es r hk; cases op <;> simp [rOps] at hk
  zext := by intro (op : XOp) w vs m m' v es r hk; cases op <;> simp [rOps] at hk

/-- `i = 0; do { print(6 * i); i += 4; } while(i < 400); return i;` -/
def count4 : Func XOp Int := mk [
  (0, ⟨[], [], .br 1⟩),
  (1, ⟨[⟨10, [(0, .cst 0), (1, .inst 12)]⟩],
    [⟨11, .mul, [.inst 10, .cst 6]⟩, ⟨13, .print, [.inst 11]⟩, ⟨12, .add, [.inst 10, .cst 4]⟩, ⟨14, .lt, [.inst 12, .cst 400]⟩],
    .cbr (.inst 14) 1 2⟩),
  (2, ⟨[], [], .ret (some (.inst 12))⟩)]

theorem count4_proper : Proper (count4 : W32.F) := (mk_proper _ (by decide +kernel)).1

/-- the low bits of the counter are known to be zero -/
def low2 : Range.IRange := { Range.full with zeros := 3#32, umax := 4294967292 }

def phi10 : Phi Int := ⟨10, [(0, .cst 0), (1, .inst 12)]⟩
def mul11 : Inst XOp Int := ⟨11, .mul, [.inst 10, .cst 6]⟩

/-- the ranges after the visit of the phi for its increment -/
def count4R1 : Ranges := fun y => if y = 10 then low2 else Range.full

/-- after a visit of the multiplication -/
def count4R2 : Ranges := fun y => if y = 11 then low2 else count4R1 y

theorem low2_fine : Range.WF low2 ∧ ∃ v, Range.Mem v low2 := by
  refine ⟨⟨by decide, by decide, by decide⟩, 0#32, ⟨by decide, by decide, by decide, by decide, fun i _ => by simp, fun i h => ?_⟩⟩
  exact absurd h (by simp [low2, Range.full])

theorem full_fine : Range.WF Range.full ∧ ∃ v, Range.Mem v Range.full := ⟨Range.wf_full, 0#32, Range.mem_full _⟩

theorem count4_rec : rOps.addRec false (count4 : W32.F) (rOps.get (fun _ => Range.full)) (phi10 : Phi W32.C) = some (some low2) := by decide +kernel

theorem count4_mul : rOps.transfer false (rOps.get count4R1) (mul11 : Inst W32.Op W32.C) = some (some low2) := by decide +kernel

/-- the analysis finds that the counter and its product are multiples of four -/
theorem count4_analysis : RAnalysis rOps false (count4 : W32.F) count4R2 := by
  have hB : (count4 : W32.F).blk 1 = some ⟨[phi10], [mul11, ⟨13, .print, [.inst 11]⟩, ⟨12, .add, [.inst 10, .cst 4]⟩,
    ⟨14, .lt, [.inst 12, .cst 400]⟩], .cbr (.inst 14) 1 2⟩ := rfl
  have hi : Range.intersectSet false Range.full low2 = some low2 := by decide +kernel
  have h1 : RAnalysis rOps false (count4 : W32.F) count4R1 := by
    refine .visit .start (.incr hB List.mem_cons_self count4_rec ?_) ?_
    · unfold updRange; rw [hi]; rfl
    · intro x
      unfold count4R1
      split
      · exact low2_fine
      · exact full_fine
  refine .visit h1 (.inst hB List.mem_cons_self trivial count4_mul ?_) ?_
  · unfold updRange
    rw [show Range.intersectSet false (count4R1 mul11.id) low2 = some low2 from hi]; rfl
  · intro x
    unfold count4R2
    split
    · exact low2_fine
    · unfold count4R1
      split
      · exact low2_fine
      · exact full_fine

/-- in every run, the product is a multiple of four whenever it has been computed -/
theorem count4_multiple {n : Nat} {m : Int → Int} {s : St W32} (h : SSA.run W32 count4 n (start W32 count4 m) = .inl s) {v : Int}
    (hv : s.env 11 = some v) : (BitVec.ofInt 32 v).toNat % 4 = 0 := by
  have := (C93_rangeAnalysis_partial rLaws count4_proper.oneDef count4_analysis).1 h 11 v _ hv rfl
  have hz := this.z
  refine Range.low_zero (k := 2) |>.mp fun i hi => hz i ?_
  match i, hi with
  | 0, _ => decide
  | 1, _ => decide

/-- three steps into the run the product is there -/
example : ∃ s : St W32, SSA.run W32 count4 3 (start W32 count4 (fun _ => 0)) = .inl s ∧ s.env 11 = some (24 : Int) := by
  exact ⟨_, rfl, rfl⟩

end Cmmc.SSA.Ex
