import Verif.SSA.RangeCtx
import Verif.SSA.ExProper
/-!
# C94 on concrete functions
-/
namespace Cmmc.SSA.Ex
open Cmmc.SSA

/-- the operations of the examples on 32-bit integers; `load` reads an integer from the memory -/
def z32sem : XOp → List (BitVec 32) → (Int → Int) → Res (BitVec 32) (Int → Int) Int Unit
  | .add, [a, b], m => .ok (a + b) m []
  | .lt, [a, b], m => .ok (if a.toInt < b.toInt then 1#32 else 0#32) m []
  | .load, [p], m => .ok (BitVec.ofInt 32 (m p.toInt)) m []
  | .print, [v], m => .ok 0#32 m [v.toInt]
  | _, _, _ => .ub

def Z32 : Lang where
  V := BitVec 32
  M := Int → Int
  E := Int
  H := Unit
  Op := XOp
  C := Int
  decOp := inferInstance
  decC := inferInstance
  cval := BitVec.ofInt 32
  sem := z32sem
  truth := fun v => some (decide (v ≠ 0#32))
  key := fun v => some v.toInt

def zOps : RangeOps Z32 where
  i32 v := some v
  num c := some c
  undef _ := false
  kind := fun (op : XOp) => match op with | .add => .bin .add | _ => .other

def zCmp : Z32.Op → Option RCmp := fun (op : XOp) => match op with | .lt => some .slt | _ => none

theorem zLaws : RangeLaws zOps where
  num := by intro c z h; cases h; rfl
  undef := by intro c h; simp [zOps] at h
  bin := by
    intro (op : XOp) k (vs : List (BitVec 32)) m m' v es r hk hs hv
    cases op <;> first | (exfalso; simp [zOps] at hk; done) | skip
    have : k = .add := by simpa [zOps] using hk.symm
    subst this
    match vs, hs with
    | [a, b], hs =>
      refine ⟨a, b, a, b, rfl, rfl, rfl, trivial, ?_⟩
      have h2 : Res.ok (a + b) m [] = Res.ok v m' es := hs
      have h3 : some v = some r := hv
      cases h2; cases h3; rfl
    | [], hs => exact absurd hs (by simp [Z32, z32sem])
    | [_], hs => exact absurd hs (by simp [Z32, z32sem])
    | _ :: _ :: _ :: _, hs => exact absurd hs (by simp [Z32, z32sem])
  neg := by intro (op : XOp) vs m m' v es r hk; cases op <;> simp [zOps] at hk
  abs := by intro (op : XOp) vs m m' v es r hk; cases op <;> simp [zOps] at hk
  select := by intro (op : XOp) vs m m' v es r hk; cases op <;> simp [zOps] at hk
  sext := by intro (op : XOp) w vs m m' v es r hk; cases op <;> simp [zOps] at hk
  zext := by intro (op : XOp) w vs m m' v es r hk; cases op <;> simp [zOps] at hk

theorem zCmpLaws : CmpLaws zOps zCmp where
  test := by
    intro (op : XOp) p (vs : List (BitVec 32)) m m' (v : BitVec 32) es t hc hs ht
    cases op <;> first | (exfalso; simp [zCmp] at hc; done) | skip
    have : p = .slt := by simpa [zCmp] using hc.symm
    subst this
    match vs, hs with
    | [a, b], hs =>
      refine ⟨a, b, rfl, .inl ⟨a, b, rfl, rfl, ?_⟩⟩
      have h2 : Res.ok (if a.toInt < b.toInt then 1#32 else 0#32) m [] = Res.ok v m' es := hs
      have h3 : some (decide (v ≠ 0#32)) = some t := ht
      cases h2; cases h3
      by_cases h : a.toInt < b.toInt <;> simp [RCmp.holds, h]
    | [], hs => exact absurd hs (by simp [Z32, z32sem])
    | [_], hs => exact absurd hs (by simp [Z32, z32sem])
    | _ :: _ :: _ :: _, hs => exact absurd hs (by simp [Z32, z32sem])
  key := by
    intro v k a h1 h2
    have h1 : some (BitVec.toInt v) = some k := h1
    have h2 : some v = some a := h2
    cases h1; cases h2
    exact (BitVec.ofInt_toInt).symm
  mv := by
    intro (op : XOp) h (vs : List (BitVec 32))
    cases op <;> first | (exfalso; simp [zCmp] at h; done) | skip
    match vs with
    | [a, b] => exact .inr ⟨_, fun m => rfl⟩
    | [] => exact .inl fun m => rfl
    | [_] => exact .inl fun m => rfl
    | _ :: _ :: _ :: _ => exact .inl fun m => rfl

/-- `x = *0; if(x < 10) { print(x); return x; } return 0;` -/
def lt11 : Inst XOp Int := ⟨11, .lt, [.inst 10, .cst 10]⟩
def guard10 : Func XOp Int := mk [
  (0, ⟨[], [⟨10, .load, [.cst 0]⟩, lt11], .cbr (.inst 11) 1 2⟩),
  (1, ⟨[], [⟨12, .print, [.inst 10]⟩], .ret (some (.inst 10))⟩),
  (2, ⟨[], [], .ret (some (.cst 0))⟩)]

theorem guard10_proper : Proper (guard10 : Z32.F) := (mk_proper _ (by decide +kernel)).1

/-- the fact about `x` on the side where the comparison is true -/
def le9 : Range.IRange := { Range.full with smax := 9 }
/-- and on the other side -/
def ge10 : Range.IRange := ⟨2147483648#32, 0#32, 10, 2147483647, 10, 2147483647⟩

theorem le9_wf : Range.WF le9 := ⟨by decide, by decide, by decide⟩
theorem ge10_wf : Range.WF ge10 := ⟨by decide, by decide, by decide⟩

def gK1 : Facts := fun y d => if y = 10 ∧ d = 1 then le9 else Range.full
def gK2 : Facts := fun y d => if y = 10 ∧ d = 2 then ge10 else gK1 y d

/-- operands as they are read in block 0 -/
def gG : Opd Z32.C → Range.IRange := zOps.get (fun _ => Range.full)

theorem gG_reads {nd : Bool} {K : Facts} {d : Nat} : ∀ o, Reads zOps nd (guard10 : Z32.F) (fun _ => Range.full) K d o (gG o)
  | .cst _ => .cst
  | .inst _ => .plain

/-- only block 0 has edges, to the blocks 1 and 2 -/
theorem guard10_edge {q t : Nat} (h : Edge (guard10 : Z32.F) q t) : q = 0 ∧ (t = 1 ∨ t = 2) := by
  obtain ⟨B, hB, ht⟩ := h
  obtain ⟨e, he, rfl⟩ := Option.map_eq_some_iff.1 (show Option.map Prod.snd _ = some B from hB)
  have h1 := List.mem_of_find?_eq_some he
  have h2 : e.1 = q := by simpa using List.find?_some he
  subst h2
  simp only [List.mem_cons, List.not_mem_nil, or_false] at h1
  rcases h1 with rfl | rfl | rfl
  · exact ⟨rfl, by simpa [Term.targets] using ht⟩
  · simp [Term.targets] at ht
  · simp [Term.targets] at ht

theorem guard10_dom {t : Nat} : Domi (guard10 : Z32.F) 0 t := by
  intro p hp
  cases hp with
  | single => simp [guard10, mk]
  | cons => exact List.mem_cons_self

theorem guard10_analysis : CAnalysis zOps zCmp false (guard10 : Z32.F) (fun _ => Range.full) gK2 := by
  have hB : (guard10 : Z32.F).blk 0 = some ⟨[], [⟨10, .load, [.cst 0]⟩, lt11], .cbr (.inst 11) 1 2⟩ := rfl
  have hfine : Fine (fun _ => Range.full) := fine_full
  have hlt : (lt11 : Inst XOp Int) ∈ [(⟨10, .load, [.cst 0]⟩ : Inst XOp Int), lt11] := List.mem_cons_of_mem _ List.mem_cons_self
  have h1 : CAnalysis zOps zCmp false (guard10 : Z32.F) (fun _ => Range.full) gK1 := by
    refine .visit .start (.branch (side := true) (j := lt11) (p := .slt) (l := .inst 10) (r := .cst (10 : Int)) (x := 10) (t := 1) (tr := le9) hB rfl (by decide) hB
      hlt rfl rfl rfl gG_reads (get_fine hfine) rfl (by decide) guard10_dom ?_ (.inl ⟨rfl, ?_⟩) ?_) hfine ?_
    · exact fun q hq => (guard10_edge hq).1
    · show RCmp.factL false .slt (Range.ofConst 10) = some (some le9)
      decide +kernel
    · unfold updFact
      rw [show Range.intersectSet false Range.full le9 = some le9 by decide +kernel]
      rfl
    · intro x b; unfold gK1; split
      · exact le9_wf
      · exact Range.wf_full
  refine .visit h1 (.branch (side := false) (j := lt11) (p := .slt) (l := .inst 10) (r := .cst (10 : Int)) (x := 10) (t := 2) (tr := ge10) hB rfl (by decide) hB
      hlt rfl rfl rfl gG_reads (get_fine hfine) rfl (by decide) guard10_dom ?_ (.inl ⟨rfl, ?_⟩) ?_) hfine ?_
  · exact fun q hq => (guard10_edge hq).1
  · show RCmp.factL false .sge (Range.ofConst 10) = some (some ge10)
    decide +kernel
  · unfold updFact
    rw [show Range.intersectSet false (gK1 10 2) ge10 = some ge10 by decide +kernel]
    rfl
  · intro x b; unfold gK2; split
    · exact ge10_wf
    · unfold gK1; split
      · exact le9_wf
      · exact Range.wf_full

theorem guard10_read : Reads zOps false (guard10 : Z32.F) (fun _ => Range.full) gK2 1 (.inst 10) le9 := by
  refine .facts (bs := [1]) ?_ ?_ ?_
  · rintro ⟨B, hB, hi⟩
    have : B = ⟨[], [⟨12, .print, [.inst 10]⟩], .ret (some (.inst 10))⟩ := (Option.some.inj hB).symm
    subst this
    simp [Block.ids] at hi
  · intro b hb
    rw [List.mem_singleton] at hb
    subst hb
    exact Dom.dominates_refl
  · show (match Range.intersectSet false Range.full (gK2 10 1) with | some r' => some r' | none => none) = some le9
    decide +kernel

/-- whatever is in memory, `x` is at most 9 where it is printed -/
theorem guard10_small {n : Nat} {m : Int → Int} {s : St Z32} (h : SSA.run Z32 guard10 n (start Z32 guard10 m) = .inl s) (hs : s.cur = 1)
    {v : BitVec 32} (hv : s.env 10 = some v) : v.toInt ≤ 9 := by
  have hB : (guard10 : Z32.F).blk 1 = some ⟨[], [⟨12, .print, [.inst 10]⟩], .ret (some (.inst 10))⟩ := rfl
  have hr : Reads zOps false (guard10 : Z32.F) (fun _ => Range.full) gK2 s.cur (.inst 10) le9 := by rw [hs]; exact guard10_read
  have h1 : enterPhis Z32 s.pred s.env [] s.env = some s.env := rfl
  have h2 : execBody Z32 [] s.env s.m s.tr = .ok s.env s.m s.tr := rfl
  have hv : eval Z32 s.env (.inst 10) = some v := hv
  exact (C94_contextualRanges_partial (pre := []) zLaws zCmpLaws guard10_proper guard10_analysis h (hs ▸ hB) h1 rfl h2 hr hv rfl).shi

/-- the run with 7 in memory gets there -/
example : ∃ s : St Z32, SSA.run Z32 guard10 1 (start Z32 guard10 (fun _ => 7)) = .inl s ∧ s.cur = 1 ∧ s.env 10 = some (7#32 : BitVec 32) := ⟨_, rfl, rfl, rfl⟩

/-! ## switches whose cases share a target -/

/-- `switch(x = *0) { case 5: case 7: return x; } return 0;` -/
def shared57 : Func XOp Int := mk [
  (0, ⟨[], [⟨10, .load, [.cst 0]⟩], .sw (.inst 10) 2 [(5, 1), (7, 1)]⟩),
  (1, ⟨[], [], .ret (some (.inst 10))⟩),
  (2, ⟨[], [], .ret (some (.cst 0))⟩)]

/-- What the code checks (lines 567-578) before it records that `x` is `key` in the target is not enough when two cases have the same target,
because this is one predecessor: here the conditions hold for the key 5 and the target 1, but a run enters block 1 with 7. -/
theorem switch_shared_bad : Proper (shared57 : Z32.F) ∧
    (∃ B, (shared57 : Z32.F).blk 0 = some B ∧ B.term = .sw (.inst 10) 2 [(5, 1), (7, 1)]) ∧ (1 : Nat) ≠ 0 ∧ Domi (shared57 : Z32.F) 0 1 ∧
    (∀ q, Edge (shared57 : Z32.F) q 1 → q = 0) ∧
    ∃ (s : St Z32) (a : BitVec 32), SSA.run Z32 shared57 1 (start Z32 shared57 (fun _ => 7)) = .inl s ∧ s.cur = 1 ∧ s.env 10 = some a ∧
      ¬ Range.Mem a (Range.ofConst 5) := by
  refine ⟨(mk_proper _ (by decide +kernel)).1, ⟨_, rfl, rfl⟩, by decide, ?_, ?_, _, _, rfl, rfl, rfl, ?_⟩
  · intro p hp
    cases hp with
    | cons => exact List.mem_cons_self
  · intro q h
    obtain ⟨B, hB, ht⟩ := h
    obtain ⟨e, he, rfl⟩ := Option.map_eq_some_iff.1 (show Option.map Prod.snd _ = some B from hB)
    have h1 := List.mem_of_find?_eq_some he
    have h2 : e.1 = q := by simpa using List.find?_some he
    subst h2
    simp only [List.mem_cons, List.not_mem_nil, or_false] at h1
    rcases h1 with rfl | rfl | rfl
    · rfl
    · simp [Term.targets] at ht
    · simp [Term.targets] at ht
  · rw [Range.ofConst_mem]; decide

end Cmmc.SSA.Ex
