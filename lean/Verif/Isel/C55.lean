import Verif.Isel.Complete

/-!
# C55: instruction selection computes the same values and takes the same branches
-/

namespace Cmmc.Isel

open Tm

/-- **C55 (values).**  A typed tree of generic operations, over registers that hold values of their
types, is rewritten by the RISC-V selection rules, in any order and at any places, any number of times.
If the generic tree has a value (no shift by the width or more, no division by zero or overflowing
quotient), then the result has exactly that value in all 64 bits; every intermediate register holds a
value of its type; every immediate fits its instruction, and no instruction that wants a register got an
immediate. -/
theorem isel_value {s t : Tm} {env : ℕ → W} {v : W} (hg : s.Generic) (ht : s.Typed) (he : s.EnvOk env)
    (hv : s.eval env = some v) (h : Steps s t) :
    t.eval env = some v ∧ t.AllHold env ∧ t.Enc ∧ t.ty = s.ty := by
  have hs := Ok.of_generic hg ht he hv
  have h' := h.sound hs
  exact ⟨h'.ev, h'.hold, h'.enc, h.ty_eq⟩

/-- **C55 (branches).**  The same for a conditional branch: it is taken after selection if and only if
it is taken before, and the two compared operands are registers. -/
theorem isel_branch {s : Tm} {c : CC} {l r : Tm} {env : ℕ → W} {b : Bool} (hg : s.Generic)
    (ht : s.Typed) (hb : s.ty = .b) (he : s.EnvOk env) (hv : (Br.gen s).taken env = some b)
    (h : BSteps (.gen s) (.cmp c l r)) :
    (Br.cmp c l r).taken env = some b ∧ l.isImm = false ∧ r.isImm = false ∧ l.Enc ∧ r.Enc := by
  simp only [Br.taken, Option.bind_eq_some_iff, Option.some.injEq] at hv
  obtain ⟨k, hk, e⟩ := hv
  have h' := h.sound (env := env) (b := b) ⟨hb, k, Ok.of_generic hg ht he hk, e⟩
  have h1 := h'.taken
  obtain ⟨p, q, hp, hq, -, h2, h3⟩ := h'
  exact ⟨h1, h2, h3, hp.enc, hq.enc⟩

/-- **C55 (the rules suffice).**  Every typed tree of supported operations can be rewritten to one with
machine instructions only, and then `isel_value` applies to the result. -/
theorem isel_complete {s : Tm} (hg : s.Generic) (ht : s.Typed) (hs : s.Supported) :
    ∃ t, Steps s t ∧ t.Machine := complete hg ht hs

/-! ## Concrete cases -/

/-- `x <= 5 ? x / 7 : y * 3 + 100000`, selected: a compare-and-select, a magic division, and a
constant that needs a register. -/
def exTm : Tm :=
  sel .i32 (bin (.icmp .sle) .b (reg .i32 0) (imm .i32 5))
    (bin (.g .sdiv) .i32 (reg .i32 0) (imm .i32 7))
    (bin (.g .add) .i32 (bin (.g .mul) .i32 (reg .i32 1) (imm .i32 3)) (imm .i32 100000))

def exMagic : Magic := { magic := -1840700269, shift := 2, factor := 1 }

def exSel : Tm :=
  selG .slt .i32 (reg .i32 0) (li .i32 6)
    (bin (.r .add) .i32 (bin (.r .srlw) .i32 (mulTm (reg .i32 0) exMagic) (imm .i32 31))
      (bin (.r .sraw) .i64 (mulTm (reg .i32 0) exMagic) (imm .i32 exMagic.shift)))
    (bin (.r .addw) .i32 (bin (.r .mulw) .i32 (reg .i32 1) (li .i32 3)) (li .i32 100000))

theorem exTm_steps : Steps exTm exSel := by
  unfold exTm
  refine (Steps.tail .refl (.selC (.here (.icmpSle (m := 2 ^ 31 - 1) rfl (by decide))))).trans ?_
  refine (Steps.tail .refl (.selL (.here (.sdivConst (g := exMagic) rfl (by decide +kernel) (by decide))))).trans ?_
  refine (Steps.tail .refl (.selR (.binL (.here (.immR .load (by simp)))))).trans ?_
  refine (Steps.tail .refl (.selR (.binL (.here (.sel2 (o' := .mulw) rfl rfl rfl))))).trans ?_
  refine (Steps.tail .refl (.selR (.here (.immR .load (by simp))))).trans ?_
  refine (Steps.tail .refl (.selR (.here (.sel2 (o' := .addw) rfl rfl rfl)))).trans ?_
  exact .one (.selCmp (.keep rfl) .load (by decide) rfl rfl)

def exEnv : ℕ → W
  | 0 => sx (-100)
  | _ => sx 8

example : exTm.Generic ∧ exTm.Typed ∧ exTm.EnvOk exEnv ∧ exSel.Machine ∧ exTm.Supported := by
  refine ⟨?_, ?_, ?_, ?_, ?_⟩
  · simp [exTm, Generic]
  · simp only [exTm, Typed, BOp.typed, Tm.ty]; decide
  · simp only [exTm, EnvOk]; decide
  · have : mulTm (reg .i32 0) exMagic = bin (.r .add) .i64 (bin (.r .srl) .i64
        (bin (.r .mul) .i64 (reg .i32 0) (li .i64 (-1840700269))) (imm .i32 32)) (reg .i32 0) := by
      decide +kernel
    simp [exSel, this, Machine, Tm.isImm]
  · simp only [exTm, Tm.Supported]; decide
example : exTm.eval exEnv = some (sx (-14)) := by decide +kernel
example : exSel.eval exEnv = some (sx (-14)) := by decide +kernel

/-- `if (x > -1)` becomes `bge x, zero`. -/
theorem exBr_steps : BSteps (.gen (bin (.icmp .sgt) .b (reg .i64 0) (imm .i64 (-1))))
    (.cmp .sge (reg .i64 0) (zero .i64)) := .tail .refl (.gtm1 rfl (by decide))

/-! ## Patterns the compiler uses outside the conditions of the rules

Each witness takes a typed generic tree and the tree the pattern without its extra condition gives. -/

/-- `SH1ADD` at `Int32` (`RISCV.yml:485-571` has no type condition): when the sum wraps, the register is
not sign extended, and a following comparison sees another value. -/
theorem shadd_i32_wrong : ∃ env : ℕ → W,
    let s := bin (.g .add) .i32 (bin (.g .shl) .i32 (reg .i32 0) (imm .i32 1)) (reg .i32 1)
    let t := bin (.r .sh1add) .i32 (reg .i32 0) (reg .i32 1)
    s.Typed ∧ s.EnvOk env ∧ s.eval env = some (immW (-2 ^ 31)) ∧ t.eval env = some (immW (2 ^ 31)) := by
  refine ⟨fun | 0 => immW (2 ^ 30) | _ => 0, ?_, ?_, ?_, ?_⟩
  · simp only [Typed, BOp.typed, Tm.ty]; decide
  · simp only [EnvOk]; decide
  · decide +kernel
  · decide +kernel

/-- Without overflow `SHxADD` is right at `Int32` too. -/
theorem shadd_i32_exact (x y : BitVec 32) {k : ℕ} (hk : k ≤ 3)
    (h : -2 ^ 31 ≤ x.toInt * 2 ^ k + y.toInt ∧ x.toInt * 2 ^ k + y.toInt < 2 ^ 31) :
    (sx x <<< k) + sx y = sx (x <<< k + y) := by
  have e1 : ∀ z : BitVec 32, (sx z).toInt = z.toInt := fun z => BitVec.toInt_signExtend_of_le (by norm_num)
  have e2 : sx x <<< k = BitVec.ofInt 64 (x.toInt * 2 ^ k) := by
    rw [BitVec.shiftLeft_eq_mul_twoPow, ← BitVec.toInt_inj]
    rw [BitVec.toInt_mul, e1, BitVec.toInt_ofInt]
    have : (BitVec.twoPow 64 k).toInt = 2 ^ k := by
      have : k = 0 ∨ k = 1 ∨ k = 2 ∨ k = 3 := by omega
      rcases this with rfl | rfl | rfl | rfl <;> decide
    rw [this]
  have e3 : (sx x <<< k) + sx y = BitVec.ofInt 64 (x.toInt * 2 ^ k + y.toInt) := by
    rw [e2, BitVec.ofInt_add]
    rw [← e1 y, BitVec.ofInt_toInt]
  have e4 : x <<< k + y = BitVec.ofInt 32 (x.toInt * 2 ^ k + y.toInt) := by
    rw [BitVec.ofInt_add, BitVec.ofInt_toInt, BitVec.shiftLeft_eq_mul_twoPow, BitVec.ofInt_mul, BitVec.ofInt_toInt]
    congr 2
    have : k = 0 ∨ k = 1 ∨ k = 2 ∨ k = 3 := by omega
    rcases this with rfl | rfl | rfl | rfl <;> decide
  rw [e3, e4, ← BitVec.toInt_inj, e1, BitVec.toInt_ofInt, BitVec.toInt_ofInt]
  generalize x.toInt * 2 ^ k + y.toInt = n at h
  simp only [Int.bmod_def]
  omega

/-- `ANDN`, `ORN` and `XNOR` (`RISCV.yml:621-678`): `isNotImm` looks at the low 32 bits of the immediate
(`RISCVISelInfo.cpp:252-254`), so at `Int64` it also takes `b ^ 0xffffffff` for `~b`. -/
theorem andn_i64_wrong : ∃ env : ℕ → W,
    let s := bin (.g .and) .i64 (reg .i64 0) (bin (.g .xor) .i64 (reg .i64 1) (imm .i64 0xffffffff))
    let t := bin (.r .andn) .i64 (reg .i64 0) (reg .i64 1)
    s.Typed ∧ s.EnvOk env ∧ s.eval env = some (immW 0xffffffff) ∧ t.eval env = some (immW (-1)) := by
  refine ⟨fun | 0 => immW (-1) | _ => 0, ?_, ?_, ?_, ?_⟩
  · simp only [Typed, BOp.typed, Tm.ty]; decide
  · simp only [EnvOk]; decide
  · decide +kernel
  · decide +kernel

/-- `XNOR` of booleans (`RISCV.yml:651-678`) sets all bits. -/
theorem xnor_bool_wrong : ∃ env : ℕ → W,
    let s := bin (.g .xor) .b (bin (.g .xor) .b (reg .b 0) (reg .b 1)) (imm .b 1)
    let t := bin (.r .xnor) .b (reg .b 0) (reg .b 1)
    s.Typed ∧ s.EnvOk env ∧ s.eval env = some 1 ∧ t.eval env = some (immW (-1)) := by
  refine ⟨fun _ => 0, ?_, ?_, ?_, ?_⟩
  · simp only [Typed, BOp.typed, Tm.ty]; decide
  · simp only [EnvOk]; decide
  · decide +kernel
  · decide +kernel

/-- `SRLIW` by zero of the upper half (`RISCV.yml:1109-1123`): the merged shift does not sign extend. -/
theorem srlw0_wrong : ∃ env : ℕ → W,
    let s := bin (.r .srlw) .i32 (bin (.r .srl) .i64 (reg .i64 0) (imm .i32 32)) (imm .i32 0)
    let t := bin (.r .srl) .i32 (reg .i64 0) (imm .i32 (0 + 32))
    s.Enc ∧ s.EnvOk env ∧ s.eval env = some (immW (-1)) ∧ t.eval env = some (immW 0xffffffff) := by
  refine ⟨fun _ => immW (-1), ?_, ?_, ?_, ?_⟩
  · simp only [Enc]; decide
  · simp only [EnvOk]; decide
  · decide +kernel
  · decide +kernel

/-- `SLLIW` of `SRAIW` as a mask (`RISCV.yml:1294-1311`): on a value that is not of type `Int32` the
upper half survives. -/
theorem shiftMask_wrong : ∃ env : ℕ → W,
    let s := bin (.r .sllw) .i32 (bin (.r .sraw) .i32 (reg .i64 0) (imm .i32 4)) (imm .i32 4)
    let t := bin (.r .and) .i32 (reg .i64 0) (imm .i32 (-2 ^ 4))
    s.Enc ∧ s.EnvOk env ∧ s.eval env = some 0 ∧ t.eval env = some (immW (2 ^ 32)) := by
  refine ⟨fun _ => immW (2 ^ 32), ?_, ?_, ?_, ?_⟩
  · simp only [Enc]; decide
  · simp only [EnvOk]; decide
  · decide +kernel
  · decide +kernel

/-- Inverting a select whose condition is `x ^ 1` (`RISCV.yml:2064-2086`) when `x` is not a boolean. -/
theorem selInv_wrong : ∃ env : ℕ → W,
    let s := selG .ne .i32 (bin (.r .xor) .i32 (reg .i32 0) (imm .i32 1)) (zero .i32) (imm .i32 10) (imm .i32 20)
    let t := selG .ne .i32 (reg .i32 0) (zero .i32) (imm .i32 20) (imm .i32 10)
    s.Enc ∧ s.EnvOk env ∧ s.eval env = some 10 ∧ t.eval env = some 20 := by
  refine ⟨fun _ => 2, ?_, ?_, ?_, ?_⟩
  · simp only [Enc]; decide
  · simp only [EnvOk]; decide
  · decide +kernel
  · decide +kernel

/-- Signed comparison of booleans: `true` is `-1` at one bit, and `1` in the register. -/
theorem slt_bool_wrong : ∃ env : ℕ → W,
    let s := bin (.icmp .slt) .b (reg .b 0) (reg .b 1)
    let t := bin (.r .slt) .b (reg .b 0) (reg .b 1)
    s.Typed ∧ s.EnvOk env ∧ s.eval env = some 1 ∧ t.eval env = some 0 := by
  refine ⟨fun | 0 => 1 | _ => 0, ?_, ?_, ?_, ?_⟩
  · simp only [Typed, BOp.typed, Tm.ty]; decide
  · simp only [EnvOk]; decide
  · decide +kernel
  · decide +kernel

/-- Sign extension of a boolean as a copy (`RISCV.yml:1494-1502`). -/
theorem sext_bool_wrong : ∃ env : ℕ → W,
    let s := un .sext .i32 (reg .b 0)
    let t := un (.r .mv) .i32 (reg .b 0)
    s.Typed ∧ s.EnvOk env ∧ s.eval env = some (immW (-1)) ∧ t.eval env = some 1 := by
  refine ⟨fun _ => 1, ?_, ?_, ?_, ?_⟩
  · simp only [Typed, UOp.typed, Tm.ty]; decide
  · simp only [EnvOk]; decide
  · decide +kernel
  · decide +kernel

/-- `a > -1` at `Int64` (`RISCV.yml:1555-1571`): `isNegativeOne` looks at the low 32 bits of the
immediate, so it also takes `a > 0xffffffff` for `a >= 0`. -/
theorem branch_gtm1_wrong : ∃ env : ℕ → W,
    let s := Br.gen (bin (.icmp .sgt) .b (reg .i64 0) (imm .i64 0xffffffff))
    let t := Br.cmp .sge (reg .i64 0) (zero .i64)
    s.taken env = some false ∧ t.taken env = some true :=
  ⟨fun _ => 5, by decide +kernel, by decide +kernel⟩

end Cmmc.Isel
