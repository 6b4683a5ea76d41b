import Verif.Mir.CfgProps
import Verif.Mir.PeepEx

/-!
# C51-C53 on concrete functions, and what goes wrong outside the hypotheses
-/

namespace Cmmc.Mir.CfgEx

/-- What each opcode does: 0 `ret` and 4 output (they append what they read to the memory), 6 jump, 11 branch if zero,
    12 branch if not zero. -/
def D (op : Nat) (rs : List Nat) (m : List Nat) : List Nat × Nat :=
  match op with
  | 0 => (m ++ rs, 0)
  | 4 => (m ++ rs, 0)
  | 11 => (m, rs.headD 0)
  | 12 => (m, if rs.headD 0 = 0 then 1 else 0)
  | _ => (m, 0)

def I : Interp Nat (List Nat) := fun op rs m vs m' k => vs = [] ∧ m' = (D op rs m).1 ∧ k = (D op rs m).2

def T : Target := { list := fun _ => [], clsP := fun _ => 0, clsV := fun _ => 0, zero := fun _ => false, callerSaved := [] }

def vis (op : Nat) : Bool := op == 0 || op == 4

def J : BrOps := { goto := fun _ => { op := 6, ops := [] }, inv := fun x => { x with op := if x.op = 11 then 12 else 11 } }

/-- The conditional branches of the target. -/
def C (x : Inst) : Prop := (x.op = 11 ∨ x.op = 12) ∧ x.defs = [] ∧ x.call = none

theorem eff {x : Inst} (hd : x.defs = []) (hc : x.call = none) {σ ρ : Reg → Nat} {m m' : List Nat} {k : Nat} :
    Eff T I x σ m ρ m' k ↔ ρ = σ ∧ m' = (D x.op (x.reads σ) m).1 ∧ k = (D x.op (x.reads σ) m).2 := by
  have : x.dsts T = [] := by simp [Inst.dsts, Inst.clob, hd, hc]
  unfold Eff I
  rw [this]
  constructor
  · rintro ⟨vs, ⟨rfl, h1, h2⟩, -, h3⟩
    exact ⟨by simpa [writes] using h3, h1, h2⟩
  · rintro ⟨h3, h1, h2⟩
    exact ⟨[], ⟨rfl, h1, h2⟩, rfl, by simpa [writes] using h3⟩

theorem pure {x : Inst} (ho : x.op = 6 ∨ x.op = 11 ∨ x.op = 12) (hd : x.defs = []) (hc : x.call = none) : BrPure T I vis x := by
  have hm : ∀ rs m, (D x.op rs m).1 = m := by
    intro rs m
    rcases ho with h | h | h <;> simp [h, D]
  refine ⟨by rcases ho with h | h | h <;> simp [vis, h], ?_, ?_⟩
  · intro σ m ρ m' k h
    rw [eff hd hc] at h
    exact ⟨h.1, by rw [h.2.1, hm]⟩
  · intro σ m
    exact ⟨_, (eff hd hc).2 ⟨rfl, (hm _ _).symm, rfl⟩⟩

theorem J_ok : J.Ok T I vis C := by
  have hinv : ∀ x, C x → C (J.inv x) := by
    rintro x ⟨h, hd, hc⟩
    refine ⟨?_, hd, hc⟩
    rcases h with h | h <;> simp [J, h]
  have hr : ∀ (x : Inst) (σ : Reg → Nat), (J.inv x).reads σ = x.reads σ := fun _ _ => rfl
  have hk : ∀ x m σ, C x → ((D x.op (x.reads σ) m).2 = 0 ↔ (D (J.inv x).op (x.reads σ) m).2 ≠ 0) := by
    rintro x m σ ⟨h, -, -⟩
    rcases h with h | h <;> simp [J, h, D]
  have hmm : ∀ x rs (m : List Nat), C x → (D x.op rs m).1 = m := by
    rintro x rs m ⟨h, -, -⟩
    rcases h with h | h <;> simp [h, D]
  refine ⟨fun t => pure (.inl rfl) rfl rfl, fun x h => pure (.inr h.1) h.2.1 h.2.2, hinv, ?_, ?_⟩
  · intro x σ m k h he
    rw [eff h.2.1 h.2.2] at he
    obtain ⟨-, -, rfl⟩ := he
    exact ⟨_, (eff (hinv x h).2.1 (hinv x h).2.2).2 ⟨rfl, (hmm _ _ _ (hinv x h)).symm, rfl⟩, by rw [hr]; exact hk x m σ h⟩
  · intro x σ m k h he
    rw [eff (hinv x h).2.1 (hinv x h).2.2] at he
    obtain ⟨-, -, rfl⟩ := he
    exact ⟨_, (eff h.2.1 h.2.2).2 ⟨rfl, (hmm _ _ _ h).symm, rfl⟩, by rw [hr]; exact hk x m σ h⟩

/-- A check that implies `CodeOk`. -/
def okB (f : Code) : Bool := decide f.labels.Nodup && f.flat.all fun x =>
  x.targets.all (fun t => f.labels.contains t) && match x.br with
    | .goto _ => x.inst.op == 6 && x.inst.defs.isEmpty && x.inst.call.isNone
    | .cond _ => (x.inst.op == 11 || x.inst.op == 12) && x.inst.defs.isEmpty && x.inst.call.isNone
    | _ => true

theorem okB_ok {f : Code} (h : okB f = true) : CodeOk T I vis C f := by
  simp only [okB, Bool.and_eq_true, decide_eq_true_eq, List.all_eq_true] at h
  refine ⟨h.1, fun x hx => ?_⟩
  have hx := h.2 x hx
  refine ⟨fun t ht => by simpa using hx.1 t ht, fun t ht => ?_, fun t ht => ?_⟩
  · have := hx.2
    simp only [ht, Bool.and_eq_true, beq_iff_eq, List.isEmpty_iff, Option.isNone_iff_eq_none] at this
    exact pure (.inl this.1.1) this.1.2 this.2
  · have := hx.2
    simp only [ht, Bool.and_eq_true, Bool.or_eq_true, beq_iff_eq, List.isEmpty_iff, Option.isNone_iff_eq_none] at this
    exact ⟨this.1.1, this.1.2, this.2⟩

/-- A check that implies `Terminated`. -/
def termB (f : Code) : Bool := (f.all fun B => B.2.dropLast.all (fun y => y.br == .none) && match B.2.getLast? with
    | some x => x.noFall || (match x.br with | .cond _ => true | _ => false)
    | none => false) && (match f.getLast? with | some B => !falls B.2 | none => true)

theorem termB_ok {f : Code} (h : termB f = true) : Terminated f := by
  simp only [termB, Bool.and_eq_true, List.all_eq_true] at h
  refine ⟨fun B hB => ?_, fun B hB => ?_⟩
  · have hB := h.1 B hB
    cases hl : B.2.getLast? with
    | none => rw [hl] at hB; simp at hB
    | some x =>
      rw [hl] at hB
      refine ⟨B.2.dropLast, x, ?_, ?_, ?_⟩
      · obtain ⟨l, e⟩ := List.getLast?_eq_some_iff.mp hl
        rw [e, List.dropLast_concat]
      · intro y hy; simpa using hB.1 y hy
      · have := hB.2
        simp only [Bool.or_eq_true] at this
        rcases this with h | h
        · exact .inl h
        · split at h
          · rename_i t e; exact .inr ⟨t, e⟩
          · cases h
  · have := h.2
    rw [Option.mem_def] at hB
    rw [hB] at this
    simpa using this

def out (r : Nat) : FInst := ⟨{ op := 4, ops := [(.use, .ph r)] }, .none⟩
def ret (r : Nat) : FInst := ⟨{ op := 0, ops := [(.use, .ph r)] }, .stop⟩
def jmp (t : Nat) : FInst := ⟨{ op := 6, ops := [] }, .goto t⟩
def beqz (r t : Nat) : FInst := ⟨{ op := 11, ops := [(.use, .ph r)] }, .cond t⟩
def bnez (r t : Nat) : FInst := ⟨{ op := 12, ops := [(.use, .ph r)] }, .cond t⟩

/-- Nothing else is done between the passes. -/
def noPeep (f : Code) : Code × Bool := (f, false)

theorem noPeep_ok : PeepOk T I vis C noPeep := ⟨fun _ h => ⟨FSame.refl, h⟩, fun _ _ h => h⟩

/-! ## C51 -/

/-- An `if` in a loop, as it comes out of instruction selection: chains of jumps, an unreachable block, code after a
    jump. -/
def f1 : Code :=
  [(0, [out 1, jmp 1]),
   (1, [beqz 2 3, jmp 2]),
   (2, [out 2, jmp 5, out 9]),
   (3, [jmp 4]),
   (4, [out 3, jmp 5]),
   (7, [out 8, jmp 7]),
   (5, [bnez 4 1, jmp 6]),
   (6, [ret 0])]

theorem f1_ok : CodeOk T I vis C f1 := okB_ok (by decide)

/-- The result: two blocks are gone, their code is where it falls through to. -/
theorem f1_simplified : simplifyCFG J noPeep 6 f1 =
    some [(0, [out 1]), (1, [beqz 2 4, out 2, jmp 5]), (4, [out 3]), (5, [bnez 4 1, ret 0])] := by
  decide +kernel

theorem f1_same : ∃ g, simplifyCFG J noPeep 6 f1 = some g ∧ g ≠ f1 ∧ FSame T I vis f1 g ∧ Simplified g :=
  ⟨_, f1_simplified, by decide, (C51_simplifyCFG J_ok noPeep_ok.sound (fun _ _ => rfl) f1_ok f1_simplified).1,
    (C51_simplifyCFG J_ok noPeep_ok.sound (fun _ _ => rfl) f1_ok f1_simplified).2.2⟩

/-- A short forward branch: the branch is inverted to skip one instruction. -/
def f2 : Code := [(0, [out 1, beqz 2 2]), (1, [ret 0]), (2, [out 3, jmp 1])]

theorem f2_simplified : simplifyCFG J noPeep 6 f2 = some [(0, [out 1, bnez 2 1, out 3]), (1, [ret 0])] := by decide +kernel

theorem f2_ok : CodeOk T I vis C f2 := okB_ok (by decide)

/-- The loop that simplifies the control flow does not end on a block that jumps to itself and nothing else
    (`while(1);`): `redirectGoto` reports a change each time it replaces the target by itself. -/
theorem self_loop_hangs : ∀ n, simplifyCFG J noPeep n [(0, [jmp 0])] = none := by
  intro n
  induction n with
  | zero => rfl
  | succ n ih =>
    have : passes [removeUnreachableCode, removeGotoNext, redirectGoto, removeEmptyBlocks, removeUnusedLabels,
        reorderBranch J, sfbOpt J, noPeep] [(0, [jmp 0])] = ([(0, [jmp 0])], true) := by decide +kernel
    unfold simplifyCFG at ih ⊢
    rw [untilSame, this]
    exact ih

/-- The same in the variant used before block placement and in the identical code folding. -/
theorem self_loop_hangs_unique : ∀ n, simplifyCFGUnique J noPeep n [(0, [jmp 0])] = none := by
  intro n
  induction n with
  | zero => rfl
  | succ n ih =>
    have : passes [conditional2Unconditional J, redirectGoto, removeUnreachableCode, noPeep] [(0, [jmp 0])] =
        ([(0, [jmp 0])], true) := by decide +kernel
    unfold simplifyCFGUnique at ih ⊢
    rw [untilSame, this]
    exact ih

/-! ## C52 -/

/-- A loop whose test is at the top, a jump to a return. -/
def f3 : Code :=
  [(0, [out 1, jmp 1]),
   (1, [beqz 2 4]),
   (2, [out 2, jmp 1]),
   (3, [out 7, jmp 4]),
   (4, [ret 0])]

theorem f3_ok : CodeOk T I vis C f3 := okB_ok (by decide)
theorem f3_term : Terminated f3 := termB_ok (by decide)

/-- Block 1 (the test) is copied into block 2 (the body). -/
theorem f3_dup : tailDuplication J (fun _ _ _ t => t = 1) (simplifyCFGUnique J noPeep 5) 1 f3 =
    some [(0, [out 1, jmp 1]), (1, [beqz 2 4]), (2, [out 2, beqz 2 4]), (5, [jmp 2]), (4, [ret 0])] := by decide +kernel

theorem f3_same : ∃ g, tailDuplication J (fun _ _ _ t => t = 1) (simplifyCFGUnique J noPeep 5) 1 f3 = some g ∧
    g ≠ f3 ∧ FSame T I vis f3 g :=
  ⟨_, f3_dup, by decide, (C52_tailDuplication J_ok noPeep_ok f3_ok f3_term f3_dup).1⟩

/-- Another order of the blocks: blocks 1 no longer falls through, so that a jump is needed. -/
theorem f3_layout : optimizeBlockLayout J (fun _ => [0, 1, 4, 3, 2]) f3 =
    [(0, [out 1, jmp 1]), (1, [beqz 2 4]), (5, [jmp 2]), (4, [ret 0]), (3, [out 7, jmp 4]), (2, [out 2, jmp 1])] := by
  decide +kernel

theorem f3_layout_same : FSame T I vis f3 (optimizeBlockLayout J (fun _ => [0, 1, 4, 3, 2]) f3) :=
  (C52_blockLayout J_ok f3_ok f3_term (by decide) rfl).1

/-! ## C53 -/

/-- Two identical blocks. -/
def f4 : Code :=
  [(0, [out 1, beqz 2 3]),
   (1, [out 2, beqz 3 5]),
   (2, [out 3, jmp 4]),
   (3, [out 3, jmp 4]),
   (4, [out 4, jmp 5]),
   (5, [ret 0])]

theorem f4_ok : CodeOk T I vis C f4 := okB_ok (by decide)
theorem f4_term : Terminated f4 := termB_ok (by decide)

/-- Block 3 becomes a jump to block 2, and block 0 branches there directly. -/
theorem f4_folded : identicalCodeFolding J id (· + 1) 5 f4 =
    some [(0, [out 1, beqz 2 2]), (1, [out 2, beqz 3 5]), (2, [out 3, jmp 4]), (3, [jmp 2]), (4, [out 4, jmp 5]), (5, [ret 0])] := by
  decide +kernel

theorem f4_same : ∃ g, identicalCodeFolding J id (· + 1) 5 f4 = some g ∧ g ≠ f4 ∧ FSame T I vis f4 g :=
  ⟨_, f4_folded, by decide, (C53_identicalCodeFolding J_ok (fun _ => Nat.succ_ne_zero _) f4_ok f4_term f4_folded).1⟩

/-! The check for identical blocks only asks that the successors of one are successors of the other. It is the hash that
makes this harmless; if the hash of a pointer to a block is 0, blocks that fall through to different places are folded. -/

theorem det : I.Det := by
  rintro op rs m vs m' k vs' m'' k' ⟨rfl, rfl, rfl⟩ ⟨rfl, rfl, rfl⟩
  exact ⟨rfl, rfl, rfl⟩

theorem fobs_det {f : Code} {s a b : FSt Nat (List Nat)} {ta tb : List (Nat × List Nat)} (ha : FObs T I vis f s ta a)
    (hb : FObs T I vis f s tb b) : ta <+: tb ∨ tb <+: ta := by
  induction ha generalizing tb with
  | nil => exact .inl List.nil_prefix
  | cons e1 n1 _ ih =>
    cases hb with
    | nil => exact .inr List.nil_prefix
    | cons e2 n2 h2 =>
      obtain ⟨vs, i1, -, r1⟩ := e1
      obtain ⟨vs', i2, -, r2⟩ := e2
      obtain ⟨rfl, rfl, rfl⟩ := det _ _ _ _ _ _ _ _ _ i1 i2
      subst r1 r2
      rw [n1] at n2
      cases n2
      rcases ih h2 with h | h
      · exact .inl ((List.prefix_append_right_inj _).2 h)
      · exact .inr ((List.prefix_append_right_inj _).2 h)

def f5 : Code :=
  [(0, [beqz 9 3]),
   (1, [beqz 2 4]),
   (2, [out 7, jmp 4]),
   (3, [beqz 2 4]),
   (4, [out 0, ret 0])]

def g5 : Code :=
  [(0, [beqz 9 1]),
   (1, [beqz 2 4]),
   (2, [out 7, jmp 4]),
   (3, [jmp 1]),
   (4, [out 0, ret 0])]

theorem f5_ok : CodeOk T I vis C f5 := okB_ok (by decide)
theorem f5_term : Terminated f5 := termB_ok (by decide)

theorem f5_folded : identicalCodeFolding J id (fun l => if l = 2 then 0 else l + 1) 5 f5 = some g5 := by decide +kernel

theorem one {f : Code} {x : FInst} {r d : List FInst} {σ : Reg → Nat} {m : List Nat} {tr : List (Nat × List Nat)}
    (hd : x.inst.defs = []) (hc : x.inst.call = none)
    (hn : f.next x r (D x.inst.op (x.inst.reads σ) m).2 = some d)
    (h : ∃ s, FObs T I vis f ⟨d, σ, (D x.inst.op (x.inst.reads σ) m).1⟩ tr s) :
    ∃ s, FObs T I vis f ⟨x :: r, σ, m⟩ (shown vis x.inst.op (D x.inst.op (x.inst.reads σ) m).1 ++ tr) s :=
  h.imp fun _ h => .cons ((eff hd hc).2 ⟨rfl, rfl, rfl⟩) hn h

/-- The hypothesis of C53 about the hash cannot be dropped. -/
theorem f5_differs : ¬ FSame T I vis f5 g5 := by
  intro hs
  let σ : Reg → Nat := fun r => match r with
    | .ph 2 => 1
    | .ph 7 => 5
    | _ => 0
  have hf : ∃ s, FObs T I vis f5 ⟨f5.flat, σ, []⟩ [(4, [0])] s :=
    one (tr := [(4, [0])]) rfl rfl rfl (one (tr := [(4, [0])]) rfl rfl rfl (one (tr := []) rfl rfl rfl ⟨_, .nil⟩))
  have hg : ∃ s, FObs T I vis g5 ⟨g5.flat, σ, []⟩ [(4, [5])] s :=
    one (tr := [(4, [5])]) rfl rfl rfl (one (tr := [(4, [5])]) rfl rfl rfl (one (tr := []) rfl rfl rfl ⟨_, .nil⟩))
  obtain ⟨s, hf⟩ := (hs.1 σ [] _).1 hf
  obtain ⟨t, hg⟩ := hg
  rcases fobs_det hf hg with h | h <;> revert h <;> decide

end Cmmc.Mir.CfgEx
