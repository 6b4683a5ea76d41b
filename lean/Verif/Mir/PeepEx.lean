import Verif.Mir.HoistProps

/-!
# The machine-level passes on concrete functions, and what goes wrong outside their hypotheses
-/

namespace Cmmc.Mir

section
variable {Val Mem : Type} {T : Target} {I : Interp Val Mem} {eff : Nat → Bool} {f g : Func}

/-! ## Telling two deterministic functions apart -/

/-- Every opcode has at most one result. -/
def Interp.Det (I : Interp Val Mem) : Prop :=
  ∀ op rs m vs m' k vs' m'' k', I op rs m vs m' k → I op rs m vs' m'' k' → vs = vs' ∧ m' = m'' ∧ k = k'

theorem step_det (h : I.Det) {s a b : St Val Mem} (ha : Step T I f s a) (hb : Step T I f s b) : a = b := by
  obtain ⟨B, x, k, h1, h2, ⟨vs, e1, e2, e3⟩, h3⟩ := step_iff.1 ha
  obtain ⟨B', x', k', h1', h2', ⟨vs', e1', e2', e3'⟩, h3'⟩ := step_iff.1 hb
  rw [h1] at h1'; cases h1'
  rw [h2] at h2'; cases h2'
  obtain ⟨rfl, hm, rfl⟩ := h _ _ _ _ _ _ _ _ _ e1 e1'
  obtain ⟨ab, ai, aσ, am⟩ := a
  obtain ⟨bb, bi, bσ, bm⟩ := b
  simp only at *
  subst e3 e3' hm
  rcases h3 with ⟨c1, c2, c3⟩ | ⟨c1, c2, c3⟩ <;> rcases h3' with ⟨d1, d2, d3⟩ | ⟨d1, d2, d3⟩
  · simp [c2, c3, d2, d3]
  · omega
  · omega
  · rw [c2] at d2; simp at d2; simp [d2, c3, d3]

/-- Two runs of a deterministic function from the same state show prefixes of the same thing. -/
theorem obs_det (h : I.Det) {s a b : St Val Mem} {ta tb : List (Nat × Mem)} (ha : Obs T I eff f s ta a)
    (hb : Obs T I eff f s tb b) : ta <+: tb ∨ tb <+: ta := by
  induction ha generalizing tb with
  | nil => exact .inl (List.nil_prefix)
  | vis s1 o1 v1 _ ih =>
    cases hb with
    | nil => exact .inr (List.nil_prefix)
    | vis s2 o2 v2 r2 =>
      have := step_det h s1 s2; subst this
      rw [o1] at o2; cases o2
      rcases ih r2 with h | h
      · exact .inl (by simpa using h)
      · exact .inr (by simpa using h)
    | sil s2 o2 v2 r2 => rw [o1] at o2; cases o2; rw [v1] at v2; cases v2
  | sil s1 o1 v1 _ ih =>
    cases hb with
    | nil => exact .inr (List.nil_prefix)
    | vis s2 o2 v2 r2 => rw [o1] at o2; cases o2; rw [v1] at v2; cases v2
    | sil s2 o2 v2 r2 =>
      have := step_det h s1 s2; subst this
      exact ih r2

/-- Functions that show two different things first can be told apart. -/
theorem not_same (h : I.Det) {σ : Reg → Val} {m : Mem} {a b : Nat × Mem}
    (hf : ∃ s, Obs T I eff f ⟨0, 0, σ, m⟩ [a] s) (hg : ∃ t, Obs T I eff g ⟨0, 0, σ, m⟩ [b] t) (hne : a ≠ b) :
    ¬ Same T I eff f g := by
  intro hs
  obtain ⟨s, hf⟩ := hf
  obtain ⟨t, hg⟩ := hg
  obtain ⟨u, hu⟩ := (hs.1 σ m [a]).1 ⟨s, hf⟩
  rcases obs_det h hu hg with h | h
  · simp at h; exact hne h
  · simp at h; exact hne h.symm

theorem ex_sil {s s' : St Val Mem} {op : Nat} {tr : List (Nat × Mem)} (h1 : Step T I f s s') (h2 : opAt f s.b s.i = some op)
    (h3 : eff op = false) (h : ∃ t, Obs T I eff f s' tr t) : ∃ t, Obs T I eff f s tr t := h.imp fun _ h => .sil h1 h2 h3 h

theorem ex_vis {s s' : St Val Mem} {op : Nat} {tr : List (Nat × Mem)} (h1 : Step T I f s s') (h2 : opAt f s.b s.i = some op)
    (h3 : eff op = true) (h : ∃ t, Obs T I eff f s' tr t) : ∃ t, Obs T I eff f s ((op, s'.m) :: tr) t :=
  h.imp fun _ h => .vis h1 h2 h3 h

theorem ex_nil {s : St Val Mem} : ∃ t, Obs T I eff f s [] t := ⟨_, .nil⟩

/-! ## A decidable version of the typing rules -/

def typedB (F : Flags) (x : Inst) : Bool :=
  (F.vis x.op || (x.args.isEmpty && x.call.isNone && decide (x.uses.length = F.nu x.op) && decide (x.defs.length = F.nd x.op))) &&
  (!F.copy x.op || (match x.ops with | [(.dfn, _), (.use, _)] => true | _ => false))

theorem typed_of_typedB {F : Flags} {x : Inst} (h : typedB F x = true) : x.Typed F := by
  unfold typedB at h
  rw [Bool.and_eq_true] at h
  refine ⟨fun hv => ?_, fun hc => ?_⟩
  · have := h.1
    simp only [hv, Bool.false_or, Bool.and_eq_true, List.isEmpty_iff, Option.isNone_iff_eq_none, decide_eq_true_eq] at this
    exact ⟨this.1.1.1, this.1.1.2, this.1.2, this.2⟩
  · have := h.2
    simp only [hc, Bool.not_true, Bool.false_or] at this
    split at this
    · rename_i d s he; exact ⟨d, s, he⟩
    · cases this

def ftypedB (F : Flags) (f : Func) : Bool :=
  List.all f fun B => B.insts.all (typedB F) && (match B.insts.getLast? with | some x => F.vis x.op | none => true)

theorem typed_of_ftypedB {F : Flags} {f : Func} (h : ftypedB F f = true) : f.Typed F := by
  unfold ftypedB at h
  rw [List.all_eq_true] at h
  refine ⟨fun B hB x hx => ?_, fun B hB x hx => ?_⟩
  · have := h B hB
    rw [Bool.and_eq_true, List.all_eq_true] at this
    exact typed_of_typedB (this.1 x hx)
  · have := h B hB
    rw [Bool.and_eq_true, hx] at this
    exact this.2

end

/-! ## A small instruction set -/

namespace PeepEx

/-- 0 `ret` (reads its argument register), 1 copy, 2 load constant 5, 3 add, 4 output, 5 add that also writes a
    flag, 6 jump, 7 read a flag, 8 call, 9 copy to a physical register (a "side effect" of no visible kind),
    10 load constant 7, 11 conditional jump, 12 store to a slot, 13 load from a slot. -/
def F : Flags where
  side op := op ∈ [0, 4, 6, 8, 9, 11, 12, 13]
  vis op := op ∈ [0, 4, 6, 8, 11]
  copy op := op ∈ [1, 9]
  const op := op ∈ [2, 10]
  multi op := op = 5
  pcrel _ := false
  branch op := op ∈ [6, 11]
  nu op := if op ∈ [1, 7, 9, 12, 13] then 1 else if op ∈ [3, 5] then 2 else 0
  nd op := if op = 5 then 2 else if op ∈ [1, 2, 3, 7, 9, 10, 12, 13] then 1 else 0

/-- What each opcode does with what it reads; memory is the list of outputs. -/
def D (op : Nat) (rs : List Nat) (m : List Nat) : List Nat × List Nat × Nat :=
  match op with
  | 0 => ([], m ++ rs, 0)
  | 1 => (rs, m, 0)
  | 2 => ([5], m, 0)
  | 3 => ([rs.sum], m, 0)
  | 4 => ([], m ++ rs, 0)
  | 5 => ([rs.sum, if rs.sum = 0 then 1 else 0], m, 0)
  | 6 => ([], m, 0)
  | 7 => (rs, m, 0)
  | 8 => (List.replicate 2 m.length, m ++ rs, 0)
  | 9 => (rs, m, 0)
  | 10 => ([7], m, 0)
  | 11 => ([], m, rs.headD 0)
  | 12 => (rs, m, 0)
  | 13 => (rs, m, 0)
  | _ => ([], m, 0)

/-- An invisible opcode continues whatever the way out is. -/
def I : Interp Nat (List Nat) := fun op rs m vs m' k =>
  vs = (D op rs m).1 ∧ m' = (D op rs m).2.1 ∧ (F.vis op = true → k = (D op rs m).2.2)

/-- The same with one way out only. -/
def Id : Interp Nat (List Nat) := fun op rs m vs m' k => vs = (D op rs m).1 ∧ m' = (D op rs m).2.1 ∧ k = (D op rs m).2.2

def T : Target := { list := fun _ => [], clsP := fun _ => 0, clsV := fun _ => 0, zero := fun _ => false, callerSaved := [1, 2] }

theorem ok : F.Ok I := by
  refine ⟨?_, ?_, ?_, ?_, ?_⟩
  · intro op h; simp [F] at h ⊢; omega
  · intro op h
    refine ⟨fun rs => (D op rs []).1, fun rs hr => ?_⟩
    have key : (D op rs []).1.length = F.nd op ∧ ∀ m, (D op rs m).1 = (D op rs []).1 ∧ (D op rs m).2.1 = m := by
      match op, h with
      | 1, _ => exact ⟨hr, fun m => ⟨rfl, rfl⟩⟩
      | 2, _ => exact ⟨rfl, fun m => ⟨rfl, rfl⟩⟩
      | 3, _ => exact ⟨rfl, fun m => ⟨rfl, rfl⟩⟩
      | 5, _ => exact ⟨rfl, fun m => ⟨rfl, rfl⟩⟩
      | 7, _ => exact ⟨hr, fun m => ⟨rfl, rfl⟩⟩
      | 9, _ => exact ⟨hr, fun m => ⟨rfl, rfl⟩⟩
      | 10, _ => exact ⟨rfl, fun m => ⟨rfl, rfl⟩⟩
      | 12, _ => exact ⟨hr, fun m => ⟨rfl, rfl⟩⟩
      | 13, _ => exact ⟨hr, fun m => ⟨rfl, rfl⟩⟩
      | 0, h => exact absurd h (by decide)
      | 4, h => exact absurd h (by decide)
      | 6, h => exact absurd h (by decide)
      | 8, h => exact absurd h (by decide)
      | 11, h => exact absurd h (by decide)
      | n + 14, _ => exact ⟨by simp [D, F], fun m => ⟨rfl, rfl⟩⟩
    refine ⟨key.1, fun m vs m' k _ => ?_⟩
    unfold I
    rw [(key.2 m).1, (key.2 m).2, h]
    simp
  · intro op h
    have : op = 1 ∨ op = 9 := by simpa [F] using h
    rcases this with rfl | rfl <;> exact ⟨by decide, by decide, by decide, fun v m k => ⟨rfl, rfl, fun h => absurd h (by decide)⟩⟩
  · intro op h
    have : op = 2 ∨ op = 10 := by simpa [F] using h
    rcases this with rfl | rfl <;> decide
  · intro op h1 h2
    simp only [F, decide_eq_false_iff_not] at h2 ⊢
    rw [if_neg h2]
    split <;> omega

theorem det : Id.Det := by
  rintro op rs m vs m' k vs' m'' k' ⟨rfl, rfl, rfl⟩ ⟨rfl, rfl, rfl⟩
  exact ⟨rfl, rfl, rfl⟩

def v (n : Nat) : Reg := .vr n
def p (n : Nat) : Reg := .ph n
def mk (op : Nat) (ds us : List Reg) : Inst := { op := op, ops := ds.map (Role.dfn, ·) ++ us.map (Role.use, ·) }
def ret : Inst := { op := 0, ops := [], args := [1] }
def jmp : Inst := { op := 6, ops := [] }

/-! ### `removeIdentityCopies`, `removeIndirectCopy`, `createIndirectCopy` -/

def f1 : Func := [ { insts := [mk 2 [v 0] [], mk 1 [v 0] [v 0], mk 1 [v 1] [v 0], mk 3 [v 2] [v 1, v 0], mk 1 [v 1] [v 0],
  mk 4 [] [v 1], mk 9 [p 1] [v 2], ret], term := .ret } ]

def C : CopyCtx := { preRA := true, zero := fun _ => false, verify := fun _ => true, copyOp := 1, sel := fun _ _ => 1 }

theorem f1_typed : f1.Typed F := typed_of_ftypedB (by decide +kernel)

example : (removeIdentityCopies F f1).map (·.insts) =
    [[mk 2 [v 0] [], mk 1 [v 1] [v 0], mk 3 [v 2] [v 1, v 0], mk 1 [v 1] [v 0], mk 4 [] [v 1], mk 9 [p 1] [v 2], ret]] ∧
    Same T I F.vis f1 (removeIdentityCopies F f1) := ⟨by decide +kernel, removeIdentityCopies_same ok f1_typed⟩

example : (removeIndirectCopy F C f1).map (·.insts) =
    [[mk 2 [v 0] [], mk 1 [v 0] [v 0], mk 1 [v 1] [v 0], mk 3 [v 2] [v 0, v 0], mk 4 [] [v 0], mk 9 [p 1] [v 2], ret]] ∧
    Same T I F.vis f1 (removeIndirectCopy F C f1) :=
  ⟨by decide +kernel, removeIndirectCopy_same ok (by exact ⟨by decide, fun _ _ => rfl⟩) f1_typed⟩

example : (createIndirectCopy F f1).map (·.insts) =
    [[mk 2 [v 0] [], mk 1 [v 0] [v 0], mk 1 [v 1] [v 0], mk 3 [v 2] [v 1, v 1], mk 1 [v 1] [v 1],
      mk 4 [] [v 1], mk 9 [p 1] [v 2], ret]] ∧
    Same T I F.vis f1 (createIndirectCopy F f1) := ⟨by decide +kernel, createIndirectCopy_same ok f1_typed⟩

/-! ### `eliminateStackLoads` -/

/-- Store `v0` to the slot `p 100` and load it again into `v1`. -/
def f2 : Func := [ { insts := [mk 2 [v 0] [], mk 12 [p 100] [v 0], mk 3 [v 2] [v 0, v 0], mk 13 [v 1] [p 100],
  mk 4 [] [v 1], ret], term := .ret } ]

def S : SlotCtx := { store := fun op => op = 12, load := fun op => op = 13, slot := fun r => r = p 100, copyOp := 1 }

theorem f2_ok : S.Ok F I T f2 := by
  refine ⟨by decide, ?_, ?_, ?_, ?_, ?_⟩
  · intro op h
    have : op = 12 := by simpa [S] using h
    subst this
    exact ⟨by decide, by decide, by decide, fun v m k => ⟨rfl, rfl, fun h => absurd h (by decide)⟩⟩
  · intro op h
    have : op = 13 := by simpa [S] using h
    subst this
    exact ⟨by decide, by decide, by decide, fun v m k => ⟨rfl, rfl, fun h => absurd h (by decide)⟩⟩
  all_goals
    intro B hB x hx
    simp only [f2, List.mem_singleton] at hB
    subst hB
    simp only [List.mem_cons, List.not_mem_nil, or_false] at hx
    rcases hx with rfl | rfl | rfl | rfl | rfl | rfl
  · exact fun h => absurd h (by decide)
  · exact fun _ => ⟨_, _, rfl, by decide, by decide⟩
  · exact fun h => absurd h (by decide)
  · exact fun h => absurd h (by decide)
  · exact fun h => absurd h (by decide)
  · exact fun h => absurd h (by decide)
  · exact fun h => absurd h (by decide)
  · exact fun h => absurd h (by decide)
  · exact fun h => absurd h (by decide)
  · exact fun _ => ⟨_, _, rfl, by decide, by decide⟩
  · exact fun h => absurd h (by decide)
  · exact fun h => absurd h (by decide)
  all_goals decide

example : (eliminateStackLoads S f2).map (·.insts) =
    [[mk 2 [v 0] [], mk 12 [p 100] [v 0], mk 3 [v 2] [v 0, v 0], mk 1 [v 1] [v 0], mk 4 [] [v 1], ret]] ∧
    Same T I F.vis f2 (eliminateStackLoads S f2) :=
  ⟨by decide +kernel, eliminateStackLoads_same ok f2_ok (typed_of_ftypedB (by decide +kernel))⟩

/-! ### `deadInstElimination`, `machineInstCSE` -/

def f3 : Func := [ { insts := [mk 2 [v 0] [], mk 3 [v 1] [v 0, v 0], mk 3 [v 2] [v 0, v 0], mk 3 [v 1] [v 0, v 0],
  mk 4 [] [v 1], mk 4 [] [v 2], ret], term := .ret } ]

theorem f3_typed : f3.Typed F := typed_of_ftypedB (by decide +kernel)

example : (deadInstElimination F f3).map (·.insts) =
    [[mk 2 [v 0] [], mk 3 [v 1] [v 0, v 0], mk 3 [v 2] [v 0, v 0], mk 4 [] [v 1], mk 4 [] [v 2], ret]] ∧
    Same T I F.vis f3 (deadInstElimination F f3) :=
  ⟨by decide +kernel, deadInstElimination_same ok f3_typed (by decide)⟩

example : (machineInstCSE F 1 (fun _ _ => true) f3).map (·.insts) =
    [[mk 2 [v 0] [], mk 3 [v 1] [v 0, v 0], mk 1 [v 2] [v 1], mk 1 [v 1] [v 1], mk 4 [] [v 1], mk 4 [] [v 2], ret]] ∧
    Same T I F.vis f3 (machineInstCSE F 1 (fun _ _ => true) f3) :=
  ⟨by decide +kernel, machineInstCSE_same ok (by decide) _ f3_typed⟩

/-- Two reads of a flag register (`p 9`) with an add between them that overwrites the flag. -/
def w3 : Func := [ { insts := [mk 7 [v 1] [p 9], mk 5 [v 2, p 9] [v 0, v 0], mk 7 [v 1] [p 9], mk 4 [] [v 1], ret], term := .ret } ]

/-- Peephole.cpp:497-514 looks at the first register written only: an instruction that also writes a flag
    register leaves the flag's version alone, so the second read of the flag is deleted. -/
theorem deadInstElimination_multi_witness : w3.Typed F ∧
    (deadInstElimination F w3).map (·.insts) =
      [[mk 7 [v 1] [p 9], mk 5 [v 2, p 9] [v 0, v 0], mk 4 [] [v 1], ret]] ∧
    ¬ Same T Id F.vis w3 (deadInstElimination F w3) := by
  refine ⟨typed_of_ftypedB (by decide +kernel), by decide +kernel, ?_⟩
  have hw : deadInstElimination F w3 =
      [ { insts := [mk 7 [v 1] [p 9], mk 5 [v 2, p 9] [v 0, v 0], mk 4 [] [v 1], ret], term := .ret } ] := rfl
  rw [hw]
  refine not_same det (σ := fun _ => 0) (m := []) (a := (4, [1])) (b := (4, [0])) ?_ ?_ (by decide)
  · refine ex_sil (.seq rfl rfl (by decide) ⟨rfl, rfl, rfl⟩ rfl) rfl rfl ?_
    refine ex_sil (.seq rfl rfl (by decide) ⟨rfl, rfl, rfl⟩ rfl) rfl rfl ?_
    refine ex_sil (.seq rfl rfl (by decide) ⟨rfl, rfl, rfl⟩ rfl) rfl rfl ?_
    exact ex_vis (s' := ⟨0, 4, _, [1]⟩) (.seq rfl rfl (by decide) ⟨rfl, rfl, rfl⟩ rfl) rfl rfl ex_nil
  · refine ex_sil (.seq rfl rfl (by decide) ⟨rfl, rfl, rfl⟩ rfl) rfl rfl ?_
    refine ex_sil (.seq rfl rfl (by decide) ⟨rfl, rfl, rfl⟩ rfl) rfl rfl ?_
    exact ex_vis (s' := ⟨0, 3, _, [0]⟩) (.seq rfl rfl (by decide) ⟨rfl, rfl, rfl⟩ rfl) rfl rfl ex_nil

/-! ### `machineConstantCSE` -/

/-- The constant 5 twice in the entry block and once in the next one. -/
def f4 : Func := [ { insts := [mk 2 [v 0] [], mk 2 [v 1] [], mk 4 [] [v 1], jmp], term := .jmp 1 },
  { insts := [mk 2 [v 2] [], mk 10 [v 3] [], mk 3 [v 4] [v 2, v 3], mk 4 [] [v 4], ret], term := .ret } ]

theorem f4_typed : f4.Typed F := typed_of_ftypedB (by decide +kernel)

def constKeptB (F : Flags) : List Inst → Bool
  | [] => true
  | x :: xs => (!F.const x.op || x.defs.all fun d => !d.isVirt || xs.all fun y => !y.defs.contains d) && constKeptB F xs

theorem constKept_of {F : Flags} {f : Func} (h : List.all f (fun B => constKeptB F B.insts) = true) : ConstKept F f := by
  have key : ∀ (l : List Inst), constKeptB F l = true → ∀ (i : Nat) (x : Inst) (d : Reg), l[i]? = some x →
      F.const x.op = true → x.defs = [d] → d.isVirt = true → ∀ y ∈ l.drop (i + 1), d ∉ y.defs := by
    intro l
    induction l with
    | nil => intro _ i x d h; simp at h
    | cons a l ih =>
      intro h i x d hx hc hd hv y hy
      unfold constKeptB at h
      rw [Bool.and_eq_true] at h
      cases i with
      | zero =>
        simp at hx; subst hx
        simp only [hc, hd, hv, Bool.not_true, Bool.false_or, List.all_cons, List.all_nil, Bool.and_true, List.all_eq_true] at h
        have := h.1 y (by simpa using hy)
        simpa using this
      | succ i => exact ih h.2 i x d (by simpa using hx) hc hd hv y (by simpa using hy)
  rw [List.all_eq_true] at h
  exact fun B hB => key B.insts (h B hB)

example : (machineConstantCSE F (fun _ _ => 1) f4).map (·.insts) =
    [[mk 2 [v 0] [], mk 1 [v 1] [v 0], mk 4 [] [v 1], jmp],
     [mk 1 [v 2] [v 0], mk 10 [v 3] [], mk 3 [v 4] [v 2, v 3], mk 4 [] [v 4], ret]] ∧
    Same T I F.vis f4 (machineConstantCSE F (fun _ _ => 1) f4) :=
  ⟨by decide +kernel, machineConstantCSE_same ok (fun _ _ => rfl) f4_typed (constKept_of (by decide +kernel))⟩

/-- A register loaded with a constant and then overwritten (as the registers of phi functions are). -/
def w4 : Func := [ { insts := [mk 2 [v 0] [], mk 3 [v 0] [v 0, v 0], mk 2 [v 1] [], mk 4 [] [v 1], ret], term := .ret } ]

/-- Peephole.cpp:357-366 does not notice that the register the constant was loaded into has been overwritten. -/
theorem machineConstantCSE_overwrite_witness : w4.Typed F ∧
    (machineConstantCSE F (fun _ _ => 1) w4).map (·.insts) =
      [[mk 2 [v 0] [], mk 3 [v 0] [v 0, v 0], mk 1 [v 1] [v 0], mk 4 [] [v 1], ret]] ∧
    ¬ Same T Id F.vis w4 (machineConstantCSE F (fun _ _ => 1) w4) := by
  refine ⟨typed_of_ftypedB (by decide +kernel), by decide +kernel, ?_⟩
  have hw : machineConstantCSE F (fun _ _ => 1) w4 =
      [ { insts := [mk 2 [v 0] [], mk 3 [v 0] [v 0, v 0], mk 1 [v 1] [v 0], mk 4 [] [v 1], ret], term := .ret } ] := rfl
  rw [hw]
  refine not_same det (σ := fun _ => 0) (m := []) (a := (4, [5])) (b := (4, [10])) ?_ ?_ (by decide)
  · refine ex_sil (.seq rfl rfl (by decide) ⟨rfl, rfl, rfl⟩ rfl) rfl rfl ?_
    refine ex_sil (.seq rfl rfl (by decide) ⟨rfl, rfl, rfl⟩ rfl) rfl rfl ?_
    refine ex_sil (.seq rfl rfl (by decide) ⟨rfl, rfl, rfl⟩ rfl) rfl rfl ?_
    exact ex_vis (s' := ⟨0, 4, _, [5]⟩) (.seq rfl rfl (by decide) ⟨rfl, rfl, rfl⟩ rfl) rfl rfl ex_nil
  · refine ex_sil (.seq rfl rfl (by decide) ⟨rfl, rfl, rfl⟩ rfl) rfl rfl ?_
    refine ex_sil (.seq rfl rfl (by decide) ⟨rfl, rfl, rfl⟩ rfl) rfl rfl ?_
    refine ex_sil (.seq rfl rfl (by decide) ⟨rfl, rfl, rfl⟩ rfl) rfl rfl ?_
    exact ex_vis (s' := ⟨0, 4, _, [10]⟩) (.seq rfl rfl (by decide) ⟨rfl, rfl, rfl⟩ rfl) rfl rfl ex_nil

/-! ### `removeUnusedInsts` -/

/-- A chain of unused results, and a loop that only feeds itself. -/
def f5 : Func := [ { insts := [mk 2 [v 0] [], mk 3 [v 1] [v 0, v 0], mk 3 [v 2] [v 1, v 1], mk 2 [v 5] [], jmp], term := .jmp 1 },
  { insts := [mk 3 [v 5] [v 5, v 5], mk 1 [v 6] [v 5], mk 4 [] [v 0], { op := 11, ops := [(.use, v 0)] }], term := .cond 1 },
  { insts := [mk 9 [p 1] [v 0], ret], term := .ret } ]

theorem f5_typed : f5.Typed F := typed_of_ftypedB (by decide +kernel)

/-- `workUnused` for at most so many steps. -/
def workFuel (f : Func) : Nat → Writers → List Pos → Option Writers
  | _, w, [] => some w
  | 0, _, _ :: _ => none
  | n + 1, w, p :: q => workFuel f n ((f.usesAt p).foldl popSrc (w, q)).1 ((f.usesAt p).foldl popSrc (w, q)).2

theorem workFuel_eq {f : Func} : ∀ (n : Nat) (w : Writers) (q : List Pos) (r : Writers), workFuel f n w q = some r →
    workUnused f w q = r := by
  intro n
  induction n with
  | zero =>
    intro w q r h
    cases q with
    | nil => rw [workUnused]; simpa [workFuel] using h
    | cons p q => simp [workFuel] at h
  | succ n ih =>
    intro w q r h
    cases q with
    | nil => rw [workUnused]; simpa [workFuel] using h
    | cons p q => rw [workUnused]; exact ih _ _ _ h

theorem f5_work : workUnused f5 (collectWriters F (fun q => q < 10) f5).1 (collectWriters F (fun q => q < 10) f5).2 =
    [(v 1, [(0, 1)]), (v 2, [(0, 2)]), (v 5, [(0, 3), (1, 0)]), (v 6, [(1, 1)]), (p 1, [(2, 0)])] :=
  workFuel_eq 10 _ _ _ (by decide +kernel)

example : (removeUnusedInsts F (fun q => q < 10) f5).map (·.insts) =
    [[mk 2 [v 0] [], jmp], [mk 4 [] [v 0], { op := 11, ops := [(.use, v 0)] }], [mk 9 [p 1] [v 0], ret]] ∧
    Same T I F.vis f5 (removeUnusedInsts F (fun q => q < 10) f5) :=
  ⟨by unfold removeUnusedInsts; simp only; rw [f5_work]; decide +kernel, removeUnusedInsts_same ok f5_typed (by decide)⟩

/-! ### `removeInvisibleInsts` -/

/-- `p 1` is written twice before it is read; the first write is removed, the one before the call is not. -/
def f6 : Func := [ { insts := [mk 2 [p 1] [], mk 10 [p 1] [], mk 3 [p 3] [p 1, p 1], mk 2 [p 3] [],
  { op := 8, ops := [], args := [3], call := some ⟨none⟩ }, mk 2 [p 1] [], ret], term := .ret } ]

theorem f6_typed : f6.Typed F := typed_of_ftypedB (by decide +kernel)

example : (removeInvisibleInsts F f6).map (·.insts) =
    [[mk 10 [p 1] [], mk 2 [p 3] [], { op := 8, ops := [], args := [3], call := some ⟨none⟩ }, mk 2 [p 1] [], ret]] ∧
    Same T I F.vis f6 (removeInvisibleInsts F f6) := by
  refine ⟨by decide +kernel, removeInvisibleInsts_same ok f6_typed (by decide) ?_⟩
  intro B hB i x hx ha
  simp only [f6, List.mem_singleton] at hB
  subst hB
  have hi : i < 7 := (List.getElem?_eq_some_iff.1 hx).1
  match i, hi with
  | 0, _ => cases hx; exact absurd rfl ha
  | 1, _ => cases hx; exact absurd rfl ha
  | 2, _ => cases hx; exact absurd rfl ha
  | 3, _ => cases hx; exact absurd rfl ha
  | 4, _ => cases hx; exact .inr (.inl rfl)
  | 5, _ => cases hx; exact absurd rfl ha
  | 6, _ => cases hx; exact .inr (.inr ⟨rfl, rfl⟩)

/-! ### `applySSAPropagation`, `machineConstantHoist` -/

/-- `v1` is a copy of the constant `v0`, read in the next block; `v3` is a constant loaded there. -/
def f7 : Func := [ { insts := [mk 2 [v 0] [], mk 1 [v 1] [v 0], jmp], term := .jmp 1 },
  { insts := [mk 10 [v 3] [], mk 3 [v 4] [v 1, v 3], mk 4 [] [v 4], ret], term := .ret } ]

theorem f7_typed : f7.Typed F := typed_of_ftypedB (by decide +kernel)

theorem f7_live (u : Nat) : ¬ LiveAt f7 u 0 0 := by
  have nend : ¬ ∃ b', f7.goesTo 1 b' := by
    rintro ⟨b', h⟩
    have := (calcCFG_iff f7 1 b').2 h
    exact absurd this (by simp [calcCFG, f7])
  have g0 : ∀ b', f7.goesTo 0 b' → b' = 1 := by
    intro b' h
    have := (calcCFG_iff f7 0 b').2 h
    simpa [calcCFG, f7] using this
  have l13 : ¬ LiveAt f7 u 1 3 := by
    intro h
    rcases (liveAt_iff (f := f7) (b := 1) (i := 3) rfl rfl).1 h with h | ⟨-, B, hB, h⟩
    · exact absurd h (by simp [ret, Inst.uses])
    · cases hB
      rcases h with ⟨h, -⟩ | ⟨-, b', h, -⟩
      · exact absurd h (by decide)
      · exact nend ⟨b', h⟩
  have step : ∀ (b i : Nat) (B : Block) (x : Inst), f7[b]? = some B → B.insts[i]? = some x → i + 1 < B.insts.length →
      LiveAt f7 u b i → Reg.vr u ∈ x.uses ∨ (Reg.vr u ∉ x.defs ∧ LiveAt f7 u b (i + 1)) := by
    intro b i B x hB hx hi h
    rcases (liveAt_iff hB hx).1 h with h | ⟨h1, B', hB', h⟩
    · exact .inl h
    · rw [hB] at hB'; cases hB'
      rcases h with ⟨-, h⟩ | ⟨h, -⟩
      · exact .inr ⟨h1, h⟩
      · omega
  have l12 : LiveAt f7 u 1 2 → u = 4 := by
    intro h
    rcases step 1 2 _ _ rfl rfl (by decide) h with h | ⟨-, h⟩
    · simpa [mk, v, Inst.uses] using h
    · exact absurd h l13
  have l11 : LiveAt f7 u 1 1 → u = 1 ∨ u = 3 := by
    intro h
    rcases step 1 1 _ _ rfl rfl (by decide) h with h | ⟨h', h⟩
    · simpa [mk, v, Inst.uses] using h
    · have := l12 h; subst this; exact absurd h' (by decide)
  have l10 : LiveAt f7 u 1 0 → u = 1 := by
    intro h
    rcases step 1 0 _ _ rfl rfl (by decide) h with h | ⟨h', h⟩
    · exact absurd h (by simp [mk, v, Inst.uses])
    · rcases l11 h with rfl | rfl
      · rfl
      · exact absurd h' (by decide)
  have l02 : LiveAt f7 u 0 2 → u = 1 := by
    intro h
    rcases (liveAt_iff (f := f7) (b := 0) (i := 2) rfl rfl).1 h with h | ⟨-, B, hB, h⟩
    · exact absurd h (by simp [jmp, Inst.uses])
    · cases hB
      rcases h with ⟨h, -⟩ | ⟨-, b', h, h'⟩
      · exact absurd h (by decide)
      · have := g0 b' h; subst this; exact l10 h'
  have l01 : LiveAt f7 u 0 1 → u = 0 := by
    intro h
    rcases step 0 1 _ _ rfl rfl (by decide) h with h | ⟨h', h⟩
    · simpa [mk, v, Inst.uses] using h
    · have := l02 h; subst this; exact absurd h' (by decide)
  intro h
  rcases step 0 0 _ _ rfl rfl (by decide) h with h | ⟨h', h⟩
  · exact absurd h (by simp [mk, v, Inst.uses])
  · have := l01 h; subst this; exact absurd h' (by decide)

example : (applySSAPropagation F f7).map (·.insts) =
    [[mk 2 [v 0] [], mk 1 [v 1] [v 0], jmp], [mk 10 [v 3] [], mk 3 [v 4] [v 0, v 3], mk 4 [] [v 4], ret]] ∧
    Same T I F.vis f7 (applySSAPropagation F f7) :=
  ⟨by decide +kernel, applySSAPropagation_same ok f7_typed f7_live⟩

example : (machineConstantHoist F 1 (fun q => 100 + q.2) (fun _ => 8) 3 16 f7).map (·.insts) =
    [[mk 2 [v 0] [], mk 1 [v 1] [v 0], mk 10 [v 3] [], jmp], [mk 1 [v 100] [v 3], mk 3 [v 4] [v 1, v 3], mk 4 [] [v 4], ret]] ∧
    Same T I F.vis f7 (machineConstantHoist F 1 (fun q => 100 + q.2) (fun _ => 8) 3 16 f7) := by
  refine ⟨by decide +kernel, machineConstantHoist_same ok f7_typed f7_live (by decide) _ _ _ (by decide) ?_⟩
  intro q B hB x hx
  have key : ∀ y ∈ x.uses ++ x.defs, ∀ n, y = .vr n → n < 100 := by
    have : ∀ B ∈ f7, ∀ x ∈ B.insts, ∀ y ∈ x.uses ++ x.defs, (match y with | .vr n => decide (n < 100) | .ph _ => true) = true := by
      decide
    intro y hy n hn
    have := this B hB x hx y hy
    subst hn
    simpa using this
  constructor
  · intro h
    have := key _ (List.mem_append_left _ h) _ rfl
    omega
  · intro h
    have := key _ (List.mem_append_right _ h) _ rfl
    omega

end PeepEx

end Cmmc.Mir
