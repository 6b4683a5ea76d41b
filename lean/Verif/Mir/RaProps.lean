import Verif.Mir.AllocProps

/-!
# Liveness, colouring and register allocation: the properties
-/

namespace Cmmc.Mir

/-- **C42.** The live-interval analysis is right about which virtual registers are live where.

    For every machine function whose blocks are not empty and whose branches go to blocks (and in which no
    instruction hides a use, see `Func.NoHidden`): the analysis terminates with `ins`/`outs` holding exactly
    the registers that some path reads before writing; every register's interval contains each instruction
    number before which, and each point after which, it is live, and the point after each write to it;
    `intersectWith` is true exactly if two intervals share a point, in particular if one register is written
    where another is live; and a read marked dead is the last read of its value. -/
theorem C42_live_intervals {f : Func} (hf : f.Wf) (hn : f.NoHidden) :
    (∀ b v, v ∈ ins f b ↔ LiveAt f v b 0) ∧
    (∀ b v, v ∈ outs f b ↔ ∃ b', f.goesTo b b' ∧ LiveAt f v b' 0) ∧
    (∀ b i v, LiveAt f v b i → Covers (interval f v) (instNum f b i)) ∧
    (∀ b i v, LiveAfter f v b i → Covers (interval f v) (instNum f b i + 1)) ∧
    (∀ u v, intersectWith (interval f u) (interval f v) = true ↔
      ∃ x, Covers (interval f u) x ∧ Covers (interval f v) x) ∧
    (∀ b B i inst u v, f[b]? = some B → B.insts[i]? = some inst → Reg.vr u ∈ inst.defs →
      (LiveAfter f v b i ∨ Reg.vr v ∈ inst.defs) →
      intersectWith (interval f u) (interval f v) = true) ∧
    (∀ b B i inst v, f[b]? = some B → B.insts[i]? = some inst → deadUse f v b i = true →
      Reg.vr v ∉ inst.defs → ¬ LiveAfter f v b i) := by
  refine ⟨mem_ins_iff hf hn, mem_outs_iff hf hn, fun b i v => interval_before hf hn,
    fun b i v => interval_after hf hn, fun u v => intersectWith_iff _ _ (interval_sep hf u) (interval_sep hf v),
    ?_, ?_⟩
  · intro b B i inst u v hB hi hu hv
    rw [intersectWith_iff _ _ (interval_sep hf u) (interval_sep hf v)]
    refine ⟨instNum f b i + 1, interval_def hf hn hB hi hu, ?_⟩
    rcases hv with hv | hv
    · exact interval_after hf hn hv
    · exact interval_def hf hn hB hi hv
  · intro b B i inst v hB hi hd hnd
    rcases deadUse_sound hf hn hB hd with h | h
    · obtain ⟨inst', h1, h2⟩ := h
      rw [hi] at h1; cases h1; exact absurd h2 hnd
    · exact h

/-- **C43.** Taking the interference graph apart and colouring it.

    Whatever the order in which registers with fewer than `k` neighbours are removed and whichever free
    register each one is given: if the graph could be emptied, every register pops with a free register
    left (`reportUnreachable` is not reached), adjacent registers get different registers, no register gets
    one it is adjacent to, and only registers of the allocation list are given out; and if the graph could
    not be emptied, there is a set of registers each of which has `k` neighbours in the set or among the
    physical registers. -/
theorem C43_colouring {g : Graph} (hg : g.Ok) {keys : List Nat} (hk : ∀ v, v ∈ keys ↔ v ∈ g.keys)
    (hkn : keys.Nodup) {list : List Nat} (hl : list.Nodup) {h : Choices} (hh : h.Ok)
    (m : Nat → Option Nat) (hm : ∀ v ∈ keys, m v = none) :
    match simplify h.pickQ keys list.length g.keys.card (prepare g keys list.length) with
    | some st => ∃ m', colour h.pickR g list st m = some m' ∧ (∀ v, v ∉ keys → m' v = m v) ∧
        ∀ u ∈ keys, ∃ r, m' u = some r ∧ r ∈ list ∧ Reg.ph r ∉ g.adj (.vr u) ∧
          ∀ v, Reg.vr v ∈ g.adj (.vr u) → m' v ≠ some r
    | none => ∃ s : Finset Nat, s ≠ ∅ ∧ (∀ v ∈ s, v ∈ keys) ∧
        ∀ v ∈ s, ∃ N ⊆ g.adj (.vr v), list.length ≤ N.card ∧ ∀ u, Reg.vr u ∈ N → u ∈ s := by
  have hinv := inv_prepare hg hk hkn list.length
  cases hs : simplify h.pickQ keys list.length g.keys.card (prepare g keys list.length) with
  | some st =>
    simp only
    obtain ⟨o1, o2⟩ := simplify_ok hg hkn hh.1 _ _ hinv st hs
    have hst : ∀ v, v ∈ st ↔ v ∈ keys := fun v => (o2 v).trans (hk v).symm
    obtain ⟨m', e1, e2, e3⟩ := colour_ok hg hl hh.2 st m o1 (fun u hu => hm u ((hst u).1 hu))
      (fun u hu v hv => Or.inl ((o2 v).2 (hg.keys v _ (hg.symm _ _ hv))))
    exact ⟨m', e1, fun v hv => e2 v (fun h => hv ((hst v).1 h)), fun u hu => e3 u ((hst u).2 hu)⟩
  | none =>
    simp only
    obtain ⟨s, h1, h2, h3⟩ := simplify_stuck hg hkn hh.1 _ _ hinv (le_refl _) hs
    exact ⟨s, h1, fun v hv => (hk v).2 (h2 hv), h3⟩

/-- **C44.** Graph-colouring register allocation preserves the program.

    If the allocation of all register classes succeeds on a function (that is, on the function as it is
    after the last round of spilling), then in the rewritten function every register operand of those
    classes is physical, and the function does the same as before: started with the same memory, the same
    physical registers, and any values for registers read uninitialised, it can execute the same
    instructions with the same effect on memory after each of them, and leave with the same final memory, in
    both directions, for every meaning of the opcodes. -/
theorem C44_allocation_preserves {T : Target} (hT : T.Ok) {f : Func} (hf : f.Wf) (hn : f.NoHidden)
    (hP : PhysOk T f) {n : Nat} (hcls : ∀ B ∈ f, ∀ i ∈ B.insts, ∀ o ∈ i.ops, ∀ v, o.2 = Reg.vr v → T.clsV v < n)
    {h : Choices} (hh : h.Ok) {m : Nat → Option Nat} (ha : allocate h T f n = some m) :
    (∀ B ∈ f.rename m, ∀ i ∈ B.insts, ∀ o ∈ i.ops, ∃ p, o.2 = Reg.ph p) ∧
    ∀ {Val Mem : Type} (I : Interp Val Mem) (σ σ' : Reg → Val) (μ : Mem),
      (∀ p, σ (.ph p) = σ' (.ph p)) →
      (∀ v, LiveAt f v 0 0 → σ (.vr v) = σ' (renReg m (.vr v))) →
      ∀ tr, ((∃ s, Run T I f ⟨0, 0, σ, μ⟩ tr s) ↔ ∃ s, Run T I (f.rename m) ⟨0, 0, σ', μ⟩ tr s) ∧
        ∀ μ', (∃ s, Run T I f ⟨0, 0, σ, μ⟩ tr s ∧ Leaves T I f s μ') ↔
          ∃ s, Run T I (f.rename m) ⟨0, 0, σ', μ⟩ tr s ∧ Leaves T I (f.rename m) s μ' := by
  have hA := allocate_spec hh hT n m ha
  have hcls' : ∀ v ∈ nodes T (T.clsV v) f, T.clsV v < n := by
    intro v hv
    obtain ⟨-, B, hB, i, hi, o, ho, h⟩ := mem_nodes.1 hv
    exact hcls B hB i hi o ho v h
  refine ⟨?_, ?_⟩
  · intro B' hB' i' hi' o' ho'
    unfold Func.rename at hB'
    rw [List.mem_map] at hB'
    obtain ⟨B, hB, rfl⟩ := hB'
    simp only [List.mem_map] at hi'
    obtain ⟨i, hi, rfl⟩ := hi'
    unfold Inst.rename at ho'
    simp only [List.mem_map] at ho'
    obtain ⟨o, ho, rfl⟩ := ho'
    cases hr : o.2 with
    | ph p => exact ⟨p, rfl⟩
    | vr v =>
      have hv : v ∈ nodes T (T.clsV v) f := mem_nodes.2 ⟨rfl, B, hB, i, hi, o, ho, hr⟩
      obtain ⟨r, h1, -⟩ := hA.range _ (hcls' v hv) v hv
      exact ⟨r, by simp [renReg, h1]⟩
  · intro Val Mem I σ σ' μ hσ hl tr
    have hrel : Rel T f m 0 0 σ σ' := ⟨hl, fun p _ => hσ p, fun p _ _ => hσ p⟩
    obtain ⟨h1, h2⟩ := sim_run hT hf hn hP hcls' hA (I := I) tr 0 0 σ σ' μ hrel
    refine ⟨⟨?_, ?_⟩, fun μ' => ⟨?_, ?_⟩⟩
    · rintro ⟨s, hs⟩; obtain ⟨ρ, h3, -⟩ := h1 s hs; exact ⟨_, h3⟩
    · rintro ⟨s, hs⟩; obtain ⟨ρ, h3, -⟩ := h2 s hs; exact ⟨_, h3⟩
    · rintro ⟨s, hs, hlv⟩
      obtain ⟨ρ, h3, h4⟩ := h1 s hs
      exact ⟨_, h3, (sim_leaves hP h4).1 hlv⟩
    · rintro ⟨s, hs, hlv⟩
      obtain ⟨ρ, h3, h4⟩ := h2 s hs
      exact ⟨_, h3, (sim_leaves hP h4).2 hlv⟩

/-! ## A concrete function -/

namespace Ex

/-- Three allocatable registers 10, 11, 12 of one class; calls may change 10 and 11; register 0 is zero. -/
def T : Target :=
  { list := fun c => if c = 0 then [10, 11, 12] else []
    clsP := fun _ => 0
    clsV := fun _ => 0
    zero := fun p => p == 0
    callerSaved := [10, 11] }

theorem T_ok : T.Ok := by
  constructor
  · intro c r hr
    unfold T at hr ⊢
    simp only at hr ⊢
    split at hr
    · subst_vars; simp at hr; rcases hr with rfl | rfl | rfl <;> simp
    · cases hr
  · intro c
    unfold T
    simp only
    split <;> decide

/-- The first one offered. -/
def pick : Choices := { pickQ := fun q => q.headD 0, pickR := fun _ c => c.headD 0 }

theorem pick_ok : pick.Ok := by
  constructor
  · intro q hq; cases q with
    | nil => exact absurd rfl hq
    | cons a l => simp [pick]
  · intro u q hq; cases q with
    | nil => exact absurd rfl hq
    | cons a l => simp [pick]

/-- `v0 = a0; v1 = const; loop: v2 = add v1 v0; v1 = copy v2; if … goto loop; a0 = v1; call; v3 = a0;
    v4 = add v3 v0; a0 = v4; ret`. -/
def f : Func :=
  [ { insts := [⟨1, [(.dfn, .vr 0), (.use, .ph 10)], [], none⟩, ⟨2, [(.dfn, .vr 1)], [], none⟩,
        ⟨3, [], [], none⟩], term := .jmp 1 },
    { insts := [⟨4, [(.dfn, .vr 2), (.use, .vr 1), (.use, .vr 0)], [], none⟩,
        ⟨1, [(.dfn, .vr 1), (.use, .vr 2)], [], none⟩, ⟨5, [(.use, .vr 1)], [], none⟩], term := .cond 1 },
    { insts := [⟨1, [(.dfn, .ph 10), (.use, .vr 1)], [], none⟩, ⟨6, [], [10], some ⟨none⟩⟩,
        ⟨1, [(.dfn, .vr 3), (.use, .ph 10)], [], none⟩,
        ⟨4, [(.dfn, .vr 4), (.use, .vr 3), (.use, .vr 0)], [], none⟩,
        ⟨1, [(.dfn, .ph 10), (.use, .vr 4)], [], none⟩, ⟨7, [], [10], none⟩], term := .ret } ]

/-- No instruction reads and writes the same virtual register. -/
theorem noHidden_of {f : Func} (h : ∀ B ∈ f, ∀ i ∈ B.insts, ∀ o ∈ i.ops, o.1 = Role.use → (Role.dfn, o.2) ∉ i.ops) :
    f.NoHidden := by
  intro B hB i inst v l₁ l₂ hi ho hd
  refine absurd ?_ (h B hB inst (List.mem_of_getElem? hi) (Role.use, Reg.vr v) (by rw [ho]; simp) rfl)
  rw [ho]; exact List.mem_append_left _ hd

theorem f_wf : f.Wf := by
  constructor
  · decide
  · intro B hB
    simp only [f, List.mem_cons, List.not_mem_nil, or_false] at hB
    rcases hB with rfl | rfl | rfl <;> simp [f]

theorem f_noHidden : f.NoHidden := noHidden_of (by decide)

theorem f_cls : ∀ B ∈ f, ∀ i ∈ B.insts, ∀ o ∈ i.ops, ∀ v, o.2 = Reg.vr v → T.clsV v < 1 := by
  intro _ _ _ _ _ _ v _; exact Nat.one_pos

/-- Physical registers are used as the calling convention prescribes. -/
theorem f_phys : PhysOk T f := by
  intro b B i inst hB hi p hp hu
  have h0 : ∀ b', ¬ f.goesTo b' 0 := by
    intro b' h
    have := (calcCFG_iff f b' 0).2 h
    rcases b' with _ | _ | _ | b'
    · exact absurd this (by decide)
    · exact absurd this (by decide)
    · exact absurd this (by decide)
    · simp [calcCFG, f] at this
  rcases b with _ | _ | _ | b
  · cases hB
    rcases i with _ | _ | _ | i
    · cases hi
      simp [Inst.uses] at hu
      subst hu
      refine .group (s := 0) (i' := 0) rfl (Or.inl ⟨rfl, rfl, h0⟩) (le_refl _) (le_refl _)
        ⟨_, rfl, by simp [Inst.uses]⟩ ?_ ?_
      · intro k h1 h2
        obtain rfl : k = 0 := by omega
        exact ⟨_, rfl, by decide⟩
      · intro k inst' h1 h2; omega
    · cases hi; simp [Inst.uses] at hu
    · cases hi; simp [Inst.uses] at hu
    · simp at hi
  · cases hB
    rcases i with _ | _ | _ | i
    · cases hi; simp [Inst.uses] at hu
    · cases hi; simp [Inst.uses] at hu
    · cases hi; simp [Inst.uses] at hu
    · simp at hi
  · cases hB
    rcases i with _ | _ | _ | _ | _ | _ | i
    · cases hi; simp [Inst.uses] at hu
    · cases hi
      simp [Inst.uses] at hu
      subst hu
      refine .set (j := 0) rfl (by omega) rfl (by simp [Inst.defs]) ?_
      intro k inst' h1 h2; omega
    · cases hi
      simp [Inst.uses] at hu
      subst hu
      refine .group (s := 2) (i' := 2) rfl (Or.inr ⟨_, by omega, rfl, rfl, by decide⟩) (le_refl _) (le_refl _)
        ⟨_, rfl, by simp [Inst.uses]⟩ ?_ ?_
      · intro k h1 h2
        obtain rfl : k = 2 := by omega
        exact ⟨_, rfl, by decide⟩
      · intro k inst' h1 h2; omega
    · cases hi; simp [Inst.uses] at hu
    · cases hi; simp [Inst.uses] at hu
    · cases hi
      simp [Inst.uses] at hu
      subst hu
      refine .set (j := 4) rfl (by omega) rfl (by simp [Inst.defs]) ?_
      intro k inst' h1 h2; omega
    · simp at hi
  · simp [f] at hB

/-- The allocation of the example: `v0` lives across the call and gets the register the call preserves. -/
theorem f_alloc : (allocate pick T f 1).map (fun m => (List.range 6).map m) =
    some [some 12, some 10, some 10, some 10, some 10, none] := by
  decide +kernel

theorem f_alloc' : ∃ m, allocate pick T f 1 = some m ∧ m 0 = some 12 ∧ m 1 = some 10 := by
  have h := f_alloc
  cases ha : allocate pick T f 1 with
  | none => rw [ha] at h; simp at h
  | some m =>
    rw [ha] at h
    simp [List.range_succ] at h
    exact ⟨m, rfl, h.1, h.2.1⟩

/-- The hypotheses of `C42_live_intervals` and `C44_allocation_preserves` hold of the example; its intervals. -/
example : f.Wf ∧ f.NoHidden ∧ PhysOk T f ∧ T.Ok ∧ pick.Ok ∧ (∃ m, allocate pick T f 1 = some m) :=
  ⟨f_wf, f_noHidden, f_phys, T_ok, pick_ok, f_alloc'.imp fun _ h => h.1⟩

/-- The intervals of `v0` (defined once, read in the loop and at the end) and of `v3`. -/
example : interval f 0 = [(1, 10), (12, 22), (24, 37)] ∧ interval f 3 = [(33, 37)] := by decide +kernel

/-- `C43_colouring` on a triangle: three registers suffice, two do not. -/
def tri : Graph := ((({} : Graph).addEdge (.vr 0) (.vr 1)).addEdge (.vr 1) (.vr 2)).addEdge (.vr 0) (.vr 2)

theorem tri_ok : tri.Ok :=
  ok_addEdge (ok_addEdge (ok_addEdge ok_empty (by simp)) (by simp)) (by simp)

example : tri.keys = {0, 1, 2} ∧
    (simplify pick.pickQ [0, 1, 2] 3 tri.keys.card (prepare tri [0, 1, 2] 3)).isSome = true ∧
    simplify pick.pickQ [0, 1, 2] 2 tri.keys.card (prepare tri [0, 1, 2] 2) = none := by
  decide +kernel

/-- `v0 = c; v1 = c'; store v1; jmp` / `v0 = add v0 v0; store v0; ret`: the last `add` reads `v0` before
    writing it, but names the written operand first, as all instruction descriptions do. -/
def hid : Func :=
  [ { insts := [⟨2, [(.dfn, .vr 0)], [], none⟩, ⟨2, [(.dfn, .vr 1)], [], none⟩,
        ⟨3, [(.use, .vr 1)], [], none⟩, ⟨8, [], [], none⟩], term := .jmp 1 },
    { insts := [⟨4, [(.dfn, .vr 0), (.use, .vr 0), (.use, .vr 0)], [], none⟩,
        ⟨3, [(.use, .vr 0)], [], none⟩, ⟨7, [], [], none⟩], term := .ret } ]

theorem hid_alloc : (allocate pick T hid 1).map (fun m => (List.range 3).map m) =
    some [some 10, some 10, none] := by
  decide +kernel

/-- Without `Func.NoHidden`, C42 and C44 fail: stage 1 of the analysis does not see that the second block
    reads `v0` (LiveInterval.cpp:46-58 records definitions in operand order), so `v0` is considered dead at
    the end of the first block and `v1`, written while `v0` is live, gets the same register. -/
theorem C44_hidden_use_witness : hid.Wf ∧ PhysOk T hid ∧
    LiveAfter hid 0 0 1 ∧ (0 ∉ ins hid 1) ∧
    ∃ m, allocate pick T hid 1 = some m ∧ m 0 = some 10 ∧ m 1 = some 10 := by
  refine ⟨?_, ?_, ?_, by decide +kernel, ?_⟩
  · constructor
    · decide
    · intro B hB
      simp only [hid, List.mem_cons, List.not_mem_nil, or_false] at hB
      rcases hB with rfl | rfl <;> simp [hid]
  · intro b B i inst hB hi p hp hu
    exfalso
    rcases b with _ | _ | b
    · cases hB
      rcases i with _ | _ | _ | _ | i
      · cases hi; simp [Inst.uses] at hu
      · cases hi; simp [Inst.uses] at hu
      · cases hi; simp [Inst.uses] at hu
      · cases hi; simp [Inst.uses] at hu
      · simp at hi
    · cases hB
      rcases i with _ | _ | _ | i
      · cases hi; simp [Inst.uses] at hu
      · cases hi; simp [Inst.uses] at hu
      · cases hi; simp [Inst.uses] at hu
      · simp at hi
    · simp [hid] at hB
  · refine ⟨_, rfl, Or.inl ⟨by decide, ?_⟩⟩
    refine .next rfl rfl (by decide) (by decide) ?_
    refine .jump rfl rfl (by decide) (by decide) ⟨_, 0, rfl, rfl⟩ ?_
    exact .use rfl rfl (by decide)
  · have h := hid_alloc
    cases ha : allocate pick T hid 1 with
    | none => rw [ha] at h; simp at h
    | some m =>
      rw [ha] at h
      simp [List.range_succ] at h
      exact ⟨m, rfl, h.1, h.2.1⟩


end Ex

end Cmmc.Mir
