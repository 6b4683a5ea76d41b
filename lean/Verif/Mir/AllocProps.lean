import Verif.Mir.Alloc
import Mathlib.Order.Lattice

/-!
# Register allocation preserves the program
-/

namespace Cmmc.Mir

/-! ## How physical registers may be used before allocation -/

/-- Physical register `p` can be handed out by the allocator. -/
def Target.Alloc (T : Target) (p : Nat) : Prop := p ∈ T.list (T.clsP p)

/-- The value in physical register `p` at the point before instruction `i` of block `b` is one the
    allocator has to keep: either an instruction of the block wrote `p` and no call came since (argument and
    result registers being set up), or `p` is about to be read in the group of instructions reading physical
    registers at the start of the function (incoming arguments) or right after a call that writes `p`
    (results), and was not read in that group yet. -/
inductive Keeps (T : Target) (f : Func) (b i p : Nat) : Prop
  | set {B : Block} {j : Nat} {inst : Inst} : f[b]? = some B → j < i → B.insts[j]? = some inst →
      Reg.ph p ∈ inst.defs →
      (∀ k inst', j < k → k < i → B.insts[k]? = some inst' → inst'.call = none) → Keeps T f b i p
  | group {B : Block} {s i' : Nat} : f[b]? = some B →
      ((s = 0 ∧ b = 0 ∧ ∀ b', ¬ f.goesTo b' 0) ∨
        ∃ inst, 0 < s ∧ B.insts[s - 1]? = some inst ∧ inst.call.isSome ∧ p ∈ inst.clob T) →
      s ≤ i → i ≤ i' →
      (∃ inst', B.insts[i']? = some inst' ∧ Reg.ph p ∈ inst'.uses) →
      (∀ k, s ≤ k → k ≤ i' → ∃ inst', B.insts[k]? = some inst' ∧ inst'.physUses T ≠ []) →
      (∀ k inst', s ≤ k → k < i → B.insts[k]? = some inst' → Reg.ph p ∉ inst'.uses) → Keeps T f b i p

/-- Every allocatable physical register is read only where it is kept. The code generator's calling
    conventions produce code of this shape. -/
def PhysOk (T : Target) (f : Func) : Prop :=
  ∀ b B i inst, f[b]? = some B → B.insts[i]? = some inst → ∀ p, T.Alloc p →
    (Reg.ph p ∈ inst.uses ∨ p ∈ inst.args) → Keeps T f b i p

/-! ## The walk over a block -/

theorem scanDef_fold {T : Target} {c : Nat} : ∀ (l : List Reg) (s : Scan × List (Reg × Reg)),
    let r := l.foldl (scanDef T c) s
    r.1.under = s.1.under ∧
    (∀ p, p ∈ r.1.locked ↔ p ∈ s.1.locked ∨ (Reg.ph p ∈ l ∧ T.clsP p = c ∧ T.zero p = false)) ∧
    (∀ v, v ∈ r.1.live ↔ v ∈ s.1.live ∨ (Reg.vr v ∈ l ∧ T.clsV v = c)) ∧
    (∀ e ∈ s.2, e ∈ r.2) ∧
    (∀ v p, v ∈ s.1.live → Reg.ph p ∈ l → T.clsP p = c → T.zero p = false → (Reg.vr v, Reg.ph p) ∈ r.2) ∧
    (∀ v p, Reg.vr v ∈ l → T.clsV v = c → (p ∈ s.1.under ∨ p ∈ s.1.locked) → (Reg.vr v, Reg.ph p) ∈ r.2) ∧
    (∀ v p, Reg.vr v ∈ l → T.clsV v = c → Reg.ph p ∈ l → T.clsP p = c → T.zero p = false →
      (Reg.vr v, Reg.ph p) ∈ r.2) := by
  intro l
  induction l with
  | nil => intro s; simp
  | cons a l ih =>
    intro s
    simp only [List.foldl_cons]
    obtain ⟨i1, i2, i3, i4, i5, i6, i7⟩ := ih (scanDef T c s a)
    have hu : (scanDef T c s a).1.under = s.1.under := by
      unfold scanDef; cases a <;> simp only <;> split <;> rfl
    have hk : ∀ p, p ∈ (scanDef T c s a).1.locked ↔
        p ∈ s.1.locked ∨ (a = Reg.ph p ∧ T.clsP p = c ∧ T.zero p = false) := by
      intro p
      unfold scanDef
      cases a with
      | ph q =>
        simp only
        split
        · rename_i h
          simp only [List.mem_cons, Reg.ph.injEq]
          constructor
          · rintro (rfl | h')
            · exact Or.inr ⟨rfl, h⟩
            · exact Or.inl h'
          · rintro (h' | ⟨rfl, -⟩)
            · exact Or.inr h'
            · exact Or.inl rfl
        · rename_i h
          constructor
          · exact Or.inl
          · rintro (h' | ⟨e, h1⟩)
            · exact h'
            · cases e; exact absurd h1 h
      | vr w => simp only; split <;> simp
    have hl : ∀ v, v ∈ (scanDef T c s a).1.live ↔ v ∈ s.1.live ∨ (a = Reg.vr v ∧ T.clsV v = c) := by
      intro v
      unfold scanDef
      cases a with
      | ph q => simp only; split <;> simp
      | vr w =>
        simp only
        split
        · rename_i h
          simp only [List.mem_cons, Reg.vr.injEq]
          constructor
          · rintro (rfl | h')
            · exact Or.inr ⟨rfl, h⟩
            · exact Or.inl h'
          · rintro (h' | ⟨rfl, -⟩)
            · exact Or.inr h'
            · exact Or.inl rfl
        · rename_i h
          constructor
          · exact Or.inl
          · rintro (h' | ⟨e, h1⟩)
            · exact h'
            · cases e; exact absurd h1 h
    have he : ∀ e ∈ s.2, e ∈ (scanDef T c s a).2 := by
      intro e he
      unfold scanDef
      cases a <;> simp only <;> split <;> simp [he]
    have hep : ∀ v p, v ∈ s.1.live → a = Reg.ph p → T.clsP p = c → T.zero p = false →
        (Reg.vr v, Reg.ph p) ∈ (scanDef T c s a).2 := by
      rintro v p hv rfl h1 h2
      unfold scanDef
      simp [h1, h2, hv]
    have hev : ∀ v p, a = Reg.vr v → T.clsV v = c → (p ∈ s.1.under ∨ p ∈ s.1.locked) →
        (Reg.vr v, Reg.ph p) ∈ (scanDef T c s a).2 := by
      rintro v p rfl h1 h2
      unfold scanDef
      simp only [h1, if_true, List.mem_append, List.mem_map]
      exact Or.inr ⟨p, h2, rfl⟩
    refine ⟨i1.trans hu, ?_, ?_, fun e h => i4 e (he e h), ?_, ?_, ?_⟩
    · intro p; rw [i2, hk, List.mem_cons]
      constructor
      · rintro ((h | ⟨h, h'⟩) | ⟨h, h'⟩)
        · exact Or.inl h
        · exact Or.inr ⟨Or.inl h.symm, h'⟩
        · exact Or.inr ⟨Or.inr h, h'⟩
      · rintro (h | ⟨h | h, h'⟩)
        · exact Or.inl (Or.inl h)
        · exact Or.inl (Or.inr ⟨h.symm, h'⟩)
        · exact Or.inr ⟨h, h'⟩
    · intro v; rw [i3, hl, List.mem_cons]
      constructor
      · rintro ((h | ⟨h, h'⟩) | ⟨h, h'⟩)
        · exact Or.inl h
        · exact Or.inr ⟨Or.inl h.symm, h'⟩
        · exact Or.inr ⟨Or.inr h, h'⟩
      · rintro (h | ⟨h | h, h'⟩)
        · exact Or.inl (Or.inl h)
        · exact Or.inl (Or.inr ⟨h.symm, h'⟩)
        · exact Or.inr ⟨h, h'⟩
    · intro v p hv hp h1 h2
      rcases List.mem_cons.1 hp with hp | hp
      · exact i4 _ (hep v p hv hp.symm h1 h2)
      · exact i5 v p ((hl v).2 (Or.inl hv)) hp h1 h2
    · intro v p hv hc hp
      rcases List.mem_cons.1 hv with hv | hv
      · exact i4 _ (hev v p hv.symm hc hp)
      · refine i6 v p hv hc ?_
        rw [hu, hk]
        rcases hp with hp | hp
        · exact Or.inl hp
        · exact Or.inr (Or.inl hp)
    · intro v p hv hc hp h1 h2
      rcases List.mem_cons.1 hv with hv | hv
      · rcases List.mem_cons.1 hp with hp | hp
        · rw [← hv] at hp; cases hp
        · exact i5 v p ((hl v).2 (Or.inr ⟨hv.symm, hc⟩)) hp h1 h2
      · rcases List.mem_cons.1 hp with hp | hp
        · exact i6 v p hv hc (Or.inr ((hk p).2 (Or.inr ⟨hp.symm, h1, h2⟩)))
        · exact i7 v p hv hc hp h1 h2

theorem scanAt_succ {T : Target} {c : Nat} {f : Func} {b : Nat} {B : Block} {i : Nat} {inst : Inst}
    (hi : B.insts[i]? = some inst) : scanAt T c f b B (i + 1) =
      (scanInst T c f b i inst (B.insts.drop (i + 1)) (scanAt T c f b B i)).1 := by
  conv => lhs; unfold scanAt
  rw [hi]

/-- A live register is in `liveVRegs`. -/
theorem live_tracked {T : Target} {f : Func} (hf : f.Wf) (hn : f.NoHidden) {b : Nat} {B : Block}
    (hB : f[b]? = some B) {v : Nat} : ∀ i, LiveAt f v b i → v ∈ (scanAt T (T.clsV v) f b B i).live := by
  intro i
  induction i with
  | zero =>
    intro h
    unfold scanAt
    simp only [List.mem_filter, List.mem_range, decide_eq_true_eq, and_true]
    have hi := (mem_ins_iff hf hn b v).2 h
    refine ⟨?_, hi⟩
    have : v ≤ f.vregs.sup id := Finset.le_sup (f := id) (ins_vregs hi)
    omega
  | succ i ih =>
    intro h
    obtain ⟨B', hB', hlt, -⟩ := liveAt_local h
    rw [hB] at hB'; cases hB'
    have hii : B.insts[i]? = some B.insts[i] := List.getElem?_eq_getElem (by omega)
    rw [scanAt_succ hii]
    unfold scanInst
    rw [(scanDef_fold _ _).2.2.1]
    by_cases hd : Reg.vr v ∈ B.insts[i].defs
    · exact Or.inr ⟨hd, rfl⟩
    · left
      have hla : LiveAfter f v b i := ⟨B, hB, Or.inl ⟨hlt, h⟩⟩
      have hli := ih ((liveAt_iff hB hii).2 (Or.inr ⟨hd, hla⟩))
      have : v ∈ (scanUses T (T.clsV v) f b i B.insts[i] (scanAt T (T.clsV v) f b B i)).live := by
        unfold scanUses
        simp only [List.mem_filter, hli, true_and, decide_eq_true_eq]
        rintro ⟨-, hdead⟩
        rcases deadUse_sound hf hn hB hdead with h' | h'
        · obtain ⟨inst, e, hd'⟩ := h'
          rw [hii] at e; cases e; exact hd hd'
        · exact h' hla
      unfold scanCall
      split <;> exact this

/-- Registers live after an instruction that does not write them are still there when its call effects and
    writes are looked at. -/
theorem live_after_uses {T : Target} {f : Func} (hf : f.Wf) (hn : f.NoHidden) {b i : Nat} {B : Block}
    {inst : Inst} (hB : f[b]? = some B) (hi : B.insts[i]? = some inst) {v : Nat}
    (hd : Reg.vr v ∉ inst.defs) (h : LiveAfter f v b i) :
    v ∈ (scanUses T (T.clsV v) f b i inst (scanAt T (T.clsV v) f b B i)).live := by
  have hli := live_tracked (T := T) hf hn hB i ((liveAt_iff hB hi).2 (Or.inr ⟨hd, h⟩))
  unfold scanUses
  simp only [List.mem_filter, hli, true_and, decide_eq_true_eq]
  rintro ⟨-, hdead⟩
  rcases deadUse_sound hf hn hB hdead with h' | h'
  · obtain ⟨inst', e, hd'⟩ := h'
    rw [hi] at e; cases e; exact hd hd'
  · exact h' h

theorem mem_physUses {T : Target} {i : Inst} {p : Nat} :
    p ∈ i.physUses T ↔ Reg.ph p ∈ i.uses ∧ T.zero p = false := by
  unfold Inst.physUses
  simp only [List.mem_filterMap]
  constructor
  · rintro ⟨r, hr, h⟩
    cases r with
    | ph q =>
      simp only at h
      split at h
      · cases h
      · rename_i hz; cases h; exact ⟨hr, by simpa using hz⟩
    | vr w => cases h
  · rintro ⟨h1, h2⟩; exact ⟨_, h1, by simp [h2]⟩

theorem mem_collect {T : Target} {p : Nat} : ∀ (l : List Inst) (d : Nat),
    (∀ k, k ≤ d → ∃ inst, l[k]? = some inst ∧ inst.physUses T ≠ []) →
    (∃ inst, l[d]? = some inst ∧ p ∈ inst.physUses T) → p ∈ collect T (T.clsP p) l := by
  intro l
  induction l with
  | nil => intro d _ ⟨_, h, _⟩; simp at h
  | cons a l ih =>
    intro d hg ⟨inst, h, hp⟩
    unfold collect
    obtain ⟨i0, h0, hne⟩ := hg 0 (Nat.zero_le _)
    simp at h0; subst h0
    rw [if_neg hne, List.mem_append]
    cases d with
    | zero => simp at h; subst h; exact Or.inl (by simp [hp])
    | succ d =>
      right
      exact ih d (fun k hk => by simpa using hg (k + 1) (by omega)) ⟨inst, by simpa using h, hp⟩

theorem scanAt_under_succ {T : Target} {c : Nat} {f : Func} {b : Nat} {B : Block} {i : Nat} {inst : Inst}
    (hi : B.insts[i]? = some inst) (p : Nat) : p ∈ (scanAt T c f b B (i + 1)).under ↔
      (p ∈ (scanAt T c f b B i).under ∧ p ∉ inst.physUses T) ∨
      (inst.call.isSome ∧ p ∈ collect T c (B.insts.drop (i + 1))) := by
  rw [scanAt_succ hi]
  unfold scanInst
  rw [(scanDef_fold _ _).1]
  unfold scanCall scanUses
  by_cases hc : inst.call.isSome
  · simp [hc]
  · simp [hc]

theorem scanAt_locked_succ {T : Target} {c : Nat} {f : Func} {b : Nat} {B : Block} {i : Nat} {inst : Inst}
    (hi : B.insts[i]? = some inst) (p : Nat) : p ∈ (scanAt T c f b B (i + 1)).locked ↔
      (inst.call = none ∧ p ∈ (scanAt T c f b B i).locked) ∨
      (Reg.ph p ∈ inst.defs ∧ T.clsP p = c ∧ T.zero p = false) := by
  rw [scanAt_succ hi]
  unfold scanInst
  rw [(scanDef_fold _ _).2.1]
  unfold scanCall scanUses
  cases hc : inst.call <;> simp

/-- A value that has to be kept is tracked by the walk. -/
theorem keeps_tracked {T : Target} {f : Func} {b i p : Nat} {B : Block}
    (hB : f[b]? = some B) (hz : T.zero p = false) (hi : i ≤ B.insts.length) (h : Keeps T f b i p) :
    p ∈ (scanAt T (T.clsP p) f b B i).under ∨ p ∈ (scanAt T (T.clsP p) f b B i).locked := by
  cases h with
  | @set B' j inst hB' hj hinst hd hnc =>
    rw [hB] at hB'; cases hB'
    right
    have key : ∀ d, j + 1 + d ≤ i → p ∈ (scanAt T (T.clsP p) f b B (j + 1 + d)).locked := by
      intro d
      induction d with
      | zero =>
        intro _
        rw [Nat.add_zero, scanAt_locked_succ hinst]
        exact Or.inr ⟨hd, rfl, hz⟩
      | succ d ih =>
        intro hd'
        have hlt : j + 1 + d < B.insts.length := by omega
        have hget := List.getElem?_eq_getElem hlt
        rw [← Nat.add_assoc, scanAt_locked_succ hget]
        exact Or.inl ⟨hnc (j + 1 + d) _ (by omega) (by omega) hget, ih (by omega)⟩
    have := key (i - (j + 1)) (by omega)
    rwa [show j + 1 + (i - (j + 1)) = i by omega] at this
  | @group B' s i' hB' hs hsi hii' hread hgrp hnr =>
    rw [hB] at hB'; cases hB'
    left
    obtain ⟨ri, hri, hrp⟩ := hread
    have hcoll : p ∈ collect T (T.clsP p) (B.insts.drop s) := by
      apply mem_collect _ (i' - s)
      · intro k hk
        obtain ⟨inst', h1, h2⟩ := hgrp (s + k) (by omega) (by omega)
        exact ⟨inst', by rw [List.getElem?_drop]; exact h1, h2⟩
      · refine ⟨ri, by rw [List.getElem?_drop, show s + (i' - s) = i' by omega]; exact hri, ?_⟩
        exact mem_physUses.2 ⟨hrp, hz⟩
    have base : p ∈ (scanAt T (T.clsP p) f b B s).under := by
      rcases hs with ⟨rfl, -, -⟩ | ⟨inst, hpos, hinst, hcall, -⟩
      · unfold scanAt; simpa using hcoll
      · have he : s = (s - 1) + 1 := by omega
        rw [he, scanAt_under_succ hinst]
        exact Or.inr ⟨hcall, by rw [← he]; exact hcoll⟩
    have key : ∀ d, s + d ≤ i → p ∈ (scanAt T (T.clsP p) f b B (s + d)).under := by
      intro d
      induction d with
      | zero => intro _; exact base
      | succ d ih =>
        intro hd'
        have hlt : s + d < B.insts.length := by omega
        have hget := List.getElem?_eq_getElem hlt
        rw [← Nat.add_assoc, scanAt_under_succ hget]
        refine Or.inl ⟨ih (by omega), ?_⟩
        rw [mem_physUses]
        rintro ⟨h, -⟩
        exact hnr (s + d) _ (by omega) (by omega) hget h
    have := key (i - s) (by omega)
    rwa [show s + (i - s) = i by omega] at this

/-- A kept value was either written by the previous instruction or kept before it. -/
theorem keeps_back {T : Target} {f : Func} {b i p : Nat} {B : Block} {inst : Inst} (hB : f[b]? = some B)
    (hi : B.insts[i]? = some inst) (h : Keeps T f b (i + 1) p) :
    Reg.ph p ∈ inst.dsts T ∨ Keeps T f b i p := by
  cases h with
  | @set B' j inst' hB' hj hinst hd hnc =>
    rw [hB] at hB'; cases hB'
    by_cases hji : j = i
    · subst hji; rw [hi] at hinst; cases hinst
      left; unfold Inst.dsts; simp [hd]
    · exact Or.inr (.set hB (by omega) hinst hd (fun k ik h1 h2 => hnc k ik h1 (by omega)))
  | @group B' s i' hB' hs hsi hii' hread hgrp hnr =>
    rw [hB] at hB'; cases hB'
    by_cases hsi' : s = i + 1
    · subst hsi'
      rcases hs with ⟨h, -⟩ | ⟨inst', -, hinst, -, hcl⟩
      · omega
      · simp only [Nat.add_sub_cancel] at hinst
        rw [hi] at hinst; cases hinst
        left; unfold Inst.dsts; simp [hcl]
    · exact Or.inr (.group hB hs (by omega) (by omega) hread hgrp
        (fun k ik h1 h2 => hnr k ik h1 (by omega)))

/-- Nothing has to be kept at the start of a block that is jumped to. -/
theorem not_keeps_start {T : Target} {f : Func} {b b' p : Nat} (hg : f.goesTo b b')
    (h : Keeps T f b' 0 p) : False := by
  cases h with
  | @set B' j inst' hB' hj hinst hd hnc => omega
  | @group B' s i' hB' hs hsi hii' hread hgrp hnr =>
    rcases hs with ⟨-, rfl, h⟩ | ⟨inst', h, -⟩
    · exact h b hg
    · omega

/-! ## Registers that must differ do differ -/

section Conflicts
variable {T : Target} {f : Func} {n : Nat} {m : Nat → Option Nat}

theorem def_node {b i : Nat} {B : Block} {inst : Inst} (hB : f[b]? = some B) (hi : B.insts[i]? = some inst)
    {v : Nat} (hd : Reg.vr v ∈ inst.defs) : v ∈ nodes T (T.clsV v) f :=
  mem_nodes.2 ⟨rfl, B, List.mem_of_getElem? hB, inst, List.mem_of_getElem? hi, _, mem_defs_iff.1 hd, rfl⟩

theorem use_node {b i : Nat} {B : Block} {inst : Inst} (hB : f[b]? = some B) (hi : B.insts[i]? = some inst)
    {v : Nat} (hd : Reg.vr v ∈ inst.uses) : v ∈ nodes T (T.clsV v) f :=
  mem_nodes.2 ⟨rfl, B, List.mem_of_getElem? hB, inst, List.mem_of_getElem? hi, _, mem_uses_iff.1 hd, rfl⟩

theorem live_node (hf : f.Wf) (hn : f.NoHidden) {v b i : Nat} (h : LiveAt f v b i) :
    v ∈ nodes T (T.clsV v) f := by
  obtain ⟨B, hB, -⟩ := liveAt_local h
  exact (scan_nodes hB i).1 v (live_tracked hf hn hB i h)

theorem liveAfter_node (hf : f.Wf) (hn : f.NoHidden) {v b i : Nat} (h : LiveAfter f v b i) :
    v ∈ nodes T (T.clsV v) f := by
  obtain ⟨B, hB, ⟨-, h⟩ | ⟨-, b', -, h⟩⟩ := h
  · exact live_node hf hn h
  · exact live_node hf hn h

/-- Two different registers whose intervals share a point get different registers. -/
theorem meet_ne (hT : T.Ok) (hf : f.Wf) (hcls : ∀ v ∈ nodes T (T.clsV v) f, T.clsV v < n)
    (ha : Assigned T f n m) {u v x : Nat} (huv : u ≠ v) (hu : u ∈ nodes T (T.clsV u) f)
    (hv : v ∈ nodes T (T.clsV v) f) (h1 : Covers (interval f u) x) (h2 : Covers (interval f v) x) :
    renReg m (.vr u) ≠ renReg m (.vr v) := by
  obtain ⟨ru, u1, u2, u3, u4⟩ := ha.range _ (hcls u hu) u hu
  obtain ⟨rv, v1, v2, v3, v4⟩ := ha.range _ (hcls v hv) v hv
  simp only [renReg, u1, v1]
  intro e
  simp only [Reg.ph.injEq] at e
  subst e
  by_cases hc : T.clsV u = T.clsV v
  · rw [← hc] at hv
    have hadj : Reg.vr v ∈ (graphOf T (T.clsV u) f).adj (.vr u) := by
      rw [(graphOf_spec T (T.clsV u) f).2.2]
      rcases vregEdges_of_meet hf huv h1 h2 _ hu hv with h | h
      · exact Or.inl (List.mem_append_right _ h)
      · exact Or.inr (List.mem_append_right _ h)
    exact u4 v hadj v1
  · apply hc
    rw [← (hT.1 _ _ u2).1, ← (hT.1 _ _ v2).1]

/-- A register with an edge to a physical one is not given that one. -/
theorem edge_ne (hcls : ∀ v ∈ nodes T (T.clsV v) f, T.clsV v < n) (ha : Assigned T f n m)
    {v p b i : Nat} {B : Block} (hv : v ∈ nodes T (T.clsV v) f) (hB : f[b]? = some B)
    (hi : i < B.insts.length) (he : (Reg.vr v, Reg.ph p) ∈ edgesAt T (T.clsV v) f b B i) :
    renReg m (.vr v) ≠ .ph p := by
  obtain ⟨r, r1, r2, r3, r4⟩ := ha.range _ (hcls v hv) v hv
  simp only [renReg, r1]
  intro e
  simp only [Reg.ph.injEq] at e
  subst e
  apply r3
  rw [(graphOf_spec T (T.clsV v) f).2.2]
  exact Or.inl (List.mem_append_left _ (physEdges_of_at hB hi he))

theorem ren_alloc (hT : T.Ok) (hcls : ∀ v ∈ nodes T (T.clsV v) f, T.clsV v < n)
    (ha : Assigned T f n m) {v : Nat} (hv : v ∈ nodes T (T.clsV v) f) :
    ∃ r, renReg m (.vr v) = .ph r ∧ T.Alloc r ∧ T.clsP r = T.clsV v := by
  obtain ⟨r, r1, r2, -⟩ := ha.range _ (hcls v hv) v hv
  have := (hT.1 _ _ r2).1
  exact ⟨r, by simp [renReg, r1], by unfold Target.Alloc; rw [this]; exact r2, this⟩

theorem edgesAt_eq {c b i : Nat} {B : Block} {inst : Inst} (hi : B.insts[i]? = some inst) :
    edgesAt T c f b B i = (scanInst T c f b i inst (B.insts.drop (i + 1)) (scanAt T c f b B i)).2 := by
  unfold edgesAt; rw [hi]

end Conflicts

/-! ## Writing renamed registers -/

section Writes
variable {Val : Type}

theorem writes_append (σ : Reg → Val) : ∀ (a b : List Reg) (va vb : List Val), va.length = a.length →
    writes σ (a ++ b) (va ++ vb) = writes (writes σ a va) b vb := by
  intro a
  induction a generalizing σ with
  | nil => intro b va vb h; simp at h; subst h; simp [writes]
  | cons x a ih =>
    intro b va vb h
    cases va with
    | nil => simp at h
    | cons y va =>
      simp only [List.cons_append, writes]
      exact ih _ b va vb (by simpa using h)

theorem writes_ren (m : Nat → Option Nat) (x : Reg) : ∀ (ds : List Reg) (vs : List Val) (σ σ' : Reg → Val),
    vs.length = ds.length → (∀ y ∈ ds, y ≠ x → renReg m y ≠ renReg m x) →
    (x ∈ ds ∨ σ x = σ' (renReg m x)) →
    writes σ ds vs x = writes σ' (ds.map (renReg m)) vs (renReg m x) := by
  intro ds
  induction ds with
  | nil =>
    intro vs σ σ' _ _ h
    rcases h with h | h
    · cases h
    · simpa [writes] using h
  | cons d ds ih =>
    intro vs σ σ' hl hne h
    cases vs with
    | nil => simp at hl
    | cons y vs =>
      simp only [List.map_cons, writes]
      apply ih _ _ _ (by simpa using hl) (fun z hz => hne z (by simp [hz]))
      by_cases hx : x ∈ ds
      · exact Or.inl hx
      · right
        by_cases hxd : x = d
        · subst hxd; simp
        · rw [if_neg hxd, if_neg (fun e => hne d (by simp) (fun e' => hxd e'.symm) e.symm)]
          rcases h with h | h
          · rcases List.mem_cons.1 h with h | h
            · exact absurd h hxd
            · exact absurd h hx
          · exact h

end Writes

/-! ## Renamed functions -/

theorem rename_get {f : Func} {m : Nat → Option Nat} (b : Nat) :
    (f.rename m)[b]? = (f[b]?).map fun B => { B with insts := B.insts.map (Inst.rename m) } := by
  unfold Func.rename; rw [List.getElem?_map]

theorem rename_length {f : Func} {m : Nat → Option Nat} : List.length (f.rename m) = List.length f := by
  unfold Func.rename; simp

theorem rename_uses (m : Nat → Option Nat) (i : Inst) : (i.rename m).uses = i.uses.map (renReg m) := by
  unfold Inst.uses Inst.rename
  simp only [List.filterMap_map, List.map_filterMap]
  congr 1
  funext o
  simp only [Function.comp]
  split <;> simp_all

theorem rename_defs (m : Nat → Option Nat) (i : Inst) : (i.rename m).defs = i.defs.map (renReg m) := by
  unfold Inst.defs Inst.rename
  simp only [List.filterMap_map, List.map_filterMap]
  congr 1
  funext o
  simp only [Function.comp]
  split <;> simp_all

theorem rename_dsts (T : Target) (m : Nat → Option Nat) (i : Inst) :
    (i.rename m).dsts T = (i.dsts T).map (renReg m) := by
  unfold Inst.dsts
  rw [rename_defs, List.map_append]
  congr 1
  have : (i.rename m).clob T = i.clob T := rfl
  rw [this, List.map_map]
  rfl

/-! ## The simulation -/

section Sim
variable {Val Mem : Type} {T : Target} {f : Func} {n : Nat} {m : Nat → Option Nat}

/-- The two programs agree at a point: on every live virtual register, on every physical register the
    allocator does not hand out, and on every physical register whose value has to be kept. -/
structure Rel (T : Target) (f : Func) (m : Nat → Option Nat) (b i : Nat) (σ σ' : Reg → Val) : Prop where
  live : ∀ v, LiveAt f v b i → σ (.vr v) = σ' (renReg m (.vr v))
  other : ∀ p, ¬ T.Alloc p → σ (.ph p) = σ' (.ph p)
  kept : ∀ p, T.Alloc p → Keeps T f b i p → σ (.ph p) = σ' (.ph p)

theorem rel_reads (hP : PhysOk T f) {b i : Nat} {B : Block} {inst : Inst} (hB : f[b]? = some B)
    (hi : B.insts[i]? = some inst) {σ σ' : Reg → Val} (h : Rel T f m b i σ σ') :
    (inst.rename m).reads σ' = inst.reads σ := by
  unfold Inst.reads
  rw [rename_uses]
  have hargs : (inst.rename m).args = inst.args := rfl
  rw [hargs, List.map_map]
  have hphys : ∀ p, (Reg.ph p ∈ inst.uses ∨ p ∈ inst.args) → σ (.ph p) = σ' (.ph p) := by
    intro p hp
    by_cases ha : T.Alloc p
    · exact h.kept p ha (hP b B i inst hB hi p ha hp)
    · exact h.other p ha
  congr 1
  · apply List.map_congr_left
    intro r hr
    cases r with
    | ph p => exact (hphys p (Or.inl hr)).symm
    | vr v => exact (h.live v (.use hB hi hr)).symm
  · apply List.map_congr_left
    intro p hp
    exact (hphys p (Or.inr hp)).symm

/-- After an instruction the programs still agree. `b₁`, `i₁` is the next point. -/
theorem rel_step (hT : T.Ok) (hf : f.Wf) (hn : f.NoHidden)
    (hcls : ∀ v ∈ nodes T (T.clsV v) f, T.clsV v < n) (ha : Assigned T f n m)
    {b i b₁ i₁ : Nat} {B : Block} {inst : Inst} (hB : f[b]? = some B) (hi : B.insts[i]? = some inst)
    (hnext : (b₁ = b ∧ i₁ = i + 1 ∧ i + 1 < B.insts.length) ∨
      (i₁ = 0 ∧ i + 1 = B.insts.length ∧ f.goesTo b b₁))
    {σ σ' : Reg → Val} (h : Rel T f m b i σ σ') {vs : List Val} (hvs : vs.length = (inst.dsts T).length) :
    Rel T f m b₁ i₁ (writes σ (inst.dsts T) vs) (writes σ' ((inst.rename m).dsts T) vs) := by
  have hil := (List.getElem?_eq_some_iff.1 hi).1
  rw [rename_dsts]
  -- a register live at the next point is live after the instruction
  have hafter : ∀ v, LiveAt f v b₁ i₁ → LiveAfter f v b i := by
    intro v hv
    refine ⟨B, hB, ?_⟩
    rcases hnext with ⟨rfl, rfl, h3⟩ | ⟨rfl, h2, h3⟩
    · exact Or.inl ⟨h3, hv⟩
    · exact Or.inr ⟨h2, b₁, h3, hv⟩
  -- splitting the values into those of the call and those of the operands
  have hsplit : ∃ va vb, vs = va ++ vb ∧ va.length = ((inst.clob T).map Reg.ph).length ∧
      vb.length = inst.defs.length := by
    refine ⟨vs.take ((inst.clob T).map Reg.ph).length, vs.drop ((inst.clob T).map Reg.ph).length,
      (List.take_append_drop _ _).symm, ?_, ?_⟩
    · rw [List.length_take]
      unfold Inst.dsts at hvs
      rw [List.length_append] at hvs
      omega
    · rw [List.length_drop]
      unfold Inst.dsts at hvs
      rw [List.length_append] at hvs
      omega
  obtain ⟨va, vb, rfl, hva, hvb⟩ := hsplit
  have hspl : ∀ x, writes σ (inst.dsts T) (va ++ vb) x =
      writes (writes σ ((inst.clob T).map Reg.ph) va) inst.defs vb x := by
    intro x; unfold Inst.dsts; rw [writes_append _ _ _ _ _ hva]
  have hspl' : ∀ x, writes σ' ((inst.dsts T).map (renReg m)) (va ++ vb) x =
      writes (writes σ' (((inst.clob T).map Reg.ph).map (renReg m)) va) (inst.defs.map (renReg m)) vb x := by
    intro x; unfold Inst.dsts
    rw [List.map_append, writes_append _ _ _ _ _ (by simpa using hva)]
  -- edges between what is written here and physical registers
  have hwp : ∀ w p, Reg.vr w ∈ inst.defs → T.Alloc p →
      (Reg.ph p ∈ inst.defs ∨ (i₁ = i + 1 ∧ b₁ = b ∧ Keeps T f b (i + 1) p)) →
      renReg m (.vr w) ≠ .ph p := by
    intro w p hw hp hk
    have hwn := def_node (T := T) hB hi hw
    obtain ⟨r, hr1, hr2, hr3⟩ := ren_alloc hT hcls ha hwn
    by_cases hcp : T.clsP p = T.clsV w
    · have hz : T.zero p = false := (hT.1 _ _ hp).2
      apply edge_ne hcls ha hwn hB hil
      rw [edgesAt_eq hi]
      unfold scanInst
      have hfold := scanDef_fold (T := T) (c := T.clsV w) inst.defs
        (scanCall T (T.clsV w) inst (List.drop (i + 1) B.insts)
          (scanUses T (T.clsV w) f b i inst (scanAt T (T.clsV w) f b B i)),
        List.flatMap (fun p => List.map (fun v => (Reg.vr v, Reg.ph p))
          (scanUses T (T.clsV w) f b i inst (scanAt T (T.clsV w) f b B i)).live) (callClob T (T.clsV w) inst))
      rcases hk with hk | ⟨-, -, hk⟩
      · exact hfold.2.2.2.2.2.2 w p hw rfl hk hcp hz
      · have htr := keeps_tracked hB hz (by omega) hk
        rw [hcp, scanAt_succ hi] at htr
        unfold scanInst at htr
        rw [hfold.1, hfold.2.1] at htr
        rcases htr with htr | htr | ⟨htr, -⟩
        · exact hfold.2.2.2.2.2.1 w p hw rfl (Or.inl htr)
        · exact hfold.2.2.2.2.2.1 w p hw rfl (Or.inr htr)
        · exact hfold.2.2.2.2.2.2 w p hw rfl htr hcp hz
    · rw [hr1]; intro e; simp only [Reg.ph.injEq] at e; subst e; exact hcp hr3
  have hdd : ∀ v w, Reg.vr v ∈ inst.defs → Reg.vr w ∈ inst.defs → v ≠ w →
      renReg m (.vr v) ≠ renReg m (.vr w) := by
    intro v w hv hw hne
    exact meet_ne hT hf hcls ha hne (def_node hB hi hv) (def_node hB hi hw)
      (interval_def hf hn hB hi hv) (interval_def hf hn hB hi hw)
  refine ⟨?_, ?_, ?_⟩
  · -- virtual registers
    intro v hv
    have hla := hafter v hv
    have hvn := liveAfter_node (T := T) hf hn hla
    rw [hspl, hspl']
    by_cases hd : Reg.vr v ∈ inst.defs
    · apply writes_ren m _ _ _ _ _ hvb
      · intro y hy hne
        cases y with
        | vr w => exact hdd w v hy hd (fun e => hne (by rw [e]))
        | ph p =>
          by_cases hp : T.Alloc p
          · exact fun e => hwp v p hd hp (Or.inl hy) e.symm
          · obtain ⟨r, hr1, hr2, -⟩ := ren_alloc hT hcls ha hvn
            rw [hr1]
            simp only [renReg]
            intro e
            simp only [Reg.ph.injEq] at e
            subst e
            exact hp hr2
      · exact Or.inl hd
    · have hold := h.live v ((liveAt_iff hB hi).2 (Or.inr ⟨hd, hla⟩))
      have hlu := live_after_uses (T := T) hf hn hB hi hd hla
      obtain ⟨r, hr1, hr2, hr3⟩ := ren_alloc hT hcls ha hvn
      have hcall : (scanCall T (T.clsV v) inst (List.drop (i + 1) B.insts)
          (scanUses T (T.clsV v) f b i inst (scanAt T (T.clsV v) f b B i))).live =
          (scanUses T (T.clsV v) f b i inst (scanAt T (T.clsV v) f b B i)).live := by
        unfold scanCall; split <;> rfl
      have hfold := scanDef_fold (T := T) (c := T.clsV v) inst.defs
        (scanCall T (T.clsV v) inst (List.drop (i + 1) B.insts)
          (scanUses T (T.clsV v) f b i inst (scanAt T (T.clsV v) f b B i)),
        List.flatMap (fun p => List.map (fun v => (Reg.vr v, Reg.ph p))
          (scanUses T (T.clsV v) f b i inst (scanAt T (T.clsV v) f b B i)).live) (callClob T (T.clsV v) inst))
      apply writes_ren m _ _ _ _ _ hvb
      · intro y hy hne
        cases y with
        | vr w =>
          have hwv : w ≠ v := fun e => hne (by rw [e])
          exact meet_ne hT hf hcls ha hwv (def_node hB hi hy) hvn
            (interval_def hf hn hB hi hy) (interval_after hf hn hla)
        | ph p =>
          rw [hr1]
          simp only [renReg]
          intro e
          simp only [Reg.ph.injEq] at e
          subst e
          have hz : T.zero p = false := (hT.1 _ _ hr2).2
          apply edge_ne (p := p) hcls ha hvn hB hil _ hr1
          rw [edgesAt_eq hi]
          unfold scanInst
          exact hfold.2.2.2.2.1 v p (by rw [hcall]; exact hlu) hy hr3 hz
      · right
        apply writes_ren m _ _ _ _ _ hva
        · intro y hy hne
          rw [List.mem_map] at hy
          obtain ⟨p, hp, rfl⟩ := hy
          rw [hr1]
          simp only [renReg]
          intro e
          simp only [Reg.ph.injEq] at e
          subst e
          apply edge_ne (p := p) hcls ha hvn hB hil _ hr1
          rw [edgesAt_eq hi]
          unfold scanInst
          apply hfold.2.2.2.1
          rw [List.mem_flatMap]
          refine ⟨p, ?_, by rw [List.mem_map]; exact ⟨v, hlu, rfl⟩⟩
          unfold Inst.clob at hp
          unfold callClob
          cases hc : inst.call with
          | none => rw [hc] at hp; cases hp
          | some ci =>
            rw [hc] at hp
            simp only at hp ⊢
            cases hus : ci.usage with
            | none =>
              rw [hus] at hp
              simp only [Option.getD_none] at hp
              unfold Target.Alloc at hr2
              rw [hr3] at hr2
              simp [hr2, hp]
            | some l =>
              rw [hus] at hp
              simp only [Option.getD_some] at hp
              simp [hp, hr3]
        · exact Or.inr hold
  · -- registers that are not handed out
    intro p hp
    have hsame : renReg m (Reg.ph p) = Reg.ph p := rfl
    conv => rhs; rw [← hsame]
    apply writes_ren m _ _ _ _ _ (by simpa using hvs)
    · intro y hy hne
      cases y with
      | ph q => exact hne
      | vr w =>
        have hw : Reg.vr w ∈ inst.defs := by
          unfold Inst.dsts at hy; simpa using hy
        obtain ⟨r, hr1, hr2, -⟩ := ren_alloc hT hcls ha (def_node hB hi hw)
        rw [hr1, hsame]
        intro e
        simp only [Reg.ph.injEq] at e
        subst e
        exact hp hr2
    · exact Or.inr (h.other p hp)
  · -- registers whose value is kept
    intro p hp hk
    rcases hnext with ⟨rfl, rfl, h3⟩ | ⟨rfl, h2, h3⟩
    · have hsame : renReg m (Reg.ph p) = Reg.ph p := rfl
      conv => rhs; rw [← hsame]
      apply writes_ren m _ _ _ _ _ (by simpa using hvs)
      · intro y hy hne
        cases y with
        | ph q => exact hne
        | vr w =>
          have hw : Reg.vr w ∈ inst.defs := by
            unfold Inst.dsts at hy; simpa using hy
          exact hwp w p hw hp (Or.inr ⟨rfl, rfl, hk⟩)
      · rcases keeps_back hB hi hk with hk | hk
        · exact Or.inl hk
        · exact Or.inr (h.kept p hp hk)
    · exact (not_keeps_start h3 hk).elim

/-- One step of either program is matched by the other. -/
theorem sim_step (hT : T.Ok) (hf : f.Wf) (hn : f.NoHidden) (hP : PhysOk T f)
    (hcls : ∀ v ∈ nodes T (T.clsV v) f, T.clsV v < n) (ha : Assigned T f n m)
    {I : Interp Val Mem} {b i : Nat} {σ σ' : Reg → Val} {μ : Mem} (h : Rel T f m b i σ σ') :
    (∀ t, Step T I f ⟨b, i, σ, μ⟩ t → ∃ ρ', Step T I (f.rename m) ⟨b, i, σ', μ⟩ ⟨t.b, t.i, ρ', t.m⟩ ∧
      Rel T f m t.b t.i t.σ ρ') ∧
    (∀ t, Step T I (f.rename m) ⟨b, i, σ', μ⟩ t → ∃ ρ, Step T I f ⟨b, i, σ, μ⟩ ⟨t.b, t.i, ρ, t.m⟩ ∧
      Rel T f m t.b t.i ρ t.σ) := by
  have hget : ∀ {b : Nat} {B : Block}, f[b]? = some B →
      (f.rename m)[b]? = some { B with insts := B.insts.map (Inst.rename m) } := by
    intro b B hB; rw [rename_get, hB]; rfl
  refine ⟨?_, ?_⟩
  · intro t ht
    cases ht with
    | @seq _ _ _ _ B inst vs m' k hB hi hlt hI hvs =>
      refine ⟨writes σ' ((inst.rename m).dsts T) vs, ?_, ?_⟩
      · refine .seq (inst := inst.rename m) (k := k) (hget hB) (by simp [hi]) (by simpa using hlt) ?_ (by rw [rename_dsts]; simpa using hvs)
        rw [rel_reads hP hB hi h]; exact hI
      · exact rel_step hT hf hn hcls ha hB hi (Or.inl ⟨rfl, rfl, hlt⟩) h hvs
    | @jump _ _ _ _ B inst vs m' k b' hB hi hlt hI hvs hnx =>
      refine ⟨writes σ' ((inst.rename m).dsts T) vs, ?_, ?_⟩
      · refine .jump (inst := inst.rename m) (k := k) (hget hB) (by simp [hi]) (by simpa using hlt) ?_ (by rw [rename_dsts]; simpa using hvs)
          (by rw [rename_length]; exact hnx)
        rw [rel_reads hP hB hi h]; exact hI
      · exact rel_step hT hf hn hcls ha hB hi (Or.inr ⟨rfl, hlt, B, k, hB, hnx⟩) h hvs
  · intro t ht
    have hback : ∀ {b : Nat} {B' : Block}, (f.rename m)[b]? = some B' →
        ∃ B, f[b]? = some B ∧ B' = { B with insts := B.insts.map (Inst.rename m) } := by
      intro b B' h'
      rw [rename_get] at h'
      cases hB : f[b]? with
      | none => rw [hB] at h'; cases h'
      | some B => rw [hB] at h'; simp at h'; exact ⟨B, rfl, h'.symm⟩
    cases ht with
    | @seq _ _ _ _ B' inst' vs m' k hB' hi' hlt hI hvs =>
      obtain ⟨B, hB, rfl⟩ := hback hB'
      simp only [List.getElem?_map] at hi'
      obtain ⟨inst, hi, rfl⟩ := Option.map_eq_some_iff.1 hi'
      rw [rel_reads hP hB hi h] at hI
      have hvs' : vs.length = (inst.dsts T).length := by rw [rename_dsts] at hvs; simpa using hvs
      refine ⟨writes σ (inst.dsts T) vs, .seq hB hi (by simpa using hlt) hI hvs', ?_⟩
      exact rel_step hT hf hn hcls ha hB hi (Or.inl ⟨rfl, rfl, by simpa using hlt⟩) h hvs'
    | @jump _ _ _ _ B' inst' vs m' k b' hB' hi' hlt hI hvs hnx =>
      obtain ⟨B, hB, rfl⟩ := hback hB'
      simp only [List.getElem?_map] at hi'
      obtain ⟨inst, hi, rfl⟩ := Option.map_eq_some_iff.1 hi'
      rw [rel_reads hP hB hi h] at hI
      rw [rename_length] at hnx
      have hvs' : vs.length = (inst.dsts T).length := by rw [rename_dsts] at hvs; simpa using hvs
      refine ⟨writes σ (inst.dsts T) vs, .jump hB hi (by simpa using hlt) hI hvs' hnx, ?_⟩
      exact rel_step hT hf hn hcls ha hB hi (Or.inr ⟨rfl, by simpa using hlt, B, k, hB, hnx⟩) h hvs'

theorem sim_leaves (hP : PhysOk T f) {I : Interp Val Mem} {b i : Nat} {σ σ' : Reg → Val} {μ μ' : Mem}
    (h : Rel T f m b i σ σ') :
    Leaves T I f ⟨b, i, σ, μ⟩ μ' ↔ Leaves T I (f.rename m) ⟨b, i, σ', μ⟩ μ' := by
  unfold Leaves
  simp only
  constructor
  · rintro ⟨B, inst, vs, k, hB, hi, hl, hI, hvs, hnx⟩
    refine ⟨_, inst.rename m, vs, k, by rw [rename_get, hB]; rfl, by simp [hi], by simpa using hl, ?_,
      by rw [rename_dsts]; simpa using hvs, by rw [rename_length]; exact hnx⟩
    rw [rel_reads hP hB hi h]; exact hI
  · rintro ⟨B', inst', vs, k, hB', hi', hl, hI, hvs, hnx⟩
    rw [rename_get] at hB'
    obtain ⟨B, hB, rfl⟩ := Option.map_eq_some_iff.1 hB'
    simp only [List.getElem?_map] at hi'
    obtain ⟨inst, hi, rfl⟩ := Option.map_eq_some_iff.1 hi'
    rw [rel_reads hP hB hi h] at hI
    rw [rename_length] at hnx
    exact ⟨B, inst, vs, k, hB, hi, by simpa using hl, hI, by rw [rename_dsts] at hvs; simpa using hvs, hnx⟩

theorem sim_run (hT : T.Ok) (hf : f.Wf) (hn : f.NoHidden) (hP : PhysOk T f)
    (hcls : ∀ v ∈ nodes T (T.clsV v) f, T.clsV v < n) (ha : Assigned T f n m)
    {I : Interp Val Mem} : ∀ (tr : List (Nat × Nat × Mem)) (b i : Nat) (σ σ' : Reg → Val) (μ : Mem),
    Rel T f m b i σ σ' →
    (∀ s, Run T I f ⟨b, i, σ, μ⟩ tr s → ∃ ρ', Run T I (f.rename m) ⟨b, i, σ', μ⟩ tr ⟨s.b, s.i, ρ', s.m⟩ ∧
      Rel T f m s.b s.i s.σ ρ') ∧
    (∀ s, Run T I (f.rename m) ⟨b, i, σ', μ⟩ tr s → ∃ ρ, Run T I f ⟨b, i, σ, μ⟩ tr ⟨s.b, s.i, ρ, s.m⟩ ∧
      Rel T f m s.b s.i ρ s.σ) := by
  intro tr
  induction tr with
  | nil =>
    intro b i σ σ' μ h
    refine ⟨?_, ?_⟩
    · intro s hs; cases hs; exact ⟨σ', .nil, h⟩
    · intro s hs; cases hs; exact ⟨σ, .nil, h⟩
  | cons e tr ih =>
    intro b i σ σ' μ h
    refine ⟨?_, ?_⟩
    · intro s hs
      cases hs with
      | @cons _ t _ _ hst hr =>
        obtain ⟨ρ, h1, h2⟩ := (sim_step hT hf hn hP hcls ha h).1 t hst
        obtain ⟨ρ', h3, h4⟩ := (ih t.b t.i t.σ ρ t.m h2).1 s hr
        exact ⟨ρ', .cons (s' := ⟨t.b, t.i, ρ, t.m⟩) h1 h3, h4⟩
    · intro s hs
      cases hs with
      | @cons _ t _ _ hst hr =>
        obtain ⟨ρ, h1, h2⟩ := (sim_step hT hf hn hP hcls ha h).2 t hst
        obtain ⟨ρ', h3, h4⟩ := (ih t.b t.i ρ t.σ t.m h2).2 s hr
        exact ⟨ρ', .cons (s' := ⟨t.b, t.i, ρ, t.m⟩) h1 h3, h4⟩

end Sim

end Cmmc.Mir
