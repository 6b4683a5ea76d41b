import Verif.Mir.UnusedProps

/-!
# Removing invisible machine instructions after register allocation cannot be seen
-/

namespace Cmmc.Mir

theorem InvisSt.uses_spec : ∀ (us : List Reg) (s : InvisSt),
    (us.foldl InvisSt.use s).writer = s.writer ∧
    ∀ j, j ∈ (us.foldl InvisSt.use s).unused ↔ j ∈ s.unused ∧ ∀ r ∈ us, (r, j) ∉ s.writer := by
  intro us
  induction us with
  | nil => intro s; simp
  | cons u us ih =>
    intro s
    rw [List.foldl_cons]
    obtain ⟨h1, h2⟩ := ih (s.use u)
    refine ⟨h1, fun j => ?_⟩
    rw [h2]
    simp only [InvisSt.use, List.mem_filter, List.mem_cons, Bool.not_eq_true', List.any_eq_false,
      decide_eq_true_eq, not_and, forall_eq_or_imp]
    constructor
    · rintro ⟨⟨a, b⟩, c⟩
      exact ⟨a, fun h => b _ h rfl rfl, c⟩
    · rintro ⟨a, b, c⟩
      refine ⟨⟨a, ?_⟩, c⟩
      rintro ⟨e1, e2⟩ he rfl rfl
      exact b he

theorem InvisSt.defs_spec (i : Nat) : ∀ (ds : List Reg) (s : InvisSt), (∀ r ∈ ds, r.isVirt = false) →
    (ds.foldl (fun s r => s.def i r) s).unused = s.unused ∧
    ∀ r j, (r, j) ∈ (ds.foldl (fun s r => s.def i r) s).writer ↔
      (r ∈ ds ∧ j = i) ∨ (r ∉ ds ∧ (r, j) ∈ s.writer) := by
  intro ds
  induction ds with
  | nil => intro s _; simp
  | cons d ds ih =>
    intro s h
    rw [List.foldl_cons]
    obtain ⟨h1, h2⟩ := ih (s.def i d) fun r hr => h r (List.mem_cons_of_mem _ hr)
    have hd := h d (List.mem_cons_self ..)
    refine ⟨by rw [h1]; simp [InvisSt.def, hd], fun r j => ?_⟩
    rw [h2]
    simp only [InvisSt.def, hd, Bool.false_eq_true, if_false, List.mem_cons, Prod.mk.injEq, List.mem_filter]
    by_cases e : r = d
    · subst e
      by_cases hm : r ∈ ds <;> simp [hm]
    · by_cases hm : r ∈ ds <;> simp [hm, e]

/-- What is needed of `invisStep`: the registers it reads (all of them at a call or branch) keep their writers. -/
theorem invisStep_spec {F : Flags} {s : InvisSt} {i : Nat} {x : Inst} (hd : ∀ r ∈ x.defs, r.isVirt = false) :
    (∀ r j, (r, j) ∈ (invisStep F s i x).writer ↔ (r ∈ x.defs ∧ j = i) ∨ (r ∉ x.defs ∧ (r, j) ∈ s.writer)) ∧
    (∀ j, j ∈ (invisStep F s i x).unused → (j = i ∧ F.side x.op = false) ∨ (j ∈ s.unused ∧
      (∀ r ∈ x.uses, (r, j) ∉ s.writer) ∧ ((F.branch x.op = true ∨ x.call.isSome = true) → ∀ r, (r, j) ∉ s.writer))) := by
  unfold invisStep
  simp only
  obtain ⟨u1, u2⟩ := InvisSt.uses_spec x.uses s
  generalize x.uses.foldl InvisSt.use s = s1 at u1 u2
  have hv : ∀ j, j ∈ (if (F.branch x.op || x.call.isSome) = true then s1.visitAll else s1).unused →
      j ∈ s1.unused ∧ ((F.branch x.op = true ∨ x.call.isSome = true) → ∀ r, (r, j) ∉ s1.writer) := by
    intro j hj
    split at hj
    · simp only [InvisSt.visitAll, List.mem_filter, Bool.not_eq_true', List.any_eq_false, decide_eq_true_eq] at hj
      exact ⟨hj.1, fun _ r hr => hj.2 _ hr rfl⟩
    · rename_i hn
      refine ⟨hj, fun hc => absurd ?_ hn⟩
      simpa using hc
  have hw : (if (F.branch x.op || x.call.isSome) = true then s1.visitAll else s1).writer = s1.writer := by
    split <;> rfl
  generalize (if (F.branch x.op || x.call.isSome) = true then s1.visitAll else s1) = s2 at hv hw
  obtain ⟨d1, d2⟩ := InvisSt.defs_spec i x.defs s2 hd
  have hfin : ∀ s3 : InvisSt, (if F.side x.op = true then s3 else { s3 with unused := i :: s3.unused }).writer = s3.writer := by
    intro s3; split <;> rfl
  refine ⟨fun r j => by rw [hfin, d2, hw, u1], fun j hj => ?_⟩
  have hj' : (j = i ∧ F.side x.op = false) ∨ j ∈ s2.unused := by
    split at hj
    · rw [d1] at hj; exact .inr hj
    · rename_i hs
      rcases List.mem_cons.1 hj with rfl | hj
      · exact .inl ⟨rfl, by simpa using hs⟩
      · rw [d1] at hj; exact .inr hj
  rcases hj' with hj' | hj'
  · exact .inl hj'
  · obtain ⟨a, b⟩ := hv j hj'
    rw [u1] at b
    obtain ⟨c1, c2⟩ := (u2 j).1 a
    exact .inr ⟨c1, c2, b⟩

section
variable {F : Flags} {B : Block}

theorem invisAt_succ {i : Nat} {x : Inst} (hx : B.insts[i]? = some x) :
    invisAt F B (i + 1) = invisStep F (invisAt F B i) i x := by
  rw [invisAt]; simp [hx]

/-- Only instructions already passed are recorded. -/
theorem invisAt_bound (hd : ∀ x ∈ B.insts, ∀ r ∈ x.defs, r.isVirt = false) : ∀ i, i ≤ B.insts.length →
    (∀ r j, (r, j) ∈ (invisAt F B i).writer → j < i) ∧ (∀ j ∈ (invisAt F B i).unused, j < i) := by
  intro i
  induction i with
  | zero => intro _; simp [invisAt]
  | succ i ih =>
    intro hi
    obtain ⟨h1, h2⟩ := ih (by omega)
    obtain ⟨x, hx⟩ : ∃ x, B.insts[i]? = some x := ⟨_, List.getElem?_eq_getElem (by omega)⟩
    obtain ⟨s1, s2⟩ := invisStep_spec (F := F) (s := invisAt F B i) (i := i) (hd x (List.mem_of_getElem? hx))
    rw [invisAt_succ hx]
    constructor
    · intro r j hj
      rcases (s1 r j).1 hj with ⟨-, rfl⟩ | ⟨-, h⟩
      · omega
      · have := h1 r j h; omega
    · intro j hj
      rcases s2 j hj with ⟨rfl, -⟩ | ⟨h, -⟩
      · omega
      · have := h2 j h; omega

/-- What is not unused stays so. -/
theorem invisAt_mono (hd : ∀ x ∈ B.insts, ∀ r ∈ x.defs, r.isVirt = false) {j : Nat} : ∀ k i, j < i → i + k ≤ B.insts.length →
    j ∈ (invisAt F B (i + k)).unused → j ∈ (invisAt F B i).unused := by
  intro k
  induction k with
  | zero => intro i _ _ h; exact h
  | succ k ih =>
    intro i hj hi h
    apply ih i hj (by omega)
    obtain ⟨x, hx⟩ : ∃ x, B.insts[i + k]? = some x := ⟨_, List.getElem?_eq_getElem (by omega)⟩
    rw [← Nat.add_assoc, invisAt_succ hx] at h
    rcases (invisStep_spec (hd x (List.mem_of_getElem? hx))).2 j h with ⟨rfl, -⟩ | ⟨h, -⟩
    · omega
    · exact h

theorem invisible_sub (hd : ∀ x ∈ B.insts, ∀ r ∈ x.defs, r.isVirt = false) {j i : Nat} (h : j ∈ invisible F B)
    (hj : j < i) (hi : i ≤ B.insts.length) : j ∈ (invisAt F B i).unused := by
  have : j ∈ (invisAt F B B.insts.length).unused := by
    unfold invisible InvisSt.visitAll at h
    exact (List.mem_filter.1 h).1
  obtain ⟨k, hk⟩ := Nat.exists_eq_add_of_le hi
  rw [hk] at this
  exact invisAt_mono hd k i hj (by omega) this

/-- The writers recorded at the end of the block are not removed. -/
theorem invisible_last {r : Reg} {j : Nat} (h : (r, j) ∈ (invisAt F B B.insts.length).writer) : j ∉ invisible F B := by
  intro hj
  unfold invisible InvisSt.visitAll at hj
  have := (List.mem_filter.1 hj).2
  simp only [Bool.not_eq_true', List.any_eq_false, decide_eq_true_eq] at this
  exact this _ h rfl

variable {Val Mem : Type} {T : Target} {I : Interp Val Mem} {f : Func}

/-- Removing instructions of allocated code all of whose results are overwritten in the same block before anything
    reads them cannot be seen. After register allocation every operand is a physical register; the registers
    read without being named are read by calls, branches and at the end of the block (returns). -/
theorem removeInvisibleInsts_same (hF : F.Ok I) (ht : f.Typed F)
    (hp : ∀ B ∈ f, ∀ x ∈ B.insts, ∀ r ∈ x.defs, r.isVirt = false)
    (ha : ∀ B ∈ f, ∀ i x, B.insts[i]? = some x → x.args ≠ [] →
      F.branch x.op = true ∨ x.call.isSome = true ∨ (i + 1 = B.insts.length ∧ x.defs = [])) :
    Same T I F.vis f (removeInvisibleInsts F f) := by
  unfold removeInvisibleInsts
  have hside : ∀ (B : Block) (i : Nat) (x : Inst), (∀ x ∈ B.insts, ∀ r ∈ x.defs, r.isVirt = false) →
      B.insts[i]? = some x → i ∈ invisible F B → F.side x.op = false := by
    intro B i x hd hx hi
    have hlt : i < B.insts.length := (List.getElem?_eq_some_iff.1 hx).1
    have := invisible_sub hd hi (Nat.lt_succ_self i) hlt
    rw [invisAt_succ hx] at this
    rcases (invisStep_spec (hd x (List.mem_of_getElem? hx))).2 i this with ⟨-, h⟩ | ⟨h, -⟩
    · exact h
    · have := (invisAt_bound hd i (by omega)).2 i h; omega
  apply rewrite_same _ (fun b i σ σ' => ∀ B, f[b]? = some B → ∀ r,
    (∀ j, (r, j) ∈ (invisAt F B i).writer → j ∉ invisible F B) → σ r = σ' r)
  · intro σ B _ r _; rfl
  · exact ht.last
  · intro b B i x hB hx he
    simp only [hB]
    split
    · rename_i hi
      have := hside B i x (hp B (List.mem_of_getElem? hB)) hx hi
      rw [hF.sub _ he] at this; cases this
    · rfl
  · intro b B i x hB hx σ σ' hR
    have hR := hR B hB
    have hBm := List.mem_of_getElem? hB
    have hd := hp B hBm
    have hty := ht.inst B hBm x (List.mem_of_getElem? hx)
    have hlt : i < B.insts.length := (List.getElem?_eq_some_iff.1 hx).1
    obtain ⟨w1, w2⟩ := invisStep_spec (F := F) (s := invisAt F B i) (i := i) (hd x (List.mem_of_getElem? hx))
    rw [← invisAt_succ hx] at w1 w2
    have hbd := invisAt_bound (F := F) hd i (by omega)
    -- a writer recorded before that is removed later is unused after this instruction too
    have hlater : ∀ r j, (r, j) ∈ (invisAt F B i).writer → j ∈ invisible F B →
        (∀ r ∈ x.uses, (r, j) ∉ (invisAt F B i).writer) ∧
        ((F.branch x.op = true ∨ x.call.isSome = true) → ∀ r, (r, j) ∉ (invisAt F B i).writer) := by
      intro r j h1 h2
      have hji := hbd.1 r j h1
      rcases w2 j (invisible_sub hd h2 (by omega) hlt) with ⟨rfl, -⟩ | ⟨-, h⟩
      · omega
      · exact h
    have hrd : x.reads σ = x.reads σ' := by
      unfold Inst.reads
      congr 1
      · exact List.map_congr_left fun u hu => hR u fun j hj hj' => (hlater u j hj hj').1 u hu hj
      · apply List.map_congr_left
        intro p hpm
        apply hR
        intro j hj hj'
        rcases ha B hBm i x hx (List.ne_nil_of_mem hpm) with h | h | ⟨h, h'⟩
        · exact (hlater _ j hj hj').2 (.inl h) _ hj
        · exact (hlater _ j hj hj').2 (.inr h) _ hj
        · have : ((.ph p : Reg), j) ∈ (invisAt F B (i + 1)).writer := (w1 _ _).2 (.inr ⟨by simp [h'], hj⟩)
          rw [h] at this
          exact invisible_last this hj'
    -- agreement after the instruction
    have haft : ∀ (ρ ρ' : Reg → Val) (k : Nat), (∀ r, (∀ j, (r, j) ∈ (invisAt F B (i + 1)).writer → j ∉ invisible F B) → ρ r = ρ' r) →
        After f b i k fun b i => ∀ B, f[b]? = some B → ∀ r,
          (∀ j, (r, j) ∈ (invisAt F B i).writer → j ∉ invisible F B) → ρ r = ρ' r := by
      intro ρ ρ' k h B1 hB1
      rw [hB] at hB1; cases hB1
      refine ⟨fun _ B2 hB2 r hr => ?_, fun he b' _ B2 _ r _ => ?_⟩
      · rw [hB] at hB2; cases hB2
        exact h r hr
      · apply h
        intro j hj
        rw [he] at hj
        exact invisible_last hj
    simp only [hB]
    by_cases hi : i ∈ invisible F B
    · rw [if_pos hi]
      have hs := hside B i x hd hx hi
      have hv : F.vis x.op = false := by
        cases hv : F.vis x.op with
        | false => rfl
        | true => rw [hF.sub _ hv] at hs; cases hs
      obtain ⟨g, hg⟩ := hF.fn _ hv
      have hb := hty.bare hv
      refine ⟨hv, fun m k => ⟨_, (quiet_eff hg rfl hb).2 ⟨rfl, rfl⟩⟩, ?_⟩
      intro m ρ m' k hE
      obtain ⟨-, h2⟩ := (quiet_eff hg rfl hb).1 hE
      refine ⟨h2, haft _ _ _ ?_⟩
      intro r hr
      have hrd : r ∉ x.defs := fun hm => hr i ((w1 r i).2 (.inl ⟨hm, rfl⟩)) hi
      rw [eff_frame hE (by rw [dsts_of_bare hb.2.1]; exact hrd)]
      exact hR r fun j hj => hr j ((w1 r j).2 (.inr ⟨hrd, hj⟩))
    · rw [if_neg hi]
      have hkeep : ∀ r, (∀ j, (r, j) ∈ (invisAt F B (i + 1)).writer → j ∉ invisible F B) → σ r = σ' r ∨ r ∈ x.dsts T := by
        intro r hr
        by_cases hm : r ∈ x.defs
        · exact .inr (by unfold Inst.dsts; exact List.mem_append_right _ hm)
        · exact .inl (hR r fun j hj => hr j ((w1 r j).2 (.inr ⟨hm, hj⟩)))
      refine ⟨rfl, fun _ => rfl, ?_, ?_⟩
      · intro m ρ m' k hE
        obtain ⟨ρ', e1, e2⟩ := eff_same_reads hrd hE
        exact ⟨ρ', e1, haft _ _ _ fun r hr => e2 r (hkeep r hr)⟩
      · intro m ρ' m' k hE
        obtain ⟨ρ, e1, e2⟩ := eff_same_reads hrd.symm hE
        refine ⟨ρ, e1, haft _ _ _ fun r hr => (e2 r ?_).symm⟩
        rcases hkeep r hr with h | h
        · exact .inl h.symm
        · exact .inr h

end

end Cmmc.Mir
