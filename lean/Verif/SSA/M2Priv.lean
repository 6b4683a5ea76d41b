import Verif.SSA.M2Step
/-!
# The stack slots that ScalarMem2Reg promotes
-/
namespace Cmmc.SSA

/-- the promoted slots: allocated in front of the entry block, used as the address of loads and stores only, distinct -/
structure Private {Op C K : Type} (kind : Op → Kind) (slot : Op → Option K) (F : Func Op C) (vars : List Nat) : Prop where
  lead : ∀ a ∈ vars, ∃ (B : Block Op C) (j : Nat) (i : Inst Op C), F.blk F.entry = some B ∧ B.body[j]? = some i ∧ i.id = a ∧ kind i.op = .alloca true ∧
    ∀ j' < j, ∀ i', B.body[j']? = some i' → ∃ s, kind i'.op = .alloca s
  phi : ∀ a ∈ vars, ∀ b (B : Block Op C) (p : Phi C), F.blk b = some B → p ∈ B.phis → Opd.inst a ∉ p.ops
  use : ∀ a ∈ vars, ∀ b (B : Block Op C) (i : Inst Op C), F.blk b = some B → i ∈ B.body → Opd.inst a ∈ i.args →
    (kind i.op = .load ∨ kind i.op = .store ∧ ∃ v, i.args[1]? = some v) ∧ i.args[0]? = some (.inst a) ∧ ∀ j, 0 < j → i.args[j]? ≠ some (.inst a)
  distinct : ∀ b (B : Block Op C) (i : Inst Op C) b' (B' : Block Op C) (i' : Inst Op C), F.blk b = some B → i ∈ B.body → i.id ∈ vars → F.blk b' = some B' → i' ∈ B'.body → ∀ k, slot i.op = some k → slot i'.op = some k →
    i'.id = i.id

section
variable {Op C K : Type} {kind : Op → Kind} {slot : Op → Option K} {F : Func Op C} {vars : List Nat} {Φ : List (Nat × Nat × Nat)} {E : List (Nat × Opd C)} {G : Func Op C}
  {opn : Nat → Prop}

theorem Private.avail (V : Private kind slot F vars) (P : Proper F) {a b : Nat} (ha : a ∈ vars) (hb : Live F b) (hne : b ≠ F.entry) (j : Nat) : Avail F b j a := by
  obtain ⟨B, j', i, hB, hi, rfl, _⟩ := V.lead a ha
  refine ⟨F.entry, ⟨B, hB, List.mem_append.mpr (.inr (List.mem_map.mpr ⟨i, List.mem_of_getElem? hi, rfl⟩))⟩, ?_, fun e => absurd e.symm hne⟩
  intro p hp
  have : ∀ {s t p}, Dom.Path (Edge F) s t p → s ∈ p := by
    intro s t p h; cases h <;> simp
  exact this hp

/-- the content of a slot is talked about only after its allocation -/
theorem Val.slotAvail (c : Cert kind F vars Φ E G opn) (V : Private kind slot F vars) (P : Proper F) (hl : AllLive F) {a b j : Nat} {o : Opd C} (h : Val kind F Φ E a b j o) (ha : a ∈ vars) :
    Avail F b j a := by
  induction h with
  | @store a b j B i o h1 h2 h3 h4 h5 => exact avail_mono (P.use_avail h1 (hl _ _ h1) h2 (List.mem_of_getElem? h4)) (Nat.le_succ _)
  | @alloca a b j B i _ h1 h2 h3 =>
    refine ⟨b, ⟨B, h1, List.mem_append.mpr (.inr (List.mem_map.mpr ⟨i, List.mem_of_getElem? h2, h3⟩))⟩, Dom.dominates_refl, fun _ => ⟨B, h1, .inr ?_⟩⟩
    rw [List.take_succ, h2, List.map_append, List.mem_append]
    simp [h3]
  | keep _ _ _ _ ih => exact avail_mono (ih ha) (Nat.le_succ _)
  | @phi x a b h =>
    obtain ⟨h1, ⟨B, hB⟩, _⟩ := c.new _ _ _ h
    exact V.avail P ha (hl _ _ hB) h1 0
  | @single a b q Q o h1 h2 h3 _ ih =>
    have hb : Live F b := (hl q Q h3).edge ((h1 q).mpr rfl)
    exact V.avail P ha hb h2 0
  | repl _ _ ih => exact ih ha

/-- an instruction in a block is at one place -/
theorem Proper.index {Op C : Type} {F : Func Op C} (P : Proper F) {b j j' : Nat} {B : Block Op C} (hB : F.blk b = some B) {i i' : Inst Op C} (hi : B.body[j]? = some i)
    (hi' : B.body[j']? = some i') (e : i'.id = i.id) : j' = j := by
  have hids := P.block_ids hB
  unfold Block.ids at hids
  rw [List.nodup_append] at hids
  obtain ⟨h1, h2⟩ := List.getElem?_eq_some_iff.mp hi
  obtain ⟨h1', h2'⟩ := List.getElem?_eq_some_iff.mp hi'
  refine (List.Nodup.getElem_inj_iff hids.2.1 (hi := by rw [List.length_map]; exact h1') (hj := by rw [List.length_map]; exact h1)).mp ?_
  rw [List.getElem_map, List.getElem_map, h2, h2', e]

theorem Inst.defIn {Op C : Type} {F : Func Op C} {b j : Nat} {B : Block Op C} (hB : F.blk b = some B) {i : Inst Op C} (hi : B.body[j]? = some i) : DefIn F i.id b :=
  ⟨B, hB, List.mem_append.mpr (.inr (List.mem_map.mpr ⟨i, List.mem_of_getElem? hi, rfl⟩))⟩

/-- the phis of a block of `G` are different -/
theorem Cert.phiIds (c : Cert kind F vars Φ E G opn) (P : Proper F) {b : Nat} {B' : Block Op C} (hB' : G.blk b = some B') : (B'.phis.map Phi.id).Nodup := by
  cases hF : F.blk b with
  | none => rw [c.none_ b hF] at hB'; cases hB'
  | some B =>
    obtain ⟨B1, hB1, hr⟩ := c.some_ b B hF
    rw [hB1] at hB'
    cases hB'
    obtain ⟨N, ps, e1, e2, e3, _⟩ := hr.phis
    have hps : ps.map Phi.id = B.phis.map Phi.id := by
      clear e1 e3
      generalize B.phis = qs at e2
      induction e2 with
      | nil => rfl
      | cons h _ ih => rw [List.map_cons, List.map_cons, ih, h.1]
    rw [e1, List.map_append, e3, hps, List.nodup_append]
    refine ⟨?_, ?_, ?_⟩
    · unfold newAt
      exact c.nodup.sublist (List.filter_sublist.map _)
    · have := P.block_ids hF
      unfold Block.ids at this
      exact (List.nodup_append.mp this).1
    · intro x hx y hy e
      subst e
      obtain ⟨a, ha⟩ := mem_newAt.mp hx
      exact (c.new _ _ _ ha).2.2.2 b ⟨B, hF, List.mem_append.mpr (.inl hy)⟩

end
end Cmmc.SSA
