import Verif.SSA.M2Ref
import Verif.SSA.M2Term
import Verif.SSA.GvnProps
/-!
# ScalarMem2Reg: the theorem (C67)
-/
namespace Cmmc.SSA

section
variable {Op C : Type}

/-- How an instruction can use the address `a` of a scalar stack slot, as the types of the operands allow: the only operand of a load, the first
operand of a cast, the address or the value of a store, one of the two values of a select, the address of an atomic add, any argument of a call. In particular no
`getelementptr` starts from a scalar slot: `filterPromotable` would not notice it. -/
def fits (kind : Op → Kind) (a : Nat) (i : Inst Op C) : Prop :=
  Opd.inst a ∈ i.args →
    match kind i.op with
    | .load => i.args = [.inst a]
    | .store => i.args.length = 2
    | .select => i.args.length = 3 ∧ i.args[0]? ≠ some (.inst a)
    | .cast => i.args[0]? = some (.inst a)
    | .atomicAdd => i.args.length = 2 ∧ i.args[1]? ≠ some (.inst a)
    | .call => True
    | .alloca _ | .other => False

/-- the scalar slots of the function are used as their types allow -/
def SlotUses (kind : Op → Kind) (F : Func Op C) : Prop := ∀ a ∈ leading kind F, ∀ b B, F.blk b = some B → ∀ i ∈ B.body, fits kind a i

/-- two allocations do not stand for the same slot -/
def SlotsDiffer {K : Type} (slot : Op → Option K) (F : Func Op C) : Prop :=
  ∀ b B, F.blk b = some B → ∀ i ∈ B.body, ∀ b' B', F.blk b' = some B' → ∀ i' ∈ B'.body, ∀ k, slot i.op = some k → slot i'.op = some k → i'.id = i.id

theorem leading_spec {kind : Op → Kind} {F : Func Op C} {a : Nat} (h : a ∈ leading kind F) :
    ∃ (B : Block Op C) (j : Nat) (i : Inst Op C), F.blk F.entry = some B ∧ B.body[j]? = some i ∧ i.id = a ∧ kind i.op = .alloca true ∧
      ∀ j' < j, ∀ i', B.body[j']? = some i' → ∃ s, kind i'.op = .alloca s := by
  have isA : ∀ k : Kind, k.isAlloca = true → ∃ s, k = .alloca s := by intro k; cases k <;> simp [Kind.isAlloca]
  unfold leading at h
  split at h
  · cases h
  · rename_i B hB
    obtain ⟨i, hi, rfl⟩ := List.mem_map.mp h
    have hk := of_decide_eq_true (List.mem_filter.mp hi).2
    have hi := (List.mem_filter.mp hi).1
    obtain ⟨j, hj⟩ := List.getElem?_of_mem hi
    have pre : ∀ (l : List (Inst Op C)) (j : Nat) (i : Inst Op C), (l.takeWhile (fun i => (kind i.op).isAlloca))[j]? = some i →
        l[j]? = some i ∧ (kind i.op).isAlloca = true ∧ ∀ j' < j, ∀ i', l[j']? = some i' → (kind i'.op).isAlloca = true := by
      intro l
      induction l with
      | nil => intro j i h; simp at h
      | cons x l ih =>
        intro j i h
        rw [List.takeWhile_cons] at h
        split at h
        · rename_i hx
          cases j with
          | zero => simp only [List.getElem?_cons_zero, Option.some.injEq] at h ⊢; subst h; exact ⟨rfl, hx, fun _ h => absurd h (Nat.not_lt_zero _)⟩
          | succ j =>
            rw [List.getElem?_cons_succ] at h
            obtain ⟨h1, h2, h3⟩ := ih j i h
            refine ⟨by rw [List.getElem?_cons_succ]; exact h1, h2, fun j' hj' i' hi' => ?_⟩
            cases j' with
            | zero => simp only [List.getElem?_cons_zero, Option.some.injEq] at hi'; subst hi'; exact hx
            | succ j' => exact h3 j' (by omega) i' (by simpa using hi')
        · simp at h
    obtain ⟨h1, h2, h3⟩ := pre _ _ _ hj
    exact ⟨B, j, i, hB, h1, rfl, hk, fun j' hj' i' hi' => isA _ (h3 j' hj' i' hi')⟩

theorem promotable_private [DecidableEq C] {K : Type} {kind : Op → Kind} {slot : Op → Option K} {F : Func Op C} (hL : F.Listed) (hu : SlotUses kind F) (hd : SlotsDiffer slot F) :
    Private kind slot F (promotable kind F) := by
  have keep : ∀ a ∈ promotable kind F, a ∈ leading kind F ∧ ∀ b B, F.blk b = some B → keepsSlot kind a B = true := by
    intro a ha
    obtain ⟨h1, h2⟩ := List.mem_filter.mp ha
    exact ⟨h1, fun b B hB => List.all_eq_true.mp h2 B (Func.mem_blocks.mpr ⟨b, hL b B hB, hB⟩)⟩
  refine ⟨fun a ha => leading_spec (keep a ha).1, ?_, ?_, fun b B i b' B' i' hB hi _ hB' hi' k h1 h2 => hd b B hB i hi b' B' hB' i' hi' k h1 h2⟩
  · intro a ha b B p hB hp
    have := (keep a ha).2 b B hB
    unfold keepsSlot at this
    rw [Bool.and_eq_true, List.all_eq_true, List.all_eq_true] at this
    simpa using this.1 p hp
  · intro a ha b B i hB hi hm
    have h1 := (keep a ha).2 b B hB
    unfold keepsSlot at h1
    rw [Bool.and_eq_true, List.all_eq_true, List.all_eq_true] at h1
    have h1 : Opd.inst a ∉ erased kind i := by simpa using h1.2 i hi
    have h2 := hu a (keep a ha).1 b B hB i hi hm
    unfold erased at h1
    have two : ∀ (l : List (Opd C)) (o : Opd C), o ∈ l → l.length = 2 → l[0]? = some o ∨ l[1]? = some o := by
      intro l o h e; match l, e with | [x, y], _ => simp at h ⊢; tauto
    have three : ∀ (l : List (Opd C)) (o : Opd C), o ∈ l → l.length = 3 → l[0]? = some o ∨ l[1]? = some o ∨ l[2]? = some o := by
      intro l o h e; match l, e with | [x, y, z], _ => simp at h ⊢; tauto
    cases hk : kind i.op with
    | load =>
      rw [hk] at h2
      simp only at h2
      refine ⟨.inl rfl, by rw [h2]; rfl, fun j hj => ?_⟩
      rw [h2]
      cases j with
      | zero => omega
      | succ j => simp
    | store =>
      rw [hk] at h1 h2
      simp only [Option.mem_toList, Option.mem_def] at h1 h2
      have h0 := (two _ _ hm h2).resolve_right h1
      refine ⟨.inr ⟨rfl, ?_⟩, h0, fun j hj => ?_⟩
      · exact ⟨i.args[1]'(by omega), by simp⟩
      · cases j with
        | zero => omega
        | succ j =>
          cases j with
          | zero => exact h1
          | succ j => rw [List.getElem?_eq_none (by omega)]; simp
    | select =>
      rw [hk] at h1 h2
      simp only [List.mem_append, Option.mem_toList, Option.mem_def] at h1 h2
      rcases three _ _ hm h2.1 with h | h | h
      · exact absurd h h2.2
      · exact absurd (.inl h) h1
      · exact absurd (.inr h) h1
    | cast =>
      rw [hk] at h1 h2
      simp only [Option.mem_toList, Option.mem_def] at h1 h2
      exact absurd h2 h1
    | call => rw [hk] at h1; exact absurd hm h1
    | atomicAdd =>
      rw [hk] at h1 h2
      simp only [Option.mem_toList, Option.mem_def] at h1 h2
      rcases two _ _ hm h2.1 with h | h
      · exact absurd h h1
      · exact absurd h h2.2
    | alloca s => rw [hk] at h2; exact absurd h2 id
    | other => rw [hk] at h2; exact absurd h2 id

theorem fresh_lt {F : Func Op C} (hL : F.Listed) {x d : Nat} (h : DefIn F x d) : x < F.fresh := by
  have hm := (mem_allIds hL).mpr ⟨d, h⟩
  have := (foldl_max_ge F.allIds 0).2 _ hm
  unfold Func.fresh
  omega

end

/-- **C67.** `ScalarMem2Reg` gives a result on every function in SSA form whose scalar slots are used as their types allow, in whatever order
the blocks are visited and the users of a value are listed; the result is in SSA form again, and every behaviour of the result - return value,
final memory, output - is a behaviour of the function before the pass, unless that one has undefined behaviour. -/
theorem C67_scalarMem2Reg {L : Lang} [DecidableEq L.C] {kind : L.Op → Kind} (S : Slots L kind) {F : L.F} (P : Proper F) (hl : AllLive F) (hu : SlotUses kind F)
    (hd : SlotsDiffer S.slot F) (ord : List Nat → List Nat) (ho : ∀ l, (ord l).Perm l) (cord : Nat → List Nat → List Nat) (hc : ∀ b l, (cord b l).Perm l)
    (u : Nat → L.C) (bs : List Nat) (hbs : bs.Perm F.order) :
    ∃ G, scalarMem2Reg kind ord cord u bs F = some G ∧ Refines L F G ∧ Proper G ∧ AllLive G := by
  have V := promotable_private (slot := S.slot) P.listed hu hd
  unfold scalarMem2Reg
  split
  · exact ⟨F, rfl, Refines.refl F, P, hl⟩
  · rename_i vars _
    obtain ⟨h1, h2, h3, _, _⟩ := C32_cfg (F := F) (ord := cord) hc P.nodup P.listed
    have hs : ∀ b x, x ∈ (F.cfg cord).succ b ↔ Edge F b x := h1
    have hg : ∀ b q, q ∈ (F.cfg cord).pred b ↔ Edge F q b := h2
    have ho' : ∀ l y, y ∈ ord l → y ∈ l := fun l y h => (ho l).mem_iff.mp h
    have hnew : ∀ x d, DefIn F x d → x < F.fresh := fun x d h => fresh_lt P.listed h
    have hbn : bs.Nodup := hbs.nodup_iff.mpr P.nodup
    obtain ⟨G, hG⟩ := promote_total (u := u) P hl V ho' hg (fun b => (h3 b).2) (Nat.le_refl _) (fun b => (h3 b).1) hs hbn (fun b h => hbs.mem_iff.mp h) hnew
    obtain ⟨Φ, E, c⟩ := promote_ok P hl V ho' hg (fun b => (h3 b).2) (fun b => (h3 b).1) hs hbn (fun b => hbs.mem_iff) hnew hG
    exact ⟨G, hG, c.refines S V P hl, c.proper P hl, c.allLive P hl⟩

end Cmmc.SSA
