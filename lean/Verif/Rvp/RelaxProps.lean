import Verif.Rvp.Relax
import Verif.Rvp.PeepProps

/-!
# `relaxWInst` keeps what a function does
-/

namespace Cmmc.Rvp

open Cmmc.Isel

/-! ## Well-formed input -/

def R.isV : R → Bool
  | .v _ => true
  | _ => false

/-- Virtual registers are written before they are read, within a block: `D` are the ones written so far, `A l` the ones
written whenever block `l` begins, `nx` the block after. -/
def Flow (A : ℕ → R → Prop) (nx : Option ℕ) : (R → Prop) → List PI → Prop
  | D, [] => ∀ n, nx = some n → ∀ r, A n r → D r
  | D, .br c a b l :: is => (∀ r ∈ (PI.br c a b l).uses, r.isV = true → D r) ∧ (∀ r, A l r → D r) ∧ Flow A nx D is
  | D, .jump l :: _ => ∀ r, A l r → D r
  | D, .jr a :: _ => (a.isV = true → D a) ∧ ∀ l r, A l r → D r
  | _, .ret :: _ => True
  | D, i :: is => (∀ r ∈ i.uses, r.isV = true → D r) ∧ Flow A nx (fun r => D r ∨ i.dst = some r) is

/-- The same for the blocks of a function. -/
def FlowFn (A : ℕ → R → Prop) : Fn → Prop
  | [] => True
  | B :: f => Flow A (f.head?.map Prod.fst) (A B.1) B.2 ∧ FlowFn A f

/-- Every virtual register is written before it is read, on every path from the entry. -/
def Strict (f : Fn) : Prop :=
  ∃ A : ℕ → R → Prop, FlowFn A f ∧ ∀ B, f.head? = some B → ∀ r, ¬ A B.1 r

/-- The registers an instruction reads with all 64 bits although `isWUser` accepts it: the second operand of `ADD_UW` and
the address of a store. -/
def PI.fullUses : PI → List R
  | .op2 .addUw _ _ b => [b]
  | .store _ _ a _ => a.uses
  | _ => []

/-- What the function must be like: immediates are encodable, no logical shift right by exactly 32, virtual registers are
written before they are read, 32-bit instructions that may be relaxed write virtual registers and read no physical ones, and
none of the registers they write is an address of a store or a second operand of `ADD_UW`. -/
structure RelaxOk (f : Fn) : Prop where
  enc : ∀ B ∈ f, ∀ i ∈ B.2, i.enc = true
  srl : ∀ B ∈ f, ∀ i ∈ B.2, i.srl32 = false
  strict : Strict f
  virt : ∀ B ∈ f, ∀ i ∈ B.2, (relaxI i).isSome = true → ∃ n, i.dst = some (.v n)
  phys : ∀ B ∈ f, ∀ i ∈ B.2, (relaxI i).isSome = true → ∀ n, .p n ∉ i.uses
  full : ∀ B ∈ f, ∀ i ∈ B.2, (relaxI i).isSome = true → ∀ C ∈ f, ∀ j ∈ C.2, ∀ r ∈ j.fullUses, i.dst ≠ some r

/-! ## What the loop ensures -/

/-- The relaxed places. -/
structure SOk (f : Fn) (S : List Pos) : Prop where
  int : ∀ p ∈ S, ∃ i, f.inst p = some i ∧ (relaxI i).isSome = true
  use : ∀ p ∈ S, ∀ i, f.inst p = some i → i.isSraiw = false → ∀ u ∈ usersOf f p,
    (∃ j, f.inst u = some j ∧ isWUser j = true) ∧ (u ∈ S → u = p)
  prov : ∀ p ∈ S, ∀ i, f.inst p = some i → allWOperand f i = true

theorem relaxI_notW {i j : PI} (h : relaxI i = some j) : isWUser j = false ∧ relaxI j = none := by
  unfold relaxI at h
  split at h <;> cases h <;> exact ⟨rfl, rfl⟩

theorem mem_places {f : Fn} {p : Pos} {i : PI} (h : f.inst p = some i) : p ∈ f.places := by
  unfold Fn.inst at h
  unfold Fn.places
  obtain ⟨b, k⟩ := p
  cases hb : f[b]? with
  | none => rw [hb] at h; cases h
  | some B =>
    rw [hb] at h
    simp only [Option.bind_some] at h
    simp only [List.mem_flatMap, List.mem_range, List.mem_map, Prod.mk.injEq]
    refine ⟨b, (List.getElem?_eq_some_iff.mp hb).1, k, ?_, rfl, rfl⟩
    rw [hb]
    simp only [Option.map_some, Option.getD_some]
    exact (List.getElem?_eq_some_iff.mp h).1

/-- The loop invariant. -/
structure LOk (f : Fn) (st : RelSt) : Prop where
  ok : SOk f st.done
  no : ∀ p ∈ noRelax f, p ∈ st.no
  blk : ∀ p ∈ st.done, ∀ i, f.inst p = some i → i.isSraiw = false → ∀ u ∈ usersOf f p, u ∈ st.no

theorem relaxStep_ok {f : Fn} {st : RelSt} (h : LOk f st) (p : Pos) : LOk f (relaxStep f st p) := by
  unfold relaxStep
  split
  · exact h
  · rename_i i hi
    split
    · exact h
    · rename_i hc
      rw [not_or] at hc
      split
      · rename_i hall
        -- the instruction has not been changed yet
        have hnp : p ∉ st.done := by
          intro hp
          unfold curI at hi
          obtain ⟨j, hj, hr⟩ := h.ok.int p hp
          rw [hj] at hi
          simp only [Option.map_some, if_pos hp, Option.some.injEq] at hi
          obtain ⟨k, hk⟩ := Option.isSome_iff_exists.mp hr
          rw [hk, Option.getD_some] at hi
          subst hi
          exact hc.2 (relaxI_notW hk).2
        have hfi : f.inst p = some i := by
          unfold curI at hi
          cases hf : f.inst p with
          | none => rw [hf] at hi; cases hi
          | some j => rw [hf] at hi; simpa [hnp] using hi
        have hus : ∀ u ∈ usersOf f p, (∃ j, f.inst u = some j ∧ isWUser j = true) ∧ u ∉ st.done := by
          intro u hu
          have := List.all_eq_true.mp hall u hu
          unfold curI at this
          cases hf : f.inst u with
          | none => rw [hf] at this; cases this
          | some j =>
            rw [hf] at this
            simp only [Option.map_some, Option.any_some] at this
            by_cases hd : u ∈ st.done
            · rw [if_pos hd] at this
              obtain ⟨j', hj', hr⟩ := h.ok.int u hd
              rw [hf] at hj'
              cases hj'
              obtain ⟨k, hk⟩ := Option.isSome_iff_exists.mp hr
              rw [hk, Option.getD_some, (relaxI_notW hk).1] at this
              cases this
            · rw [if_neg hd] at this
              exact ⟨⟨j, rfl, this⟩, hd⟩
        refine ⟨⟨?_, ?_, ?_⟩, ?_, ?_⟩
        · intro q hq
          rcases List.mem_append.mp hq with hq | hq
          · exact h.ok.int q hq
          · rw [List.mem_singleton.mp hq]
            exact ⟨i, hfi, Option.isSome_iff_ne_none.mpr hc.2⟩
        · intro q hq j hj hs u hu
          rcases List.mem_append.mp hq with hq | hq
          · obtain ⟨h1, h2⟩ := h.ok.use q hq j hj hs u hu
            refine ⟨h1, fun hus' => ?_⟩
            rcases List.mem_append.mp hus' with hu' | hu'
            · exact h2 hu'
            · rw [List.mem_singleton.mp hu'] at hu
              exact absurd (h.blk q hq j hj hs p hu) hc.1
          · rw [List.mem_singleton.mp hq] at hu
            obtain ⟨h1, h2⟩ := hus u hu
            refine ⟨h1, fun hus' => ?_⟩
            rcases List.mem_append.mp hus' with hu' | hu'
            · exact absurd hu' h2
            · rw [List.mem_singleton.mp hu', List.mem_singleton.mp hq]
        · intro q hq j hj
          rcases List.mem_append.mp hq with hq | hq
          · exact h.ok.prov q hq j hj
          · rw [List.mem_singleton.mp hq, hfi] at hj
            cases hj
            by_contra hna
            refine hc.1 (h.no p ?_)
            unfold noRelax
            refine List.mem_filter.mpr ⟨mem_places hfi, ?_⟩
            rw [hfi]
            simpa using hna
        · intro q hq
          simp only
          split
          · exact h.no q hq
          · exact List.mem_append_left _ (h.no q hq)
        · intro q hq j hj hs u hu
          simp only
          rcases List.mem_append.mp hq with hq | hq
          · split
            · exact h.blk q hq j hj hs u hu
            · exact List.mem_append_left _ (h.blk q hq j hj hs u hu)
          · rw [List.mem_singleton.mp hq] at hj hu
            rw [hfi] at hj
            cases hj
            rw [if_neg (by rw [hs]; simp)]
            exact List.mem_append_right _ hu
      · exact h

theorem relaxLoop_ok (f : Fn) (ord : List Pos) :
    SOk f (ord.foldl (relaxStep f) { done := [], no := noRelax f }).done := by
  have : LOk f (ord.foldl (relaxStep f) { done := [], no := noRelax f }) := by
    have h0 : LOk f { done := [], no := noRelax f } :=
      ⟨⟨fun _ h => (by cases h), fun _ h => (by cases h), fun _ h => (by cases h)⟩, fun _ h => h, fun _ h => (by cases h)⟩
    generalize ({ done := [], no := noRelax f } : RelSt) = st at h0 ⊢
    induction ord generalizing st with
    | nil => exact h0
    | cons p ord ih => exact ih _ (relaxStep_ok h0 p)
  exact this.ok

end Cmmc.Rvp
