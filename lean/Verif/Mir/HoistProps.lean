import Verif.Mir.SsaPropProps

/-!
# Moving constants to the entry block cannot be seen
-/

namespace Cmmc.Mir

section
variable {Val Mem : Type} {T : Target} {I : Interp Val Mem} {F : Flags} {f : Func}

/-- The positions are those of constants loaded into registers written nowhere else, outside the entry block. -/
def SelOk (F : Flags) (f : Func) (sel : List Pos) : Prop :=
  ∀ p ∈ sel, p.1 ≠ 0 ∧ ∃ x v, f.at p = some x ∧ F.const x.op = true ∧ x.defs = [.vr v] ∧ defCount f (.vr v) ≤ 1

theorem hoisted_ok {freq : Nat → Nat} {thr maxCount : Nat} : SelOk F f (hoisted F f freq thr maxCount) := by
  intro p hp
  have hp := (List.mem_mergeSort.1 (List.mem_of_mem_take hp))
  unfold hoistable at hp
  obtain ⟨⟨p', x⟩, h1, h2⟩ := List.mem_filterMap.1 hp
  simp only at h2
  split at h2
  · rename_i hc
    split at h2
    · rename_i d hd
      split at h2
      · rename_i hv
        cases h2
        match d, hv.1 with
        | .vr v, _ => exact ⟨hc.1, x, v, mem_all.1 h1, hc.2.2, hd, hv.2⟩
      · cases h2
    · cases h2
  · cases h2

/-- The function with the opcode `n` where constants will be moved to. -/
def hoistPad (n k : Nat) (f : Func) : Func :=
  f.mapIdx fun b B =>
    if b = 0 then { B with insts := B.insts.dropLast ++ List.replicate k { op := n, ops := [] } ++ B.insts.getLast?.toList }
    else B

theorem dropLast_getLast {α : Type} (l : List α) : l.dropLast ++ l.getLast?.toList = l := by
  cases l using List.reverseRecOn with
  | nil => rfl
  | append_singleton l a => simp

theorem pad_erase {n k : Nat} (hn : f.NoOp n) : (hoistPad n k f).erase n = f := by
  unfold hoistPad Func.erase
  apply List.ext_getElem?
  intro b
  rw [List.getElem?_map, List.getElem?_mapIdx]
  cases hB : f[b]? with
  | none => rfl
  | some B =>
    simp only [Option.map_some]
    have hB' := hn B (List.mem_of_getElem? hB)
    have hfil : ∀ l : List Inst, (∀ x ∈ l, x ∈ B.insts) → l.filter (fun x => decide (x.op ≠ n)) = l := by
      intro l hl
      rw [List.filter_eq_self]
      intro x hx
      simpa using hB' x (hl x hx)
    split
    · simp only [List.filter_append]
      rw [hfil B.insts.dropLast fun x hx => List.mem_of_mem_dropLast hx, hfil B.insts.getLast?.toList (fun x hx => by
        rw [Option.mem_toList] at hx; exact List.mem_of_getLast? hx)]
      have : (List.replicate k ({ op := n, ops := [] } : Inst)).filter (fun x => decide (x.op ≠ n)) = [] := by
        rw [List.filter_eq_nil_iff]
        intro x hx
        rw [List.eq_of_mem_replicate hx]; simp
      rw [this, List.append_nil, dropLast_getLast]
    · rw [hfil _ fun x hx => hx]

/-- Reading a block of the padded and of the new function. -/
theorem pad_cases {n : Nat} {copyOp : Nat} {fresh : Pos → Nat} {sel : List Pos} {b i : Nat} {B B1 B' : Block}
    {x x' : Inst} (hB : f[b]? = some B) (hne : B.insts ≠ [])
    (h1 : (hoistPad n (sel.filterMap f.at).length f)[b]? = some B1)
    (h2 : (hoistAt copyOp fresh sel f)[b]? = some B') (hx : B1.insts[i]? = some x) (hx' : B'.insts[i]? = some x') :
    (b = 0 ∧ ∃ j, i = B.insts.length - 1 + j ∧ (sel.filterMap f.at)[j]? = some x' ∧ x = { op := n, ops := [] }) ∨
    (b = 0 ∧ x' = x ∧ ((i < B.insts.length - 1 ∧ B.insts[i]? = some x) ∨
      (i = B.insts.length - 1 + (sel.filterMap f.at).length ∧ B.insts[B.insts.length - 1]? = some x))) ∨
    (b ≠ 0 ∧ B1 = B ∧ (b, i) ∈ sel ∧ x' = leftCopy copyOp (fresh (b, i)) x) ∨
    (b ≠ 0 ∧ B1 = B ∧ (b, i) ∉ sel ∧ x' = x) := by
  unfold hoistPad at h1
  unfold hoistAt at h2
  rw [List.getElem?_mapIdx, hB] at h1 h2
  simp only [Option.map_some, Option.some.injEq] at h1 h2
  by_cases hb : b = 0
  · rw [if_pos hb] at h1 h2
    subst h1 h2
    simp only at hx hx'
    have hl : B.insts.dropLast.length = B.insts.length - 1 := List.length_dropLast
    have hlast : B.insts.getLast? = B.insts[B.insts.length - 1]? := List.getLast?_eq_getElem?
    rw [List.append_assoc] at hx hx'
    rcases Nat.lt_or_ge i (B.insts.length - 1) with hi | hi
    · right; left
      rw [List.getElem?_append_left (by omega)] at hx hx'
      refine ⟨hb, ?_, .inl ⟨hi, ?_⟩⟩
      · rw [hx] at hx'; exact (Option.some.inj hx').symm
      · rw [List.getElem?_dropLast, if_pos hi] at hx; exact hx
    · rw [List.getElem?_append_right (by omega), hl] at hx hx'
      rcases Nat.lt_or_ge (i - (B.insts.length - 1)) (sel.filterMap f.at).length with hj | hj
      · left
        rw [List.getElem?_append_left (by simpa using hj)] at hx
        rw [List.getElem?_append_left hj] at hx'
        refine ⟨hb, i - (B.insts.length - 1), by omega, hx', ?_⟩
        exact List.eq_of_mem_replicate (List.mem_of_getElem? hx)
      · right; left
        rw [List.getElem?_append_right (by simpa using hj), List.length_replicate] at hx
        rw [List.getElem?_append_right hj] at hx'
        have hz : i - (B.insts.length - 1) - (sel.filterMap f.at).length = 0 := by
          have := (List.getElem?_eq_some_iff.1 hx').1
          have h1 : B.insts.getLast?.toList.length ≤ 1 := by cases B.insts.getLast? <;> simp
          omega
        rw [hz] at hx hx'
        refine ⟨hb, ?_, .inr ⟨by omega, ?_⟩⟩
        · rw [hx] at hx'; exact (Option.some.inj hx').symm
        · rw [← hlast]
          cases hg : B.insts.getLast? with
          | none => rw [hg] at hx; cases hx
          | some z => rw [hg] at hx; simpa using hx
  · rw [if_neg hb] at h1 h2
    subst h1 h2
    simp only at hx'
    rw [List.getElem?_mapIdx, hx] at hx'
    simp only [Option.map_some, Option.some.injEq] at hx'
    right; right
    by_cases hs : (b, i) ∈ sel
    · rw [if_pos hs] at hx'; exact .inl ⟨hb, rfl, hs, hx'.symm⟩
    · rw [if_neg hs] at hx'; exact .inr ⟨hb, rfl, hs, hx'.symm⟩

theorem pad_shape {n : Nat} {copyOp : Nat} {fresh : Pos → Nat} {sel : List Pos} :
    Shape (hoistPad n (sel.filterMap f.at).length f) (hoistAt copyOp fresh sel f) := by
  refine ⟨by simp [hoistPad, hoistAt], ?_⟩
  intro b B B' h1 h2
  unfold hoistPad at h1
  unfold hoistAt at h2
  rw [List.getElem?_mapIdx] at h1 h2
  cases hB : f[b]? with
  | none => rw [hB] at h1; cases h1
  | some B0 =>
    rw [hB] at h1 h2
    simp only [Option.map_some, Option.some.injEq] at h1 h2
    subst h1 h2
    by_cases hb : b = 0
    · simp [hb]
    · simp [hb]

theorem live_back {v : Nat} {E : Block} (hE : f[0]? = some E) (hd : ∀ x ∈ E.insts, Reg.vr v ∉ x.defs) :
    ∀ i, i < E.insts.length → LiveAt f v 0 i → LiveAt f v 0 0 := by
  intro i
  induction i with
  | zero => intro _ h; exact h
  | succ i ih =>
    intro hi h
    have hx : E.insts[i]? = some E.insts[i] := List.getElem?_eq_getElem (by omega)
    exact ih (by omega) (.next hE hx (hd _ (List.getElem_mem _)) (by omega) h)

/-- The registers are related while the constants are being moved. -/
structure HoistRel (hF : F.Ok I) (f : Func) (fresh : Pos → Nat) (sel : List Pos) (e0 b i : Nat)
    (σ σ' : Reg → Val) : Prop where
  rest : ∀ r, (∀ p, r ≠ .vr (fresh p)) → (∀ p ∈ sel, ∀ x, f.at p = some x → r ∉ x.defs) → σ r = σ' r
  got : ∀ (j : Nat) (y : Inst) (d : Reg), (sel.filterMap f.at)[j]? = some y → y.defs = [d] → (b ≠ 0 ∨ e0 + j < i) → hF.out y.op [] = [σ' d]
  live : b ≠ 0 → ∀ p ∈ sel, ∀ x v, f.at p = some x → x.defs = [.vr v] → LiveAt f v b i → σ (.vr v) = σ' (.vr v)

/-- Moving constants (`SelOk`) to the entry block cannot be seen, if no virtual register is read before it is
    written and the registers `fresh` are new. -/
theorem hoistAt_same (hF : F.Ok I) (ht : f.Typed F) (hl : ∀ v, ¬ LiveAt f v 0 0) {copyOp : Nat}
    (hc : F.copy copyOp = true) {fresh : Pos → Nat} {sel : List Pos} (hs : SelOk F f sel)
    (hne : ∀ B ∈ f, B.insts ≠ [])
    (hfr : ∀ p, ∀ B ∈ f, ∀ x ∈ B.insts, Reg.vr (fresh p) ∉ x.uses ∧ Reg.vr (fresh p) ∉ x.defs) :
    Same T I F.vis f (hoistAt copyOp fresh sel f) := by
  cases hE : f[0]? with
  | none =>
    have : f = [] := by
      cases f with
      | nil => rfl
      | cons a l => simp at hE
    subst this; exact Same.refl
  | some E =>
  obtain ⟨n, hn⟩ := exists_noOp [f, hoistAt copyOp fresh sel f]
  have hnf : f.NoOp n := hn f (by simp)
  have hng : (hoistAt copyOp fresh sel f).NoOp n := hn _ (by simp)
  apply same_nop hnf hng
  generalize hKe : sel.filterMap f.at = K
  have hnop : NopOk (I.nop n) (fun op => F.vis op && op != n) n (hoistPad n K.length f) := by
    refine ⟨fun m vs m' k _ => by simp [Interp.nop], by simp, ?_, ?_⟩
    · intro B' hB' x hx ho
      obtain ⟨b, hb⟩ := List.mem_iff_getElem?.1 hB'
      unfold hoistPad at hb
      rw [List.getElem?_mapIdx] at hb
      cases hB : f[b]? with
      | none => rw [hB] at hb; cases hb
      | some B =>
        rw [hB] at hb
        simp only [Option.map_some, Option.some.injEq] at hb
        have hBn := hnf B (List.mem_of_getElem? hB)
        split at hb
        · subst hb
          simp only [List.mem_append, Option.mem_toList] at hx
          rcases hx with (hx | hx) | hx
          · exact absurd ho (hBn x (List.mem_of_mem_dropLast hx))
          · rw [List.eq_of_mem_replicate hx]; simp
          · exact absurd ho (hBn x (List.mem_of_getLast? hx))
        · subst hb; exact absurd ho (hBn x hx)
    · intro B' hB' x hx
      obtain ⟨b, hb⟩ := List.mem_iff_getElem?.1 hB'
      unfold hoistPad at hb
      rw [List.getElem?_mapIdx] at hb
      cases hB : f[b]? with
      | none => rw [hB] at hb; cases hb
      | some B =>
        rw [hB] at hb
        simp only [Option.map_some, Option.some.injEq] at hb
        have hBn := hnf B (List.mem_of_getElem? hB)
        split at hb
        · subst hb
          obtain ⟨y, hy⟩ : ∃ y, B.insts.getLast? = some y := by
            cases h : B.insts.getLast? with
            | none => exact absurd (List.getLast?_eq_none_iff.1 h) (hne B (List.mem_of_getElem? hB))
            | some y => exact ⟨y, rfl⟩
          simp only [hy, Option.toList_some, List.getLast?_append, List.getLast?_singleton, Option.some_or,
            Option.some.injEq] at hx
          subst hx
          exact hBn y (List.mem_of_getLast? hy)
        · subst hb; exact hBn x (List.mem_of_getLast? hx)
  have hpad := (erase_same (T := T) hnop).symm
  rw [pad_erase hnf] at hpad
  refine hpad.trans ?_
  -- facts about the moved constants
  have hK : ∀ y ∈ K, ∃ p, p ∈ sel ∧ f.at p = some y := by
    intro y hy; rw [← hKe] at hy; exact List.mem_filterMap.1 hy
  have hocc : ∀ p x r, f.at p = some x → r ∈ x.defs → ∀ q, r ≠ .vr (fresh q) := by
    rintro p x r hp hr q rfl
    obtain ⟨B, d1, d2⟩ := at_get hp
    exact (hfr q B (List.mem_of_getElem? d1) x (List.mem_of_getElem? d2)).2 hr
  -- a moved register is written only there
  have huniq : ∀ p ∈ sel, ∀ y v, f.at p = some y → y.defs = [.vr v] → ∀ q z, f.at q = some z → Reg.vr v ∈ z.defs → q = p := by
    intro p hp y v hy hv q z hz hvz
    obtain ⟨-, x, v', a1, -, a3, a4⟩ := hs p hp
    rw [hy] at a1; cases a1
    rw [hv] at a3; cases a3
    obtain ⟨B, d1, d2⟩ := at_get hy
    obtain ⟨B', e1, e2⟩ := at_get hz
    obtain ⟨u1, u2⟩ := defCount_unique a4 e1 e2 hvz d1 d2 (by rw [hv]; simp)
    exact Prod.ext u1 u2
  have hdefv : ∀ p ∈ sel, ∀ y, f.at p = some y → ∃ v, y.defs = [.vr v] ∧ F.const y.op = true := by
    intro p hp y hy
    obtain ⟨-, x, v', a1, a2, a3, -⟩ := hs p hp
    rw [hy] at a1; cases a1
    exact ⟨v', a3, a2⟩
  -- nothing in the entry block writes a moved register, so it is not live there
  have hnodef0 : ∀ p ∈ sel, ∀ y v, f.at p = some y → y.defs = [.vr v] → ∀ x ∈ E.insts, Reg.vr v ∉ x.defs := by
    intro p hp y v hy hv x hx hvx
    obtain ⟨i, hi⟩ := List.mem_iff_getElem?.1 hx
    have := huniq p hp y v hy hv (0, i) x (at_eq hE hi) hvx
    exact (hs p hp).1 (by rw [← this])
  have hnolive0 : ∀ p ∈ sel, ∀ y v, f.at p = some y → y.defs = [.vr v] → ∀ i, i < E.insts.length → ¬ LiveAt f v 0 i :=
    fun p hp y v hy hv i hi h => hl v (live_back hE (hnodef0 p hp y v hy hv) i hi h)
  have hE1 : 1 ≤ E.insts.length := List.length_pos_of_ne_nil (hne E (List.mem_of_getElem? hE))
  -- the relation after an instruction
  let e0 := E.insts.length - 1
  have hpget : ∀ b B1, (hoistPad n K.length f)[b]? = some B1 → ∃ B, f[b]? = some B ∧ B1.term = B.term ∧
      (b = 0 → B = E ∧ B1.insts.length = e0 + K.length + 1) ∧ (b ≠ 0 → B1 = B) := by
    intro b B1 h1
    unfold hoistPad at h1
    rw [List.getElem?_mapIdx] at h1
    cases hB : f[b]? with
    | none => rw [hB] at h1; cases h1
    | some B =>
      rw [hB] at h1
      simp only [Option.map_some, Option.some.injEq] at h1
      subst h1
      refine ⟨B, rfl, by split <;> rfl, ?_, ?_⟩
      · intro hb
        subst hb
        rw [hE] at hB; cases hB
        refine ⟨rfl, ?_⟩
        cases hg : E.insts.getLast? with
        | none => exact absurd (List.getLast?_eq_none_iff.1 hg) (hne E (List.mem_of_getElem? hE))
        | some z => simp [e0]; omega
      · intro hb; rw [if_neg hb]
  have hplen : (hoistPad n K.length f).length = f.length := by simp [hoistPad]
  have fin : ∀ (b i k : Nat) (B1 : Block) (ρ ρ' : Reg → Val), (hoistPad n K.length f)[b]? = some B1 →
      (∀ r, (∀ p, r ≠ .vr (fresh p)) → (∀ p ∈ sel, ∀ x, f.at p = some x → r ∉ x.defs) → ρ r = ρ' r) →
      (∀ j y d, K[j]? = some y → y.defs = [d] → (b ≠ 0 ∨ e0 + j ≤ i) → hF.out y.op [] = [ρ' d]) →
      (b ≠ 0 → ∀ p ∈ sel, ∀ x v, f.at p = some x → x.defs = [.vr v] → LiveAfter f v b i → ρ (.vr v) = ρ' (.vr v)) →
      (i + 1 < B1.insts.length → HoistRel hF f fresh sel e0 b (i + 1) ρ ρ') ∧
      (i + 1 = B1.insts.length → ∀ b', B1.term.next (hoistPad n K.length f).length b k = some b' →
        HoistRel hF f fresh sel e0 b' 0 ρ ρ') := by
    intro b i k B1 ρ ρ' h1 A Bq C
    obtain ⟨B, hB, htm, hb0, hb1⟩ := hpget b B1 h1
    refine ⟨fun hlt => ⟨A, ?_, ?_⟩, fun hend b' hb' => ⟨A, ?_, ?_⟩⟩
    · intro j y d hj hd hor
      rw [hKe] at hj
      exact Bq j y d hj hd (hor.imp_right fun h => by omega)
    · intro hb p hp x v hx hv hlv
      exact C hb p hp x v hx hv ⟨B, hB, .inl ⟨by rw [← hb1 hb]; exact hlt, hlv⟩⟩
    · intro j y d hj hd _
      rw [hKe] at hj
      apply Bq j y d hj hd
      by_cases hb : b = 0
      · right
        have := (hb0 hb).2
        have := (List.getElem?_eq_some_iff.1 hj).1
        omega
      · exact .inl hb
    · intro hb'0 p hp x v hx hv hlv
      have hg : f.goesTo b b' := ⟨B, k, hB, by rw [← htm, ← hplen]; exact hb'⟩
      by_cases hb : b = 0
      · subst hb
        exfalso
        have hBE := (hb0 rfl).1
        subst hBE
        have hy : B.insts[B.insts.length - 1]? = some B.insts[B.insts.length - 1] := List.getElem?_eq_getElem (by omega)
        refine hnolive0 p hp x v hx hv (B.insts.length - 1) (by omega) ?_
        exact .jump hB hy (hnodef0 p hp x v hx hv _ (List.getElem_mem _)) (by omega) hg hlv
      · exact C hb p hp x v hx hv ⟨B, hB, .inr ⟨by rw [← hb1 hb]; exact hend, b', hg, hlv⟩⟩
  -- one instruction
  have key : ∀ (b i : Nat) (B1 B' : Block) (x x' : Inst) (σ σ' : Reg → Val), (hoistPad n K.length f)[b]? = some B1 →
      (hoistAt copyOp fresh sel f)[b]? = some B' → B1.insts[i]? = some x → B'.insts[i]? = some x' →
      HoistRel hF f fresh sel e0 b i σ σ' →
      ((F.vis x'.op && x'.op != n) = (F.vis x.op && x.op != n)) ∧ ((F.vis x.op && x.op != n) = true → x'.op = x.op) ∧
      ((∀ m ρ m' k, Eff T (I.nop n) x σ m ρ m' k → ∃ ρ', Eff T (I.nop n) x' σ' m ρ' m' k ∧
        (i + 1 < B1.insts.length → HoistRel hF f fresh sel e0 b (i + 1) ρ ρ') ∧
        (i + 1 = B1.insts.length → ∀ b', B1.term.next (hoistPad n K.length f).length b k = some b' →
          HoistRel hF f fresh sel e0 b' 0 ρ ρ')) ∧
      (∀ m ρ' m' k, Eff T (I.nop n) x' σ' m ρ' m' k → ∃ ρ, Eff T (I.nop n) x σ m ρ m' k ∧
        (i + 1 < B1.insts.length → HoistRel hF f fresh sel e0 b (i + 1) ρ ρ') ∧
        (i + 1 = B1.insts.length → ∀ b', B1.term.next (hoistPad n K.length f).length b k = some b' →
          HoistRel hF f fresh sel e0 b' 0 ρ ρ'))) := by
    intro b i B1 B' x x' σ σ' h1 h2 hx hx' hR
    obtain ⟨B, hB, htm, hb0, hb1⟩ := hpget b B1 h1
    have hBm := List.mem_of_getElem? hB
    have hx'n : x'.op ≠ n := hng B' (List.mem_of_getElem? h2) x' (List.mem_of_getElem? hx')
    have hx'nb : (x'.op != n) = true := by simpa using hx'n
    -- keeping an instruction
    have keep : x' = x → (∀ u ∈ x.uses, σ u = σ' u) → (∀ p ∈ sel, ∀ y v, f.at p = some y → y.defs = [.vr v] → Reg.vr v ∉ x.defs) →
        (∀ j, b = 0 → j < K.length → i ≠ e0 + j) → (b ≠ 0 → ∀ v, LiveAfter f v b i → Reg.vr v ∉ x.defs → LiveAt f v b i) →
        ((F.vis x'.op && x'.op != n) = (F.vis x.op && x.op != n)) ∧ ((F.vis x.op && x.op != n) = true → x'.op = x.op) ∧
        ((∀ m ρ m' k, Eff T (I.nop n) x σ m ρ m' k → ∃ ρ', Eff T (I.nop n) x' σ' m ρ' m' k ∧
          (i + 1 < B1.insts.length → HoistRel hF f fresh sel e0 b (i + 1) ρ ρ') ∧
          (i + 1 = B1.insts.length → ∀ b', B1.term.next (hoistPad n K.length f).length b k = some b' →
            HoistRel hF f fresh sel e0 b' 0 ρ ρ')) ∧
        (∀ m ρ' m' k, Eff T (I.nop n) x' σ' m ρ' m' k → ∃ ρ, Eff T (I.nop n) x σ m ρ m' k ∧
          (i + 1 < B1.insts.length → HoistRel hF f fresh sel e0 b (i + 1) ρ ρ') ∧
          (i + 1 = B1.insts.length → ∀ b', B1.term.next (hoistPad n K.length f).length b k = some b' →
            HoistRel hF f fresh sel e0 b' 0 ρ ρ'))) := by
      intro hxe hu hnd hni hlv
      subst hxe
      have hrd : x'.reads σ = x'.reads σ' := by
        unfold Inst.reads
        congr 1
        · exact List.map_congr_left hu
        · apply List.map_congr_left
          intro p _
          apply hR.rest _ (fun _ => by simp)
          intro q hq y hy
          obtain ⟨v, hv, -⟩ := hdefv q hq y hy
          rw [hv]; simp
      have hgot : ∀ (ρ' : Reg → Val) (m m' : Mem) (k : Nat), Eff T (I.nop n) x' σ' m ρ' m' k →
          ∀ j y d, K[j]? = some y → y.defs = [d] → (b ≠ 0 ∨ e0 + j ≤ i) → hF.out y.op [] = [ρ' d] := by
        intro ρ' m m' k he j y d hj hd hor
        obtain ⟨p, hp, hy⟩ := hK y (List.mem_of_getElem? hj)
        obtain ⟨v, hv, -⟩ := hdefv p hp y hy
        rw [hd] at hv; cases hv
        rw [eff_frame he (vr_not_dsts (hnd p hp y v hy hd))]
        refine hR.got j y _ (by rw [hKe]; exact hj) hd (hor.elim .inl fun h => ?_)
        by_cases hb : b = 0
        · right
          have := hni j hb (List.getElem?_eq_some_iff.1 hj).1
          omega
        · exact .inl hb
      refine ⟨rfl, fun _ => rfl, ?_, ?_⟩
      · intro m ρ m' k he
        obtain ⟨ρ', e1, e2⟩ := eff_same_reads hrd he
        refine ⟨ρ', e1, fin b i k B1 ρ ρ' h1 (fun r hr hr' => e2 r (.inl (hR.rest r hr hr'))) (hgot _ _ _ _ e1) ?_⟩
        intro hb p hp y v hy hv hla
        exact e2 _ (.inl (hR.live hb p hp y v hy hv (hlv hb v hla (hnd p hp y v hy hv))))
      · intro m ρ' m' k he
        obtain ⟨ρ, e1, e2⟩ := eff_same_reads hrd.symm he
        refine ⟨ρ, e1, fin b i k B1 ρ ρ' h1 (fun r hr hr' => (e2 r (.inl (hR.rest r hr hr').symm)).symm) (hgot _ _ _ _ he) ?_⟩
        intro hb p hp y v hy hv hla
        exact (e2 _ (.inl (hR.live hb p hp y v hy hv (hlv hb v hla (hnd p hp y v hy hv))).symm)).symm
    rcases pad_cases hB (hne B hBm) (by rw [hKe]; exact h1) h2 hx hx' with
      ⟨hb, j, hj1, hj2, hj3⟩ | ⟨hb, hxe, hpos⟩ | ⟨hb, hBe, hsel, hxe⟩ | ⟨hb, hBe, hsel, hxe⟩
    · -- a constant moved here
      rw [hKe] at hj2
      have hBE : B = E := (hb0 hb).1
      subst hj3
      obtain ⟨p, hp, hy⟩ := hK x' (List.mem_of_getElem? hj2)
      obtain ⟨v, hv, hcst⟩ := hdefv p hp x' hy
      obtain ⟨By, d1, d2⟩ := at_get hy
      have hty := ht.inst By (List.mem_of_getElem? d1) x' (List.mem_of_getElem? d2)
      obtain ⟨w, w1, w2⟩ := const_eff (T := T) (σ := σ') hF hty hcst hv
      have hvis := (hF.const _ hcst).1
      have hrel : ∀ k, (i + 1 < B1.insts.length → HoistRel hF f fresh sel e0 b (i + 1) σ (upd σ' (.vr v) w)) ∧
          (i + 1 = B1.insts.length → ∀ b', B1.term.next (hoistPad n K.length f).length b k = some b' →
            HoistRel hF f fresh sel e0 b' 0 σ (upd σ' (.vr v) w)) := by
        intro k
        refine fin b i k B1 _ _ h1 ?_ ?_ (fun h => absurd hb h)
        · intro r hr hr'
          rw [upd_ne _ _ (by rintro rfl; exact hr' p hp x' hy (by rw [hv]; simp)), hR.rest r hr hr']
        · intro j' y d hj' hd hor
          obtain ⟨p', hp', hy'⟩ := hK y (List.mem_of_getElem? hj')
          obtain ⟨v', hv', -⟩ := hdefv p' hp' y hy'
          rw [hd] at hv'; cases hv'
          by_cases hvv : v' = v
          · subst hvv
            have : p' = p := huniq p hp x' v' hy hv p' y hy' (by rw [hd]; simp)
            subst this
            rw [hy] at hy'; cases hy'
            rw [upd_same]; exact w1
          · rw [upd_ne _ _ (by simpa using hvv)]
            refine hR.got j' y _ (by rw [hKe]; exact hj') hd (hor.elim .inl fun h => .inr ?_)
            rcases Nat.lt_or_ge (e0 + j') i with h' | h'
            · exact h'
            · exfalso
              have : j' = j := by rw [hBE] at hj1; omega
              subst this
              rw [hj2] at hj'; cases hj'
              rw [hv] at hd; cases hd
              exact hvv rfl
      refine ⟨by simp [hvis], fun h => by simp at h, ?_, ?_⟩
      · intro m ρ m' k he
        obtain ⟨rfl, rfl⟩ := eff_bare.1 he
        exact ⟨_, (eff_nop_iff hx'n).2 ((w2 _ _ _ _).2 ⟨rfl, rfl⟩), hrel k⟩
      · intro m ρ' m' k he
        obtain ⟨rfl, rfl⟩ := (w2 _ _ _ _).1 ((eff_nop_iff hx'n).1 he)
        exact ⟨σ, eff_bare.2 ⟨rfl, rfl⟩, hrel k⟩
    · -- an instruction of the entry block
      have hBE : B = E := (hb0 hb).1
      subst hBE
      obtain ⟨i0, hi0, hxi⟩ : ∃ i0, i0 < B.insts.length ∧ B.insts[i0]? = some x := by
        rcases hpos with ⟨a, c⟩ | ⟨a, c⟩
        · exact ⟨i, (List.getElem?_eq_some_iff.1 c).1, c⟩
        · exact ⟨_, (List.getElem?_eq_some_iff.1 c).1, c⟩
      apply keep hxe
      · intro u hu
        apply hR.rest u
        · rintro q rfl
          exact (hfr q B hBm x (List.mem_of_getElem? hxi)).1 hu
        · intro p hp y hy hud
          obtain ⟨v, hv, -⟩ := hdefv p hp y hy
          rw [hv] at hud
          rw [List.mem_singleton.1 hud] at hu
          exact hnolive0 p hp y v hy hv i0 hi0 (.use hE hxi hu)
      · intro p hp y v hy hv
        exact hnodef0 p hp y v hy hv x (List.mem_of_getElem? hxi)
      · intro j _ hj
        rw [hKe] at hpos
        show i ≠ B.insts.length - 1 + j
        rcases hpos with ⟨a, c⟩ | ⟨a, c⟩ <;> omega
      · intro h; exact absurd hb h
    · -- where a constant was
      have hxB : B.insts[i]? = some x := by rw [← hBe]; exact hx
      have hat := at_eq hB hxB
      obtain ⟨v, hv, hcst⟩ := hdefv _ hsel x hat
      have hty := ht.inst B hBm x (List.mem_of_getElem? hxB)
      have hvis := (hF.const _ hcst).1
      have hxn : x.op ≠ n := hnf B hBm x (List.mem_of_getElem? hxB)
      obtain ⟨w, w1, w2⟩ := const_eff (T := T) (σ := σ) hF hty hcst hv
      have hxe' : x' = { op := copyOp, ops := [(.dfn, .vr (fresh (b, i))), (.use, .vr v)] } := by
        rw [hxe]; unfold leftCopy; rw [hv]
      have hcv := (hF.copy _ hc).1
      have hce : ∀ m ρ' m' k, Eff T I x' σ' m ρ' m' k ↔ ρ' = upd σ' (.vr (fresh (b, i))) (σ' (.vr v)) ∧ m' = m := by
        intro m ρ' m' k
        rw [hxe']
        exact copy_eff hF (x := { op := copyOp, ops := [(.dfn, .vr (fresh (b, i))), (.use, .vr v)] }) hc rfl rfl rfl
      have hfv : ∀ p y v', f.at p = some y → y.defs = [.vr v'] → (Reg.vr v') ≠ .vr (fresh (b, i)) := by
        intro p y v' hy hv'
        exact hocc p y _ hy (by rw [hv']; simp) _
      have hwv : σ' (.vr v) = w := by
        have hm : x ∈ sel.filterMap f.at := List.mem_filterMap.2 ⟨_, hsel, hat⟩
        obtain ⟨j, hj⟩ := List.mem_iff_getElem?.1 hm
        have := hR.got j x _ hj hv (.inl hb)
        rw [w1] at this
        exact (List.cons.inj this).1.symm
      have hrel : ∀ k, (i + 1 < B1.insts.length → HoistRel hF f fresh sel e0 b (i + 1) (upd σ (.vr v) w) (upd σ' (.vr (fresh (b, i))) (σ' (.vr v)))) ∧
          (i + 1 = B1.insts.length → ∀ b', B1.term.next (hoistPad n K.length f).length b k = some b' →
            HoistRel hF f fresh sel e0 b' 0 (upd σ (.vr v) w) (upd σ' (.vr (fresh (b, i))) (σ' (.vr v)))) := by
        intro k
        refine fin b i k B1 _ _ h1 ?_ ?_ ?_
        · intro r hr hr'
          rw [upd_ne _ _ (by rintro rfl; exact hr' _ hsel x hat (by rw [hv]; simp)), upd_ne _ _ (hr _), hR.rest r hr hr']
        · intro j' y d hj' hd _
          obtain ⟨p', hp', hy'⟩ := hK y (List.mem_of_getElem? hj')
          obtain ⟨v', hv', -⟩ := hdefv p' hp' y hy'
          rw [hd] at hv'; cases hv'
          rw [upd_ne _ _ (hfv p' y v' hy' hd)]
          exact hR.got j' y _ (by rw [hKe]; exact hj') hd (.inl hb)
        · intro _ p hp y v' hy hv' hla
          rw [upd_ne σ' _ (hfv p y v' hy hv')]
          by_cases hvv : v' = v
          · subst hvv
            rw [upd_same, hwv]
          · rw [upd_ne _ _ (by simpa using hvv)]
            refine hR.live hb p hp y v' hy hv' ((liveAt_iff hB hxB).2 (.inr ⟨?_, hla⟩))
            rw [hv]; simpa using hvv
      refine ⟨by rw [hxe']; simp [hvis, hcv], fun h => by simp [hvis] at h, ?_, ?_⟩
      · intro m ρ m' k he
        obtain ⟨rfl, rfl⟩ := (w2 _ _ _ _).1 ((eff_nop_iff hxn).1 he)
        exact ⟨_, (eff_nop_iff hx'n).2 ((hce _ _ _ _).2 ⟨rfl, rfl⟩), hrel k⟩
      · intro m ρ' m' k he
        obtain ⟨rfl, rfl⟩ := (hce _ _ _ _).1 ((eff_nop_iff hx'n).1 he)
        exact ⟨_, (eff_nop_iff hxn).2 ((w2 _ _ _ _).2 ⟨rfl, rfl⟩), hrel k⟩
    · -- an instruction of another block
      have hxB : B.insts[i]? = some x := by rw [← hBe]; exact hx
      have hat := at_eq hB hxB
      apply keep hxe
      · intro u hu
        by_cases hmv : ∃ p ∈ sel, ∃ y, f.at p = some y ∧ u ∈ y.defs
        · obtain ⟨p, hp, y, hy, hud⟩ := hmv
          obtain ⟨v, hv, -⟩ := hdefv p hp y hy
          rw [hv] at hud
          rw [List.mem_singleton.1 hud] at hu ⊢
          exact hR.live hb p hp y v hy hv (.use hB hxB hu)
        · apply hR.rest u
          · rintro q rfl
            exact (hfr q B hBm x (List.mem_of_getElem? hxB)).1 hu
          · intro p hp y hy hud
            exact hmv ⟨p, hp, y, hy, hud⟩
      · intro p hp y v hy hv hvx
        have := huniq p hp y v hy hv _ x hat hvx
        exact hsel (this ▸ hp)
      · intro j h; exact absurd h hb
      · intro _ v hla hvx
        exact (liveAt_iff hB hxB).2 (.inr ⟨hvx, hla⟩)
  have hinit : ∀ σ, HoistRel hF f fresh sel e0 0 0 σ σ := fun σ =>
    ⟨fun _ _ _ => rfl, fun _ _ _ _ _ h => by rcases h with h | h <;> omega, fun h => absurd rfl h⟩
  have hsh : Shape (hoistPad n K.length f) (hoistAt copyOp fresh sel f) := by rw [← hKe]; exact pad_shape
  have L1 : Lock T (I.nop n) (fun op => F.vis op && op != n) (hoistPad n K.length f) (hoistAt copyOp fresh sel f)
      (HoistRel hF f fresh sel e0) := by
    refine ⟨hsh, ?_⟩
    intro b i B B' x x' σ σ' m ρ m' k h1 h2 h3 h4 hR he
    obtain ⟨k1, k2, k3, -⟩ := key b i B B' x x' σ σ' h1 h2 h3 h4 hR
    exact ⟨k1, k2, k3 m ρ m' k he⟩
  have L2 : Lock T (I.nop n) (fun op => F.vis op && op != n) (hoistAt copyOp fresh sel f) (hoistPad n K.length f)
      (fun b i s t => HoistRel hF f fresh sel e0 b i t s) := by
    refine ⟨hsh.symm, ?_⟩
    intro b i B' B x' x σ' σ m ρ' m' k h2 h1 h4 h3 hR he
    obtain ⟨k1, k2, -, k3⟩ := key b i B B' x x' σ σ' h1 h2 h3 h4 hR
    obtain ⟨s1, s2⟩ := hsh.blk b B B' h1 h2
    rw [← s1, ← s2, ← hsh.len]
    exact ⟨k1.symm, fun h => (k2 (by rw [← k1]; exact h)).symm, k3 m ρ' m' k he⟩
  exact ⟨L1.incl hinit, L2.incl hinit⟩

/-- Peephole.cpp:257-323: moving constants to the entry block cannot be seen, whatever the block frequencies, if no
    virtual register is read before it is written. -/
theorem machineConstantHoist_same (hF : F.Ok I) (ht : f.Typed F) (hl : ∀ v, ¬ LiveAt f v 0 0) {copyOp : Nat}
    (hc : F.copy copyOp = true) {fresh : Pos → Nat} (freq : Nat → Nat) (thr maxCount : Nat)
    (hne : ∀ B ∈ f, B.insts ≠ [])
    (hfr : ∀ p, ∀ B ∈ f, ∀ x ∈ B.insts, Reg.vr (fresh p) ∉ x.uses ∧ Reg.vr (fresh p) ∉ x.defs) :
    Same T I F.vis f (machineConstantHoist F copyOp fresh freq thr maxCount f) :=
  hoistAt_same hF ht hl hc hoisted_ok hne hfr

end

end Cmmc.Mir
