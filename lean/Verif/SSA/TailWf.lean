import Verif.SSA.TailProg
/-!
# TailCallEliminate: the new function is in SSA form
-/
namespace Cmmc.SSA
section
variable {L : Lang} {V : Conv L} {N : TailNm} {S : TailSel L.Op L.C} {accOp : L.Op → Option L.C} {F : L.F} {f b k : Nat} {as : List L.C} {K : TailKind L.Op L.C} {B : L.B}
  {call : Inst L.Op L.C}

theorem TailNm.opd_inst {param : L.C → Option Nat} {o : Opd L.C} {x : Nat} (h : N.opd param o = .inst x) : o = .inst x ∨ ∃ c j, o = .cst c ∧ param c = some j ∧ x = N.ps j := by
  cases o with
  | inst i => exact .inl h
  | cst c =>
    simp only [TailNm.opd] at h
    cases hp : param c with
    | none => rw [hp] at h; cases h
    | some j => rw [hp] at h; cases h; exact .inr ⟨c, j, rfl, hp, rfl⟩

theorem TailNm.term_targets {param : L.C → Option Nat} {t : Term L.C} : (N.term param t).targets = t.targets := by cases t <;> rfl

theorem TailNm.term_args {param : L.C → Option Nat} {t : Term L.C} : (N.term param t).args = t.args.map (N.opd param) := by
  cases t with
  | ret v => cases v <;> rfl
  | br t => rfl
  | cbr c t f => rfl
  | sw c d cs => rfl
  | unreachable => rfl

/-- an operand that can be read behind the instructions `is` of block `y` -/
def Pt (F : L.F) (cid y : Nat) (T : L.B) (is : List (Inst L.Op L.C)) (o : Opd L.C) : Prop :=
  o ∈ T.opds ∧ ∀ x, o = .inst x → (∃ h, DefIn F x h ∧ Domi F h y) ∧ x ≠ cid ∧ (x ∈ T.ids → x ∈ T.phis.map Phi.id ∨ x ∈ is.map Inst.id)

/-- what a block of the new function looks like -/
structure TailBlk (N : TailNm) (param : L.C → Option Nat) (S : TailSel L.Op L.C) (F : L.F) (b k : Nat) (as : List L.C) (args : List (Opd L.C)) (K : TailKind L.Op L.C) (cid y : Nat) (T T' : L.B)
    (is extra : List (Inst L.Op L.C)) : Prop where
  phis : T'.phis = (if y = F.entry then N.phis param S as b args K else []) ++ T.phis.map (N.phi param)
  body : T'.body = is.map (N.inst param) ++ extra
  which : (y ≠ b ∧ is = T.body) ∨ (y = b ∧ is = T.body.take k)
  one : extra = [] ∨ ∃ e, extra = [e]
  ids : ∀ e ∈ extra, e.id = N.leaf y ∨ (y = b ∧ ∃ i ∈ T.body.drop (k + 1), e.id = i.id ∧ ∃ l x c, K = .acc i l x c)
  ops : ∀ e ∈ extra, ∀ o ∈ e.args, ((o = .inst N.x1 ∨ o = .inst N.x2 ∧ ∃ x, K = .first x) ∧ K ≠ .plain) ∨ ∃ o', o = N.opd param o' ∧ o' ∈ T.opds ∧ (Live F y → Pt F cid y T is o')
  term : ∀ o ∈ T'.term.args, (∃ e ∈ extra, o = .inst e.id) ∨ ∃ o', o = N.opd param o' ∧ o' ∈ T.term.args ∧ (Live F y → Pt F cid y T is o')
  keep : y = b → ∀ i ∈ T.body.drop (k + 1), ∃ e ∈ extra, e.id = i.id
  goes : (y = b ∧ T'.term = .br F.entry) ∨ (y ≠ b ∧ T'.term.targets = T.term.targets)

theorem TailOk.noEdge (h : TailOk V N S accOp F f b k as K B call) (y : Nat) : ¬ Edge F b y := by
  rintro ⟨B', hB', ht⟩
  have := Option.some.inj (h.hB.symm.trans hB')
  subst this
  have hsp := tailKind_spec h.kind
  have : ∃ t, B.term = .ret t := by
    cases K with
    | plain => rcases hsp.2 with h1 | h1 <;> exact ⟨_, h1⟩
    | acc i l x c => exact ⟨_, hsp.2.1⟩
    | first x => exact ⟨_, hsp.2.1⟩
  obtain ⟨t, h1⟩ := this
  rw [h1] at ht
  simp [Term.targets] at ht

/-- nothing but the block itself is dominated by the block with the call -/
theorem TailOk.only (h : TailOk V N S accOp F f b k as K B call) {y : Nat} (hy : Live F y) (hd : Domi F b y) : y = b := by
  by_contra hne
  obtain ⟨p, hp⟩ := hy
  obtain ⟨z, hz⟩ := path_next hp (hd p hp) (fun e => hne e.symm)
  exact h.noEdge z hz

theorem TailOk.call_id (h : TailOk V N S accOp F f b k as K B call) : call.id ∈ B.ids := List.mem_append_right _ (List.mem_map_of_mem h.call_mem)

theorem TailOk.call_def (h : TailOk V N S accOp F f b k as K B call) : DefIn F call.id b := ⟨B, h.hB, h.call_id⟩

/-- the call comes neither among the phis nor among the instructions in front of it or behind it -/
theorem TailOk.once (h : TailOk V N S accOp F f b k as K B call) (W : LiveWf F) : call.id ∉ B.phis.map Phi.id ∧ call.id ∉ (B.body.take k).map Inst.id ∧ call.id ∉ (B.body.drop (k + 1)).map Inst.id := by
  have hn := W.toShape.ids_nodup h.hB
  unfold Block.ids at hn
  rw [h.body, List.map_append, List.map_cons] at hn
  rw [List.nodup_append] at hn
  obtain ⟨_, h2, h3⟩ := hn
  rw [List.nodup_append] at h2
  obtain ⟨_, h4, h5⟩ := h2
  rw [List.nodup_cons] at h4
  exact ⟨fun hm => h3 _ hm call.id (List.mem_append_right _ (List.mem_cons_self ..)) rfl, fun hm => h5 _ hm call.id (List.mem_cons_self ..) rfl, h4.1⟩

theorem Opd.inst_mem_opds_phi {T : L.B} {p : Phi L.C} (hp : p ∈ T.phis) {o : Opd L.C} (ho : o ∈ p.ops) : o ∈ T.opds := by
  obtain ⟨q, hq⟩ := mem_ops.1 ho
  exact mem_opds_phi hp hq

/-- operands in another block, or in front of the call -/
theorem TailOk.pt (h : TailOk V N S accOp F f b k as K B call) (W : LiveWf F) {y : Nat} {T : L.B} (hT : F.blk y = some T) (hl : Live F y) {pre post : List (Inst L.Op L.C)} {i : Inst L.Op L.C}
    (hb : T.body = pre ++ i :: post) (hpre : y = b → pre.length ≤ k) {o : Opd L.C} (ho : o ∈ i.args) : Pt F call.id y T pre o := by
  have him : i ∈ T.body := by rw [hb]; simp
  refine ⟨mem_opds_use (.inl ⟨i, him, ho⟩), ?_⟩
  rintro x rfl
  obtain ⟨hh, hd, hdom⟩ := W.use y T x hT hl (.inl ⟨i, him, ho⟩)
  have hord := (W.inOrder y T hT hl).1 pre i post hb x ho
  refine ⟨⟨hh, hd, hdom⟩, ?_, hord⟩
  rintro rfl
  have := defIn_unique W.listed W.unique hd h.call_def
  subst this
  have := h.only hl hdom
  subst this
  have := Option.some.inj (h.hB.symm.trans hT)
  subst this
  have ho2 := h.once W
  rcases hord h.call_id with h1 | h1
  · exact ho2.1 h1
  · apply ho2.2.1
    have hp : pre = (B.body.take k).take pre.length := by
      rw [List.take_take, min_eq_left (hpre rfl), hb]
      simp
    rw [hp] at h1
    obtain ⟨j, hj, e⟩ := List.mem_map.1 h1
    exact List.mem_map.2 ⟨j, List.mem_of_mem_take hj, e⟩

/-- operands of the terminator of another block -/
theorem TailOk.ptTerm (h : TailOk V N S accOp F f b k as K B call) (W : LiveWf F) {y : Nat} {T : L.B} (hT : F.blk y = some T) (hl : Live F y) (hy : y ≠ b) {o : Opd L.C} (ho : o ∈ T.term.args) :
    Pt F call.id y T T.body o := by
  refine ⟨mem_opds_use (.inr ho), ?_⟩
  rintro x rfl
  obtain ⟨hh, hd, hdom⟩ := W.use y T x hT hl (.inr ho)
  refine ⟨⟨hh, hd, hdom⟩, ?_, (W.inOrder y T hT hl).2 x ho⟩
  rintro rfl
  have := defIn_unique W.listed W.unique hd h.call_def
  subst this
  exact hy (h.only hl hdom)

theorem TailOk.blkSpec (h : TailOk V N S accOp F f b k as K B call) (W : LiveWf F) {y : Nat} {T : L.B} (hT : F.blk y = some T) :
    ∃ T' is extra, (F.tailElim N V.param S as b k call.args K).blk y = some T' ∧ TailBlk N V.param S F b k as call.args K call.id y T T' is extra := by
  have hG := h.blk hT
  by_cases hy : y = b
  · subst hy
    have := Option.some.inj (h.hB.symm.trans hT)
    subst this
    have hbl : N.block V.param S F.entry y k K y B = ⟨B.phis.map (N.phi V.param), (B.body.take k).map (N.inst V.param) ++ N.rest V.param S y K, .br F.entry⟩ := by
      unfold TailNm.block
      rw [if_pos rfl]
    rw [hbl, if_neg h.bne] at hG
    refine ⟨_, B.body.take k, N.rest V.param S y K, hG, ⟨?_, rfl, .inr ⟨rfl, rfl⟩, ?_, ?_, ?_, ?_, ?_, .inl ⟨rfl, rfl⟩⟩⟩
    · rw [if_neg h.bne]; rfl
    · cases K <;> simp [TailNm.rest]
    · have hsp := tailKind_spec h.kind
      cases K with
      | plain => simp [TailNm.rest]
      | acc i l x c =>
        intro e he
        simp only [TailNm.rest, List.mem_singleton] at he
        subst he
        exact .inr ⟨rfl, i, by rw [hsp.1]; simp, rfl, l, x, c, rfl⟩
      | first x =>
        intro e he
        simp only [TailNm.rest, List.mem_singleton] at he
        subst he
        exact .inl rfl
    · have hsp := tailKind_spec h.kind
      cases K with
      | plain => simp [TailNm.rest]
      | acc i l x c =>
        intro e he o ho
        simp only [TailNm.rest, List.mem_singleton] at he
        subst he
        have hc : o = .inst N.x1 ∨ o = N.opd V.param x := by
          cases l <;> simp at ho
          · exact ho.symm
          · exact ho
        rcases hc with rfl | rfl
        · exact .inl ⟨.inl rfl, by simp⟩
        · have hxm : x ∈ i.args := by rw [hsp.2.2.2.2.1]; cases l <;> simp
          have hb : B.body = (B.body.take k ++ [call]) ++ i :: [] := by
            rw [List.append_assoc, List.singleton_append, ← hsp.1]; exact h.body
          refine .inr ⟨x, rfl, mem_opds_use (.inl ⟨i, by rw [hb]; simp, hxm⟩), fun hl => ?_⟩
          refine ⟨mem_opds_use (.inl ⟨i, by rw [hb]; simp, hxm⟩), ?_⟩
          rintro z rfl
          refine ⟨W.use y B z hT hl (.inl ⟨i, by rw [hb]; simp, hxm⟩), ?_, ?_⟩
          · rintro rfl; exact hsp.2.2.2.1 rfl
          · intro hz
            rcases (W.inOrder y B hT hl).1 _ i [] hb z hxm hz with h1 | h1
            · exact .inl h1
            · rw [List.map_append, List.mem_append] at h1
              rcases h1 with h1 | h1
              · exact .inr h1
              · simp only [List.map_cons, List.map_nil, List.mem_singleton] at h1
                exact absurd (by rw [h1]) hsp.2.2.2.1
      | first x =>
        intro e he o ho
        simp only [TailNm.rest, List.mem_singleton] at he
        subst he
        simp only [List.mem_cons, List.not_mem_nil, or_false] at ho
        rcases ho with rfl | rfl | rfl
        · exact .inl ⟨.inr ⟨rfl, x, rfl⟩, by simp⟩
        · exact .inl ⟨.inl rfl, by simp⟩
        · have hxm : x ∈ B.term.args := by rw [hsp.2.1]; simp [Term.args]
          refine .inr ⟨x, rfl, mem_opds_use (.inr hxm), fun hl => ⟨mem_opds_use (.inr hxm), ?_⟩⟩
          rintro z rfl
          refine ⟨W.use y B z hT hl (.inr hxm), ?_, ?_⟩
          · rintro rfl; exact hsp.2.2 rfl
          · intro hz
            rcases (W.inOrder y B hT hl).2 z hxm hz with h1 | h1
            · exact .inl h1
            · have hb := h.body
              rw [hsp.1] at hb
              rw [hb, List.map_append, List.mem_append] at h1
              rcases h1 with h1 | h1
              · exact .inr h1
              · simp only [List.map_cons, List.map_nil, List.mem_singleton] at h1
                exact absurd (by rw [h1]) hsp.2.2
    · intro o ho; simp [Term.args] at ho
    · have hsp := tailKind_spec h.kind
      intro _ j hj
      cases K with
      | plain => rw [hsp.1] at hj; simp at hj
      | first x => rw [hsp.1] at hj; simp at hj
      | acc i l x c =>
        rw [hsp.1, List.mem_singleton] at hj
        subst hj
        exact ⟨_, List.mem_singleton.2 rfl, rfl⟩
  · by_cases hr : ∃ o, T.term = .ret (some o)
    · obtain ⟨v, hv⟩ := hr
      rw [TailNm.block_ret hy hv] at hG
      have hvm : v ∈ T.term.args := by rw [hv]; simp [Term.args]
      refine ⟨_, T.body, N.leaves S y (N.opd V.param v) K, hG, ⟨?_, ?_, .inl ⟨hy, rfl⟩, ?_, ?_, ?_, ?_, fun e => absurd e hy, .inr ⟨hy, ?_⟩⟩⟩
      · split <;> rfl
      · split <;> rfl
      · cases K <;> simp [TailNm.leaves]
      · intro e he
        cases K <;> simp only [TailNm.leaves, List.mem_singleton, List.not_mem_nil] at he <;> (subst he; exact .inl rfl)
      · intro e he o ho
        cases K with
        | plain => simp [TailNm.leaves] at he
        | acc i l x c =>
          simp only [TailNm.leaves, List.mem_singleton] at he
          subst he
          have hc : o = .inst N.x1 ∨ o = N.opd V.param v := by
            cases l <;> simp at ho
            · exact ho.symm
            · exact ho
          rcases hc with rfl | rfl
          · exact .inl ⟨.inl rfl, by simp⟩
          · exact .inr ⟨v, rfl, mem_opds_use (.inr hvm), fun hl => h.ptTerm W hT hl hy hvm⟩
        | first x =>
          simp only [TailNm.leaves, List.mem_singleton] at he
          subst he
          simp only [List.mem_cons, List.not_mem_nil, or_false] at ho
          rcases ho with rfl | rfl | rfl
          · exact .inl ⟨.inr ⟨rfl, x, rfl⟩, by simp⟩
          · exact .inl ⟨.inl rfl, by simp⟩
          · exact .inr ⟨v, rfl, mem_opds_use (.inr hvm), fun hl => h.ptTerm W hT hl hy hvm⟩
      · have ht : ∀ (T' : L.B), T' = (if y = F.entry then { phis := N.phis V.param S as b call.args K ++ T.phis.map (N.phi V.param), body := T.body.map (N.inst V.param) ++ N.leaves S y (N.opd V.param v) K, term := .ret (some (N.leafOpd y (N.opd V.param v) K)) } else ⟨T.phis.map (N.phi V.param), T.body.map (N.inst V.param) ++ N.leaves S y (N.opd V.param v) K, .ret (some (N.leafOpd y (N.opd V.param v) K))⟩) → T'.term.args = [N.leafOpd y (N.opd V.param v) K] := by
          rintro T' rfl
          split <;> rfl
        intro o ho
        rw [ht _ rfl, List.mem_singleton] at ho
        subst ho
        cases K with
        | plain => exact .inr ⟨v, rfl, hvm, fun hl => h.ptTerm W hT hl hy hvm⟩
        | acc i l x c => exact .inl ⟨_, List.mem_singleton.2 rfl, rfl⟩
        | first x => exact .inl ⟨_, List.mem_singleton.2 rfl, rfl⟩
      · rw [hv]
        split <;> rfl
    · have hnr : ∀ o, T.term ≠ .ret (some o) := fun o ho => hr ⟨o, ho⟩
      rw [TailNm.block_other hy hnr] at hG
      refine ⟨_, T.body, [], hG, ⟨?_, ?_, .inl ⟨hy, rfl⟩, .inl rfl, by simp, by simp, ?_, fun e => absurd e hy, .inr ⟨hy, ?_⟩⟩⟩
      · split <;> rfl
      · rw [List.append_nil]; split <;> rfl
      · intro o ho
        have : o ∈ (N.term V.param T.term).args := by revert ho; split <;> exact id
        rw [TailNm.term_args] at this
        obtain ⟨o', ho', rfl⟩ := List.mem_map.1 this
        exact .inr ⟨o', rfl, ho', fun hl => h.ptTerm W hT hl hy ho'⟩
      · rw [← TailNm.term_targets (N := N) (param := V.param) (t := T.term)]
        split <;> rfl

end
end Cmmc.SSA
