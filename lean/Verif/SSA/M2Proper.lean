import Verif.SSA.M2Alg
/-!
# ScalarMem2Reg: the result is in SSA form
-/
namespace Cmmc.SSA

section
variable {Op C : Type} {kind : Op → Kind} {F : Func Op C} {vars : List Nat} {Φ : List (Nat × Nat × Nat)} {E : List (Nat × Opd C)} {G : Func Op C} {opn : Nat → Prop}

theorem nodup_allIds (hn : F.order.Nodup) (h1 : ∀ b B, F.blk b = some B → B.ids.Nodup) (h2 : ∀ x b c, DefIn F x b → DefIn F x c → b = c) : F.allIds.Nodup := by
  unfold Func.allIds Func.blocks
  have key : ∀ l : List Nat, l.Nodup → ((l.filterMap F.blk).flatMap Block.ids).Nodup := by
    intro l
    induction l with
    | nil => simp
    | cons b l ih =>
      intro hn
      obtain ⟨hb, hn⟩ := List.nodup_cons.mp hn
      cases hB : F.blk b with
      | none => rw [List.filterMap_cons_none hB]; exact ih hn
      | some B =>
        rw [List.filterMap_cons_some hB, List.flatMap_cons, List.nodup_append]
        refine ⟨h1 b B hB, ih hn, ?_⟩
        rintro x hx y hy rfl
        obtain ⟨D, hD, hxD⟩ := List.mem_flatMap.mp hy
        obtain ⟨d, hd, hdD⟩ := List.mem_filterMap.mp hD
        have := h2 x b d ⟨B, hB, hx⟩ ⟨D, hdD, hxD⟩
        exact hb (this ▸ hd)
  exact key _ hn

theorem TermRel.targets {t t' : Term C} (h : TermRel E t t') : t'.targets = t.targets := by cases h <;> rfl

theorem TermRel.args {t t' : Term C} (h : TermRel E t t') : List.Forall₂ (Rep E) t.args t'.args := by
  cases h with
  | ret => exact .nil
  | retv r => exact .cons r .nil
  | br => exact .nil
  | cbr r => exact .cons r .nil
  | sw r => exact .cons r .nil
  | unreachable => exact .nil

theorem Cert.edge (c : Cert kind F vars Φ E G opn) (a b : Nat) : Edge G a b ↔ Edge F a b := by
  constructor
  · rintro ⟨B', hB', ht⟩
    cases hB : F.blk a with
    | none => rw [c.none_ a hB] at hB'; cases hB'
    | some B =>
      obtain ⟨B1, hB1, hr⟩ := c.some_ a B hB
      rw [hB1] at hB'; cases hB'
      exact ⟨B, hB, hr.term.targets ▸ ht⟩
  · rintro ⟨B, hB, ht⟩
    obtain ⟨B1, hB1, hr⟩ := c.some_ a B hB
    exact ⟨B1, hB1, hr.term.targets.symm ▸ ht⟩

theorem Cert.edgeEq (c : Cert kind F vars Φ E G opn) : Edge G = Edge F := by funext a b; exact propext (c.edge a b)
theorem Cert.live (c : Cert kind F vars Φ E G opn) (b : Nat) : Live G b ↔ Live F b := by unfold Live; rw [c.edgeEq, c.entry]
theorem Cert.domi (c : Cert kind F vars Φ E G opn) (a b : Nat) : Domi G a b ↔ Domi F a b := by unfold Domi; rw [c.edgeEq, c.entry]

theorem Cert.back (c : Cert kind F vars Φ E G opn) {b : Nat} {B' : Block Op C} (h : G.blk b = some B') : ∃ B, F.blk b = some B ∧ BlkCert kind F Φ E b B B' := by
  cases hB : F.blk b with
  | none => rw [c.none_ b hB] at h; cases h
  | some B =>
    obtain ⟨B1, hB1, hr⟩ := c.some_ b B hB
    rw [hB1] at h; cases h
    exact ⟨B, rfl, hr⟩

theorem instRel_ids {is is' : List (Inst Op C)} (h : List.Forall₂ (InstRel E) is is') : is'.map Inst.id = is.map Inst.id := by
  induction h with
  | nil => rfl
  | cons h _ ih => rw [List.map_cons, List.map_cons, ih, h.1]

theorem phiRep_ids {ps ps' : List (Phi C)} (h : List.Forall₂ (PhiRep E) ps ps') : ps'.map Phi.id = ps.map Phi.id := by
  induction h with
  | nil => rfl
  | cons h _ ih => rw [List.map_cons, List.map_cons, ih, h.1]

theorem BlkCert.phiIds {b : Nat} {B B' : Block Op C} (hr : BlkCert kind F Φ E b B B') : B'.phis.map Phi.id = newAt Φ b ++ B.phis.map Phi.id := by
  obtain ⟨N, ps, e1, e2, e3, _⟩ := hr.phis
  rw [e1, List.map_append, e3, phiRep_ids e2]

theorem Cert.defIn (c : Cert kind F vars Φ E G opn) {x b : Nat} : DefIn G x b ↔ Home F Φ x b := by
  constructor
  · rintro ⟨B', hB', hx⟩
    obtain ⟨B, hB, hr⟩ := c.back hB'
    unfold Block.ids at hx
    rw [hr.phiIds, instRel_ids hr.body, List.append_assoc, List.mem_append] at hx
    rcases hx with hx | hx
    · exact .inr (mem_newAt.mp hx)
    · exact .inl ⟨B, hB, hx⟩
  · rintro (⟨B, hB, hx⟩ | ⟨a, hx⟩)
    · obtain ⟨B', hB', hr⟩ := c.some_ b B hB
      refine ⟨B', hB', ?_⟩
      unfold Block.ids
      rw [hr.phiIds, instRel_ids hr.body, List.append_assoc]
      exact List.mem_append.mpr (.inr hx)
    · obtain ⟨_, ⟨B, hB⟩, _⟩ := c.new _ _ _ hx
      obtain ⟨B', hB', hr⟩ := c.some_ b B hB
      refine ⟨B', hB', ?_⟩
      unfold Block.ids
      rw [hr.phiIds, List.append_assoc]
      exact List.mem_append.mpr (.inl (mem_newAt.mpr ⟨a, hx⟩))

theorem forall₂_rep_mem {os os' : List (Opd C)} (h : List.Forall₂ (Rep E) os os') {o' : Opd C} (hm : o' ∈ os') : ∃ o ∈ os, Rep E o o' := by
  induction h with
  | nil => cases hm
  | cons h _ ih =>
    rcases List.mem_cons.mp hm with rfl | hm
    · exact ⟨_, List.mem_cons_self .., h⟩
    · obtain ⟨o, h1, h2⟩ := ih hm
      exact ⟨o, List.mem_cons_of_mem _ h1, h2⟩

section
variable (c : Cert kind F vars Φ E G opn) (P : Proper F) (hl : AllLive F)
include c P hl

/-- operands of instructions are available -/
theorem Cert.useAv {b k : Nat} {B' : Block Op C} (hB' : G.blk b = some B') {i' : Inst Op C} (hi : B'.body[k]? = some i') {x : Nat} (hx : Opd.inst x ∈ i'.args) : Av F Φ b k x := by
  obtain ⟨B, hB, hr⟩ := c.back hB'
  have hlen := hr.body.length_eq
  obtain ⟨hk, e⟩ := List.getElem?_eq_some_iff.mp hi
  have := hr.body.get (i := k) (by omega) hk
  simp only [List.get_eq_getElem, e] at this
  obtain ⟨o, ho, r⟩ := forall₂_rep_mem this.2.2 hx
  refine c.repAv P r (hl b B hB) ?_ x rfl
  rintro y rfl
  exact .inl (P.use_avail hB (hl b B hB) (List.getElem?_eq_getElem (by omega)) ho)

theorem Cert.termAv {b : Nat} {B' : Block Op C} (hB' : G.blk b = some B') {x : Nat} (hx : Opd.inst x ∈ B'.term.args) : Av F Φ b B'.body.length x := by
  obtain ⟨B, hB, hr⟩ := c.back hB'
  rw [← hr.body.length_eq]
  obtain ⟨o, ho, r⟩ := forall₂_rep_mem hr.term.args hx
  refine c.repAv P r (hl b B hB) ?_ x rfl
  rintro y rfl
  exact .inl (P.term_avail hB (hl b B hB) ho)

theorem Cert.avIn {b k : Nat} {B' : Block Op C} (hB' : G.blk b = some B') {x : Nat} (h : Av F Φ b k x) (hx : x ∈ B'.ids) : x ∈ B'.phis.map Phi.id ∨ x ∈ (B'.body.take k).map Inst.id := by
  obtain ⟨B, hB, hr⟩ := c.back hB'
  have hh := c.defIn.mp ⟨B', hB', hx⟩
  rw [hr.phiIds, List.map_take, instRel_ids hr.body, ← List.map_take]
  rcases h with ⟨d, hd, _, h⟩ | ⟨a, d, hm, _⟩
  · have := c.homeUnique P (.inl hd) hh
    obtain ⟨B1, hB1, h⟩ := h this
    rw [hB] at hB1; cases hB1
    exact h.imp_left fun h => List.mem_append.mpr (.inr h)
  · have := c.homeUnique P (.inr ⟨a, hm⟩) hh
    subst this
    exact .inl (List.mem_append.mpr (.inl (mem_newAt.mpr ⟨a, hm⟩)))

theorem Cert.allLive : AllLive G := by
  intro b B' hB'
  obtain ⟨B, hB, _⟩ := c.back hB'
  exact (c.live b).mpr (hl b B hB)

end

/-- the result is in SSA form -/
theorem Cert.proper (c : Cert kind F vars Φ E G (fun _ => False)) (P : Proper F) (hl : AllLive F) : Proper G := by
  have homeOf : ∀ {b k x}, Av F Φ b k x → ∃ h, DefIn G x h := by
    intro b k x h
    obtain ⟨d, hd, _⟩ := h.home
    exact ⟨d, c.defIn.mpr hd⟩
  have phiAv : ∀ {b B' p q o}, G.blk b = some B' → p ∈ B'.phis → (q, o) ∈ p.inc → ∃ Q, F.blk q = some Q ∧ Edge F q b ∧ AvO F Φ q Q.body.length o := by
    intro b B' p q o hB' hp hq
    obtain ⟨_, _, _, h4⟩ := c.phiOk P hl hB' hp (fun h => h)
    obtain ⟨h1, h2⟩ := h4 q o hq
    obtain ⟨Q, hQ, _⟩ := id h1
    exact ⟨Q, hQ, h1, h2 Q hQ⟩
  refine ⟨⟨?_, ?_, ?_, ?_, ?_, ?_, ?_, ?_⟩, c.order ▸ P.nodup, ?_, ?_, ?_, ?_, ?_⟩
  · refine nodup_allIds (c.order ▸ P.nodup) ?_ ?_
    · intro b B' hB'
      obtain ⟨B, hB, hr⟩ := c.back hB'
      have hids := P.block_ids hB
      have hp := c.phiIds P hB'
      unfold Block.ids at hids ⊢
      rw [List.nodup_append] at hids ⊢
      rw [hr.phiIds] at hp ⊢
      rw [instRel_ids hr.body]
      refine ⟨hp, hids.2.1, ?_⟩
      intro x hx y hy e
      subst e
      rcases List.mem_append.mp hx with hx | hx
      · obtain ⟨a, ha⟩ := mem_newAt.mp hx
        exact (c.new _ _ _ ha).2.2.2 b ⟨B, hB, List.mem_append.mpr (.inr hy)⟩
      · exact hids.2.2 x hx x hy rfl
    · intro x b d hb hd
      exact c.homeUnique P (c.defIn.mp hb) (c.defIn.mp hd)
  · intro a b h
    rw [c.order]
    exact P.closed a b ((c.edge a b).mp h)
  · intro b B' hB'
    refine ⟨?_, ?_⟩
    · intro pre i post e x hx hm
      have hi : B'.body[pre.length]? = some i := by rw [e]; simp
      have := c.avIn P hl hB' (c.useAv P hl hB' hi hx) hm
      rw [e] at this
      simpa using this
    · intro x hx hm
      have := c.avIn P hl hB' (c.termAv P hl hB' hx) hm
      rwa [List.take_length] at this
  · intro b B' hB' x hx
    rcases mem_operands.mp hx with ⟨p, hp, hx⟩ | ⟨i, hi, hx⟩ | hx
    · obtain ⟨q, hq⟩ := mem_ops.mp hx
      obtain ⟨Q, _, _, h⟩ := phiAv hB' hp hq
      exact homeOf (h x rfl)
    · obtain ⟨k, hk⟩ := List.getElem?_of_mem hi
      exact homeOf (c.useAv P hl hB' hk hx)
    · exact homeOf (c.termAv P hl hB' hx)
  · intro b B' p hB' _ hp q v hq
    obtain ⟨Q, _, h, _⟩ := phiAv hB' hp hq
    exact (c.edge q b).mpr h
  · intro b B' p q hB' _ hp he _
    obtain ⟨_, _, h, _⟩ := c.phiOk P hl hB' hp (fun h => h)
    exact h q ((c.edge q b).mp he)
  · intro b B' p q x h hB' _ hp hq hd _ _
    obtain ⟨Q, _, _, hav⟩ := phiAv hB' hp hq
    obtain ⟨d, hd', hdom⟩ := (hav x rfl).home
    have := c.homeUnique P hd' (c.defIn.mp hd)
    subst this
    exact (c.domi _ _).mpr hdom
  · intro b B' x h hB' _ hu hd
    have : ∃ k, Av F Φ b k x := by
      rcases hu with ⟨i, hi, hx⟩ | hx
      · obtain ⟨k, hk⟩ := List.getElem?_of_mem hi
        exact ⟨k, c.useAv P hl hB' hk hx⟩
      · exact ⟨_, c.termAv P hl hB' hx⟩
    obtain ⟨k, hav⟩ := this
    obtain ⟨d, hd', hdom⟩ := hav.home
    have := c.homeUnique P hd' (c.defIn.mp hd)
    subst this
    exact (c.domi _ _).mpr hdom
  · intro b B' hB'
    obtain ⟨B, hB, _⟩ := c.back hB'
    rw [c.order]
    exact P.listed b B hB
  · intro b hb
    rw [c.order] at hb
    obtain ⟨B, hB⟩ := P.total b hb
    obtain ⟨B', hB', _⟩ := c.some_ b B hB
    exact ⟨B', hB'⟩
  · rw [c.entry, c.order]; exact P.entryIn
  · intro B' hB'
    rw [c.entry] at hB'
    cases hps : B'.phis with
    | nil => rfl
    | cons p ps => exact absurd rfl (c.phiOk P hl hB' (p := p) (by rw [hps]; simp) (fun h => h)).1
  · intro b B' p x h hB' _ hp hx hd
    obtain ⟨B0, hB0, _⟩ := hd
    obtain ⟨B, hB, _⟩ := c.back hB0
    exact (c.live h).mpr (hl h B hB)

end
end Cmmc.SSA
