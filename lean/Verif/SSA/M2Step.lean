import Verif.SSA.M2Cert
/-!
# The steps of ScalarMem2Reg keep the certificate
-/
namespace Cmmc.SSA
section
variable {Op C : Type} {kind : Op → Kind} {F : Func Op C} {vars : List Nat} {Φ Φ' : List (Nat × Nat × Nat)} {E E' : List (Nat × Opd C)} {G G' : Func Op C}
  {opn opn' : Nat → Prop}

theorem Rep.trans {o p q : Opd C} (h : Rep E o p) (h' : Rep E p q) : Rep E o q := by
  induction h' with
  | refl => exact h
  | step _ e ih => exact .step ih e

theorem TermRel.mono (hE : ∀ e ∈ E, e ∈ E') {t t' : Term C} (h : TermRel E t t') : TermRel E' t t' := by
  cases h with
  | ret => exact .ret
  | retv h => exact .retv (h.mono hE)
  | br => exact .br
  | cbr h => exact .cbr (h.mono hE)
  | sw h => exact .sw (h.mono hE)
  | unreachable => exact .unreachable

theorem InstRel.mono (hE : ∀ e ∈ E, e ∈ E') {i i' : Inst Op C} (h : InstRel E i i') : InstRel E' i i' :=
  ⟨h.1, h.2.1, h.2.2.imp fun _ _ r => r.mono hE⟩

theorem PhiRep.mono (hE : ∀ e ∈ E, e ∈ E') {p p' : Phi C} (h : PhiRep E p p') : PhiRep E' p p' :=
  ⟨h.1, h.2.imp fun _ _ r => ⟨r.1, r.2.mono hE⟩⟩

theorem NewOk.mono (hΦ : ∀ e ∈ Φ, e ∈ Φ') (hE : ∀ e ∈ E, e ∈ E') {a b : Nat} {p : Phi C} (h : NewOk kind F Φ E a b p) : NewOk kind F Φ' E' a b p :=
  ⟨fun q o hq => ⟨(h.ops q o hq).1, fun Q hQ => ((h.ops q o hq).2 Q hQ).mono hΦ hE⟩, h.keys⟩

theorem EqOk.mono (hΦ : ∀ e ∈ Φ, e ∈ Φ') (hE : ∀ e ∈ E, e ∈ E')
    (hG : ∀ b B p, G.blk b = some B → p ∈ B.phis → ¬ opn p.id → ∃ B' p', G'.blk b = some B' ∧ p' ∈ B'.phis ∧ p'.id = p.id ∧ ¬ opn' p.id ∧
      ∀ v' ∈ p'.ops, ∃ v ∈ p.ops, Rep E' v v')
    {x : Nat} {o : Opd C} (h : EqOk kind F vars Φ E G opn x o) : EqOk kind F vars Φ' E' G' opn' x o := by
  cases h with
  | load h1 h2 h3 h4 h5 h6 h7 => exact .load h1 h2 h3 h4 h5 (h6.mono hΦ hE) (h7.ext hΦ)
  | phi h1 h2 h3 h4 h5 =>
    obtain ⟨B', p', e1, e2, e3, e4, e5⟩ := hG _ _ _ h1 h2 h3
    rw [← e3]
    refine .phi e1 e2 (by rw [e3]; exact e4) (fun v' hv' => ?_) (h5.ext hΦ)
    obtain ⟨v, hv, hr⟩ := e5 v' hv'
    exact ((h4 v hv).mono hE).trans hr

/-- a new phi without operands -/
theorem Cert.addPhi (c : Cert kind F vars Φ E G opn) {x a b : Nat} {B : Block Op C} (hb : b ≠ F.entry) (hB : F.blk b = some B) (ha : a ∈ vars)
    (hx : ∀ d, ¬ Home F Φ x d) : Cert kind F vars ((x, a, b) :: Φ) E (G.addPhi b x) (fun y => opn y ∨ y = x) := by
  have hsub : ∀ e ∈ Φ, e ∈ (x, a, b) :: Φ := fun e h => List.mem_cons_of_mem _ h
  have hxΦ : ∀ a' d, (x, a', d) ∉ Φ := fun a' d h => hx d (.inr ⟨a', h⟩)
  have hblk : ∀ d, (G.addPhi b x).blk d = (G.blk d).map (fun B => if d = b then { B with phis := ⟨x, []⟩ :: B.phis } else B) := fun d => Func.mapPhis_blk _ _ _ _
  refine ⟨(Func.mapPhis_entry _ _ _).trans c.entry, (Func.mapPhis_order _ _ _).trans c.order, ?_, ?_, ?_, ?_, ?_, ?_, ?_⟩
  · intro d hd
    rw [hblk, c.none_ d hd]; rfl
  · intro d D hD
    obtain ⟨B', hB', hr⟩ := c.some_ d D hD
    refine ⟨_, by rw [hblk, hB']; rfl, ?_⟩
    obtain ⟨N, ps, e1, e2, e3, e4⟩ := hr.phis
    have hold : ∀ p ∈ N, ∀ a', (p.id, a', d) ∈ (x, a, b) :: Φ → NewOk kind F ((x, a, b) :: Φ) E a' d p := by
      intro p hp a' h
      rcases List.mem_cons.mp h with h | h
      · simp only [Prod.mk.injEq] at h
        obtain ⟨a2, h2⟩ := mem_newAt.mp (e3 ▸ List.mem_map.mpr ⟨p, hp, rfl⟩ : p.id ∈ newAt Φ d)
        rw [h.1] at h2
        exact absurd h2 (hxΦ _ _)
      · exact (e4 p hp a' h).mono hsub (fun _ h => h)
    by_cases hdb : d = b
    · subst hdb
      simp only [if_true]
      refine ⟨hr.body, hr.term, ⟨x, []⟩ :: N, ps, ?_, e2, ?_, ?_⟩
      · simp [e1]
      · rw [List.map_cons, e3]; simp [newAt]
      · intro p hp a' h
        rcases List.mem_cons.mp hp with rfl | hp
        · exact ⟨fun q o hq => by simp at hq, by simp⟩
        · exact hold p hp a' h
    · simp only [if_neg hdb]
      refine ⟨hr.body, hr.term, N, ps, e1, e2, ?_, hold⟩
      rw [e3]
      unfold newAt
      rw [List.filter_cons_of_neg]
      simpa using fun e => hdb e.symm
  · intro y a' d h
    rcases List.mem_cons.mp h with h | h
    · simp only [Prod.mk.injEq] at h
      obtain ⟨rfl, rfl, rfl⟩ := h
      exact ⟨hb, ⟨B, hB⟩, ha, fun d hd => hx d (.inl hd)⟩
    · exact c.new y a' d h
  · rw [List.map_cons, List.nodup_cons]
    refine ⟨fun h => ?_, c.nodup⟩
    obtain ⟨⟨y, a', d⟩, h1, h2⟩ := List.mem_map.mp h
    simp only at h2
    subst h2
    exact hxΦ _ _ h1
  · intro y o h
    refine (c.eqs y o h).mono hsub (fun _ h => h) ?_
    intro d D p hD hp hop
    refine ⟨_, p, by rw [hblk, hD]; rfl, ?_, rfl, ?_, fun v hv => ⟨v, hv, .refl _⟩⟩
    · split
      · exact List.mem_cons_of_mem _ hp
      · exact hp
    · rintro (h | h)
      · exact hop h
      · exact hx d (h ▸ c.phiHome hD hp)
  · intro d D p hD hp hop hn q hq
    rw [hblk] at hD
    obtain ⟨D0, hD0, rfl⟩ := Option.map_eq_some_iff.mp hD
    have hne : p.id ≠ x := fun e => hop (.inr e)
    have hp0 : p ∈ D0.phis := by
      split at hp
      · rcases List.mem_cons.mp hp with rfl | hp
        · exact absurd rfl hne
        · exact hp
      · exact hp
    obtain ⟨a', ha'⟩ := mem_newAt.mp hn
    rcases List.mem_cons.mp ha' with h | h
    · simp only [Prod.mk.injEq] at h; exact absurd h.1 hne
    · exact c.done d D0 p hD0 hp0 (fun h => hop (.inl h)) (mem_newAt.mpr ⟨a', h⟩) q hq
  · rintro y (h | h)
    · obtain ⟨a', d, h⟩ := c.opnNew y h; exact ⟨a', d, hsub _ h⟩
    · exact ⟨a, b, by rw [h]; simp⟩

/-- one more operand of an open phi -/
theorem Cert.addInc (c : Cert kind F vars Φ E G opn) {x a b q : Nat} {o : Opd C} (hx : (x, a, b) ∈ Φ) (ho : opn x) (he : Edge F q b)
    (hv : ∀ Q, F.blk q = some Q → Val kind F Φ E a q Q.body.length o)
    (hq : ∀ B p, G.blk b = some B → p ∈ B.phis → p.id = x → q ∉ p.inc.map Prod.fst) : Cert kind F vars Φ E (G.addInc b x q o) opn := by
  have hblk : ∀ d, (G.addInc b x q o).blk d = (G.blk d).map (fun B => if d = b then { B with phis := B.phis.map (fun p => if p.id = x then p.addIncoming q o else p) } else B) :=
    fun d => Func.mapPhis_blk _ _ _ _
  have hid : ∀ p : Phi C, (if p.id = x then p.addIncoming q o else p).id = p.id := by intro p; split <;> rfl
  -- a phi of the result other than `x` is a phi of `G`
  have back : ∀ d D p, (G.addInc b x q o).blk d = some D → p ∈ D.phis → p.id ≠ x → ∃ D0, G.blk d = some D0 ∧ p ∈ D0.phis := by
    intro d D p hD hp hne
    rw [hblk] at hD
    obtain ⟨D0, hD0, rfl⟩ := Option.map_eq_some_iff.mp hD
    refine ⟨D0, hD0, ?_⟩
    split at hp
    · obtain ⟨p0, hp0, e⟩ := List.mem_map.mp hp
      split at e
      · subst e; exact absurd (by assumption) hne
      · exact e ▸ hp0
    · exact hp
  refine ⟨(Func.mapPhis_entry _ _ _).trans c.entry, (Func.mapPhis_order _ _ _).trans c.order, ?_, ?_, c.new, c.nodup, ?_, ?_, c.opnNew⟩
  · intro d hd
    rw [hblk, c.none_ d hd]; rfl
  · intro d D hD
    obtain ⟨B', hB', hr⟩ := c.some_ d D hD
    refine ⟨_, by rw [hblk, hB']; rfl, ?_⟩
    obtain ⟨N, ps, e1, e2, e3, e4⟩ := hr.phis
    by_cases hdb : d = b
    · subst hdb
      simp only [if_true]
      refine ⟨hr.body, hr.term, N.map (fun p => if p.id = x then p.addIncoming q o else p), ps, ?_, e2, ?_, ?_⟩
      · simp only [e1, List.map_append]
        congr 1
        have : ∀ p ∈ ps, (if p.id = x then p.addIncoming q o else p) = p := by
          intro p hp
          rw [if_neg]
          rintro rfl
          obtain ⟨k, hk, e'⟩ := List.getElem_of_mem hp
          have hl := e2.length_eq
          have := e2.get (i := k) (by omega) hk
          simp only [List.get_eq_getElem, e'] at this
          refine (c.new _ _ _ hx).2.2.2 d ⟨D, hD, List.mem_append.mpr (.inl ?_)⟩
          exact List.mem_map.mpr ⟨_, List.getElem_mem (by omega), this.1.symm⟩
        rw [List.map_congr_left this, List.map_id']
      · rw [List.map_map, ← e3]
        exact List.map_congr_left (fun p _ => hid p)
      · intro p hp a' h
        obtain ⟨p0, hp0, rfl⟩ := List.mem_map.mp hp
        rw [hid] at h
        have h0 := e4 p0 hp0 a' h
        by_cases hpx : p0.id = x
        · rw [if_pos hpx]
          subst hpx
          have haa : a' = a := by
            have := List.inj_on_of_nodup_map c.nodup h hx rfl
            simp only [Prod.mk.injEq] at this
            exact this.2.1
          subst haa
          refine ⟨?_, ?_⟩
          · intro q' o' h'
            simp only [Phi.addIncoming, List.mem_append, List.mem_singleton, Prod.mk.injEq] at h'
            rcases h' with h' | ⟨rfl, rfl⟩
            · exact h0.ops q' o' h'
            · exact ⟨he, hv⟩
          · simp only [Phi.addIncoming, List.map_append, List.map_cons, List.map_nil]
            rw [List.nodup_append]
            refine ⟨h0.keys, by simp, ?_⟩
            intro k hk k' hk' e
            simp only [List.mem_singleton] at hk'
            subst e hk'
            exact hq B' p0 hB' (by rw [e1]; exact List.mem_append.mpr (.inl hp0)) rfl hk
        · rw [if_neg hpx]; exact h0
    · simp only [if_neg hdb]
      exact hr
  · intro y o' h
    refine (c.eqs y o' h).mono (fun _ h => h) (fun _ h => h) ?_
    intro d D p hD hp hop
    refine ⟨_, p, by rw [hblk, hD]; rfl, ?_, rfl, hop, fun v hv => ⟨v, hv, .refl _⟩⟩
    split
    · exact List.mem_map.mpr ⟨p, hp, if_neg (fun (e : p.id = x) => hop (e ▸ ho))⟩
    · exact hp
  · intro d D p hD hp hop hn q' hq'
    obtain ⟨D0, hD0, hp0⟩ := back d D p hD hp (fun e => hop (e ▸ ho))
    exact c.done d D0 p hD0 hp0 hop hn q' hq'

/-- an open phi that has all operands -/
theorem Cert.close (c : Cert kind F vars Φ E G opn) {x : Nat}
    (h : ∀ b B p, G.blk b = some B → p ∈ B.phis → p.id = x → ∀ q, Edge F q b → ∃ o, (q, o) ∈ p.inc) : Cert kind F vars Φ E G (fun y => opn y ∧ y ≠ x) := by
  refine ⟨c.entry, c.order, c.none_, c.some_, c.new, c.nodup, ?_, ?_, fun y hy => c.opnNew y hy.1⟩
  · intro y o hy
    exact (c.eqs y o hy).mono (fun _ h => h) (fun _ h => h) (fun d D p hD hp hop => ⟨D, p, hD, hp, rfl, fun h => hop h.1, fun v hv => ⟨v, hv, .refl _⟩⟩)
  · intro b B p hB hp hop hn q hq
    by_cases hpx : p.id = x
    · exact h b B p hB hp hpx q hq
    · exact c.done b B p hB hp (fun h => hop ⟨h, hpx⟩) hn q hq

theorem Cert.congr (c : Cert kind F vars Φ E G opn) (h : ∀ x, opn x ↔ opn' x) : Cert kind F vars Φ E G opn' := by
  have : opn = opn' := funext fun x => propext (h x)
  rw [← this]; exact c

/-! ## replacing -/

theorem rep_one {x : Nat} {v o o' : Opd C} (hE : ∀ e ∈ E, e ∈ E') (hx : (x, v) ∈ E') (h : Rep E o o') : Rep E' o (o'.sub (one x v)) := by
  cases o' with
  | cst c => exact h.mono hE
  | inst y =>
    simp only [Opd.sub, one]
    split
    · rename_i e
      subst e
      exact .step (h.mono hE) hx
    · exact h.mono hE

theorem rep_one' {x : Nat} {v o : Opd C} (hx : (x, v) ∈ E') : Rep E' o (o.sub (one x v)) := rep_one (E := []) (by simp) hx (.refl _)

theorem termRel_one {x : Nat} {v : Opd C} (hE : ∀ e ∈ E, e ∈ E') (hx : (x, v) ∈ E') {t t' : Term C} (h : TermRel E t t') : TermRel E' t (t'.sub (one x v)) := by
  cases h with
  | ret => exact .ret
  | retv h => exact .retv (rep_one hE hx h)
  | br => exact .br
  | cbr h => exact .cbr (rep_one hE hx h)
  | sw h => exact .sw (rep_one hE hx h)
  | unreachable => exact .unreachable

theorem val_one {x : Nat} {v : Opd C} (hE : ∀ e ∈ E, e ∈ E') (hx : (x, v) ∈ E') {a b j : Nat} {o : Opd C} (h : Val kind F Φ E a b j o) :
    Val kind F Φ E' a b j (o.sub (one x v)) := (h.mono (fun _ h => h) hE).rep (rep_one' hx)

/-- all uses of `x` replaced by `o` -/
theorem Cert.replace (c : Cert kind F vars Φ E G opn) {x : Nat} {o : Opd C}
    (h : EqOk kind F vars Φ ((x, o) :: E) (G.replace x o) opn x o) : Cert kind F vars Φ ((x, o) :: E) (G.replace x o) opn := by
  have hE : ∀ e ∈ E, e ∈ (x, o) :: E := fun e h => List.mem_cons_of_mem _ h
  have hx : (x, o) ∈ (x, o) :: E := by simp
  have hblk : ∀ d, (G.replace x o).blk d = (G.blk d).map (Block.sub (one x o)) := fun d => rfl
  refine ⟨c.entry, c.order, ?_, ?_, c.new, c.nodup, ?_, ?_, c.opnNew⟩
  · intro d hd
    rw [hblk, c.none_ d hd]; rfl
  · intro d D hD
    obtain ⟨B', hB', hr⟩ := c.some_ d D hD
    refine ⟨_, by rw [hblk, hB']; rfl, ?_⟩
    obtain ⟨N, ps, e1, e2, e3, e4⟩ := hr.phis
    refine ⟨?_, termRel_one hE hx hr.term, N.map (Phi.sub (one x o)), ps.map (Phi.sub (one x o)), ?_, ?_, ?_, ?_⟩
    · simp only [Block.sub]
      rw [List.forall₂_map_right_iff]
      refine hr.body.imp fun i i' h => ⟨h.1, h.2.1, ?_⟩
      simp only [Inst.sub]
      rw [List.forall₂_map_right_iff]
      exact h.2.2.imp fun _ _ r => rep_one hE hx r
    · simp [Block.sub, e1]
    · rw [List.forall₂_map_right_iff]
      refine e2.imp fun p p' h => ⟨h.1, ?_⟩
      simp only [Phi.sub]
      rw [List.forall₂_map_right_iff]
      exact h.2.imp fun _ _ r => ⟨r.1, rep_one hE hx r.2⟩
    · rw [List.map_map, ← e3]; rfl
    · intro p hp a ha
      obtain ⟨p0, hp0, rfl⟩ := List.mem_map.mp hp
      have h0 := e4 p0 hp0 a ha
      refine ⟨?_, ?_⟩
      · intro q o' hq
        simp only [Phi.sub, List.mem_map, Prod.mk.injEq] at hq
        obtain ⟨⟨q0, o0⟩, hq0, rfl, rfl⟩ := hq
        obtain ⟨h1, h2⟩ := h0.ops _ _ hq0
        exact ⟨h1, fun Q hQ => val_one hE hx (h2 Q hQ)⟩
      · simp only [Phi.sub, List.map_map]
        exact h0.keys
  · intro y o' hy
    rcases List.mem_cons.mp hy with e | hy
    · simp only [Prod.mk.injEq] at e
      obtain ⟨rfl, rfl⟩ := e
      exact h
    · refine (c.eqs y o' hy).mono (fun _ h => h) hE ?_
      intro d D p hD hp hop
      refine ⟨_, p.sub (one x o), by rw [hblk, hD]; rfl, List.mem_map.mpr ⟨p, hp, rfl⟩, rfl, hop, ?_⟩
      intro v' hv'
      simp only [Phi.ops, Phi.sub, List.map_map, List.mem_map, Function.comp] at hv'
      obtain ⟨e, he, rfl⟩ := hv'
      exact ⟨e.2, List.mem_map.mpr ⟨e, he, rfl⟩, rep_one' hx⟩
  · intro d D p hD hp hop hn q hq
    rw [hblk] at hD
    obtain ⟨D0, hD0, rfl⟩ := Option.map_eq_some_iff.mp hD
    obtain ⟨p0, hp0, rfl⟩ := List.mem_map.mp hp
    obtain ⟨o', ho'⟩ := c.done d D0 p0 hD0 hp0 hop hn q hq
    exact ⟨_, List.mem_map.mpr ⟨_, ho', rfl⟩⟩

/-- replacing a phi all whose other operands are `o` -/
theorem Cert.replacePhi (c : Cert kind F vars Φ E G opn) (P : Proper F) (hl : AllLive F) {b : Nat} {B : Block Op C} (hB : G.blk b = some B) {p : Phi C} (hp : p ∈ B.phis)
    (ho : ¬ opn p.id) {o : Opd C} (hall : ∀ v ∈ p.ops, v = o ∨ v = .inst p.id) (hne : o ≠ .inst p.id) :
    Cert kind F vars Φ ((p.id, o) :: E) (G.replace p.id o) opn := by
  refine c.replace ?_
  have h := EqOk.phi (kind := kind) (F := F) (vars := vars) (Φ := Φ) (E := (p.id, o) :: E) (G := G.replace p.id o) (opn := opn) (b := b) (p := p.sub (one p.id o)) (o := o)
    (B := B.sub (one p.id o)) (by show (G.blk b).map _ = _; rw [hB]; rfl) (List.mem_map.mpr ⟨p, hp, rfl⟩) ho ?_ ((c.trivial P hl hB hp ho).2 o hall hne)
  · exact h
  · intro v' hv'
    simp only [Phi.ops, Phi.sub, List.map_map, List.mem_map, Function.comp] at hv'
    obtain ⟨e, he, rfl⟩ := hv'
    have : e.2.sub (one p.id o) = o := by
      rcases hall e.2 (List.mem_map.mpr ⟨e, he, rfl⟩) with h | h
      · rw [h]
        cases o with
        | cst c => rfl
        | inst y =>
          simp only [Opd.sub, one]
          rw [if_neg]
          rintro rfl
          exact hne rfl
      · rw [h]; simp [Opd.sub, one]
    rw [this]
    exact .refl _

/-- replacing a load by the content of the slot -/
theorem Cert.replaceLoad (c : Cert kind F vars Φ E G opn) (P : Proper F) (hl : AllLive F) {b j a : Nat} {B : Block Op C} (hB : F.blk b = some B) {i : Inst Op C}
    (hi : B.body[j]? = some i) (hk : kind i.op = .load) (ha : i.args[0]? = some (.inst a)) (hv : a ∈ vars) {o : Opd C} (h : Val kind F Φ E a b j o) :
    Cert kind F vars Φ ((i.id, o) :: E) (G.replace i.id o) opn :=
  c.replace (.load hB hi hk ha hv (h.mono (fun _ h => h) (fun _ h => List.mem_cons_of_mem _ h)) (c.valAv P hl h))

/-- at the start -/
theorem Cert.start : Cert kind F vars [] [] F (fun _ => False) := by
  refine ⟨rfl, rfl, fun _ h => h, fun b B hB => ⟨B, hB, ?_⟩, by simp, by simp, by simp, by simp [newAt], by simp⟩
  refine ⟨?_, ?_, [], B.phis, rfl, ?_, rfl, by simp⟩
  · rw [List.forall₂_same]
    intro i _
    exact ⟨rfl, rfl, by rw [List.forall₂_same]; exact fun _ _ => .refl _⟩
  · cases B.term with
    | ret v => cases v with
      | none => exact .ret
      | some o => exact .retv (.refl _)
    | br t => exact .br
    | cbr c t f => exact .cbr (.refl _)
    | sw c d cs => exact .sw (.refl _)
    | unreachable => exact .unreachable
  · rw [List.forall₂_same]
    intro p _
    exact ⟨rfl, by rw [List.forall₂_same]; exact fun _ _ => ⟨rfl, .refl _⟩⟩

end
end Cmmc.SSA
