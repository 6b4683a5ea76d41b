import Verif.SSA.M2Sim
/-!
# A certificate for ScalarMem2Reg implies that nothing observable changes: executing instructions, entering blocks, whole runs
-/
namespace Cmmc.SSA
section
variable {L : Lang} {kind : L.Op → Kind} {F G : L.F} {vars : List Nat} {Φ : List (Nat × Nat × Nat)} {E : List (Nat × Opd L.C)} {S : Slots L kind} {opn : Nat → Prop}

theorem eval_set {e : Env L} {i : Nat} {v : L.V} {o : Opd L.C} (h : o ≠ .inst i) : eval L (setEnv L e i v) o = eval L e o := by
  cases o with
  | cst c => rfl
  | inst x =>
    simp only [eval, setEnv]
    rw [if_neg]
    rintro rfl
    exact h rfl

/-- one instruction -/
theorem Sim.inst (c : Cert kind F vars Φ E G opn) (V : Private kind S.slot F vars) (P : Proper F) (hl : AllLive F) {b j : Nat} {B : L.B} (hB : F.blk b = some B)
    {i : Inst L.Op L.C} (hi : B.body[j]? = some i) {e e' : Env L} {m m' : L.M} {vs : List L.V} {v : L.V} {es : List L.E} (s : Sim S F vars Φ E b j e e' m)
    (hvs : evals L e i.args = some vs) (hs : L.sem i.op vs m = .ok v m' es) :
    Sim S F vars Φ E b (j + 1) (setEnv L e i.id v) (setEnv L e' i.id v) m' := by
  have hb := hl b B hB
  have hdef := Inst.defIn hB hi
  obtain ⟨hpriv, hmem⟩ := s.priv.inst V P hb hB hi hvs hs
  have hnav : ¬ Av F Φ b j i.id := by
    rintro (h | ⟨a, d, h, _⟩)
    · exact P.not_avail hB hi h
    · exact c.noPhi hdef _ _ h
  have hsucc : ∀ x, Av F Φ b (j + 1) x → Av F Φ b j x ∨ x = i.id := by
    rintro x (h | h)
    · exact (avail_succ hB hi h).imp_left .inl
    · exact .inl (.inr h)
  have hset : ∀ {o}, AvO F Φ b j o → eval L (setEnv L e' i.id v) o = eval L e' o := fun {o} h => eval_set (fun he => hnav (h _ he))
  have hsetx : ∀ {x}, Av F Φ b j x → setEnv L e' i.id v x = e' x := fun {x} h => by
    unfold setEnv; rw [if_neg]; rintro rfl; exact hnav h
  have heqs : ∀ x o, (x, o) ∈ E → Av F Φ b (j + 1) x → eval L (setEnv L e' i.id v) o = setEnv L e' i.id v x := by
    intro x o hxo hav
    rcases hsucc x hav with h | rfl
    · rw [hset (c.eqAv P hxo hb h), hsetx h]
      exact s.eqs x o hxo h
    · -- the replaced instruction itself
      have hE := c.eqs _ _ hxo
      generalize hx : i.id = x at hE
      cases hE with
      | @load b' B' j' i' a _ hB' hi' hk ha hv hval havo =>
        have hbb := P.home (Inst.defIn hB' hi') (hx ▸ hdef)
        subst hbb
        rw [hB] at hB'
        cases hB'
        have hjj := P.index hB hi hi' hx.symm
        subst hjj
        rw [hi] at hi'
        cases hi'
        rw [hset havo]
        unfold setEnv
        rw [if_pos rfl]
        have hao := V.lead a hv
        obtain ⟨B0, j0, i0, hB0, hi0, hid0, hk0, _⟩ := hao
        obtain ⟨k, hk1⟩ := S.slotOf _ _ hk0
        have hk' : SlotOf S F a k := ⟨_, B0, i0, hB0, List.mem_of_getElem? hi0, hid0, hk1⟩
        exact s.vals a _ hval hv k v hk' ((hmem a hv k hk').2.2.1 hk ha)
      | @phi b' B' p _ hB' hp _ _ _ =>
        obtain ⟨B0, hB0, ⟨a, ha, _⟩ | ⟨p0, hp0, hr⟩⟩ := c.phiCases hB' hp
        · exact absurd ha (c.noPhi (hx ▸ hdef) _ _)
        · have hbb := P.home ⟨B0, hB0, List.mem_append.mpr (.inl (List.mem_map.mpr ⟨p0, hp0, rfl⟩))⟩ (by rw [← hr.1, ← hx]; exact hdef)
          subst hbb
          rw [hB] at hB0
          cases hB0
          have hids := P.block_ids hB
          unfold Block.ids at hids
          rw [List.nodup_append] at hids
          exact absurd (hr.1.symm.trans hx.symm) (hids.2.2 _ (List.mem_map.mpr ⟨p0, hp0, rfl⟩) _ (List.mem_map.mpr ⟨i, List.mem_of_getElem? hi, rfl⟩))
  refine ⟨?_, ?_, heqs, ?_, hpriv⟩
  · intro x hx
    unfold setEnv
    split
    · rfl
    · exact s.agree x hx
  · intro x hav
    unfold setEnv
    split
    · simp
    · rename_i hne
      rcases hsucc x hav with h | h
      · exact s.dfd x h
      · exact absurd h hne
  · have key : ∀ a b' n o, Val kind F Φ E a b' n o → b' = b → n = j + 1 → a ∈ vars → ∀ k w, SlotOf S F a k → S.get m' k = some w →
        eval L (setEnv L e' i.id v) o = some w := by
      intro a b' n o hval
      induction hval with
      | @store a b' j' B' i' o h1 h2 h3 h4 h5 =>
        rintro rfl hj ha k w hk hw
        obtain rfl : j = j' := by omega
        rw [hB] at h1
        cases h1
        rw [hi] at h2
        cases h2
        obtain ⟨w', e1, e2⟩ := (hmem a ha k hk).2.2.2 o h3 h4 h5
        rw [e2] at hw
        cases hw
        have hoav : ∀ x, o = .inst x → Avail F b' j x := fun x hx => P.use_avail hB hb hi (hx ▸ List.mem_of_getElem? h5)
        rw [hset (fun x hx => .inl (hoav x hx)), s.orig c hoav]
        exact e1
      | @alloca a b' j' B' i' _ h1 h2 h3 =>
        rintro rfl hj ha k w hk hw
        obtain rfl : j = j' := by omega
        rw [hB] at h1
        cases h1
        rw [hi] at h2
        cases h2
        rw [(hmem a ha k hk).1 h3] at hw
        cases hw
      | @keep a b' j' B' i' o hv h1 h2 h3 ih =>
        rintro rfl hj ha k w hk hw
        obtain rfl : j = j' := by omega
        rw [hB] at h1
        cases h1
        rw [hi] at h2
        cases h2
        rw [hset (c.valAv P hl hv)]
        refine s.vals a o hv ha k w hk ?_
        rw [← (hmem a ha k hk).2.1 (Val.slotAvail c V P hl hv ha) h3]
        exact hw
      | phi => intro _ h; omega
      | single => intro _ h; omega
      | @repl a b' j' x o hv hxo ih =>
        rintro rfl rfl ha k w hk hw
        rw [heqs x o hxo (c.valAv P hl hv x rfl)]
        exact ih rfl rfl ha k w hk hw
    exact fun a o hval ha k w hk hw => key a b (j + 1) o hval rfl rfl ha k w hk hw

/-! ## entering a block -/

theorem PhiRep.at {p p' : Phi L.C} (h : PhiRep E p p') (q : Nat) : match p.at q with | none => p'.at q = none | some o => ∃ o', p'.at q = some o' ∧ Rep E o o' := by
  have hf := h.2
  unfold Phi.at
  generalize p.inc = l at hf
  generalize p'.inc = l' at hf
  induction hf with
  | nil => simp
  | @cons e e' l l' he _ ih =>
    obtain ⟨k, o⟩ := e
    obtain ⟨k', o'⟩ := e'
    simp only at he
    obtain ⟨rfl, hr⟩ := he
    by_cases hk : k' = q
    · simp only [List.find?_cons, hk, beq_self_eq_true, Option.map_some]
      exact ⟨o', rfl, hr⟩
    · have : (k' == q) = false := by simpa using hk
      simp only [List.find?_cons, this]
      exact ih

theorem Sim.enter (c : Cert kind F vars Φ E G (fun _ => False)) (V : Private kind S.slot F vars) (P : Proper F) (hl : AllLive F) {q b : Nat} {Q B B' : L.B} (he : Edge F q b)
    (hQ : F.blk q = some Q) (hB : F.blk b = some B) (hB' : G.blk b = some B') {e e' e1 : Env L} {m : L.M} (s : Sim S F vars Φ E q Q.body.length e e' m)
    (hen : enterPhis L (some q) e B.phis e = some e1) :
    ∃ e1', enterPhis L (some q) e' B'.phis e' = some e1' ∧ Sim S F vars Φ E b 0 e1 e1' m := by
  have hq := hl q Q hQ
  have hb := hl b B hB
  obtain ⟨B1, hB1, hr⟩ := c.some_ b B hB
  rw [hB'] at hB1
  cases hB1
  have hids' := c.phiIds P hB'
  have hids : (B.phis.map Phi.id).Nodup := by
    have := P.block_ids hB
    unfold Block.ids at this
    exact (List.nodup_append.mp this).1
  -- the operand of a phi of `G`
  have hop : ∀ p ∈ B'.phis, ∃ o, p.at q = some o ∧ (q, o) ∈ p.inc ∧ AvO F Φ q Q.body.length o ∧ phiVal L (some q) e' p = eval L e' o := by
    intro p hp
    obtain ⟨_, _, h3, h4⟩ := c.phiOk P hl hB' hp (fun h => h)
    obtain ⟨o0, ho0⟩ := h3 q he
    obtain ⟨o, ho⟩ : ∃ o, p.at q = some o := by
      unfold Phi.at
      cases hf : p.inc.find? (fun e => e.1 == q) with
      | none => exact absurd (List.find?_eq_none.mp hf _ ho0) (by simp)
      | some e => exact ⟨e.2, rfl⟩
    have hmem := Phi.at_mem ho
    exact ⟨o, ho, hmem, (h4 q o hmem).2 Q hQ, by simp only [phiVal, ho]⟩
  have hdefd : ∀ {o}, AvO F Φ q Q.body.length o → eval L e' o ≠ none := by
    intro o h
    cases o with
    | cst c => simp [eval]
    | inst x => exact s.dfd x (h x rfl)
  obtain ⟨e1', hen', _, _⟩ := enterPhis_some (L := L) (pred := some q) (old := e') B'.phis e' (by
    intro p hp
    obtain ⟨o, _, _, h1, h2⟩ := hop p hp
    rw [h2]
    exact hdefd h1)
  refine ⟨e1', hen', ?_⟩
  have hval' := fun p hp => enterPhis_val hen' hids' p hp
  have hoth' := fun x hx => enterPhis_other hen' x hx
  -- phis have their home here
  have hhome : ∀ x, x ∈ B'.phis.map Phi.id → Home F Φ x b := by
    intro x hx
    obtain ⟨p, hp, rfl⟩ := List.mem_map.mp hx
    exact c.phiHome hB' hp
  have hkeep : ∀ {x d}, Home F Φ x d → d ≠ b → e1' x = e' x := fun {x d} h hne =>
    hoth' x (fun hm => hne (c.homeUnique P h (hhome x hm)))
  have hkeepO : ∀ {o}, (∀ x, o = .inst x → ∃ d, Home F Φ x d ∧ d ≠ b) → eval L e1' o = eval L e' o := by
    intro o h
    cases o with
    | cst c => rfl
    | inst x => obtain ⟨d, h1, h2⟩ := h x rfl; exact hkeep h1 h2
  -- what is available here is a phi of this block or was available before
  have havail : ∀ x, Av F Φ b 0 x → x ∈ B'.phis.map Phi.id ∨ ∃ d, Home F Φ x d ∧ d ≠ b ∧ Domi F d b ∧ Av F Φ q Q.body.length x := by
    intro x hx
    have hN : ∀ a, (x, a, b) ∈ Φ → x ∈ B'.phis.map Phi.id := by
      intro a ha
      obtain ⟨N, ps, e1, _, e3, _⟩ := hr.phis
      rw [e1, List.map_append, List.mem_append, e3]
      exact .inl (mem_newAt.mpr ⟨a, ha⟩)
    have hO : x ∈ B.phis.map Phi.id → x ∈ B'.phis.map Phi.id := by
      intro hx
      obtain ⟨N, ps, e1, e2, _, _⟩ := hr.phis
      have hps : ps.map Phi.id = B.phis.map Phi.id := by
        clear e1
        generalize B.phis = qs at e2
        induction e2 with
        | nil => rfl
        | cons h _ ih => rw [List.map_cons, List.map_cons, ih, h.1]
      rw [e1, List.map_append, List.mem_append, hps]
      exact .inr hx
    obtain ⟨d, hd, hdom⟩ := hx.home
    by_cases hdb : d = b
    · subst hdb
      left
      rcases hx with ⟨d', h1, _, hin⟩ | ⟨a, d', ha, _⟩
      · have := c.homeUnique P hd (.inl h1)
        subst this
        obtain ⟨B2, hB2, hm⟩ := hin rfl
        rw [hB] at hB2
        cases hB2
        rcases hm with hm | hm
        · exact hO hm
        · simp at hm
      · have := c.homeUnique P hd (.inr ⟨a, ha⟩)
        subst this
        exact hN a ha
    · exact .inr ⟨d, hd, hdb, hdom, hd.avEnd P (hdom.pred hdb he) hQ⟩
  have hagree : ∀ x, (∀ a d, (x, a, d) ∉ Φ) → e1' x = e1 x := by
    intro x hx
    by_cases hm : x ∈ B.phis.map Phi.id
    · obtain ⟨p0, hp0, rfl⟩ := List.mem_map.mp hm
      obtain ⟨N, ps, h1, h2, _, _⟩ := hr.phis
      obtain ⟨n, hn, e0⟩ := List.getElem_of_mem hp0
      have hlen := h2.length_eq
      have hrel := h2.get (i := n) hn (by omega)
      simp only [List.get_eq_getElem, e0] at hrel
      have hp : ps[n] ∈ B'.phis := by rw [h1]; exact List.mem_append.mpr (.inr (List.getElem_mem _))
      obtain ⟨v1, _⟩ := hval' _ hp
      obtain ⟨v2, _⟩ := enterPhis_val hen hids p0 hp0
      rw [hrel.1] at v1
      rw [v1, v2]
      have hat := hrel.at q
      obtain ⟨v, hv⟩ := P.phiAll b B p0 q hB hb hp0 he hq
      cases h0 : p0.at q with
      | none =>
        unfold Phi.at at h0
        cases hf : p0.inc.find? (fun e => e.1 == q) with
        | none => exact absurd (List.find?_eq_none.mp hf _ hv) (by simp)
        | some e => rw [hf] at h0; cases h0
      | some o =>
        rw [h0] at hat
        obtain ⟨o', ho', hrep⟩ := hat
        simp only [phiVal, ho', h0]
        have hoav : ∀ x, o = .inst x → Avail F q Q.body.length x := by
          intro x hx
          subst hx
          exact P.phi_avail hB hb hQ hq hp0 (Phi.at_mem h0)
        rw [s.rep c P hq hrep (fun x hx => .inl (hoav x hx)), s.orig c hoav]
    · have hm' : x ∉ B'.phis.map Phi.id := by
        obtain ⟨N, ps, h1, h2, h3, _⟩ := hr.phis
        have hps : ps.map Phi.id = B.phis.map Phi.id := by
          clear h1
          generalize B.phis = qs at h2
          induction h2 with
          | nil => rfl
          | cons h _ ih => rw [List.map_cons, List.map_cons, ih, h.1]
        rw [h1, List.map_append, List.mem_append, h3, hps]
        rintro (h | h)
        · obtain ⟨a, ha⟩ := mem_newAt.mp h; exact hx _ _ ha
        · exact hm h
      rw [hoth' x hm', enterPhis_other hen x hm]
      exact s.agree x hx
  have heqs : ∀ x o, (x, o) ∈ E → Av F Φ b 0 x → eval L e1' o = e1' x := by
    intro x o hxo hav
    rcases havail x hav with hm | ⟨d, hd, hdb, hdom, hq'⟩
    · have hxb := hhome x hm
      have hE := c.eqs x o hxo
      cases hE with
      | @load b' B2 j i a _ hB2 hi _ _ _ _ _ =>
        have hbb := c.homeUnique P hxb (.inl (Inst.defIn hB2 hi))
        subst hbb
        exfalso
        rcases hav with h | ⟨a', d', h, _⟩
        · exact P.not_avail hB2 hi (avail_mono h (Nat.zero_le _))
        · exact c.noPhi (Inst.defIn hB2 hi) _ _ h
      | @phi b' B2 p _ hB2 hp _ hall hab =>
        have hbb := c.homeUnique P hxb (c.phiHome hB2 hp)
        subst hbb
        rw [hB'] at hB2
        cases hB2
        obtain ⟨o', h1, h2, h3, h4⟩ := hop p hp
        rw [(hval' p hp).1, h4]
        have hoq : AvO F Φ q Q.body.length o := by
          intro y hy
          obtain ⟨d, hd, hne, hdom⟩ := hab y hy
          exact hd.avEnd P (hdom.pred hne he) hQ
        rw [s.rep c P hq (hall o' (mem_ops.mpr ⟨q, h2⟩)) hoq]
        refine hkeepO (fun y hy => ?_)
        obtain ⟨d, hd, hne, _⟩ := hab y hy
        exact ⟨d, hd, hne⟩
    · rw [hkeep hd hdb, ← s.eqs x o hxo hq']
      refine hkeepO (fun y hy => ?_)
      have hdl := hdom.live hb
      obtain ⟨D, hD⟩ := P.blk hdl
      obtain ⟨d', hd', hdom'⟩ := (c.eqAv P hxo hdl (hd.avEnd P Dom.dominates_refl hD) y hy).home
      refine ⟨d', hd', fun e => ?_⟩
      subst e
      exact hdb (hdom.antisymm hdom' hb)
  refine ⟨hagree, ?_, heqs, ?_, ?_⟩
  · intro x hav
    rcases havail x hav with hm | ⟨d, hd, hdb, _, hq'⟩
    · obtain ⟨p, hp, rfl⟩ := List.mem_map.mp hm
      exact (hval' p hp).2
    · rw [hkeep hd hdb]; exact s.dfd x hq'
  · have key : ∀ a b' n o, Val kind F Φ E a b' n o → b' = b → n = 0 → a ∈ vars → ∀ k w, SlotOf S F a k → S.get m k = some w → eval L e1' o = some w := by
      intro a b' n o hval
      induction hval with
      | store => intro _ h; omega
      | alloca => intro _ h; omega
      | keep => intro _ h; omega
      | @phi x a b' hm =>
        rintro rfl _ ha k w hk hw
        obtain ⟨N, ps, h1, _, h3, h4⟩ := hr.phis
        have : x ∈ N.map Phi.id := by rw [h3]; exact mem_newAt.mpr ⟨a, hm⟩
        obtain ⟨p, hp, rfl⟩ := List.mem_map.mp this
        have hp' : p ∈ B'.phis := by rw [h1]; exact List.mem_append.mpr (.inl hp)
        obtain ⟨o', g1, g2, g3, g4⟩ := hop p hp'
        show e1' p.id = _
        rw [(hval' p hp').1, g4]
        exact s.vals a o' (((h4 p hp a hm).ops q o' g2).2 Q hQ) ha k w hk hw
      | @single a b' q' Q' o h1 h2 h3 hv _ =>
        rintro rfl _ ha k w hk hw
        have := (h1 q).mp he
        subst this
        rw [hQ] at h3
        cases h3
        rw [hkeepO]
        · exact s.vals a o hv ha k w hk hw
        · intro x hx
          obtain ⟨d, hd, hdom⟩ := (c.valAv P hl hv x hx).home
          exact ⟨d, hd, fun e => (single_dom h1 h2 hb).2 (e ▸ hdom)⟩
      | @repl a b' j' x o hv hxo ih =>
        rintro rfl rfl ha k w hk hw
        rw [heqs x o hxo (c.valAv P hl hv x rfl)]
        exact ih rfl rfl ha k w hk hw
    exact fun a o hval ha k w hk hw => key a b 0 o hval rfl rfl ha k w hk hw
  · intro a ha k hk
    obtain ⟨h1, h2⟩ := s.priv a ha k hk
    have hab : a ∉ B.phis.map Phi.id := by
      intro hm
      obtain ⟨B0, j0, i0, hB0, hi0, hid0, _⟩ := V.lead a ha
      have := P.home ⟨B, hB, List.mem_append.mpr (.inl hm)⟩ (hid0 ▸ Inst.defIn hB0 hi0)
      subst this
      rw [P.entryPhis B hB] at hm
      simp at hm
    refine ⟨fun x v hx hv => ?_, fun hav => ?_⟩
    · by_cases hm : x ∈ B.phis.map Phi.id
      · obtain ⟨p, hp, rfl⟩ := List.mem_map.mp hm
        rw [(enterPhis_val hen hids p hp).1] at hv
        unfold phiVal at hv
        simp only at hv
        split at hv
        · cases hv
        · rename_i o ho
          cases o with
          | cst c => simp only [eval, Option.some.injEq] at hv; rw [← hv]; exact S.cst k c
          | inst y =>
            refine h1 y v ?_ hv
            rintro rfl
            exact V.phi _ ha b B p hB hp (mem_ops.mpr ⟨q, Phi.at_mem ho⟩)
      · rw [enterPhis_other hen x hm] at hv
        exact h1 x v hx hv
    · rw [enterPhis_other hen a hab]
      rcases P.avail_enter he hQ hB hav with h | ⟨_, h⟩
      · exact absurd h hab
      · exact h2 h

/-- at the start -/
theorem Sim.entry (c : Cert kind F vars Φ E G opn) (P : Proper F) (m : L.M) : Sim S F vars Φ E F.entry 0 (fun _ => none) (fun _ => none) m := by
  have hno : ∀ x, ¬ Avail F F.entry 0 x := by
    rintro x ⟨d, _, hdom, hin⟩
    obtain ⟨B, hB, hm⟩ := hin (domi_entry hdom)
    rw [P.entryPhis B hB] at hm
    simp at hm
  have hno' : ∀ x, ¬ Av F Φ F.entry 0 x := by
    rintro x (h | ⟨a, d, h, hd⟩)
    · exact hno x h
    · exact (c.new _ _ _ h).1 (domi_entry hd)
  refine ⟨fun _ _ => rfl, fun x h => absurd h (hno' x), fun x o _ h => absurd h (hno' x), ?_, ?_⟩
  · have key : ∀ a b' n o, Val kind F Φ E a b' n o → b' = F.entry → n = 0 → False := by
      intro a b' n o hval
      induction hval with
      | store => intro _ h; omega
      | alloca => intro _ h; omega
      | keep => intro _ h; omega
      | phi h => intro h' _; exact (c.new _ _ _ h).1 h'
      | single _ h => intro h' _; exact h h'
      | repl _ _ ih => exact ih
    intro a o hv
    exact (key a _ _ o hv rfl rfl).elim
  · intro a _ k _
    exact ⟨fun x v _ h => (by cases h), fun h => absurd h (hno a)⟩

/-! ## whole runs -/

theorem Sim.body (c : Cert kind F vars Φ E G opn) (V : Private kind S.slot F vars) (P : Proper F) (hl : AllLive F) {b : Nat} {B B' : L.B} (hB : F.blk b = some B)
    (hr : List.Forall₂ (InstRel E) B.body B'.body) :
    ∀ (n j : Nat) (e e' : Env L) (m : L.M) (es : List L.E), B.body.length - j = n → j ≤ B.body.length → Sim S F vars Φ E b j e e' m →
      match execBody L (B.body.drop j) e m es with
      | .ub => True
      | .halt es1 h => execBody L (B'.body.drop j) e' m es = .halt es1 h
      | .ok e1 m1 es1 => ∃ e1', execBody L (B'.body.drop j) e' m es = .ok e1' m1 es1 ∧ Sim S F vars Φ E b B.body.length e1 e1' m1 := by
  have hlen := hr.length_eq
  intro n
  induction n with
  | zero =>
    intro j e e' m es hn hj s
    obtain rfl : j = B.body.length := by omega
    rw [List.drop_length, hlen, List.drop_length]
    simp only [execBody]
    exact ⟨e', rfl, by rw [← hlen]; exact s⟩
  | succ n ih =>
    intro j e e' m es hn hj s
    have hlt : j < B.body.length := by omega
    have hlt' : j < B'.body.length := by omega
    rw [List.drop_eq_getElem_cons hlt, List.drop_eq_getElem_cons hlt']
    have hi : B.body[j]? = some B.body[j] := List.getElem?_eq_getElem hlt
    have hrel := hr.get (i := j) hlt hlt'
    simp only [List.get_eq_getElem] at hrel
    obtain ⟨h1, h2, h3⟩ := hrel
    have hargs := s.args c P (hl b B hB) h3 (fun x hx => P.use_avail hB (hl b B hB) hi hx)
    simp only [execBody]
    rw [hargs, h1, h2]
    cases hvs : evals L e B.body[j].args with
    | none => trivial
    | some vs =>
      simp only
      cases hs : L.sem B.body[j].op vs m with
      | ub => trivial
      | halt es' h => simp
      | ok v m' es' =>
        simp only
        exact ih (j + 1) _ _ m' (es ++ es') (by omega) hlt (Sim.inst c V P hl hB hi s hvs hs)

/-- the certified function may replace the original -/
theorem Cert.refines (S : Slots L kind) (c : Cert kind F vars Φ E G (fun _ => False)) (V : Private kind S.slot F vars) (P : Proper F) (hl : AllLive F) : Refines L F G := by
  let R : St L → St L → Prop := fun s t => s.pred = t.pred ∧ s.cur = t.cur ∧ s.m = t.m ∧ s.tr = t.tr ∧
    match s.pred with
    | none => s.cur = F.entry ∧ s.env = (fun _ => none) ∧ t.env = (fun _ => none)
    | some q => Edge F q s.cur ∧ ∃ Q, F.blk q = some Q ∧ Sim S F vars Φ E q Q.body.length s.env t.env s.m
  refine Simulation.refines (R := R) ?_ ?_
  · rintro ⟨pred, cur, e, m, tr⟩ ⟨pred', cur', e', m', tr'⟩ ⟨h1, h2, h3, h4, h5⟩
    simp only at h1 h2 h3 h4
    subst h1 h2 h3 h4
    refine ⟨rfl, ?_⟩
    cases hB : F.blk cur with
    | none => exact .inl ⟨1, by rw [run_one]; unfold step; simp only [hB]⟩
    | some B =>
      obtain ⟨B', hB', hr⟩ := c.some_ cur B hB
      have hb := hl cur B hB
      cases hen : enterPhis L pred e B.phis e with
      | none => exact .inl ⟨1, by rw [run_one]; unfold step; simp only [hB, stepBlk, hen]⟩
      | some e1 =>
        obtain ⟨e1', hen', s⟩ : ∃ e1', enterPhis L pred e' B'.phis e' = some e1' ∧ Sim S F vars Φ E cur 0 e1 e1' m := by
          cases pred with
          | none =>
            simp only at h5
            obtain ⟨rfl, rfl, rfl⟩ := h5
            have hp := P.entryPhis B hB
            have hp' : B'.phis = [] := by
              cases hps : B'.phis with
              | nil => rfl
              | cons p ps =>
                exact absurd rfl (c.phiOk P hl hB' (p := p) (by rw [hps]; simp) (fun h => h)).1
            rw [hp] at hen
            simp only [enterPhis, Option.some.injEq] at hen
            subst hen
            exact ⟨_, by rw [hp']; rfl, Sim.entry c P m⟩
          | some q =>
            simp only at h5
            obtain ⟨he, Q, hQ, s⟩ := h5
            exact Sim.enter c V P hl he hQ hB hB' s hen
        have hbody := Sim.body c V P hl hB hr.body B.body.length 0 e1 e1' m tr (by omega) (Nat.zero_le _) s
        rw [List.drop_zero, List.drop_zero] at hbody
        have hstepF : step L F ⟨pred, cur, e, m, tr⟩ = stepBlk L B ⟨pred, cur, e, m, tr⟩ := by unfold step; simp only [hB]
        have hstepG : step L G ⟨pred, cur, e', m, tr⟩ = stepBlk L B' ⟨pred, cur, e', m, tr⟩ := by unfold step; simp only [hB']
        simp only [stepBlk, hen] at hstepF
        simp only [stepBlk, hen'] at hstepG
        cases hx : execBody L B.body e1 m tr with
        | ub => rw [hx] at hstepF; exact .inl ⟨1, by rw [run_one]; exact hstepF⟩
        | halt es h =>
          rw [hx] at hstepF hbody
          simp only at hbody
          rw [hbody] at hstepG
          exact .inr (.inl ⟨1, 1, _, by rw [run_one]; exact hstepF, by rw [run_one]; exact hstepG⟩)
        | ok e2 m2 es2 =>
          rw [hx] at hstepF hbody
          simp only at hbody
          obtain ⟨e2', hx', s2⟩ := hbody
          rw [hx'] at hstepG
          have ht := s2.term c P hb hr.term (fun x hx => P.term_avail hB hb hx)
          simp only [ht] at hstepG
          cases hev : evalTerm L e2 B.term with
          | ub => simp only [hev] at hstepF; exact .inl ⟨1, by rw [run_one]; exact hstepF⟩
          | ret v =>
            simp only [hev] at hstepF hstepG
            exact .inr (.inl ⟨1, 1, _, by rw [run_one]; exact hstepF, by rw [run_one]; exact hstepG⟩)
          | goto b2 =>
            simp only [hev] at hstepF hstepG
            refine .inr (.inr ⟨0, 0, ⟨some cur, b2, e2, m2, es2⟩, ⟨some cur, b2, e2', m2, es2⟩, by rw [run_one]; exact hstepF, by rw [run_one]; exact hstepG, rfl, rfl, rfl, rfl, ?_⟩)
            exact ⟨⟨B, hB, evalTerm_targets hev⟩, B, hB, s2⟩
  · intro m
    refine ⟨rfl, ?_, rfl, rfl, ?_, rfl, rfl⟩
    · exact c.entry.symm
    · rfl

end
end Cmmc.SSA
