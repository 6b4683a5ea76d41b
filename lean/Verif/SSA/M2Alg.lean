import Verif.SSA.M2Use
/-!
# ScalarMem2Reg: the whole pass produces a certificate
-/
namespace Cmmc.SSA

section
variable {Op C K : Type} {kind : Op → Kind} {slot : Op → Option K} {F : Func Op C} {vars : List Nat} {Φ Φ' : List (Nat × Nat × Nat)} {E E' : List (Nat × Opd C)}
  {opn opn' : Nat → Prop} {pos : Nat → Nat} {s s' : MS Op C}

/-- between two lookups: exactly the phis on the list are incomplete, and they have no operands -/
structure TInv (kind : Op → Kind) (F : Func Op C) (vars : List Nat) (pos : Nat → Nat) (Φ : List (Nat × Nat × Nat)) (E : List (Nat × Opd C)) (D : List Nat) (opn : Nat → Prop) (s : MS Op C) :
    Prop where
  inv : MInv kind F vars pos Φ E opn s
  iff : ∀ y, opn y ↔ (∃ e ∈ s.todo, e.2.2 = y) ∧ y ∉ D
  emp : ∀ b p, PhiAt s.G b p → opn p.id → p.inc = []
  todo : ∀ e ∈ s.todo, (e.2.2, e.2.1, e.1) ∈ Φ ∧ s.cur e.2.1 e.1 ≠ none ∧ e.1 ∉ s.fin
  nodup : (s.todo.map (fun e => e.2.2)).Nodup
  done : ∀ y ∈ D, ∃ e ∈ s.todo, e.2.2 = y

theorem TInv.ext {D : List Nat} {a : Nat} (h : TInv kind F vars pos Φ E D opn s) (I : MInv kind F vars pos Φ' E' opn' s') (X : Ext a (fun _ => False) Φ E opn s Φ' E' opn' s') :
    TInv kind F vars pos Φ' E' D opn' s' := by
  obtain ⟨T, t1, t2, t3, t4⟩ := X.todo
  have hlt : ∀ e ∈ s.todo, e.2.2 < s.next := fun e he => h.inv.new _ (h.todo e he).1
  refine ⟨I, ?_, ?_, ?_, ?_, ?_⟩
  · intro y
    rw [t2, h.iff, t1]
    simp only [List.mem_append]
    constructor
    · rintro (⟨⟨e, he, e1⟩, hD⟩ | ⟨e, he, e1⟩)
      · exact ⟨⟨e, .inl he, e1⟩, hD⟩
      · refine ⟨⟨e, .inr he, e1⟩, fun hD => ?_⟩
        obtain ⟨e', he', e1'⟩ := h.done y hD
        have := hlt e' he'
        have := (t4 e he).2.2.2.2.1
        omega
    · rintro ⟨⟨e, he | he, e1⟩, hD⟩
      · exact .inl ⟨⟨e, he, e1⟩, hD⟩
      · exact .inr ⟨e, he, e1⟩
  · intro b p hp ho
    by_cases hl : p.id < s.next
    · refine h.emp b p ((X.old b p hl (fun h => h)).mp hp) ?_
      rcases (t2 _).mp ho with ho | ⟨e, he, e1⟩
      · exact ho
      · have := (t4 e he).2.2.2.2.1; omega
    · exact X.fresh b p hp (by omega) ho
  · intro e he
    rw [t1, List.mem_append] at he
    rcases he with he | he
    · obtain ⟨h1, h2, h3⟩ := h.todo e he
      exact ⟨X.subΦ _ h1, X.cur _ _ h2, X.fin ▸ h3⟩
    · obtain ⟨h1, h2, h3, h4, h5, h6, h7⟩ := t4 e he
      rw [h2]
      exact ⟨h7, h4, X.fin ▸ h1⟩
  · rw [t1, List.map_append, List.nodup_append]
    refine ⟨h.nodup, t3, ?_⟩
    rintro x hx y hy rfl
    obtain ⟨e, he, e1⟩ := List.mem_map.mp hx
    obtain ⟨e', he', e1'⟩ := List.mem_map.mp hy
    have h1 := hlt e he
    have h2 := (t4 e' he').2.2.2.2.1
    omega
  · intro y hy
    obtain ⟨e, he, e1⟩ := h.done y hy
    exact ⟨e, by rw [t1]; exact List.mem_append.mpr (.inl he), e1⟩

section
variable (P : Proper F) (hl : AllLive F) (V : Private kind slot F vars)

section
include P V

/-- slots are not replaced -/
theorem Private.notE {G : Func Op C} (c : Cert kind F vars Φ E G opn) {a : Nat} (ha : a ∈ vars) {o : Opd C} : (a, o) ∉ E := by
  intro hm
  obtain ⟨B, j, i, hB, hi, hid, hk, _⟩ := V.lead a ha
  have hdef := V.defIn ha
  have := c.eqs a o hm
  generalize hx : a = x at this
  cases this with
  | @load b B' j' i' a' _ hB' hi' hk' =>
    have := P.home (hx ▸ Inst.defIn hB' hi') hdef
    subst this
    rw [hB] at hB'; cases hB'
    have := P.index hB hi hi' (hx.symm.trans hid.symm)
    subst this
    rw [hi] at hi'; cases hi'
    rw [hk] at hk'; cases hk'
  | @phi b B' p _ hB' hp =>
    obtain ⟨B0, hB0, ⟨a', h, _⟩ | ⟨p0, h0, hr⟩⟩ := c.phiCases hB' hp
    · exact (c.new _ _ _ h).2.2.2 _ (hx ▸ hdef)
    · have hb : b = F.entry := P.home ⟨B0, hB0, List.mem_append.mpr (.inl (List.mem_map.mpr ⟨p0, h0, hr.1.symm.trans hx.symm⟩))⟩ hdef
      subst hb
      rw [P.entryPhis B0 hB0] at h0
      simp at h0

theorem Rep.ofSlot {G : Func Op C} (c : Cert kind F vars Φ E G opn) {a : Nat} (ha : a ∈ vars) {o : Opd C} (r : Rep E (.inst a) o) : o = .inst a := by
  induction r with
  | refl => rfl
  | step _ h ih =>
    cases ih
    exact absurd h (V.notE P c ha)

theorem InstRel.addr {G : Func Op C} (c : Cert kind F vars Φ E G opn) (hc : Cln vars E) {i i' : Inst Op C} (h : InstRel E i i') {a : Nat} (ha : a ∈ vars) :
    i'.args[0]? = some (.inst a) ↔ i.args[0]? = some (.inst a) := by
  have h2 := h.2.2
  cases hi : i.args with
  | nil =>
    rw [hi] at h2
    rw [List.forall₂_nil_left_iff.mp h2]
  | cons o os =>
    rw [hi] at h2
    cases hi' : i'.args with
    | nil => rw [hi'] at h2; cases h2
    | cons o' os' =>
      rw [hi'] at h2
      cases h2 with
      | cons r _ =>
        simp only [List.getElem?_cons_zero, Option.some.injEq]
        constructor
        · rintro rfl
          cases r with
          | refl => rfl
          | step _ h' => exact absurd rfl (hc _ h' a ha)
        · rintro rfl
          exact Rep.ofSlot P V c ha r

include hl

/-- passing one instruction -/
theorem MInv.advance (I : MInv kind F vars pos Φ E opn s) {b j : Nat} {B : Block Op C} {i : Inst Op C} (hB : F.blk b = some B) (hi : B.body[j]? = some i) (hpos : pos b = j)
    {cur' : Nat → Nat → Option (Opd C)}
    (hst : ∀ a ∈ vars, kind i.op = .store → i.args[0]? = some (.inst a) → ∃ v, cur' a b = some v ∧ Val kind F Φ E a b (j + 1) v)
    (hno : ∀ a ∈ vars, ¬ (kind i.op = .store ∧ i.args[0]? = some (.inst a)) → cur' a b = s.cur a b)
    (hel : ∀ a ∈ vars, ∀ b', b' ≠ b → cur' a b' = s.cur a b') :
    MInv kind F vars (fun x => if x = b then j + 1 else pos x) Φ E opn { s with cur := cur' } := by
  have hjl := (List.getElem?_eq_some_iff.mp hi).1
  refine ⟨I.cert, I.cln, ?_, ?_, ?_, ?_, I.old, I.new⟩
  · intro a b' o ha hc
    simp only at hc
    by_cases hb : b' = b
    · subst hb
      rw [if_pos rfl]
      by_cases hs : kind i.op = .store ∧ i.args[0]? = some (.inst a)
      · obtain ⟨v, hv, hval⟩ := hst a ha hs.1 hs.2
        rw [hv] at hc; cases hc
        exact hval
      · rw [hno a ha hs] at hc
        have hv := I.dfd a b' o ha hc
        rw [hpos] at hv
        refine .keep hv hB hi ?_
        rintro (h | h)
        · have := hv.slotAvail I.cert V P hl ha
          rw [← h] at this
          exact P.not_avail hB hi this
        · exact hs h
    · rw [if_neg hb]
      rw [hel a ha b' hb] at hc
      exact I.dfd a b' o ha hc
  · intro a b' B' j' i' ha hc hB' hj' hi' hs
    simp only at hc
    by_cases hb : b' = b
    · subst hb
      rw [if_pos rfl] at hj'
      rw [hB] at hB'; cases hB'
      by_cases hjj : j' = j
      · subst hjj
        rw [hi] at hi'; cases hi'
        obtain ⟨v, hv, _⟩ := hst a ha hs.1 hs.2
        rw [hv] at hc; cases hc
      · by_cases hs0 : kind i.op = .store ∧ i.args[0]? = some (.inst a)
        · obtain ⟨v, hv, _⟩ := hst a ha hs0.1 hs0.2
          rw [hv] at hc; cases hc
        · rw [hno a ha hs0] at hc
          exact I.undef a b' B j' i' ha hc hB (by omega) hi' hs
    · rw [if_neg hb] at hj'
      rw [hel a ha b' hb] at hc
      exact I.undef a b' B' j' i' ha hc hB' hj' hi' hs
  · intro d hd q Q he hQ
    have := I.fin d hd q Q he hQ
    by_cases hq : q = b
    · subst hq
      rw [hB] at hQ; cases hQ
      omega
    · simp only [if_neg hq]; exact this
  · intro d D hD
    by_cases hd : d = b
    · subst hd; rw [hB] at hD; cases hD; simp only [if_true]; omega
    · simp only [if_neg hd]; exact I.le d D hD

end

section
variable [DecidableEq C] {ord : List Nat → List Nat} {u : Nat → C} {g : CFG} (ho : ∀ l y, y ∈ ord l → y ∈ l) (hg : ∀ b q, q ∈ g.pred b ↔ Edge F q b) (hgn : ∀ b, (g.pred b).Nodup)
include P hl V ho hg hgn

theorem promoteInst_ok {n b j : Nat} {B : Block Op C} (hB : F.blk b = some B) (hj : j < B.body.length) (hpos : pos b = j) (T : TInv kind F vars pos Φ E [] opn s)
    (h : promoteInst kind vars ord u g n b s j = some s') :
    ∃ Φ' E' opn', TInv kind F vars (fun x => if x = b then j + 1 else pos x) Φ' E' [] opn' s' ∧ s'.fin = s.fin := by
  obtain ⟨i, hi⟩ : ∃ i, B.body[j]? = some i := ⟨_, List.getElem?_eq_getElem hj⟩
  obtain ⟨B', hB', hr⟩ := T.inv.cert.some_ b B hB
  have hlen := hr.body.length_eq
  obtain ⟨i', hi'⟩ : ∃ i', B'.body[j]? = some i' := ⟨_, List.getElem?_eq_getElem (by omega)⟩
  have hrel : InstRel E i i' := by
    have := hr.body.get (i := j) hj (by omega)
    simp only [List.get_eq_getElem] at this
    rw [List.getElem?_eq_getElem hj] at hi
    rw [List.getElem?_eq_getElem (by omega)] at hi'
    cases hi; cases hi'
    exact this
  -- nothing is stored
  have skip : ∀ {Φ E opn} {t : MS Op C}, TInv kind F vars pos Φ E [] opn t → (∀ a ∈ vars, ¬ (kind i.op = .store ∧ i.args[0]? = some (.inst a))) →
      TInv kind F vars (fun x => if x = b then j + 1 else pos x) Φ E [] opn t := by
    intro Φ E opn t T hn
    have := T.inv.advance P hl V hB hi hpos (cur' := t.cur) (fun a ha h1 h2 => absurd ⟨h1, h2⟩ (hn a ha)) (fun _ _ _ => rfl) (fun _ _ _ _ => rfl)
    exact ⟨this, T.iff, T.emp, T.todo, T.nodup, T.done⟩
  unfold promoteInst at h
  simp only [hB', Option.bind_some, hi'] at h
  rw [hrel.2.1] at h
  have hadr : ∀ a ∈ vars, i'.args[0]? = some (.inst a) ↔ i.args[0]? = some (.inst a) := fun a ha => hrel.addr P V T.inv.cert T.inv.cln ha
  split at h
  · -- load
    rename_i a hk ha0
    split at h
    · rename_i ha
      obtain ⟨⟨o, s1⟩, h1, rfl⟩ := Option.map_eq_some_iff.mp h
      have ha1 := (hadr a ha).mp ha0
      obtain ⟨Φ1, E1, opn1, I1, X1, hv⟩ := useVar_ok P hl V ho hg hgn ha n s Φ E opn b B o s1 T.inv hB
        (by
          rintro rfl
          obtain ⟨B0, k, i0, hB0, hi0, hid, _⟩ := V.lead a ha
          rw [hB] at hB0; cases hB0
          refine ⟨k, i0, hi0, hid, ?_⟩
          rw [hpos]
          by_contra hge
          have hav := P.use_avail hB (hl _ _ hB) hi (List.mem_of_getElem? ha1)
          exact P.not_avail hB hi0 (hid ▸ avail_mono hav (by omega))) h1
      have T1 := T.ext I1 X1
      rw [hpos] at hv
      have c2 := I1.cert.replaceLoad P hl hB hi hk ha1 ha hv
      have hE : ∀ e ∈ E1, e ∈ (i.id, o) :: E1 := fun e he => List.mem_cons_of_mem _ he
      have T2 : TInv kind F vars pos Φ1 ((i.id, o) :: E1) [] opn1 { s1 with G := s1.G.replace i'.id o } := by
        rw [hrel.1]
        refine ⟨⟨c2, ?_, fun a' b' o' ha' hc => (I1.dfd a' b' o' ha' hc).mono (fun _ h => h) hE, I1.undef, I1.fin, I1.le, I1.old, I1.new⟩, T1.iff, ?_, T1.todo, T1.nodup, T1.done⟩
        · intro e he
          rcases List.mem_cons.mp he with rfl | he
          · exact hv.cln I1.cert V I1.cln
          · exact I1.cln e he
        · intro d p hp hop
          obtain ⟨p0, hp0, rfl⟩ := phiAt_replace.mp hp
          have := T1.emp d p0 hp0 hop
          simp [Phi.sub, this]
      exact ⟨Φ1, _, opn1, skip T2 (fun a' _ h => by rw [hk] at h; cases h.1), X1.fin⟩
    · simp only [Option.some.injEq] at h
      subst h
      exact ⟨Φ, E, opn, skip T (fun a' _ h => by rw [hk] at h; cases h.1), rfl⟩
  · -- store
    rename_i a hk ha0
    split at h
    · rename_i ha
      have ha1 := (hadr a ha).mp ha0
      obtain ⟨hu, _, _⟩ := V.use a ha b B i hB (List.mem_of_getElem? hi) (List.mem_of_getElem? ha1)
      obtain ⟨v, hv⟩ : ∃ v, i.args[1]? = some v := by
        rcases hu with hu | hu
        · rw [hk] at hu; cases hu
        · exact hu.2
      obtain ⟨v', hv', hrv⟩ : ∃ v', i'.args[1]? = some v' ∧ Rep E v v' := by
        have hf := hrel.2.2
        obtain ⟨hlt, e⟩ := List.getElem?_eq_some_iff.mp hv
        have hl' := hf.length_eq
        have := hf.get (i := 1) hlt (by omega)
        simp only [List.get_eq_getElem, e] at this
        exact ⟨_, List.getElem?_eq_getElem (by omega), this⟩
      simp only [hv', Option.some.injEq] at h
      subst h
      have hval : Val kind F Φ E a b (j + 1) v' := (Val.store hB hi hk ha1 hv).rep hrv
      have := T.inv.advance P hl V hB hi hpos (cur' := (s.defVar a b v').cur)
        (by
          intro a' ha' _ h2
          rw [ha1] at h2
          cases h2
          exact ⟨v', by simp [MS.defVar], hval⟩)
        (by
          intro a' ha' hn
          simp only [MS.defVar]
          rw [if_neg]
          rintro ⟨rfl, _⟩
          exact hn ⟨hk, ha1⟩)
        (by
          intro a' _ b' hb'
          simp only [MS.defVar]
          rw [if_neg]
          rintro ⟨_, rfl⟩
          exact hb' rfl)
      refine ⟨Φ, E, opn, ⟨this, T.iff, T.emp, ?_, T.nodup, T.done⟩, rfl⟩
      intro e he
      obtain ⟨h1, h2, h3⟩ := T.todo e he
      refine ⟨h1, ?_, h3⟩
      simp only [MS.defVar]
      split
      · simp
      · exact h2
    · rename_i ha
      simp only [Option.some.injEq] at h
      subst h
      refine ⟨Φ, E, opn, skip T (fun a' ha' h => ?_), rfl⟩
      have := (hadr a' ha').mpr h.2
      rw [ha0] at this
      cases this
      exact ha ha'
  · rename_i hl1 hl2
    simp only [Option.some.injEq] at h
    subst h
    exact ⟨Φ, E, opn, skip T (fun a' ha' h => hl2 a' h.1 ((hadr a' ha').mpr h.2)), rfl⟩

/-- in the middle of sealing block `b`: the phis `D` are complete, those of `r` are not -/
structure SInv (kind : Op → Kind) (F : Func Op C) (vars : List Nat) (pos : Nat → Nat) (b : Nat) (r : List (Nat × Nat × Nat)) (D : List Nat) (Φ : List (Nat × Nat × Nat))
    (E : List (Nat × Opd C)) (opn : Nat → Prop) (t : MS Op C) : Prop where
  inv : TInv kind F vars pos Φ E D opn t
  rest : ∀ e ∈ r, e ∈ t.todo ∧ e.1 = b ∧ e.2.2 ∉ D
  nodup : (r.map (fun e => e.2.2)).Nodup
  all : ∀ e ∈ t.todo, e.1 = b → e.2.2 ∈ D ∨ e ∈ r
  here : ∀ y ∈ D, ∃ e ∈ t.todo, e.1 = b ∧ e.2.2 = y

omit P hl V ho hg hgn [DecidableEq C] in
theorem TInv.seal {b : Nat} (T : TInv kind F vars pos Φ E [] opn s) : SInv kind F vars pos b (s.todo.filter (fun e => e.1 = b)) [] Φ E opn s := by
  refine ⟨T, ?_, T.nodup.sublist (List.filter_sublist.map _), ?_, by simp⟩
  · intro e he
    rw [List.mem_filter] at he
    exact ⟨he.1, by simpa using he.2, by simp⟩
  · intro e he hb'
    exact .inr (List.mem_filter.mpr ⟨he, by simpa using hb'⟩)

theorem useVar_ok' {a : Nat} (ha : a ∈ vars) (n : Nat) : ∀ s Φ E opn q Q o s', MInv kind F vars pos Φ E opn s → F.blk q = some Q → pos q = Q.body.length → useVar ord u g n s a q = some (o, s') →
    ∃ Φ' E' opn', MInv kind F vars pos Φ' E' opn' s' ∧ Ext a (fun _ => False) Φ E opn s Φ' E' opn' s' ∧ Val kind F Φ' E' a q (pos q) o := by
  intro s Φ E opn q Q o s' I hQ hpos h
  refine useVar_ok P hl V ho hg hgn ha n s Φ E opn q Q o s' I hQ ?_ h
  rintro rfl
  obtain ⟨B0, j, i, hB0, hi, hid, _⟩ := V.lead a ha
  rw [hQ] at hB0; cases hB0
  exact ⟨j, i, hi, hid, by rw [hpos]; exact (List.getElem?_eq_some_iff.mp hi).1⟩

theorem sealStep_ok {n b : Nat} {B : Block Op C} (hB : F.blk b = some B) (hdone : ∀ q Q, Edge F q b → F.blk q = some Q → pos q = Q.body.length)
    {e : Nat × Nat × Nat} {r : List (Nat × Nat × Nat)} {D : List Nat} {t t1' : MS Op C} {o : Opd C} (SI : SInv kind F vars pos b (e :: r) D Φ E opn t)
    (ht1' : addPhiOperands ord u (useVar ord u g n) (g.pred b) e.2.1 b e.2.2 t = some (o, t1')) :
    ∃ Φ' E' opn', SInv kind F vars pos b r (e.2.2 :: D) Φ' E' opn' t1' ∧ t1'.fin = t.fin := by
  obtain ⟨T, h1, hn, h2, h3⟩ := SI
  obtain ⟨b', a, x⟩ := e
  obtain ⟨hem, hb', hxD⟩ := h1 _ (List.mem_cons_self ..)
  simp only at hb' hxD ht1'
  subst hb'
  obtain ⟨hxΦ, hcur, _⟩ := T.todo _ hem
  simp only at hxΦ hcur
  have ha : a ∈ vars := (T.inv.cert.new _ _ _ hxΦ).2.2.1
  have hop : opn x := (T.iff x).mpr ⟨⟨_, hem, rfl⟩, hxD⟩
  have hxn : x < t.next := T.inv.new _ hxΦ
  rw [List.map_cons, List.nodup_cons] at hn
  obtain ⟨Φ1, E1, opn1, I1, X1, hrep⟩ := addPhiOperands_ok (N := 0) P hl V ho (useVar ord u g n) ⟨B, hB⟩
    (useVar_ok' P hl V ho hg hgn ha n)
    T.inv hxΦ hop (hgn b') (hg b') hdone (Nat.zero_le _) (fun _ _ _ _ h => absurd h (Nat.not_lt_zero _)) (fun d p hp _ h => T.emp d p hp h) ht1'
  obtain ⟨T1, t1e, t2, t3, t4⟩ := X1.todo
  have hlt : ∀ e ∈ t.todo, e.2.2 < t.next := fun e he => T.inv.new _ (T.todo e he).1
  have TT : TInv kind F vars pos Φ1 E1 (x :: D) opn1 t1' := by
    refine ⟨I1, ?_, fun d p hp h => X1.emp d p hp (Nat.zero_le _) h, ?_, ?_, ?_⟩
    · intro y
      rw [t2, T.iff, t1e]
      simp only [List.mem_append, List.mem_cons, not_or]
      constructor
      · rintro (⟨⟨⟨e, he, e1⟩, hD⟩, hne⟩ | ⟨e, he, e1⟩)
        · exact ⟨⟨e, .inl he, e1⟩, hne, hD⟩
        · have := (t4 e he).2.2.2.2.1
          refine ⟨⟨e, .inr he, e1⟩, by omega, fun hD => ?_⟩
          obtain ⟨e', he', e1'⟩ := T.done y hD
          have := hlt e' he'
          omega
      · rintro ⟨⟨e, he | he, e1⟩, hne, hD⟩
        · exact .inl ⟨⟨⟨e, he, e1⟩, hD⟩, hne⟩
        · exact .inr ⟨e, he, e1⟩
    · intro e he
      rw [t1e, List.mem_append] at he
      rcases he with he | he
      · obtain ⟨h1, h2, h3⟩ := T.todo e he
        exact ⟨X1.subΦ _ h1, X1.cur _ _ h2, X1.fin ▸ h3⟩
      · obtain ⟨h1, h2, h3, h4, h5, h6, h7⟩ := t4 e he
        rw [h2]
        exact ⟨h7, h4, X1.fin ▸ h1⟩
    · rw [t1e, List.map_append, List.nodup_append]
      refine ⟨T.nodup, t3, ?_⟩
      rintro y hy z hz rfl
      obtain ⟨e, he, e1⟩ := List.mem_map.mp hy
      obtain ⟨e', he', e1'⟩ := List.mem_map.mp hz
      have h1 := hlt e he
      have h2 := (t4 e' he').2.2.2.2.1
      omega
    · intro y hy
      rcases List.mem_cons.mp hy with rfl | hy
      · exact ⟨_, by rw [t1e]; exact List.mem_append.mpr (.inl hem), rfl⟩
      · obtain ⟨e, he, e1⟩ := T.done y hy
        exact ⟨e, by rw [t1e]; exact List.mem_append.mpr (.inl he), e1⟩
  exact ⟨Φ1, E1, opn1, ⟨TT,
    (by
      intro e he
      obtain ⟨k1, k2, k3⟩ := h1 e (List.mem_cons_of_mem _ he)
      refine ⟨by rw [t1e]; exact List.mem_append.mpr (.inl k1), k2, ?_⟩
      rw [List.mem_cons, not_or]
      exact ⟨fun e' => hn.1 (List.mem_map.mpr ⟨e, he, e'⟩), k3⟩),
    hn.2,
    (by
      intro e he hb'
      rw [t1e, List.mem_append] at he
      rcases he with he | he
      · rcases h2 e he hb' with h | h
        · exact .inl (List.mem_cons_of_mem _ h)
        · rcases List.mem_cons.mp h with rfl | h
          · exact .inl (List.mem_cons_self ..)
          · exact .inr h
      · obtain ⟨_, _, k3, _⟩ := t4 e he
        rw [hb'] at k3
        exact absurd k3 hcur),
    (by
      intro y hy
      rcases List.mem_cons.mp hy with rfl | hy
      · exact ⟨_, by rw [t1e]; exact List.mem_append.mpr (.inl hem), rfl, rfl⟩
      · obtain ⟨e, he, e1⟩ := h3 y hy
        exact ⟨e, by rw [t1e]; exact List.mem_append.mpr (.inl he), e1⟩)⟩, X1.fin⟩

theorem sealFold_ok {n b : Nat} {B : Block Op C} (hB : F.blk b = some B) (hdone : ∀ q Q, Edge F q b → F.blk q = some Q → pos q = Q.body.length) :
    ∀ (r : List (Nat × Nat × Nat)) (D : List Nat) (Φ : List (Nat × Nat × Nat)) (E : List (Nat × Opd C)) (opn : Nat → Prop) (t t' : MS Op C), SInv kind F vars pos b r D Φ E opn t →
      r.foldlM (fun s e => (addPhiOperands ord u (useVar ord u g n) (g.pred b) e.2.1 b e.2.2 s).map Prod.snd) t = some t' →
      ∃ D' Φ' E' opn', SInv kind F vars pos b [] D' Φ' E' opn' t' ∧ t'.fin = t.fin := by
  intro r
  induction r with
  | nil =>
    intro D Φ E opn t t' SI h
    simp only [List.foldlM_nil, Option.pure_def, Option.some.injEq] at h
    subst h
    exact ⟨D, Φ, E, opn, SI, rfl⟩
  | cons e r ih =>
    intro D Φ E opn t t' SI h
    rw [List.foldlM_cons] at h
    obtain ⟨t1, ht1, hrest⟩ := Option.bind_eq_some_iff.mp h
    obtain ⟨⟨o, t1'⟩, ht1', e1⟩ := Option.map_eq_some_iff.mp ht1
    simp only at e1
    subst e1
    obtain ⟨Φ1, E1, opn1, S1, f1⟩ := sealStep_ok P hl V ho hg hgn hB hdone SI ht1'
    obtain ⟨D', Φ', E', opn', S', f'⟩ := ih _ Φ1 E1 opn1 t1' t' S1 hrest
    exact ⟨D', Φ', E', opn', S', f'.trans f1⟩

theorem sealBlock_ok {n b : Nat} {B : Block Op C} (hB : F.blk b = some B) (hdone : ∀ q Q, Edge F q b → F.blk q = some Q → pos q = Q.body.length)
    (T : TInv kind F vars pos Φ E [] opn s) (h : sealBlock ord u g n s b = some s') :
    ∃ Φ' E' opn', TInv kind F vars pos Φ' E' [] opn' s' ∧ s'.fin = b :: s.fin := by
  unfold sealBlock at h
  obtain ⟨s1, h1, rfl⟩ := Option.map_eq_some_iff.mp h
  obtain ⟨D', Φ', E', opn', S', hf⟩ := sealFold_ok P hl V ho hg hgn hB hdone _ _ _ _ _ _ _ T.seal h1
  have T' := S'.inv
  have hD1 : ∀ e ∈ s1.todo, e.1 = b → e.2.2 ∈ D' := fun e he hb => (S'.all e he hb).resolve_right (by simp)
  have hD2 := S'.here
  refine ⟨Φ', E', opn', ⟨⟨T'.inv.cert, T'.inv.cln, T'.inv.dfd, T'.inv.undef, ?_, T'.inv.le, T'.inv.old, T'.inv.new⟩, ?_, T'.emp, ?_, ?_, by simp⟩, by rw [← hf]⟩
  · intro d hd
    rcases List.mem_cons.mp hd with rfl | hd
    · exact hdone
    · exact T'.inv.fin d hd
  · intro y
    rw [T'.iff]
    simp only [List.mem_filter, List.not_mem_nil, not_false_eq_true, and_true, decide_eq_true_eq]
    constructor
    · rintro ⟨⟨e, he, e1⟩, hD⟩
      exact ⟨e, ⟨he, fun hb' => hD (e1 ▸ hD1 e he hb')⟩, e1⟩
    · rintro ⟨e, ⟨he, hb'⟩, e1⟩
      refine ⟨⟨e, he, e1⟩, fun hD => ?_⟩
      obtain ⟨e', he', hb2, e2⟩ := hD2 y hD
      have := List.inj_on_of_nodup_map T'.nodup he he' (e1.trans e2.symm)
      exact hb' (this ▸ hb2)
  · intro e he
    rw [List.mem_filter] at he
    obtain ⟨h1, h2, h3⟩ := T'.todo e he.1
    refine ⟨h1, h2, ?_⟩
    rw [List.mem_cons, not_or]
    exact ⟨by simpa using he.2, h3⟩
  · exact T'.nodup.sublist (List.filter_sublist.map _)

/-! ## the loop over the blocks -/

/-- how far each block has been processed -/
def posOf {Op C : Type} (F : Func Op C) (done : List Nat) (b : Nat) : Nat := if b ∈ done then (match F.blk b with | some B => B.body.length | none => 0) else 0

theorem posOf_done {done : List Nat} {b : Nat} (h : b ∈ done) {B : Block Op C} (hB : F.blk b = some B) : posOf F done b = B.body.length := by
  unfold posOf; rw [if_pos h, hB]

theorem instLoop_ok {n b : Nat} {B : Block Op C} (hB : F.blk b = some B) : ∀ (k j : Nat) (pos : Nat → Nat) (Φ : List (Nat × Nat × Nat)) (E : List (Nat × Opd C)) (opn : Nat → Prop) (s s' : MS Op C),
    j + k = B.body.length → pos b = j → TInv kind F vars pos Φ E [] opn s → (List.range' j k).foldlM (promoteInst kind vars ord u g n b) s = some s' →
    ∃ Φ' E' opn', TInv kind F vars (fun x => if x = b then B.body.length else pos x) Φ' E' [] opn' s' ∧ s'.fin = s.fin := by
  intro k
  induction k with
  | zero =>
    intro j pos Φ E opn s s' hk hp T h
    simp only [List.range'_zero, List.foldlM_nil, Option.pure_def, Option.some.injEq] at h
    subst h
    refine ⟨Φ, E, opn, ?_, rfl⟩
    have : (fun x => if x = b then B.body.length else pos x) = pos := by
      funext x
      split
      · rename_i e; subst e; omega
      · rfl
    rw [this]; exact T
  | succ k ih =>
    intro j pos Φ E opn s s' hk hp T h
    rw [List.range'_succ, List.foldlM_cons] at h
    obtain ⟨s1, h1, h⟩ := Option.bind_eq_some_iff.mp h
    obtain ⟨Φ1, E1, opn1, T1, hf1⟩ := promoteInst_ok P hl V ho hg hgn hB (by omega) hp T h1
    obtain ⟨Φ2, E2, opn2, T2, hf2⟩ := ih (j + 1) _ Φ1 E1 opn1 s1 s' (by omega) (by simp) T1 h
    refine ⟨Φ2, E2, opn2, ?_, hf2.trans hf1⟩
    have : (fun x => if x = b then B.body.length else (if x = b then j + 1 else pos x)) = fun x => if x = b then B.body.length else pos x := by
      funext x; split <;> rfl
    rw [this] at T2
    exact T2

/-- the state between two blocks -/
structure DInv (kind : Op → Kind) (F : Func Op C) (vars : List Nat) (g : CFG) (done : List Nat) (st : MS Op C × (Nat → Nat)) : Prop where
  inv : ∃ Φ E opn, TInv kind F vars (posOf F done) Φ E [] opn st.1
  deg : ∀ t, st.2 t = (g.pred t).countP (fun q => decide (q ∉ done))
  fin : ∀ t, (∃ B, F.blk t = some B) → st.2 t = 0 → t ∈ done ∨ g.pred t ≠ [] → t ∈ st.1.fin

theorem trySeal_ok {n t : Nat} {T : Block Op C} {st st' : MS Op C × (Nat → Nat)} (hT : F.blk t = some T) {pos : Nat → Nat} (hI : ∃ Φ E opn, TInv kind F vars pos Φ E [] opn st.1)
    (hdone : st.2 t = 0 → ∀ q Q, Edge F q t → F.blk q = some Q → pos q = Q.body.length) (h : trySeal ord u g n st t = some st') :
    (∃ Φ E opn, TInv kind F vars pos Φ E [] opn st'.1) ∧ st'.2 = st.2 ∧ (∀ x ∈ st.1.fin, x ∈ st'.1.fin) ∧ (st.2 t = 0 → t ∈ st'.1.fin) := by
  unfold trySeal at h
  obtain ⟨Φ, E, opn, I⟩ := hI
  split at h
  · rename_i hc
    obtain ⟨s1, h1, rfl⟩ := Option.map_eq_some_iff.mp h
    obtain ⟨Φ', E', opn', T', hf⟩ := sealBlock_ok P hl V ho hg hgn hT (hdone hc.1) I h1
    exact ⟨⟨Φ', E', opn', T'⟩, rfl, fun x hx => by simp only [hf]; exact List.mem_cons_of_mem _ hx, fun _ => by simp only [hf]; exact List.mem_cons_self ..⟩
  · rename_i hc
    simp only [Option.some.injEq] at h
    subst h
    refine ⟨⟨Φ, E, opn, I⟩, rfl, fun _ h => h, fun h0 => ?_⟩
    by_contra hn
    exact hc ⟨h0, hn⟩

theorem countP_cons_done {done : List Nat} {b t : Nat} (hb : b ∉ done) : (g.pred t).countP (fun q => decide (q ∉ done)) =
    (g.pred t).countP (fun q => decide (q ∉ b :: done)) + (if b ∈ g.pred t then 1 else 0) := by
  have key : ∀ l : List Nat, l.Nodup → l.countP (fun q => decide (q ∉ done)) = l.countP (fun q => decide (q ∉ b :: done)) + (if b ∈ l then 1 else 0) := by
    intro l
    induction l with
    | nil => simp
    | cons q l ih =>
      intro hn
      obtain ⟨h1, h2⟩ := List.nodup_cons.mp hn
      rw [List.countP_cons, List.countP_cons, ih h2]
      by_cases hq : q = b
      · subst hq
        simp [hb, h1]
      · have hq' : ¬ b = q := fun e => hq e.symm
        simp only [List.mem_cons, hq, hq', false_or]
        omega
  exact key _ (hgn t)

/-- block `b` is done and the successors `ts` have not been told yet -/
structure FInv (kind : Op → Kind) (F : Func Op C) (vars : List Nat) (g : CFG) (b : Nat) (done ts : List Nat) (st : MS Op C × (Nat → Nat)) : Prop where
  nodup : ts.Nodup
  edge : ∀ t ∈ ts, Edge F b t
  inv : ∃ Φ E opn, TInv kind F vars (posOf F (b :: done)) Φ E [] opn st.1
  deg : ∀ t, st.2 t = if t ∈ ts then (g.pred t).countP (fun q => decide (q ∉ done)) else (g.pred t).countP (fun q => decide (q ∉ b :: done))
  fin : ∀ t, (∃ B, F.blk t = some B) → t ∉ ts → st.2 t = 0 → t ∈ b :: done ∨ g.pred t ≠ [] → t ∈ st.1.fin

theorem zdone {b : Nat} {done : List Nat} {t : Nat} (h0 : (g.pred t).countP (fun q => decide (q ∉ b :: done)) = 0) :
    ∀ q Q, Edge F q t → F.blk q = some Q → posOf F (b :: done) q = Q.body.length := by
  intro q Q he hQ
  rw [List.countP_eq_zero] at h0
  have := h0 q ((hg t q).mpr he)
  simp only [decide_eq_true_eq, not_not] at this
  exact posOf_done P hl V ho hg hgn this hQ

theorem FInv.degHead {b t : Nat} {done ts : List Nat} (hb : b ∉ done) {st : MS Op C × (Nat → Nat)} (FI : FInv kind F vars g b done (t :: ts) st) :
    st.2 t - 1 = (g.pred t).countP (fun q => decide (q ∉ b :: done)) := by
  have hbt : b ∈ g.pred t := (hg t b).mpr (FI.edge t (List.mem_cons_self ..))
  rw [FI.deg t, if_pos (List.mem_cons_self ..)]
  have := countP_cons_done P hl V ho hg hgn (t := t) hb
  rw [if_pos hbt] at this
  omega

theorem succStep_ok {n b t : Nat} {B : Block Op C} (hB : F.blk b = some B) {done ts : List Nat} (hb : b ∉ done) {st st1 : MS Op C × (Nat → Nat)} (FI : FInv kind F vars g b done (t :: ts) st)
    (h1 : trySeal ord u g n (st.1, fun x => if x = t then st.2 x - 1 else st.2 x) t = some st1) : FInv kind F vars g b done ts st1 := by
  obtain ⟨hn, hed, hI, hdeg, hfin⟩ := id FI
  obtain ⟨hn1, hn2⟩ := List.nodup_cons.mp hn
  have het := hed t (List.mem_cons_self ..)
  obtain ⟨T', hT'⟩ := P.blk ((hl b B hB).edge het)
  have hdt := FI.degHead P hl V ho hg hgn hb
  obtain ⟨I3, hd3, hf3, hz3⟩ := trySeal_ok P hl V ho hg hgn hT' (st := (st.1, fun x => if x = t then st.2 x - 1 else st.2 x)) hI
    (fun h0 => zdone P hl V ho hg hgn (by simp only [if_true] at h0; rw [← hdt]; exact h0)) h1
  simp only [if_true] at hd3 hf3 hz3
  refine ⟨hn2, fun t' ht' => hed t' (List.mem_cons_of_mem _ ht'), I3, ?_, ?_⟩
  · intro t'
    rw [hd3]
    by_cases htt : t' = t
    · subst htt
      rw [if_neg hn1]
      simp only [if_true]
      exact hdt
    · simp only [if_neg htt]
      rw [hdeg t']
      simp only [List.mem_cons, htt, false_or]
  · intro t' hB' hnt h0 hor
    rw [hd3] at h0
    by_cases htt : t' = t
    · subst htt
      simp only [if_true] at h0
      exact hz3 h0
    · simp only [if_neg htt] at h0
      exact hf3 t' (hfin t' hB' (by simp [htt, hnt]) h0 hor)

theorem succFold_ok {n b : Nat} {B : Block Op C} (hB : F.blk b = some B) {done : List Nat} (hb : b ∉ done) : ∀ (ts : List Nat) (st st' : MS Op C × (Nat → Nat)), FInv kind F vars g b done ts st →
    ts.foldlM (fun st t => trySeal ord u g n (st.1, fun x => if x = t then st.2 x - 1 else st.2 x) t) st = some st' → DInv kind F vars g (b :: done) st' := by
  intro ts
  induction ts with
  | nil =>
    intro st st' FI h
    simp only [List.foldlM_nil, Option.pure_def, Option.some.injEq] at h
    subst h
    exact ⟨FI.inv, fun t => by simpa using FI.deg t, fun t hB h0 h1 => FI.fin t hB (by simp) h0 h1⟩
  | cons t ts ih =>
    intro st st' FI h
    rw [List.foldlM_cons] at h
    obtain ⟨st1, h1, h⟩ := Option.bind_eq_some_iff.mp h
    exact ih st1 st' (succStep_ok P hl V ho hg hgn hB hb FI h1) h

theorem instrs_ok {n b : Nat} {B : Block Op C} (hB : F.blk b = some B) {done : List Nat} (hb : b ∉ done) {st : MS Op C × (Nat → Nat)} {s1 : MS Op C}
    (D : DInv kind F vars g done st) (h1 : (List.range (match st.1.G.blk b with | some B => B.body.length | none => 0)).foldlM (promoteInst kind vars ord u g n b) st.1 = some s1) :
    (∃ Φ E opn, TInv kind F vars (posOf F (b :: done)) Φ E [] opn s1) ∧ s1.fin = st.1.fin := by
  obtain ⟨Φ, E, opn, T⟩ := D.inv
  obtain ⟨B', hB', hr⟩ := T.inv.cert.some_ b B hB
  have hlen := hr.body.length_eq
  simp only [hB'] at h1
  rw [← hlen, List.range_eq_range'] at h1
  obtain ⟨Φ1, E1, opn1, T1, hf1⟩ := instLoop_ok P hl V ho hg hgn hB _ 0 _ Φ E opn st.1 s1 (by omega) (by unfold posOf; rw [if_neg hb]) T h1
  have hposeq : (fun x => if x = b then B.body.length else posOf F done x) = posOf F (b :: done) := by
    funext x
    unfold posOf
    by_cases hx : x = b
    · subst hx; simp [hB]
    · simp [hx]
  rw [hposeq] at T1
  exact ⟨⟨Φ1, E1, opn1, T1⟩, hf1⟩

theorem DInv.self {b : Nat} {done : List Nat} (hb : b ∉ done) {st : MS Op C × (Nat → Nat)} (D : DInv kind F vars g done st) (h0 : st.2 b = 0) :
    ∀ q Q, Edge F q b → F.blk q = some Q → posOf F (b :: done) q = Q.body.length := by
  refine zdone P hl V ho hg hgn ?_
  have := countP_cons_done P hl V ho hg hgn (t := b) hb
  rw [D.deg b] at h0
  omega

theorem blockSelf_ok (hsn : ∀ b, (g.succ b).Nodup) (hs : ∀ b x, x ∈ g.succ b ↔ Edge F b x) {n b : Nat} {B : Block Op C} (hB : F.blk b = some B) {done : List Nat} (hb : b ∉ done)
    {st st2 : MS Op C × (Nat → Nat)} {s1 : MS Op C}
    (D : DInv kind F vars g done st) (I1 : ∃ Φ E opn, TInv kind F vars (posOf F (b :: done)) Φ E [] opn s1) (hf1 : s1.fin = st.1.fin) (h2 : trySeal ord u g n (s1, st.2) b = some st2) :
    FInv kind F vars g b done (g.succ b) st2 := by
  have hcnt := fun t => countP_cons_done P hl V ho hg hgn (t := t) hb
  obtain ⟨I2, hd2, hf2, hz2⟩ := trySeal_ok P hl V ho hg hgn hB (st := (s1, st.2)) I1 (fun h0 => D.self P hl V ho hg hgn hb h0) h2
  simp only at hd2 hf2 hz2
  rw [hf1] at hf2
  refine ⟨hsn b, fun t ht => (hs b t).mp ht, I2, ?_, ?_⟩
  · intro t
    rw [hd2]
    split
    · exact D.deg t
    · rename_i ht
      rw [D.deg t, hcnt t, if_neg]
      · omega
      · rw [hg]; rw [hs] at ht; exact ht
  · intro t hB0 ht h0 hor
    rw [hd2] at h0
    by_cases htb : t = b
    · subst htb; exact hz2 h0
    · refine hf2 t (D.fin t hB0 h0 (hor.imp_left fun h => ?_))
      exact (List.mem_cons.mp h).resolve_left htb

theorem promoteBlock_ok (hsn : ∀ b, (g.succ b).Nodup) (hs : ∀ b x, x ∈ g.succ b ↔ Edge F b x) {n b : Nat} {B : Block Op C} (hB : F.blk b = some B) {done : List Nat} (hb : b ∉ done) {st st' : MS Op C × (Nat → Nat)}
    (D : DInv kind F vars g done st) (h : promoteBlock kind vars ord u g n st b = some st') : DInv kind F vars g (b :: done) st' := by
  unfold promoteBlock at h
  obtain ⟨s1, h1, h⟩ := Option.bind_eq_some_iff.mp h
  obtain ⟨st2, h2, h3⟩ := Option.bind_eq_some_iff.mp h
  obtain ⟨I1, hf1⟩ := instrs_ok P hl V ho hg hgn hB hb D h1
  exact succFold_ok P hl V ho hg hgn hB hb _ _ _ (blockSelf_ok P hl V ho hg hgn hsn hs hB hb D I1 hf1 h2) h3

theorem DInv.start {new : Nat} (hnew : ∀ x d, DefIn F x d → x < new) : DInv kind F vars g [] (⟨F, new, fun _ _ => none, [], []⟩, fun b => (g.pred b).length) := by
  refine ⟨⟨[], [], fun _ => False, ?_⟩, ?_, ?_⟩
  · have : posOf F [] = fun _ => 0 := by funext x; simp [posOf]
    rw [this]
    refine ⟨⟨Cert.start, ?_, ?_, ?_, ?_, ?_, hnew, ?_⟩, ?_, ?_, ?_, ?_, ?_⟩
    all_goals simp [Cln]
  · intro t; simp
  · intro t _ h0 hor
    simp only [List.not_mem_nil, false_or] at hor
    exact absurd (List.eq_nil_of_length_eq_zero h0) hor

theorem promote_ok (hsn : ∀ b, (g.succ b).Nodup) (hs : ∀ b x, x ∈ g.succ b ↔ Edge F b x) {n new : Nat} {bs : List Nat} (hbn : bs.Nodup) (hbs : ∀ b, b ∈ bs ↔ b ∈ F.order)
    (hnew : ∀ x d, DefIn F x d → x < new) {G : Func Op C} (h : promote kind vars ord u g n bs new F = some G) :
    ∃ Φ E, Cert kind F vars Φ E G (fun _ => False) := by
  unfold promote at h
  obtain ⟨st, h1, rfl⟩ := Option.map_eq_some_iff.mp h
  have fold : ∀ (bs done : List Nat) (st st' : MS Op C × (Nat → Nat)), bs.Nodup → (∀ b ∈ bs, b ∉ done ∧ ∃ B, F.blk b = some B) → DInv kind F vars g done st →
      bs.foldlM (promoteBlock kind vars ord u g n) st = some st' → ∃ done', (∀ b, b ∈ done' ↔ b ∈ done ∨ b ∈ bs) ∧ DInv kind F vars g done' st' := by
    intro bs
    induction bs with
    | nil =>
      intro done st st' _ _ D h
      simp only [List.foldlM_nil, Option.pure_def, Option.some.injEq] at h
      subst h
      exact ⟨done, by simp, D⟩
    | cons b bs ih =>
      intro done st st' hn hb D h
      rw [List.foldlM_cons] at h
      obtain ⟨st1, h1, h⟩ := Option.bind_eq_some_iff.mp h
      obtain ⟨hn1, hn2⟩ := List.nodup_cons.mp hn
      obtain ⟨hbd, B, hB⟩ := hb b (List.mem_cons_self ..)
      have D1 := promoteBlock_ok P hl V ho hg hgn hsn hs hB hbd D h1
      obtain ⟨done', hd, D'⟩ := ih (b :: done) st1 st' hn2
        (fun b' hb' => ⟨by rw [List.mem_cons, not_or]; exact ⟨fun e => hn1 (e ▸ hb'), (hb b' (List.mem_cons_of_mem _ hb')).1⟩, (hb b' (List.mem_cons_of_mem _ hb')).2⟩) D1 h
      refine ⟨done', fun b' => ?_, D'⟩
      rw [hd]
      simp only [List.mem_cons]
      constructor
      · rintro ((h | h) | h)
        · exact .inr (.inl h)
        · exact .inl h
        · exact .inr (.inr h)
      · rintro (h | h | h)
        · exact .inl (.inr h)
        · exact .inl (.inl h)
        · exact .inr h
  obtain ⟨done, hd, D⟩ := fold bs [] _ st hbn (fun b hb => ⟨by simp, P.total b ((hbs b).mp hb)⟩)
    (DInv.start P hl V ho hg hgn hnew) h1
  obtain ⟨Φ, E, opn, T⟩ := D.inv
  refine ⟨Φ, E, T.inv.cert.congr ?_⟩
  intro y
  simp only [iff_false]
  intro hy
  obtain ⟨⟨e, he, e1⟩, _⟩ := (T.iff y).mp hy
  obtain ⟨h1, _, h3⟩ := T.todo e he
  obtain ⟨hne, ⟨B, hB⟩, _⟩ := T.inv.cert.new _ _ _ h1
  refine h3 (D.fin _ ⟨B, hB⟩ ?_ (.inl ?_))
  · rw [D.deg, List.countP_eq_zero]
    intro q hq
    obtain ⟨Q, hQ, _⟩ := (hg _ _).mp hq
    simp only [decide_eq_true_eq, not_not]
    exact (hd q).mpr (.inr ((hbs q).mpr (P.listed q Q hQ)))
  · exact (hd _).mpr (.inr ((hbs _).mpr (P.listed _ B hB)))

end
end
end
end Cmmc.SSA
