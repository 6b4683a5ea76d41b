import Verif.SSA.M2Priv
/-!
# ScalarMem2Reg: removing trivial phis keeps the certificate
-/
namespace Cmmc.SSA

section
variable {Op C : Type}

/-- `p` is a phi of block `b` -/
def PhiAt (G : Func Op C) (b : Nat) (p : Phi C) : Prop := ∃ B, G.blk b = some B ∧ p ∈ B.phis

theorem phiAt_addPhi {G : Func Op C} {b x d : Nat} {p : Phi C} : PhiAt (G.addPhi b x) d p ↔ PhiAt G d p ∨ (d = b ∧ (∃ B, G.blk b = some B) ∧ p = ⟨x, []⟩) := by
  unfold PhiAt Func.addPhi
  rw [Func.mapPhis_blk]
  constructor
  · rintro ⟨B, hB, hp⟩
    obtain ⟨B0, hB0, rfl⟩ := Option.map_eq_some_iff.mp hB
    split at hp
    · rename_i h
      subst h
      rcases List.mem_cons.mp hp with rfl | hp
      · exact .inr ⟨rfl, ⟨B0, hB0⟩, rfl⟩
      · exact .inl ⟨B0, hB0, hp⟩
    · exact .inl ⟨B0, hB0, hp⟩
  · rintro (⟨B, hB, hp⟩ | ⟨rfl, ⟨B, hB⟩, rfl⟩)
    · refine ⟨_, by rw [hB]; rfl, ?_⟩
      split
      · exact List.mem_cons_of_mem _ hp
      · exact hp
    · exact ⟨_, by rw [hB]; rfl, by simp⟩

theorem phiAt_addInc {G : Func Op C} {b x q d : Nat} {o : Opd C} {p' : Phi C} :
    PhiAt (G.addInc b x q o) d p' ↔ ∃ p, PhiAt G d p ∧ p' = if d = b ∧ p.id = x then p.addIncoming q o else p := by
  unfold PhiAt Func.addInc
  rw [Func.mapPhis_blk]
  constructor
  · rintro ⟨B, hB, hp⟩
    obtain ⟨B0, hB0, rfl⟩ := Option.map_eq_some_iff.mp hB
    split at hp
    · rename_i h
      subst h
      obtain ⟨p, hp2, rfl⟩ := List.mem_map.mp hp
      exact ⟨p, ⟨B0, hB0, hp2⟩, by simp⟩
    · rename_i h
      exact ⟨p', ⟨B0, hB0, hp⟩, by simp [h]⟩
  · rintro ⟨p, ⟨B, hB, hp⟩, rfl⟩
    refine ⟨_, by rw [hB]; rfl, ?_⟩
    by_cases h : d = b
    · subst h
      simp only [if_true, true_and]
      exact List.mem_map.mpr ⟨p, hp, rfl⟩
    · simp [h, hp]

theorem phiAt_replace {G : Func Op C} {x d : Nat} {o : Opd C} {p' : Phi C} : PhiAt (G.replace x o) d p' ↔ ∃ p, PhiAt G d p ∧ p' = p.sub (one x o) := by
  unfold PhiAt
  show (∃ B, (G.blk d).map (Block.sub (one x o)) = some B ∧ _) ↔ _
  constructor
  · rintro ⟨B, hB, hp⟩
    obtain ⟨B0, hB0, rfl⟩ := Option.map_eq_some_iff.mp hB
    obtain ⟨p, hp2, rfl⟩ := List.mem_map.mp hp
    exact ⟨p, ⟨B0, hB0, hp2⟩, rfl⟩
  · rintro ⟨p, ⟨B, hB, hp⟩, rfl⟩
    exact ⟨_, by rw [hB]; rfl, List.mem_map.mpr ⟨p, hp, rfl⟩⟩

theorem sub_one_id {x : Nat} {o : Opd C} {p : Phi C} (h : Opd.inst x ∉ p.ops) : p.sub (one x o) = p := by
  cases p with
  | mk n inc =>
    simp only [Phi.sub, Phi.mk.injEq, true_and]
    conv_rhs => rw [← List.map_id inc]
    refine List.map_congr_left fun e he => ?_
    obtain ⟨q, v⟩ := e
    cases v with
    | cst c => rfl
    | inst y =>
      simp only [Opd.sub, one, _root_.id, Prod.mk.injEq, true_and]
      rw [if_neg]
      rintro rfl
      exact h (List.mem_map.mpr ⟨_, he, rfl⟩)

/-- the phis with a number below `N` stay; the others keep their places and predecessors -/
structure Step (N : Nat) (G G' : Func Op C) : Prop where
  old : ∀ b p, p.id < N → (PhiAt G' b p ↔ PhiAt G b p)
  fwd : ∀ b p, PhiAt G b p → ∃ p', PhiAt G' b p' ∧ p'.id = p.id ∧ p'.inc.map Prod.fst = p.inc.map Prod.fst
  bwd : ∀ b p', PhiAt G' b p' → ∃ p, PhiAt G b p ∧ p.id = p'.id ∧ p'.inc.map Prod.fst = p.inc.map Prod.fst

theorem Step.refl (N : Nat) (G : Func Op C) : Step N G G := ⟨fun _ _ _ => Iff.rfl, fun _ p h => ⟨p, h, rfl, rfl⟩, fun _ p h => ⟨p, h, rfl, rfl⟩⟩

theorem Step.trans {N : Nat} {G G' G'' : Func Op C} (h : Step N G G') (h' : Step N G' G'') : Step N G G'' := by
  refine ⟨fun b p hp => (h'.old b p hp).trans (h.old b p hp), fun b p hp => ?_, fun b p hp => ?_⟩
  · obtain ⟨p1, h1, e1, k1⟩ := h.fwd b p hp
    obtain ⟨p2, h2, e2, k2⟩ := h'.fwd b p1 h1
    exact ⟨p2, h2, e2.trans e1, k2.trans k1⟩
  · obtain ⟨p1, h1, e1, k1⟩ := h'.bwd b p hp
    obtain ⟨p2, h2, e2, k2⟩ := h.bwd b p1 h1
    exact ⟨p2, h2, e2.trans e1, k1.trans k2⟩

theorem inc_nil_of_keys {p p' : Phi C} (h : p'.inc.map Prod.fst = p.inc.map Prod.fst) (e : p.inc = []) : p'.inc = [] := by
  rw [e, List.map_nil] at h
  exact List.map_eq_nil_iff.mp h

theorem step_replace {N x : Nat} {o : Opd C} {G : Func Op C} (h : ∀ b p, PhiAt G b p → p.id < N → Opd.inst x ∉ p.ops) : Step N G (G.replace x o) := by
  have hk : ∀ p : Phi C, (p.sub (one x o)).inc.map Prod.fst = p.inc.map Prod.fst := by
    intro p; simp [Phi.sub, List.map_map, Function.comp_def]
  refine ⟨fun b p hp => ?_, fun b p hp => ⟨_, phiAt_replace.mpr ⟨p, hp, rfl⟩, rfl, hk p⟩, fun b p' hp' => ?_⟩
  · rw [phiAt_replace]
    constructor
    · rintro ⟨p0, h0, rfl⟩
      rw [sub_one_id (h b p0 h0 hp)]; exact h0
    · intro h0
      exact ⟨p, h0, (sub_one_id (h b p h0 hp)).symm⟩
  · obtain ⟨p, hp, rfl⟩ := phiAt_replace.mp hp'
    exact ⟨p, hp, rfl, hk p⟩

/-! ## the operand of a trivial phi -/

theorem commonOp_spec [DecidableEq C] {x : Nat} : ∀ {vs : List (Opd C)} {c r : Option (Opd C)}, commonOp x vs c = some r →
    (∀ w, c = some w → r = some w) ∧ (∀ v ∈ vs, v = .inst x ∨ some v = r) ∧ (∀ o, r = some o → c = some o ∨ o ∈ vs ∧ o ≠ .inst x) := by
  intro vs
  induction vs with
  | nil =>
    intro c r h
    simp only [commonOp, Option.some.injEq] at h
    subst h
    exact ⟨fun _ h => h, by simp, fun _ h => .inl h⟩
  | cons v vs ih =>
    intro c r h
    simp only [commonOp] at h
    split at h
    · rename_i hv
      obtain ⟨h1, h2, h3⟩ := ih h
      refine ⟨h1, ?_, ?_⟩
      · intro w hw
        rcases List.mem_cons.mp hw with rfl | hw
        · rcases hv with hv | hv
          · exact .inr (h1 _ hv.symm).symm
          · exact .inl hv
        · exact h2 w hw
      · intro o ho
        exact (h3 o ho).imp_right fun ⟨h, h'⟩ => ⟨List.mem_cons_of_mem _ h, h'⟩
    · rename_i hv
      split at h
      · cases h
      · rename_i hc
        obtain ⟨h1, h2, h3⟩ := ih h
        rw [not_or] at hv
        have hr := h1 v rfl
        refine ⟨fun w hw => by simp [hw] at hc, ?_, ?_⟩
        · intro w hw
          rcases List.mem_cons.mp hw with rfl | hw
          · exact .inr hr.symm
          · exact h2 w hw
        · intro o ho
          rw [hr] at ho
          cases ho
          exact .inr ⟨by simp, hv.2⟩

theorem mem_phiUsers [DecidableEq C] {G : Func Op C} {x y : Nat} (h : y ∈ phiUsers G x) : y ≠ x ∧ ∃ b p, PhiAt G b p ∧ p.id = y ∧ Opd.inst x ∈ p.ops := by
  unfold phiUsers at h
  obtain ⟨B, hB, h⟩ := List.mem_flatMap.mp h
  obtain ⟨p, hp, h⟩ := List.mem_flatMap.mp h
  obtain ⟨o, ho, rfl⟩ := List.mem_map.mp h
  rw [List.mem_filter] at hp ho
  obtain ⟨b, _, hb⟩ := Func.mem_blocks.mp hB
  exact ⟨by simpa using hp.2, b, p, ⟨B, hb, hp.1⟩, rfl, by have := ho.2; simp only [decide_eq_true_eq] at this; exact this ▸ ho.1⟩

theorem phi?_some {G : Func Op C} {x : Nat} {p : Phi C} (h : G.phi? x = some p) : p.id = x ∧ ∃ b, PhiAt G b p := by
  obtain ⟨B, hB, hp⟩ := List.exists_of_findSome?_eq_some h
  obtain ⟨b, _, hb⟩ := Func.mem_blocks.mp hB
  obtain ⟨h1, h2⟩ := Block.phi?_mem hp
  exact ⟨h2, b, B, hb, h1⟩

/-! ## nothing is replaced by a promoted slot -/
variable {K : Type} {kind : Op → Kind} {slot : Op → Option K} {F : Func Op C} {vars : List Nat} {Φ : List (Nat × Nat × Nat)} {E : List (Nat × Opd C)} {G : Func Op C}
  {opn : Nat → Prop}

def Cln (vars : List Nat) (E : List (Nat × Opd C)) : Prop := ∀ e ∈ E, ∀ a ∈ vars, e.2 ≠ .inst a

theorem Rep.cln (h : Cln vars E) {o o' : Opd C} (r : Rep E o o') (ho : ∀ a ∈ vars, o ≠ .inst a) : ∀ a ∈ vars, o' ≠ .inst a := by
  cases r with
  | refl => exact ho
  | step _ h' => exact h _ h'

theorem Private.defIn (V : Private kind slot F vars) {a : Nat} (ha : a ∈ vars) : DefIn F a F.entry := by
  obtain ⟨B, j, i, hB, hi, rfl, _⟩ := V.lead a ha
  exact Inst.defIn hB hi

theorem Val.cln (c : Cert kind F vars Φ E G opn) (V : Private kind slot F vars) (h : Cln vars E) {a b j : Nat} {o : Opd C} (v : Val kind F Φ E a b j o) : ∀ a' ∈ vars, o ≠ .inst a' := by
  induction v with
  | @store a b j B i o h1 h2 h3 h4 h5 =>
    rintro a' ha' rfl
    obtain ⟨_, _, h⟩ := V.use a' ha' b B i h1 (List.mem_of_getElem? h2) (List.mem_of_getElem? h5)
    exact h 1 (by omega) h5
  | alloca => intro a' _ e; cases e
  | keep _ _ _ _ ih => exact ih
  | @phi x a b hm =>
    intro a' ha' e
    cases e
    exact (c.new _ _ _ hm).2.2.2 _ (V.defIn ha')
  | single _ _ _ _ ih => exact ih
  | repl _ hm _ => exact h _ hm

theorem Cert.opsCln (c : Cert kind F vars Φ E G opn) (V : Private kind slot F vars) (h : Cln vars E) {b : Nat} {p : Phi C} (hp : PhiAt G b p) {v : Opd C} (hv : v ∈ p.ops) :
    ∀ a ∈ vars, v ≠ .inst a := by
  obtain ⟨B', hB', hp⟩ := hp
  obtain ⟨B, hB, ⟨a, _, hn⟩ | ⟨p0, h0, hr⟩⟩ := c.phiCases hB' hp
  · obtain ⟨q, hq⟩ := mem_ops.mp hv
    obtain ⟨⟨Q, hQ, _⟩, h2⟩ := hn.ops q v hq
    exact (h2 Q hQ).cln c V h
  · obtain ⟨q, hq⟩ := mem_ops.mp hv
    obtain ⟨o, ho, r⟩ := (hr.mem (q := q)).1 v hq
    refine r.cln h ?_
    rintro a ha rfl
    exact V.phi a ha b B p0 hB h0 (mem_ops.mpr ⟨q, ho⟩)

/-- operands of phis are instructions of `F` or new phis -/
theorem Cert.opsHome (c : Cert kind F vars Φ E G opn) (P : Proper F) (hl : AllLive F) {b : Nat} {p : Phi C} (hp : PhiAt G b p) {y : Nat} (hv : Opd.inst y ∈ p.ops) :
    ∃ d, Home F Φ y d := by
  obtain ⟨B', hB', hp⟩ := hp
  obtain ⟨q, hq⟩ := mem_ops.mp hv
  obtain ⟨B, hB, ⟨a, _, hn⟩ | ⟨p0, h0, hr⟩⟩ := c.phiCases hB' hp
  · obtain ⟨⟨Q, hQ, _⟩, h2⟩ := hn.ops q _ hq
    obtain ⟨d, hd, _⟩ := (c.valAv P hl (h2 Q hQ) y rfl).home
    exact ⟨d, hd⟩
  · obtain ⟨o0, h1, h2⟩ := (hr.mem (q := q)).1 _ hq
    have hb := hl b B hB
    obtain ⟨Q, hQ, _⟩ := P.phiPred b B p0 hB hb h0 q o0 h1
    have := c.repAv P h2 (hl q Q hQ) (j := Q.body.length) (fun x e => by subst e; exact .inl (P.phi_avail hB hb hQ (hl q Q hQ) h0 h1))
    obtain ⟨d, hd, _⟩ := (this y rfl).home
    exact ⟨d, hd⟩

theorem Cert.phiUnique (c : Cert kind F vars Φ E G opn) (P : Proper F) {b b' : Nat} {p p' : Phi C} (h : PhiAt G b p) (h' : PhiAt G b' p') (e : p.id = p'.id) : b = b' ∧ p = p' := by
  obtain ⟨B, hB, hp⟩ := h
  obtain ⟨B', hB', hp'⟩ := h'
  have hh := c.homeUnique P (c.phiHome hB hp) (e ▸ c.phiHome hB' hp')
  subst hh
  rw [hB] at hB'
  cases hB'
  exact ⟨rfl, List.inj_on_of_nodup_map (c.phiIds P hB) hp hp' e⟩

theorem tryRemove_ok [DecidableEq C] {ord : List Nat → List Nat} {u : Nat → C} (P : Proper F) (hl : AllLive F) (V : Private kind slot F vars) (ho : ∀ l y, y ∈ ord l → y ∈ l) (N : Nat) :
    ∀ (n : Nat) (G : Func Op C) (E : List (Nat × Opd C)) (x : Nat) (o : Opd C) (G' : Func Op C), Cert kind F vars Φ E G opn → Cln vars E →
      (∀ b p y, PhiAt G b p → p.id < N → Opd.inst y ∈ p.ops → y < N) → (∀ b p, PhiAt G b p → N ≤ p.id → opn p.id → p.inc = []) → N ≤ x → ¬ opn x →
      tryRemove ord u n G x = some (o, G') →
      ∃ E', (∀ e ∈ E, e ∈ E') ∧ Cert kind F vars Φ E' G' opn ∧ Cln vars E' ∧ Rep E' (.inst x) o ∧ Step N G G' := by
  intro n
  induction n with
  | zero => intro G E x o G' _ _ _ _ _ _ h; cases h
  | succ n ih =>
    intro G E x o G' c hc low emp hx hop h
    simp only [tryRemove] at h
    split at h
    · cases h
    rename_i p hp
    obtain ⟨rfl, b, hpb⟩ := phi?_some hp
    split at h
    · simp only [Option.some.injEq, Prod.mk.injEq] at h
      obtain ⟨rfl, rfl⟩ := h
      exact ⟨E, fun _ h => h, c, hc, .refl _, .refl _ _⟩
    rename_i r hr
    obtain ⟨_, hr2, hr3⟩ := commonOp_spec hr
    obtain ⟨B, hB, hpB⟩ := id hpb
    obtain ⟨v, hv, hvne⟩ := (c.trivial P hl hB hpB hop).1
    have hrv : some v = r := (hr2 v hv).resolve_left hvne
    subst hrv
    simp only [Option.getD_some] at h
    have c1 := c.replacePhi P hl hB hpB hop (o := v) (fun w hw => (hr2 w hw).elim .inr (fun e => .inl (Option.some.inj e))) hvne
    have hc1 : Cln vars ((p.id, v) :: E) := by
      intro e he
      rcases List.mem_cons.mp he with rfl | he
      · exact c.opsCln V hc hpb hv
      · exact hc e he
    have st1 : Step N G (G.replace p.id v) := step_replace (fun b' p' hp' hlt hm => absurd (low b' p' p.id hp' hlt hm) (by omega))
    have hus : ∀ y ∈ ord (phiUsers G p.id), N ≤ y ∧ ¬ opn y := by
      intro y hy
      obtain ⟨_, b', p', hp', rfl, hm⟩ := mem_phiUsers (ho _ _ hy)
      have hN : N ≤ p'.id := by
        by_contra hlt
        have := low b' p' p.id hp' (by omega) hm
        omega
      refine ⟨hN, fun hopn => ?_⟩
      have := emp b' p' hp' hN hopn
      simp [Phi.ops, this] at hm
    obtain ⟨G2, hG2, e⟩ := Option.map_eq_some_iff.mp h
    simp only [Prod.mk.injEq] at e
    obtain ⟨rfl, rfl⟩ := e
    have fold : ∀ (ys : List Nat), (∀ y ∈ ys, N ≤ y ∧ ¬ opn y) → ∀ (G1 : Func Op C) (E1 : List (Nat × Opd C)), Cert kind F vars Φ E1 G1 opn → Cln vars E1 → Step N G G1 →
        ∀ G2, ys.foldlM (fun G y => (tryRemove ord u n G y).map Prod.snd) G1 = some G2 →
        ∃ E', (∀ e ∈ E1, e ∈ E') ∧ Cert kind F vars Φ E' G2 opn ∧ Cln vars E' ∧ Step N G G2 := by
      intro ys
      induction ys with
      | nil =>
        intro _ G1 E1 c1 hc1 st1 G2 h
        simp only [List.foldlM_nil, Option.pure_def, Option.some.injEq] at h
        subst h
        exact ⟨E1, fun _ h => h, c1, hc1, st1⟩
      | cons y ys ihy =>
        intro hys G1 E1 c1 hc1 st1 G2 h
        rw [List.foldlM_cons] at h
        obtain ⟨G3, h3, h⟩ := Option.bind_eq_some_iff.mp h
        obtain ⟨⟨o3, G3'⟩, h3', e⟩ := Option.map_eq_some_iff.mp h3
        simp only at e
        subst e
        obtain ⟨hy1, hy2⟩ := hys y (by simp)
        obtain ⟨E3, hE3, c3, hc3, _, st3⟩ := ih G1 E1 y o3 G3' c1 hc1
          (fun b' p' z hp' hlt hm => low b' p' z ((st1.old b' p' hlt).mp hp') hlt hm)
          (fun b' p' hp' hN hopn => by
            obtain ⟨p0, h0, e0, k0⟩ := st1.bwd b' p' hp'
            exact inc_nil_of_keys k0 (emp b' p0 h0 (by omega) (e0 ▸ hopn)))
          hy1 hy2 h3'
        obtain ⟨E4, hE4, c4, hc4, st4⟩ := ihy (fun z hz => hys z (List.mem_cons_of_mem _ hz)) G3' E3 c3 hc3 (st1.trans st3) G2 h
        exact ⟨E4, fun e he => hE4 e (hE3 e he), c4, hc4, st4⟩
    obtain ⟨E', hE', c', hc', st'⟩ := fold _ hus _ _ c1 hc1 st1 _ hG2
    exact ⟨E', fun e he => hE' e (List.mem_cons_of_mem _ he), c', hc', .step (.refl _) (hE' _ (by simp)), st'⟩

end
end Cmmc.SSA
