import Verif.SSA.BlockElim
/-! # The equations of SSA form hold on every run of a function whose live part is in SSA form -/
namespace Cmmc.SSA
section
variable {Op C : Type} {F : Func Op C}

theorem LiveWf.home (P : LiveWf F) {i a b : Nat} (ha : DefIn F i a) (hb : DefIn F i b) : a = b := defIn_unique P.listed P.unique ha hb

theorem LiveWf.useDom (P : LiveWf F) {b : Nat} {B : Block Op C} {x d : Nat} (hB : F.blk b = some B) (hb : Live F b) (hx : (∃ i ∈ B.body, Opd.inst x ∈ i.args) ∨ Opd.inst x ∈ B.term.args) (hd : DefIn F x d) : Domi F d b := by
  obtain ⟨d', h1, h2⟩ := P.use b B x hB hb hx
  rw [P.home hd h1]; exact h2

theorem LiveWf.avail_end {q d x : Nat} (P : LiveWf F) (h1 : DefIn F x d) (h2 : Domi F d q) {Q : Block Op C} (hQ : F.blk q = some Q) :
    Avail F q Q.body.length x := by
  refine ⟨d, h1, h2, fun e => ⟨Q, hQ, ?_⟩⟩
  subst e
  obtain ⟨B, hB, hi⟩ := h1
  have := Option.some.inj (hB.symm.trans hQ)
  subst this
  rw [List.take_length]
  exact List.mem_append.mp hi

theorem LiveWf.use_avail (P : LiveWf F) {b k : Nat} {B : Block Op C} (hB : F.blk b = some B) (hb : Live F b) {i : Inst Op C}
    (hi : B.body[k]? = some i) {x : Nat} (hx : Opd.inst x ∈ i.args) : Avail F b k x := by
  have hib : i ∈ B.body := List.mem_of_getElem? hi
  obtain ⟨d, hd, hdm⟩ := P.use b B x hB hb (.inl ⟨i, hib, hx⟩)
  refine ⟨d, hd, hdm, fun e => ⟨B, hB, ?_⟩⟩
  subst e
  obtain ⟨B', hB', hm⟩ := hd
  have := Option.some.inj (hB'.symm.trans hB)
  subst this
  obtain ⟨hk, hik⟩ := List.getElem?_eq_some_iff.mp hi
  refine (P.inOrder _ _ hB hb).1 (B'.body.take k) i (B'.body.drop (k + 1)) ?_ x hx hm
  rw [← hik, List.getElem_cons_drop, List.take_append_drop]

theorem LiveWf.term_avail (P : LiveWf F) {b : Nat} {B : Block Op C} (hB : F.blk b = some B) (hb : Live F b) {x : Nat}
    (hx : Opd.inst x ∈ B.term.args) : Avail F b B.body.length x := by
  obtain ⟨d, hd, hdm⟩ := P.use b B x hB hb (.inr hx)
  exact P.avail_end hd hdm hB

theorem LiveWf.phi_avail (P : LiveWf F) {b q : Nat} {B Q : Block Op C} (hB : F.blk b = some B) (hb : Live F b) (hQ : F.blk q = some Q) (hq : Live F q)
    {p : Phi C} (hp : p ∈ B.phis) {x : Nat} (hx : (q, Opd.inst x) ∈ p.inc) : Avail F q Q.body.length x := by
  obtain ⟨d, hd, hdm⟩ := P.phiUse b B p q x hB hb hp hx hq
  exact P.avail_end hd hdm hQ

theorem LiveWf.arg_avail (P : LiveWf F) {b k d : Nat} (hb : Live F b) {D : Block Op C} (hD : F.blk d = some D) {i : Inst Op C} (hi : i ∈ D.body)
    (h : Avail F b k i.id) {x : Nat} (hx : Opd.inst x ∈ i.args) : Avail F b k x := by
  obtain ⟨d', hd', hdom, hin⟩ := h
  have hdd : DefIn F i.id d := ⟨D, hD, List.mem_append.mpr (.inr (List.mem_map.mpr ⟨i, hi, rfl⟩))⟩
  have := P.home hd' hdd
  subst this
  have hdl := hdom.live hb
  obtain ⟨k', hk', hik⟩ := List.getElem_of_mem hi
  have hik' : D.body[k']? = some i := by rw [List.getElem?_eq_getElem hk', hik]
  have hav := P.use_avail hD hdl hik' hx
  by_cases hdb : d' = b
  · subst hdb
    refine avail_mono hav ?_
    -- `i` occurs among the first `k` instructions
    obtain ⟨B, hB, hm⟩ := hin rfl
    have := Option.some.inj (hB.symm.trans hD)
    subst this
    by_contra hlt
    have hids : B.ids.Nodup := by
      have hu := P.unique
      unfold Func.allIds at hu
      exact (List.nodup_flatMap.mp hu).1 B (P.listed.mem hD)
    unfold Block.ids at hids
    rw [List.nodup_append] at hids
    rcases hm with hm | hm
    · exact hids.2.2 _ hm _ (List.mem_map.mpr ⟨i, hi, rfl⟩) rfl
    · obtain ⟨j, hj, hji⟩ := List.mem_map.mp hm
      obtain ⟨l, hl, hjl⟩ := List.getElem_of_mem hj
      rw [List.getElem_take] at hjl
      rw [List.length_take] at hl
      have h1 : (B.body.map Inst.id)[l]'(by rw [List.length_map]; omega) = (B.body.map Inst.id)[k']'(by rw [List.length_map]; omega) := by
        rw [List.getElem_map, List.getElem_map, hjl, hik, hji]
      have := (List.Nodup.getElem_inj_iff hids.2.1).mp h1
      omega
  · obtain ⟨e, he, hedom, _⟩ := hav
    refine ⟨e, he, hedom.trans hdom, fun heb => ?_⟩
    subst heb
    exact absurd (hdom.antisymm hedom hb) hdb

theorem LiveWf.block_ids {Op C : Type} {F : Func Op C} (P : LiveWf F) {b : Nat} {B : Block Op C} (hB : F.blk b = some B) : B.ids.Nodup := by
  have hu := P.unique
  unfold Func.allIds at hu
  exact (List.nodup_flatMap.mp hu).1 B (P.listed.mem hB)

theorem LiveWf.not_avail {Op C : Type} {F : Func Op C} (P : LiveWf F) {b k : Nat} {B : Block Op C} (hB : F.blk b = some B) {i : Inst Op C}
    (hi : B.body[k]? = some i) : ¬ Avail F b k i.id := by
  rintro ⟨d, hd, _, hin⟩
  have him := List.mem_of_getElem? hi
  have hdb : DefIn F i.id b := ⟨B, hB, List.mem_append.mpr (.inr (List.mem_map.mpr ⟨i, him, rfl⟩))⟩
  obtain ⟨B', hB', hm⟩ := hin (P.home hd hdb)
  have := Option.some.inj (hB'.symm.trans hB)
  subst this
  have hids := P.block_ids hB
  unfold Block.ids at hids
  rw [List.nodup_append] at hids
  obtain ⟨hk, hik⟩ := List.getElem?_eq_some_iff.mp hi
  rcases hm with hm | hm
  · exact hids.2.2 _ hm _ (List.mem_map.mpr ⟨i, him, rfl⟩) rfl
  · obtain ⟨j, hj, hji⟩ := List.mem_map.mp hm
    obtain ⟨l, hl, hjl⟩ := List.getElem_of_mem hj
    rw [List.getElem_take] at hjl
    rw [List.length_take] at hl
    have h1 : (B'.body.map Inst.id)[l]'(by rw [List.length_map]; omega) = (B'.body.map Inst.id)[k]'(by rw [List.length_map]; omega) := by
      rw [List.getElem_map, List.getElem_map, hjl, hik, hji]
    have := (List.Nodup.getElem_inj_iff hids.2.1).mp h1
    omega

theorem LiveWf.avail_enter {Op C : Type} {F : Func Op C} (P : LiveWf F) {q b x : Nat} {A B : Block Op C} (he : Edge F q b)
    (hA : F.blk q = some A) (hB : F.blk b = some B) (h : Avail F b 0 x) :
    x ∈ B.phis.map Phi.id ∨ (x ∉ B.ids ∧ Avail F q A.body.length x) := by
  obtain ⟨d, hd, hdom, hin⟩ := h
  by_cases hdb : d = b
  · obtain ⟨B', hB', hm⟩ := hin hdb
    have := Option.some.inj (hB'.symm.trans hB)
    subst this
    rcases hm with hm | hm
    · exact .inl hm
    · simp at hm
  · refine .inr ⟨fun hx => hdb (P.home hd ⟨B, hB, hx⟩), P.avail_end hd (hdom.pred hdb he) hA⟩

end

section
variable {L : Lang} {F : L.F}

theorem PointInv.phis_live {Q : Nat → Nat → Env L → Prop} (I : PointInv F Q) (P : LiveWf F) {s : St L} (h : Between F Q s) {B : L.B} (hB : F.blk s.cur = some B) {env : Env L}
    (he : enterPhis L s.pred s.env B.phis s.env = some env) : Q s.cur 0 env := by
  unfold Between at h
  cases hp : s.pred with
  | none =>
    rw [hp] at h he
    obtain ⟨h1, h2⟩ := h
    have := P.entryPhis B (h1 ▸ hB)
    rw [this] at he
    simp only [enterPhis, Option.some.injEq] at he
    rw [← he, h1, h2]
    exact I.entry
  | some q =>
    rw [hp] at h he
    obtain ⟨h1, h2, A, hA, h3⟩ := h
    exact I.enter q s.cur B A s.env env h1 h2 hA hB h3 he

theorem PointInv.step_live {Q : Nat → Nat → Env L → Prop} (I : PointInv F Q) (P : LiveWf F) {s s' : St L} (h : Between F Q s) (hs : SSA.step L F s = .inl s') :
    Between F Q s' := by
  obtain ⟨hpred, B, hB, ht⟩ := step_target hs
  unfold Between
  rw [hpred]
  refine ⟨h.live, ⟨B, hB, ht⟩, B, hB, ?_⟩
  unfold SSA.step at hs
  rw [hB] at hs
  simp only [stepBlk] at hs
  split at hs
  · simp at hs
  · rename_i env he
    split at hs
    · simp at hs
    · simp at hs
    · rename_i env2 m2 es2 hbody
      have hq := I.body h.live hB B.body.length 0 env s.m s.tr (by omega) (I.phis_live P h hB he) (by rw [List.drop_zero]; exact hbody) (Nat.zero_le _)
      split at hs
      · simp at hs
      · simp at hs
      · simp only [Sum.inl.injEq] at hs
        subst hs
        exact hq

theorem eqns_live {mv : L.Op → Bool} (hmv : Movable L mv) (P : LiveWf F) : PointInv F (Eqns F mv) := by
  refine ⟨?_, ?_, ?_⟩
  · intro d D i hD hi _ hav
    obtain ⟨d', hd', hdom, hin⟩ := hav
    have hd := domi_entry hdom
    obtain ⟨B, hB, hm⟩ := hin hd
    rw [P.entryPhis B hB] at hm
    simp at hm
  · intro q b B A env env' hq he hA hB hQ hen d D i hD hi hop hav
    have hdd : DefIn F i.id d := ⟨D, hD, List.mem_append.mpr (.inr (List.mem_map.mpr ⟨i, hi, rfl⟩))⟩
    have hdb : d ≠ b := by
      rintro rfl
      have := Option.some.inj (hD.symm.trans hB)
      subst this
      obtain ⟨d', hd', _, hin⟩ := hav
      obtain ⟨B', hB', hm⟩ := hin (P.home hd' hdd)
      have := Option.some.inj (hB'.symm.trans hB)
      subst this
      have hids := P.block_ids hB
      unfold Block.ids at hids
      rw [List.nodup_append] at hids
      rcases hm with hm | hm
      · exact hids.2.2 _ hm _ (List.mem_map.mpr ⟨i, hi, rfl⟩) rfl
      · simp at hm
    obtain ⟨d', hd', hdom, _⟩ := hav
    have := P.home hd' hdd
    subst this
    have hb := hq.edge he
    have hself : i.id ∉ B.phis.map Phi.id := fun hm => hdb (P.home hdd ⟨B, hB, List.mem_append.mpr (.inl hm)⟩)
    have harg : ∀ x, Opd.inst x ∈ i.args → x ∉ B.phis.map Phi.id := by
      intro x hx hm
      have h1 : DefIn F x b := ⟨B, hB, List.mem_append.mpr (.inl hm)⟩
      have h2 := P.useDom hD (hdom.live hb) (.inl ⟨i, hi, hx⟩) h1
      exact hdb (hdom.antisymm h2 hb)
    obtain ⟨vs, v, e1, e2, e3⟩ := hQ d' D i hD hi hop (P.avail_end hdd (hdom.pred hdb he) hA)
    refine ⟨vs, v, ?_, ?_, e3⟩
    · rw [evals_eq (fun x hx => enterPhis_other hen x (harg x hx))]; exact e1
    · rw [enterPhis_other hen _ hself]; exact e2
  · intro b k B i0 env vs0 v0 m0 m0' es0 hb hB hi0 hQ hvs0 hs0 d D i hD hi hop hav
    have hna := P.not_avail hB hi0
    rcases avail_succ hB hi0 hav with h | h
    · obtain ⟨vs, v, e1, e2, e3⟩ := hQ d D i hD hi hop h
      have hne : i.id ≠ i0.id := fun e => hna (e ▸ h)
      refine ⟨vs, v, ?_, ?_, e3⟩
      · rw [evals_eq (env := env)]
        · exact e1
        · intro x hx
          have hx' := P.arg_avail hb hD hi h hx
          unfold setEnv
          rw [if_neg]
          intro e; exact hna (e ▸ hx')
      · unfold setEnv; rw [if_neg hne]; exact e2
    · -- it is the instruction just executed
      have h0 := List.mem_of_getElem? hi0
      have hdb : d = b := P.home (i := i.id) ⟨D, hD, List.mem_append.mpr (.inr (List.mem_map.mpr ⟨i, hi, rfl⟩))⟩
        (h ▸ ⟨B, hB, List.mem_append.mpr (.inr (List.mem_map.mpr ⟨i0, h0, rfl⟩))⟩)
      subst hdb
      have := Option.some.inj (hD.symm.trans hB)
      subst this
      have hii : i = i0 := by
        have hids := P.block_ids hB
        unfold Block.ids at hids
        rw [List.nodup_append] at hids
        exact List.inj_on_of_nodup_map hids.2.1 hi h0 h
      subst hii
      refine ⟨vs0, v0, ?_, by simp [setEnv], ?_⟩
      · rw [evals_eq (env := env)]
        · exact hvs0
        · intro x hx
          have hx' := P.use_avail hB hb hi0 hx
          unfold setEnv
          rw [if_neg]
          intro e; exact hna (e ▸ hx')
      · intro m
        rcases hmv i.op hop vs0 with hu | ⟨w, hw⟩
        · rw [hu m0] at hs0; simp at hs0
        · rw [hw m0] at hs0
          simp only [Res.ok.injEq] at hs0
          rw [hw m, hs0.1]

theorem execBody_sub_live {Q : Nat → Nat → Env L → Prop} (I : PointInv F Q) (P : LiveWf F) {σ : Nat → Opd L.C}
    (hσ : ∀ b k env x, Live F b → Q b k env → Avail F b k x → eval L env (σ x) = env x) {b : Nat} {B : L.B} (hb : Live F b) (hB : F.blk b = some B) :
    ∀ (n k : Nat) (env : Env L) (m : L.M) (es : List L.E), B.body.length - k = n → Q b k env →
      execBody L ((B.body.drop k).map (Inst.sub σ)) env m es = execBody L (B.body.drop k) env m es := by
  intro n
  induction n with
  | zero =>
    intro k env m es hn _
    rw [List.drop_eq_nil_of_le (by omega)]
    rfl
  | succ n ih =>
    intro k env m es hn hq
    have hlt : k < B.body.length := by omega
    rw [List.drop_eq_getElem_cons hlt]
    have hget := List.getElem?_eq_getElem hlt
    simp only [List.map_cons, execBody]
    have he : evals L env (Inst.sub σ B.body[k]).args = evals L env B.body[k].args :=
      evals_sub (fun x hx => hσ b k env x hb hq (P.use_avail hB hb hget hx))
    rw [he]
    cases hvs : evals L env B.body[k].args with
    | none => rfl
    | some vs =>
      simp only [Inst.sub]
      cases hs : L.sem B.body[k].op vs m with
      | ub => rfl
      | halt es h => rfl
      | ok v m1 es1 =>
        exact ih (k + 1) _ _ _ (by omega) (I.inst b k B _ env vs v m m1 es1 hb hB hget hq hvs hs)

theorem refines_sub_live {Q : Nat → Nat → Env L → Prop} (I : PointInv F Q) (P : LiveWf F) {σ : Nat → Opd L.C}
    (hσ : ∀ b k env x, Live F b → Q b k env → Avail F b k x → eval L env (σ x) = env x) : Refines L F (F.sub σ) := by
  refine refines_lockstep (Between F Q) rfl (between_start Q) ?_
  intro s h
  right
  refine ⟨?_, fun s' hs => I.step_live P h hs⟩
  unfold SSA.step
  cases hB : F.blk s.cur with
  | none => simp [Func.sub, hB]
  | some B =>
    simp only [Func.sub, hB, Option.map_some]
    unfold stepBlk
    have hph : enterPhis L s.pred s.env (B.sub σ).phis s.env = enterPhis L s.pred s.env B.phis s.env := by
      cases hp : s.pred with
      | none => exact enterPhis_congr (by simp [Block.sub]) _
      | some q =>
        unfold Between at h
        rw [hp] at h
        obtain ⟨hq, he, A, hA, hQ⟩ := h
        exact enterPhis_sub (fun p hp' x hx => hσ q _ s.env x hq hQ (P.phi_avail hB (hq.edge he) hA hq hp' hx))
    rw [hph]
    cases he : enterPhis L s.pred s.env B.phis s.env with
    | none => rfl
    | some env =>
      have h0 := I.phis_live P h hB he
      have hbd := execBody_sub_live I P hσ h.live hB B.body.length 0 env s.m s.tr (by omega) h0
      rw [List.drop_zero] at hbd
      simp only [Block.sub]
      rw [hbd]
      cases hx : execBody L B.body env s.m s.tr with
      | ub => rfl
      | halt es h => rfl
      | ok env2 m2 es2 =>
        simp only
        have hq := I.body h.live hB B.body.length 0 env s.m s.tr (by omega) h0 (by rw [List.drop_zero]; exact hx) (Nat.zero_le _)
        rw [evalTerm_sub (fun x hx => hσ s.cur _ env2 x h.live hq (P.term_avail hB h.live hx))]

end
end Cmmc.SSA
