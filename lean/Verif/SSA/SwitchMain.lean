import Verif.SSA.SwitchWf
import Verif.SSA.ReorderSem
/-! # Branch2Switch: one conversion keeps the behaviour -/
namespace Cmmc.SSA
section
variable {L : Lang}

/-- what the comparisons mean: they are pure, and comparing a value with an integer constant tells whether the `switch` would look up that
integer -/
structure SwLang (L : Lang) (P : B2W L.Op L.C) (mv : L.Op → Bool) : Prop where
  pure : ∀ op e, P.cmp op = some e → mv op = true
  key : ∀ op e c k v m r m' es, P.cmp op = some e → P.int c = some k → L.sem op [v, L.cval c] m = .ok r m' es → ∃ kv, L.key v = some kv ∧ L.truth r = some (decide (kv = k) == e)

/-- registers agree, and also on everything just executed -/
theorem AgreeK.body' : ∀ {is : List (Inst L.Op L.C)} {K : Nat → Prop} {e e' : Env L} {m : L.M} {es : List L.E}, (∀ i ∈ is, ∀ x, K x → Opd.inst x ∉ i.args) → AgreeK K e e' →
    BodyRel (AgreeK (fun x => K x ∧ x ∉ is.map Inst.id)) (execBody L is e m es) (execBody L is e' m es) := by
  intro is
  induction is with
  | nil => intro K e e' m es _ h; exact ⟨e', rfl, h.mono (fun x hx => ⟨hx, by simp⟩)⟩
  | cons i is ih =>
    intro K e e' m es hi h
    simp only [execBody]
    rw [h.evals (hi i (by simp))]
    cases hv : Cmmc.SSA.evals L e i.args with
    | none => trivial
    | some vs =>
      dsimp only
      cases hs : L.sem i.op vs m with
      | ok v m' es' =>
        have := ih (m := m') (es := es ++ es') (fun j hj x hx => hi j (by simp [hj]) x hx.1) (h.set i.id v)
        dsimp only
        cases hb : execBody L is (setEnv L e i.id v) m' (es ++ es') with
        | ub => trivial
        | halt es h => rw [hb] at this; exact this
        | ok e1 m1 es1 =>
          rw [hb] at this
          obtain ⟨e2, h1, h2⟩ := this
          refine ⟨e2, h1, h2.mono ?_⟩
          rintro x ⟨⟨h3, h4⟩, h5⟩
          exact ⟨h3, by simp [h4, h5]⟩
      | ub => trivial
      | halt es' h' => rfl

/-- pure instructions only write their own registers -/
theorem execBody_pure {mv : L.Op → Bool} (hmv : Movable L mv) : ∀ {is : List (Inst L.Op L.C)} {e : Env L} {m : L.M} {es : List L.E}, (∀ i ∈ is, mv i.op = true) →
    execBody L is e m es = .ub ∨ ∃ e', execBody L is e m es = .ok e' m es := by
  intro is
  induction is with
  | nil => intro e m es _; exact .inr ⟨e, rfl⟩
  | cons i is ih =>
    intro e m es h
    simp only [execBody]
    cases hv : evals L e i.args with
    | none => exact .inl rfl
    | some vs =>
      dsimp only
      rcases hmv i.op (h i (by simp)) vs with hu | ⟨v, hv⟩
      · rw [hu m]; exact .inl rfl
      · rw [hv m]
        simp only [List.append_nil]
        exact ih (fun j hj => h j (by simp [hj]))

variable {P : B2W L.Op L.C} {mv : L.Op → Bool} {F : L.F} {h : Nat} {base : Opd L.C} {k1 : Int} {t1 b1 : Nat} {ls : List Nat} {cs cs' : List (Int × Nat)} {d par : Nat}

/-- the branch of a block of the chain -/
theorem SwLang.term (hP : SwLang L P mv) (m : L.M) (W : LiveWf F) {b t fb : Nat} {k : Int} {B : L.B} (hB : F.blk b = some B) (hb : Live F b) (hm : P.matchEqual F b = some (base, k, t, fb)) {env : Env L}
    (hq : Eqns F mv b B.body.length env) : ∃ v kv, eval L env base = some v ∧ L.key v = some kv ∧ evalTerm L env B.term = .goto (if kv = k then t else fb) := by
  obtain ⟨B0, i, e, c, d', D, hB0, ht, hD, hi, hop, hargs, hint⟩ := matchEqual_some hm
  obtain rfl := Option.some.inj (hB0.symm.trans hB)
  have hav := W.term_avail hB hb (x := i.id) (by rw [ht]; simp [Term.args])
  obtain ⟨vs, r, h1, h2, h3⟩ := hq d' D i hD hi (hP.pure _ _ hop) hav
  rw [hargs] at h1
  unfold evals at h1
  cases hv : eval L env base with
  | none => rw [hv] at h1; simp at h1
  | some v =>
    rw [hv] at h1
    simp only [evals, eval, Option.some.injEq] at h1
    subst h1
    · obtain ⟨kv, hk1, hk2⟩ := hP.key _ _ _ _ _ _ _ _ _ hop hint (h3 m)
      refine ⟨v, kv, rfl, hk1, ?_⟩
      rw [ht]
      simp only [evalTerm, eval, h2, Option.bind_some, hk2]
      cases e <;> by_cases hkk : kv = k <;> simp [hkk]

/-- along the chain -/
theorem Links.run (hP : SwLang L P mv) (hmv : Movable L mv) (W : LiveWf F) {v : L.V} {kv : Int} (hkv : L.key v = some kv) {b par0 : Nat} (K : Links P F base b par0 ls cs d par)
    (pure : ∀ l ∈ ls, ∀ B, F.blk l = some B → B.phis = [] ∧ ∀ i ∈ B.body, mv i.op = true) (hbase : ∀ l ∈ ls, ∀ B, F.blk l = some B → ∀ i ∈ B.body, base ≠ .inst i.id) :
    ∀ {s : St L}, s.cur = b → s.pred = some par0 → Between F (Eqns F mv) s → eval L s.env base = some v →
    (∃ n, run L F n s = .inr .ub) ∨ ∃ n s', run L F n s = .inl s' ∧ Between F (Eqns F mv) s' ∧ s'.m = s.m ∧ s'.tr = s.tr ∧ AgreeK (fun x => ∃ l ∈ ls, DefIn F x l) s'.env s.env ∧
      ((∃ e, cs.find? (fun e => e.1 == kv) = some e ∧ s'.cur = e.2) ∨ (cs.find? (fun e => e.1 == kv) = none ∧ s'.cur = d ∧ s'.pred = some par)) := by
  induction K with
  | stop b par => intro s h1 h2 h3 h4; exact .inr ⟨0, s, rfl, h3, rfl, rfl, fun _ _ => rfl, .inr ⟨rfl, h1, h2⟩⟩
  | @link b par0 k t fb ls cs d par ho hm K ih =>
    intro s h1 h2 h3 h4
    have hb : Live F b := h1 ▸ h3.live
    obtain ⟨B, _, _, _, _, _, hB, _⟩ := matchEqual_some hm
    obtain ⟨p1, p2⟩ := pure b (by simp) B hB
    have hs : step L F s = stepBlk L B s := by unfold step; rw [h1, hB]
    unfold stepBlk at hs
    rw [p1] at hs
    simp only [enterPhis] at hs
    rcases execBody_pure hmv (e := s.env) (m := s.m) (es := s.tr) p2 with hu | ⟨e1, hu⟩
    · rw [hu] at hs; exact .inl ⟨1, by rw [run_one, hs]⟩
    · have hq := (eqns_live hmv W).body hb hB B.body.length 0 s.env s.m s.tr (by omega) (by
          have := (eqns_live hmv W).phis_live W h3 (h1 ▸ hB) (env := s.env) (by rw [p1]; rfl)
          rwa [h1] at this) (by rw [List.drop_zero]; exact hu) (Nat.zero_le _)
      obtain ⟨v', kv', g1, g2, g3⟩ := hP.term s.m W hB hb hm hq
      have hoth := execBody_other hu
      have hsame : eval L e1 base = eval L s.env base := by
        cases hbs : base with
        | cst c => rfl
        | inst y =>
          show e1 y = s.env y
          refine hoth y fun hy => ?_
          obtain ⟨i, hi, rfl⟩ := List.mem_map.1 hy
          exact hbase b (by simp) B hB i hi hbs
      rw [hsame, h4] at g1
      obtain rfl := Option.some.inj g1
      rw [g2] at hkv
      obtain rfl := Option.some.inj hkv
      rw [hu] at hs
      simp only [g3] at hs
      have hbt := (eqns_live hmv W).step_live W h3 hs
      have hag : AgreeK (fun x => ∃ l ∈ b :: ls, DefIn F x l) e1 s.env := by
        intro x hx
        refine hoth x fun hy => hx ⟨b, by simp, B, hB, List.mem_append.2 (.inr hy)⟩
      by_cases hk : kv' = k
      · subst hk
        rw [if_pos rfl] at hs
        rw [if_pos rfl] at hbt
        refine .inr ⟨1, ⟨some s.cur, t, e1, s.m, s.tr⟩, by rw [run_one, hs], hbt, rfl, rfl, hag, .inl ⟨(kv', t), by simp, rfl⟩⟩
      · rw [if_neg hk] at hs hbt
        rcases ih (fun l hl => pure l (by simp [hl])) (fun l hl => hbase l (by simp [hl])) rfl (by rw [← h1]) hbt (by show eval L e1 base = _; rw [hsame, h4]) with ⟨n, hn⟩ | ⟨n, s', q1, q2, q3, q4, q5, q6⟩
        · exact .inl ⟨1 + n, by rw [run_add, run_one, hs]; exact hn⟩
        · have hkk : ¬ (k == kv') = true := by simpa using fun e => hk e.symm
          refine .inr ⟨1 + n, s', by rw [run_add, run_one, hs]; exact q1, q2, q3, q4, ?_, ?_⟩
          · intro x hx
            rw [q5 x (fun ⟨l, hl, hd⟩ => hx ⟨l, by simp [hl], hd⟩)]
            exact hag x hx
          · rw [show ((k, t) :: cs).find? (fun e => e.1 == kv') = cs.find? (fun e => e.1 == kv') from List.find?_cons_of_neg hkk]; exact q6

theorem find_perm {k : Int} {l l' : List (Int × Nat)} (hp : l'.Perm l) (hn : (l.map Prod.fst).Nodup) : l'.find? (fun e => e.1 == k) = l.find? (fun e => e.1 == k) := by
  have key : ∀ {l : List (Int × Nat)}, (l.map Prod.fst).Nodup → ∀ e, l.find? (fun e => e.1 == k) = some e ↔ e ∈ l ∧ e.1 = k := by
    intro l hn e
    constructor
    · intro h; exact ⟨List.mem_of_find?_eq_some h, by simpa using List.find?_some h⟩
    · rintro ⟨h1, h2⟩
      cases hf : l.find? (fun e => e.1 == k) with
      | none => exact absurd h2 (by simpa using List.find?_eq_none.1 hf e h1)
      | some e' =>
        have h3 := List.mem_of_find?_eq_some hf
        have h4 : e'.1 = k := by simpa using List.find?_some hf
        rw [List.inj_on_of_nodup_map hn h3 h1 (h4.trans h2.symm)]
  have hn' : (l'.map Prod.fst).Nodup := (hp.map _).nodup_iff.2 hn
  apply Option.ext
  intro e
  rw [key hn, key hn', hp.mem_iff]

theorem at_addIncoming_new {C : Type} {p : Phi C} {q : Nat} (hn : p.at q = none) (v : Opd C) : (p.addIncoming q v).at q = some v := by
  unfold Phi.addIncoming Phi.at at *
  rw [List.find?_append]
  have : p.inc.find? (fun e => e.1 == q) = none := by simpa using hn
  rw [this]; simp

structure SwRel (F : L.F) (mv : L.Op → Bool) (h : Nat) (ls : List Nat) (d par : Nat) (s s' : St L) : Prop where
  cur : s'.cur = s.cur
  env : AgreeK (fun x => ∃ l ∈ ls, DefIn F x l) s.env s'.env
  m : s'.m = s.m
  tr : s'.tr = s.tr
  btw : Between F (Eqns F mv) s
  pred : s'.pred = s.pred ∨ (s.pred = some par ∧ s'.pred = some h ∧ s.cur = d) ∨ ∀ B, F.blk s.cur = some B → B.phis = []

namespace SwStep
variable (S : SwStep P mv F h base k1 t1 b1 ls cs d par)
include S

theorem base_ne (W : LiveWf F) : ∀ x, (∃ l ∈ ls, DefIn F x l) → base ≠ .inst x := by
  rintro x ⟨l, hl, hd⟩ hb
  obtain ⟨z, hz, _, hzl⟩ := S.base_def W hb
  exact hzl (W.home hz hd ▸ hl)

theorem enter (W : LiveWf F) {s s' : St L} (R : SwRel F mv h ls d par s s') {B : L.B} (hB : F.blk s.cur = some B) {env : Env L} (he : enterPhis L s.pred s.env B.phis s.env = some env) :
    ∃ env', enterPhis L s'.pred s'.env (if s.cur = d then copyPhis par h B.phis else B.phis) s'.env = some env' ∧ AgreeK (fun x => ∃ l ∈ ls, DefIn F x l) env env' := by
  have nil : B.phis = [] → ∃ env', enterPhis L s'.pred s'.env (if s.cur = d then copyPhis par h B.phis else B.phis) s'.env = some env' ∧ AgreeK (fun x => ∃ l ∈ ls, DefIn F x l) env env' := by
    intro hp
    rw [hp] at he ⊢
    simp only [enterPhis, Option.some.injEq] at he
    subst he
    refine ⟨s'.env, ?_, R.env⟩
    simp [copyPhis, enterPhis]
  by_cases hne : B.phis = []
  · exact nil hne
  have hu : ∀ p ∈ B.phis, ∀ x, (∃ l ∈ ls, DefIn F x l) → Opd.inst x ∉ p.ops := by
    rintro p hp x ⟨l, hl, hd⟩
    exact ((S.links.mem hl).1 x s.cur B hd hB).1 p hp
  have go : ∀ {q q' : Nat}, s.pred = some q → s'.pred = some q' → List.Forall₂ (fun p p' : Phi L.C => p'.id = p.id ∧ p'.at q' = p.at q) B.phis (if s.cur = d then copyPhis par h B.phis else B.phis) →
      ∃ env', enterPhis L s'.pred s'.env (if s.cur = d then copyPhis par h B.phis else B.phis) s'.env = some env' ∧ AgreeK (fun x => ∃ l ∈ ls, DefIn F x l) env env' := by
    intro q q' h1 h2 hf
    rw [h1] at he
    rw [h2]
    obtain ⟨r', g1, g2⟩ := R.env.phis hf hu R.env he
    exact ⟨r', g1, g2.mono (fun x hx => hx.1)⟩
  cases hq : s.pred with
  | none =>
    have := R.btw
    unfold Between at this
    rw [hq] at this
    exact absurd (W.entryPhis B (this.1 ▸ hB)) hne
  | some q =>
    rcases R.pred with h1 | ⟨h1, h2, h3⟩ | h1
    · refine go hq (h1.trans hq) ?_
      split
      · rename_i hcd
        unfold copyPhis
        rw [List.forall₂_map_right_iff, List.forall₂_same]
        intro p hp
        obtain ⟨⟨v, hv⟩, hn⟩ := S.phis B (hcd ▸ hB) p hp
        rw [hv]
        refine ⟨rfl, ?_⟩
        by_cases hqh : q = h
        · -- a phi without an entry for the head
          exfalso
          rw [hq, hqh] at he
          have stuck : ∀ {ps : List (Phi L.C)} {e r : Env L}, p ∈ ps → enterPhis L (some h) s.env ps e ≠ some r := by
            intro ps
            induction ps with
            | nil => intro e r hp; simp at hp
            | cons p0 ps ih =>
              intro e r hp hh
              simp only [enterPhis] at hh
              rcases List.mem_cons.1 hp with rfl | hp
              · simp [phiVal, hn] at hh
              · split at hh
                · cases hh
                · exact ih hp hh
          exact stuck hp he
        · exact Phi.at_addIncoming hqh
      · rw [List.forall₂_same]; exact fun p _ => ⟨rfl, rfl⟩
    · refine go h1 h2 ?_
      rw [if_pos h3]
      unfold copyPhis
      rw [List.forall₂_map_right_iff, List.forall₂_same]
      intro p hp
      obtain ⟨⟨v, hv⟩, hn⟩ := S.phis B (h3 ▸ hB) p hp
      rw [hv]
      exact ⟨rfl, at_addIncoming_new hn v⟩
    · exact absurd (h1 B hB) hne

theorem sim (hP : SwLang L P mv) (hmv : Movable L mv) (W : LiveWf F) (hc : cs'.Perm ((k1, t1) :: cs)) : Simulation F (swFn F h base cs' d par) (SwRel F mv h ls d par) := by
  intro s s' R
  refine ⟨R.tr.symm, ?_⟩
  have I := eqns_live (F := F) hmv W
  cases hB : F.blk s.cur with
  | none => exact .inl ⟨1, by rw [run_one]; unfold step; rw [hB]⟩
  | some B =>
    have hB' := S.blk' (cs' := cs') hB
    have hF : step L F s = stepBlk L B s := by unfold step; rw [hB]
    have hG : step L (swFn F h base cs' d par) s' = stepBlk L ⟨if s.cur = d then copyPhis par h B.phis else B.phis, B.body, if s.cur = h then .sw base d cs' else B.term⟩ s' := by unfold step; rw [R.cur, hB']
    have hlive := R.btw.live
    unfold stepBlk at hF hG
    cases he : enterPhis L s.pred s.env B.phis s.env with
    | none => rw [he] at hF; exact .inl ⟨1, by rw [run_one, hF]⟩
    | some env =>
      obtain ⟨env', he', hag⟩ := S.enter W R hB he
      rw [he] at hF
      rw [he'] at hG
      dsimp only at hF hG
      rw [R.m, R.tr] at hG
      have hbr := AgreeK.body' (is := B.body) (e := env) (e' := env') (m := s.m) (es := s.tr) (K := fun x => ∃ l ∈ ls, DefIn F x l)
        (fun i hi x ⟨l, hl, hd⟩ => ((S.links.mem hl).1 x s.cur B hd hB).2.1 i hi) hag
      cases hb : execBody L B.body env s.m s.tr with
      | ub => rw [hb] at hF; exact .inl ⟨1, by rw [run_one, hF]⟩
      | halt es h =>
        rw [hb] at hF hbr
        rw [hbr] at hG
        exact .inr (.inl ⟨1, 1, _, by rw [run_one, hF], by rw [run_one, hG]⟩)
      | ok env1 m1 es1 =>
        rw [hb] at hF hbr
        obtain ⟨env1', hb', hag1⟩ := hbr
        rw [hb'] at hG
        dsimp only at hF hG
        have hag2 : AgreeK (fun x => ∃ l ∈ ls, DefIn F x l) env1 env1' := hag1.mono (fun x hx => hx.1)
        have hq := I.body hlive hB B.body.length 0 env s.m s.tr (by omega) (I.phis_live W R.btw hB he) (by rw [List.drop_zero]; exact hb) (Nat.zero_le _)
        by_cases hch : s.cur = h
        · rw [if_pos hch] at hG
          rw [hch] at hB hlive hq
          obtain ⟨v, kv, g1, g2, g3⟩ := hP.term m1 W hB hlive S.head hq
          rw [g3] at hF
          dsimp only at hF
          have hsw : evalTerm L env1' (.sw base d cs') = .goto (match ((k1, t1) :: cs).find? (fun e => e.1 == kv) with | some e => e.2 | none => d) := by
            simp only [evalTerm]
            rw [hag2.eval (S.base_ne W), g1]
            simp only [Option.bind_some, g2]
            rw [find_perm hc S.keys]
            cases ((k1, t1) :: cs).find? (fun e => e.1 == kv) <;> rfl
          rw [hsw] at hG
          dsimp only at hG
          have hbt := I.step_live W R.btw hF
          by_cases hk : kv = k1
          · subst hk
            rw [if_pos rfl] at hF hbt
            simp only [List.find?_cons, beq_self_eq_true] at hG
            refine .inr (.inr ⟨0, 0, _, _, by rw [run_one, hF], by rw [run_one, hG], ?_⟩)
            exact ⟨rfl, hag2, rfl, rfl, hbt, .inl (by rw [R.cur])⟩
          · have hkk : ¬ (k1 == kv) = true := by simpa using fun e => hk e.symm
            rw [if_neg hk] at hF hbt
            rw [show ((k1, t1) :: cs).find? (fun e => e.1 == kv) = cs.find? (fun e => e.1 == kv) from List.find?_cons_of_neg hkk] at hG
            have hbase : ∀ l ∈ ls, ∀ X, F.blk l = some X → ∀ i ∈ X.body, base ≠ .inst i.id := fun l hl X hX i hi =>
              S.base_ne W i.id ⟨l, hl, X, hX, List.mem_append.2 (.inr (List.mem_map.2 ⟨i, hi, rfl⟩))⟩
            rcases S.links.run hP hmv W g2 S.pure hbase (s := ⟨some s.cur, b1, env1, m1, es1⟩) rfl (by rw [hch]) hbt g1 with ⟨n, hn⟩ | ⟨n, t, q1, q2, q3, q4, q5, q6⟩
            · exact .inl ⟨1 + n, by rw [run_add, run_one, hF]; exact hn⟩
            · refine .inr (.inr ⟨n, 0, t, _, by rw [Nat.add_comm, run_add, run_one, hF]; exact q1, by rw [run_one, hG], ?_⟩)
              have hagt : AgreeK (fun x => ∃ l ∈ ls, DefIn F x l) t.env env1' := fun x hx => (q5 x hx).trans (hag2 x hx)
              rcases q6 with ⟨e, h1, h2⟩ | ⟨h1, h2, h3⟩
              · rw [h1]
                refine ⟨h2.symm, hagt, q3.symm, q4.symm, q2, .inr (.inr ?_)⟩
                intro X hX
                rw [h2] at hX
                exact S.noPhi e (List.mem_cons_of_mem _ (List.mem_of_find?_eq_some h1)) X hX
              · rw [h1]
                exact ⟨h2.symm, hagt, q3.symm, q4.symm, q2, .inr (.inl ⟨h3, by rw [R.cur, hch], h2⟩)⟩
        · rw [if_neg hch] at hG
          have hno : ∀ x, ((∃ l ∈ ls, DefIn F x l) ∧ x ∉ B.body.map Inst.id) → Opd.inst x ∉ B.term.args := by
            rintro x ⟨⟨l, hl, hd⟩, hx⟩ hxt
            have hcl := ((S.links.mem hl).1 x s.cur B hd hB).2.2 hxt
            obtain ⟨X, hX, hxX⟩ := hd
            rw [← hcl, hB] at hX
            obtain rfl := Option.some.inj hX
            have hp0 := (S.pure l hl B (hcl ▸ hB)).1
            unfold Block.ids at hxX
            rw [hp0] at hxX
            exact hx (by simpa using hxX)
          rw [hag1.term hno] at hG
          cases ht : evalTerm L env1 B.term with
          | ub => rw [ht] at hF; exact .inl ⟨1, by rw [run_one, hF]⟩
          | ret v => rw [ht] at hF hG; exact .inr (.inl ⟨1, 1, _, by rw [run_one, hF], by rw [run_one, hG]⟩)
          | goto c =>
            rw [ht] at hF hG
            refine .inr (.inr ⟨0, 0, _, _, by rw [run_one, hF], by rw [run_one, hG], ?_⟩)
            exact ⟨rfl, hag2, rfl, rfl, I.step_live W R.btw hF, .inl (by rw [R.cur])⟩

theorem refines (hP : SwLang L P mv) (hmv : Movable L mv) (W : LiveWf F) (hc : cs'.Perm ((k1, t1) :: cs)) : Refines L F (swFn F h base cs' d par) :=
  (S.sim hP hmv W hc).refines (fun m => ⟨rfl, fun _ _ => rfl, rfl, rfl, between_start _ m, .inl rfl⟩)

end SwStep
end
end Cmmc.SSA
