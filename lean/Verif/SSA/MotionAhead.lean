import Verif.SSA.MotionRef
import Verif.SSA.ReorderSem
/-!
# Moving an instruction that may fail to the block in front

The instruction goes to the end of block `c`, which jumps to block `a`, where the instruction came from. If it fails now it would have failed
then, provided that no instruction in front of it ends the program.
-/
namespace Cmmc.SSA
section
variable {L : Lang}

/-- the instruction does not end the program -/
def NoHalt (L : Lang) (op : L.Op) : Prop := ∀ vs m es h, L.sem op vs m ≠ .halt es h

theorem body_noHalt : ∀ {is : List (Inst L.Op L.C)} {e : Env L} {m : L.M} {es es' : List L.E} {h : L.H}, (∀ j ∈ is, NoHalt L j.op) → execBody L is e m es ≠ .halt es' h := by
  intro is
  induction is with
  | nil => intro e m es es' h _ he; simp [execBody] at he
  | cons j is ih =>
    intro e m es es' h hn he
    simp only [execBody] at he
    cases hv : evals L e j.args with
    | none => rw [hv] at he; simp at he
    | some vs =>
      rw [hv] at he
      dsimp only at he
      cases hs : L.sem j.op vs m with
      | ub => rw [hs] at he; simp at he
      | halt es2 h2 => exact hn j (by simp) vs m es2 h2 hs
      | ok v m2 es2 => rw [hs] at he; exact ih (fun j hj => hn j (by simp [hj])) he

/-- as `stepBlk_rel`, for the memory and the output of the state -/
theorem stepBlk_relm {Q : Option Nat → Nat → Env L → Env L → Prop} {Q2 : Env L → Env L → Prop} {B B' : L.B} {s : St L} {e : Env L}
    (hbody : ∀ r, enterPhis L s.pred s.env B.phis s.env = some r → ∃ r', enterPhis L s.pred e B'.phis e = some r' ∧ BodyRel Q2 (execBody L B.body r s.m s.tr) (execBody L B'.body r' s.m s.tr))
    (hterm : ∀ r r', Q2 r r' → evalTerm L r B.term = .ub ∨ evalTerm L r' B'.term = evalTerm L r B.term)
    (hnext : ∀ r r' b, Q2 r r' → b ∈ B.term.targets → Q (some s.cur) b r r') :
    StepRel Q (stepBlk L B s) (stepBlk L B' { s with env := e }) := by
  unfold stepBlk
  cases h1 : enterPhis L s.pred s.env B.phis s.env with
  | none => trivial
  | some r =>
    obtain ⟨r', e1, hb⟩ := hbody r h1
    dsimp only
    rw [e1]
    dsimp only
    cases h2 : execBody L B.body r s.m s.tr with
    | ub => trivial
    | halt es h =>
      rw [h2] at hb
      rw [hb]
      rfl
    | ok r2 m es =>
      rw [h2] at hb
      obtain ⟨r2', e2, q2⟩ := hb
      rw [e2]
      dsimp only
      rcases hterm r2 r2' q2 with ht | ht
      · rw [ht]; trivial
      · rw [ht]
        cases h3 : evalTerm L r2 B.term with
        | ub => trivial
        | ret v => rfl
        | goto b => exact ⟨r2', rfl, hnext r2 r2' b q2 (evalTerm_targets h3)⟩

variable {F : L.F} {a c n : Nat} {i : Inst L.Op L.C} {A D : L.B} {pure : L.Op → Bool}

/-- the relation of the two runs -/
def MoveRel (F : L.F) (a c : Nat) (i : Inst L.Op L.C) (n : Nat) (pure : L.Op → Bool) (pred : Option Nat) (cur : Nat) (e e' : Env L) : Prop :=
  (∀ m tr, Between F (Knows F pure) ⟨pred, cur, e, m, tr⟩) ∧ (∀ m tr, Between (F.moveTo a c i n) (Knows (F.moveTo a c i n) pure) ⟨pred, cur, e', m, tr⟩) ∧ AgreeOff i.id e e'

theorem MoveOk.stepRel (M : MoveOk F a c i n A D) (W : LiveWf F) (hl : AllLive F) (hp : Movable L pure) (hi : pure i.op = true) {s : St L} {e : Env L} (R : MoveRel F a c i n pure s.pred s.cur s.env e)
    (hbody : ∀ B r r', F.blk s.cur = some B → enterPhis L s.pred s.env B.phis s.env = some r → AgreeOff i.id r r' → Knows F pure s.cur 0 r → Knows (F.moveTo a c i n) pure s.cur 0 r' →
      BodyRel (fun r r' => AgreeOff i.id r r' ∧ Knows F pure s.cur B.body.length r ∧ Knows (F.moveTo a c i n) pure s.cur (movedBlk a c i n s.cur B).body.length r')
        (execBody L B.body r s.m s.tr) (execBody L (movedBlk a c i n s.cur B).body r' s.m s.tr)) :
    StepRel (MoveRel F a c i n pure) (step L F s) (step L (F.moveTo a c i n) { s with env := e }) := by
  have P := W.proper hl
  have P' := (M.liveWf W hl).proper (M.allLive hl)
  have IF := knows_inv hp P
  have IG := knows_inv hp P'
  obtain ⟨hbt, hbt', hag⟩ := R
  have hbt : Between F (Knows F pure) s := hbt s.m s.tr
  have hbt' : Between (F.moveTo a c i n) (Knows (F.moveTo a c i n) pure) { s with env := e } := hbt' s.m s.tr
  unfold step
  cases hB : F.blk s.cur with
  | none => trivial
  | some B =>
    have hB' : (F.moveTo a c i n).blk s.cur = some (movedBlk a c i n s.cur B) := by rw [move_blk, hB]; rfl
    simp only [hB']
    refine stepBlk_relm (Q2 := fun r r' => AgreeOff i.id r r' ∧ Knows F pure s.cur B.body.length r ∧ Knows (F.moveTo a c i n) pure s.cur (movedBlk a c i n s.cur B).body.length r') ?_ ?_ ?_
    · intro r hr
      rw [movedBlk_phis]
      have hr' : ∃ r', enterPhis L s.pred e B.phis e = some r' ∧ AgreeOff i.id r r' := by
        cases hpr : s.pred with
        | none =>
          unfold Between at hbt
          rw [hpr] at hbt hr
          have hph := P.entryPhis B (hbt.1 ▸ hB)
          rw [hph] at hr ⊢
          simp only [enterPhis, Option.some.injEq] at hr ⊢
          exact ⟨e, rfl, hr ▸ hag⟩
        | some q =>
          unfold Between at hbt hbt'
          rw [hpr] at hbt hr
          simp only [hpr] at hbt'
          obtain ⟨h1, h2, Q, hQ, h3⟩ := hbt
          obtain ⟨g1, g2, Q', hQ', g3⟩ := hbt'
          refine enterPhis_same (fun p hp => ?_) hag hr
          unfold phiVal
          dsimp only
          cases hat : p.at q with
          | none => rfl
          | some o =>
            dsimp only
            cases o with
            | cst c => rfl
            | inst x =>
              show e x = s.env x
              by_cases hxi : x = i.id
              · subst hxi
                exact (M.same W hl hi s.m hag h3 g3 (P.phi_avail hB (hl _ B hB) hQ h1 hp (Phi.at_mem hat))
                  (P'.phi_avail hB' (M.allLive hl _ _ hB') hQ' g1 (by rw [movedBlk_phis]; exact hp) (Phi.at_mem hat))).symm
              · exact (hag x hxi).symm
      obtain ⟨r', h1, h2⟩ := hr'
      exact ⟨r', h1, hbody B r r' hB hr h2 (IF.phis P hbt hB hr) (IG.phis P' hbt' hB' (by rw [movedBlk_phis]; exact h1))⟩
    · rintro r r' ⟨h1, h2, h3⟩
      refine .inr ?_
      rw [movedBlk_term]
      apply evalTerm_eq
      intro x hx
      by_cases hxi : x = i.id
      · subst hxi
        exact (M.same W hl hi s.m h1 h2 h3 (P.term_avail hB (hl _ B hB) hx) (P'.term_avail hB' (M.allLive hl _ _ hB') (by rw [movedBlk_term]; exact hx))).symm
      · exact (h1 x hxi).symm
    · rintro r r' t ⟨h1, h2, h3⟩ ht
      exact ⟨fun m tr => ⟨hbt.live, ⟨B, hB, ht⟩, B, hB, h2⟩, fun m tr => ⟨hbt'.live, ⟨_, hB', by rw [movedBlk_term]; exact ht⟩, _, hB', h3⟩, h1⟩

/-- moving a pure instruction to the end of the block that jumps to its block keeps the behaviour when nothing in front of the instruction ends the program -/
theorem MoveOk.refines_ahead (M : MoveOk F a c i D.body.length A D) (W : LiveWf F) (hl : AllLive F) (hp : Movable L pure) (hi : pure i.op = true) (hbr : D.term = .br a)
    (hnh : ∀ pre post, A.body = pre ++ i :: post → ∀ j ∈ pre, NoHalt L j.op) : Refines L F (F.moveTo a c i D.body.length) := by
  by_cases hac : Domi F a c
  · exact M.refines W hl hp hi (.inl hac)
  have P := W.proper hl
  have P' := (M.liveWf W hl).proper (M.allLive hl)
  have IF := knows_inv hp P
  have IG := knows_inv hp P'
  have hself := M.self W hl
  have hDb : (movedBlk a c i D.body.length c D).body = D.body ++ [i] := by
    unfold movedBlk; rw [if_neg (Ne.symm M.ne), if_pos rfl]; simp
  have hD' : (F.moveTo a c i D.body.length).blk c = some (movedBlk a c i D.body.length c D) := by rw [move_blk, M.hD]; rfl
  refine Simulation.refines (R := fun s t => ∃ e, t = { s with env := e } ∧ MoveRel F a c i D.body.length pure s.pred s.cur s.env e) ?_
    (fun m => ⟨fun _ => none, rfl, fun m tr => ⟨rfl, rfl⟩, fun m tr => ⟨rfl, rfl⟩, fun _ _ => rfl⟩)
  rintro s _ ⟨e, rfl, R⟩
  refine ⟨rfl, ?_⟩
  have lock : StepRel (MoveRel F a c i D.body.length pure) (SSA.step L F s) (SSA.step L (F.moveTo a c i D.body.length) { s with env := e }) →
      ((∃ k, run L F k s = .inr .ub) ∨ (∃ k j b, run L F k s = .inr b ∧ run L (F.moveTo a c i D.body.length) j { s with env := e } = .inr b) ∨
        (∃ k j s' t', run L F (k + 1) s = .inl s' ∧ run L (F.moveTo a c i D.body.length) (j + 1) { s with env := e } = .inl t' ∧ ∃ e, t' = { s' with env := e } ∧ MoveRel F a c i D.body.length pure s'.pred s'.cur s'.env e)) := by
    intro this
    cases hs : SSA.step L F s with
    | inl s' =>
      rw [hs] at this
      obtain ⟨e', he', hQ'⟩ := this
      exact .inr (.inr ⟨0, 0, s', _, by rw [run_one, hs], by rw [run_one, he'], e', rfl, hQ'⟩)
    | inr b =>
      rw [hs] at this
      cases b with
      | ub => exact .inl ⟨1, by rw [run_one, hs]⟩
      | ret v m es => exact .inr (.inl ⟨1, 1, _, by rw [run_one, hs], by rw [run_one]; exact this⟩)
      | halt h es => exact .inr (.inl ⟨1, 1, _, by rw [run_one, hs], by rw [run_one]; exact this⟩)
  by_cases hc : s.cur = c
  · have hB : F.blk s.cur = some D := by rw [hc]; exact M.hD
    by_cases hfail : ∃ r r2 m2 es2 vs, enterPhis L s.pred s.env D.phis s.env = some r ∧ execBody L D.body r s.m s.tr = .ok r2 m2 es2 ∧ evals L r2 i.args = some vs ∧ ∀ m, L.sem i.op vs m = .ub
    · -- it fails: then it fails in its old place too
      obtain ⟨r, r2, m2, es2, vs, f1, f2, f3, f4⟩ := hfail
      refine .inl ⟨1 + 1, ?_⟩
      have e1 : SSA.step L F s = .inl ⟨some c, a, r2, m2, es2⟩ := by
        unfold SSA.step stepBlk
        rw [hB]
        dsimp only
        rw [f1]
        dsimp only
        rw [f2]
        dsimp only
        rw [hbr, hc]
        rfl
      rw [run_add, run_one, e1]
      dsimp only
      rw [run_one]
      unfold SSA.step stepBlk
      dsimp only
      rw [M.hA]
      dsimp only
      cases h1 : enterPhis L (some c) r2 A.phis r2 with
      | none => rfl
      | some r3 =>
        dsimp only
        obtain ⟨pre, post, hsp⟩ := List.append_of_mem M.hi
        have hargs : ∀ x, Opd.inst x ∈ i.args → x ∉ A.ids := by
          intro x hx hxa
          obtain ⟨d, g1, g2, _⟩ := M.args x hx
          exact hac ((defIn_unique W.listed W.unique (⟨A, M.hA, hxa⟩ : DefIn F x a) g1) ▸ g2)
        have hub : execBody L A.body r3 m2 es2 = .ub := by
          rw [hsp, execBody_append]
          cases h2 : execBody L pre r3 m2 es2 with
          | ub => rfl
          | halt es h => exact absurd h2 (body_noHalt (hnh pre post hsp))
          | ok r4 m4 es4 =>
            dsimp only
            have hev : evals L r4 i.args = some vs := by
              rw [← f3]
              apply evals_eq
              intro x hx
              have hxa := hargs x hx
              unfold Block.ids at hxa
              rw [List.mem_append, not_or] at hxa
              rw [execBody_other h2 x (fun h => hxa.2 (by rw [hsp]; simp only [List.map_append, List.mem_append]; exact .inl h)), enterPhis_other h1 x hxa.1]
            rw [execBody_cons hev, f4]
        rw [hub]
    · refine lock (M.stepRel W hl hp hi R ?_)
      intro B r r' hB2 hen hag hF hG
      rw [hB] at hB2; cases hB2
      rw [hc] at hF hG ⊢
      rw [hDb]
      have hb := AgreeOff.body (m := s.m) (es := s.tr) (is := D.body) (fun j hj hz => by
        have := (M.uses c D j M.hD hj hz).2 rfl
        simp at this) hag
      rw [execBody_append]
      cases h2 : execBody L D.body r s.m s.tr with
      | ub => trivial
      | halt es h =>
        rw [h2] at hb
        simp only [BodyRel] at hb
        rw [hb]; rfl
      | ok r2 m2 es2 =>
        rw [h2] at hb
        obtain ⟨r2', h3, h4⟩ := hb
        rw [h3]
        dsimp only
        have k1 : Knows F pure c D.body.length r2 := IF.body (hl c D M.hD) M.hD _ 0 r s.m s.tr rfl hF (by rw [List.drop_zero]; exact h2) (Nat.zero_le _)
        obtain ⟨vs, hvs⟩ := evals_some (env := r2) (os := i.args) (fun x hx => k1.2 x (by
          obtain ⟨d, g1, g2, g3⟩ := M.args x hx
          exact ⟨d, g1, g2, fun e => ⟨D, M.hD, g3 e⟩⟩))
        have hvs' : evals L r2' i.args = some vs := by rw [h4.evals' hself]; exact hvs
        rcases hp i.op hi vs with h | ⟨v, h⟩
        · exact absurd ⟨r, r2, m2, es2, vs, hen, h2, hvs, h⟩ hfail
        · have hx : execBody L [i] r2' m2 es2 = .ok (setEnv L r2' i.id v) m2 es2 := by
            rw [execBody_cons hvs', h]
            simp [execBody]
          rw [hx]
          refine ⟨_, rfl, ?_, k1, ?_⟩
          · intro x hxi
            rw [setEnv_of_ne hxi]
            exact h4 x hxi
          · have := IG.body (M.allLive hl c _ hD') hD' _ 0 r' s.m s.tr (env' := setEnv L r2' i.id v) (m' := m2) (es' := es2) rfl hG (by
              rw [List.drop_zero, hDb, execBody_append, h3]; exact hx) (Nat.zero_le _)
            rwa [hDb] at this
  · refine lock (M.stepRel W hl hp hi R ?_)
    intro B r r' hB2 hen hag hF hG
    have := M.body W hl hp hi (b := s.cur) (fun h => absurd h hc) hB2 _ 0 0 r r' s.m s.tr (Nat.le_refl _) (Nat.zero_le _) (Nat.zero_le _) (by rw [List.drop_zero, List.drop_zero]; exact (M.rest _ _).symm) hag hF hG
    rwa [List.drop_zero, List.drop_zero] at this

end
end Cmmc.SSA
