import Verif.SSA.Motion
/-!
# Moving an instruction keeps the behaviour
-/
namespace Cmmc.SSA
section
variable {L : Lang}

theorem PointInv.and {F : L.F} {Q R : Nat → Nat → Env L → Prop} (h1 : PointInv F Q) (h2 : PointInv F R) : PointInv F (fun b k env => Q b k env ∧ R b k env) where
  entry := ⟨h1.entry, h2.entry⟩
  enter q b B A env env' hq he hA hB hQ hen := ⟨h1.enter q b B A env env' hq he hA hB hQ.1 hen, h2.enter q b B A env env' hq he hA hB hQ.2 hen⟩
  inst b k B i env vs v m m' es hb hB hi hQ hvs hs := ⟨h1.inst b k B i env vs v m m' es hb hB hi hQ.1 hvs hs, h2.inst b k B i env vs v m m' es hb hB hi hQ.2 hvs hs⟩

/-- what is known at a point: pure instructions have the value their operands give, and what is available has a value -/
def Knows (F : L.F) (pure : L.Op → Bool) (b k : Nat) (env : Env L) : Prop := Eqns F pure b k env ∧ ∀ x, Avail F b k x → env x ≠ none

variable {F : L.F} {a c n : Nat} {i : Inst L.Op L.C} {A D : L.B} {pure : L.Op → Bool}

/-- where both functions have computed the instruction they have the same value for it -/
theorem MoveOk.same (M : MoveOk F a c i n A D) (W : LiveWf F) (hl : AllLive F) (hi : pure i.op = true) {b k k' : Nat} {e e' : Env L} (m : L.M) (hag : AgreeOff i.id e e')
    (hF : Knows F pure b k e) (hG : Knows (F.moveTo a c i n) pure b k' e') (h1 : Avail F b k i.id) (h2 : Avail (F.moveTo a c i n) b k' i.id) : e i.id = e' i.id := by
  obtain ⟨vs, v, x1, x2, x3⟩ := hF.1 a A i M.hA M.hi hi h1
  have hD' : (F.moveTo a c i n).blk c = some (movedBlk a c i n c D) := by rw [move_blk, M.hD]; rfl
  have hiD : i ∈ (movedBlk a c i n c D).body := by
    unfold movedBlk; rw [if_neg (Ne.symm M.ne), if_pos rfl]; simp
  obtain ⟨vs', v', y1, y2, y3⟩ := hG.1 c _ i hD' hiD hi h2
  rw [hag.evals' (M.self W hl)] at y1
  rw [x1] at y1
  cases y1
  have := (x3 m).symm.trans (y3 m)
  simp only [Res.ok.injEq, and_true] at this
  rw [x2, y2, this]

theorem knows_inv {F : L.F} (hp : Movable L pure) (P : Proper F) : PointInv F (Knows F pure) := (eqns_inv hp P).and (defined_inv P)

/-- one instruction as part of a body -/
theorem execBody_cons {j : Inst L.Op L.C} {js : List (Inst L.Op L.C)} {e : Env L} {m : L.M} {es : List L.E} {vs : List L.V} (h : evals L e j.args = some vs) :
    execBody L (j :: js) e m es = match L.sem j.op vs m with
      | .ok v m' es' => execBody L js (setEnv L e j.id v) m' (es ++ es')
      | .ub => .ub
      | .halt es' h => .halt (es ++ es') h := by
  simp only [execBody, h]
  cases L.sem j.op vs m <;> rfl

theorem MoveOk.body (M : MoveOk F a c i n A D) (W : LiveWf F) (hl : AllLive F) (hp : Movable L pure) (hi : pure i.op = true)
    {b : Nat} (safe : b = c → (Domi F a c ∨ ∀ env vs m, evals L env i.args = some vs → ∃ v, L.sem i.op vs m = .ok v m []))
    {B : L.B} (hB : F.blk b = some B) : ∀ (N k k' : Nat) (e e' : Env L) (m : L.M) (es : List L.E),
      (B.body.length - k) + ((movedBlk a c i n b B).body.length - k') ≤ N → k ≤ B.body.length → k' ≤ (movedBlk a c i n b B).body.length →
      (B.body.drop k).filter (fun j => j.id != i.id) = ((movedBlk a c i n b B).body.drop k').filter (fun j => j.id != i.id) →
      AgreeOff i.id e e' → Knows F pure b k e → Knows (F.moveTo a c i n) pure b k' e' →
      BodyRel (fun r r' => AgreeOff i.id r r' ∧ Knows F pure b B.body.length r ∧ Knows (F.moveTo a c i n) pure b (movedBlk a c i n b B).body.length r')
        (execBody L (B.body.drop k) e m es) (execBody L ((movedBlk a c i n b B).body.drop k') e' m es) := by
  have S := W.toShape
  have P := W.proper hl
  have P' := (M.liveWf W hl).proper (M.allLive hl)
  have IF := knows_inv hp P
  have IG := knows_inv hp P'
  have hB' : (F.moveTo a c i n).blk b = some (movedBlk a c i n b B) := by rw [move_blk, hB]; rfl
  have hb := hl b B hB
  have hb' := M.allLive hl b _ hB'
  have hself := M.self W hl
  have hGi : ∀ j ∈ (movedBlk a c i n b B).body, j.id = i.id → b = c ∧ j = i := by
    intro j hj hid
    rcases moved_uses hj with ⟨h1, h2⟩ | h
    · exact absurd hid (h2 (M.only S hB h1 hid).1)
    · exact h
  intro N
  induction N with
  | zero =>
    intro k k' e e' m es hN hk hk' hf hag hF hG
    have h1 : k = B.body.length := by omega
    have h2 : k' = (movedBlk a c i n b B).body.length := by omega
    subst h1; subst h2
    rw [List.drop_length, List.drop_length]
    exact ⟨e', rfl, hag, hF, hG⟩
  | succ N ih =>
    intro k k' e e' m es hN hk hk' hf hag hF hG
    by_cases hF0 : ∃ h : k < B.body.length, (B.body[k]).id = i.id
    · -- the old function computes the instruction here
      obtain ⟨hlt, hid⟩ := hF0
      have hji := (M.only S hB (List.getElem_mem hlt) hid).2
      have hget : B.body[k]? = some i := by rw [List.getElem?_eq_getElem hlt, hji]
      have hdrop : B.body.drop k = i :: B.body.drop (k + 1) := by rw [List.drop_eq_getElem_cons hlt, hji]
      rw [hdrop] at hf ⊢
      rw [List.filter_cons_of_neg (by simp)] at hf
      cases hvs : evals L e i.args with
      | none => simp only [execBody, hvs]; trivial
      | some vs =>
        rw [execBody_cons hvs]
        rcases hp i.op hi vs with h | ⟨v, h⟩
        · rw [h]; trivial
        · rw [h]
          dsimp only
          rw [List.append_nil]
          refine ih (k + 1) k' _ e' m es (by omega) hlt hk' hf ?_ (IF.inst b k B i e vs v m m [] hb hB hget hF hvs (h m)) hG
          intro x hx
          rw [setEnv_of_ne hx]
          exact hag x hx
    · by_cases hG0 : ∃ h : k' < (movedBlk a c i n b B).body.length, ((movedBlk a c i n b B).body[k']).id = i.id
      · -- the new function computes it here
        obtain ⟨hlt, hid⟩ := hG0
        obtain ⟨hbc, hji⟩ := hGi _ (List.getElem_mem hlt) hid
        have hget : (movedBlk a c i n b B).body[k']? = some i := by rw [List.getElem?_eq_getElem hlt, hji]
        have hdrop : (movedBlk a c i n b B).body.drop k' = i :: (movedBlk a c i n b B).body.drop (k' + 1) := by rw [List.drop_eq_getElem_cons hlt, hji]
        rw [hdrop] at hf ⊢
        rw [List.filter_cons_of_neg (a := i) (by simp)] at hf
        obtain ⟨vs, v, hvs, hv⟩ : ∃ vs v, evals L e' i.args = some vs ∧ L.sem i.op vs m = .ok v m [] := by
          rcases safe hbc with hdom | htot
          · obtain ⟨vs, v, h1, _, h3⟩ := hF.1 a A i M.hA M.hi hi (avail_of_sdom M.defA (hbc ▸ hdom) (by rw [hbc]; exact M.ne))
            exact ⟨vs, v, by rw [hag.evals' hself]; exact h1, h3 m⟩
          · obtain ⟨vs, hvs⟩ := evals_some (fun x hx => hG.2 x (P'.use_avail hB' hb' hget hx))
            obtain ⟨v, hv⟩ := htot e' vs m hvs
            exact ⟨vs, v, hvs, hv⟩
        rw [execBody_cons hvs, hv]
        dsimp only
        rw [List.append_nil]
        refine ih k (k' + 1) e _ m es (by omega) hk hlt hf ?_ hF (IG.inst b k' _ i e' vs v m m [] hb' hB' hget hG hvs hv)
        intro x hx
        rw [setEnv_of_ne hx]
        exact hag x hx
      · -- both execute the same other instruction
        by_cases hend : k = B.body.length ∧ k' = (movedBlk a c i n b B).body.length
        · obtain ⟨rfl, rfl⟩ := hend
          rw [List.drop_length, List.drop_length]
          exact ⟨e', rfl, hag, hF, hG⟩
        have hltF : k < B.body.length := by
          by_contra hge
          have : k = B.body.length := by omega
          have hlt' : k' < (movedBlk a c i n b B).body.length := by omega
          rw [this, List.drop_length, List.drop_eq_getElem_cons hlt', List.filter_cons_of_pos (by simpa using fun h => hG0 ⟨hlt', h⟩)] at hf
          simp at hf
        have hltG : k' < (movedBlk a c i n b B).body.length := by
          by_contra hge
          have : k' = (movedBlk a c i n b B).body.length := by omega
          rw [this, List.drop_length, List.drop_eq_getElem_cons hltF, List.filter_cons_of_pos (by simpa using fun h => hF0 ⟨hltF, h⟩)] at hf
          simp at hf
        have hneF : B.body[k].id ≠ i.id := fun h => hF0 ⟨hltF, h⟩
        rw [List.drop_eq_getElem_cons hltF, List.drop_eq_getElem_cons hltG] at hf ⊢
        rw [List.filter_cons_of_pos (by simpa using hneF), List.filter_cons_of_pos (by simpa using fun h => hG0 ⟨hltG, h⟩)] at hf
        simp only [List.cons.injEq] at hf
        obtain ⟨hj, hf⟩ := hf
        rw [← hj]
        have hgetF : B.body[k]? = some B.body[k] := List.getElem?_eq_getElem hltF
        have hgetG : (movedBlk a c i n b B).body[k']? = some B.body[k] := by rw [List.getElem?_eq_getElem hltG, hj]
        generalize B.body[k] = j at hgetF hgetG hneF
        have hev : evals L e' j.args = evals L e j.args := by
          apply evals_eq
          intro x hx
          by_cases hxi : x = i.id
          · subst hxi
            exact (M.same W hl hi m hag hF hG (P.use_avail hB hb hgetF hx) (P'.use_avail hB' hb' hgetG hx)).symm
          · exact (hag x hxi).symm
        simp only [execBody]
        rw [hev]
        cases hvs : evals L e j.args with
        | none => trivial
        | some vs =>
          dsimp only
          cases hs : L.sem j.op vs m with
          | ub => trivial
          | halt es' h' => rfl
          | ok v m' es' =>
            exact ih (k + 1) (k' + 1) _ _ m' _ (by omega) hltF hltG hf (hag.set j.id v) (IF.inst b k B j e vs v m m' es' hb hB hgetF hF hvs hs)
              (IG.inst b k' _ j e' vs v m m' es' hb' hB' hgetG hG (hev.trans hvs) hs)

theorem enterPhis_same {q : Nat} {old old' : Env L} {z : Nat} : ∀ {ps : List (Phi L.C)} {e e' r : Env L}, (∀ p ∈ ps, phiVal L (some q) old' p = phiVal L (some q) old p) →
    AgreeOff z e e' → enterPhis L (some q) old ps e = some r → ∃ r', enterPhis L (some q) old' ps e' = some r' ∧ AgreeOff z r r' := by
  intro ps
  induction ps with
  | nil => intro e e' r _ h hr; simp only [enterPhis, Option.some.injEq] at hr; subst hr; exact ⟨e', rfl, h⟩
  | cons p ps ih =>
    intro e e' r hz h hr
    simp only [enterPhis] at hr ⊢
    rw [hz p (by simp)]
    cases hv : phiVal L (some q) old p with
    | none => rw [hv] at hr; simp at hr
    | some v =>
      rw [hv] at hr
      exact ih (fun p' hp' => hz p' (by simp [hp'])) (h.set p.id v) hr

theorem evalTerm_eq {env env' : Env L} {t : Term L.C} (h : ∀ x, .inst x ∈ t.args → env' x = env x) : evalTerm L env' t = evalTerm L env t := by
  have key : ∀ o, o ∈ t.args → eval L env' o = eval L env o := by
    intro o ho
    cases o with
    | cst c => rfl
    | inst x => exact h x ho
  cases t with
  | ret v =>
    cases v with
    | none => rfl
    | some o => simp only [evalTerm]; rw [key o (by simp [Term.args])]
  | br t => rfl
  | cbr c t f => simp only [evalTerm]; rw [key c (by simp [Term.args])]
  | sw c d cs => simp only [evalTerm]; rw [key c (by simp [Term.args])]
  | unreachable => rfl

/-- moving a pure instruction keeps the behaviour when it has been computed before its new place is reached, or cannot fail -/
theorem MoveOk.refines (M : MoveOk F a c i n A D) (W : LiveWf F) (hl : AllLive F) (hp : Movable L pure) (hi : pure i.op = true)
    (safe : Domi F a c ∨ ∀ env vs m, evals L env i.args = some vs → ∃ v, L.sem i.op vs m = .ok v m []) : Refines L F (F.moveTo a c i n) := by
  have P := W.proper hl
  have P' := (M.liveWf W hl).proper (M.allLive hl)
  have IF := knows_inv hp P
  have IG := knows_inv hp P'
  refine refines_rel (Q := fun pred cur e e' => (∀ m tr, Between F (Knows F pure) ⟨pred, cur, e, m, tr⟩) ∧
    (∀ m tr, Between (F.moveTo a c i n) (Knows (F.moveTo a c i n) pure) ⟨pred, cur, e', m, tr⟩) ∧ AgreeOff i.id e e') rfl
    ⟨fun m tr => ⟨rfl, rfl⟩, fun m tr => ⟨rfl, rfl⟩, fun _ _ => rfl⟩ ?_
  rintro s e ⟨hbt, hbt', hag⟩
  have hbt : Between F (Knows F pure) s := hbt s.m s.tr
  have hbt' : Between (F.moveTo a c i n) (Knows (F.moveTo a c i n) pure) { s with env := e } := hbt' s.m s.tr
  unfold step
  cases hB : F.blk s.cur with
  | none => trivial
  | some B =>
    have hB' : (F.moveTo a c i n).blk s.cur = some (movedBlk a c i n s.cur B) := by rw [move_blk, hB]; rfl
    simp only [hB']
    refine stepBlk_rel (Q1 := fun r r' => AgreeOff i.id r r' ∧ Knows F pure s.cur 0 r ∧ Knows (F.moveTo a c i n) pure s.cur 0 r')
      (Q2 := fun r r' => AgreeOff i.id r r' ∧ Knows F pure s.cur B.body.length r ∧ Knows (F.moveTo a c i n) pure s.cur (movedBlk a c i n s.cur B).body.length r') ?_ ?_ ?_ ?_
    · intro r hr
      rw [movedBlk_phis]
      have hr' : ∃ r', enterPhis L s.pred e B.phis e = some r' ∧ AgreeOff i.id r r' := by
        cases hpr : s.pred with
        | none =>
          unfold Between at hbt
          rw [hpr] at hbt hr
          have hph := P.entryPhis B (hbt.1 ▸ hB)
          rw [hph] at hr ⊢
          simp only [enterPhis, Option.some.injEq] at hr ⊢
          exact ⟨e, rfl, hr ▸ hag⟩
        | some q =>
          unfold Between at hbt hbt'
          rw [hpr] at hbt hr
          simp only [hpr] at hbt'
          obtain ⟨h1, h2, Q, hQ, h3⟩ := hbt
          obtain ⟨g1, g2, Q', hQ', g3⟩ := hbt'
          refine enterPhis_same (fun p hp => ?_) hag hr
          unfold phiVal
          dsimp only
          cases hat : p.at q with
          | none => rfl
          | some o =>
            dsimp only
            cases o with
            | cst c => rfl
            | inst x =>
              show e x = s.env x
              by_cases hxi : x = i.id
              · subst hxi
                exact (M.same W hl hi s.m hag h3 g3 (P.phi_avail hB (hl _ B hB) hQ h1 hp (Phi.at_mem hat))
                  (P'.phi_avail hB' (M.allLive hl _ _ hB') hQ' g1 (by rw [movedBlk_phis]; exact hp) (Phi.at_mem hat))).symm
              · exact (hag x hxi).symm
      obtain ⟨r', h1, h2⟩ := hr'
      refine ⟨r', h1, h2, IF.phis P hbt hB hr, ?_⟩
      exact IG.phis P' hbt' hB' (by rw [movedBlk_phis]; exact h1)
    · rintro r r' m es ⟨h1, h2, h3⟩
      have := M.body W hl hp hi (fun _ => safe) hB _ 0 0 r r' m es (Nat.le_refl _) (Nat.zero_le _) (Nat.zero_le _) (by rw [List.drop_zero, List.drop_zero]; exact (M.rest _ _).symm) h1 h2 h3
      rwa [List.drop_zero, List.drop_zero] at this
    · rintro r r' ⟨h1, h2, h3⟩
      refine .inr ?_
      rw [movedBlk_term]
      apply evalTerm_eq
      intro x hx
      by_cases hxi : x = i.id
      · subst hxi
        exact (M.same W hl hi s.m h1 h2 h3 (P.term_avail hB (hl _ B hB) hx) (P'.term_avail hB' (M.allLive hl _ _ hB') (by rw [movedBlk_term]; exact hx))).symm
      · exact (h1 x hxi).symm
    · rintro r r' t ⟨h1, h2, h3⟩ ht
      refine ⟨fun m tr => ⟨hbt.live, ⟨B, hB, ht⟩, B, hB, h2⟩, fun m tr => ⟨hbt'.live, ⟨_, hB', by rw [movedBlk_term]; exact ht⟩, _, hB', h3⟩, h1⟩

end
end Cmmc.SSA
