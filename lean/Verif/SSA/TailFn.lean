import Verif.SSA.TailLive
/-!
# TailCallEliminate: new names, and the new function fits its declaration
-/
namespace Cmmc.SSA
section
variable {Op C : Type} {F : Func Op C}

/-- the objects made by `eliminateCall`: names nothing else has -/
def freshTail (F : Func Op C) : TailNm where
  e0 := above F.blockNames
  ps j := above F.instNames + 2 + 2 * j
  x1 := above F.instNames
  x2 := above F.instNames + 1
  leaf y := above F.instNames + 3 + 2 * y

theorem freshTail_ok (hl : F.Listed) : TailNmOk (freshTail F) F where
  e0 h := absurd (fresh_block h) (lt_irrefl _)
  psInj i j h := by simp only [freshTail] at h; omega
  leafInj i j h := by simp only [freshTail] at h; omega
  psx j := by simp only [freshTail]; omega
  xx := by simp only [freshTail]; omega
  leafps y j := by simp only [freshTail]; omega
  leafx y := by simp only [freshTail]; omega
  used q T x hT hx := by
    have := fresh_inst hl hT hx
    simp only [freshTail]
    exact ⟨fun j => by omega, by omega, by omega, fun y => by omega⟩

end

/-! ## values are there when they are used -/
section
variable {L : Lang} {F : L.F}

/-- a run is about to enter a block: everything defined in dominators of the block it comes from has a value -/
def Filled (F : L.F) (s : St L) : Prop :=
  match s.pred with
  | none => s.cur = F.entry
  | some q => Live F q ∧ Edge F q s.cur ∧ ∀ x d, DefIn F x d → Domi F d q → s.env x ≠ none

theorem Filled.live {s : St L} (h : Filled F s) : Live F s.cur := by
  unfold Filled at h
  split at h
  · rw [h]; exact ⟨_, .single _⟩
  · exact h.1.edge h.2.1

theorem domi_pred {Op C : Type} {F : Func Op C} {d q b : Nat} (h : Domi F d b) (hne : d ≠ b) (he : Edge F q b) : Domi F d q := by
  intro p hp
  have := h _ (Dom.path_snoc hp he)
  rcases List.mem_append.1 this with h1 | h1
  · exact h1
  · exact absurd (List.mem_singleton.1 h1) hne

theorem execBody_keeps {L : Lang} : ∀ {is : List (Inst L.Op L.C)} {env env' : Env L} {m m' : L.M} {es es' : List L.E}, execBody L is env m es = .ok env' m' es' →
    (∀ x, env x ≠ none → env' x ≠ none) ∧ ∀ i ∈ is, env' i.id ≠ none := by
  intro is
  induction is with
  | nil => intro env env' m m' es es' h; simp only [execBody, BodyRes.ok.injEq] at h; rw [← h.1]; simp
  | cons i is ih =>
    intro env env' m m' es es' h
    simp only [execBody] at h
    split at h
    · cases h
    · split at h
      · rename_i v m1 es1 _
        obtain ⟨h1, h2⟩ := ih h
        have h3 : ∀ x, env x ≠ none → setEnv L env i.id v x ≠ none := by
          intro x hx
          unfold setEnv
          split
          · simp
          · exact hx
        refine ⟨fun x hx => h1 x (h3 x hx), fun j hj => ?_⟩
        rcases List.mem_cons.1 hj with rfl | hj
        · exact h1 _ (by unfold setEnv; rw [if_pos rfl]; simp)
        · exact h2 j hj
      · cases h
      · cases h

theorem enterPhis_keeps {L : Lang} {pred : Option Nat} {old : Env L} : ∀ {ps : List (Phi L.C)} {env env' : Env L}, enterPhis L pred old ps env = some env' →
    (∀ x, env x ≠ none → env' x ≠ none) ∧ ∀ p ∈ ps, env' p.id ≠ none := by
  intro ps
  induction ps with
  | nil => intro env env' h; simp only [enterPhis, Option.some.injEq] at h; subst h; simp
  | cons p ps ih =>
    intro env env' h
    simp only [enterPhis] at h
    split at h
    · cases h
    · rename_i v _
      obtain ⟨h1, h2⟩ := ih h
      have h3 : ∀ x, env x ≠ none → setEnv L env p.id v x ≠ none := by
        intro x hx
        unfold setEnv
        split
        · simp
        · exact hx
      refine ⟨fun x hx => h1 x (h3 x hx), fun j hj => ?_⟩
      rcases List.mem_cons.1 hj with rfl | hj
      · exact h1 _ (by unfold setEnv; rw [if_pos rfl]; simp)
      · exact h2 j hj

/-- behind the instructions `is` of a block, what is defined in the block so far and what comes from strict dominators has a value -/
theorem Filled.at {s : St L} (h : Filled F s) {B : L.B} (hB : F.blk s.cur = some B) {env env' : Env L} {is post : List (Inst L.Op L.C)} {m' : L.M} {es' : List L.E}
    (h1 : enterPhis L s.pred s.env B.phis s.env = some env) (_hb : B.body = is ++ post) (h2 : execBody L is env s.m s.tr = .ok env' m' es') {x d : Nat} (hd : DefIn F x d) (hdom : Domi F d s.cur)
    (hin : x ∈ B.ids → x ∈ B.phis.map Phi.id ∨ x ∈ is.map Inst.id) : env' x ≠ none := by
  by_cases hne : d = s.cur
  · subst hne
    obtain ⟨B', hB', hm⟩ := hd
    have := Option.some.inj (hB'.symm.trans hB)
    subst this
    rcases hin hm with h3 | h3
    · obtain ⟨p, hp, rfl⟩ := List.mem_map.1 h3
      exact (execBody_keeps h2).1 _ ((enterPhis_keeps h1).2 p hp)
    · obtain ⟨i, hi, rfl⟩ := List.mem_map.1 h3
      exact (execBody_keeps h2).2 i hi
  · unfold Filled at h
    split at h
    · exact absurd (by rw [h] at hdom; rw [h]; exact domi_entry hdom) hne
    · obtain ⟨_, h4, h5⟩ := h
      exact (execBody_keeps h2).1 _ ((enterPhis_keeps h1).1 _ (h5 x d hd (domi_pred hdom hne h4)))

theorem Filled.step {s s' : St L} (h : Filled F s) (hs : step L F s = .inl s') : Filled F s' := by
  obtain ⟨hpred, B, hB, ht⟩ := step_target hs
  unfold Filled
  rw [hpred]
  refine ⟨h.live, ⟨B, hB, ht⟩, ?_⟩
  intro x d hd hdom
  unfold SSA.step at hs
  rw [hB] at hs
  simp only [stepBlk] at hs
  split at hs
  · simp at hs
  · rename_i env he
    split at hs
    · simp at hs
    · simp at hs
    · rename_i env2 m2 es2 hbody
      have := h.at hB he (post := []) (by simp) hbody hd hdom (fun hm => by unfold Block.ids at hm; exact List.mem_append.1 hm)
      split at hs
      · simp at hs
      · simp at hs
      · simp only [Sum.inl.injEq] at hs
        subst hs
        exact this

theorem filled_start (m : L.M) : Filled F (start L F m) := rfl

theorem filled_run {n : Nat} : ∀ {s s' : St L}, Filled F s → run L F n s = .inl s' → Filled F s' := by
  induction n with
  | zero => intro s s' h hr; simp only [run, Sum.inl.injEq] at hr; subst hr; exact h
  | succ n ih =>
    intro s s' h hr
    simp only [run] at hr
    cases hs : SSA.step L F s with
    | inr r => rw [hs] at hr; simp at hr
    | inl s1 => rw [hs] at hr; exact ih (h.step hs) hr

end

/-! ## what is in the new function -/
section
variable {L : Lang} {V : Conv L} {N : TailNm} {S : TailSel L.Op L.C} {accOp : L.Op → Option L.C} {F : L.F} {f b k : Nat} {as : List L.C} {K : TailKind L.Op L.C} {B : L.B}
  {call : Inst L.Op L.C}

theorem opds_cases {Op C : Type} {Z : Block Op C} {o : Opd C} (h : o ∈ Z.opds) : (∃ p ∈ Z.phis, ∃ q, (q, o) ∈ p.inc) ∨ (∃ i ∈ Z.body, o ∈ i.args) ∨ o ∈ Z.term.args := by
  unfold Block.opds at h
  rcases List.mem_append.1 h with h | h
  · rcases List.mem_append.1 h with h | h
    · obtain ⟨p, hp, ho⟩ := List.mem_flatMap.1 h
      exact .inl ⟨p, hp, mem_ops.1 ho⟩
    · exact .inr (.inl (List.mem_flatMap.1 h))
  · exact .inr (.inr h)

/-- the operands of the new function -/
inductive TailOpd (V : Conv L) (N : TailNm) (S : TailSel L.Op L.C) (F : L.F) (as : List L.C) (K : TailKind L.Op L.C) : Opd L.C → Prop
  | old {q T o} (hT : F.blk q = some T) (ho : o ∈ T.opds) : TailOpd V N S F as K (N.opd V.param o)
  | arg {c : L.C} (h : c ∈ as) : TailOpd V N S F as K (.cst c)
  | ident {i l x c} (h : K = .acc i l x c) : TailOpd V N S F as K (.cst c)
  | sel {c x} (h : K = .first x) (hc : c = S.ff ∨ c = S.tt ∨ c = S.undef) : TailOpd V N S F as K (.cst c)
  | new {x} (h : x = N.x1 ∨ x = N.x2 ∨ ∃ y, x = N.leaf y) : TailOpd V N S F as K (.inst x)

theorem TailOk.opds (h : TailOk V N S accOp F f b k as K B call) (W : LiveWf F) {z : Nat} {Z : L.B} (hZ : (F.tailElim N V.param S as b k call.args K).blk z = some Z) {o : Opd L.C} (ho : o ∈ Z.opds) :
    TailOpd V N S F as K o := by
  have hsp := tailKind_spec h.kind
  rcases h.blk_cases W hZ with ⟨_, rfl⟩ | ⟨T, is, extra, hz, hT, hb⟩
  · simp [Block.opds, Term.args] at ho
  · have hextra : ∀ e ∈ extra, TailOpd V N S F as K (.inst e.id) := by
      intro e he
      rcases hb.ids e he with h1 | ⟨rfl, i, hi, h1, l, x, c, hK⟩
      · rw [h1]; exact .new (.inr (.inr ⟨_, rfl⟩))
      · rw [h1]
        subst hK
        have h2 : B.term = .ret (some (.inst i.id)) := hsp.2.1
        exact .old (o := .inst i.id) h.hB (mem_opds_use (.inr (by rw [h2]; simp [Term.args])))
    rcases opds_cases ho with ⟨p, hp, q, hq⟩ | ⟨i, hi, hx⟩ | hx
    · rw [hb.phis, List.mem_append] at hp
      rcases hp with hp | hp
      · split at hp
        · rcases TailNm.mem_phis hp with hp | ⟨j, c, o', hj, ho', rfl⟩
          · cases K with
            | plain => simp [TailNm.kphis] at hp
            | acc i l x c =>
              simp only [TailNm.kphis, List.mem_singleton] at hp
              subst hp
              simp only [List.mem_cons, Prod.mk.injEq, List.not_mem_nil, or_false] at hq
              rcases hq with ⟨_, rfl⟩ | ⟨_, rfl⟩
              · exact .ident rfl
              · have h2 : B.term = .ret (some (.inst i.id)) := hsp.2.1
                exact .old (o := .inst i.id) h.hB (mem_opds_use (.inr (by rw [h2]; simp [Term.args])))
            | first x =>
              simp only [TailNm.kphis, List.mem_cons, List.not_mem_nil, or_false] at hp
              rcases hp with rfl | rfl
              · simp only [List.mem_cons, Prod.mk.injEq, List.not_mem_nil, or_false] at hq
                rcases hq with ⟨_, rfl⟩ | ⟨_, rfl⟩
                · exact .sel rfl (.inl rfl)
                · exact .sel rfl (.inr (.inl rfl))
              · simp only [List.mem_cons, Prod.mk.injEq, List.not_mem_nil, or_false] at hq
                rcases hq with ⟨_, rfl⟩ | ⟨_, rfl⟩
                · exact .sel rfl (.inr (.inr rfl))
                · exact .new (.inr (.inr ⟨_, rfl⟩))
          · simp only [List.mem_cons, Prod.mk.injEq, List.not_mem_nil, or_false] at hq
            rcases hq with ⟨_, rfl⟩ | ⟨_, rfl⟩
            · exact .arg (List.mem_of_getElem? hj)
            · exact .old h.hB (h.opd_mem (List.mem_of_getElem? ho'))
        · simp at hp
      · obtain ⟨p0, hp0, rfl⟩ := List.mem_map.1 hp
        simp only [TailNm.phi, List.mem_map, Prod.mk.injEq] at hq
        obtain ⟨⟨q0, o0⟩, he, _, rfl⟩ := hq
        exact .old hT (mem_opds_phi hp0 he)
    · rw [hb.body, List.mem_append] at hi
      rcases hi with hi | hi
      · obtain ⟨i0, hi0, rfl⟩ := List.mem_map.1 hi
        simp only [TailNm.inst, List.mem_map] at hx
        obtain ⟨o0, ho0, rfl⟩ := hx
        have : i0 ∈ T.body := by
          rcases hb.which with ⟨_, h2⟩ | ⟨_, h2⟩
          · rw [← h2]; exact hi0
          · rw [h2] at hi0; exact List.mem_of_mem_take hi0
        exact .old hT (mem_opds_use (.inl ⟨i0, this, ho0⟩))
      · rcases hb.ops i hi _ hx with ⟨h1 | ⟨h1, _⟩, _⟩ | ⟨o', rfl, ho', _⟩
        · rw [h1]; exact .new (.inl rfl)
        · rw [h1]; exact .new (.inr (.inl rfl))
        · exact .old hT ho'
    · rcases hb.term o hx with ⟨e, he, rfl⟩ | ⟨o', rfl, ho', _⟩
      · exact hextra e he
      · exact .old hT (mem_opds_use (.inr ho'))

/-- the instructions of the new function -/
theorem TailOk.insts (h : TailOk V N S accOp F f b k as K B call) (W : LiveWf F) {z : Nat} {Z : L.B} (hZ : (F.tailElim N V.param S as b k call.args K).blk z = some Z) {i : Inst L.Op L.C}
    (hi : i ∈ Z.body) : (∃ q T i0, F.blk q = some T ∧ i0 ∈ T.body ∧ i.id = i0.id ∧ i.op = i0.op ∧ i.args.length = i0.args.length) ∨
      (i.id = N.leaf z ∧ ((∃ x, K = .first x ∧ i.op = S.op) ∨ ∃ j l x c, K = .acc j l x c ∧ i.op = j.op)) := by
  have hsp := tailKind_spec h.kind
  have hjB : ∀ {j l x c}, K = .acc j l x c → j ∈ B.body ∧ j.args.length = 2 := by
    rintro j l x c rfl
    have h1 : B.body.drop (k + 1) = [j] := hsp.1
    have h2 : j.args = _ := hsp.2.2.2.2.1
    refine ⟨List.mem_of_mem_drop (i := k + 1) (by rw [h1]; simp), ?_⟩
    rw [h2]; split <;> rfl
  by_cases hz : z = N.e0
  · subst hz
    have : (F.tailElim N V.param S as b k call.args K).blk N.e0 = some ⟨[], [], .br F.entry⟩ := by unfold Func.tailElim; exact if_pos rfl
    rw [this] at hZ; cases hZ; simp at hi
  · cases hT : F.blk z with
    | none => 
      have : (F.tailElim N V.param S as b k call.args K).blk z = none := by
        show (if z = N.e0 then _ else _) = _
        rw [if_neg hz, hT]; rfl
      rw [this] at hZ; cases hZ
    | some T =>
      have hG := h.blk hT
      rw [hG] at hZ
      have hbody : Z.body = (N.block V.param S F.entry b k K z T).body := by
        rw [← Option.some.inj hZ]; split <;> rfl
      rw [hbody] at hi
      have hold : ∀ {is : List (Inst L.Op L.C)}, (∀ j ∈ is, j ∈ T.body) → i ∈ is.map (N.inst V.param) → ∃ q T i0, F.blk q = some T ∧ i0 ∈ T.body ∧ i.id = i0.id ∧ i.op = i0.op ∧ i.args.length = i0.args.length := by
        intro is his hm
        obtain ⟨i0, hi0, rfl⟩ := List.mem_map.1 hm
        exact ⟨z, T, i0, hT, his _ hi0, rfl, rfl, by simp [TailNm.inst]⟩
      unfold TailNm.block at hi
      split at hi
      · rename_i hzb
        subst hzb
        simp only [List.mem_append] at hi
        rcases hi with hi | hi
        · exact .inl (hold (fun j hj => List.mem_of_mem_take hj) hi)
        · cases K with
          | plain => simp [TailNm.rest] at hi
          | acc j l x c =>
            simp only [TailNm.rest, List.mem_singleton] at hi
            subst hi
            refine .inl ⟨z, B, j, h.hB, (hjB rfl).1, rfl, rfl, ?_⟩
            rw [(hjB rfl).2]
            split <;> rfl
          | first x =>
            simp only [TailNm.rest, List.mem_singleton] at hi
            subst hi
            exact .inr ⟨rfl, .inl ⟨x, rfl, rfl⟩⟩
      · split at hi
        · simp only [List.mem_append] at hi
          rcases hi with hi | hi
          · exact .inl (hold (fun j hj => hj) hi)
          · cases K with
            | plain => simp [TailNm.leaves] at hi
            | acc j l x c =>
              simp only [TailNm.leaves, List.mem_singleton] at hi
              subst hi
              exact .inr ⟨rfl, .inr ⟨j, l, x, c, rfl, rfl⟩⟩
            | first x =>
              simp only [TailNm.leaves, List.mem_singleton] at hi
              subst hi
              exact .inr ⟨rfl, .inl ⟨x, rfl, rfl⟩⟩
        · exact .inl (hold (fun j hj => hj) hi)

end
end Cmmc.SSA
