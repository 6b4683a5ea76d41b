import Verif.SSA.Inline
/-!
# Inlining one call preserves behaviour
-/
namespace Cmmc.SSA

/-- What `applyInline` may assume: the call is there, the clones are new objects, the entry of the callee is not a jump target, call and callee agree on
the number of arguments and on whether there is a result, and nobody uses the result of a void call. -/
structure InlineOk {Op C : Type} (K : Copy) (param : C → Option Nat) (F G : Func Op C) (b k : Nat) (valued : Bool) (B : Block Op C) (call : Inst Op C) : Prop where
  hB : F.blk b = some B
  hk : B.body[k]? = some call
  fb : Function.Injective K.fb
  fi : Function.Injective K.fi
  ps : Function.Injective K.ps
  fp : ∀ i j, K.fi i ≠ K.ps j
  fbF : ∀ q, K.fb q ∉ F.order
  sinkF : K.sink ∉ F.order
  fbS : ∀ q, K.fb q ≠ K.sink
  phiSink : ∀ x X p, F.blk x = some X → p ∈ X.phis → p.has K.sink = false
  unused : ∀ x X, F.blk x = some X → (∀ i, Opd.inst (K.fi i) ∉ X.opds) ∧ ∀ j, Opd.inst (K.ps j) ∉ X.opds
  newIds : ∀ x X, F.blk x = some X → (∀ i, K.fi i ∉ X.ids) ∧ ∀ j, K.ps j ∉ X.ids
  glisted : G.Listed
  noEntry : ∀ q, ¬ Edge G q G.entry
  params : ∀ q T, G.blk q = some T → ∀ o ∈ T.opds, ∀ c j, o = .cst c → param c = some j → j < call.args.length
  rets : ∀ q T v, G.blk q = some T → T.term = .ret v → v.isSome = valued
  void : valued = false → ∀ x X, F.blk x = some X → Opd.inst call.id ∉ X.opds

section
variable {Op C : Type} {K : Copy} {param : C → Option Nat} {F G : Func Op C} {b k : Nat} {valued : Bool} {B : Block Op C} {call : Inst Op C}

/-- the phis of a block of the caller afterwards -/
def newPhis (K : Copy) (b : Nat) (B : Block Op C) (x : Nat) (ps : List (Phi C)) : List (Phi C) := if x ∈ B.term.targets then ps.map (fun p => p.replaceSource b K.sink) else ps

theorem InlineOk.unfold (h : InlineOk K param F G b k valued B call) (x : Nat) : (F.inline K param b k valued G).blk x =
    (if x = b then some (⟨B.phis, B.body.take k, .br (K.fb G.entry)⟩ : Block Op C)
            else if x = K.sink then some ⟨K.retPhi param G valued call.id, B.body.drop (k + 1), B.term⟩
            else
              match G.order.find? (fun q => K.fb q == x) with
              | some q => (G.blk q).map (K.blockAt param b call.args G.entry q)
              | none => F.blk x).map (fun X => { X with phis := newPhis K b B x X.phis }) := by
  unfold Func.inline
  rw [h.hB]
  simp only [h.hk]
  rw [foldl_mapPhis_blk _ _ _ (List.nodup_dedup _)]
  congr 1
  funext X
  unfold newPhis
  simp only [List.mem_dedup]
  split <;> rfl

theorem InlineOk.entry (h : InlineOk K param F G b k valued B call) : (F.inline K param b k valued G).entry = F.entry := by
  unfold Func.inline
  rw [h.hB]
  simp only [h.hk]
  have : ∀ (l : List Nat) (H : Func Op C), (l.foldl (fun H y => H.mapPhis y (List.map (fun p => p.replaceSource b K.sink))) H).entry = H.entry := by
    intro l
    induction l with
    | nil => intro H; rfl
    | cons y l ih =>
      intro H
      rw [List.foldl_cons, ih]
      exact Func.mapPhis_entry _ _ _
  rw [this]

theorem InlineOk.blk_b (h : InlineOk K param F G b k valued B call) : (F.inline K param b k valued G).blk b = some ⟨newPhis K b B b B.phis, B.body.take k, .br (K.fb G.entry)⟩ := by
  rw [h.unfold, if_pos rfl]; rfl

variable (S : Shape F)
include S

theorem InlineOk.target (h : InlineOk K param F G b k valued B call) {x : Nat} (hx : x ∈ B.term.targets) : x ∈ F.order := S.closed b x ⟨B, h.hB, hx⟩

theorem InlineOk.blk_sink (h : InlineOk K param F G b k valued B call) : (F.inline K param b k valued G).blk K.sink = some ⟨K.retPhi param G valued call.id, B.body.drop (k + 1), B.term⟩ := by
  have hne : K.sink ≠ b := fun e => h.sinkF (e ▸ S.listed b B h.hB)
  rw [h.unfold, if_neg hne, if_pos rfl]
  have : newPhis K b B K.sink (K.retPhi param G valued call.id) = K.retPhi param G valued call.id := by
    unfold newPhis
    rw [if_neg (fun hx => h.sinkF (h.target S hx))]
  simp only [Option.map_some, this]

theorem InlineOk.find (h : InlineOk K param F G b k valued B call) {q : Nat} (hq : q ∈ G.order) : G.order.find? (fun q' => K.fb q' == K.fb q) = some q := by
  cases he : G.order.find? (fun q' => K.fb q' == K.fb q) with
  | none =>
    rw [List.find?_eq_none] at he
    simpa using he q hq
  | some q' =>
    have := List.find?_some he
    simp only [beq_iff_eq] at this
    rw [h.fb this]

theorem InlineOk.blk_copy (h : InlineOk K param F G b k valued B call) {q : Nat} {T : Block Op C} (hT : G.blk q = some T) :
    (F.inline K param b k valued G).blk (K.fb q) = some (K.blockAt param b call.args G.entry q T) := by
  have hne : K.fb q ≠ b := fun e => h.fbF q (e ▸ S.listed b B h.hB)
  rw [h.unfold, if_neg hne, if_neg (h.fbS q), h.find S (h.glisted q T hT)]
  simp only [hT, Option.map_some]
  unfold newPhis
  rw [if_neg (fun hx => h.fbF q (h.target S hx))]

theorem InlineOk.blk_old (h : InlineOk K param F G b k valued B call) {x : Nat} {X : Block Op C} (hx : x ≠ b) (hX : F.blk x = some X) :
    (F.inline K param b k valued G).blk x = some { X with phis := newPhis K b B x X.phis } := by
  have ho := S.listed x X hX
  have h1 : x ≠ K.sink := fun e => h.sinkF (e ▸ ho)
  have h2 : G.order.find? (fun q => K.fb q == x) = none := by
    rw [List.find?_eq_none]
    intro q _
    simp only [beq_iff_eq]
    intro e
    exact h.fbF q (e ▸ ho)
  rw [h.unfold, if_neg hx, if_neg h1, h2]
  simp only [hX, Option.map_some]

/-- phis find the same operands as before -/
theorem InlineOk.phis (h : InlineOk K param F G b k valued B call) {q x : Nat} {X : Block Op C} (hX : F.blk x = some X) (e : Edge F q x) :
    List.Forall₂ (fun p p' : Phi C => p'.id = p.id ∧ p'.at (mv K.sink b q) = p.at q) X.phis (newPhis K b B x X.phis) := by
  have hq : q ≠ K.sink := by
    obtain ⟨Q, hQ, _⟩ := e
    exact fun he => h.sinkF (he ▸ S.listed q Q hQ)
  unfold newPhis
  split
  · rw [List.forall₂_map_right_iff]
    refine List.forall₂_same.2 (fun p hp => ⟨rfl, ?_⟩)
    exact Phi.at_replaceSource (h.phiSink x X p hX hp) hq
  · rename_i hn
    refine List.forall₂_same.2 (fun p hp => ⟨rfl, ?_⟩)
    rw [mv_ne]
    rintro rfl
    obtain ⟨Q, hQ, ht⟩ := e
    rw [h.hB] at hQ; cases hQ
    exact hn ht

end

section
variable {L : Lang} {K : Copy} {param : L.C → Option Nat} {F G : L.F} {b k : Nat} {valued : Bool} {B : L.B} {call : Inst L.Op L.C}
  {enter : L.M → L.M} {leave : L.M → L.M → L.M} {I : L.M → Prop}

/-- the names whose values need not agree -/
def InlineOff (K : Copy) (valued : Bool) (id x : Nat) : Prop := (∃ i, x = K.fi i) ∨ (∃ j, x = K.ps j) ∨ (valued = false ∧ x = id)

structure InlineRel (K : Copy) (F : L.F) (b : Nat) (valued : Bool) (id : Nat) (s t : St L) : Prop where
  cur : t.cur = s.cur
  m : t.m = s.m
  tr : t.tr = s.tr
  env : AgreeK (InlineOff K valued id) s.env t.env
  pred : (s.pred = none ∧ t.pred = none) ∨ ∃ q, s.pred = some q ∧ t.pred = some (mv K.sink b q) ∧ Edge F q s.cur

theorem InlineOk.noUse (h : InlineOk K param F G b k valued B call) {x y : Nat} {X : L.B} (hX : F.blk x = some X) (hy : InlineOff K valued call.id y) : Opd.inst y ∉ X.opds := by
  rcases hy with ⟨i, rfl⟩ | ⟨j, rfl⟩ | ⟨hv, rfl⟩
  · exact (h.unused x X hX).1 i
  · exact (h.unused x X hX).2 j
  · exact h.void hv x X hX

theorem Block.phi_opds {X : L.B} {p : Phi L.C} {o : Opd L.C} (hp : p ∈ X.phis) (ho : o ∈ p.ops) : o ∈ X.opds := by
  unfold Block.opds; simp only [List.mem_append, List.mem_flatMap]; exact .inl (.inl ⟨p, hp, ho⟩)

theorem Block.body_opds {X : L.B} {i : Inst L.Op L.C} {o : Opd L.C} (hi : i ∈ X.body) (ho : o ∈ i.args) : o ∈ X.opds := by
  unfold Block.opds; simp only [List.mem_append, List.mem_flatMap]; exact .inl (.inr ⟨i, hi, ho⟩)

theorem Block.term_opds {X : L.B} {o : Opd L.C} (ho : o ∈ X.term.args) : o ∈ X.opds := by
  unfold Block.opds; simp only [List.mem_append]; exact .inr ho

/-- entering a block of the caller -/
theorem InlineOk.enterBlk (h : InlineOk K param F G b k valued B call) (S : Shape F) {s t : St L} (R : InlineRel K F b valued call.id s t) {X : L.B} (hX : F.blk s.cur = some X) {env : Env L}
    (he : enterPhis L s.pred s.env X.phis s.env = some env) : ∃ env', enterPhis L t.pred t.env (newPhis K b B s.cur X.phis) t.env = some env' ∧ AgreeK (InlineOff K valued call.id) env env' := by
  rcases R.pred with ⟨h1, h2⟩ | ⟨q, h1, h2, h3⟩
  · have hph : X.phis = [] := by
      cases hp : X.phis with
      | nil => rfl
      | cons p ps => rw [hp, h1] at he; simp [enterPhis, phiVal] at he
    rw [hph] at he ⊢
    simp only [enterPhis, Option.some.injEq] at he
    subst he
    refine ⟨t.env, ?_, R.env⟩
    unfold newPhis
    split <;> rfl
  · rw [h2]
    rw [h1] at he
    obtain ⟨r', hr, ha⟩ := AgreeK.phis (q' := mv K.sink b q) R.env (h.phis S hX h3) (fun p hp x hx hm => h.noUse hX hx (Block.phi_opds hp hm)) R.env he
    exact ⟨r', hr, ha.mono (fun x hx => hx.1)⟩

/-- the rest of a block -/
theorem InlineOk.rest (h : InlineOk K param F G b k valued B call) {H : L.F} {s0 s t : St L} {c c' n j : Nat} {X : L.B} (hX : F.blk c = some X) (hc : c' = mv K.sink b c)
    {is : List (Inst L.Op L.C)} (his : ∀ i ∈ is, i ∈ X.body) {e e' : Env L} {m : L.M} {tr : List L.E} (ha : AgreeK (InlineOff K valued call.id) e e')
    (hF : run L F (n + 1) s0 = goBlk L c is X.term e m tr) (hH : run L H (j + 1) t = goBlk L c' is X.term e' m tr) (_hs : s0 = s) :
    (∃ k, run L F k s = .inr .ub) ∨ (∃ k j b, run L F k s = .inr b ∧ run L H j t = .inr b) ∨
     (∃ k j s' t', run L F (k + 1) s = .inl s' ∧ run L H (j + 1) t = .inl t' ∧ InlineRel K F b valued call.id s' t') := by
  subst _hs
  have hbr := AgreeK.body (L := L) (is := is) (m := m) (es := tr) (fun i hi x hx hm => h.noUse hX hx (Block.body_opds (his i hi) hm)) ha
  unfold goBlk at hF hH
  cases hb : execBody L is e m tr with
  | ub => rw [hb] at hF; exact .inl ⟨_, hF⟩
  | halt es hh =>
    rw [hb] at hF hbr
    rw [hbr] at hH
    exact .inr (.inl ⟨_, _, _, hF, hH⟩)
  | ok e1 m1 es1 =>
    rw [hb] at hF hbr
    obtain ⟨e1', hb', ha1⟩ := hbr
    rw [hb'] at hH
    simp only at hF hH
    rw [ha1.term (fun x hx hm => h.noUse hX hx (Block.term_opds hm))] at hH
    cases ht : evalTerm L e1 X.term with
    | ub => rw [ht] at hF; exact .inl ⟨_, hF⟩
    | ret v => rw [ht] at hF hH; exact .inr (.inl ⟨_, _, _, hF, hH⟩)
    | goto d =>
      rw [ht] at hF hH
      refine .inr (.inr ⟨_, _, _, _, hF, hH, rfl, rfl, rfl, ha1, .inr ⟨c, rfl, by rw [hc], ⟨X, hX, evalTerm_targets ht⟩⟩⟩)

theorem InlineOk.retPhi_at (h : InlineOk K param F G b k valued B call) {q : Nat} {T : L.B} {o : Opd L.C} (hT : G.blk q = some T) (ho : T.term = .ret (some o)) (id : Nat) :
    (⟨id, G.retIncs K param⟩ : Phi L.C).at (K.fb q) = some (K.opd param o) := by
  have hmem : (K.fb q, K.opd param o) ∈ G.retIncs K param := by
    unfold Func.retIncs
    rw [List.mem_filterMap]
    refine ⟨q, h.glisted q T hT, ?_⟩
    obtain ⟨ps, is, t⟩ := T
    simp only at ho
    subst ho
    rw [hT]
  obtain ⟨v, h1, h2⟩ := Phi.at_some (p := (⟨id, G.retIncs K param⟩ : Phi L.C)) ⟨_, hmem⟩
  rw [h1]
  simp only [Func.retIncs, List.mem_filterMap] at h2
  obtain ⟨q', _, h2⟩ := h2
  split at h2
  · rename_i T' v' hT'
    simp only [Option.some.injEq, Prod.mk.injEq] at h2
    obtain ⟨e1, e2⟩ := h2
    obtain rfl := h.fb e1
    rw [hT] at hT'
    cases hT'
    simp only [Term.ret.injEq, Option.some.injEq] at ho
    rw [← e2, ho]
  · cases h2

theorem InlineOk.isCopy (h : InlineOk K param F G b k valued B call) (S : Shape F) : IsCopy K param G (F.inline K param b k valued G) b call.args :=
  ⟨h.fb, h.fi, h.ps, h.fp, h.noEntry, fun q T hT o ho c j => h.params q T hT o ho c j, fun _ _ hT => h.blk_copy S hT⟩

theorem inline_sim (h : InlineOk K param F G b k valued B call) (S : Shape F) (hc : CallOf L call.op call.args.length param G enter leave I) :
    Simulation F (F.inline K param b k valued G) (InlineRel K F b valued call.id) := by
  intro s t R
  refine ⟨R.tr.symm, ?_⟩
  cases hX : F.blk s.cur with
  | none => exact .inl ⟨1, by rw [run_one]; unfold step; rw [hX]⟩
  | some X =>
    have hF : step L F s = stepBlk L X s := by unfold step; rw [hX]
    rw [stepBlk_go] at hF
    cases he : enterPhis L s.pred s.env X.phis s.env with
    | none => rw [he] at hF; exact .inl ⟨1, by rw [run_one, hF]⟩
    | some env =>
      obtain ⟨env', he', ha⟩ := h.enterBlk S R hX he
      rw [he] at hF
      simp only at hF
      by_cases hcb : s.cur = b
      · -- the block of the call
        rw [hcb, h.hB] at hX
        cases hX
        rw [hcb] at he' hF
        have hH : step L (F.inline K param b k valued G) t = goBlk L b (B.body.take k) (.br (K.fb G.entry)) env' s.m s.tr := by
          unfold step
          rw [R.cur, hcb, h.blk_b]
          simp only [stepBlk_go, he', R.cur, hcb, R.m, R.tr]
        have hsplit : B.body = B.body.take k ++ call :: B.body.drop (k + 1) := by
          obtain ⟨hlt, hcall⟩ := List.getElem?_eq_some_iff.1 h.hk
          rw [← hcall, List.getElem_cons_drop, List.take_append_drop]
        have hpre : ∀ i ∈ B.body.take k, i ∈ B.body := fun i hi => List.mem_of_mem_take hi
        have hcm : call ∈ B.body := by rw [hsplit]; simp
        have hpost : ∀ i ∈ B.body.drop (k + 1), i ∈ B.body := fun i hi => List.mem_of_mem_drop hi
        have hbr := AgreeK.body (L := L) (is := B.body.take k) (m := s.m) (es := s.tr) (fun i hi x hx hm => h.noUse h.hB hx (Block.body_opds (hpre i hi) hm)) ha
        unfold goBlk at hF hH
        rw [hsplit, execBody_append2] at hF
        cases hb : execBody L (B.body.take k) env s.m s.tr with
        | ub => rw [hb] at hF; exact .inl ⟨1, by rw [run_one, hF]⟩
        | halt es hh =>
          rw [hb] at hF hbr
          rw [hbr] at hH
          exact .inr (.inl ⟨1, 1, _, by rw [run_one, hF], by rw [run_one, hH]⟩)
        | ok e1 m1 es1 =>
          rw [hb] at hF hbr
          obtain ⟨e1', hb', ha1⟩ := hbr
          rw [hb'] at hH
          simp only [execBody, evalTerm] at hF hH
          have hargs := ha1.evals (os := call.args) (fun x hx hm => h.noUse h.hB hx (Block.body_opds hcm hm))
          cases hv : evals L e1 call.args with
          | none => rw [hv] at hF; exact .inl ⟨1, by rw [run_one, hF]⟩
          | some vs =>
            rw [hv] at hF hargs
            simp only at hF
            have hlen := evals_length hv
            rcases hc.runs vs m1 hlen with hu | ⟨beh, ⟨n, hn⟩, hres⟩
            · rw [hu] at hF; exact .inl ⟨1, by rw [run_one, hF]⟩
            · -- the callee runs
              have hst : CopySt K param vs leave I G b call.args e1' m1 es1 (start (L.withArgs param vs) G (enter m1)) ⟨some b, K.fb G.entry, e1', m1, es1⟩ :=
                ⟨rfl, (hc.leave_enter m1).symm, hc.enter_I m1, (List.append_nil _).symm, .inl ⟨rfl, rfl, rfl, rfl, fun _ => rfl, hargs⟩⟩
              have hrun := copy_run (h.isCopy S) hc.ops hlen n hst hn
              have hH1 : run L (F.inline K param b k valued G) 1 t = .inl ⟨some b, K.fb G.entry, e1', m1, es1⟩ := by rw [run_one, hH]
              cases beh with
              | ub => exact absurd hres id
              | halt hh es =>
                obtain ⟨j, hj⟩ := hrun
                simp only [CallRes] at hres
                rw [hres] at hF
                refine .inr (.inl ⟨1, 1 + j, _, by rw [run_one, hF], ?_⟩)
                rw [run_add, hH1]
                exact hj
              | ret v mc es =>
                obtain ⟨j, t2, hj, a1, a2, a3, a4, q, T, o, a5, a6, a7, a8⟩ := hrun
                obtain ⟨w, hw, hwv⟩ := hres
                rw [hw] at hF
                simp only at hF
                have hsome := h.rets q T o a6 a7
                -- entering the block behind the call
                have hent : ∃ e2, enterPhis L t2.pred t2.env (K.retPhi param G valued call.id) t2.env = some e2 ∧ AgreeK (InlineOff K valued call.id) (setEnv L e1 call.id w) e2 := by
                  have hold : ∀ x, ¬ InlineOff K valued call.id x → t2.env x = e1 x := by
                    intro x hx
                    rw [a4 x (fun y e => hx (.inl ⟨y, e⟩)) (fun j e => hx (.inr (.inl ⟨j, e⟩)))]
                    exact (ha1 x hx).symm
                  cases valued with
                  | false =>
                    refine ⟨t2.env, rfl, ?_⟩
                    intro x hx
                    have : x ≠ call.id := fun e => hx (.inr (.inr ⟨rfl, e⟩))
                    simp only [setEnv, if_neg this]
                    exact (hold x hx).symm
                  | true =>
                    obtain ⟨o', rfl⟩ := Option.isSome_iff_exists.1 hsome
                    obtain ⟨x0, rfl, hev⟩ := a8 o' rfl
                    have hwx := hwv x0 rfl
                    refine ⟨setEnv L t2.env call.id w, ?_, ?_⟩
                    · simp only [Copy.retPhi, if_true, enterPhis, phiVal, a5]
                      rw [h.retPhi_at a6 a7]
                      simp only [hev, hwx]
                    · intro x hx
                      unfold setEnv
                      split
                      · rfl
                      · exact (hold x hx).symm
                obtain ⟨e2, he2, ha2⟩ := hent
                have hH2 : step L (F.inline K param b k valued G) t2 = goBlk L K.sink (B.body.drop (k + 1)) B.term e2 (leave m1 mc) (es1 ++ es) := by
                  unfold step
                  rw [a1, h.blk_sink S]
                  simp only [stepBlk_go, he2, a1, a2, a3]
                refine h.rest (H := F.inline K param b k valued G) (s := s) (t := t) (c := b) (c' := K.sink) (n := 0) (j := 1 + j) (m := leave m1 mc) (tr := es1 ++ es) h.hB mv_eq.symm hpost ha2 ?_ ?_ rfl
                · rw [run_one, hF]; rfl
                · rw [run_add, run_add, hH1]
                  simp only [hj]
                  rw [run_one, hH2]
      · -- another block
        have hH : step L (F.inline K param b k valued G) t = goBlk L s.cur X.body X.term env' s.m s.tr := by
          unfold step
          rw [R.cur, h.blk_old S hcb hX]
          simp only [stepBlk_go, he', R.cur, R.m, R.tr]
        refine h.rest (H := F.inline K param b k valued G) (s := s) (t := t) (n := 0) (j := 0) (m := s.m) (tr := s.tr) hX (mv_ne hcb).symm (fun i hi => hi) ha ?_ ?_ rfl
        · rw [run_one, hF]
        · rw [run_one, hH]

/-- Inlining one call keeps every result and every endless run -/
theorem inline_refines (h : InlineOk K param F G b k valued B call) (S : Shape F) (hc : CallOf L call.op call.args.length param G enter leave I) : Refines L F (F.inline K param b k valued G) :=
  (inline_sim h S hc).refines (fun m => ⟨h.entry, rfl, rfl, fun _ _ => rfl, .inl ⟨rfl, rfl⟩⟩)

end
end Cmmc.SSA
