import Verif.SSA.CondPropSets
import Verif.SSA.ReorderSem
import Verif.SSA.TailFn
/-! # C81: `ConditionalPropagation` preserves the behaviour and SSA form -/
namespace Cmmc.SSA

/-! ## replacing operands block by block by constants keeps SSA form -/
section
variable {Op C : Type}

theorem Opd.sub_inst_of {σ : Nat → Opd C} (hσ : ∀ x, σ x = .inst x ∨ ∃ c, σ x = .cst c) {o : Opd C} {x : Nat} (h : o.sub σ = .inst x) : o = .inst x := by
  cases o with
  | cst c => simp [Opd.sub] at h
  | inst y =>
    simp only [Opd.sub] at h
    rcases hσ y with e | ⟨c, e⟩
    · rw [e] at h; exact h
    · rw [e] at h; simp at h

theorem mem_map_sub {σ : Nat → Opd C} (hσ : ∀ x, σ x = .inst x ∨ ∃ c, σ x = .cst c) {os : List (Opd C)} {x : Nat} (h : Opd.inst x ∈ os.map (Opd.sub σ)) : Opd.inst x ∈ os := by
  obtain ⟨o, ho, e⟩ := List.mem_map.1 h
  exact Opd.sub_inst_of hσ e ▸ ho

theorem InOrder.sub {σ : Nat → Opd C} (hσ : ∀ x, σ x = .inst x ∨ ∃ c, σ x = .cst c) {B : Block Op C} (h : InOrder B) : InOrder (B.sub σ) := by
  have hpid : (B.sub σ).phis.map Phi.id = B.phis.map Phi.id := by simp [Block.sub, Phi.sub, Function.comp_def]
  have hbid : ∀ l : List (Inst Op C), (l.map (Inst.sub σ)).map Inst.id = l.map Inst.id := by intro l; simp [Inst.sub, Function.comp_def]
  constructor
  · intro pre i post e x hx hin
    obtain ⟨l1, l2, e1, rfl, e2⟩ := List.map_eq_append_iff.1 (show B.body.map (Inst.sub σ) = pre ++ i :: post from e)
    obtain ⟨i0, l3, rfl, rfl, rfl⟩ := List.map_eq_cons_iff.1 e2
    rw [hpid, hbid]
    rw [Block.sub_ids] at hin
    exact h.1 l1 i0 l3 e1 x (mem_map_sub hσ hx) hin
  · intro x hx hin
    rw [hpid]
    show _ ∨ x ∈ (B.body.map (Inst.sub σ)).map Inst.id
    rw [hbid]
    rw [Block.sub_ids] at hin
    refine h.2 x ?_ hin
    have : Opd.inst x ∈ (B.term.sub σ).args := hx
    rw [Term.sub_args] at this
    exact mem_map_sub hσ this

theorem subBlocks_edge {F : Func Op C} {σ : Nat → Nat → Opd C} {x y : Nat} : Edge (F.mapBlocks (fun b B => B.sub (σ b))) x y ↔ Edge F x y := by
  constructor
  · rintro ⟨X, hX, hy⟩
    obtain ⟨Y, hY, rfl⟩ := Option.map_eq_some_iff.1 hX
    exact ⟨Y, hY, by have : y ∈ (Y.term.sub (σ x)).targets := hy
                     rwa [Term.sub_targets] at this⟩
  · rintro ⟨Y, hY, hy⟩
    refine ⟨Y.sub (σ x), by show (F.blk x).map _ = _; rw [hY]; rfl, ?_⟩
    show y ∈ (Y.term.sub (σ x)).targets
    rwa [Term.sub_targets]

/-- replacing uses by constants, block by block, keeps SSA form -/
theorem LiveWf.subBlocks {F : Func Op C} (W : LiveWf F) {σ : Nat → Nat → Opd C} (hσ : ∀ b x, σ b x = .inst x ∨ ∃ c, σ b x = .cst c) : LiveWf (F.mapBlocks (fun b B => B.sub (σ b))) := by
  have hmap : ∀ {b B'}, (F.mapBlocks (fun b B => B.sub (σ b))).blk b = some B' → ∃ B, F.blk b = some B ∧ B' = B.sub (σ b) := by
    intro b B' h
    obtain ⟨B, hB, rfl⟩ := Option.map_eq_some_iff.1 h
    exact ⟨B, hB, rfl⟩
  have hpath : ∀ {a b l}, Dom.Path (Edge (F.mapBlocks (fun b B => B.sub (σ b)))) a b l ↔ Dom.Path (Edge F) a b l :=
    ⟨fun h => path_mono (fun _ _ e => subBlocks_edge.1 e) h, fun h => path_mono (fun _ _ e => subBlocks_edge.2 e) h⟩
  have hlive : ∀ b, Live (F.mapBlocks (fun b B => B.sub (σ b))) b ↔ Live F b := by
    intro b
    constructor
    · rintro ⟨l, h⟩; exact ⟨l, hpath.1 h⟩
    · rintro ⟨l, h⟩; exact ⟨l, hpath.2 h⟩
  have hdom : ∀ a b, Domi F a b → Domi (F.mapBlocks (fun b B => B.sub (σ b))) a b := fun a b h l hl => h l (hpath.1 hl)
  have hdef : ∀ x b, DefIn F x b → DefIn (F.mapBlocks (fun b B => B.sub (σ b))) x b := by
    rintro x b ⟨B, hB, hx⟩
    exact ⟨B.sub (σ b), by show (F.blk b).map _ = _; rw [hB]; rfl, by rw [Block.sub_ids]; exact hx⟩
  have hphi : ∀ {b : Nat} {B : Block Op C} {p : Phi C}, p ∈ (Block.sub (σ b) B).phis → ∃ p0 ∈ B.phis, p = p0.sub (σ b) := by
    intro b B p h
    obtain ⟨p0, h0, rfl⟩ := List.mem_map.1 (show p ∈ B.phis.map (Phi.sub (σ b)) from h)
    exact ⟨p0, h0, rfl⟩
  have hinc : ∀ {b q v} {p0 : Phi C}, (q, v) ∈ (p0.sub (σ b)).inc → ∃ v0, (q, v0) ∈ p0.inc ∧ v = v0.sub (σ b) := by
    intro b q v p0 h
    obtain ⟨⟨q', v'⟩, h0, e⟩ := List.mem_map.1 (show (q, v) ∈ p0.inc.map (fun e => (e.1, e.2.sub (σ b))) from h)
    simp only [Prod.mk.injEq] at e
    obtain ⟨rfl, rfl⟩ := e
    exact ⟨v', h0, rfl⟩
  have hinc' : ∀ {b q v0} {p0 : Phi C}, (q, v0) ∈ p0.inc → (q, v0.sub (σ b)) ∈ (p0.sub (σ b)).inc := by
    intro b q v0 p0 h
    exact List.mem_map.2 ⟨(q, v0), h, rfl⟩
  refine { nodup := W.nodup, listed := ?_, total := ?_, entryIn := W.entryIn, closed := ?_, unique := ?_, entryPhis := ?_, inOrder := ?_, use := ?_, phiUse := ?_, phiPred := ?_, phiAll := ?_, phiDead := ?_ }
  · intro b B' h
    obtain ⟨B, hB, _⟩ := hmap h
    exact W.listed b B hB
  · intro b hb
    obtain ⟨B, hB⟩ := W.total b hb
    exact ⟨B.sub (σ b), by show (F.blk b).map _ = _; rw [hB]; rfl⟩
  · intro a b e; exact W.closed a b (subBlocks_edge.1 e)
  · have : (F.mapBlocks (fun b B => B.sub (σ b))).allIds = F.allIds := by
      rw [allIds_eq, allIds_eq]
      show F.order.flatMap _ = F.order.flatMap _
      congr 1
      funext b
      show (match (F.blk b).map (fun B => B.sub (σ b)) with | some B => B.ids | none => []) = _
      cases hB : F.blk b with
      | none => rfl
      | some B => exact Block.sub_ids B _
    rw [this]; exact W.unique
  · intro B' h
    obtain ⟨B, hB, rfl⟩ := hmap h
    show B.phis.map _ = []
    rw [W.entryPhis B hB]; rfl
  · intro b B' h hl
    obtain ⟨B, hB, rfl⟩ := hmap h
    exact (W.inOrder b B hB ((hlive b).1 hl)).sub (hσ b)
  · intro b B' x h hl hx
    obtain ⟨B, hB, rfl⟩ := hmap h
    have hx' : (∃ i ∈ B.body, Opd.inst x ∈ i.args) ∨ Opd.inst x ∈ B.term.args := by
      rcases hx with ⟨i, hi, hx⟩ | hx
      · obtain ⟨i0, hi0, rfl⟩ := List.mem_map.1 (show i ∈ B.body.map (Inst.sub (σ b)) from hi)
        exact .inl ⟨i0, hi0, mem_map_sub (hσ b) hx⟩
      · have : Opd.inst x ∈ (B.term.sub (σ b)).args := hx
        rw [Term.sub_args] at this
        exact .inr (mem_map_sub (hσ b) this)
    obtain ⟨d, h1, h2⟩ := W.use b B x hB ((hlive b).1 hl) hx'
    exact ⟨d, hdef x d h1, hdom d b h2⟩
  · intro b B' p q x h hl hpm hx hlq
    obtain ⟨B, hB, rfl⟩ := hmap h
    obtain ⟨p0, h0, rfl⟩ := hphi hpm
    obtain ⟨v0, hv0, e⟩ := hinc hx
    have := Opd.sub_inst_of (hσ b) e.symm
    subst this
    obtain ⟨d, h1, h2⟩ := W.phiUse b B p0 q x hB ((hlive b).1 hl) h0 hv0 ((hlive q).1 hlq)
    exact ⟨d, hdef x d h1, hdom d q h2⟩
  · intro b B' p h hl hpm q v hv
    obtain ⟨B, hB, rfl⟩ := hmap h
    obtain ⟨p0, h0, rfl⟩ := hphi hpm
    obtain ⟨v0, hv0, _⟩ := hinc hv
    exact subBlocks_edge.2 (W.phiPred b B p0 hB ((hlive b).1 hl) h0 q v0 hv0)
  · intro b B' p q h hl hpm e hlq
    obtain ⟨B, hB, rfl⟩ := hmap h
    obtain ⟨p0, h0, rfl⟩ := hphi hpm
    obtain ⟨v, hv⟩ := W.phiAll b B p0 q hB ((hlive b).1 hl) h0 (subBlocks_edge.1 e) ((hlive q).1 hlq)
    exact ⟨_, hinc' hv⟩
  · intro b B' p p' q v h hl hpm hpm' hv
    obtain ⟨B, hB, rfl⟩ := hmap h
    obtain ⟨p0, h0, rfl⟩ := hphi hpm
    obtain ⟨p1, h1, rfl⟩ := hphi hpm'
    obtain ⟨v0, hv0, _⟩ := hinc hv
    obtain ⟨v', hv'⟩ := W.phiDead b B p0 p1 q v0 hB ((hlive b).1 hl) h0 h1 hv0
    exact ⟨_, hinc' hv'⟩

/-! ## the sets are about values that do not change any more -/

theorem reachable_trans {E : Nat → Nat → Prop} {a b c : Nat} (h1 : Dom.Reachable E a b) (h2 : Dom.Reachable E b c) : Dom.Reachable E a c := by
  obtain ⟨p, hp⟩ := h1
  induction hp with
  | single _ => exact h2
  | cons e _ ih => obtain ⟨q, hq⟩ := ih h2; exact ⟨_, .cons e hq⟩

theorem reachable_mem {E : Nat → Nat → Prop} {a b d : Nat} {p : List Nat} (hp : Dom.Path E a b p) (hd : d ∈ p) : Dom.Reachable E d b := by
  induction hp with
  | single a => rw [List.mem_singleton] at hd; subst hd; exact ⟨_, .single _⟩
  | cons e hp ih =>
    rcases List.mem_cons.1 hd with rfl | hd
    · exact ⟨_, .cons e hp⟩
    · exact ih hd

variable [DecidableEq C] {F : Func Op C} {s : Nat → CondSet C}

theorem CondSound.settled (H : CondSound F s) (W : LiveWf F) {b x : Nat} (hb : Live F b) (hx : Opd.inst x ∈ (s b).ts ∨ Opd.inst x ∈ (s b).fs) {d : Nat} (hd : DefIn F x d) :
    ¬ Dom.Reachable (Edge F) b d := by
  have cond : ∀ {q b' : Nat} {B : Block Op C}, Live F q → F.blk q = some B → Opd.inst x ∈ B.term.args → ¬ Dom.Reachable (Edge F) b' q → ¬ Dom.Reachable (Edge F) b' d := by
    intro q b' B hq hB hx hn hr
    obtain ⟨d', h1, h2⟩ := W.use q B x hB hq (.inr hx)
    obtain rfl := defIn_unique W.listed W.unique hd h1
    obtain ⟨p, hp⟩ := hq
    exact hn (reachable_trans hr (reachable_mem hp (h2 p hp)))
  obtain ⟨p, hp⟩ := hb
  generalize hn : p.length = n
  induction n generalizing b p with
  | zero => cases hp <;> simp at hn
  | succ n ih =>
    rcases path_unsnoc hp with ⟨rfl, _⟩ | ⟨q, p', hp', e, rfl⟩
    · rw [H.entry.1, H.entry.2] at hx; simp at hx
    · have hq : Live F q := ⟨p', hp'⟩
      have back : ¬ Dom.Reachable (Edge F) q d → ¬ Dom.Reachable (Edge F) b d := by
        intro h hr
        obtain ⟨l, hl⟩ := hr
        exact h ⟨_, .cons e hl⟩
      rcases hx with hx | hx
      · rcases H.ts q b e _ hx with h | ⟨h, B, f, hB, ht, _⟩
        · exact back (ih (.inl h) p' hp' (by simpa using hn))
        · exact cond hq hB (by rw [ht]; simp [Term.args]) h
      · rcases H.fs q b e _ hx with h | ⟨h, B, f, hB, ht, _⟩
        · exact back (ih (.inr h) p' hp' (by simpa using hn))
        · exact cond hq hB (by rw [ht]; simp [Term.args]) h

theorem CondSound.notHere (H : CondSound F s) (W : LiveWf F) {b x : Nat} (hb : Live F b) (hx : Opd.inst x ∈ (s b).ts ∨ Opd.inst x ∈ (s b).fs) {B : Block Op C} (hB : F.blk b = some B) : x ∉ B.ids :=
  fun h => H.settled W hb hx ⟨B, hB, h⟩ ⟨_, .single _⟩

end

/-! ## the run -/
section
variable {L : Lang}

theorem execBody_subst {σ : Nat → Opd L.C} : ∀ {is : List (Inst L.Op L.C)} {env : Env L} {m : L.M} {es : List L.E},
    (∀ x, x ∉ is.map Inst.id → eval L env (σ x) = env x) → (∀ x, x ∈ is.map Inst.id → σ x = .inst x) → (∀ x, σ x = .inst x ∨ ∃ c, σ x = .cst c) →
    execBody L (is.map (Inst.sub σ)) env m es = execBody L is env m es := by
  intro is
  induction is with
  | nil => intro env m es _ _ _; rfl
  | cons i is ih =>
    intro env m es h1 h2 h3
    have hall : ∀ x, eval L env (σ x) = env x := by
      intro x
      by_cases hx : x ∈ (i :: is).map Inst.id
      · rw [h2 x hx]; rfl
      · exact h1 x hx
    simp only [List.map_cons, execBody]
    rw [show evals L env (Inst.sub σ i).args = evals L env i.args from evals_sub (fun x _ => hall x)]
    split
    · rfl
    · simp only [Inst.sub]
      split
      · rename_i v m' es' hs
        apply ih
        · intro x hx
          by_cases hxi : x = i.id
          · subst hxi; rw [h2 i.id (by simp)]; rfl
          · have h4 : x ∉ (i :: is).map Inst.id := by simp only [List.map_cons, List.mem_cons, not_or]; exact ⟨hxi, hx⟩
            have h5 := h1 x h4
            unfold setEnv
            rw [if_neg hxi, ← h5]
            rcases h3 x with e | ⟨c, e⟩
            · rw [e]; simp [eval, hxi]
            · rw [e]; rfl
        · intro x hx; exact h2 x (by simp [hx])
        · exact h3
      · rfl
      · rfl

/-- `true` and `false` are the only values of a condition -/
def Bools (L : Lang) (tt ff : L.C) : Prop := ∀ v t, L.truth v = some t → v = L.cval (if t then tt else ff)

/-- what is known when a run enters a block -/
def CondKnown (s : Nat → CondSet L.C) (tt ff : L.C) (b : Nat) (env : Env L) : Prop :=
  (∀ x, Opd.inst x ∈ (s b).ts → env x = some (L.cval tt)) ∧ ∀ x, Opd.inst x ∈ (s b).fs → env x = some (L.cval ff)

theorem CondKnown.subst {s : Nat → CondSet L.C} {tt ff : L.C} {b : Nat} {env : Env L} (h : CondKnown s tt ff b env) (x : Nat) : eval L env ((s b).subst tt ff x) = env x := by
  unfold CondSet.subst
  split
  · rename_i hx; rw [h.1 x hx]; rfl
  · split
    · rename_i hx; rw [h.2 x hx]; rfl
    · rfl

variable {F : L.F} {s : Nat → CondSet L.C} {tt ff : L.C}

theorem subst_cases {s : CondSet L.C} {tt ff : L.C} (x : Nat) : s.subst tt ff x = .inst x ∨ ∃ c, s.subst tt ff x = .cst c := by
  unfold CondSet.subst
  split
  · exact .inr ⟨_, rfl⟩
  · split
    · exact .inr ⟨_, rfl⟩
    · exact .inl rfl

theorem condProp_step (H : CondSound F s) (W : LiveWf F) (hL : Bools L tt ff) (st : St L) (hl : Live F st.cur) (hk : CondKnown s tt ff st.cur st.env) :
    step L (F.mapBlocks (fun b B => B.sub ((s b).subst tt ff))) st = step L F st ∧ ∀ st', step L F st = .inl st' → Live F st'.cur ∧ CondKnown s tt ff st'.cur st'.env := by
  have stay : ∀ {B : L.B}, F.blk st.cur = some B → ∀ x, x ∈ B.ids → (s st.cur).subst tt ff x = .inst x := by
    intro B hB x hx
    unfold CondSet.subst
    rw [if_neg (fun h => H.notHere W hl (.inl h) hB hx), if_neg (fun h => H.notHere W hl (.inr h) hB hx)]
  constructor
  · unfold SSA.step
    cases hB : F.blk st.cur with
    | none => simp [Func.mapBlocks, hB]
    | some B =>
      simp only [Func.mapBlocks, hB, Option.map_some]
      unfold stepBlk
      have hph : enterPhis L st.pred st.env (B.sub ((s st.cur).subst tt ff)).phis st.env = enterPhis L st.pred st.env B.phis st.env := by
        cases hp : st.pred with
        | none =>
          show enterPhis L none st.env (B.phis.map _) st.env = _
          cases B.phis <;> rfl
        | some q => exact enterPhis_sub (fun p _ x _ => hk.subst x)
      rw [hph]
      cases he : enterPhis L st.pred st.env B.phis st.env with
      | none => rfl
      | some env =>
        have hk1 : CondKnown s tt ff st.cur env := by
          constructor
          · intro x hx
            rw [enterPhis_other he x (fun h => H.notHere W hl (.inl hx) hB (by simp only [Block.ids, List.mem_append]; exact .inl h))]; exact hk.1 x hx
          · intro x hx
            rw [enterPhis_other he x (fun h => H.notHere W hl (.inr hx) hB (by simp only [Block.ids, List.mem_append]; exact .inl h))]; exact hk.2 x hx
        have hbd : execBody L (B.sub ((s st.cur).subst tt ff)).body env st.m st.tr = execBody L B.body env st.m st.tr := by
          refine execBody_subst (fun x _ => hk1.subst x) (fun x hx => stay hB x ?_) subst_cases
          simp only [Block.ids, List.mem_append]; exact .inr hx
        simp only
        rw [hbd]
        cases hx : execBody L B.body env st.m st.tr with
        | ub => rfl
        | halt es h => rfl
        | ok env2 m2 es2 =>
          have hk2 : CondKnown s tt ff st.cur env2 := by
            constructor
            · intro x hx'
              rw [execBody_other hx x (fun h => H.notHere W hl (.inl hx') hB (by simp only [Block.ids, List.mem_append]; exact .inr h))]; exact hk1.1 x hx'
            · intro x hx'
              rw [execBody_other hx x (fun h => H.notHere W hl (.inr hx') hB (by simp only [Block.ids, List.mem_append]; exact .inr h))]; exact hk1.2 x hx'
          simp only
          rw [show evalTerm L env2 (B.sub ((s st.cur).subst tt ff)).term = evalTerm L env2 B.term from evalTerm_sub (fun x _ => hk2.subst x)]
  · intro st' hs
    obtain ⟨hp, B, hB, ht⟩ := step_target hs
    have hedge : Edge F st.cur st'.cur := ⟨B, hB, ht⟩
    refine ⟨hl.edge hedge, ?_⟩
    unfold SSA.step at hs
    rw [hB] at hs
    simp only [stepBlk] at hs
    split at hs
    · simp at hs
    · rename_i env he
      split at hs
      · simp at hs
      · simp at hs
      · rename_i env2 m2 es2 hx
        split at hs
        · simp at hs
        · simp at hs
        · rename_i b hgo
          simp only [Sum.inl.injEq] at hs
          subst hs
          simp only at hedge ⊢
          have keep : ∀ x, (Opd.inst x ∈ (s st.cur).ts ∨ Opd.inst x ∈ (s st.cur).fs) → env2 x = st.env x := by
            intro x h
            have hn := H.notHere W hl h hB
            simp only [Block.ids, List.mem_append, not_or] at hn
            rw [execBody_other hx x hn.2, enterPhis_other he x hn.1]
          constructor
          · intro x hxt
            rcases H.ts _ _ hedge _ hxt with h | ⟨_, B', f, hB', htm, hne⟩
            · rw [keep x (.inl h)]; exact hk.1 x h
            · obtain rfl := Option.some.inj (hB'.symm.trans hB)
              rw [htm] at hgo
              simp only [evalTerm, eval] at hgo
              cases hv : env2 x with
              | none => rw [hv] at hgo; simp at hgo
              | some v =>
                rw [hv] at hgo
                simp only [Option.bind_some] at hgo
                cases htr : L.truth v with
                | none => rw [htr] at hgo; simp at hgo
                | some t =>
                  rw [htr] at hgo
                  cases t with
                  | true => rw [hL v true htr]; rfl
                  | false => simp only [Next.goto.injEq] at hgo; exact absurd hgo.symm hne
          · intro x hxt
            rcases H.fs _ _ hedge _ hxt with h | ⟨_, B', f, hB', htm, hne⟩
            · rw [keep x (.inr h)]; exact hk.2 x h
            · obtain rfl := Option.some.inj (hB'.symm.trans hB)
              rw [htm] at hgo
              simp only [evalTerm, eval] at hgo
              cases hv : env2 x with
              | none => rw [hv] at hgo; simp at hgo
              | some v =>
                rw [hv] at hgo
                simp only [Option.bind_some] at hgo
                cases htr : L.truth v with
                | none => rw [htr] at hgo; simp at hgo
                | some t =>
                  rw [htr] at hgo
                  cases t with
                  | true => simp only [Next.goto.injEq] at hgo; exact absurd hgo hne
                  | false => rw [hL v false htr]; rfl

/-- C81: in every language in which a condition is one of the two constants `tt`, `ff`, for every function in SSA form whose entry has no
predecessor, whatever order the hash sets are walked in: `ConditionalPropagation` terminates, the result refines the function, and it is in
SSA form with the same branches (an entry without predecessors included). -/
theorem C81_conditionalPropagation (L : Lang) (tt ff : L.C) (hL : Bools L tt ff) (cord dord : Nat → List Nat → List Nat) (hc : ∀ u l, (cord u l).Perm l) (hd : ∀ u l, (dord u l).Perm l)
    (F : L.F) (W : LiveWf F) (E : EntryFirst F) :
    ∃ G, F.condProp cord dord tt ff = some G ∧ Refines L F G ∧ LiveWf G ∧ EntryFirst G ∧ G.order = F.order ∧ ∀ a b, Edge G a b ↔ Edge F a b := by
  obtain ⟨s, e, H⟩ := condSets_spec hc hd W.toShape E
  unfold Func.condProp
  rw [e]
  refine ⟨_, rfl, ?_, W.subBlocks (fun b x => subst_cases x), fun q h => E q (subBlocks_edge.1 h), rfl, fun a b => subBlocks_edge⟩
  refine refines_lockstep (fun st => Live F st.cur ∧ CondKnown s tt ff st.cur st.env) rfl ?_ ?_
  · intro m
    refine ⟨⟨_, .single _⟩, ?_⟩
    have : (start L F m).cur = F.entry := rfl
    unfold CondKnown
    rw [this, H.entry.1, H.entry.2]
    simp
  · intro st h
    exact .inr (condProp_step H W hL st h.1 h.2)

end
end Cmmc.SSA
