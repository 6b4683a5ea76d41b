import Verif.SSA.InlinePass
import Verif.SSA.CondPropMain
/-!
# Interprocedural passes: changing all functions of a program at once, and how calls change with them
-/
namespace Cmmc.SSA

/-! ## the same change of operands, instructions and terminators in the whole function -/
section
variable {Op C : Type}

/-- a phi with its incoming values changed -/
def Phi.mapO (φ : Opd C → Opd C) (p : Phi C) : Phi C := ⟨p.id, p.inc.map (fun e => (e.1, φ e.2))⟩

/-- an instruction with its operands changed -/
def Inst.mapO (φ : Opd C → Opd C) (i : Inst Op C) : Inst Op C := ⟨i.id, i.op, i.args.map φ⟩

/-- a terminator with its operand changed -/
def Term.mapO (φ : Opd C → Opd C) : Term C → Term C
  | .ret v => .ret (v.map φ)
  | .br t => .br t
  | .cbr c t f => .cbr (φ c) t f
  | .sw c d cs => .sw (φ c) d cs
  | .unreachable => .unreachable

/-- incoming values changed by `φ`, instructions by `γ`, terminators by `θ` -/
def Block.remap (φ : Opd C → Opd C) (γ : Inst Op C → Inst Op C) (θ : Term C → Term C) (B : Block Op C) : Block Op C := ⟨B.phis.map (Phi.mapO φ), B.body.map γ, θ B.term⟩

def Func.remap (φ : Opd C → Opd C) (γ : Inst Op C → Inst Op C) (θ : Term C → Term C) (F : Func Op C) : Func Op C := F.mapBlocks (fun _ B => B.remap φ γ θ)

theorem Term.mapO_args (φ : Opd C → Opd C) (t : Term C) : (t.mapO φ).args = t.args.map φ := by
  cases t with
  | ret v => cases v <;> rfl
  | _ => rfl

theorem Term.mapO_targets (φ : Opd C → Opd C) (t : Term C) : (t.mapO φ).targets = t.targets := by cases t <;> rfl

theorem Phi.mapO_at (φ : Opd C → Opd C) (p : Phi C) (q : Nat) : (p.mapO φ).at q = (p.at q).map φ := by
  unfold Phi.at Phi.mapO
  simp only
  induction p.inc with
  | nil => rfl
  | cons e l ih =>
    simp only [List.map_cons, List.find?_cons]
    split
    · rfl
    · exact ih

theorem Phi.mapO_ops (φ : Opd C → Opd C) (p : Phi C) : (p.mapO φ).ops = p.ops.map φ := by
  unfold Phi.mapO Phi.ops
  simp [Function.comp_def]

/-- what a change must respect for SSA form -/
structure RemapWf (φ : Opd C → Opd C) (γ : Inst Op C → Inst Op C) (θ : Term C → Term C) : Prop where
  phi : ∀ o x, φ o = .inst x → o = .inst x
  id : ∀ i, (γ i).id = i.id
  args : ∀ i x, Opd.inst x ∈ (γ i).args → Opd.inst x ∈ i.args
  targets : ∀ t, (θ t).targets = t.targets
  term : ∀ t x, Opd.inst x ∈ (θ t).args → Opd.inst x ∈ t.args

theorem Block.remap_ids {φ : Opd C → Opd C} {γ : Inst Op C → Inst Op C} {θ : Term C → Term C} (h : ∀ i, (γ i).id = i.id) (B : Block Op C) : (B.remap φ γ θ).ids = B.ids := by
  unfold Block.ids Block.remap Phi.mapO
  simp [Function.comp_def, h]

theorem remap_blk {φ : Opd C → Opd C} {γ : Inst Op C → Inst Op C} {θ : Term C → Term C} {F : Func Op C} {b : Nat} {B : Block Op C} (h : F.blk b = some B) :
    (F.remap φ γ θ).blk b = some (B.remap φ γ θ) := by
  show (F.blk b).map _ = _
  rw [h]; rfl

theorem remap_blk_inv {φ : Opd C → Opd C} {γ : Inst Op C → Inst Op C} {θ : Term C → Term C} {F : Func Op C} {b : Nat} {B' : Block Op C} (h : (F.remap φ γ θ).blk b = some B') :
    ∃ B, F.blk b = some B ∧ B' = B.remap φ γ θ := by
  obtain ⟨B, hB, rfl⟩ := Option.map_eq_some_iff.1 h
  exact ⟨B, hB, rfl⟩

theorem remap_edge {φ : Opd C → Opd C} {γ : Inst Op C → Inst Op C} {θ : Term C → Term C} {F : Func Op C} (ht : ∀ t, (θ t).targets = t.targets) {x y : Nat} :
    Edge (F.remap φ γ θ) x y ↔ Edge F x y := by
  constructor
  · rintro ⟨X, hX, hy⟩
    obtain ⟨Y, hY, rfl⟩ := remap_blk_inv hX
    exact ⟨Y, hY, by have : y ∈ (θ Y.term).targets := hy
                     rwa [ht] at this⟩
  · rintro ⟨Y, hY, hy⟩
    refine ⟨_, remap_blk hY, ?_⟩
    show y ∈ (θ Y.term).targets
    rwa [ht]

theorem InOrder.remap {φ : Opd C → Opd C} {γ : Inst Op C → Inst Op C} {θ : Term C → Term C} (R : RemapWf φ γ θ) {B : Block Op C} (h : InOrder B) : InOrder (B.remap φ γ θ) := by
  have hpid : (B.remap φ γ θ).phis.map Phi.id = B.phis.map Phi.id := by simp [Block.remap, Phi.mapO, Function.comp_def]
  have hbid : ∀ l : List (Inst Op C), (l.map γ).map Inst.id = l.map Inst.id := by intro l; simp [Function.comp_def, R.id]
  constructor
  · intro pre i post e x hx hin
    obtain ⟨l1, l2, e1, rfl, e2⟩ := List.map_eq_append_iff.1 (show B.body.map γ = pre ++ i :: post from e)
    obtain ⟨i0, l3, rfl, rfl, rfl⟩ := List.map_eq_cons_iff.1 e2
    rw [hpid, hbid]
    rw [Block.remap_ids R.id] at hin
    exact h.1 l1 i0 l3 e1 x (R.args _ _ hx) hin
  · intro x hx hin
    rw [hpid]
    show _ ∨ x ∈ (B.body.map γ).map Inst.id
    rw [hbid]
    rw [Block.remap_ids R.id] at hin
    exact h.2 x (R.term _ _ hx) hin

/-- such a change keeps SSA form -/
theorem LiveWf.remap {F : Func Op C} (W : LiveWf F) {φ : Opd C → Opd C} {γ : Inst Op C → Inst Op C} {θ : Term C → Term C} (R : RemapWf φ γ θ) : LiveWf (F.remap φ γ θ) := by
  have hpath : ∀ {a b l}, Dom.Path (Edge (F.remap φ γ θ)) a b l ↔ Dom.Path (Edge F) a b l :=
    ⟨fun h => path_mono (fun _ _ e => (remap_edge R.targets).1 e) h, fun h => path_mono (fun _ _ e => (remap_edge R.targets).2 e) h⟩
  have hlive : ∀ b, Live (F.remap φ γ θ) b ↔ Live F b := by
    intro b
    constructor
    · rintro ⟨l, h⟩; exact ⟨l, hpath.1 h⟩
    · rintro ⟨l, h⟩; exact ⟨l, hpath.2 h⟩
  have hdom : ∀ a b, Domi F a b → Domi (F.remap φ γ θ) a b := fun a b h l hl => h l (hpath.1 hl)
  have hdef : ∀ x b, DefIn F x b → DefIn (F.remap φ γ θ) x b := by
    rintro x b ⟨B, hB, hx⟩
    exact ⟨_, remap_blk hB, by rw [Block.remap_ids R.id]; exact hx⟩
  have hphi : ∀ {B : Block Op C} {p : Phi C}, p ∈ (B.remap φ γ θ).phis → ∃ p0 ∈ B.phis, p = p0.mapO φ := by
    intro B p h
    obtain ⟨p0, h0, rfl⟩ := List.mem_map.1 (show p ∈ B.phis.map (Phi.mapO φ) from h)
    exact ⟨p0, h0, rfl⟩
  have hinc : ∀ {q v} {p0 : Phi C}, (q, v) ∈ (p0.mapO φ).inc → ∃ v0, (q, v0) ∈ p0.inc ∧ v = φ v0 := by
    intro q v p0 h
    obtain ⟨⟨q', v'⟩, h0, e⟩ := List.mem_map.1 (show (q, v) ∈ p0.inc.map (fun e => (e.1, φ e.2)) from h)
    simp only [Prod.mk.injEq] at e
    obtain ⟨rfl, rfl⟩ := e
    exact ⟨v', h0, rfl⟩
  have hinc' : ∀ {q v0} {p0 : Phi C}, (q, v0) ∈ p0.inc → (q, φ v0) ∈ (p0.mapO φ).inc := by
    intro q v0 p0 h
    exact List.mem_map.2 ⟨(q, v0), h, rfl⟩
  refine { nodup := W.nodup, listed := ?_, total := ?_, entryIn := W.entryIn, closed := ?_, unique := ?_, entryPhis := ?_, inOrder := ?_, use := ?_, phiUse := ?_, phiPred := ?_, phiAll := ?_, phiDead := ?_ }
  · intro b B' h
    obtain ⟨B, hB, _⟩ := remap_blk_inv h
    exact W.listed b B hB
  · intro b hb
    obtain ⟨B, hB⟩ := W.total b hb
    exact ⟨_, remap_blk hB⟩
  · intro a b e; exact W.closed a b ((remap_edge R.targets).1 e)
  · have : (F.remap φ γ θ).allIds = F.allIds := by
      rw [allIds_eq, allIds_eq]
      show F.order.flatMap _ = F.order.flatMap _
      congr 1
      funext b
      show (match (F.blk b).map (fun B => B.remap φ γ θ) with | some B => B.ids | none => []) = _
      cases hB : F.blk b with
      | none => rfl
      | some B => exact Block.remap_ids R.id B
    rw [this]; exact W.unique
  · intro B' h
    obtain ⟨B, hB, rfl⟩ := remap_blk_inv h
    show B.phis.map _ = []
    rw [W.entryPhis B hB]; rfl
  · intro b B' h hl
    obtain ⟨B, hB, rfl⟩ := remap_blk_inv h
    exact (W.inOrder b B hB ((hlive b).1 hl)).remap R
  · intro b B' x h hl hx
    obtain ⟨B, hB, rfl⟩ := remap_blk_inv h
    have hx' : (∃ i ∈ B.body, Opd.inst x ∈ i.args) ∨ Opd.inst x ∈ B.term.args := by
      rcases hx with ⟨i, hi, hx⟩ | hx
      · obtain ⟨i0, hi0, rfl⟩ := List.mem_map.1 (show i ∈ B.body.map γ from hi)
        exact .inl ⟨i0, hi0, R.args _ _ hx⟩
      · exact .inr (R.term _ _ hx)
    obtain ⟨d, h1, h2⟩ := W.use b B x hB ((hlive b).1 hl) hx'
    exact ⟨d, hdef x d h1, hdom d b h2⟩
  · intro b B' p q x h hl hpm hx hlq
    obtain ⟨B, hB, rfl⟩ := remap_blk_inv h
    obtain ⟨p0, h0, rfl⟩ := hphi hpm
    obtain ⟨v0, hv0, e⟩ := hinc hx
    have := R.phi _ _ e.symm
    subst this
    obtain ⟨d, h1, h2⟩ := W.phiUse b B p0 q x hB ((hlive b).1 hl) h0 hv0 ((hlive q).1 hlq)
    exact ⟨d, hdef x d h1, hdom d q h2⟩
  · intro b B' p h hl hpm q v hv
    obtain ⟨B, hB, rfl⟩ := remap_blk_inv h
    obtain ⟨p0, h0, rfl⟩ := hphi hpm
    obtain ⟨v0, hv0, _⟩ := hinc hv
    exact (remap_edge R.targets).2 (W.phiPred b B p0 hB ((hlive b).1 hl) h0 q v0 hv0)
  · intro b B' p q h hl hpm e hlq
    obtain ⟨B, hB, rfl⟩ := remap_blk_inv h
    obtain ⟨p0, h0, rfl⟩ := hphi hpm
    obtain ⟨v, hv⟩ := W.phiAll b B p0 q hB ((hlive b).1 hl) h0 ((remap_edge R.targets).1 e) ((hlive q).1 hlq)
    exact ⟨_, hinc' hv⟩
  · intro b B' p p' q v h hl hpm hpm' hv
    obtain ⟨B, hB, rfl⟩ := remap_blk_inv h
    obtain ⟨p0, h0, rfl⟩ := hphi hpm
    obtain ⟨p1, h1, rfl⟩ := hphi hpm'
    obtain ⟨v0, hv0, _⟩ := hinc hv
    obtain ⟨v', hv'⟩ := W.phiDead b B p0 p1 q v0 hB ((hlive b).1 hl) h0 h1 hv0
    exact ⟨_, hinc' hv'⟩

end

/-! ## runs of the old and the new function -/
section
variable {L : Lang} {c1 c2 : L.C → L.V} {s1 s2 : L.Op → List L.V → L.M → Res L.V L.M L.E L.H}

/-- results that agree, except for the value if `k` -/
def ResK (k : Prop) : Res L.V L.M L.E L.H → Res L.V L.M L.E L.H → Prop
  | .ok v m es, r' => ∃ v', r' = .ok v' m es ∧ (k ∨ v' = v)
  | .halt es h, r' => r' = .halt es h
  | .ub, _ => True

def NextK (R : Option L.V → Option L.V → Prop) : Next (L.upd c1 s1) → Next (L.upd c2 s2) → Prop
  | .goto b, n => n = .goto b
  | .ret v, n => ∃ v', n = .ret v' ∧ R v v'
  | .ub, _ => True

def BehK (R : Option L.V → Option L.V → Prop) : Beh (L.upd c1 s1) → Beh (L.upd c2 s2) → Prop
  | .ret v m tr, r => ∃ v', r = .ret v' m tr ∧ R v v'
  | .halt h tr, r => r = .halt h tr
  | .ub, _ => True

/-- what the new function must do where the old one is defined; `K` are the instructions whose values may differ -/
structure Remap (c1 c2 : L.C → L.V) (s1 s2 : L.Op → List L.V → L.M → Res L.V L.M L.E L.H) (K : Nat → Prop) (R : Option L.V → Option L.V → Prop) (F : L.F) (φ : Opd L.C → Opd L.C)
    (γ : Inst L.Op L.C → Inst L.Op L.C) (θ : Term L.C → Term L.C) : Prop where
  phi : ∀ b B p q o, F.blk b = some B → p ∈ B.phis → (q, o) ∈ p.inc → ∀ (e e' : Env L), AgreeK (L := L) K e e' → ∀ v, eval (L.upd c1 s1) e o = some v → eval (L.upd c2 s2) e' (φ o) = some v
  id : ∀ b B i, F.blk b = some B → i ∈ B.body → (γ i).id = i.id
  inst : ∀ b B i, F.blk b = some B → i ∈ B.body → ∀ (e e' : Env L), AgreeK (L := L) K e e' → ∀ vs m, evals (L.upd c1 s1) e i.args = some vs → s1 i.op vs m ≠ .ub →
    ∃ vs', evals (L.upd c2 s2) e' (γ i).args = some vs' ∧ ResK (L := L) (K i.id) (s1 i.op vs m) (s2 (γ i).op vs' m)
  term : ∀ b B, F.blk b = some B → ∀ (e e' : Env L), AgreeK (L := L) K e e' → NextK R (evalTerm (L.upd c1 s1) e B.term) (evalTerm (L.upd c2 s2) e' (θ B.term))

variable {K : Nat → Prop} {R : Option L.V → Option L.V → Prop} {F : L.F} {φ : Opd L.C → Opd L.C} {γ : Inst L.Op L.C → Inst L.Op L.C} {θ : Term L.C → Term L.C}

theorem agreeK_set {e e' : Env L} (h : AgreeK (L := L) K e e') {i : Nat} {v v' : L.V} (hv : K i ∨ v' = v) : AgreeK (L := L) K (setEnv L e i v) (setEnv L e' i v') := by
  intro x hx
  unfold setEnv
  split
  · rename_i hxi
    subst hxi
    rcases hv with hv | hv
    · exact absurd hv hx
    · rw [hv]
  · exact h x hx

theorem remap_phis {pred : Option Nat} {old old' : Env L} (hold : AgreeK (L := L) K old old') : ∀ {ps : List (Phi L.C)},
    (∀ p ∈ ps, ∀ q o, (q, o) ∈ p.inc → ∀ (e e' : Env L), AgreeK (L := L) K e e' → ∀ v, eval (L.upd c1 s1) e o = some v → eval (L.upd c2 s2) e' (φ o) = some v) →
    ∀ {e e' r : Env L}, AgreeK (L := L) K e e' → enterPhis (L.upd c1 s1) pred old ps e = some r →
    ∃ r', enterPhis (L.upd c2 s2) pred old' (ps.map (Phi.mapO φ)) e' = some r' ∧ AgreeK (L := L) K r r' := by
  intro ps
  induction ps with
  | nil =>
    intro _ e e' r he h
    simp only [enterPhis, Option.some.injEq] at h
    exact ⟨e', rfl, h ▸ he⟩
  | cons p ps ih =>
    intro hp e e' r he h
    simp only [enterPhis] at h
    cases hv : phiVal (L.upd c1 s1) pred old p with
    | none => rw [hv] at h; simp at h
    | some v =>
      rw [hv] at h
      simp only at h
      have hv' : phiVal (L.upd c2 s2) pred old' (p.mapO φ) = some v := by
        cases pred with
        | none => simp [phiVal] at hv
        | some q =>
          simp only [phiVal] at hv ⊢
          rw [Phi.mapO_at]
          cases ho : p.at q with
          | none => rw [ho] at hv; simp at hv
          | some o =>
            rw [ho] at hv
            exact hp p (by simp) q o (Phi.at_mem ho) old old' hold v hv
      obtain ⟨r', h1, h2⟩ := ih (fun p hp' => hp p (by simp [hp'])) (agreeK_set he (i := p.id) (v := v) (v' := v) (.inr rfl)) h
      refine ⟨r', ?_, h2⟩
      simp only [List.map_cons, enterPhis]
      rw [hv']
      exact h1

theorem remap_body : ∀ {is : List (Inst L.Op L.C)}, (∀ i ∈ is, (γ i).id = i.id ∧ ∀ (e e' : Env L), AgreeK (L := L) K e e' → ∀ vs m, evals (L.upd c1 s1) e i.args = some vs → s1 i.op vs m ≠ .ub →
      ∃ vs', evals (L.upd c2 s2) e' (γ i).args = some vs' ∧ ResK (L := L) (K i.id) (s1 i.op vs m) (s2 (γ i).op vs' m)) →
    ∀ {e e' : Env L} {m : L.M} {es : List L.E}, AgreeK (L := L) K e e' →
    match execBody (L.upd c1 s1) is e m es with
    | .ok r m' es' => ∃ r', execBody (L.upd c2 s2) (is.map γ) e' m es = .ok r' m' es' ∧ AgreeK (L := L) K r r'
    | .halt es' h => execBody (L.upd c2 s2) (is.map γ) e' m es = .halt es' h
    | .ub => True := by
  intro is
  induction is with
  | nil => intro _ e e' m es he; exact ⟨e', rfl, he⟩
  | cons i is ih =>
    intro hi e e' m es he
    simp only [execBody, List.map_cons]
    cases hv : evals (L.upd c1 s1) e i.args with
    | none => trivial
    | some vs =>
      simp only
      by_cases hu : s1 i.op vs m = .ub
      · rw [hu]; trivial
      · obtain ⟨hid, hi1⟩ := hi i (by simp)
        obtain ⟨vs', h1, h2⟩ := hi1 e e' he vs m hv hu
        rw [h1]
        simp only
        cases hs : s1 i.op vs m with
        | ub => exact absurd hs hu
        | halt es' h => rw [hs] at h2; rw [show s2 (γ i).op vs' m = _ from h2]
        | ok v m' es' =>
          rw [hs] at h2
          obtain ⟨v', h3, h4⟩ := h2
          rw [h3]
          simp only
          rw [hid]
          exact ih (fun i hi' => hi i (by simp [hi'])) (agreeK_set he h4)

theorem Remap.step (H : Remap c1 c2 s1 s2 K R F φ γ θ) (pred : Option Nat) (cur : Nat) {e e' : Env L} (he : AgreeK (L := L) K e e') (m : L.M) (tr : List L.E) :
    match SSA.step (L.upd c1 s1) F ⟨pred, cur, e, m, tr⟩ with
    | .inl s => ∃ r' : Env L, SSA.step (L.upd c2 s2) (F.remap φ γ θ) ⟨pred, cur, e', m, tr⟩ = .inl ⟨s.pred, s.cur, r', s.m, s.tr⟩ ∧ AgreeK (L := L) K s.env r'
    | .inr r => r ≠ .ub → ∃ r', SSA.step (L.upd c2 s2) (F.remap φ γ θ) ⟨pred, cur, e', m, tr⟩ = .inr r' ∧ BehK R r r' := by
  unfold SSA.step
  simp only
  cases hB : F.blk cur with
  | none => intro h; exact absurd rfl h
  | some B =>
    rw [remap_blk hB]
    simp only
    unfold stepBlk
    simp only
    cases hp : enterPhis (L.upd c1 s1) pred e B.phis e with
    | none => intro h; exact absurd rfl h
    | some e1 =>
      obtain ⟨e1', h1, h2⟩ := remap_phis (c2 := c2) (s2 := s2) (φ := φ) he (fun p hp q o ho => H.phi cur B p q o hB hp ho) he hp
      rw [show enterPhis (L.upd c2 s2) pred e' (B.remap φ γ θ).phis e' = some e1' from h1]
      simp only
      have hb := remap_body (K := K) (c1 := c1) (c2 := c2) (s1 := s1) (s2 := s2) (γ := γ) (is := B.body) (fun i hi => ⟨H.id cur B i hB hi, H.inst cur B i hB hi⟩) (m := m) (es := tr) h2
      rw [show (B.remap φ γ θ).body = B.body.map γ from rfl, show (B.remap φ γ θ).term = θ B.term from rfl]
      cases hx : execBody (L.upd c1 s1) B.body e1 m tr with
      | ub => intro h; exact absurd rfl h
      | halt es h => rw [hx] at hb; simp only at hb; rw [hb]; intro _; exact ⟨_, rfl, rfl⟩
      | ok e2 m' es =>
        rw [hx] at hb
        obtain ⟨e2', h3, h4⟩ := hb
        rw [h3]
        simp only
        have ht := H.term cur B hB e2 e2' h4
        cases hn : evalTerm (L.upd c1 s1) e2 B.term with
        | ub => intro h; exact absurd rfl h
        | goto b => rw [hn] at ht; rw [show evalTerm (L.upd c2 s2) e2' (θ B.term) = _ from ht]; exact ⟨e2', rfl, h4⟩
        | ret v =>
          rw [hn] at ht
          obtain ⟨v', h5, h6⟩ := ht
          rw [h5]
          intro _
          exact ⟨_, rfl, v', rfl, h6⟩

theorem Remap.run (H : Remap c1 c2 s1 s2 K R F φ γ θ) : ∀ (n : Nat) (pred : Option Nat) (cur : Nat) (e e' : Env L) (m : L.M) (tr : List L.E) (r : Beh (L.upd c1 s1)), AgreeK (L := L) K e e' →
    SSA.run (L.upd c1 s1) F n ⟨pred, cur, e, m, tr⟩ = .inr r → r ≠ .ub → ∃ r', SSA.run (L.upd c2 s2) (F.remap φ γ θ) n ⟨pred, cur, e', m, tr⟩ = .inr r' ∧ BehK R r r' := by
  intro n
  induction n with
  | zero => intro pred cur e e' m tr r _ h; simp [SSA.run] at h
  | succ n ih =>
    intro pred cur e e' m tr r he h hr
    have hst := H.step pred cur he m tr
    simp only [SSA.run] at h ⊢
    cases hs1 : SSA.step (L.upd c1 s1) F ⟨pred, cur, e, m, tr⟩ with
    | inl s =>
      rw [hs1] at h hst
      simp only at h hst
      obtain ⟨e1, h1, h2⟩ := hst
      rw [h1]
      exact ih _ _ _ _ _ _ r h2 h hr
    | inr r0 =>
      rw [hs1] at h hst
      simp only [Sum.inr.injEq] at h hst
      subst h
      obtain ⟨r', h1, h2⟩ := hst hr
      rw [h1]
      exact ⟨r', rfl, h2⟩

theorem Remap.ends (H : Remap c1 c2 s1 s2 K R F φ γ θ) {m : L.M} {r : Beh (L.upd c1 s1)} (h : Ends (L.upd c1 s1) F m r) (hr : r ≠ .ub) :
    ∃ r', Ends (L.upd c2 s2) (F.remap φ γ θ) m r' ∧ BehK R r r' := by
  obtain ⟨n, h⟩ := h
  obtain ⟨r', h1, h2⟩ := H.run n _ _ _ (fun _ => none) _ _ r (fun _ _ => rfl) h hr
  exact ⟨r', ⟨n, h1⟩, h2⟩

end

/-! ## programs -/
section
variable {L : Lang} {V : Conv L}

/-- the values of constants and parameters in a call with arguments `vs` -/
def Conv.cvals (V : Conv L) (vs : List L.V) (c : L.C) : L.V := match V.param c with | some j => (vs[j]?).getD (L.cval c) | none => L.cval c

/-- agreement of what is returned, except for the value if `k` -/
def Conv.RetK (V : Conv L) (k : Prop) (v v' : Option L.V) : Prop := k ∨ v'.getD V.void = v.getD V.void

theorem Conv.remap_invoke {k : Prop} {cs1 cs2 : CallSem L} {vs vs' : List L.V} {F : L.F} {K : Nat → Prop} {φ : Opd L.C → Opd L.C} {γ : Inst L.Op L.C → Inst L.Op L.C} {θ : Term L.C → Term L.C}
    (H : Remap (V.cvals vs) (V.cvals vs') (V.sem cs1) (V.sem cs2) K (V.RetK k) F φ γ θ) (m : L.M) : ResK (L := L) k (V.invoke cs1 F vs m) (V.invoke cs2 (F.remap φ γ θ) vs' m) := by
  by_cases hu : V.invoke cs1 F vs m = .ub
  · rw [hu]; trivial
  · obtain ⟨b, hb, hne, he⟩ := Conv.invoke_ends hu
    obtain ⟨b', hb', hr⟩ := H.ends hb hne
    rw [Conv.invoke_eq hb', he]
    cases b with
    | ub => exact absurd rfl hne
    | halt h es => rw [show b' = .halt h es from hr]; rfl
    | ret v mc es =>
      obtain ⟨v', rfl, h2⟩ := hr
      exact ⟨_, rfl, h2⟩

/-- **Changing a whole program.** `A g vs vs'`: the calls of `g` with `vs` in the old program are calls with `vs'` in the new one; `k g`: nobody needs the value of calls of `g`. -/
theorem Conv.remap_program {P P' : Nat → Option L.F} (A : Nat → List L.V → List L.V → Prop) (k : Nat → Prop) (φ : Nat → Opd L.C → Opd L.C) (γ : Nat → Inst L.Op L.C → Inst L.Op L.C)
    (θ : Nat → Term L.C → Term L.C) (K : Nat → Nat → Prop) (hP : ∀ f F, P f = some F → P' f = some (F.remap (φ f) (γ f) (θ f)))
    (h : ∀ f F, P f = some F → ∀ cs1 cs2 : CallSem L, (∀ g vs vs' m, A g vs vs' → ResK (L := L) (k g) (cs1 g vs m) (cs2 g vs' m)) → ∀ vs vs', A f vs vs' →
      Remap (V.cvals vs) (V.cvals vs') (V.sem cs1) (V.sem cs2) (K f) (V.RetK (k f)) F (φ f) (γ f) (θ f)) :
    ∀ d g vs vs' m, A g vs vs' → ResK (L := L) (k g) (V.call P d g vs m) (V.call P' d g vs' m) := by
  intro d
  induction d with
  | zero => intro g vs vs' m _; trivial
  | succ d ih =>
    intro g vs vs' m hA
    simp only [Conv.call]
    cases hG : P g with
    | none => trivial
    | some G =>
      rw [hP g G hG]
      exact Conv.remap_invoke (h g G hG _ _ ih vs vs' hA) m

theorem ResK.eq {r r' : Res L.V L.M L.E L.H} (h : ResK (L := L) False r r') (hu : r ≠ .ub) : r' = r := by
  cases r with
  | ub => exact absurd rfl hu
  | halt es h' => exact h
  | ok v m es =>
    obtain ⟨v', h1, h2⟩ := h
    rw [h1, h2.resolve_left id]

theorem ResK.refl (k : Prop) (r : Res L.V L.M L.E L.H) : ResK (L := L) k r r := by
  cases r with
  | ub => trivial
  | halt es h' => rfl
  | ok v m es => exact ⟨v, rfl, .inr rfl⟩


end

/-! ## operands changed so that they keep their values -/
section
variable {L : Lang} {c1 c2 : L.C → L.V} {s1 s2 : L.Op → List L.V → L.M → Res L.V L.M L.E L.H} {φ : Opd L.C → Opd L.C} {e e' : Env L}

theorem evals_mapO : ∀ {os : List (Opd L.C)} {vs : List L.V}, (∀ o ∈ os, ∀ v, eval (L.upd c1 s1) e o = some v → eval (L.upd c2 s2) e' (φ o) = some v) → evals (L.upd c1 s1) e os = some vs →
    evals (L.upd c2 s2) e' (os.map φ) = some vs := by
  intro os
  induction os with
  | nil => intro vs _ h; exact h
  | cons o os ih =>
    intro vs ho h
    simp only [evals] at h
    cases h1 : eval (L.upd c1 s1) e o with
    | none => rw [h1] at h; simp at h
    | some v =>
      cases h2 : evals (L.upd c1 s1) e os with
      | none => rw [h1, h2] at h; simp at h
      | some ws =>
        rw [h1, h2] at h
        simp only [List.map_cons, evals]
        rw [ho o (by simp) v h1, ih (fun o ho' => ho o (by simp [ho'])) h2]
        exact h

theorem nextK_mapO {R : Option L.V → Option L.V → Prop} (hR : ∀ v, R v v) {t : Term L.C} (ho : ∀ o ∈ t.args, ∀ v, eval (L.upd c1 s1) e o = some v → eval (L.upd c2 s2) e' (φ o) = some v) :
    NextK R (evalTerm (L.upd c1 s1) e t) (evalTerm (L.upd c2 s2) e' (t.mapO φ)) := by
  cases t with
  | ret v =>
    cases v with
    | none => exact ⟨none, rfl, hR _⟩
    | some o =>
      simp only [evalTerm, Term.mapO, Option.map_some]
      cases h : eval (L.upd c1 s1) e o with
      | none => trivial
      | some v => rw [ho o (by simp [Term.args]) v h]; exact ⟨some v, rfl, hR _⟩
  | br t => rfl
  | cbr c t f =>
    simp only [evalTerm, Term.mapO]
    cases h : eval (L.upd c1 s1) e c with
    | none => trivial
    | some v =>
      rw [ho c (by simp [Term.args]) v h]
      simp only [Option.bind_some]
      cases L.truth v with
      | none => trivial
      | some x => cases x <;> rfl
  | sw c d cs =>
    simp only [evalTerm, Term.mapO]
    cases h : eval (L.upd c1 s1) e c with
    | none => trivial
    | some v =>
      rw [ho c (by simp [Term.args]) v h]
      simp only [Option.bind_some]
      cases L.key v with
      | none => trivial
      | some x =>
        simp only
        cases cs.find? (fun e => e.1 == x) <;> rfl
  | unreachable => trivial

theorem evals_getElem {os : List (Opd L.C)} {vs : List L.V} (h : evals (L.upd c1 s1) e os = some vs) {j : Nat} {o : Opd L.C} (hj : os[j]? = some o) : ∃ v, vs[j]? = some v ∧ eval (L.upd c1 s1) e o = some v := by
  induction os generalizing vs j with
  | nil => simp at hj
  | cons a os ih =>
    simp only [evals] at h
    cases h1 : eval (L.upd c1 s1) e a with
    | none => rw [h1] at h; simp at h
    | some v =>
      cases h2 : evals (L.upd c1 s1) e os with
      | none => rw [h1, h2] at h; simp at h
      | some ws =>
        rw [h1, h2] at h
        simp only [Option.some.injEq] at h
        subst h
        cases j with
        | zero => simp only [List.getElem?_cons_zero, Option.some.injEq] at hj ⊢; subst hj; exact ⟨v, rfl, h1⟩
        | succ j => simp only [List.getElem?_cons_succ] at hj ⊢; exact ih h2 hj

end

/-! ## programs that fit their declarations -/
section
variable {Op C : Type}

theorem mem_remap_opds {φ : Opd C → Opd C} {γ : Inst Op C → Inst Op C} {θ : Term C → Term C} {B : Block Op C} {o : Opd C} (h : o ∈ (B.remap φ γ θ).opds) :
    (∃ p ∈ B.phis, ∃ o0 ∈ p.ops, o = φ o0) ∨ (∃ i ∈ B.body, o ∈ (γ i).args) ∨ o ∈ (θ B.term).args := by
  unfold Block.opds Block.remap at h
  simp only [List.mem_append, List.mem_flatMap, List.mem_map] at h
  rcases h with (⟨p, ⟨p0, hp0, rfl⟩, ho⟩ | ⟨i, ⟨i0, hi0, rfl⟩, ho⟩) | h
  · rw [Phi.mapO_ops] at ho
    obtain ⟨o0, h0, rfl⟩ := List.mem_map.1 ho
    exact .inl ⟨p0, hp0, o0, h0, rfl⟩
  · exact .inr (.inl ⟨i0, hi0, ho⟩)
  · exact .inr (.inr h)

theorem mem_opds_ops {X : Block Op C} {p : Phi C} {o : Opd C} (hp : p ∈ X.phis) (ho : o ∈ p.ops) : o ∈ X.opds := by
  obtain ⟨q, hq⟩ := mem_ops.1 ho
  exact mem_opds_phi hp hq

theorem RemapWf.opds {φ : Opd C → Opd C} {γ : Inst Op C → Inst Op C} {θ : Term C → Term C} (R : RemapWf φ γ θ) {B : Block Op C} {x : Nat} (h : Opd.inst x ∈ (B.remap φ γ θ).opds) : Opd.inst x ∈ B.opds := by
  rcases mem_remap_opds h with ⟨p, hp, o, ho, e⟩ | ⟨i, hi, ho⟩ | h
  · have := R.phi _ _ e.symm
    subst this
    exact mem_opds_ops hp ho
  · exact mem_opds_use (.inl ⟨i, hi, R.args _ _ ho⟩)
  · exact mem_opds_use (.inr (R.term _ _ h))

/-- the same change of all operands -/
theorem remapWf_mapO {φ : Opd C → Opd C} (h : ∀ o x, φ o = .inst x → o = .inst x) : RemapWf φ (Inst.mapO (Op := Op) φ) (Term.mapO φ) where
  phi := h
  id := fun _ => rfl
  args := by
    intro i x hx
    obtain ⟨o, ho, e⟩ := List.mem_map.1 (show Opd.inst x ∈ i.args.map φ from hx)
    exact h o x e ▸ ho
  targets := Term.mapO_targets φ
  term := by
    intro t x hx
    rw [Term.mapO_args] at hx
    obtain ⟨o, ho, e⟩ := List.mem_map.1 hx
    exact h o x e ▸ ho

end
end Cmmc.SSA
