import Verif.SSA.Mem2Reg
/-!
# What the inserted phis and the replacements of ScalarMem2Reg mean

`Val a b j o`: whenever control is at point `(b, j)`, the operand `o` has the value stored in slot `a` (if anything has been stored).
`Cert`: the function `G` is `F` with new phis `Φ` (phi, variable, block) and uses replaced along `E`, each replacement justified.
-/
namespace Cmmc.SSA

section
variable {Op C : Type}

/-- instruction `i` changes slot `a` -/
def Writes (kind : Op → Kind) (i : Inst Op C) (a : Nat) : Prop := i.id = a ∨ (kind i.op = .store ∧ i.args[0]? = some (.inst a))

/-- `o` is the content of slot `a` at point `(b, j)` -/
inductive Val (kind : Op → Kind) (F : Func Op C) (Φ : List (Nat × Nat × Nat)) (E : List (Nat × Opd C)) : Nat → Nat → Nat → Opd C → Prop
  | store {a b j B i o} : F.blk b = some B → B.body[j]? = some i → kind i.op = .store → i.args[0]? = some (.inst a) → i.args[1]? = some o →
      Val kind F Φ E a b (j + 1) o
  | alloca {a b j B i c} : F.blk b = some B → B.body[j]? = some i → i.id = a → Val kind F Φ E a b (j + 1) (.cst c)
  | keep {a b j B i o} : Val kind F Φ E a b j o → F.blk b = some B → B.body[j]? = some i → ¬ Writes kind i a → Val kind F Φ E a b (j + 1) o
  | phi {x a b} : (x, a, b) ∈ Φ → Val kind F Φ E a b 0 (.inst x)
  | single {a b q Q o} : (∀ p, Edge F p b ↔ p = q) → b ≠ F.entry → F.blk q = some Q → Val kind F Φ E a q Q.body.length o → Val kind F Φ E a b 0 o
  | repl {a b j x o} : Val kind F Φ E a b j (.inst x) → (x, o) ∈ E → Val kind F Φ E a b j o

/-- `o'` is `o` after some replacements -/
inductive Rep (E : List (Nat × Opd C)) : Opd C → Opd C → Prop
  | refl (o) : Rep E o o
  | step {o x o'} : Rep E o (.inst x) → (x, o') ∈ E → Rep E o o'

theorem Rep.mono {E E' : List (Nat × Opd C)} (h : ∀ e ∈ E, e ∈ E') {o o' : Opd C} (r : Rep E o o') : Rep E' o o' := by
  induction r with
  | refl => exact .refl _
  | step _ h' ih => exact .step ih (h _ h')

theorem Val.mono {kind : Op → Kind} {F : Func Op C} {Φ Φ' : List (Nat × Nat × Nat)} {E E' : List (Nat × Opd C)} (hΦ : ∀ e ∈ Φ, e ∈ Φ') (hE : ∀ e ∈ E, e ∈ E')
    {a b j : Nat} {o : Opd C} (h : Val kind F Φ E a b j o) : Val kind F Φ' E' a b j o := by
  induction h with
  | store h1 h2 h3 h4 h5 => exact .store h1 h2 h3 h4 h5
  | alloca h1 h2 h3 => exact .alloca h1 h2 h3
  | keep _ h1 h2 h3 ih => exact .keep ih h1 h2 h3
  | phi h => exact .phi (hΦ _ h)
  | single h1 h2 h3 _ ih => exact .single h1 h2 h3 ih
  | repl _ h ih => exact .repl ih (hE _ h)

theorem Val.rep {kind : Op → Kind} {F : Func Op C} {Φ : List (Nat × Nat × Nat)} {E : List (Nat × Opd C)}
    {a b j : Nat} {o o' : Opd C} (h : Val kind F Φ E a b j o) (r : Rep E o o') : Val kind F Φ E a b j o' := by
  induction r with
  | refl => exact h
  | step _ h' ih => exact .repl ih h'

/-- `x` is computed in block `d` -/
def Home (F : Func Op C) (Φ : List (Nat × Nat × Nat)) (x d : Nat) : Prop := DefIn F x d ∨ ∃ a, (x, a, d) ∈ Φ

/-- `x` has been computed at point `(b, j)` -/
def Av (F : Func Op C) (Φ : List (Nat × Nat × Nat)) (b j x : Nat) : Prop := Avail F b j x ∨ ∃ a d, (x, a, d) ∈ Φ ∧ Domi F d b

def AvO (F : Func Op C) (Φ : List (Nat × Nat × Nat)) (b j : Nat) (o : Opd C) : Prop := ∀ x, o = .inst x → Av F Φ b j x

/-- `o` is computed in a block strictly dominating `b` -/
def Above (F : Func Op C) (Φ : List (Nat × Nat × Nat)) (b : Nat) (o : Opd C) : Prop := ∀ x, o = .inst x → ∃ d, Home F Φ x d ∧ d ≠ b ∧ Domi F d b

/-- terminators with replaced operands -/
inductive TermRel (E : List (Nat × Opd C)) : Term C → Term C → Prop
  | ret : TermRel E (.ret none) (.ret none)
  | retv {o o'} : Rep E o o' → TermRel E (.ret (some o)) (.ret (some o'))
  | br {t} : TermRel E (.br t) (.br t)
  | cbr {o o' t f} : Rep E o o' → TermRel E (.cbr o t f) (.cbr o' t f)
  | sw {o o' d cs} : Rep E o o' → TermRel E (.sw o d cs) (.sw o' d cs)
  | unreachable : TermRel E .unreachable .unreachable

def InstRel (E : List (Nat × Opd C)) (i i' : Inst Op C) : Prop := i'.id = i.id ∧ i'.op = i.op ∧ List.Forall₂ (Rep E) i.args i'.args

def PhiRep (E : List (Nat × Opd C)) (p p' : Phi C) : Prop := p'.id = p.id ∧ List.Forall₂ (fun e e' => e'.1 = e.1 ∧ Rep E e.2 e'.2) p.inc p'.inc

/-- the new phis of a block -/
def newAt (Φ : List (Nat × Nat × Nat)) (b : Nat) : List Nat := (Φ.filter (fun e => e.2.2 = b)).map Prod.fst

/-- the operands of a new phi for variable `a` in block `b` -/
structure NewOk (kind : Op → Kind) (F : Func Op C) (Φ : List (Nat × Nat × Nat)) (E : List (Nat × Opd C)) (a b : Nat) (p : Phi C) : Prop where
  ops : ∀ q o, (q, o) ∈ p.inc → Edge F q b ∧ ∀ Q, F.blk q = some Q → Val kind F Φ E a q Q.body.length o
  keys : (p.inc.map Prod.fst).Nodup

structure BlkCert (kind : Op → Kind) (F : Func Op C) (Φ : List (Nat × Nat × Nat)) (E : List (Nat × Opd C)) (b : Nat) (B B' : Block Op C) : Prop where
  body : List.Forall₂ (InstRel E) B.body B'.body
  term : TermRel E B.term B'.term
  phis : ∃ N ps, B'.phis = N ++ ps ∧ List.Forall₂ (PhiRep E) B.phis ps ∧ N.map Phi.id = newAt Φ b ∧
    ∀ p ∈ N, ∀ a, (p.id, a, b) ∈ Φ → NewOk kind F Φ E a b p

/-- why `x` may be replaced by `o` -/
inductive EqOk (kind : Op → Kind) (F : Func Op C) (vars : List Nat) (Φ : List (Nat × Nat × Nat)) (E : List (Nat × Opd C)) (G : Func Op C) (opn : Nat → Prop) :
    Nat → Opd C → Prop
  | load {b B j i a o} : F.blk b = some B → B.body[j]? = some i → kind i.op = .load → i.args[0]? = some (.inst a) → a ∈ vars →
      Val kind F Φ E a b j o → AvO F Φ b j o → EqOk kind F vars Φ E G opn i.id o
  | phi {b B p o} : G.blk b = some B → p ∈ B.phis → ¬ opn p.id → (∀ v ∈ p.ops, Rep E o v) → Above F Φ b o → EqOk kind F vars Φ E G opn p.id o

/-- `G` is `F` after some steps of the pass; the phis in `opn` do not have all operands yet -/
structure Cert (kind : Op → Kind) (F : Func Op C) (vars : List Nat) (Φ : List (Nat × Nat × Nat)) (E : List (Nat × Opd C)) (G : Func Op C) (opn : Nat → Prop) :
    Prop where
  entry : G.entry = F.entry
  order : G.order = F.order
  none_ : ∀ b, F.blk b = none → G.blk b = none
  some_ : ∀ b B, F.blk b = some B → ∃ B', G.blk b = some B' ∧ BlkCert kind F Φ E b B B'
  new : ∀ x a b, (x, a, b) ∈ Φ → b ≠ F.entry ∧ (∃ B, F.blk b = some B) ∧ a ∈ vars ∧ ∀ d, ¬ DefIn F x d
  nodup : (Φ.map Prod.fst).Nodup
  eqs : ∀ x o, (x, o) ∈ E → EqOk kind F vars Φ E G opn x o
  done : ∀ b B p, G.blk b = some B → p ∈ B.phis → ¬ opn p.id → p.id ∈ newAt Φ b → ∀ q, Edge F q b → ∃ o, (q, o) ∈ p.inc
  opnNew : ∀ x, opn x → ∃ a b, (x, a, b) ∈ Φ

/-! ## availability -/
section
variable {F : Func Op C} {Φ : List (Nat × Nat × Nat)}

theorem mem_newAt {x b : Nat} : x ∈ newAt Φ b ↔ ∃ a, (x, a, b) ∈ Φ := by
  unfold newAt
  simp only [List.mem_map, List.mem_filter, decide_eq_true_eq]
  constructor
  · rintro ⟨⟨y, a, c⟩, ⟨h1, h2⟩, h3⟩
    simp only at h2 h3
    subst h2 h3
    exact ⟨a, h1⟩
  · rintro ⟨a, h⟩
    exact ⟨(x, a, b), ⟨h, rfl⟩, rfl⟩

theorem Av.mono {b j k x : Nat} (h : Av F Φ b j x) (hjk : j ≤ k) : Av F Φ b k x := h.imp (fun h => avail_mono h hjk) id

theorem AvO.mono {b j k : Nat} {o : Opd C} (h : AvO F Φ b j o) (hjk : j ≤ k) : AvO F Φ b k o := fun x e => (h x e).mono hjk

theorem Av.ext {Φ' : List (Nat × Nat × Nat)} (hΦ : ∀ e ∈ Φ, e ∈ Φ') {b j x : Nat} (h : Av F Φ b j x) : Av F Φ' b j x := by
  rcases h with h | ⟨a, d, h, hd⟩
  · exact .inl h
  · exact .inr ⟨a, d, hΦ _ h, hd⟩

theorem AvO.ext {Φ' : List (Nat × Nat × Nat)} (hΦ : ∀ e ∈ Φ, e ∈ Φ') {b j : Nat} {o : Opd C} (h : AvO F Φ b j o) : AvO F Φ' b j o := fun x e => (h x e).ext hΦ

theorem Above.ext {Φ' : List (Nat × Nat × Nat)} (hΦ : ∀ e ∈ Φ, e ∈ Φ') {b : Nat} {o : Opd C} (h : Above F Φ b o) : Above F Φ' b o := by
  intro x e
  obtain ⟨d, h1, h2⟩ := h x e
  exact ⟨d, h1.imp_right (fun ⟨a, h⟩ => ⟨a, hΦ _ h⟩), h2⟩

theorem Av.home {b j x : Nat} (h : Av F Φ b j x) : ∃ d, Home F Φ x d ∧ Domi F d b := by
  rcases h with ⟨d, h1, h2, _⟩ | ⟨a, d, h, hd⟩
  · exact ⟨d, .inl h1, h2⟩
  · exact ⟨d, .inr ⟨a, h⟩, hd⟩

theorem Home.av {x d b j : Nat} (h : Home F Φ x d) (hd : Domi F d b) (hne : d ≠ b) : Av F Φ b j x := by
  rcases h with h | ⟨a, h⟩
  · exact .inl ⟨d, h, hd, fun e => absurd e hne⟩
  · exact .inr ⟨a, d, h, hd⟩

theorem Home.avEnd (P : Proper F) {x d q : Nat} (h : Home F Φ x d) (hd : Domi F d q) {Q : Block Op C} (hQ : F.blk q = some Q) : Av F Φ q Q.body.length x := by
  rcases h with h | ⟨a, h⟩
  · exact .inl (avail_end P h hd hQ)
  · exact .inr ⟨a, d, h, hd⟩

/-- a block with a single predecessor is dominated by it and does not dominate it -/
theorem single_dom {b q : Nat} (hs : ∀ p, Edge F p b ↔ p = q) (hne : b ≠ F.entry) (hb : Live F b) : Domi F q b ∧ ¬ Domi F b q := by
  have h1 : Domi F q b := by
    intro p hp
    rcases path_unsnoc hp with ⟨e, _⟩ | ⟨q', p', hp', he, rfl⟩
    · exact absurd e.symm hne
    · have := (hs q').mp he
      subst this
      exact List.mem_append.mpr (.inl (path_end hp'))
  refine ⟨h1, fun h => ?_⟩
  have e := h.antisymm h1 (h1.live hb)
  subst e
  obtain ⟨p, hp⟩ := hb
  obtain ⟨p1, hp1, _, hc⟩ := first_visit hp (path_end hp)
  rcases path_unsnoc hp1 with ⟨e, _⟩ | ⟨q', p', hp', he, rfl⟩
  · exact hne e.symm
  · have := (hs q').mp he
    subst this
    rw [List.count_append] at hc
    have := List.count_pos_iff.mpr (path_end hp')
    simp at hc
    omega

theorem Av.single {b q x : Nat} (hs : ∀ p, Edge F p b ↔ p = q) (hne : b ≠ F.entry) (hb : Live F b) {Q : Block Op C}
    (h : Av F Φ q Q.body.length x) : Av F Φ b 0 x := by
  obtain ⟨h1, h2⟩ := single_dom hs hne hb
  obtain ⟨d, hd, hdq⟩ := h.home
  exact hd.av (hdq.trans h1) (fun e => h2 (e ▸ hdq))

end

/-! ## consequences of a certificate -/
section
variable {kind : Op → Kind} {F : Func Op C} {vars : List Nat} {Φ : List (Nat × Nat × Nat)} {E : List (Nat × Opd C)} {G : Func Op C} {opn : Nat → Prop}

theorem Cert.homeUnique (c : Cert kind F vars Φ E G opn) (P : Proper F) {x d e : Nat} (h : Home F Φ x d) (h' : Home F Φ x e) : d = e := by
  rcases h with h | ⟨a, h⟩ <;> rcases h' with h' | ⟨a', h'⟩
  · exact P.home h h'
  · exact absurd h ((c.new _ _ _ h').2.2.2 d)
  · exact absurd h' ((c.new _ _ _ h).2.2.2 e)
  · have h1 : ∀ {l : List (Nat × Nat × Nat)}, (l.map Prod.fst).Nodup → ∀ {u v}, u ∈ l → v ∈ l → u.1 = v.1 → u = v := by
      intro l hn u v hu hv e
      exact List.inj_on_of_nodup_map hn hu hv e
    have := h1 c.nodup h h' rfl
    simp only [Prod.mk.injEq] at this
    exact this.2.2

/-- the phis of `G`, old and new -/
theorem Cert.phiCases (c : Cert kind F vars Φ E G opn) {b : Nat} {B' : Block Op C} (hB' : G.blk b = some B') {p : Phi C} (hp : p ∈ B'.phis) :
    ∃ B, F.blk b = some B ∧ ((∃ a, (p.id, a, b) ∈ Φ ∧ NewOk kind F Φ E a b p) ∨ ∃ p0 ∈ B.phis, PhiRep E p0 p) := by
  cases hF : F.blk b with
  | none => rw [c.none_ b hF] at hB'; cases hB'
  | some B =>
    obtain ⟨B1, hB1, hr⟩ := c.some_ b B hF
    rw [hB1] at hB'
    cases hB'
    refine ⟨B, rfl, ?_⟩
    obtain ⟨N, ps, e, h1, h2, h3⟩ := hr.phis
    rw [e, List.mem_append] at hp
    rcases hp with hp | hp
    · have : p.id ∈ N.map Phi.id := List.mem_map.mpr ⟨p, hp, rfl⟩
      rw [h2, mem_newAt] at this
      obtain ⟨a, ha⟩ := this
      exact .inl ⟨a, ha, h3 p hp a ha⟩
    · obtain ⟨k, hk, e'⟩ := List.getElem_of_mem hp
      have hl := h1.length_eq
      have := h1.get (i := k) (by omega) hk
      simp only [List.get_eq_getElem, e'] at this
      exact .inr ⟨_, List.getElem_mem (by omega), this⟩

theorem Cert.phiHome (c : Cert kind F vars Φ E G opn) {b : Nat} {B' : Block Op C} (hB' : G.blk b = some B') {p : Phi C} (hp : p ∈ B'.phis) : Home F Φ p.id b := by
  obtain ⟨B, hB, ⟨a, h, _⟩ | ⟨p0, h0, hr⟩⟩ := c.phiCases hB' hp
  · exact .inr ⟨a, h⟩
  · rw [hr.1]; exact .inl ⟨B, hB, List.mem_append.mpr (.inl (List.mem_map.mpr ⟨p0, h0, rfl⟩))⟩

/-- the replacement of something computed has been computed -/
theorem Cert.eqAv (c : Cert kind F vars Φ E G opn) (P : Proper F) {x : Nat} {o : Opd C} (h : (x, o) ∈ E) {b j : Nat} (hb : Live F b) (hx : Av F Φ b j x) :
    AvO F Φ b j o := by
  intro y hy
  have hE := c.eqs x o h
  cases hE with
  | @load b' B j' i a _ hB hi _ _ _ _ hav =>
    have hdef : DefIn F i.id b' := ⟨B, hB, List.mem_append.mpr (.inr (List.mem_map.mpr ⟨i, List.mem_of_getElem? hi, rfl⟩))⟩
    rcases hx with ⟨d, hd, hdom, hin⟩ | ⟨a', d, hm, _⟩
    · have := P.home hd hdef
      subst this
      rcases hav y hy with ⟨d', hd', hdom', hin'⟩ | ⟨a', d', hm, hdom'⟩
      · by_cases hbd : d = b
        · subst hbd
          have hjj : j' ≤ j := by
            by_contra hlt
            have : Avail F d j' i.id := avail_mono ⟨d, hd, hdom, hin⟩ (by omega)
            exact P.not_avail hB hi this
          exact .inl (avail_mono ⟨d', hd', hdom', hin'⟩ hjj)
        · refine .inl ⟨d', hd', hdom'.trans hdom, fun e => ?_⟩
          subst e
          exact absurd (hdom.antisymm hdom' hb) hbd
      · exact .inr ⟨a', d', hm, hdom'.trans hdom⟩
    · exact absurd hdef ((c.new _ _ _ hm).2.2.2 b')
  | @phi b' B p _ hB hp _ _ hab =>
    obtain ⟨d, hd, hne, hdom⟩ := hab y hy
    obtain ⟨h', hh', hdom'⟩ := hx.home
    have hpb : Home F Φ p.id b' := c.phiHome hB hp
    have := c.homeUnique P hh' hpb
    subst this
    refine hd.av (hdom.trans hdom') (fun e => ?_)
    subst e
    exact hne (hdom.antisymm hdom' (hdom'.live hb))

theorem Cert.repAv (c : Cert kind F vars Φ E G opn) (P : Proper F) {o o' : Opd C} (r : Rep E o o') {b j : Nat} (hb : Live F b) (h : AvO F Φ b j o) :
    AvO F Φ b j o' := by
  induction r with
  | refl => exact h
  | step _ h' ih => exact c.eqAv P h' hb (ih _ rfl)

/-- the content of a slot has been computed -/
theorem Cert.valAv (c : Cert kind F vars Φ E G opn) (P : Proper F) (hl : AllLive F) {a b j : Nat} {o : Opd C} (h : Val kind F Φ E a b j o) :
    AvO F Φ b j o := by
  induction h with
  | @store a b j B i o h1 h2 h3 h4 h5 =>
    intro x e
    subst e
    exact .inl (avail_mono (P.use_avail h1 (hl _ _ h1) h2 (List.mem_of_getElem? h5)) (Nat.le_succ _))
  | alloca => intro x e; cases e
  | keep _ _ _ _ ih => exact ih.mono (Nat.le_succ _)
  | @phi x a b h => intro y e; cases e; exact .inr ⟨_, _, h, Dom.dominates_refl⟩
  | @single a b q Q o h1 h2 h3 _ ih =>
    intro x e
    have hb : Live F b := (hl q Q h3).edge ((h1 q).mpr rfl)
    exact Av.single h1 h2 hb (ih x e)
  | @repl a b j x o h' h ih =>
    have hx := ih x rfl
    have hb : Live F b := by
      rcases hx with ⟨d, hd, hdom, _⟩ | ⟨a', d, hm, hdom⟩
      all_goals exact (Val.live h' hl)
    exact c.eqAv P h hb hx
where
  Val.live {a b j : Nat} {o : Opd C} (h : Val kind F Φ E a b j o) (hl : AllLive F) : Live F b := by
    induction h with
    | store h1 => exact hl _ _ h1
    | alloca h1 => exact hl _ _ h1
    | keep _ h1 => exact hl _ _ h1
    | phi h => obtain ⟨B, hB⟩ := (c.new _ _ _ h).2.1; exact hl _ _ hB
    | @single a b q Q o h1 h2 h3 _ _ => exact (hl q Q h3).edge ((h1 q).mpr rfl)
    | repl _ _ ih => exact ih

theorem PhiRep.mem {E : List (Nat × Opd C)} {p p' : Phi C} (h : PhiRep E p p') {q : Nat} :
    (∀ o', (q, o') ∈ p'.inc → ∃ o, (q, o) ∈ p.inc ∧ Rep E o o') ∧ (∀ o, (q, o) ∈ p.inc → ∃ o', (q, o') ∈ p'.inc ∧ Rep E o o') := by
  have hf := h.2
  generalize p.inc = l at hf
  generalize p'.inc = l' at hf
  induction hf with
  | nil => simp
  | @cons e e' l l' he _ ih =>
    obtain ⟨k, o⟩ := e
    obtain ⟨k', o'⟩ := e'
    simp only at he
    obtain ⟨rfl, hr⟩ := he
    refine ⟨?_, ?_⟩
    · intro v hv
      rcases List.mem_cons.mp hv with e | hv
      · cases e; exact ⟨o, by simp, hr⟩
      · obtain ⟨w, h1, h2⟩ := ih.1 v hv; exact ⟨w, by simp [h1], h2⟩
    · intro v hv
      rcases List.mem_cons.mp hv with e | hv
      · cases e; exact ⟨o', by simp, hr⟩
      · obtain ⟨w, h1, h2⟩ := ih.2 v hv; exact ⟨w, by simp [h1], h2⟩

/-- a phi that is not open has an available operand for each predecessor -/
theorem Cert.phiOk (c : Cert kind F vars Φ E G opn) (P : Proper F) (hl : AllLive F) {b : Nat} {B' : Block Op C} (hB' : G.blk b = some B') {p : Phi C} (hp : p ∈ B'.phis)
    (ho : ¬ opn p.id) : b ≠ F.entry ∧ Live F b ∧ (∀ q, Edge F q b → ∃ o, (q, o) ∈ p.inc) ∧
      ∀ q o, (q, o) ∈ p.inc → Edge F q b ∧ ∀ Q, F.blk q = some Q → AvO F Φ q Q.body.length o := by
  obtain ⟨B, hB, ⟨a, h, hn⟩ | ⟨p0, h0, hr⟩⟩ := c.phiCases hB' hp
  · refine ⟨(c.new _ _ _ h).1, hl b B hB, c.done b B' p hB' hp ho (mem_newAt.mpr ⟨a, h⟩), fun q o hq => ?_⟩
    obtain ⟨h1, h2⟩ := hn.ops q o hq
    exact ⟨h1, fun Q hQ => c.valAv P hl (h2 Q hQ)⟩
  · have hb := hl b B hB
    refine ⟨fun e => ?_, hb, fun q hq => ?_, fun q o hq => ?_⟩
    · rw [P.entryPhis B (e ▸ hB)] at h0; simp at h0
    · obtain ⟨v, hv⟩ := P.phiAll b B p0 q hB hb h0 hq (by obtain ⟨Q, hQ, _⟩ := hq; exact hl q Q hQ)
      obtain ⟨o', h1, _⟩ := (hr.mem (q := q)).2 v hv
      exact ⟨o', h1⟩
    · obtain ⟨o0, h1, h2⟩ := (hr.mem (q := q)).1 o hq
      have he := P.phiPred b B p0 hB hb h0 q o0 h1
      refine ⟨he, fun Q hQ => c.repAv P h2 (hl q Q hQ) ?_⟩
      intro x e
      subst e
      exact .inl (P.phi_avail hB hb hQ (hl q Q hQ) h0 h1)

/-- a complete phi has an operand other than itself; if all those are the same, that one comes from above -/
theorem Cert.trivial (c : Cert kind F vars Φ E G opn) (P : Proper F) (hl : AllLive F) {b : Nat} {B' : Block Op C} (hB' : G.blk b = some B') {p : Phi C} (hp : p ∈ B'.phis)
    (ho : ¬ opn p.id) : (∃ v ∈ p.ops, v ≠ .inst p.id) ∧ ∀ o, (∀ v ∈ p.ops, v = o ∨ v = .inst p.id) → o ≠ .inst p.id → Above F Φ b o := by
  obtain ⟨hne, hb, hall, hops⟩ := c.phiOk P hl hB' hp ho
  have hhome := c.phiHome hB' hp
  -- coming to `b` for the first time
  have key : ∀ pth, Dom.Path (Edge F) F.entry b pth → ∃ q p', Dom.Path (Edge F) F.entry q p' ∧ (∀ y ∈ p', y ∈ pth) ∧ b ∉ p' ∧
      ∃ v Q, v ∈ p.ops ∧ F.blk q = some Q ∧ v ≠ .inst p.id ∧ AvO F Φ q Q.body.length v := by
    intro pth hp0
    obtain ⟨p1, hp1, hsub, hc⟩ := first_visit hp0 (path_end hp0)
    rcases path_unsnoc hp1 with ⟨e, _⟩ | ⟨q, p', hp', he, rfl⟩
    · exact absurd e.symm hne
    · have hnb : b ∉ p' := by
        intro hm
        rw [List.count_append] at hc
        have := List.count_pos_iff.mpr hm
        simp at hc
        omega
      obtain ⟨o, ho'⟩ := hall q he
      obtain ⟨Q, hQ, _⟩ := id he
      have hav := (hops q o ho').2 Q hQ
      refine ⟨q, p', hp', fun y hy => hsub y (List.mem_append.mpr (.inl hy)), hnb, o, Q, mem_ops.mpr ⟨q, ho'⟩, hQ, ?_, hav⟩
      intro e
      obtain ⟨d, hd, hdq⟩ := (hav _ e).home
      have := c.homeUnique P hd hhome
      subst this
      exact hnb (hdq p' hp')
  obtain ⟨pth, hpth⟩ := id hb
  refine ⟨?_, ?_⟩
  · obtain ⟨_, _, _, _, _, v, _, h1, _, h2, _⟩ := key pth hpth
    exact ⟨v, h1, h2⟩
  · intro o hall' hne' x hx
    have step : ∀ pth, Dom.Path (Edge F) F.entry b pth → ∃ (d : Nat) (p' : List Nat), Home F Φ x d ∧ d ∈ p' ∧ (∀ y ∈ p', y ∈ pth) ∧ b ∉ p' := by
      intro pth hpth
      obtain ⟨q, p', hp', hsub, hnb, v, Q, hv, hQ, hvne, hav⟩ := key pth hpth
      rcases hall' v hv with e | e
      · obtain ⟨d, hd, hdq⟩ := (hav x (e.trans hx)).home
        exact ⟨d, p', hd, hdq p' hp', hsub, hnb⟩
      · exact absurd e hvne
    obtain ⟨d, p', hd, hm, _, hnb⟩ := step pth hpth
    refine ⟨d, hd, fun e => hnb (e ▸ hm), fun pth2 hpth2 => ?_⟩
    obtain ⟨d2, p2, hd2, hm2, hsub2, _⟩ := step pth2 hpth2
    rw [c.homeUnique P hd hd2]
    exact hsub2 _ hm2

end
end
end Cmmc.SSA
