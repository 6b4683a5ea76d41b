import Verif.SSA.InlineRef
/-!
# Inlining one call keeps SSA form
-/
namespace Cmmc.SSA
section
variable {Op C : Type} {K : Copy} {param : C → Option Nat} {F G : Func Op C} {b k : Nat} {valued : Bool} {B : Block Op C} {call : Inst Op C}

/-- induction along a path that avoids `d` -/
theorem path_avoid {E : Nat → Nat → Prop} {d : Nat} {P : Nat → Prop} (hs : ∀ z z', E z z' → P z → z' ≠ d → P z') {r x : Nat} {p : List Nat} (hp : Dom.Path E r x p) (hd : d ∉ p) (h0 : P r) : P x := by
  induction hp with
  | single a => exact h0
  | cons e hp ih =>
    simp only [List.mem_cons, not_or] at hd
    have hne : ∀ {a c p}, Dom.Path E a c p → d ∉ p → a ≠ d := by
      intro a c p hp hd
      cases hp with
      | single _ => simp only [List.mem_singleton] at hd; exact fun h => hd h.symm
      | cons _ _ => simp only [List.mem_cons, not_or] at hd; exact fun h => hd.1 h.symm
    exact ih hd.2 (hs _ _ e h0 (hne hp hd.2))

theorem path_ind {E : Nat → Nat → Prop} {P : Nat → Prop} (hs : ∀ z z', E z z' → P z → P z') {r x : Nat} (hp : Dom.Reachable E r x) (h0 : P r) : P x := by
  obtain ⟨p, hp⟩ := hp
  induction hp with
  | single a => exact h0
  | cons e hp ih => exact ih (hs _ _ e h0)

/-- a path to `x` that avoids `d` -/
def Avoids (F : Func Op C) (d x : Nat) : Prop := ∃ p, Dom.Path (Edge F) F.entry x p ∧ d ∉ p

theorem Avoids.not {d x : Nat} (h : Avoids F d x) (hd : Domi F d x) : False := by
  obtain ⟨p, h1, h2⟩ := h
  exact h2 (hd p h1)

theorem Avoids.edge {d x y : Nat} (h : Avoids F d x) (e : Edge F x y) (hy : y ≠ d) : Avoids F d y := by
  obtain ⟨p, h1, h2⟩ := h
  refine ⟨_, path_snoc h1 e, ?_⟩
  simp only [List.mem_append, List.mem_singleton, not_or]
  exact ⟨h2, fun h => hy h.symm⟩

theorem Avoids.entry {d : Nat} (h : F.entry ≠ d) : Avoids F d F.entry := ⟨_, .single _, by simpa using fun e => h e.symm⟩

theorem domi_of_avoids {H : Func Op C} {d x : Nat} (h : Avoids H d x → False) : Domi H d x := by
  intro p hp
  by_contra hn
  exact h ⟨p, hp, hn⟩

/-- the blocks of the result -/
theorem InlineOk.blk_cases (h : InlineOk K param F G b k valued B call) (S : Shape F) {z : Nat} {Z : Block Op C} (hZ : (F.inline K param b k valued G).blk z = some Z) :
    (z = b ∧ Z = ⟨newPhis K b B b B.phis, B.body.take k, .br (K.fb G.entry)⟩) ∨ (z = K.sink ∧ Z = ⟨K.retPhi param G valued call.id, B.body.drop (k + 1), B.term⟩) ∨
    (∃ q T, z = K.fb q ∧ G.blk q = some T ∧ Z = K.blockAt param b call.args G.entry q T) ∨ (z ≠ b ∧ ∃ X, F.blk z = some X ∧ Z = { X with phis := newPhis K b B z X.phis }) := by
  by_cases h1 : z = b
  · subst h1
    rw [h.blk_b] at hZ
    exact .inl ⟨rfl, (Option.some.inj hZ).symm⟩
  by_cases h2 : z = K.sink
  · subst h2
    rw [h.blk_sink S] at hZ
    exact .inr (.inl ⟨rfl, (Option.some.inj hZ).symm⟩)
  have hu := h.unfold z
  rw [if_neg h1, if_neg h2, hZ] at hu
  cases hf : G.order.find? (fun q => K.fb q == z) with
  | none =>
    rw [hf] at hu
    obtain ⟨X, hX, hX'⟩ := Option.map_eq_some_iff.1 hu.symm
    exact .inr (.inr (.inr ⟨h1, X, hX, hX'.symm⟩))
  | some q =>
    have hq := List.find?_some hf
    simp only [beq_iff_eq] at hq
    subst hq
    cases hT : G.blk q with
    | none => rw [hf] at hu; simp [hT] at hu
    | some T =>
      rw [h.blk_copy S hT] at hZ
      exact .inr (.inr (.inl ⟨q, T, rfl, hT, (Option.some.inj hZ).symm⟩))

theorem Copy.blockAt_term (K : Copy) (param : C → Option Nat) (b : Nat) (args : List (Opd C)) (e q : Nat) (T : Block Op C) : (K.blockAt param b args e q T).term = K.term param T.term := by
  unfold Copy.blockAt; split <;> rfl

theorem Copy.blockAt_body (K : Copy) (param : C → Option Nat) (b : Nat) (args : List (Opd C)) (e q : Nat) (T : Block Op C) : (K.blockAt param b args e q T).body = T.body.map (K.inst param) := by
  unfold Copy.blockAt; split <;> rfl

theorem Copy.blockAt_phis (K : Copy) (param : C → Option Nat) (b : Nat) (args : List (Opd C)) (e q : Nat) (T : Block Op C) :
    (K.blockAt param b args e q T).phis = (if q = e then K.argPhis b args else []) ++ T.phis.map (K.phi param) := by
  unfold Copy.blockAt; split <;> rfl

theorem Copy.mem_targets {K : Copy} {param : C → Option Nat} {t : Term C} {z : Nat} (h : z ∈ (K.term param t).targets) : (∃ q, z = K.fb q ∧ q ∈ t.targets) ∨ (z = K.sink ∧ ∃ v, t = .ret v) := by
  cases t with
  | ret v => simp only [Copy.term, Term.targets, List.mem_singleton] at h; exact .inr ⟨h, v, rfl⟩
  | br t => simp only [Copy.term, Term.targets, List.mem_singleton] at h; exact .inl ⟨t, h, by simp [Term.targets]⟩
  | cbr c t f =>
    simp only [Copy.term, Term.targets, List.mem_cons, List.not_mem_nil, or_false] at h
    rcases h with h | h
    · exact .inl ⟨t, h, by simp [Term.targets]⟩
    · exact .inl ⟨f, h, by simp [Term.targets]⟩
  | sw c d cs =>
    simp only [Copy.term, Term.targets, List.map_map, List.mem_cons, List.mem_map, Function.comp] at h
    rcases h with h | ⟨e, he, h⟩
    · exact .inl ⟨d, h, by simp [Term.targets]⟩
    · exact .inl ⟨e.2, h.symm, List.mem_cons_of_mem _ (List.mem_map.2 ⟨e, he, rfl⟩)⟩
  | unreachable => simp [Copy.term, Term.targets] at h

theorem Copy.targets_fb {K : Copy} {param : C → Option Nat} {t : Term C} {q : Nat} (h : q ∈ t.targets) : K.fb q ∈ (K.term param t).targets := by
  cases t with
  | ret v => simp [Term.targets] at h
  | br t => simp only [Term.targets, List.mem_singleton] at h; simp [Copy.term, Term.targets, h]
  | cbr c t f =>
    simp only [Term.targets, List.mem_cons, List.not_mem_nil, or_false] at h
    rcases h with h | h <;> simp [Copy.term, Term.targets, h]
  | sw c d cs =>
    simp only [Term.targets, List.mem_cons, List.mem_map] at h
    simp only [Copy.term, Term.targets, List.map_map, List.mem_cons, List.mem_map, Function.comp]
    rcases h with h | ⟨e, he, h⟩
    · exact .inl (by rw [h])
    · exact .inr ⟨e, he, by rw [h]⟩
  | unreachable => simp [Term.targets] at h

variable (S : Shape F)
include S

theorem Shape.edge_left {a c : Nat} (e : Edge F a c) : a ∈ F.order := by
  obtain ⟨A, hA, _⟩ := e
  exact S.listed a A hA

/-- the edges of the result -/
theorem InlineOk.edge_cases (h : InlineOk K param F G b k valued B call) {z z' : Nat} (e : Edge (F.inline K param b k valued G) z z') :
    (z = b ∧ z' = K.fb G.entry) ∨ (z = K.sink ∧ Edge F b z') ∨ (∃ q q', z = K.fb q ∧ z' = K.fb q' ∧ Edge G q q') ∨
    (∃ q T v, z = K.fb q ∧ z' = K.sink ∧ G.blk q = some T ∧ T.term = .ret v) ∨ (z ≠ b ∧ Edge F z z') := by
  obtain ⟨Z, hZ, ht⟩ := e
  rcases h.blk_cases S hZ with ⟨h1, rfl⟩ | ⟨h1, rfl⟩ | ⟨q, T, h1, hT, rfl⟩ | ⟨h1, X, hX, rfl⟩
  · simp only [Term.targets, List.mem_singleton] at ht
    exact .inl ⟨h1, ht⟩
  · exact .inr (.inl ⟨h1, B, h.hB, ht⟩)
  · rw [Copy.blockAt_term] at ht
    rcases Copy.mem_targets ht with ⟨q', h2, h3⟩ | ⟨h2, v, h3⟩
    · exact .inr (.inr (.inl ⟨q, q', h1, h2, T, hT, h3⟩))
    · exact .inr (.inr (.inr (.inl ⟨q, T, v, h1, h2, hT, h3⟩)))
  · exact .inr (.inr (.inr (.inr ⟨h1, X, hX, ht⟩)))

theorem InlineOk.edge_new (h : InlineOk K param F G b k valued B call) {q x : Nat} (e : Edge F q x) : Edge (F.inline K param b k valued G) (mv K.sink b q) x := by
  obtain ⟨Q, hQ, ht⟩ := e
  by_cases hq : q = b
  · subst hq
    rw [mv_eq]
    rw [h.hB] at hQ; cases hQ
    exact ⟨_, h.blk_sink S, ht⟩
  · rw [mv_ne hq]
    exact ⟨_, h.blk_old S hq hQ, ht⟩

omit S in
theorem InlineOk.edge_in (h : InlineOk K param F G b k valued B call) : Edge (F.inline K param b k valued G) b (K.fb G.entry) := ⟨_, h.blk_b, by simp [Term.targets]⟩

theorem InlineOk.edge_copy (h : InlineOk K param F G b k valued B call) {q q' : Nat} (e : Edge G q q') : Edge (F.inline K param b k valued G) (K.fb q) (K.fb q') := by
  obtain ⟨T, hT, ht⟩ := e
  exact ⟨_, h.blk_copy S hT, by rw [Copy.blockAt_term]; exact Copy.targets_fb ht⟩

theorem InlineOk.edge_ret (h : InlineOk K param F G b k valued B call) {q : Nat} {T : Block Op C} {v : Option (Opd C)} (hT : G.blk q = some T) (hv : T.term = .ret v) :
    Edge (F.inline K param b k valued G) (K.fb q) K.sink := ⟨_, h.blk_copy S hT, by rw [Copy.blockAt_term, hv]; simp [Copy.term, Term.targets]⟩

/-! ## liveness and dominance -/

open Classical in
/-- the block of the caller a block of the result comes from -/
noncomputable def collapse (F : Func Op C) (b z : Nat) : Nat := if z ∈ F.order then z else b

omit S in
theorem collapse_old {z : Nat} (hz : z ∈ F.order) : collapse F b z = z := if_pos hz

omit S in
theorem InlineOk.collapse_fb (h : InlineOk K param F G b k valued B call) (q : Nat) : collapse F b (K.fb q) = b := if_neg (h.fbF q)

omit S in
theorem InlineOk.collapse_sink (h : InlineOk K param F G b k valued B call) : collapse F b K.sink = b := if_neg h.sinkF

theorem InlineOk.edge_collapse (h : InlineOk K param F G b k valued B call) {z z' : Nat} (e : Edge (F.inline K param b k valued G) z z') :
    collapse F b z' = collapse F b z ∨ Edge F (collapse F b z) (collapse F b z') := by
  have hb := S.listed b B h.hB
  rcases h.edge_cases S e with ⟨rfl, rfl⟩ | ⟨rfl, e1⟩ | ⟨q, q', rfl, rfl, _⟩ | ⟨q, T, v, rfl, rfl, _⟩ | ⟨_, e1⟩
  · exact .inl (by rw [h.collapse_fb, collapse_old hb])
  · exact .inr (by rw [h.collapse_sink, collapse_old (S.closed _ _ e1)]; exact e1)
  · exact .inl (by rw [h.collapse_fb, h.collapse_fb])
  · exact .inl (by rw [h.collapse_fb, h.collapse_sink])
  · exact .inr (by rw [collapse_old (S.edge_left e1), collapse_old (S.closed _ _ e1)]; exact e1)

theorem InlineOk.live (h : InlineOk K param F G b k valued B call) {z : Nat} (hz : Live (F.inline K param b k valued G) z) : Live F (collapse F b z) := by
  refine path_ind (P := fun z => Live F (collapse F b z)) ?_ hz ?_
  · intro z z' e hl
    rcases h.edge_collapse S e with h1 | h1
    · rw [h1]; exact hl
    · exact hl.edge h1
  · rw [h.entry, collapse_old S.entryIn]
    exact ⟨_, .single _⟩

theorem InlineOk.live_copy (h : InlineOk K param F G b k valued B call) {q : Nat} (hz : Live (F.inline K param b k valued G) (K.fb q)) : Live G q := by
  refine path_ind (P := fun z => ∀ q, z = K.fb q → Live G q) ?_ hz ?_ q rfl
  · intro z z' e ih q hq
    rcases h.edge_cases S e with ⟨rfl, h2⟩ | ⟨rfl, e1⟩ | ⟨q1, q2, rfl, rfl, e1⟩ | ⟨q, T, v, rfl, h2, _⟩ | ⟨_, e1⟩
    · rw [h2] at hq
      rw [← h.fb hq]
      exact ⟨_, .single _⟩
    · exact absurd (S.closed _ _ e1) (hq ▸ h.fbF q)
    · rw [← h.fb hq]
      exact (ih q1 rfl).edge e1
    · exact absurd (hq.symm.trans h2) (h.fbS _)
    · exact absurd (S.closed _ _ e1) (hq ▸ h.fbF q)
  · intro q hq
    exact absurd S.entryIn (by rw [← h.entry (G := G), hq]; exact h.fbF q)

/-- Claim A: blocks other than that of the call dominate as before -/
theorem InlineOk.domi_old (h : InlineOk K param F G b k valued B call) {d z : Nat} (hd : d ≠ b) (hdo : d ∈ F.order) (hdom : Domi F d (collapse F b z)) : Domi (F.inline K param b k valued G) d z := by
  refine domi_of_avoids fun ⟨p, hp, hn⟩ => ?_
  have hcd : ∀ {z}, z ≠ d → collapse F b z ≠ d := by
    intro z hz
    by_cases ho : z ∈ F.order
    · rw [collapse_old ho]; exact hz
    · unfold collapse; rw [if_neg ho]; exact fun h => hd h.symm
  refine Avoids.not (path_avoid (P := fun z => Avoids F d (collapse F b z)) ?_ hp hn ?_) hdom
  · intro z z' e hl hne
    rcases h.edge_collapse S e with h1 | h1
    · rw [h1]; exact hl
    · exact hl.edge h1 (hcd hne)
  · rw [h.entry, collapse_old S.entryIn]
    refine Avoids.entry ?_
    rintro he
    rw [h.entry, he] at hp
    refine hn ?_
    cases hp with
    | single _ => simp
    | cons _ _ => simp

theorem InlineOk.avoids_b (h : InlineOk K param F G b k valued B call) {z : Nat} (hz : Avoids (F.inline K param b k valued G) b z) : z ∈ F.order ∧ z ≠ b ∧ Avoids F b z := by
  obtain ⟨p, hp, hn⟩ := hz
  refine path_avoid (P := fun z => z ∈ F.order ∧ z ≠ b ∧ Avoids F b z) ?_ hp hn ?_
  · rintro z z' e ⟨h1, h2, h3⟩ hne
    rcases h.edge_cases S e with ⟨rfl, _⟩ | ⟨rfl, _⟩ | ⟨q, q', rfl, _⟩ | ⟨q, T, v, rfl, _⟩ | ⟨_, e1⟩
    · exact absurd rfl h2
    · exact absurd h1 h.sinkF
    · exact absurd h1 (h.fbF q)
    · exact absurd h1 (h.fbF q)
    · exact ⟨S.closed _ _ e1, hne, h3.edge e1 hne⟩
  · have hne : F.entry ≠ b := by
      rintro he
      rw [h.entry, he] at hp
      refine hn ?_
      cases hp with
      | single _ => simp
      | cons _ _ => simp
    rw [h.entry]
    exact ⟨S.entryIn, hne, Avoids.entry hne⟩

/-- the block of the call dominates what comes out of it -/
theorem InlineOk.domi_b (h : InlineOk K param F G b k valued B call) {z : Nat} (hz : z ∉ F.order) : Domi (F.inline K param b k valued G) b z :=
  domi_of_avoids fun ha => hz (h.avoids_b S ha).1

theorem InlineOk.domi_b_old (h : InlineOk K param F G b k valued B call) {z : Nat} (hz : Domi F b z) : Domi (F.inline K param b k valued G) b z :=
  domi_of_avoids fun ha => (h.avoids_b S ha).2.2.not hz

/-- Claim B: the second half dominates what the block dominated -/
theorem InlineOk.domi_sink (h : InlineOk K param F G b k valued B call) {z : Nat} (hzo : z ∈ F.order) (hzb : z ≠ b) (hz : Domi F b z) : Domi (F.inline K param b k valued G) K.sink z := by
  refine domi_of_avoids fun ⟨p, hp, hn⟩ => ?_
  have : (z ∈ F.order ∧ z ≠ b) → Avoids F b z := by
    refine path_avoid (P := fun z => (z ∈ F.order ∧ z ≠ b → Avoids F b z) ∧ z ≠ K.sink) ?_ hp hn ?_ |>.1
    · rintro z z' e ⟨ih, hzs⟩ hne
      refine ⟨fun ⟨h1, h2⟩ => ?_, hne⟩
      rcases h.edge_cases S e with ⟨rfl, rfl⟩ | ⟨rfl, _⟩ | ⟨q, q', rfl, rfl, _⟩ | ⟨q, T, v, rfl, rfl, _⟩ | ⟨hzb, e1⟩
      · exact absurd h1 (h.fbF _)
      · exact absurd rfl hzs
      · exact absurd h1 (h.fbF _)
      · exact absurd h1 h.sinkF
      · exact (ih ⟨S.edge_left e1, hzb⟩).edge e1 h2
    · rw [h.entry]
      exact ⟨fun ⟨_, h2⟩ => Avoids.entry h2, fun he => h.sinkF (he ▸ S.entryIn)⟩
  exact (this ⟨hzo, hzb⟩).not hz

/-- Claim D: the copy dominates as the callee did -/
theorem InlineOk.domi_copy (h : InlineOk K param F G b k valued B call) {d q : Nat} (hdom : Domi G d q) : Domi (F.inline K param b k valued G) (K.fb d) (K.fb q) := by
  refine domi_of_avoids fun ⟨p, hp, hn⟩ => ?_
  have : ∀ q', K.fb q = K.fb q' → Avoids G d q' := by
    refine path_avoid (P := fun z => ∀ q, z = K.fb q → Avoids G d q) ?_ hp hn ?_
    · intro z z' e ih hne q hq
      subst hq
      have hqd : q ≠ d := fun h => hne (by rw [h])
      rcases h.edge_cases S e with ⟨rfl, h2⟩ | ⟨rfl, e1⟩ | ⟨q1, q2, rfl, h2, e1⟩ | ⟨q, T, v, rfl, h2, _⟩ | ⟨_, e1⟩
      · obtain rfl := h.fb h2
        exact Avoids.entry hqd
      · exact absurd (S.closed _ _ e1) (h.fbF q)
      · obtain rfl := h.fb h2
        exact (ih q1 rfl).edge e1 hqd
      · exact absurd h2 (h.fbS _)
      · exact absurd (S.closed _ _ e1) (h.fbF q)
    · intro q hq
      exact absurd S.entryIn (by rw [← h.entry (G := G), hq]; exact h.fbF q)
  exact (this q rfl).not hdom

end
end Cmmc.SSA
