import Verif.SSA.TailPass
/-!
# TailCallEliminate: a return pulled into its predecessor (TailCallEliminate.cpp:283-301)
-/
namespace Cmmc.SSA
section
variable {Op C : Type} {F : Func Op C} {b t : Nat} {B : Block Op C} {ps : List (Phi C)} {v : Option (Opd C)}

/-- `b` jumps to `t`, which only returns -/
structure PullOk (F : Func Op C) (b t : Nat) (B : Block Op C) (ps : List (Phi C)) (v : Option (Opd C)) : Prop where
  hB : F.blk b = some B
  term : B.term = .br t
  hT : F.blk t = some ⟨ps, [], .ret v⟩

/-- the function after pulling the return -/
abbrev pulled (F : Func Op C) (b t : Nat) (B : Block Op C) (ps : List (Phi C)) (v : Option (Opd C)) : Func Op C := pullRet F b B t ⟨ps, [], .ret v⟩ v

theorem PullOk.ne (h : PullOk F b t B ps v) : t ≠ b := by
  rintro rfl
  have := Option.some.inj (h.hB.symm.trans h.hT)
  rw [this] at h
  cases h.term

theorem PullOk.blk (h : PullOk F b t B ps v) (x : Nat) : (pulled F b t B ps v).blk x =
    if x = b then some ⟨B.phis, B.body, .ret (pullOpd b ps v)⟩ else if x = t then some ⟨ps.map (fun p => p.removeSource b), [], .ret v⟩ else F.blk x := by
  unfold pulled pullRet
  rw [Func.set_blk]
  by_cases hx : x = b
  · rw [if_pos hx, if_pos hx]
  · rw [if_neg hx, if_neg hx, Func.mapPhis_blk]
    by_cases ht : x = t
    · subst ht
      rw [h.hT, if_pos rfl]
      simp only [Option.map_some, if_true]
    · rw [if_neg ht]
      cases F.blk x with
      | none => rfl
      | some X => simp only [Option.map_some, if_neg ht]

theorem pulled_entry : (pulled F b t B ps v).entry = F.entry := by unfold pulled pullRet; rw [Func.set_entry, Func.mapPhis_entry]
theorem pulled_order : (pulled F b t B ps v).order = F.order := by unfold pulled pullRet; rw [Func.set_order, Func.mapPhis_order]

/-- where blocks of the new function come from -/
theorem PullOk.cases (h : PullOk F b t B ps v) {x : Nat} {X : Block Op C} (hX : (pulled F b t B ps v).blk x = some X) :
    (x = b ∧ X = ⟨B.phis, B.body, .ret (pullOpd b ps v)⟩) ∨ (x = t ∧ X = ⟨ps.map (fun p => p.removeSource b), [], .ret v⟩) ∨ (x ≠ b ∧ x ≠ t ∧ F.blk x = some X) := by
  rw [h.blk] at hX
  by_cases hx : x = b
  · rw [if_pos hx] at hX; exact .inl ⟨hx, (Option.some.inj hX).symm⟩
  · rw [if_neg hx] at hX
    by_cases ht : x = t
    · rw [if_pos ht] at hX; exact .inr (.inl ⟨ht, (Option.some.inj hX).symm⟩)
    · rw [if_neg ht] at hX; exact .inr (.inr ⟨hx, ht, hX⟩)

theorem PullOk.edge (h : PullOk F b t B ps v) {x y : Nat} : Edge (pulled F b t B ps v) x y ↔ x ≠ b ∧ Edge F x y := by
  constructor
  · rintro ⟨X, hX, hy⟩
    rcases h.cases hX with ⟨_, rfl⟩ | ⟨_, rfl⟩ | ⟨h1, h2, h3⟩
    · simp [Term.targets] at hy
    · simp [Term.targets] at hy
    · exact ⟨h1, X, h3, hy⟩
  · rintro ⟨h1, X, hX, hy⟩
    by_cases ht : x = t
    · subst ht
      have := Option.some.inj (h.hT.symm.trans hX)
      subst this
      simp [Term.targets] at hy
    · refine ⟨X, ?_, hy⟩
      rw [h.blk, if_neg h1, if_neg ht, hX]

/-- the returned value of the new return -/
theorem pullOpd_cases {o' : Opd C} (h : pullOpd b ps v = some o') : ∃ o, v = some o ∧
    ((o' = o ∧ ((∀ p ∈ ps, o ≠ .inst p.id) ∨ ∃ p ∈ ps, o = .inst p.id ∧ p.at b = none)) ∨ ∃ p ∈ ps, o = .inst p.id ∧ p.at b = some o') := by
  unfold pullOpd at h
  obtain ⟨o, rfl, ho⟩ := Option.map_eq_some_iff.1 h
  refine ⟨o, rfl, ?_⟩
  split at ho
  · rename_i p hp
    have hm := List.mem_of_find?_eq_some hp
    have hq := List.find?_some hp
    have hop : o = .inst p.id := by
      cases o with
      | inst x => simp only [beq_iff_eq] at hq; rw [hq]
      | cst c => simp at hq
    cases hat : p.at b with
    | none =>
      rw [hat] at ho
      exact .inl ⟨ho.symm, .inr ⟨p, hm, hop, hat⟩⟩
    | some w => rw [hat] at ho; simp only [Option.getD_some] at ho; subst ho; exact .inr ⟨p, hm, hop, hat⟩
  · rename_i hn
    left
    refine ⟨ho.symm, .inl ?_⟩
    rintro p hp rfl
    rw [List.find?_eq_none] at hn
    have := hn p hp
    simp at this

theorem PullOk.opds (h : PullOk F b t B ps v) {x : Nat} {X : Block Op C} (hX : (pulled F b t B ps v).blk x = some X) {o : Opd C} (ho : o ∈ X.opds) : ∃ y Y, F.blk y = some Y ∧ o ∈ Y.opds := by
  rcases h.cases hX with ⟨rfl, rfl⟩ | ⟨rfl, rfl⟩ | ⟨h1, h2, h3⟩
  · rcases opds_cases ho with ⟨p, hp, q, hq⟩ | ⟨i, hi, h1⟩ | h1
    · exact ⟨_, _, h.hB, mem_opds_phi hp hq⟩
    · exact ⟨_, _, h.hB, mem_opds_use (.inl ⟨i, hi, h1⟩)⟩
    · cases hv : pullOpd x ps v with
      | none => rw [hv] at h1; simp [Term.args] at h1
      | some o' =>
        rw [hv] at h1
        simp only [Term.args, List.mem_singleton] at h1
        subst h1
        obtain ⟨o0, rfl, h2⟩ := pullOpd_cases hv
        refine ⟨_, _, h.hT, ?_⟩
        rcases h2 with ⟨rfl, _⟩ | ⟨p, hp, _, hat⟩
        · exact mem_opds_use (.inr (by simp [Term.args]))
        · exact mem_opds_phi hp (Phi.at_mem hat)
  · refine ⟨_, _, h.hT, ?_⟩
    rcases opds_cases ho with ⟨p, hp, q, hq⟩ | ⟨i, hi, h1⟩ | h1
    · obtain ⟨p0, hp0, rfl⟩ := List.mem_map.1 hp
      exact mem_opds_phi hp0 (List.mem_of_mem_filter hq)
    · simp at hi
    · exact mem_opds_use (.inr h1)
  · exact ⟨x, X, h3, ho⟩

theorem PullOk.insts (h : PullOk F b t B ps v) {x : Nat} {X : Block Op C} (hX : (pulled F b t B ps v).blk x = some X) {i : Inst Op C} (hi : i ∈ X.body) : ∃ y Y, F.blk y = some Y ∧ i ∈ Y.body := by
  rcases h.cases hX with ⟨rfl, rfl⟩ | ⟨rfl, rfl⟩ | ⟨h1, h2, h3⟩
  · exact ⟨_, _, h.hB, hi⟩
  · simp at hi
  · exact ⟨x, X, h3, hi⟩

/-- the function with the jump replaced by `unreachable` -/
def pullCut (F : Func Op C) (b t : Nat) (B : Block Op C) : Func Op C := (F.mapPhis t (fun ps => ps.map (fun p => p.removeSource b))).set b { B with term := .unreachable }

theorem PullOk.cut_blk (h : PullOk F b t B ps v) (x : Nat) : (pullCut F b t B).blk x =
    if x = b then some ⟨B.phis, B.body, .unreachable⟩ else if x = t then some ⟨ps.map (fun p => p.removeSource b), [], .ret v⟩ else F.blk x := by
  unfold pullCut
  rw [Func.set_blk]
  by_cases hx : x = b
  · rw [if_pos hx, if_pos hx]
  · rw [if_neg hx, if_neg hx, Func.mapPhis_blk]
    by_cases ht : x = t
    · subst ht
      rw [h.hT, if_pos rfl]
      simp only [Option.map_some, if_true]
    · rw [if_neg ht]
      cases F.blk x with
      | none => rfl
      | some X => simp only [Option.map_some, if_neg ht]

theorem PullOk.cut_edge (h : PullOk F b t B ps v) {x y : Nat} : Edge (pullCut F b t B) x y ↔ x ≠ b ∧ Edge F x y := by
  constructor
  · rintro ⟨X, hX, hy⟩
    rw [h.cut_blk] at hX
    by_cases hx : x = b
    · rw [if_pos hx] at hX; cases hX; simp [Term.targets] at hy
    · rw [if_neg hx] at hX
      by_cases ht : x = t
      · rw [if_pos ht] at hX; cases hX; simp [Term.targets] at hy
      · rw [if_neg ht] at hX; exact ⟨hx, X, hX, hy⟩
  · rintro ⟨h1, X, hX, hy⟩
    by_cases ht : x = t
    · subst ht
      have := Option.some.inj (h.hT.symm.trans hX)
      subst this
      simp [Term.targets] at hy
    · refine ⟨X, ?_, hy⟩
      rw [h.cut_blk, if_neg h1, if_neg ht, hX]

theorem PullOk.cut (h : PullOk F b t B ps v) (W : LiveWf F) : Cut F (pullCut F b t B) := by
  have key : ∀ x X X', F.blk x = some X → (pullCut F b t B).blk x = some X' → (x = b ∧ X = B ∧ X' = ⟨B.phis, B.body, .unreachable⟩) ∨
      (x = t ∧ X = ⟨ps, [], .ret v⟩ ∧ X' = ⟨ps.map (fun p => p.removeSource b), [], .ret v⟩) ∨ (x ≠ b ∧ x ≠ t ∧ X' = X) := by
    intro x X X' hX hX'
    rw [h.cut_blk] at hX'
    by_cases hx : x = b
    · subst hx
      rw [if_pos rfl] at hX'
      exact .inl ⟨rfl, Option.some.inj (hX.symm.trans h.hB), (Option.some.inj hX').symm⟩
    · rw [if_neg hx] at hX'
      by_cases ht : x = t
      · subst ht
        rw [if_pos rfl] at hX'
        exact .inr (.inl ⟨rfl, Option.some.inj (hX.symm.trans h.hT), (Option.some.inj hX').symm⟩)
      · rw [if_neg ht] at hX'
        exact .inr (.inr ⟨hx, ht, Option.some.inj (hX'.symm.trans hX)⟩)
  have hids : ∀ l : List (Phi C), (l.map (fun p => p.removeSource b)).map Phi.id = l.map Phi.id := by intro l; rw [List.map_map]; rfl
  refine ⟨by unfold pullCut; rw [Func.set_entry, Func.mapPhis_entry], by unfold pullCut; rw [Func.set_order, Func.mapPhis_order], ?_, ?_, ?_, ?_, ?_, ?_, ?_⟩
  · intro x hx
    rw [h.cut_blk, if_neg, if_neg, hx]
    · rintro rfl; rw [h.hT] at hx; cases hx
    · rintro rfl; rw [h.hB] at hx; cases hx
  · intro x X hX
    rw [h.cut_blk]
    split
    · exact ⟨_, rfl⟩
    · split
      · exact ⟨_, rfl⟩
      · exact ⟨X, hX⟩
  · intro x X X' hX hX'
    rcases key x X X' hX hX' with ⟨rfl, rfl, rfl⟩ | ⟨rfl, rfl, rfl⟩ | ⟨_, _, rfl⟩
    · exact .refl _
    · unfold Block.ids; rw [hids]
    · exact .refl _
  · intro x X X' hX hX'
    rcases key x X X' hX hX' with ⟨rfl, rfl, rfl⟩ | ⟨rfl, rfl, rfl⟩ | ⟨_, _, rfl⟩
    · intro y hy; simp [Term.targets] at hy
    · exact fun y hy => hy
    · exact fun y hy => hy
  · intro x X X' hX hX'
    rcases key x X X' hX hX' with ⟨rfl, rfl, rfl⟩ | ⟨rfl, rfl, rfl⟩ | ⟨_, _, rfl⟩
    · exact .inl rfl
    · exact .inr rfl
    · exact .inl rfl
  · intro x X X' hX hX'
    rcases key x X X' hX hX' with ⟨rfl, rfl, rfl⟩ | ⟨rfl, rfl, rfl⟩ | ⟨_, _, rfl⟩
    · refine .inl ⟨rfl, ⟨X.body.length, ?_⟩, fun y hy => by simp [Term.args] at hy⟩
      rw [List.take_length]; exact List.forall₂_same.2 (fun _ _ => ⟨rfl, fun _ h => h⟩)
    · refine .inl ⟨hids _, ⟨0, .nil⟩, fun y hy => ⟨hy, ?_⟩⟩
      unfold Block.ids; rw [hids]
    · exact (Cut.of_eq W).code x X' X' hX hX
  · intro x X X' hX hl hX' p' hp'
    rcases key x X X' hX hX' with ⟨rfl, rfl, rfl⟩ | ⟨rfl, rfl, rfl⟩ | ⟨hx, ht, rfl⟩
    · refine ⟨p', hp', fun q => ⟨fun ⟨w, hw⟩ => ⟨⟨w, hw⟩, h.cut_edge.2 ⟨?_, W.phiPred x X p' hX hl hp' q w hw⟩⟩, fun h => h.1⟩, fun q y h => h⟩
      rintro rfl
      obtain ⟨X2, hX2, h2⟩ := W.phiPred q X p' hX hl hp' q w hw
      have := Option.some.inj (hX2.symm.trans hX)
      subst this
      rw [h.term] at h2
      simp only [Term.targets, List.mem_singleton] at h2
      exact h.ne h2.symm
    · obtain ⟨p, hp, rfl⟩ := List.mem_map.1 hp'
      refine ⟨p, hp, fun q => ⟨?_, ?_⟩, fun q y hq => List.mem_of_mem_filter hq⟩
      · rintro ⟨w, hw⟩
        have h1 := List.mem_filter.1 hw
        exact ⟨⟨w, h1.1⟩, h.cut_edge.2 ⟨by simpa using h1.2, W.phiPred x _ p hX hl hp q w h1.1⟩⟩
      · rintro ⟨⟨w, hw⟩, he⟩
        exact ⟨w, List.mem_filter.2 ⟨hw, by simpa using (h.cut_edge.1 he).1⟩⟩
    · refine ⟨p', hp', fun q => ⟨fun ⟨w, hw⟩ => ⟨⟨w, hw⟩, h.cut_edge.2 ⟨?_, W.phiPred x X' p' hX hl hp' q w hw⟩⟩, fun h => h.1⟩, fun q y h => h⟩
      rintro rfl
      obtain ⟨X2, hX2, h2⟩ := W.phiPred x X' p' hX hl hp' q w hw
      have := Option.some.inj (hX2.symm.trans h.hB)
      subst this
      rw [h.term] at h2
      simp only [Term.targets, List.mem_singleton] at h2
      exact ht h2

/-- returning a value that is there -/
theorem LiveWf.setRet {G : Func Op C} (W : LiveWf G) (hB : G.blk b = some B) (ht : B.term.targets = []) {v : Option (Opd C)}
    (hv : ∀ x, v = some (.inst x) → Live G b → ∃ d, DefIn G x d ∧ Domi G d b) : LiveWf (G.set b { B with term := .ret v }) := by
  have key : ∀ {x X}, (G.set b { B with term := .ret v }).blk x = some X → ∃ Y, G.blk x = some Y ∧ X.phis = Y.phis ∧ X.body = Y.body ∧ X.term.targets = Y.term.targets ∧
      (∀ z, Opd.inst z ∈ X.term.args → Opd.inst z ∈ Y.term.args ∨ (x = b ∧ v = some (.inst z))) := by
    intro x X hX
    rw [Func.set_blk] at hX
    split at hX
    · rename_i hx
      cases hX
      refine ⟨B, hx ▸ hB, rfl, rfl, by rw [ht]; rfl, fun z hz => .inr ⟨hx, ?_⟩⟩
      cases v with
      | none => simp [Term.args] at hz
      | some o => simp only [Term.args, List.mem_singleton] at hz; rw [hz]
    · exact ⟨X, hX, rfl, rfl, rfl, fun z hz => .inl hz⟩
  have back : ∀ {x Y}, G.blk x = some Y → ∃ X, (G.set b { B with term := .ret v }).blk x = some X ∧ X.phis = Y.phis ∧ X.body = Y.body ∧ X.term.targets = Y.term.targets := by
    intro x Y hY
    rw [Func.set_blk]
    split
    · rename_i hx
      subst hx
      have := Option.some.inj (hY.symm.trans hB)
      subst this
      exact ⟨_, rfl, rfl, rfl, by rw [ht]; rfl⟩
    · exact ⟨Y, hY, rfl, rfl, rfl⟩
  have edge : ∀ x y, Edge (G.set b { B with term := .ret v }) x y ↔ Edge G x y := by
    intro x y
    constructor
    · rintro ⟨X, hX, hy⟩
      obtain ⟨Y, hY, _, _, h3, _⟩ := key hX
      exact ⟨Y, hY, h3 ▸ hy⟩
    · rintro ⟨Y, hY, hy⟩
      obtain ⟨X, hX, _, _, h3⟩ := back hY
      exact ⟨X, hX, h3 ▸ hy⟩
  have edgeEq : Edge (G.set b { B with term := .ret v }) = Edge G := by funext x y; exact propext (edge x y)
  have live : ∀ x, Live (G.set b { B with term := .ret v }) x ↔ Live G x := by intro x; unfold Live; rw [edgeEq]; rfl
  have domi : ∀ d x, Domi (G.set b { B with term := .ret v }) d x ↔ Domi G d x := by intro d x; unfold Domi; rw [edgeEq]; rfl
  have defIn : ∀ x d, DefIn (G.set b { B with term := .ret v }) x d ↔ DefIn G x d := by
    intro x d
    constructor
    · rintro ⟨X, hX, hm⟩
      obtain ⟨Y, hY, h1, h2, _⟩ := key hX
      refine ⟨Y, hY, ?_⟩
      unfold Block.ids at hm ⊢; rw [← h1, ← h2]; exact hm
    · rintro ⟨Y, hY, hm⟩
      obtain ⟨X, hX, h1, h2, _⟩ := back hY
      refine ⟨X, hX, ?_⟩
      unfold Block.ids at hm ⊢; rw [h1, h2]; exact hm
  refine { nodup := W.nodup, listed := ?_, total := ?_, entryIn := W.entryIn, closed := ?_, unique := ?_, entryPhis := ?_, inOrder := ?_, use := ?_, phiUse := ?_, phiPred := ?_, phiAll := ?_, phiDead := ?_ }
  · intro x X hX
    obtain ⟨Y, hY, _⟩ := key hX
    exact W.listed x Y hY
  · intro x hx
    obtain ⟨Y, hY⟩ := W.total x hx
    obtain ⟨X, hX, _⟩ := back hY
    exact ⟨X, hX⟩
  · intro x y e; exact W.closed x y ((edge x y).1 e)
  · have : (G.set b { B with term := .ret v }).allIds = G.allIds := by
      rw [allIds_eq, allIds_eq]
      show G.order.flatMap _ = G.order.flatMap _
      refine List.flatMap_congr (fun x hx => ?_)
      obtain ⟨Y, hY⟩ := W.total x hx
      obtain ⟨X, hX, h1, h2, _⟩ := back hY
      simp only [hX, hY, Block.ids, h1, h2]
    rw [this]; exact W.unique
  · intro X hX
    obtain ⟨Y, hY, h1, _⟩ := key hX
    rw [h1]; exact W.entryPhis Y hY
  · intro x X hX hl
    obtain ⟨Y, hY, h1, h2, h3, h4⟩ := key hX
    have ho := W.inOrder x Y hY ((live x).1 hl)
    refine ⟨?_, ?_⟩
    · unfold Block.ids
      rw [h1, h2]
      exact ho.1
    · intro z hz hm
      unfold Block.ids at hm
      exact List.mem_append.1 hm
  · intro x X z hX hl hu
    obtain ⟨Y, hY, h1, h2, h3, h4⟩ := key hX
    have hl' := (live x).1 hl
    have : ∃ d, DefIn G z d ∧ Domi G d x := by
      rcases hu with ⟨i, hi, hz⟩ | hz
      · exact W.use x Y z hY hl' (.inl ⟨i, h2 ▸ hi, hz⟩)
      · rcases h4 z hz with h5 | ⟨rfl, h5⟩
        · exact W.use x Y z hY hl' (.inr h5)
        · exact hv z h5 hl'
    obtain ⟨d, hd, hdom⟩ := this
    exact ⟨d, (defIn z d).2 hd, (domi d x).2 hdom⟩
  · intro x X p q z hX hl hp hz hq
    obtain ⟨Y, hY, h1, _⟩ := key hX
    obtain ⟨d, hd, hdom⟩ := W.phiUse x Y p q z hY ((live x).1 hl) (h1 ▸ hp) hz ((live q).1 hq)
    exact ⟨d, (defIn z d).2 hd, (domi d q).2 hdom⟩
  · intro x X p hX hl hp q w hw
    obtain ⟨Y, hY, h1, _⟩ := key hX
    exact (edge q x).2 (W.phiPred x Y p hY ((live x).1 hl) (h1 ▸ hp) q w hw)
  · intro x X p q hX hl hp he hq
    obtain ⟨Y, hY, h1, _⟩ := key hX
    exact W.phiAll x Y p q hY ((live x).1 hl) (h1 ▸ hp) ((edge q x).1 he) ((live q).1 hq)
  · intro x X p p' q w hX hl hp hp' hw
    obtain ⟨Y, hY, h1, _⟩ := key hX
    exact W.phiDead x Y p p' q w hY ((live x).1 hl) (h1 ▸ hp) (h1 ▸ hp') hw

theorem PullOk.isEdge (h : PullOk F b t B ps v) : Edge F b t := ⟨B, h.hB, by rw [h.term]; simp [Term.targets]⟩

/-- what is returned is known in front of the return -/
theorem PullOk.known (h : PullOk F b t B ps v) (W : LiveWf F) (hl : Live F b) {x : Nat} (hx : pullOpd b ps v = some (.inst x)) : ∃ d, DefIn F x d ∧ Domi F d b := by
  have hlt := hl.edge h.isEdge
  obtain ⟨o, rfl, h1⟩ := pullOpd_cases hx
  rcases h1 with ⟨rfl, h1⟩ | ⟨p, hp, rfl, hat⟩
  · obtain ⟨d, hd, hdom⟩ := W.use t _ x h.hT hlt (.inr (by simp [Term.args]))
    refine ⟨d, hd, domi_pred hdom ?_ h.isEdge⟩
    rintro rfl
    rcases h1 with h1 | ⟨p, hp, _, hat⟩
    · obtain ⟨T, hT, hm⟩ := hd
      have := Option.some.inj (hT.symm.trans h.hT)
      subst this
      simp only [Block.ids, List.map_nil, List.append_nil, List.mem_map] at hm
      obtain ⟨p, hp, rfl⟩ := hm
      exact h1 p hp rfl
    · obtain ⟨w, hw⟩ := W.phiAll d _ p b h.hT hlt hp h.isEdge hl
      obtain ⟨w', hw'⟩ := Phi.at_ex ⟨w, hw⟩
      rw [hat] at hw'; cases hw'
  · exact W.phiUse t _ p b x h.hT hlt hp (Phi.at_mem hat) hl

theorem PullOk.liveWf (h : PullOk F b t B ps v) (W : LiveWf F) : LiveWf (pulled F b t B ps v) := by
  have hc := h.cut W
  have hWc := hc.liveWf W
  have hb : (pullCut F b t B).blk b = some ⟨B.phis, B.body, .unreachable⟩ := by rw [h.cut_blk, if_pos rfl]
  have := hWc.setRet hb rfl (v := pullOpd b ps v) (by
    intro x hx hl
    obtain ⟨d, hd, hdom⟩ := h.known W (hc.live hl) hx
    refine ⟨d, ?_, hc.domi hdom⟩
    by_cases hdb : d = b
    · subst hdb
      obtain ⟨B', hB', hm⟩ := hd
      have := Option.some.inj (hB'.symm.trans h.hB)
      subst this
      exact ⟨_, hb, hm⟩
    · exact hc.domKeeps hd hdom hl hdb)
  have e : (pullCut F b t B).set b { (⟨B.phis, B.body, .unreachable⟩ : Block Op C) with term := .ret (pullOpd b ps v) } = pulled F b t B ps v := by
    unfold pulled pullRet pullCut Func.set
    simp only [Func.mk.injEq, true_and]
    funext x
    split <;> rfl
  rw [e] at this
  exact this

end
end Cmmc.SSA
