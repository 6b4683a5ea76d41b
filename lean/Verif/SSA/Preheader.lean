import Verif.SSA.PhiMerge
import Verif.SSA.M2Main
import Verif.SSA.M2Proper
import Verif.SSA.Sink
import Verif.SSA.ScevRun
/-!
# A block in front of a loop

The first half of LoopInvariantCodeMotion (cmmc/Transforms/Loop/LoopInvariantCodeMotion.cpp:96-125): a one-block loop gets a block in front
of it, through which all jumps into the loop go, and whose phis collect the values from outside.
-/
namespace Cmmc.SSA

section
variable {Op C : Type}

/-- the clones of the phis (LoopInvariantCodeMotion.cpp:104-106): `phi->removeSource(block)` -/
def clonePhis (b : Nat) : Nat → List (Phi C) → List (Phi C)
  | _, [] => []
  | n, p :: ps => ⟨n, p.inc.filter (fun e => e.1 != b)⟩ :: clonePhis b (n + 1) ps

/-- the phis of the loop (LoopInvariantCodeMotion.cpp:108-109): `keepOneIncoming(block)`, `addIncoming(pre, phi)` -/
def loopPhis (b pre : Nat) : Nat → List (Phi C) → List (Phi C)
  | _, [] => []
  | n, p :: ps => ⟨p.id, p.inc.filter (fun e => e.1 == b) ++ [(pre, .inst n)]⟩ :: loopPhis b pre (n + 1) ps

/-- the new block `pre` in front of `b`, whose phis get the ids `n`, `n + 1`, …; all other blocks jump to `pre` instead of `b` (l.115-118;
the code visits the predecessors only) -/
def Func.preheader (F : Func Op C) (b pre n : Nat) : Func Op C :=
  { entry := F.entry
    order := F.order ++ [pre]
    blk := fun d =>
      if d = pre then (F.blk b).map (fun B => { phis := clonePhis b n B.phis, body := [], term := .br b })
      else (F.blk d).map (fun D => if d = b then { D with phis := loopPhis b pre n D.phis } else { D with term := D.term.reset b pre }) }

/-! ## the phis -/

theorem mem_clonePhis {b : Nat} {c : Phi C} : ∀ {ps : List (Phi C)} {n : Nat}, c ∈ clonePhis b n ps ↔ ∃ k p, ps[k]? = some p ∧ c = ⟨n + k, p.inc.filter (fun e => e.1 != b)⟩ := by
  intro ps
  induction ps with
  | nil => intro n; simp [clonePhis]
  | cons p ps ih =>
    intro n
    simp only [clonePhis, List.mem_cons, ih]
    constructor
    · rintro (rfl | ⟨k, p', h1, h2⟩)
      · exact ⟨0, p, rfl, rfl⟩
      · exact ⟨k + 1, p', by simpa using h1, by rw [h2]; congr 1; omega⟩
    · rintro ⟨k, p', h1, h2⟩
      cases k with
      | zero => simp at h1; subst h1; exact .inl h2
      | succ k => exact .inr ⟨k, p', by simpa using h1, by rw [h2]; congr 1; omega⟩

theorem mem_loopPhis {b pre : Nat} {c : Phi C} : ∀ {ps : List (Phi C)} {n : Nat}, c ∈ loopPhis b pre n ps ↔ ∃ k p, ps[k]? = some p ∧ c = ⟨p.id, p.inc.filter (fun e => e.1 == b) ++ [(pre, .inst (n + k))]⟩ := by
  intro ps
  induction ps with
  | nil => intro n; simp [loopPhis]
  | cons p ps ih =>
    intro n
    simp only [loopPhis, List.mem_cons, ih]
    constructor
    · rintro (rfl | ⟨k, p', h1, h2⟩)
      · exact ⟨0, p, rfl, rfl⟩
      · exact ⟨k + 1, p', by simpa using h1, by rw [h2, Nat.add_right_comm]; rfl⟩
    · rintro ⟨k, p', h1, h2⟩
      cases k with
      | zero => simp at h1; subst h1; exact .inl h2
      | succ k => exact .inr ⟨k, p', by simpa using h1, by rw [h2, Nat.add_right_comm]; rfl⟩

theorem clonePhis_ids {b : Nat} : ∀ {ps : List (Phi C)} {n : Nat}, (clonePhis b n ps).map Phi.id = List.range' n ps.length := by
  intro ps
  induction ps with
  | nil => intro n; rfl
  | cons p ps ih => intro n; simp [clonePhis, ih, List.range'_succ]

theorem loopPhis_ids {b pre : Nat} : ∀ {ps : List (Phi C)} {n : Nat}, (loopPhis b pre n ps).map Phi.id = ps.map Phi.id := by
  intro ps
  induction ps with
  | nil => intro n; rfl
  | cons p ps ih => intro n; simp [loopPhis, ih]

/-! ## the flow graph -/

/-- the situation: `b` is a block of `F` other than the entry, `pre` and `n`, `n + 1`, … are new -/
structure PreOk (F : Func Op C) (b pre n : Nat) (B : Block Op C) : Prop where
  wf : LiveWf F
  live : AllLive F
  hB : F.blk b = some B
  entry : b ≠ F.entry
  fresh : pre ∉ F.order
  ids : ∀ x d, DefIn F x d → x < n

variable {F : Func Op C} {b pre n : Nat} {B : Block Op C}

theorem PreOk.noPre (P : PreOk F b pre n B) : F.blk pre = none := by
  cases h : F.blk pre with
  | none => rfl
  | some D => exact absurd (P.wf.listed pre D h) P.fresh

theorem PreOk.bIn (P : PreOk F b pre n B) : b ∈ F.order := P.wf.listed b B P.hB

theorem PreOk.ne (P : PreOk F b pre n B) : b ≠ pre := fun h => P.fresh (h ▸ P.bIn)

theorem PreOk.edgeNe (P : PreOk F b pre n B) {x y : Nat} (h : Edge F x y) : x ≠ pre ∧ y ≠ pre := by
  refine ⟨?_, fun e => P.fresh (e ▸ P.wf.closed x y h)⟩
  rintro rfl
  obtain ⟨D, hD, _⟩ := h
  rw [P.noPre] at hD; cases hD

/-- the blocks of the new function -/
theorem PreOk.cases (P : PreOk F b pre n B) {d : Nat} {D' : Block Op C} (h : (F.preheader b pre n).blk d = some D') :
    (d = pre ∧ D' = { phis := clonePhis b n B.phis, body := [], term := .br b }) ∨ (d = b ∧ D' = { B with phis := loopPhis b pre n B.phis }) ∨
      (d ≠ b ∧ d ≠ pre ∧ ∃ D, F.blk d = some D ∧ D' = { D with term := D.term.reset b pre }) := by
  unfold Func.preheader at h
  dsimp only at h
  split at h
  · rw [P.hB] at h
    simp only [Option.map_some, Option.some.injEq] at h
    exact .inl ⟨by assumption, h.symm⟩
  · rename_i hd
    rw [Option.map_eq_some_iff] at h
    obtain ⟨D, hD, h⟩ := h
    split at h
    · rename_i hdb
      subst hdb
      rw [P.hB] at hD; cases hD
      exact .inr (.inl ⟨rfl, h.symm⟩)
    · exact .inr (.inr ⟨by assumption, hd, D, hD, h.symm⟩)

theorem PreOk.blkPre (P : PreOk F b pre n B) : (F.preheader b pre n).blk pre = some { phis := clonePhis b n B.phis, body := [], term := .br b } := by
  simp [Func.preheader, P.hB]

theorem PreOk.blkB (P : PreOk F b pre n B) : (F.preheader b pre n).blk b = some { B with phis := loopPhis b pre n B.phis } := by
  simp [Func.preheader, P.hB, P.ne]

theorem PreOk.blk (P : PreOk F b pre n B) {d : Nat} {D : Block Op C} (hD : F.blk d = some D) (hd : d ≠ b) : (F.preheader b pre n).blk d = some { D with term := D.term.reset b pre } := by
  have : d ≠ pre := by rintro rfl; rw [P.noPre] at hD; cases hD
  simp [Func.preheader, hD, hd, this]

theorem PreOk.edge (P : PreOk F b pre n B) {x y : Nat} : Edge (F.preheader b pre n) x y ↔ (x = pre ∧ y = b) ∨ (x = b ∧ Edge F b y) ∨ (x ≠ b ∧ y = pre ∧ Edge F x b) ∨ (x ≠ b ∧ y ≠ b ∧ Edge F x y) := by
  constructor
  · rintro ⟨D', hD', ht⟩
    rcases P.cases hD' with ⟨rfl, rfl⟩ | ⟨rfl, rfl⟩ | ⟨h1, h2, D, hD, rfl⟩
    · simp only [Term.targets, List.mem_singleton] at ht; exact .inl ⟨rfl, ht⟩
    · exact .inr (.inl ⟨rfl, B, P.hB, ht⟩)
    · rcases (Term.reset_mem P.ne).1 ht with ⟨h3, h4⟩ | ⟨rfl, h3⟩
      · exact .inr (.inr (.inr ⟨h1, h4, D, hD, h3⟩))
      · exact .inr (.inr (.inl ⟨h1, rfl, D, hD, h3⟩))
  · rintro (⟨rfl, rfl⟩ | ⟨rfl, D, hD, ht⟩ | ⟨h1, rfl, D, hD, ht⟩ | ⟨h1, h2, D, hD, ht⟩)
    · exact ⟨_, P.blkPre, by simp [Term.targets]⟩
    · rw [P.hB] at hD; cases hD
      exact ⟨_, P.blkB, ht⟩
    · exact ⟨_, P.blk hD h1, (Term.reset_mem P.ne).2 (.inr ⟨rfl, ht⟩)⟩
    · exact ⟨_, P.blk hD h1, (Term.reset_mem P.ne).2 (.inl ⟨ht, h2⟩)⟩

/-- paths of the new function are paths of the old one with `pre` inserted -/
theorem PreOk.path (P : PreOk F b pre n B) : ∀ (N : Nat) {x : Nat} {p : List Nat}, p.length ≤ N → Dom.Path (Edge (F.preheader b pre n)) F.entry x p →
    if x = pre then ∃ q p', q ≠ b ∧ Edge F q b ∧ Dom.Path (Edge F) F.entry q p' ∧ ∀ y ∈ p', y ∈ p else ∃ p', Dom.Path (Edge F) F.entry x p' ∧ ∀ y ∈ p', y ∈ p := by
  intro N
  induction N with
  | zero => intro x p hp h; cases h <;> simp at hp
  | succ N ih =>
    intro x p hp h
    rcases path_unsnoc h with ⟨rfl, rfl⟩ | ⟨q, p0, h1, h2, rfl⟩
    · have : F.entry ≠ pre := fun e => P.fresh (e ▸ P.wf.entryIn)
      rw [if_neg this]
      exact ⟨[F.entry], .single _, fun _ h => h⟩
    · have hlen : p0.length ≤ N := by simp at hp; omega
      have hsub : ∀ {p' : List Nat}, (∀ y ∈ p', y ∈ p0) → ∀ y ∈ p', y ∈ p0 ++ [x] := fun h y hy => List.mem_append_left _ (h y hy)
      have := ih hlen h1
      rcases P.edge.1 h2 with ⟨rfl, rfl⟩ | ⟨rfl, he⟩ | ⟨hq, rfl, he⟩ | ⟨hq, hx, he⟩
      · rw [if_pos rfl] at this
        obtain ⟨q, p', _, hq2, hp', hs⟩ := this
        rw [if_neg P.ne]
        refine ⟨p' ++ [x], path_snoc hp' hq2, ?_⟩
        intro y hy
        rcases List.mem_append.1 hy with hy | hy
        · exact hsub hs y hy
        · exact List.mem_append_right _ hy
      · rw [if_neg P.ne] at this
        obtain ⟨p', hp', hs⟩ := this
        rw [if_neg (P.edgeNe he).2]
        refine ⟨p' ++ [x], path_snoc hp' he, ?_⟩
        intro y hy
        rcases List.mem_append.1 hy with hy | hy
        · exact hsub hs y hy
        · exact List.mem_append_right _ hy
      · rw [if_neg (P.edgeNe he).1] at this
        obtain ⟨p', hp', hs⟩ := this
        rw [if_pos rfl]
        exact ⟨q, p', hq, he, hp', hsub hs⟩
      · rw [if_neg (P.edgeNe he).1] at this
        obtain ⟨p', hp', hs⟩ := this
        rw [if_neg (P.edgeNe he).2]
        refine ⟨p' ++ [x], path_snoc hp' he, ?_⟩
        intro y hy
        rcases List.mem_append.1 hy with hy | hy
        · exact hsub hs y hy
        · exact List.mem_append_right _ hy

theorem PreOk.domi (P : PreOk F b pre n B) {a x : Nat} (h : Domi F a x) (hx : x ≠ pre) : Domi (F.preheader b pre n) a x := by
  intro p hp
  have := P.path _ le_rfl hp
  rw [if_neg hx] at this
  obtain ⟨p', hp', hs⟩ := this
  exact hs _ (h p' hp')

/-- the new block dominates the loop -/
theorem PreOk.preDomi (P : PreOk F b pre n B) : Domi (F.preheader b pre n) pre b := by
  intro p hp
  obtain ⟨q, h1, h2, h3⟩ := first_visit hp (path_end hp)
  refine h2 pre ?_
  rcases path_unsnoc h1 with ⟨h, _⟩ | ⟨x, p', h4, h5, rfl⟩
  · exact absurd h.symm P.entry
  · rcases P.edge.1 h5 with ⟨rfl, _⟩ | ⟨rfl, _⟩ | ⟨_, h, _⟩ | ⟨_, h, _⟩
    · exact List.mem_append_left _ (path_end h4)
    · rw [List.count_append] at h3
      have := List.count_pos_iff.2 (path_end h4)
      simp at h3
      omega
    · exact absurd h P.ne
    · exact absurd rfl h

theorem PreOk.liveOld (P : PreOk F b pre n B) {x : Nat} (h : Live F x) : Live (F.preheader b pre n) x := by
  obtain ⟨p, hp⟩ := h
  suffices ∀ (N : Nat) {x : Nat} {p : List Nat}, p.length ≤ N → Dom.Path (Edge F) F.entry x p → Live (F.preheader b pre n) x from this _ le_rfl hp
  intro N
  induction N with
  | zero => intro x p hp h; cases h <;> simp at hp
  | succ N ih =>
    intro x p hp h
    rcases path_unsnoc h with ⟨rfl, rfl⟩ | ⟨q, p0, h1, h2, rfl⟩
    · exact ⟨[F.entry], .single _⟩
    · obtain ⟨l, hl⟩ := ih (by simp at hp; omega) h1
      by_cases hq : q = b
      · subst hq; exact ⟨_, path_snoc hl (P.edge.2 (.inr (.inl ⟨rfl, h2⟩)))⟩
      · by_cases hx : x = b
        · subst hx
          exact ⟨_, path_snoc (path_snoc hl (P.edge.2 (.inr (.inr (.inl ⟨hq, rfl, h2⟩))))) (P.edge.2 (.inl ⟨rfl, rfl⟩))⟩
        · exact ⟨_, path_snoc hl (P.edge.2 (.inr (.inr (.inr ⟨hq, hx, h2⟩))))⟩

theorem PreOk.livePre (P : PreOk F b pre n B) : Live (F.preheader b pre n) pre := by
  obtain ⟨q, hq, he, hd⟩ := entering (P.live b B P.hB) P.entry
  have hqb : q ≠ b := fun e => hd (e ▸ domi_self F b)
  obtain ⟨l, hl⟩ := P.liveOld hq
  exact ⟨_, path_snoc hl (P.edge.2 (.inr (.inr (.inl ⟨hqb, rfl, he⟩))))⟩

theorem PreOk.allLive (P : PreOk F b pre n B) : AllLive (F.preheader b pre n) := by
  intro d D' h
  rcases P.cases h with ⟨rfl, _⟩ | ⟨rfl, _⟩ | ⟨_, _, D, hD, _⟩
  · exact P.livePre
  · exact P.liveOld (P.live d B P.hB)
  · exact P.liveOld (P.live d D hD)

theorem PreOk.defIn (P : PreOk F b pre n B) {x d : Nat} : DefIn (F.preheader b pre n) x d ↔ DefIn F x d ∨ (d = pre ∧ n ≤ x ∧ x < n + B.phis.length) := by
  constructor
  · rintro ⟨D', hD', hx⟩
    rcases P.cases hD' with ⟨rfl, rfl⟩ | ⟨rfl, rfl⟩ | ⟨_, _, D, hD, rfl⟩
    · right
      simp only [Block.ids, clonePhis_ids, List.map_nil, List.append_nil, List.mem_range'_1] at hx
      exact ⟨rfl, hx⟩
    · left
      simp only [Block.ids, loopPhis_ids] at hx
      exact ⟨B, P.hB, hx⟩
    · exact .inl ⟨D, hD, hx⟩
  · rintro (⟨D, hD, hx⟩ | ⟨rfl, hx⟩)
    · by_cases hd : d = b
      · subst hd
        rw [P.hB] at hD; cases hD
        exact ⟨_, P.blkB, by simpa only [Block.ids, loopPhis_ids] using hx⟩
      · exact ⟨_, P.blk hD hd, hx⟩
    · exact ⟨_, P.blkPre, by simpa only [Block.ids, clonePhis_ids, List.map_nil, List.append_nil, List.mem_range'_1] using hx⟩

theorem PreOk.liveWf (P : PreOk F b pre n B) : LiveWf (F.preheader b pre n) := by
  have W := P.wf
  have hlB := P.live b B P.hB
  have phiB : ∀ {k : Nat} {p : Phi C}, B.phis[k]? = some p → p ∈ B.phis := fun h => List.mem_of_getElem? h
  have old : ∀ {x h q}, DefIn F x h → Domi F h q → q ≠ pre → ∃ h, DefIn (F.preheader b pre n) x h ∧ Domi (F.preheader b pre n) h q :=
    fun h1 h2 h3 => ⟨_, P.defIn.2 (.inl h1), P.domi h2 h3⟩
  have notPre : ∀ {d D}, F.blk d = some D → d ≠ pre := by rintro d D h rfl; rw [P.noPre] at h; cases h
  refine { nodup := ?_, listed := ?_, total := ?_, entryIn := List.mem_append_left _ W.entryIn, closed := ?_, unique := ?_, entryPhis := ?_, inOrder := ?_, use := ?_, phiUse := ?_, phiPred := ?_, phiAll := ?_, phiDead := ?_ }
  · exact List.nodup_append.2 ⟨W.nodup, by simp, by rintro x hx y hy rfl; simp at hy; exact P.fresh (hy ▸ hx)⟩
  · intro d D' h
    rcases P.cases h with ⟨rfl, _⟩ | ⟨rfl, _⟩ | ⟨_, _, D, hD, _⟩
    · exact List.mem_append_right _ (by simp)
    · exact List.mem_append_left _ P.bIn
    · exact List.mem_append_left _ (W.listed d D hD)
  · intro d hd
    rcases List.mem_append.1 hd with hd | hd
    · obtain ⟨D, hD⟩ := W.total d hd
      by_cases h : d = b
      · subst h; exact ⟨_, P.blkB⟩
      · exact ⟨_, P.blk hD h⟩
    · simp only [List.mem_singleton] at hd; subst hd; exact ⟨_, P.blkPre⟩
  · intro x y e
    rcases P.edge.1 e with ⟨_, rfl⟩ | ⟨_, he⟩ | ⟨_, rfl, _⟩ | ⟨_, _, he⟩
    · exact List.mem_append_left _ P.bIn
    · exact List.mem_append_left _ (W.closed _ _ he)
    · exact List.mem_append_right _ (by simp)
    · exact List.mem_append_left _ (W.closed _ _ he)
  · refine nodup_allIds ?_ ?_ ?_
    · exact List.nodup_append.2 ⟨W.nodup, by simp, by rintro x hx y hy rfl; simp at hy; exact P.fresh (hy ▸ hx)⟩
    · intro d D' h
      rcases P.cases h with ⟨rfl, rfl⟩ | ⟨rfl, rfl⟩ | ⟨_, _, D, hD, rfl⟩
      · simp only [Block.ids, clonePhis_ids, List.map_nil, List.append_nil]; exact List.nodup_range'
      · simp only [Block.ids, loopPhis_ids]; exact W.block_ids P.hB
      · exact (W.block_ids hD : D.ids.Nodup)
    · intro x d e h1 h2
      rcases P.defIn.1 h1 with h3 | ⟨h5, h3, _⟩ <;> rcases P.defIn.1 h2 with h4 | ⟨h6, h4, _⟩
      · exact W.home h3 h4
      · have := P.ids x d h3; omega
      · have := P.ids x e h4; omega
      · rw [h5, h6]
  · intro D' h
    rcases P.cases h with ⟨h, _⟩ | ⟨h, _⟩ | ⟨_, _, D, hD, rfl⟩
    · exact absurd (h ▸ W.entryIn) P.fresh
    · exact absurd h.symm P.entry
    · exact W.entryPhis D hD
  · intro d D' h _
    rcases P.cases h with ⟨rfl, rfl⟩ | ⟨rfl, rfl⟩ | ⟨_, _, D, hD, rfl⟩
    · exact ⟨by intro pre i post h; simp at h, by intro x hx; simp [Term.args] at hx⟩
    · have := W.inOrder _ B P.hB hlB
      unfold InOrder Block.ids at this ⊢
      simpa only [loopPhis_ids] using this
    · have := W.inOrder _ D hD (P.live _ D hD)
      unfold InOrder Block.ids at this ⊢
      simpa only [Term.reset_args] using this
  · intro d D' x h _ hx
    rcases P.cases h with ⟨rfl, rfl⟩ | ⟨rfl, rfl⟩ | ⟨_, hd, D, hD, rfl⟩
    · rcases hx with ⟨i, hi, _⟩ | hx
      · simp at hi
      · simp [Term.args] at hx
    · obtain ⟨h, h1, h2⟩ := W.use _ B x P.hB hlB hx
      exact old h1 h2 P.ne
    · obtain ⟨h, h1, h2⟩ := W.use _ D x hD (P.live _ D hD) (by simpa only [Term.reset_args] using hx)
      exact old h1 h2 hd
  · intro d D' c q x h _ hc hx _
    rcases P.cases h with ⟨rfl, rfl⟩ | ⟨rfl, rfl⟩ | ⟨_, hd, D, hD, rfl⟩
    · obtain ⟨k, p, hk, rfl⟩ := mem_clonePhis.1 hc
      have hx := List.mem_of_mem_filter hx
      have he := W.phiPred b B p P.hB hlB (phiB hk) q _ hx
      obtain ⟨Q, hQ, _⟩ := id he
      obtain ⟨h, h1, h2⟩ := W.phiUse b B p q x P.hB hlB (phiB hk) hx (P.live q Q hQ)
      exact old h1 h2 (P.edgeNe he).1
    · obtain ⟨k, p, hk, rfl⟩ := mem_loopPhis.1 hc
      rcases List.mem_append.1 hx with hx | hx
      · have hq : q = d := by simpa using (List.mem_filter.1 hx).2
        subst hq
        obtain ⟨h, h1, h2⟩ := W.phiUse _ B p _ x P.hB hlB (phiB hk) (List.mem_of_mem_filter hx) hlB
        exact old h1 h2 P.ne
      · simp only [List.mem_singleton, Prod.mk.injEq, Opd.inst.injEq] at hx
        obtain ⟨rfl, rfl⟩ := hx
        have hlt : k < B.phis.length := by
          rw [List.getElem?_eq_some_iff] at hk; exact hk.1
        exact ⟨q, P.defIn.2 (.inr ⟨rfl, by omega, by omega⟩), domi_self _ _⟩
    · have he := W.phiPred d D c hD (P.live d D hD) hc q _ hx
      obtain ⟨Q, hQ, _⟩ := id he
      obtain ⟨h, h1, h2⟩ := W.phiUse d D c q x hD (P.live d D hD) hc hx (P.live q Q hQ)
      exact old h1 h2 (P.edgeNe he).1
  · intro d D' c h _ hc q v hv
    rcases P.cases h with ⟨rfl, rfl⟩ | ⟨rfl, rfl⟩ | ⟨hdb, hd, D, hD, rfl⟩
    · obtain ⟨k, p, hk, rfl⟩ := mem_clonePhis.1 hc
      obtain ⟨hv, hq⟩ := List.mem_filter.1 hv
      exact P.edge.2 (.inr (.inr (.inl ⟨by simpa using hq, rfl, W.phiPred b B p P.hB hlB (phiB hk) q v hv⟩)))
    · obtain ⟨k, p, hk, rfl⟩ := mem_loopPhis.1 hc
      rcases List.mem_append.1 hv with hv | hv
      · obtain ⟨hv2, hq⟩ := List.mem_filter.1 hv
        have hq : q = d := by simpa using hq
        subst hq
        exact P.edge.2 (.inr (.inl ⟨rfl, W.phiPred _ B p P.hB hlB (phiB hk) _ v hv2⟩))
      · simp only [List.mem_singleton, Prod.mk.injEq] at hv
        exact P.edge.2 (.inl ⟨hv.1, rfl⟩)
    · have he := W.phiPred d D c hD (P.live d D hD) hc q v hv
      by_cases hq : q = b
      · subst hq; exact P.edge.2 (.inr (.inl ⟨rfl, he⟩))
      · exact P.edge.2 (.inr (.inr (.inr ⟨hq, hdb, he⟩)))
  · intro d D' c q h _ hc e _
    rcases P.cases h with ⟨rfl, rfl⟩ | ⟨rfl, rfl⟩ | ⟨hdb, hd, D, hD, rfl⟩
    · obtain ⟨k, p, hk, rfl⟩ := mem_clonePhis.1 hc
      rcases P.edge.1 e with ⟨_, h⟩ | ⟨_, he⟩ | ⟨hq, _, he⟩ | ⟨_, _, he⟩
      · exact absurd h.symm P.ne
      · exact absurd rfl (P.edgeNe he).2
      · obtain ⟨Q, hQ, _⟩ := id he
        obtain ⟨v, hv⟩ := W.phiAll b B p q P.hB hlB (phiB hk) he (P.live q Q hQ)
        exact ⟨v, List.mem_filter.2 ⟨hv, by simpa using hq⟩⟩
      · exact absurd rfl (P.edgeNe he).2
    · obtain ⟨k, p, hk, rfl⟩ := mem_loopPhis.1 hc
      rcases P.edge.1 e with ⟨rfl, _⟩ | ⟨rfl, he⟩ | ⟨_, h, _⟩ | ⟨_, h, _⟩
      · exact ⟨_, List.mem_append_right _ (by simp; rfl)⟩
      · obtain ⟨v, hv⟩ := W.phiAll _ B p _ P.hB hlB (phiB hk) he hlB
        exact ⟨v, List.mem_append_left _ (List.mem_filter.2 ⟨hv, by simp⟩)⟩
      · exact absurd h P.ne
      · exact absurd rfl h
    · rcases P.edge.1 e with ⟨_, h⟩ | ⟨rfl, he⟩ | ⟨_, h, _⟩ | ⟨_, _, he⟩
      · exact absurd h hdb
      · exact W.phiAll d D c _ hD (P.live d D hD) hc he hlB
      · exact absurd h hd
      · obtain ⟨Q, hQ, _⟩ := id he
        exact W.phiAll d D c q hD (P.live d D hD) hc he (P.live q Q hQ)
  · intro d D' c c' q v h _ hc hc' hv
    rcases P.cases h with ⟨rfl, rfl⟩ | ⟨rfl, rfl⟩ | ⟨hdb, hd, D, hD, rfl⟩
    · obtain ⟨k, p, hk, rfl⟩ := mem_clonePhis.1 hc
      obtain ⟨k', p', hk', rfl⟩ := mem_clonePhis.1 hc'
      obtain ⟨hv, hq⟩ := List.mem_filter.1 hv
      obtain ⟨v', hv'⟩ := W.phiDead b B p p' q v P.hB hlB (phiB hk) (phiB hk') hv
      exact ⟨v', List.mem_filter.2 ⟨hv', hq⟩⟩
    · obtain ⟨k, p, hk, rfl⟩ := mem_loopPhis.1 hc
      obtain ⟨k', p', hk', rfl⟩ := mem_loopPhis.1 hc'
      rcases List.mem_append.1 hv with hv | hv
      · obtain ⟨hv, hq⟩ := List.mem_filter.1 hv
        obtain ⟨v', hv'⟩ := W.phiDead _ B p p' q v P.hB hlB (phiB hk) (phiB hk') hv
        exact ⟨v', List.mem_append_left _ (List.mem_filter.2 ⟨hv', hq⟩)⟩
      · simp only [List.mem_singleton, Prod.mk.injEq] at hv
        exact ⟨_, List.mem_append_right _ (by rw [hv.1]; simp; rfl)⟩
    · exact W.phiDead d D c c' q v hD (P.live d D hD) hc hc' hv

end
end Cmmc.SSA
