import Verif.SSA.ScevRun
import Verif.SSA.ReorderMain
import Verif.SSA.ReorderSem
/-!
# C90: LoopEliminate (cmmc/Transforms/Loop/LoopEliminate.cpp)

A loop that consists of one block, with constant initial value and bound, is left after the first iteration if the next value of the
induction variable has reached the bound. The pass then makes the condition of the back edge `false`.
-/
namespace Cmmc.SSA

/-- the comparison of two signed integers; `none`: predicates that LoopAnalysis does not look at -/
def ICmp.holds : ICmp → Int → Int → Option Bool
  | .ne, a, b => some (decide (a ≠ b))
  | .slt, a, b => some (decide (a < b))
  | .sgt, a, b => some (decide (b < a))
  | .other, _, _ => none

/-- what the pass needs of the IR in addition to `LoopOps`: comparisons of signed integers of `w` bits
(if there are constants of `w` bits), `ConstantInteger::getFalse()`, and
that additions and comparisons depend on their operands only -/
structure ExitOps (L : Lang) extends LoopOps L where
  pure : L.Op → Bool
  movable : Movable L pure
  add_pure : ∀ op, isAdd op = true → pure op = true
  cmp_pure : ∀ op pr, cmp op = some pr → pure op = true
  cmp_sem : ∀ op pr w a b m v m' es, (∃ c z, num c = some (w, z)) → cmp op = some pr → L.sem op [int w a, int w b] m = .ok v m' es →
    ∀ r, pr.holds (Int.bmod a (2 ^ w)) (Int.bmod b (2 ^ w)) = some r → L.truth v = some r
  no : L.C
  no_false : L.truth (L.cval no) = some false

section
variable {L : Lang}

/-- the test (LoopEliminate.cpp:34-43) -/
def LoopOps.once (O : LoopOps L) (li : LoopInfo L.C) : Bool :=
  decide (li.header = li.latch) && match O.lit li.bound, O.lit li.initial with
    | some bound, some initial => (decide (li.step > 0) && decide (initial + li.step ≥ bound)) || (decide (li.step < 0) && decide (initial + li.step ≤ bound))
    | _, _ => false

/-- `terminator->mutableOperands()[0]->resetValue(ConstantInteger::getFalse())` (LoopEliminate.cpp:46-47) -/
def Func.never {Op C : Type} (F : Func Op C) (no : C) (b : Nat) : Func Op C :=
  F.mapBlocks fun d B => if d = b then { B with term := match B.term with | .cbr _ t f => .cbr (.cst no) t f | t => t } else B

/-- `LoopEliminate::run` (LoopEliminate.cpp:28-51) -/
def ExitOps.loopEliminate (O : ExitOps L) (o : Orders) (F : L.F) : Option L.F :=
  (F.dom o).map fun t => (O.loops F t).foldl (fun G li => if O.once li then Func.never G O.no li.latch else G) F

/-! ## the terminator -/

section
variable {Op C : Type} {F : Func Op C} {no : C} {b : Nat}

/-- the new block -/
def neverBlock (no : C) (b d : Nat) (B : Block Op C) : Block Op C := if d = b then { B with term := match B.term with | .cbr _ t f => .cbr (.cst no) t f | t => t } else B

theorem never_eq : F.never no b = F.mapBlocks (neverBlock no b) := rfl

theorem never_phis {d : Nat} {B : Block Op C} : (neverBlock no b d B).phis = B.phis := by unfold neverBlock; split <;> rfl

theorem never_body {d : Nat} {B : Block Op C} : (neverBlock no b d B).body = B.body := by unfold neverBlock; split <;> rfl

theorem never_targets {d : Nat} {B : Block Op C} : (neverBlock no b d B).term.targets = B.term.targets := by
  unfold neverBlock
  split
  · dsimp only; cases B.term <;> rfl
  · rfl

theorem never_args {d : Nat} {B : Block Op C} {x : Nat} (h : Opd.inst x ∈ (neverBlock no b d B).term.args) : Opd.inst x ∈ B.term.args := by
  unfold neverBlock at h
  split at h
  · dsimp only at h; revert h; cases B.term <;> simp [Term.args]
  · exact h

theorem never_blk {d : Nat} {B' : Block Op C} : (F.never no b).blk d = some B' ↔ ∃ B, F.blk d = some B ∧ B' = neverBlock no b d B := by
  show (F.blk d).map _ = some B' ↔ _
  rw [Option.map_eq_some_iff]
  constructor
  · rintro ⟨B, hB, rfl⟩; exact ⟨B, hB, rfl⟩
  · rintro ⟨B, hB, rfl⟩; exact ⟨B, hB, rfl⟩

theorem never_edge {x y : Nat} : Edge (F.never no b) x y ↔ Edge F x y := by
  constructor
  · rintro ⟨B', hB', ht⟩
    obtain ⟨B, hB, rfl⟩ := never_blk.1 hB'
    exact ⟨B, hB, by rwa [never_targets] at ht⟩
  · rintro ⟨B, hB, ht⟩
    exact ⟨_, never_blk.2 ⟨B, hB, rfl⟩, by rwa [never_targets]⟩

theorem never_edge_eq : Edge (F.never no b) = Edge F := by funext x y; exact propext never_edge

theorem never_live {d : Nat} : Live (F.never no b) d ↔ Live F d := by unfold Live Dom.Reachable; rw [never_edge_eq]; rfl

theorem never_domi {a d : Nat} : Domi (F.never no b) a d ↔ Domi F a d := by unfold Domi; rw [never_edge_eq]; rfl

theorem never_ids {d : Nat} {B : Block Op C} : (neverBlock no b d B).ids = B.ids := by unfold Block.ids; rw [never_phis, never_body]

theorem never_defIn {x d : Nat} : DefIn (F.never no b) x d ↔ DefIn F x d := by
  constructor
  · rintro ⟨B', hB', hx⟩
    obtain ⟨B, hB, rfl⟩ := never_blk.1 hB'
    exact ⟨B, hB, by rwa [never_ids] at hx⟩
  · rintro ⟨B, hB, hx⟩
    exact ⟨_, never_blk.2 ⟨B, hB, rfl⟩, by rwa [never_ids]⟩

theorem LiveWf.never (W : LiveWf F) (no : C) (b : Nat) : LiveWf (F.never no b) := by
  refine { nodup := W.nodup, listed := ?_, total := ?_, entryIn := W.entryIn, closed := ?_, unique := ?_, entryPhis := ?_, inOrder := ?_, use := ?_, phiUse := ?_, phiPred := ?_, phiAll := ?_, phiDead := ?_ }
  · intro d B' h
    obtain ⟨B, hB, _⟩ := never_blk.1 h
    exact W.listed d B hB
  · intro d hd
    obtain ⟨B, hB⟩ := W.total d hd
    exact ⟨_, never_blk.2 ⟨B, hB, rfl⟩⟩
  · intro a d e; exact W.closed a d (never_edge.1 e)
  · have : (F.never no b).allIds = F.allIds := by
      rw [allIds_eq, allIds_eq]
      show F.order.flatMap _ = F.order.flatMap _
      congr 1
      funext d
      show (match (F.blk d).map (neverBlock no b d) with | some B => B.ids | none => []) = _
      cases hB : F.blk d with
      | none => rfl
      | some B => exact never_ids
    rw [this]; exact W.unique
  · intro B' h
    obtain ⟨B, hB, rfl⟩ := never_blk.1 h
    rw [never_phis]; exact W.entryPhis B hB
  · intro d B' h hl
    obtain ⟨B, hB, rfl⟩ := never_blk.1 h
    have := W.inOrder d B hB (never_live.1 hl)
    unfold InOrder at this ⊢
    rw [never_body, never_ids, never_phis]
    exact ⟨this.1, fun x hx => this.2 x (never_args hx)⟩
  · intro d B' x h hl hx
    obtain ⟨B, hB, rfl⟩ := never_blk.1 h
    obtain ⟨e, h1, h2⟩ := W.use d B x hB (never_live.1 hl) (by
      rcases hx with hx | hx
      · rw [never_body] at hx; exact .inl hx
      · exact .inr (never_args hx))
    exact ⟨e, never_defIn.2 h1, never_domi.2 h2⟩
  · intro d B' p q x h hl hp hx hq
    obtain ⟨B, hB, rfl⟩ := never_blk.1 h
    rw [never_phis] at hp
    obtain ⟨e, h1, h2⟩ := W.phiUse d B p q x hB (never_live.1 hl) hp hx (never_live.1 hq)
    exact ⟨e, never_defIn.2 h1, never_domi.2 h2⟩
  · intro d B' p h hl hp q v hv
    obtain ⟨B, hB, rfl⟩ := never_blk.1 h
    rw [never_phis] at hp
    exact never_edge.2 (W.phiPred d B p hB (never_live.1 hl) hp q v hv)
  · intro d B' p q h hl hp e hq
    obtain ⟨B, hB, rfl⟩ := never_blk.1 h
    rw [never_phis] at hp
    exact W.phiAll d B p q hB (never_live.1 hl) hp (never_edge.1 e) (never_live.1 hq)
  · intro d B' p p' q v h hl hp hp' hv
    obtain ⟨B, hB, rfl⟩ := never_blk.1 h
    rw [never_phis] at hp hp'
    exact W.phiDead d B p p' q v hB (never_live.1 hl) hp hp' hv

end

/-! ## one loop -/

/-- the loop at block `b` ends after one iteration: either its condition is already `false`, or it compares `initial + step` with the bound,
and this comparison is false -/
def OnceAt (O : ExitOps L) (F : L.F) (b : Nat) : Prop :=
  ∃ B cond f, F.blk b = some B ∧ B.term = .cbr cond b f ∧ (cond = .cst O.no ∨
    ∃ cmp d D pr j e E φ p ci cs cb w iv z bv, cond = .inst cmp.id ∧ F.blk d = some D ∧ cmp ∈ D.body ∧ O.cmp cmp.op = some pr ∧ cmp.args = [.inst j.id, .cst cb] ∧
      F.blk e = some E ∧ j ∈ E.body ∧ O.isAdd j.op = true ∧ (j.args = [.inst φ.id, .cst cs] ∨ j.args = [.cst cs, .inst φ.id]) ∧
      φ ∈ B.phis ∧ φ.inc.filter (fun e => e.1 != b) = [(p, .cst ci)] ∧ φ.at b = some (.inst j.id) ∧
      O.num ci = some (w, iv) ∧ O.num cs = some (w, z) ∧ O.num cb = some (w, bv) ∧ pr.holds (Int.bmod (iv + z) (2 ^ w)) (Int.bmod bv (2 ^ w)) = some false)

theorem OnceAt.never {O : ExitOps L} {F : L.F} {b : Nat} (h : OnceAt O F b) (a : Nat) : OnceAt O (Func.never F O.no a) b := by
  obtain ⟨B, cond, f, hB, ht, h⟩ := h
  by_cases hab : b = a
  · refine ⟨_, .cst O.no, f, never_blk.2 ⟨B, hB, rfl⟩, ?_, .inl rfl⟩
    unfold neverBlock; rw [if_pos hab]; simp only [ht]
  · refine ⟨_, cond, f, never_blk.2 ⟨B, hB, rfl⟩, ?_, ?_⟩
    · unfold neverBlock; rw [if_neg hab, ht]
    · rcases h with h | ⟨cmp, d, D, pr, j, e, E, φ, p, ci, cs, cb, w, iv, z, bv, h1, h2, h3, h4, h5, h6, h7, h8, h9, h10, h11⟩
      · exact .inl h
      · exact .inr ⟨cmp, d, _, pr, j, e, _, φ, p, ci, cs, cb, w, iv, z, bv, h1, never_blk.2 ⟨D, h2, rfl⟩, by rw [never_body]; exact h3, h4, h5, never_blk.2 ⟨E, h6, rfl⟩, by rw [never_body]; exact h7, h8, h9,
          by rw [never_phis]; exact h10, h11⟩

/-- making the condition `false` changes nothing -/
theorem never_refines (O : ExitOps L) {F : L.F} (W : LiveWf F) {b : Nat} (h : OnceAt O F b) : Refines L F (Func.never F O.no b) := by
  obtain ⟨B, cond, f, hB, ht, h⟩ := h
  have I := eqns_live O.movable W
  have hother : ∀ s : St L, s.cur ≠ b → SSA.step L (Func.never F O.no b) s = SSA.step L F s := by
    intro s hs
    unfold SSA.step
    show (match (F.blk s.cur).map (neverBlock O.no b s.cur) with | none => _ | some B => _) = _
    cases hD : F.blk s.cur with
    | none => rfl
    | some D => simp only [Option.map_some, neverBlock, if_neg hs]
  -- the step at `b`
  have hat : ∀ s : St L, s.cur = b → SSA.step L F s = .inr .ub ∨ SSA.step L (Func.never F O.no b) s = SSA.step L F s ∨
      ∃ env env2 m2 es2, enterPhis L s.pred s.env B.phis s.env = some env ∧ execBody L B.body env s.m s.tr = .ok env2 m2 es2 ∧ (eval L env2 cond).bind L.truth = some true ∧
        SSA.step L F s = .inl ⟨some b, b, env2, m2, es2⟩ ∧ SSA.step L (Func.never F O.no b) s = .inl ⟨some b, f, env2, m2, es2⟩ := by
    intro s hs
    have hB' := never_blk (no := O.no) (b := b).2 ⟨B, hB, rfl⟩
    unfold SSA.step
    rw [hs, hB, hB']
    dsimp only
    unfold stepBlk
    rw [never_phis, never_body]
    cases hen : enterPhis L s.pred s.env B.phis s.env with
    | none => exact .inl rfl
    | some env =>
      dsimp only
      cases hbd : execBody L B.body env s.m s.tr with
      | ub => exact .inl rfl
      | halt es h => exact .inr (.inl rfl)
      | ok env2 m2 es2 =>
        dsimp only
        have ht' : (neverBlock O.no b b B).term = .cbr (.cst O.no) b f := by unfold neverBlock; rw [if_pos rfl]; simp only [ht]
        have e0 : evalTerm L env2 (.cbr (.cst O.no) b f) = .goto f := by simp [evalTerm, eval, O.no_false]
        rw [ht', ht, e0]
        cases hc : (eval L env2 cond).bind L.truth with
        | none =>
          have e1 : evalTerm L env2 (.cbr cond b f) = .ub := by simp only [evalTerm, hc]
          rw [e1]; exact .inl rfl
        | some r =>
          cases r with
          | false =>
            have e1 : evalTerm L env2 (.cbr cond b f) = .goto f := by simp only [evalTerm, hc]
            rw [e1]; exact .inr (.inl rfl)
          | true =>
            have e1 : evalTerm L env2 (.cbr cond b f) = .goto b := by simp only [evalTerm, hc]
            rw [e1]; exact .inr (.inr ⟨env, env2, m2, es2, rfl, hbd, hc, by rw [hs], by rw [hs]⟩)
  by_cases hfb : f = b
  · subst hfb
    refine refines_lockstep (fun _ => True) rfl (fun _ => trivial) ?_
    intro s _
    by_cases hs : s.cur = f
    · rcases hat s hs with h | h | ⟨env, env2, m2, es2, _, _, _, h1, h2⟩
      · exact .inl h
      · exact .inr ⟨h, fun _ _ => trivial⟩
      · exact .inr ⟨by rw [h1, h2], fun _ _ => trivial⟩
    · exact .inr ⟨hother s hs, fun _ _ => trivial⟩
  refine refines_lockstep (fun s => Between F (Eqns F O.pure) s ∧ (s.cur = b → s.pred ≠ some b)) rfl (fun m => ⟨⟨rfl, rfl⟩, fun _ => by simp [start]⟩) ?_
  rintro s ⟨hbt, hne⟩
  by_cases hs : s.cur = b
  · have hpb := hne hs
    rcases hat s hs with h' | h' | ⟨env, env2, m2, es2, hen, hbd, hc, h1, h2⟩
    · exact .inl h'
    · by_cases hub : SSA.step L F s = .inr .ub
      · exact .inl hub
      refine .inr ⟨h', fun s' hs' => ⟨I.step_live W hbt hs', ?_⟩⟩
      intro hcur _
      -- the new program goes to `f`
      have hB' := never_blk (no := O.no) (b := b).2 ⟨B, hB, rfl⟩
      rw [hs'] at h'
      unfold SSA.step at h'
      rw [hs, hB'] at h'
      dsimp only at h'
      unfold stepBlk at h'
      have ht' : (neverBlock O.no b b B).term = .cbr (.cst O.no) b f := by unfold neverBlock; rw [if_pos rfl]; simp only [ht]
      rw [ht'] at h'
      simp only [evalTerm, eval, Option.bind_some, O.no_false] at h'
      split at h'
      · simp at h'
      · split at h'
        · simp at h'
        · simp at h'
        · simp only [Sum.inl.injEq] at h'
          rw [← h'] at hcur
          exact hfb hcur
    · exfalso
      -- the condition is false
      rcases h with rfl | ⟨cmp, d, D, pr, j, e, E, φ, p, ci, cs, cb, w, iv, z, bv, rfl, hD, hcm, hpr, hca, hE, hj, hadd, hja, hφ, hinc, hatb, hni, hns, hnb, hfalse⟩
      · simp [eval, O.no_false] at hc
      have hl : Live F b := hs ▸ hbt.live
      have hB2 : F.blk s.cur = some B := by rw [hs]; exact hB
      have hq0 := I.phis_live W hbt hB2 hen
      have hqe := I.body (hs ▸ hl) hB2 _ 0 env s.m s.tr rfl hq0 (by rw [List.drop_zero]; exact hbd) (Nat.zero_le _)
      rw [hs] at hqe
      -- the induction variable
      have hiv : env2 φ.id = some (O.int w iv) := by
        have hnd : (B.phis.map Phi.id).Nodup := (List.nodup_append.mp (W.block_ids hB)).1
        have h3 := (enterPhis_val hen hnd φ hφ).1
        rw [execBody_other hbd φ.id (by
          intro hm
          obtain ⟨i, hi, he⟩ := List.mem_map.1 hm
          exact W.toShape.phi_inst hB hB hφ hi he.symm), h3]
        cases hp : s.pred with
        | none =>
          unfold Between at hbt
          rw [hp] at hbt
          rw [hs] at hbt
          rw [W.entryPhis B (hbt.1 ▸ hB)] at hφ
          simp at hφ
        | some q =>
          have hqb : q ≠ b := fun e => hpb (by rw [hp, e])
          unfold Between at hbt
          rw [hp] at hbt
          obtain ⟨hq, hqe, _⟩ := hbt
          rw [hs] at hqe
          obtain ⟨v, hv, hvm⟩ := Phi.at_some (W.phiAll b B φ q hB hl hφ hqe hq)
          have hm : (q, v) ∈ φ.inc.filter (fun e => e.1 != b) := List.mem_filter.2 ⟨hvm, by simpa using hqb⟩
          rw [hinc] at hm
          simp only [List.mem_cons, Prod.mk.injEq, List.not_mem_nil, or_false] at hm
          simp only [phiVal, hv, hm.2, eval, O.num_val ci w iv hni]
      -- the next value
      have hja' : Avail F b B.body.length j.id := W.phi_avail hB hl hB hl hφ (Phi.at_mem hatb)
      obtain ⟨vs, v, hvs, hv, hsem⟩ := hqe e E j hE hj (O.add_pure _ hadd) hja'
      have hnext : env2 j.id = some (O.int w (iv + z)) := by
        rw [hv]
        rcases hja with ha | ha
        · rw [ha] at hvs
          simp only [evals, eval, hiv, O.num_val cs w z hns, Option.some.injEq] at hvs
          subst hvs
          have := hsem s.m
          rw [O.add_sem _ _ _ _ _ hadd] at this
          simp only [Res.ok.injEq] at this
          rw [this.1]
        · rw [ha] at hvs
          simp only [evals, eval, hiv, O.num_val cs w z hns, Option.some.injEq] at hvs
          subst hvs
          have := hsem s.m
          rw [O.add_sem _ _ _ _ _ hadd] at this
          simp only [Res.ok.injEq] at this
          rw [← this.1, Int.add_comm]
      -- the comparison
      obtain ⟨h', hd1, hd2⟩ := W.use b B cmp.id hB hl (.inr (by rw [ht]; simp [Term.args]))
      obtain ⟨vs, v, hvs, hv, hsem⟩ := hqe d D cmp hD hcm (O.cmp_pure _ _ hpr) (W.avail_end hd1 hd2 hB)
      rw [hca] at hvs
      simp only [evals, eval, hnext, O.num_val cb w bv hnb, Option.some.injEq] at hvs
      subst hvs
      have := O.cmp_sem _ _ _ _ _ _ _ _ _ ⟨_, _, hnb⟩ hpr (hsem s.m) _ hfalse
      simp [eval, hv, this] at hc
  · exact .inr ⟨hother s hs, fun s' hs' => ⟨I.step_live W hbt hs', fun _ => by rw [(step_target hs').1]; simpa using hs⟩⟩

/-! ## the pass -/

/-- operands of comparisons have the same type -/
def CmpTyped (O : LoopOps L) (F : L.F) (ty : Nat → Nat) : Prop :=
  ∀ b B i pr o1 o2, F.blk b = some B → i ∈ B.body → O.cmp i.op = some pr → i.args = [o1, o2] → ∀ t1 t2, O.oty ty o1 = some t1 → O.oty ty o2 = some t2 → t1 = t2

/-- a number of `w` bits -/
def Fits (w : Nat) (z : Int) : Prop := Int.bmod z (2 ^ w) = z

theorem once_holds {O : LoopOps L} {pr : ICmp} {ci cb : L.C} {wi wb : Nat} {iv bv z : Int} (hi : O.num ci = some (wi, iv)) (hb : O.num cb = some (wb, bv)) (hok : O.cmpOk pr (.cst ci) (.cst cb) z = true)
    (h : (z > 0 ∧ iv + z ≥ bv) ∨ (z < 0 ∧ iv + z ≤ bv)) : pr.holds (iv + z) bv = some false := by
  cases pr with
  | other => simp [LoopOps.cmpOk] at hok
  | slt =>
    simp only [LoopOps.cmpOk, decide_eq_true_eq] at hok
    have : ¬ (iv + z < bv) := by omega
    simp [ICmp.holds, this]
  | sgt =>
    simp only [LoopOps.cmpOk, decide_eq_true_eq] at hok
    have : ¬ (bv < iv + z) := by omega
    simp [ICmp.holds, this]
  | ne =>
    simp only [LoopOps.cmpOk, LoopOps.lit, hi, hb, Option.map_some, Bool.and_eq_true, Bool.not_eq_true', Bool.and_eq_false_iff, decide_eq_true_eq, decide_eq_false_iff_not] at hok
    obtain ⟨⟨h1, h2⟩, h3⟩ := hok
    obtain ⟨k, hk⟩ := Int.dvd_of_tmod_eq_zero h1
    have : iv + z = bv := by
      rcases h with ⟨hz, hle⟩ | ⟨hz, hle⟩
      · have hlt : iv < bv := by omega
        have hk0 : 0 < k := by
          by_contra hk0
          have : z * k ≤ 0 := Int.mul_nonpos_of_nonneg_of_nonpos (by omega) (by omega)
          omega
        have hk1 : k < 2 := by
          by_contra hk1
          have : z * 2 ≤ z * k := Int.mul_le_mul_of_nonneg_left (by omega) (by omega)
          omega
        have : k = 1 := by omega
        subst this; omega
      · have hlt : bv < iv := by omega
        have hk0 : 0 < k := by
          by_contra hk0
          have : 0 ≤ z * k := Int.mul_nonneg_of_nonpos_of_nonpos (by omega) (by omega)
          omega
        have hk1 : k < 2 := by
          by_contra hk1
          have : z * k ≤ z * 2 := Int.mul_le_mul_of_nonpos_left (by omega) (by omega)
          omega
        have : k = 1 := by omega
        subst this; omega
    simp [ICmp.holds, this]

theorem lit_cst {O : LoopOps L} {o : Opd L.C} {z : Int} (h : O.lit o = some z) : ∃ c w, o = .cst c ∧ O.num c = some (w, z) := by
  cases o with
  | inst _ => simp [LoopOps.lit] at h
  | cst c =>
    simp only [LoopOps.lit, Option.map_eq_some_iff, Prod.exists, exists_eq_right] at h
    obtain ⟨w, hw⟩ := h
    exact ⟨c, w, rfl, hw⟩

theorem addAnyInt_spec {O : LoopOps L} {F : L.F} {o : Opd L.C} {x : Nat} {z : Int} (h : O.addAnyInt F o = some (.inst x, z)) :
    ∃ e E j cs ws, o = .inst j.id ∧ F.blk e = some E ∧ j ∈ E.body ∧ O.isAdd j.op = true ∧ O.num cs = some (ws, z) ∧ (j.args = [.inst x, .cst cs] ∨ j.args = [.cst cs, .inst x]) := by
  unfold LoopOps.addAnyInt at h
  split at h
  · rename_i a b hab
    unfold LoopOps.addArgs at hab
    split at hab
    · rename_i y
      split at hab
      · rename_i j hj
        split at hab
        · rename_i hadd
          split at hab
          · rename_i a' b' hargs
            simp only [Option.some.injEq, Prod.mk.injEq] at hab
            obtain ⟨rfl, rfl⟩ := hab
            obtain ⟨e, E, hE, hjE, rfl⟩ := inst?_spec hj
            split at h
            · rename_i z' hz
              simp only [Option.some.injEq, Prod.mk.injEq] at h
              obtain ⟨rfl, rfl⟩ := h
              obtain ⟨c, w, rfl, hw⟩ := lit_cst hz
              exact ⟨e, E, j, c, w, rfl, hE, hjE, hadd, hw, .inl hargs⟩
            · simp only [Option.map_eq_some_iff, Prod.mk.injEq] at h
              obtain ⟨z', hz, rfl, rfl⟩ := h
              obtain ⟨c, w, rfl, hw⟩ := lit_cst hz
              exact ⟨e, E, j, c, w, rfl, hE, hjE, hadd, hw, .inr hargs⟩
          · simp at hab
        · simp at hab
      · simp at hab
    · simp at hab
  · simp at h

theorem loopAt_once (O : ExitOps L) {F : L.F} {ty : Nat → Nat} (T : Typed O.toArith F ty) (hcmp : CmpTyped O.toLoopOps F ty) {t : Dom.TS} {b : Nat} {li : LoopInfo L.C} (h : O.loopAt F t b = some li)
    (ho : O.once li = true) (hfit : ∀ c0 c1 w w1 iv bv, li.initial = .cst c0 → O.num c0 = some (w, iv) → li.bound = .cst c1 → O.num c1 = some (w1, bv) → Fits w (iv + li.step) ∧ Fits w1 bv) : OnceAt O F li.latch := by
  unfold LoopOps.loopAt at h
  split at h
  · simp at h
  · rename_i B hB
    split at h
    · rename_i c hd fl hterm
      split at h
      · simp at h
      · rename_i cmp hc
        split at h
        · rename_i pr next bound hpr hargs
          split at h
          · rename_i x step hstep
            split at h
            · simp at h
            · split at h
              · simp at h
              · split at h
                · simp at h
                · rename_i Hd hHd
                  split at h
                  · simp at h
                  · rename_i φ hφ
                    split at h
                    · simp at h
                    · split at h
                      · rename_i en hinc
                        split at h
                        · rename_i hat
                          split at h
                          · rename_i hok
                            simp only [Option.some.injEq] at h
                            subst h
                            unfold LoopOps.once at ho
                            dsimp only at ho hfit ⊢
                            rw [Bool.and_eq_true, decide_eq_true_eq] at ho
                            obtain ⟨rfl, ho⟩ := ho
                            split at ho
                            · rename_i bv iv hbv hiv
                              obtain ⟨cb, wb, rfl, hnb⟩ := lit_cst hbv
                              obtain ⟨p, oi⟩ := en
                              obtain ⟨ci, wi, hoi, hni⟩ := lit_cst hiv
                              dsimp only at hoi hfit hok
                              subst hoi
                              have := Option.some.inj (hB.symm.trans hHd)
                              subst this
                              obtain ⟨hφm, rfl⟩ := Block.phi?_mem hφ
                              obtain ⟨e, E, j, cs, ws, rfl, hE, hj, hadd, hns, hja⟩ := addAnyInt_spec hstep
                              obtain ⟨d, D, hD, hcm, rfl⟩ := inst?_spec hc
                              have hwi : wi = ty φ.id := T.phi _ _ φ hB hφm p (.cst ci) (List.mem_of_mem_filter (by rw [hinc]; simp : (p, Opd.cst ci) ∈ _)) wi (by simp [Arith.oty, hni])
                              have hj2 : ty j.id = ty φ.id := T.phi _ _ φ hB hφm _ (.inst j.id) (Phi.at_mem hat) _ rfl
                              have hws : ws = ty j.id := T.op _ _ j hE hj (.inl hadd) (.cst cs) (by rcases hja with h | h <;> simp [h]) ws (by simp [Arith.oty, hns])
                              have hwb : ty j.id = wb := hcmp _ _ cmp pr _ _ hD hcm hpr hargs _ _ rfl (by simp [Arith.oty, hnb])
                              have hww : ws = wi := by omega
                              have hwb' : wb = wi := by omega
                              subst hww hwb'
                              obtain ⟨f1, f2⟩ := hfit ci cb _ _ iv bv rfl hni rfl hnb
                              refine ⟨B, .inst cmp.id, fl, hB, hterm, .inr ⟨cmp, d, D, pr, j, e, E, φ, p, ci, cs, cb, _, iv, step, bv, rfl, hD, hcm, hpr, hargs, hE, hj, hadd, hja, hφm, hinc, hat, hni, hns, hnb, ?_⟩⟩
                              rw [f1, f2]
                              refine once_holds hni hnb hok ?_
                              simpa using ho
                            · simp at ho
                          · simp at h
                        · simp at h
                      · simp at h
          · simp at h
        · simp at h
    · simp at h

/-- C90 (without wraparound): take a function whose live part is in SSA form and well typed, and in whose one-block loops with constant
initial value and bound the second value `initial + step` of the induction variable fits into its type. LoopEliminate returns a function
whose live part is in SSA form and which behaves like the one before: every result, every halt, every output, every endless run.
Missing: loops whose induction variable wraps around in the first iteration; the pass is wrong about them (`Ex.wraps_wrong`). -/
theorem C90_loopEliminate_partial (O : ExitOps L) {F : L.F} (W : LiveWf F) {ty : Nat → Nat} (T : Typed O.toArith F ty) (hcmp : CmpTyped O.toLoopOps F ty) (o : Orders)
    (hfit : ∀ t, F.dom o = some t → ∀ li ∈ O.loops F t, li.header = li.latch → ∀ c0 c1 w w1 iv bv, li.initial = .cst c0 → O.num c0 = some (w, iv) → li.bound = .cst c1 → O.num c1 = some (w1, bv) →
      Fits w (iv + li.step) ∧ Fits w1 bv) :
    ∃ G, O.loopEliminate o F = some G ∧ LiveWf G ∧ Refines L F G := by
  obtain ⟨t, ht, _, _, _⟩ := dom_spec o W.nodup W.listed
  refine ⟨_, by unfold ExitOps.loopEliminate; rw [ht]; rfl, ?_⟩
  have key : ∀ (ls : List (LoopInfo L.C)) (G : L.F), LiveWf G → (∀ li ∈ ls, O.once li = true → OnceAt O G li.latch) →
      LiveWf (ls.foldl (fun G li => if O.once li then Func.never G O.no li.latch else G) G) ∧ Refines L G (ls.foldl (fun G li => if O.once li then Func.never G O.no li.latch else G) G) := by
    intro ls
    induction ls with
    | nil => intro G WG _; exact ⟨WG, Refines.refl G⟩
    | cons li ls ih =>
      intro G WG h
      simp only [List.foldl_cons]
      by_cases ho : O.once li = true
      · rw [if_pos ho]
        obtain ⟨h1, h2⟩ := ih (Func.never G O.no li.latch) (WG.never _ _) (fun li' h' ho' => (h li' (by simp [h']) ho').never _)
        exact ⟨h1, (never_refines O WG (h li (by simp) ho)).trans h2⟩
      · rw [if_neg ho]
        exact ih G WG (fun li' h' => h li' (by simp [h']))
  refine key _ F W ?_
  intro li hli ho
  obtain ⟨b, _, hb⟩ := List.mem_filterMap.1 hli
  refine loopAt_once O T hcmp hb ho (hfit t ht li hli ?_)
  unfold LoopOps.once at ho
  rw [Bool.and_eq_true, decide_eq_true_eq] at ho
  exact ho.1

end
end Cmmc.SSA
