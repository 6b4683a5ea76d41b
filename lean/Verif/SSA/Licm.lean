import Verif.SSA.PreheaderRef
import Verif.SSA.MotionAhead
/-!
# C91: LoopInvariantCodeMotion (cmmc/Transforms/Loop/LoopInvariantCodeMotion.cpp)

In a loop of one block the instructions that do not depend on the loop are moved to a new block in front of the loop.
-/
namespace Cmmc.SSA
section
variable {Op C : Type}

/-- `isMovable` (LoopInvariantCodeMotion.cpp:47-89); `mov op`: the switch passes, that is, not a phi, a store, an atomic operation or an impure call.
Loads are left out (`mov` is false for them) -/
def licmMovable (mov : Op → Bool) (B : Block Op C) (i : Inst Op C) : Bool :=
  mov i.op && (instIds i.args).all (fun x => decide (x ∉ B.ids))

/-- `inst->insertBefore(pre, pre->instructions().end())` (LoopInvariantCodeMotion.cpp:112-113) -/
def moveToEnd (b pre : Nat) (F : Func Op C) (i : Inst Op C) : Func Op C :=
  match F.blk pre with
  | none => F
  | some T => F.moveTo b pre i T.body.length

/-- `runOnLoop` (LoopInvariantCodeMotion.cpp:91-124). The branch at the end of `pre` is there from the beginning -/
def licmLoop (mov : Op → Bool) (F : Func Op C) (b : Nat) : Func Op C :=
  match F.blk b with
  | none => F
  | some B =>
    match B.body.filter (licmMovable mov B) with
    | [] => F
    | is => is.foldl (moveToEnd b F.bound) (F.preheader b F.bound F.fresh)

end

section
variable {L : Lang}

/-- `LoopInvariantCodeMotion::run` (LoopInvariantCodeMotion.cpp:127-144) -/
def LoopOps.licm (O : LoopOps L) (mov : L.Op → Bool) (o : Orders) (F : L.F) : Option L.F :=
  (F.dom o).map fun t => (O.loops F t).foldl (fun G li => if li.header = li.latch then licmLoop mov G li.latch else G) F

/-! ## specification -/

/-- instruction `i` of block `B` may be computed before the block is entered: it cannot fail (for the values its operands have), or nothing in front of it ends the program -/
def Hoistable (L : Lang) (B : L.B) (i : Inst L.Op L.C) : Prop :=
  (∀ (env : Env L) vs m, evals L env i.args = some vs → ∃ v, L.sem i.op vs m = .ok v m []) ∨ ∀ pre post, B.body = pre ++ i :: post → ∀ j ∈ pre, NoHalt L j.op

/-! ## the moves out of one block -/

theorem Hoistable.filter {B B' : L.B} {i : Inst L.Op L.C} {p : Inst L.Op L.C → Bool} (h : Hoistable L B i) (hb : B'.body = B.body.filter p) : Hoistable L B' i := by
  rcases h with h | h
  · exact .inl h
  · refine .inr ?_
    intro pre post he j hj
    rw [hb, List.filter_eq_append_iff] at he
    obtain ⟨l1, l2, h1, h2, h3⟩ := he
    rw [List.filter_eq_cons_iff] at h3
    obtain ⟨m1, m2, g1, _, _, _⟩ := h3
    refine h (l1 ++ m1) m2 (by rw [h1, g1, List.append_assoc]) j ?_
    rw [← h2] at hj
    exact List.mem_append_left _ (List.mem_filter.1 hj).1

/-- before the next of the instructions `l` is moved -/
structure LicmInv (F1 : L.F) (b pre : Nat) (B : L.B) (l : List (Inst L.Op L.C)) (G : L.F) : Prop where
  inv : MoveInv F1 G
  blkB : ∃ B' p, G.blk b = some B' ∧ B'.phis.map Phi.id = B.phis.map Phi.id ∧ B'.term = B.term ∧ B'.body = B.body.filter p ∧ ∀ i ∈ l, i ∈ B'.body
  blkPre : ∃ T, G.blk pre = some T ∧ T.term = .br b
  others : ∀ d, d ≠ b → d ≠ pre → G.blk d = F1.blk d

theorem domi_before_edge {F : L.F} {d p b : Nat} (he : Edge F p b) (hd : d ≠ b) (h : Domi F d b) : Domi F d p := by
  intro q hq
  have := h _ (path_snoc hq he)
  simp only [List.mem_append, List.mem_singleton] at this
  exact this.resolve_right hd

theorem LicmInv.step {F1 G : L.F} {b pre : Nat} {B : L.B} {pure : L.Op → Bool} {i : Inst L.Op L.C} {l : List (Inst L.Op L.C)} (hp : Movable L pure) (hne : b ≠ pre) (hdom : Domi F1 pre b)
    (I : LicmInv F1 b pre B (i :: l) G) (hi : pure i.op = true) (hargs : ∀ x, Opd.inst x ∈ i.args → x ∉ B.ids) (hh : Hoistable L B i) (hn : ((i :: l).map Inst.id).Nodup) :
    LicmInv F1 b pre B l (moveToEnd b pre G i) := by
  obtain ⟨J, ⟨B', f, hB', hphi, hterm, hbody, hin⟩, ⟨T, hT, hTt⟩, hoth⟩ := I
  unfold moveToEnd
  rw [hT]
  dsimp only
  have W := J.wf
  have hiB : i ∈ B'.body := hin i (by simp)
  have hlb := J.live b B' hB'
  have r1 : Domi G pre b := (J.domi _ _).2 hdom
  have hedge : Edge G pre b := ⟨T, hT, by rw [hTt]; simp [Term.targets]⟩
  have hzb : DefIn G i.id b := ⟨B', hB', List.mem_append_right _ (List.mem_map_of_mem hiB)⟩
  have use : ∀ b' D', G.blk b' = some D' → ((∃ j ∈ D'.body, Opd.inst i.id ∈ j.args) ∨ Opd.inst i.id ∈ D'.term.args) → Domi G b b' := by
    intro b' D' hD' hx
    obtain ⟨d, h1, h2⟩ := W.use b' D' i.id hD' (J.live b' D' hD') hx
    rw [defIn_unique W.listed W.unique hzb h1]; exact h2
  have M : MoveOk G b pre i T.body.length B' T := by
    refine ⟨hB', hiB, hT, hne, ?_, ?_, ?_, ?_⟩
    · intro x hx
      obtain ⟨d, h1, h2⟩ := W.use b B' x hB' hlb (.inl ⟨i, hiB, hx⟩)
      have hdb : d ≠ b := by
        rintro rfl
        obtain ⟨B2, hB2, hxB⟩ := h1
        rw [hB'] at hB2; cases hB2
        refine hargs x hx ?_
        unfold Block.ids at hxB ⊢
        rcases List.mem_append.1 hxB with h | h
        · exact List.mem_append_left _ (hphi ▸ h)
        · obtain ⟨j, hj, rfl⟩ := List.mem_map.1 h
          rw [hbody] at hj
          exact List.mem_append_right _ (List.mem_map_of_mem (List.mem_filter.1 hj).1)
      refine ⟨d, h1, domi_before_edge hedge hdb h2, ?_⟩
      rintro rfl
      obtain ⟨T', hT', hxT⟩ := h1
      rw [hT] at hT'; cases hT'
      rw [List.take_length]
      exact List.mem_append.1 hxT
    · intro b' D' j hD' hj hz
      have := use b' D' hD' (.inl ⟨j, hj, hz⟩)
      refine ⟨r1.trans this, ?_⟩
      rintro rfl
      exact absurd (Domi.antisymm r1 this hlb) (Ne.symm hne)
    · intro b' D' hD' hz
      exact r1.trans (use b' D' hD' (.inr hz))
    · intro b' D' p q hD' hp' hq
      have hql : Live G q := by
        obtain ⟨Q, hQ, _⟩ := W.phiPred b' D' p hD' (J.live b' D' hD') hp' q _ hq
        exact J.live q Q hQ
      obtain ⟨d, h1, h2⟩ := W.phiUse b' D' p q i.id hD' (J.live b' D' hD') hp' hq hql
      rw [← defIn_unique W.listed W.unique hzb h1] at h2
      exact r1.trans h2
  have href : Refines L G (G.moveTo b pre i T.body.length) := by
    rcases (hh.filter hbody : Hoistable L B' i) with h | h
    · exact M.refines W J.live hp hi (.inr h)
    · exact M.refines_ahead W J.live hp hi hTt h
  refine ⟨?_, ?_, ?_, ?_⟩
  · exact { wf := M.liveWf W J.live
            live := M.allLive J.live
            ref := J.ref.trans href
            entry := J.entry
            order := J.order
            edge := move_edge_eq.trans J.edge
            perm := by
              refine List.Perm.trans ?_ J.perm
              rw [List.perm_ext_iff_of_nodup (M.liveWf W J.live).unique W.unique]
              intro x
              rw [mem_allIds (M.liveWf W J.live).listed, mem_allIds W.listed]
              constructor
              · rintro ⟨d, hd⟩
                rcases (M.defIn W.toShape).1 hd with ⟨rfl, _⟩ | ⟨_, h⟩
                · exact ⟨b, M.defA⟩
                · exact ⟨d, h⟩
              · rintro ⟨d, hd⟩
                by_cases hx : x = i.id
                · exact ⟨pre, (M.defIn W.toShape).2 (.inl ⟨hx, rfl⟩)⟩
                · exact ⟨d, (M.defIn W.toShape).2 (.inr ⟨hx, hd⟩)⟩ }
  · refine ⟨movedBlk b pre i T.body.length b B', fun j => f j && (j.id != i.id), by rw [move_blk, hB']; rfl, by rw [movedBlk_phis]; exact hphi, by rw [movedBlk_term]; exact hterm, ?_, ?_⟩
    · unfold movedBlk
      rw [if_pos rfl]
      dsimp only
      rw [hbody, List.filter_filter]
      congr 1
      funext j
      rw [Bool.and_comm]
    · intro j hj
      unfold movedBlk
      rw [if_pos rfl]
      refine List.mem_filter.2 ⟨hin j (by simp [hj]), ?_⟩
      simp only [List.map_cons, List.nodup_cons] at hn
      simp only [bne_iff_ne, ne_eq]
      intro he
      exact hn.1 (he ▸ List.mem_map_of_mem hj)
  · exact ⟨movedBlk b pre i T.body.length pre T, by rw [move_blk, hT]; rfl, by rw [movedBlk_term]; exact hTt⟩
  · intro d h1 h2
    rw [move_blk, hoth d h1 h2]
    cases F1.blk d with
    | none => rfl
    | some D => simp [movedBlk, h1, h2]

theorem LicmInv.fold {F1 : L.F} {b pre : Nat} {B : L.B} {pure : L.Op → Bool} (hp : Movable L pure) (hne : b ≠ pre) (hdom : Domi F1 pre b) :
    ∀ (l : List (Inst L.Op L.C)) (G : L.F), LicmInv F1 b pre B l G → (∀ i ∈ l, pure i.op = true ∧ (∀ x, Opd.inst x ∈ i.args → x ∉ B.ids) ∧ Hoistable L B i) → (l.map Inst.id).Nodup →
      LicmInv F1 b pre B [] (l.foldl (moveToEnd b pre) G) := by
  intro l
  induction l with
  | nil => intro G I _ _; exact I
  | cons i l ih =>
    intro G I hl hn
    obtain ⟨h1, h2, h3⟩ := hl i (by simp)
    refine ih _ (I.step hp hne hdom h1 h2 h3 hn) (fun j hj => hl j (by simp [hj])) ?_
    simp only [List.map_cons, List.nodup_cons] at hn
    exact hn.2

theorem bound_notMem {F : L.F} : F.bound ∉ F.order := by
  intro h
  have := (le_foldl_max (F.entry :: (F.order ++ F.blocks.flatMap (fun B => B.term.targets))) 0).2 F.bound (by simp [h])
  unfold Func.bound at this
  omega

theorem licmMovable_iff {mov : L.Op → Bool} {B : L.B} {i : Inst L.Op L.C} : licmMovable mov B i = true ↔ mov i.op = true ∧ ∀ x, Opd.inst x ∈ i.args → x ∉ B.ids := by
  unfold licmMovable
  simp only [Bool.and_eq_true, List.all_eq_true, mem_instIds, decide_eq_true_eq]

/-- one loop -/
theorem licmLoop_ok {mov : L.Op → Bool} (hp : Movable L mov) {F : L.F} (W : LiveWf F) (hl : AllLive F) {b : Nat} {B : L.B} (hB : F.blk b = some B) (he : b ≠ F.entry)
    (hh : ∀ i ∈ B.body, licmMovable mov B i = true → Hoistable L B i) :
    LiveWf (licmLoop mov F b) ∧ AllLive (licmLoop mov F b) ∧ Refines L F (licmLoop mov F b) ∧ (licmLoop mov F b).entry = F.entry ∧
      ∀ d D, d ≠ b → F.blk d = some D → ∃ t, (licmLoop mov F b).blk d = some { D with term := t } := by
  unfold licmLoop
  rw [hB]
  dsimp only
  split
  · exact ⟨W, hl, Refines.refl F, rfl, fun d D _ h => ⟨D.term, h⟩⟩
  · rename_i is hne
    have P : PreOk F b F.bound F.fresh B := ⟨W, hl, hB, he, bound_notMem, fun x d h => fresh_lt W.listed h⟩
    have hin : ∀ i ∈ B.body.filter (licmMovable mov B), i ∈ B.body ∧ licmMovable mov B i = true := fun i hi => List.mem_filter.1 hi
    have hnd : (B.body.map Inst.id).Nodup := by
      have := W.toShape.ids_nodup hB
      unfold Block.ids at this
      exact (List.nodup_append.1 this).2.1
    have I := LicmInv.fold (B := B) hp P.ne P.preDomi (B.body.filter (licmMovable mov B)) (F.preheader b F.bound F.fresh)
      ⟨MoveInv.start P.liveWf P.allLive, ⟨_, fun _ => true, P.blkB, by simp [loopPhis_ids], rfl, by simp, fun i hi => (hin i hi).1⟩, ⟨_, P.blkPre, rfl⟩, fun _ _ _ => rfl⟩
      (fun i hi => by
        obtain ⟨h1, h2⟩ := hin i hi
        exact ⟨(licmMovable_iff.1 h2).1, (licmMovable_iff.1 h2).2, hh i h1 h2⟩)
      (hnd.sublist (List.filter_sublist.map _))
    refine ⟨I.inv.wf, I.inv.live, P.refines.trans I.inv.ref, I.inv.entry, ?_⟩
    intro d D hd hD
    refine ⟨D.term.reset b F.bound, ?_⟩
    rw [I.others d hd (by rintro rfl; rw [P.noPre] at hD; cases hD), P.blk hD hd]

/-- a loop found in block `b` has its latch there, and its header has phis -/
theorem loopAt_latch (O : LoopOps L) {F : L.F} {t : Dom.TS} {b : Nat} {li : LoopInfo L.C} (h : O.loopAt F t b = some li) : li.latch = b ∧ ∃ H, F.blk li.header = some H ∧ H.phis ≠ [] := by
  unfold LoopOps.loopAt at h
  split at h
  · simp at h
  · split at h
    · split at h
      · simp at h
      · split at h
        · split at h
          · split at h
            · simp at h
            · split at h
              · simp at h
              · split at h
                · simp at h
                · rename_i Hd hHd
                  split at h
                  · simp at h
                  · rename_i phi hphi
                    split at h
                    · simp at h
                    · split at h
                      · split at h
                        · split at h
                          · simp only [Option.some.injEq] at h
                            subst h
                            refine ⟨rfl, Hd, hHd, fun e => ?_⟩
                            unfold Block.phi? at hphi
                            rw [e] at hphi
                            simp at hphi
                          · simp at h
                        · simp at h
                      · simp at h
          · simp at h
        · simp at h
    · simp at h

/-- **C91** LoopInvariantCodeMotion terminates and keeps the behaviour of a function in SSA form without unreachable blocks, and its result is again such a function,
provided that every instruction that is moved cannot fail, or has no instruction in front of it in the loop that ends the program. Missing: loads. -/
theorem C91_licm_partial (O : LoopOps L) {mov : L.Op → Bool} (hp : Movable L mov) (o : Orders) {F : L.F} (W : LiveWf F) (hl : AllLive F)
    (hh : ∀ b B i, F.blk b = some B → Edge F b b → i ∈ B.body → mov i.op = true → (∀ x, Opd.inst x ∈ i.args → ¬ DefIn F x b) → Hoistable L B i) :
    ∃ G, O.licm mov o F = some G ∧ LiveWf G ∧ AllLive G ∧ Refines L F G ∧ G.entry = F.entry := by
  obtain ⟨t, e, _, hd, hnd, _, _⟩ := dom_spec o W.nodup W.listed
  have hdom : ∀ a b, t.dominate a b = true → Live F b ∧ Domi F a b := fun a b h => (hd a b).1 h
  refine ⟨_, by unfold LoopOps.licm; rw [e]; rfl, ?_⟩
  unfold LoopOps.loops
  -- the blocks still to be visited
  have go : ∀ (bs : List Nat) (G : L.F), bs.Nodup → LiveWf G → AllLive G → Refines L F G → G.entry = F.entry →
      (∀ d ∈ bs, ∀ D, F.blk d = some D → ∃ t, G.blk d = some { D with term := t }) →
      LiveWf ((bs.filterMap (O.loopAt F t)).foldl (fun G li => if li.header = li.latch then licmLoop mov G li.latch else G) G) ∧
        AllLive ((bs.filterMap (O.loopAt F t)).foldl (fun G li => if li.header = li.latch then licmLoop mov G li.latch else G) G) ∧
        Refines L F ((bs.filterMap (O.loopAt F t)).foldl (fun G li => if li.header = li.latch then licmLoop mov G li.latch else G) G) ∧
        ((bs.filterMap (O.loopAt F t)).foldl (fun G li => if li.header = li.latch then licmLoop mov G li.latch else G) G).entry = F.entry := by
    intro bs
    induction bs with
    | nil => intro G _ h1 h2 h3 h4 _; exact ⟨h1, h2, h3, h4⟩
    | cons b bs ih =>
      intro G hn h1 h2 h3 h4 h5
      rw [List.nodup_cons] at hn
      have hskip := ih G hn.2 h1 h2 h3 h4 (fun d hd => h5 d (by simp [hd]))
      cases hla : O.loopAt F t b with
      | none => rw [List.filterMap_cons_none hla]; exact hskip
      | some li =>
        rw [List.filterMap_cons_some hla, List.foldl_cons]
        obtain ⟨hlatch, H, hH, hph⟩ := loopAt_latch O hla
        by_cases hhl : li.header = li.latch
        · rw [if_pos hhl, hlatch]
          rw [hhl, hlatch] at hH
          have hedge : Edge F b b := by
            have := (loopAt_isLoop hdom hla).edge
            rwa [hhl, hlatch] at this
          have hbe : b ≠ F.entry := by
            rintro rfl
            exact hph (W.entryPhis H hH)
          obtain ⟨t', hG⟩ := h5 b (by simp) H hH
          obtain ⟨g1, g2, g3, g4, g5⟩ := licmLoop_ok hp h1 h2 hG (by rw [h4]; exact hbe) (by
            intro i hi hm
            obtain ⟨m1, m2⟩ := licmMovable_iff.1 hm
            refine hh b H i hH hedge hi m1 ?_
            rintro x hx ⟨H', hH', hxH⟩
            rw [hH] at hH'; cases hH'
            exact m2 x hx hxH)
          refine ih _ hn.2 g1 g2 (h3.trans g3) (g4.trans h4) ?_
          intro d hd D hD
          obtain ⟨t2, ht2⟩ := h5 d (by simp [hd]) D hD
          obtain ⟨t3, ht3⟩ := g5 d _ (by rintro rfl; exact hn.1 hd) ht2
          exact ⟨t3, ht3⟩
        · rw [if_neg hhl]; exact hskip
  exact go _ F hnd W hl (Refines.refl F) rfl (fun d _ D hD => ⟨D.term, hD⟩)

end
end Cmmc.SSA
