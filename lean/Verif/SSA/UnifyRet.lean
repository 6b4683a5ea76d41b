import Verif.SSA.InlinePass
/-!
# UnifyReturn (cmmc/Transforms/ControlFlow/UnifyReturn.cpp:31-75): C73

All `ret` instructions are replaced by branches to one new block at the end of the function; its phi collects the values returned.
-/
namespace Cmmc.SSA
section
variable {Op C : Type}

/-- the blocks that end with `ret`, with what they return (l.38-43) -/
def Func.rets (F : Func Op C) : List (Nat × Option (Opd C)) :=
  F.order.filterMap (fun b => match F.blk b with
    | some B => match B.term with
      | .ret v => some (b, v)
      | _ => none
    | none => none)

/-- `ret` becomes `br x` (l.59-62) -/
def Term.toBr (x : Nat) : Term C → Term C
  | .ret _ => .br x
  | t => t

/-- the new block (l.46-53, 65-69): `pid` is the phi, present when the function returns a value (`valued`) -/
def exitBlock (pid : Nat) (valued : Bool) (rs : List (Nat × Option (Opd C))) : Block Op C :=
  if valued then ⟨[⟨pid, rs.filterMap (fun e => e.2.map (fun o => (e.1, o)))⟩], [], .ret (some (.inst pid))⟩ else ⟨[], [], .ret none⟩

/-- the rewriting (l.46-69): `x` and `pid` are the new block and phi -/
def Func.unify (F : Func Op C) (x pid : Nat) (valued : Bool) : Func Op C where
  entry := F.entry
  order := F.order ++ [x]
  blk z := if z = x then some (exitBlock pid valued F.rets) else (F.blk z).map (fun B => { B with term := B.term.toBr x })

/-- `UnifyReturn::run` (l.33-72) -/
def unifyReturn (noReturn valued : Bool) (F : Func Op C) : Func Op C :=
  if noReturn = true then F
  else if F.order.length = 1 then F
  else if F.rets.length ≤ 1 then F
  else F.unify (above F.blockNames) (above F.instNames) valued

/-! ## specification -/

/-- what the type of the function says about its `ret`s -/
def RetTyped (valued : Bool) (F : Func Op C) : Prop := ∀ b B v, F.blk b = some B → B.term = .ret v → v.isSome = valued

/-- at most one block returns -/
def OneRet (F : Func Op C) : Prop := ∀ a A v b B w, F.blk a = some A → A.term = .ret v → F.blk b = some B → B.term = .ret w → a = b

/-! ## the new function -/

structure Unify (F : Func Op C) (x pid : Nat) (valued : Bool) : Prop where
  xF : x ∉ F.order
  pidF : ∀ b B, F.blk b = some B → pid ∉ B.ids
  pidU : ∀ b B, F.blk b = some B → Opd.inst pid ∉ B.opds
  typed : RetTyped valued F

theorem Func.mem_rets {F : Func Op C} (hl : F.Listed) {b : Nat} {v : Option (Opd C)} : (b, v) ∈ F.rets ↔ ∃ B, F.blk b = some B ∧ B.term = .ret v := by
  unfold Func.rets
  rw [List.mem_filterMap]
  constructor
  · rintro ⟨a, _, h⟩
    split at h
    · rename_i B hB
      split at h
      · rename_i w hw
        simp only [Option.some.injEq, Prod.mk.injEq] at h
        obtain ⟨rfl, rfl⟩ := h
        exact ⟨B, hB, hw⟩
      · simp at h
    · simp at h
  · rintro ⟨B, hB, hv⟩
    exact ⟨b, hl b B hB, by rw [hB]; simp only [hv]⟩

theorem Term.toBr_args {x : Nat} {t : Term C} {o : Opd C} (h : o ∈ (t.toBr x).args) : o ∈ t.args := by
  cases t <;> simp_all [Term.toBr, Term.args]

theorem Term.toBr_targets {x z : Nat} {t : Term C} : z ∈ (t.toBr x).targets ↔ z ∈ t.targets ∨ (z = x ∧ ∃ v, t = .ret v) := by
  cases t <;> simp [Term.toBr, Term.targets]

theorem Term.toBr_ret {x : Nat} {t : Term C} {v : Option (Opd C)} : t.toBr x ≠ .ret v := by
  cases t <;> simp [Term.toBr]

variable {F : Func Op C} {x pid : Nat} {valued : Bool}

theorem Unify.blk_x : (F.unify x pid valued).blk x = some (exitBlock pid valued F.rets) := if_pos rfl

theorem Unify.blk_old {z : Nat} (hz : z ≠ x) : (F.unify x pid valued).blk z = (F.blk z).map (fun B => { B with term := B.term.toBr x }) := if_neg hz

theorem Unify.ne (U : Unify F x pid valued) (S : Shape F) {b : Nat} {B : Block Op C} (hB : F.blk b = some B) : b ≠ x := by
  rintro rfl; exact U.xF (S.listed _ B hB)

theorem Unify.back {z : Nat} {Z : Block Op C} (hZ : (F.unify x pid valued).blk z = some Z) :
    (z = x ∧ Z = exitBlock pid valued F.rets) ∨ (z ≠ x ∧ ∃ B, F.blk z = some B ∧ Z = { B with term := B.term.toBr x }) := by
  by_cases h : z = x
  · subst h
    rw [Unify.blk_x] at hZ
    exact .inl ⟨rfl, (Option.some.inj hZ).symm⟩
  · rw [Unify.blk_old h] at hZ
    obtain ⟨B, hB, rfl⟩ := Option.map_eq_some_iff.1 hZ
    exact .inr ⟨h, B, hB, rfl⟩

theorem exitBlock_targets {rs : List (Nat × Option (Opd C))} : (exitBlock (Op := Op) pid valued rs).term.targets = [] := by
  unfold exitBlock; split <;> rfl

theorem exitBlock_body {rs : List (Nat × Option (Opd C))} : (exitBlock (Op := Op) pid valued rs).body = [] := by
  unfold exitBlock; split <;> rfl

theorem exitBlock_ids {rs : List (Nat × Option (Opd C))} {i : Nat} (h : i ∈ (exitBlock (Op := Op) pid valued rs).ids) : i = pid := by
  unfold exitBlock at h
  split at h <;> simpa [Block.ids] using h

theorem Unify.edge (U : Unify F x pid valued) (S : Shape F) {a b : Nat} : Edge (F.unify x pid valued) a b ↔ Edge F a b ∨ (b = x ∧ ∃ A v, F.blk a = some A ∧ A.term = .ret v) := by
  constructor
  · rintro ⟨A', hA', hb⟩
    rcases Unify.back hA' with ⟨_, rfl⟩ | ⟨_, A, hA, rfl⟩
    · rw [exitBlock_targets] at hb; simp at hb
    · rcases Term.toBr_targets.1 hb with h | ⟨h, v, hv⟩
      · exact .inl ⟨A, hA, h⟩
      · exact .inr ⟨h, A, v, hA, hv⟩
  · intro h
    have key : ∀ A, F.blk a = some A → b ∈ (A.term.toBr x).targets → Edge (F.unify x pid valued) a b := by
      intro A hA hb
      refine ⟨{ A with term := A.term.toBr x }, ?_, hb⟩
      rw [Unify.blk_old (U.ne S hA), hA]
      rfl
    rcases h with ⟨A, hA, h⟩ | ⟨h, A, v, hA, hv⟩
    · exact key A hA (Term.toBr_targets.2 (.inl h))
    · exact key A hA (Term.toBr_targets.2 (.inr ⟨h, v, hv⟩))

/-- nothing follows `x`: paths to other blocks are the old ones -/
theorem Unify.path (U : Unify F x pid valued) (S : Shape F) {a b : Nat} {p : List Nat} (h : Dom.Path (Edge (F.unify x pid valued)) a b p) (hb : b ≠ x) : Dom.Path (Edge F) a b p := by
  induction h with
  | single _ => exact .single _
  | cons e hp ih =>
    have ih2 := ih hb
    rcases (U.edge S).1 e with h | ⟨h, _⟩
    · exact .cons h ih2
    · subst h
      cases ih2 with
      | single _ => exact absurd rfl hb
      | cons e' _ =>
        obtain ⟨X, hX, _⟩ := e'
        exact absurd (S.listed _ X hX) U.xF

theorem Unify.live (U : Unify F x pid valued) (S : Shape F) {b : Nat} (h : Live (F.unify x pid valued) b) (hb : b ≠ x) : Live F b := by
  obtain ⟨p, hp⟩ := h
  exact ⟨p, U.path S hp hb⟩

theorem Unify.domi (U : Unify F x pid valued) (S : Shape F) {d b : Nat} (h : Domi F d b) (hb : b ≠ x) : Domi (F.unify x pid valued) d b :=
  fun p hp => h p (U.path S hp hb)

theorem Unify.defIn (U : Unify F x pid valued) (S : Shape F) {i d : Nat} (h : DefIn F i d) : DefIn (F.unify x pid valued) i d := by
  obtain ⟨D, hD, hi⟩ := h
  exact ⟨{ D with term := D.term.toBr x }, by rw [Unify.blk_old (U.ne S hD), hD]; rfl, hi⟩

theorem Unify.shape (U : Unify F x pid valued) (S : Shape F) : Shape (F.unify x pid valued) where
  nodup := List.nodup_append.2 ⟨S.nodup, by simp, fun a ha b hb => by simp only [List.mem_singleton] at hb; subst hb; rintro rfl; exact U.xF ha⟩
  listed b Z hZ := by
    rcases Unify.back hZ with ⟨rfl, _⟩ | ⟨_, B, hB, _⟩
    · exact List.mem_append_right _ (by simp)
    · exact List.mem_append_left _ (S.listed b B hB)
  total b hb := by
    rcases List.mem_append.1 hb with h | h
    · obtain ⟨B, hB⟩ := S.total b h
      exact ⟨_, by rw [Unify.blk_old (U.ne S hB), hB]; rfl⟩
    · simp only [List.mem_singleton] at h
      subst h
      exact ⟨_, Unify.blk_x⟩
  entryIn := List.mem_append_left _ S.entryIn
  closed a b e := by
    rcases (U.edge S).1 e with h | ⟨rfl, _⟩
    · exact List.mem_append_left _ (S.closed a b h)
    · exact List.mem_append_right _ (by simp)
  unique := by
    rw [allIds_eq]
    show ((F.order ++ [x]).flatMap _).Nodup
    have h := S.unique
    rw [allIds_eq] at h
    rw [List.flatMap_append, List.nodup_append]
    refine ⟨Eq.mp (congrArg List.Nodup (List.flatMap_congr (fun b hb => ?_))) h, ?_, ?_⟩
    · have hbx : b ≠ x := by rintro rfl; exact U.xF hb
      rw [Unify.blk_old hbx]
      cases F.blk b <;> rfl
    · simp only [List.flatMap_cons, List.flatMap_nil, Unify.blk_x, List.append_nil]
      unfold exitBlock; split <;> simp [Block.ids]
    · intro i hi j hj
      simp only [List.flatMap_cons, List.flatMap_nil, Unify.blk_x, List.append_nil] at hj
      have hj := exitBlock_ids hj
      subst hj
      rintro rfl
      obtain ⟨b, hbo, hb⟩ := List.mem_flatMap.1 hi
      have hbx : b ≠ x := by rintro rfl; exact U.xF hbo
      rw [Unify.blk_old hbx] at hb
      cases hB : F.blk b with
      | none => rw [hB] at hb; simp at hb
      | some B => rw [hB] at hb; exact U.pidF b B hB hb

theorem Unify.liveWf (U : Unify F x pid valued) (W : LiveWf F) : LiveWf (F.unify x pid valued) where
  toShape := U.shape W.toShape
  entryPhis Z hZ := by
    rcases Unify.back hZ with ⟨h, _⟩ | ⟨_, B, hB, rfl⟩
    · exact absurd (h ▸ W.entryIn) U.xF
    · exact W.entryPhis B hB
  inOrder b Z hZ hb := by
    rcases Unify.back hZ with ⟨_, rfl⟩ | ⟨hbx, B, hB, rfl⟩
    · refine ⟨fun pre i post h => ?_, fun i hi _ => ?_⟩
      · rw [exitBlock_body] at h; simp at h
      · cases valued
        · simp [exitBlock, Term.args] at hi
        · exact .inl (by simpa [exitBlock, Term.args] using hi)
    · have hO := W.inOrder b B hB (U.live W.toShape hb hbx)
      exact ⟨hO.1, fun i hi h => hO.2 i (Term.toBr_args hi) h⟩
  use b Z i hZ hb hi := by
    rcases Unify.back hZ with ⟨hbx, rfl⟩ | ⟨hbx, B, hB, rfl⟩
    · rw [exitBlock_body] at hi
      simp only [List.not_mem_nil, false_and, exists_false, false_or] at hi
      refine ⟨x, ⟨_, Unify.blk_x, ?_⟩, hbx ▸ domi_self _ _⟩
      cases valued
      · simp [exitBlock, Term.args] at hi
      · simpa [exitBlock, Term.args, Block.ids] using hi
    · obtain ⟨d, hd, hdom⟩ := W.use b B i hB (U.live W.toShape hb hbx) (hi.imp id Term.toBr_args)
      exact ⟨d, U.defIn W.toShape hd, U.domi W.toShape hdom hbx⟩
  phiUse b Z p q i hZ hb hp hq hql := by
    rcases Unify.back hZ with ⟨hbx, rfl⟩ | ⟨hbx, B, hB, rfl⟩
    · cases valued
      · simp [exitBlock] at hp
      · simp only [exitBlock, if_true, List.mem_singleton] at hp
        subst hp
        obtain ⟨⟨a, v⟩, hav, h⟩ := List.mem_filterMap.1 hq
        obtain ⟨o, rfl, h⟩ := Option.map_eq_some_iff.1 h
        simp only [Prod.mk.injEq] at h
        obtain ⟨rfl, rfl⟩ := h
        obtain ⟨Q, hQ, hv⟩ := (Func.mem_rets W.listed).1 hav
        have hqx : a ≠ x := U.ne W.toShape hQ
        obtain ⟨d, hd, hdom⟩ := W.use a Q i hQ (U.live W.toShape hql hqx) (.inr (by rw [hv]; simp [Term.args]))
        exact ⟨d, U.defIn W.toShape hd, U.domi W.toShape hdom hqx⟩
    · have hqx : q ≠ x := by
        rintro rfl
        obtain ⟨X, hX, _⟩ := W.phiPred b B p hB (U.live W.toShape hb hbx) hp q _ hq
        exact U.ne W.toShape hX rfl
      obtain ⟨d, hd, hdom⟩ := W.phiUse b B p q i hB (U.live W.toShape hb hbx) hp hq (U.live W.toShape hql hqx)
      exact ⟨d, U.defIn W.toShape hd, U.domi W.toShape hdom hqx⟩
  phiPred b Z p hZ hb hp q v hq := by
    rw [U.edge W.toShape]
    rcases Unify.back hZ with ⟨hbx, rfl⟩ | ⟨hbx, B, hB, rfl⟩
    · refine .inr ⟨hbx, ?_⟩
      cases valued
      · simp [exitBlock] at hp
      · simp only [exitBlock, if_true, List.mem_singleton] at hp
        subst hp
        obtain ⟨⟨a, w⟩, hav, h⟩ := List.mem_filterMap.1 hq
        obtain ⟨o, rfl, h⟩ := Option.map_eq_some_iff.1 h
        simp only [Prod.mk.injEq] at h
        obtain ⟨rfl, rfl⟩ := h
        obtain ⟨Q, hQ, hv⟩ := (Func.mem_rets W.listed).1 hav
        exact ⟨Q, _, hQ, hv⟩
    · exact .inl (W.phiPred b B p hB (U.live W.toShape hb hbx) hp q v hq)
  phiAll b Z p q hZ hb hp he hq := by
    rcases Unify.back hZ with ⟨hbx, rfl⟩ | ⟨hbx, B, hB, rfl⟩
    · cases valued
      · simp [exitBlock] at hp
      · simp only [exitBlock, if_true, List.mem_singleton] at hp
        subst hp
        rcases (U.edge W.toShape).1 he with h | ⟨_, Q, v, hQ, hv⟩
        · exact absurd (hbx ▸ W.closed _ _ h) U.xF
        · have := U.typed q Q v hQ hv
          cases v with
          | none => simp at this
          | some o => exact ⟨o, List.mem_filterMap.2 ⟨(q, some o), (Func.mem_rets W.listed).2 ⟨Q, hQ, hv⟩, rfl⟩⟩
    · rcases (U.edge W.toShape).1 he with h | ⟨h, _⟩
      · have hqx : q ≠ x := by
          obtain ⟨Q, hQ, _⟩ := h
          exact U.ne W.toShape hQ
        exact W.phiAll b B p q hB (U.live W.toShape hb hbx) hp h (U.live W.toShape hq hqx)
      · exact absurd h hbx
  phiDead b Z p p' q v hZ hb hp hp' hq := by
    rcases Unify.back hZ with ⟨hbx, rfl⟩ | ⟨hbx, B, hB, rfl⟩
    · cases valued
      · simp [exitBlock] at hp
      · simp only [exitBlock, if_true, List.mem_singleton] at hp hp'
        subst hp; subst hp'
        exact ⟨v, hq⟩
    · exact W.phiDead b B p p' q v hB (U.live W.toShape hb hbx) hp hp' hq

theorem Unify.oneRet : OneRet (F.unify x pid valued) := by
  have key : ∀ a A v, (F.unify x pid valued).blk a = some A → A.term = .ret v → a = x := by
    intro a A v hA hv
    rcases Unify.back hA with ⟨h, _⟩ | ⟨_, B, _, rfl⟩
    · exact h
    · exact absurd hv Term.toBr_ret
  intro a A v b B w hA hv hB hw
  rw [key a A v hA hv, key b B w hB hw]

theorem unify_fresh (S : Shape F) (ht : RetTyped valued F) : Unify F (above F.blockNames) (above F.instNames) valued where
  xF h := absurd (fresh_block h) (Nat.lt_irrefl _)
  pidF b B hB h := absurd (fresh_inst S.listed hB (.inr h)) (Nat.lt_irrefl _)
  pidU b B hB h := absurd (fresh_inst S.listed hB (.inl h)) (Nat.lt_irrefl _)
  typed := ht

theorem oneRet_of_length (S : Shape F) (h : F.rets.length ≤ 1) : OneRet F := by
  intro a A v b B w hA hv hB hw
  have h1 := (Func.mem_rets S.listed).2 ⟨A, hA, hv⟩
  have h2 := (Func.mem_rets S.listed).2 ⟨B, hB, hw⟩
  generalize F.rets = l at h h1 h2
  match l, h with
  | [], _ => simp at h1
  | [e], _ =>
    simp only [List.mem_singleton] at h1 h2
    rw [← h2] at h1
    exact congrArg Prod.fst h1

theorem oneRet_of_single (S : Shape F) (h : F.order.length = 1) : OneRet F := by
  intro a A v b B w hA _ hB _
  have h1 := S.listed a A hA
  have h2 := S.listed b B hB
  obtain ⟨c, hc⟩ := List.length_eq_one_iff.1 h
  rw [hc] at h1 h2
  simp only [List.mem_singleton] at h1 h2
  rw [h1, h2]

end

section
variable {L : Lang} {F : L.F} {x pid : Nat} {valued : Bool}

theorem rets_at (S : Shape F) {b : Nat} {B : L.B} {o : Opd L.C} (hB : F.blk b = some B) (ho : B.term = .ret (some o)) :
    (Phi.mk pid (F.rets.filterMap (fun e => e.2.map (fun o => (e.1, o))))).at b = some o := by
  have hmem : (b, o) ∈ F.rets.filterMap (fun e => e.2.map (fun o => (e.1, o))) :=
    List.mem_filterMap.2 ⟨(b, some o), (Func.mem_rets S.listed).2 ⟨B, hB, ho⟩, rfl⟩
  obtain ⟨o', ho', hm⟩ := Phi.at_some (p := Phi.mk pid (F.rets.filterMap (fun e => e.2.map (fun o => (e.1, o))))) ⟨o, hmem⟩
  rw [ho']
  obtain ⟨⟨a, v⟩, hav, h⟩ := List.mem_filterMap.1 hm
  obtain ⟨o'', rfl, h⟩ := Option.map_eq_some_iff.1 h
  simp only [Prod.mk.injEq] at h
  obtain ⟨rfl, rfl⟩ := h
  obtain ⟨B', hB', hv⟩ := (Func.mem_rets S.listed).1 hav
  rw [hB] at hB'; cases hB'
  rw [ho] at hv
  simpa using hv.symm

theorem Unify.refines (U : Unify F x pid valued) (S : Shape F) : Refines L F (F.unify x pid valued) := by
  refine Simulation.refines (R := fun s t => s = t) ?_ (fun m => rfl)
  rintro s _ rfl
  refine ⟨rfl, ?_⟩
  cases hB : F.blk s.cur with
  | none => exact .inl ⟨1, by rw [run_one]; unfold step; rw [hB]⟩
  | some B =>
    have hG : (F.unify x pid valued).blk s.cur = some { B with term := B.term.toBr x } := by
      rw [Unify.blk_old (U.ne S hB), hB]; rfl
    by_cases hr : ∃ v, B.term = .ret v
    · obtain ⟨v, hv⟩ := hr
      have eF : run L F 1 s = stepBlk L B s := by rw [run_one]; unfold step; rw [hB]
      have eG : step L (F.unify x pid valued) s = stepBlk L { B with term := .br x } s := by unfold step; rw [hG, hv]; rfl
      rw [stepBlk_go] at eF eG
      cases hp : enterPhis L s.pred s.env B.phis s.env with
      | none => rw [hp] at eF; exact .inl ⟨1, eF⟩
      | some env =>
        simp only [hp] at eF eG
        cases hb : execBody L B.body env s.m s.tr with
        | ub => exact .inl ⟨1, by rw [eF]; unfold goBlk; rw [hb]⟩
        | halt es h =>
          refine .inr (.inl ⟨1, 1, .halt h es, ?_, ?_⟩)
          · rw [eF]; unfold goBlk; rw [hb]
          · rw [run_one, eG]; unfold goBlk; rw [hb]
        | ok env' m' es =>
          have eG1 : step L (F.unify x pid valued) s = .inl ⟨some s.cur, x, env', m', es⟩ := by
            rw [eG]; unfold goBlk; rw [hb]; simp only [evalTerm]
          have eG2 : run L (F.unify x pid valued) 2 s = run L (F.unify x pid valued) 1 ⟨some s.cur, x, env', m', es⟩ := by
            show (match step L (F.unify x pid valued) s with | .inl s' => run L (F.unify x pid valued) 1 s' | .inr b => .inr b) = _
            rw [eG1]
          have hty := U.typed s.cur B v hB hv
          cases v with
          | none =>
            cases valued with
            | true => simp at hty
            | false =>
              refine .inr (.inl ⟨1, 2, .ret none m' es, ?_, ?_⟩)
              · rw [eF, hv]; unfold goBlk; rw [hb]; rfl
              · rw [eG2, run_one]; unfold step; rw [Unify.blk_x]
                simp [stepBlk, exitBlock, enterPhis, execBody, evalTerm]
          | some o =>
            cases valued with
            | false => simp at hty
            | true =>
              cases ho : eval L env' o with
              | none => exact .inl ⟨1, by rw [eF, hv]; unfold goBlk; rw [hb]; simp [evalTerm, ho]⟩
              | some w =>
                refine .inr (.inl ⟨1, 2, .ret (some w) m' es, ?_, ?_⟩)
                · rw [eF, hv]; unfold goBlk; rw [hb]; simp [evalTerm, ho]
                · rw [eG2, run_one]; unfold step; rw [Unify.blk_x]
                  have h1 := rets_at (pid := pid) S hB hv
                  have h2 : enterPhis L (some s.cur) env' (exitBlock (Op := L.Op) pid true F.rets).phis env' = some (setEnv L env' pid w) := by
                    simp only [exitBlock, if_true, enterPhis, phiVal]
                    rw [h1]
                    simp only [ho]
                  simp only [stepBlk, h2]
                  simp [exitBlock, execBody, evalTerm, eval, setEnv]
    · have hterm : B.term.toBr x = B.term := by
        cases hT : B.term with
        | ret v => exact absurd ⟨v, hT⟩ hr
        | _ => rfl
      have e : step L (F.unify x pid valued) s = step L F s := by
        unfold step; rw [hG, hB, hterm]
      cases h : step L F s with
      | inr b => exact .inr (.inl ⟨1, 1, b, by rw [run_one, h], by rw [run_one, e, h]⟩)
      | inl s' => exact .inr (.inr ⟨0, 0, s', s', by rw [run_one, h], by rw [run_one, e, h], rfl⟩)

/-- **C73** UnifyReturn keeps the behaviour of a function with live code in SSA form, and leaves live code in SSA form; afterwards at most one block returns, unless
the function is marked as not returning. -/
theorem C73_unifyReturn (noReturn valued : Bool) {F : L.F} (W : LiveWf F) (ht : RetTyped valued F) :
    Refines L F (unifyReturn noReturn valued F) ∧ LiveWf (unifyReturn noReturn valued F) ∧ (unifyReturn noReturn valued F).entry = F.entry ∧
      RetTyped valued (unifyReturn noReturn valued F) ∧ (noReturn = false → OneRet (unifyReturn noReturn valued F)) := by
  unfold unifyReturn
  split
  · rename_i h; exact ⟨Refines.refl F, W, rfl, ht, by simp [h]⟩
  · split
    · rename_i h; exact ⟨Refines.refl F, W, rfl, ht, fun _ => oneRet_of_single W.toShape h⟩
    · split
      · rename_i h; exact ⟨Refines.refl F, W, rfl, ht, fun _ => oneRet_of_length W.toShape h⟩
      · have U := unify_fresh (valued := valued) W.toShape ht
        refine ⟨U.refines W.toShape, U.liveWf W, rfl, ?_, fun _ => Unify.oneRet⟩
        intro b B v hB hv
        rcases Unify.back hB with ⟨_, rfl⟩ | ⟨_, B, _, rfl⟩
        · cases valued <;> simp only [exitBlock, Bool.false_eq_true, if_false, if_true, Term.ret.injEq] at hv <;> subst hv <;> rfl
        · exact absurd hv Term.toBr_ret

end
end Cmmc.SSA
