import Verif.SSA.ReorderPass
/-!
# C78: InstReorder (cmmc/Transforms/Misc/InstReorder.cpp)
-/
namespace Cmmc.SSA
section
variable {Op C : Type}

/-- the same change for every block -/
def Func.mapBlocks (F : Func Op C) (g : Nat → Block Op C → Block Op C) : Func Op C := { F with blk := fun b => (F.blk b).map (g b) }

/-- `rearrangeCommutative` (l.288-336) for one instruction: `comm op` is the opcode that does the same with its operands exchanged (`getReversedOp` for comparisons), if there is one;
`ord` is `getOrder` -/
def Inst.commute [DecidableEq C] (comm : Op → Option Op) (ord : Opd C → Nat) (i : Inst Op C) : Inst Op C :=
  match comm i.op, i.args with
  | some op', [a, b] => if a = b then i else if ord b < ord a then ⟨i.id, op', [b, a]⟩ else i
  | _, _ => i

/-- `getOrder` (l.289-303): parameters first, then all instructions in the order of the blocks, everything else is last -/
def Func.opdOrder (F : Func Op C) (param : C → Option Nat) (nparams : Nat) : Opd C → Nat
  | .inst x => nparams + F.allIds.idxOf x + 1
  | .cst c => match param c with | some j => j + 1 | none => 2 ^ 32 - 1

/-- `run` (l.339-350); `pick b` are the decisions of the priority queue for block `b` -/
def instReorder [DecidableEq C] (mov isAlloc : Op → Bool) (pick : Nat → List Nat → Nat) (comm : Op → Option Op) (param : C → Option Nat) (nparams : Nat) (F : Func Op C) : Func Op C :=
  let G := F.mapBlocks (fun b B => B.reorder mov isAlloc (pick b))
  G.mapBlocks (fun _ B => { B with body := B.body.map (Inst.commute comm (G.opdOrder param nparams)) })

/-! ## SSA form -/

theorem mapBlocks_edge {F : Func Op C} {g : Nat → Block Op C → Block Op C} (ht : ∀ b B, F.blk b = some B → (g b B).term = B.term) {x y : Nat} : Edge (F.mapBlocks g) x y ↔ Edge F x y := by
  constructor
  · rintro ⟨X, hX, hy⟩
    obtain ⟨Y, hY, rfl⟩ := Option.map_eq_some_iff.1 hX
    exact ⟨Y, hY, by rwa [ht x Y hY] at hy⟩
  · rintro ⟨Y, hY, hy⟩
    exact ⟨g x Y, by show (F.blk x).map (g x) = _; rw [hY]; rfl, by rwa [ht x Y hY]⟩

theorem mapBlocks_path {F : Func Op C} {g : Nat → Block Op C → Block Op C} (ht : ∀ b B, F.blk b = some B → (g b B).term = B.term) {a b : Nat} {l : List Nat} :
    Dom.Path (Edge (F.mapBlocks g)) a b l ↔ Dom.Path (Edge F) a b l := by
  constructor
  · intro h; exact path_mono (fun x y e => (mapBlocks_edge ht).1 e) h
  · intro h; exact path_mono (fun x y e => (mapBlocks_edge ht).2 e) h

theorem LiveWf.mapBlocks {F : Func Op C} (W : LiveWf F) {g : Nat → Block Op C → Block Op C} (ht : ∀ b B, F.blk b = some B → (g b B).term = B.term) (hp : ∀ b B, F.blk b = some B → (g b B).phis = B.phis)
    (hid : ∀ b B, F.blk b = some B → ((g b B).body.map Inst.id).Perm (B.body.map Inst.id)) (hu : ∀ b B i x, F.blk b = some B → i ∈ (g b B).body → Opd.inst x ∈ i.args → ∃ i0 ∈ B.body, Opd.inst x ∈ i0.args)
    (ho : ∀ b B, F.blk b = some B → InOrder B → InOrder (g b B)) : LiveWf (F.mapBlocks g) := by
  have hmap : ∀ {b B'}, (F.mapBlocks g).blk b = some B' → ∃ B, F.blk b = some B ∧ B' = g b B := by
    intro b B' h
    obtain ⟨B, hB, rfl⟩ := Option.map_eq_some_iff.1 h
    exact ⟨B, hB, rfl⟩
  have hids : ∀ b B, F.blk b = some B → (g b B).ids.Perm B.ids := by
    intro b B hB
    unfold Block.ids
    rw [hp b B hB]
    exact (hid b B hB).append_left _
  have hlive : ∀ b, Live (F.mapBlocks g) b ↔ Live F b := by
    intro b
    constructor
    · rintro ⟨l, h⟩; exact ⟨l, (mapBlocks_path ht).1 h⟩
    · rintro ⟨l, h⟩; exact ⟨l, (mapBlocks_path ht).2 h⟩
  have hdom : ∀ a b, Domi F a b → Domi (F.mapBlocks g) a b := fun a b h l hl => h l ((mapBlocks_path ht).1 hl)
  have hdef : ∀ x b, DefIn F x b → DefIn (F.mapBlocks g) x b := by
    rintro x b ⟨B, hB, hx⟩
    exact ⟨g b B, by show (F.blk b).map (g b) = _; rw [hB]; rfl, (hids b B hB).mem_iff.2 hx⟩
  refine { nodup := W.nodup, listed := ?_, total := ?_, entryIn := W.entryIn, closed := ?_, unique := ?_, entryPhis := ?_, inOrder := ?_, use := ?_, phiUse := ?_, phiPred := ?_, phiAll := ?_, phiDead := ?_ }
  · intro b B' h
    obtain ⟨B, hB, _⟩ := hmap h
    exact W.listed b B hB
  · intro b hb
    obtain ⟨B, hB⟩ := W.total b hb
    exact ⟨g b B, by show (F.blk b).map (g b) = _; rw [hB]; rfl⟩
  · intro a b e; exact W.closed a b ((mapBlocks_edge ht).1 e)
  · have : (F.mapBlocks g).allIds.Perm F.allIds := by
      rw [allIds_eq, allIds_eq]
      show (F.order.flatMap _).Perm (F.order.flatMap _)
      refine List.Perm.flatMap_left _ ?_
      intro b _
      show (match (F.blk b).map (g b) with | some B => B.ids | none => []).Perm _
      cases hB : F.blk b with
      | none => exact .refl _
      | some B => exact hids b B hB
    exact this.nodup_iff.2 W.unique
  · intro B' h
    obtain ⟨B, hB, rfl⟩ := hmap h
    rw [hp _ B hB]; exact W.entryPhis B hB
  · intro b B' h hl
    obtain ⟨B, hB, rfl⟩ := hmap h
    exact ho b B hB (W.inOrder b B hB ((hlive b).1 hl))
  · intro b B' x h hl hx
    obtain ⟨B, hB, rfl⟩ := hmap h
    have hx' : (∃ i ∈ B.body, Opd.inst x ∈ i.args) ∨ Opd.inst x ∈ B.term.args := by
      rcases hx with ⟨i, hi, hx⟩ | hx
      · exact .inl (hu b B i x hB hi hx)
      · exact .inr (by rwa [ht b B hB] at hx)
    obtain ⟨d, h1, h2⟩ := W.use b B x hB ((hlive b).1 hl) hx'
    exact ⟨d, hdef x d h1, hdom d b h2⟩
  · intro b B' p q x h hl hpm hx hlq
    obtain ⟨B, hB, rfl⟩ := hmap h
    rw [hp b B hB] at hpm
    obtain ⟨d, h1, h2⟩ := W.phiUse b B p q x hB ((hlive b).1 hl) hpm hx ((hlive q).1 hlq)
    exact ⟨d, hdef x d h1, hdom d q h2⟩
  · intro b B' p h hl hpm q v hv
    obtain ⟨B, hB, rfl⟩ := hmap h
    rw [hp b B hB] at hpm
    exact (mapBlocks_edge ht).2 (W.phiPred b B p hB ((hlive b).1 hl) hpm q v hv)
  · intro b B' p q h hl hpm e hlq
    obtain ⟨B, hB, rfl⟩ := hmap h
    rw [hp b B hB] at hpm
    exact W.phiAll b B p q hB ((hlive b).1 hl) hpm ((mapBlocks_edge ht).1 e) ((hlive q).1 hlq)
  · intro b B' p p' q v h hl hpm hpm' hv
    obtain ⟨B, hB, rfl⟩ := hmap h
    rw [hp b B hB] at hpm hpm'
    exact W.phiDead b B p p' q v hB ((hlive b).1 hl) hpm hpm' hv

theorem Inst.commute_cases [DecidableEq C] (comm : Op → Option Op) (ord : Opd C → Nat) (i : Inst Op C) :
    i.commute comm ord = i ∨ ∃ op' a b, comm i.op = some op' ∧ i.args = [a, b] ∧ i.commute comm ord = ⟨i.id, op', [b, a]⟩ := by
  unfold Inst.commute
  split
  · rename_i op' a b h1 h2
    split
    · exact .inl rfl
    · split
      · exact .inr ⟨op', a, b, h1, h2, rfl⟩
      · exact .inl rfl
  · exact .inl rfl

theorem Inst.commute_id [DecidableEq C] {comm : Op → Option Op} {ord : Opd C → Nat} {i : Inst Op C} : (i.commute comm ord).id = i.id := by
  rcases i.commute_cases comm ord with h | ⟨op', a, b, _, _, h⟩ <;> rw [h]

theorem Inst.mem_commute [DecidableEq C] {comm : Op → Option Op} {ord : Opd C → Nat} {i : Inst Op C} {o : Opd C} : o ∈ (i.commute comm ord).args ↔ o ∈ i.args := by
  rcases i.commute_cases comm ord with h | ⟨op', a, b, _, ha, h⟩
  · rw [h]
  · rw [h, ha]; simp; tauto

end

/-! ## behaviour -/
section
variable {L : Lang} {mov isAlloc : L.Op → Bool} {pick : Nat → List Nat → Nat} {comm : L.Op → Option L.Op}

/-- exchanging the operands of a commutative instruction changes nothing -/
theorem execBody_commute {ord : Opd L.C → Nat} (hcomm : ∀ op op', comm op = some op' → ∀ a b m, L.sem op' [b, a] m = L.sem op [a, b] m) :
    ∀ (is : List (Inst L.Op L.C)) (e : Env L) (m : L.M) (es : List L.E), execBody L (is.map (Inst.commute comm ord)) e m es = execBody L is e m es := by
  intro is
  induction is with
  | nil => intro e m es; rfl
  | cons i is ih =>
    intro e m es
    have h1 : (match evals L e (i.commute comm ord).args with | none => Res.ub | some vs => L.sem (i.commute comm ord).op vs m) =
        (match evals L e i.args with | none => Res.ub | some vs => L.sem i.op vs m) := by
      rcases i.commute_cases comm ord with h | ⟨op', a, b, hc, ha, h⟩
      · rw [h]
      · rw [h, ha]
        simp only [evals]
        cases eval L e a with
        | none => cases eval L e b <;> rfl
        | some va =>
          cases eval L e b with
          | none => rfl
          | some vb => exact hcomm _ _ hc va vb m
    have hx : ∀ (j : Inst L.Op L.C) (js : List (Inst L.Op L.C)), execBody L (j :: js) e m es =
        match (match evals L e j.args with | none => Res.ub | some vs => L.sem j.op vs m) with
        | .ok v m' es' => execBody L js (setEnv L e j.id v) m' (es ++ es')
        | .ub => .ub
        | .halt es' h => .halt (es ++ es') h := by
      intro j js
      simp only [execBody]
      cases evals L e j.args <;> rfl
    rw [List.map_cons, hx, hx, h1, Inst.commute_id]
    cases (match evals L e i.args with | none => Res.ub | some vs => L.sem i.op vs m) with
    | ub => rfl
    | halt es' h => rfl
    | ok v m' es' => exact ih _ _ _

/-- a step that does not end in the middle of a block is the same afterwards -/
theorem reorder_step (hmov : Movable L mov) (hcomm : ∀ op op', comm op = some op' → ∀ a b m, L.sem op' [b, a] m = L.sem op [a, b] m) {F : L.F} {param : L.C → Option Nat} {nparams : Nat} (S : Shape F)
    (ho : ∀ b B, F.blk b = some B → InOrder B) (hal : ∀ b B i, F.blk b = some B → i ∈ B.body → isAlloc i.op = true → i.args = []) (s : St L) :
    step L F s = .inr .ub ∨ (∃ es h, step L F s = .inr (.halt h es) ∧ ∃ B e m, F.blk s.cur = some B ∧ execBody L B.body e m s.tr = .halt es h) ∨
      step L (instReorder mov isAlloc pick comm param nparams F) s = step L F s := by
  cases hB : F.blk s.cur with
  | none =>
    refine .inl ?_
    unfold step
    rw [hB]
  | some B =>
    have hG : (instReorder mov isAlloc pick comm param nparams F).blk s.cur = some { B.reorder mov isAlloc (pick s.cur) with
        body := (B.reorder mov isAlloc (pick s.cur)).body.map (Inst.commute comm ((F.mapBlocks (fun b B => B.reorder mov isAlloc (pick b))).opdOrder param nparams)) } := by
      unfold instReorder Func.mapBlocks
      simp only [hB, Option.map_some]
    have hphi := reorder_phis (mov := mov) (isAlloc := isAlloc) (pick := pick s.cur) (ho _ B hB)
    have hR := reorder_resched (mov := mov) (isAlloc := isAlloc) (pick := pick s.cur) (ho _ B hB) (S.ids_nodup hB) (fun i hi => hal _ B i hB hi)
    simp only [step, hB, hG, stepBlk, hphi]
    cases h1 : enterPhis L s.pred s.env B.phis s.env with
    | none => exact .inl rfl
    | some e1 =>
      simp only
      cases h2 : execBody L B.body e1 s.m s.tr with
      | ub => exact .inl rfl
      | halt es h => exact .inr (.inl ⟨es, h, rfl, B, e1, s.m, rfl, h2⟩)
      | ok e2 m2 es2 =>
        refine .inr (.inr ?_)
        have hnd := S.ids_nodup hB
        unfold Block.ids at hnd
        have h3 := hR.exec (L := L) (mov := mov) hmov (fun i hi => by simp only [lockedInst, Bool.or_eq_false_iff, Bool.not_eq_false'] at hi; exact hi.2) (List.nodup_append.1 hnd).2.1 (by
          intro pre i post hsp x hx hm
          rcases (ho _ B hB).1 pre i post hsp x hx (List.mem_append_right _ hm) with h | h
          · exact absurd rfl ((List.nodup_append.1 hnd).2.2 x h x hm)
          · exact h) h2
        rw [execBody_commute hcomm, h3]
        rfl

/-- **C78.** `InstReorder`, whatever the priorities are: the function stays in SSA form, and every run that returns still returns the same value and memory after the
same events; if no instruction of the function fails to come back, every run ends, or goes on for ever, as before. -/
theorem C78_instReorder (L : Lang) (mov isAlloc : L.Op → Bool) (pick : Nat → List Nat → Nat) (comm : L.Op → Option L.Op) (param : L.C → Option Nat) (nparams : Nat) (hmov : Movable L mov)
    (hcomm : ∀ op op', comm op = some op' → ∀ a b m, L.sem op' [b, a] m = L.sem op [a, b] m) (F : L.F) (W : LiveWf F) (ho : ∀ b B, F.blk b = some B → InOrder B)
    (hal : ∀ b B i, F.blk b = some B → i ∈ B.body → isAlloc i.op = true → i.args = []) :
    LiveWf (instReorder mov isAlloc pick comm param nparams F) ∧ RefinesRet L F (instReorder mov isAlloc pick comm param nparams F) ∧
    ((∀ b B i, F.blk b = some B → i ∈ B.body → ∀ vs m es h, L.sem i.op vs m ≠ .halt es h) → Refines L F (instReorder mov isAlloc pick comm param nparams F)) := by
  refine ⟨?_, ?_, ?_⟩
  · have W1 : LiveWf (F.mapBlocks (fun b B => B.reorder mov isAlloc (pick b))) := by
      refine LiveWf.mapBlocks W (fun _ _ _ => rfl) (fun b B hB => reorder_phis (ho b B hB)) ?_ ?_ ?_
      · intro b B hB
        exact (reorder_resched (ho b B hB) (W.ids_nodup hB) (fun i hi => hal b B i hB hi)).perm.map _
      · intro b B i x hB hi hx
        exact ⟨i, (reorder_resched (ho b B hB) (W.ids_nodup hB) (fun i hi => hal b B i hB hi)).perm.mem_iff.1 hi, hx⟩
      · intro b B hB _
        have hR := reorder_resched (mov := mov) (isAlloc := isAlloc) (pick := pick b) (ho b B hB) (W.ids_nodup hB) (fun i hi => hal b B i hB hi)
        have hphi := reorder_phis (mov := mov) (isAlloc := isAlloc) (pick := pick b) (ho b B hB)
        have hperm := hR.perm.map Inst.id
        have hm : ∀ x, x ∈ (B.reorder mov isAlloc (pick b)).ids → x ∈ B.phis.map Phi.id ∨ x ∈ B.body.map Inst.id := by
          intro x hx
          unfold Block.ids at hx
          rw [hphi] at hx
          rcases List.mem_append.1 hx with h | h
          · exact .inl h
          · exact .inr (hperm.mem_iff.1 h)
        refine ⟨?_, ?_⟩
        · intro pre i post hsp x hx hmx
          rw [hphi]
          rcases hm x hmx with h | h
          · exact .inl h
          · exact .inr (hR.topo pre i post hsp x hx h)
        · intro x hx hmx
          rw [hphi]
          rcases hm x hmx with h | h
          · exact .inl h
          · exact .inr (hperm.mem_iff.2 h)
    unfold instReorder
    refine LiveWf.mapBlocks W1 (fun _ _ _ => rfl) (fun _ _ _ => rfl) ?_ ?_ ?_
    · intro b B hB
      simp only [List.map_map]
      rw [show Inst.id ∘ Inst.commute comm ((F.mapBlocks (fun b B => B.reorder mov isAlloc (pick b))).opdOrder param nparams) = Inst.id from funext (fun i => Inst.commute_id)]
    · intro b B i x hB hi hx
      obtain ⟨i0, hi0, rfl⟩ := List.mem_map.1 hi
      exact ⟨i0, hi0, Inst.mem_commute.1 hx⟩
    · intro b B hB hin
      have hmapid : ∀ l : List (Inst L.Op L.C), (l.map (Inst.commute comm ((F.mapBlocks (fun b B => B.reorder mov isAlloc (pick b))).opdOrder param nparams))).map Inst.id = l.map Inst.id := by
        intro l
        rw [List.map_map]
        rw [show Inst.id ∘ Inst.commute comm ((F.mapBlocks (fun b B => B.reorder mov isAlloc (pick b))).opdOrder param nparams) = Inst.id from funext (fun i => Inst.commute_id)]
      have hids : ({ B with body := B.body.map (Inst.commute comm ((F.mapBlocks (fun b B => B.reorder mov isAlloc (pick b))).opdOrder param nparams)) } : Block L.Op L.C).ids = B.ids := by
        unfold Block.ids
        rw [hmapid]
      refine ⟨?_, ?_⟩
      · intro pre i post hsp x hx hmx
        rw [hids] at hmx
        obtain ⟨pre0, r0, h1, h2, h3⟩ := List.map_eq_append_iff.1 hsp
        obtain ⟨i0, post0, rfl, rfl, h5⟩ := List.map_eq_cons_iff.1 h3
        rw [← h2, hmapid]
        exact hin.1 pre0 i0 post0 h1 x (Inst.mem_commute.1 hx) hmx
      · intro x hx hmx
        rw [hids] at hmx
        simp only [hmapid]
        exact hin.2 x hx hmx
  · intro m v m' tr ⟨n, hn⟩
    refine ⟨n, ?_⟩
    have key : ∀ n (s : St L), run L F n s = .inr (.ret v m' tr) → run L (instReorder mov isAlloc pick comm param nparams F) n s = .inr (.ret v m' tr) := by
      intro n
      induction n with
      | zero => intro s h; simp [run] at h
      | succ n ih =>
        intro s h
        simp only [run] at h ⊢
        rcases reorder_step (pick := pick) (param := param) (nparams := nparams) hmov hcomm W.toShape ho hal s with h1 | ⟨es, hh, h1, _⟩ | h1
        · rw [h1] at h; simp at h
        · rw [h1] at h; simp at h
        · rw [h1]
          cases hs : step L F s with
          | inl s' => rw [hs] at h; exact ih s' h
          | inr b => rw [hs] at h; exact h
    exact key n _ hn
  · intro hnh
    refine refines_lockstep (fun _ => True) rfl (fun _ => trivial) ?_
    intro s _
    rcases reorder_step (pick := pick) (param := param) (nparams := nparams) hmov hcomm W.toShape ho hal s with h1 | ⟨es, hh, h1, B, e, m, hB, h2⟩ | h1
    · exact .inl h1
    · exact absurd h2 (execBody_noHalt B.body (fun i hi => hnh _ B i hB hi) e m s.tr es hh)
    · exact .inr ⟨h1, fun _ _ => trivial⟩

end
end Cmmc.SSA
