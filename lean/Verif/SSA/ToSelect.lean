import Verif.SSA.PhiMerge
import Verif.SSA.Sink
import Verif.SSA.TailFn
/-!
# Branch2Select (cmmc/Transforms/ControlFlow/Branch2Select.cpp:44-150): C80

`S: cbr c, A, B;  A: …, br B;  B: phis` becomes `S: br A;  A: …, selects, br B;  B: phis`: the code of `A` is executed always.
-/
namespace Cmmc.SSA

/-- what the pass knows about opcodes: `sel` select, `risky` the opcodes of l.60-69 (store, atomic, call, division), loads, allocas, addresses of globals -/
structure B2S (Op C : Type) where
  sel : Op
  risky : Op → Bool
  isLoad : Op → Bool
  isAlloc : Op → Bool
  isGlobal : C → Bool

section
variable {Op C : Type}

/-- `addr->is<StackAllocInst>()` (l.72) -/
def Func.isSlot (P : B2S Op C) (F : Func Op C) (x : Nat) : Bool := F.blocks.any (fun B => B.body.any (fun i => i.id == x && P.isAlloc i.op))

/-- l.60-79 for one instruction. Simplification: an alloca in the block stops the pass; in the code allocas are in the entry block, which is not a candidate. -/
def B2S.instOk (P : B2S Op C) (F : Func Op C) (i : Inst Op C) : Bool :=
  if P.isLoad i.op then match i.args with
    | .cst c :: _ => P.isGlobal c
    | .inst x :: _ => F.isSlot P x
    | [] => false
  else !P.risky i.op && !P.isAlloc i.op

/-- `canFold` (l.48-85); the answer is the block jumped to -/
def B2S.canFold (P : B2S Op C) (F : Func Op C) (a : Nat) (A : Block Op C) : Option Nat :=
  match A.term with
  | .br b => if A.phis.length + A.body.length + 1 ≤ 4 ∧ b ≠ a ∧ A.phis = [] ∧ (∀ i ∈ A.body, P.instOk F i = true) ∧ (A.body.filter (fun i => P.isLoad i.op)).length ≤ 1 then some b else none
  | _ => none

/-- l.107-110: `S` branches to `A` and `B`; the answer tells whether `A` is the true target -/
def branchesTo (a b : Nat) : Term C → Option (Opd C × Bool)
  | .cbr c t f => if t = a ∧ f = b then some (c, true) else if t = b ∧ f = a then some (c, false) else none
  | _ => none

/-- l.125-126: the select for one phi of `B`, named `n` -/
def selectOf (P : B2S Op C) (s a : Nat) (c : Opd C) (onTrue : Bool) (n : Nat) (p : Phi C) : Option (Inst Op C) :=
  match p.at (if onTrue then a else s), p.at (if onTrue then s else a) with
  | some v, some w => some ⟨n, P.sel, [c, v, w]⟩
  | _, _ => none

/-- l.129-131: the phi afterwards -/
def phiAfter (s a n : Nat) (p : Phi C) : Phi C := ((p.removeSource s).removeSource a).addIncoming a (.inst n)

/-- l.94-144 for one block; `preds` is the CFG analysis from the start of the pass; `none`: `incomings().at` throws -/
def toSelectAt (P : B2S Op C) (preds : Nat → List Nat) (F : Func Op C) (a : Nat) : Option (Func Op C) :=
  match F.blk a with
  | none => some F
  | some A =>
    match P.canFold F a A, preds a with
    | some b, [s] =>
      match F.blk s, F.blk b with
      | some S, some B =>
        match branchesTo a b S.term with
        | none => some F
        | some (c, onTrue) =>
          if B.phis = [] then some F
          else
            match B.phis.zipIdx.mapM (fun e => selectOf P s a c onTrue (above F.instNames + e.2) e.1) with
            | none => none
            | some sels => some { entry := F.entry, order := F.order, blk := fun x => (F.blk x).map (fun X => ⟨if x = b then B.phis.zipIdx.map (fun e => phiAfter s a (above F.instNames + e.2) e.1) else X.phis, if x = a then X.body ++ sels else X.body, if x = s then .br a else X.term⟩) }
      | _, _ => some F
    | _, _ => some F

/-- `run` (l.88-150); `native`: the target has a select instruction -/
def branch2Select (P : B2S Op C) (native : Bool) (F : Func Op C) : Option (Func Op C) :=
  if native then F.order.foldlM (toSelectAt P F.preds) F else some F

/-! ## one fold -/

/-- the function after the fold -/
def selTo (F : Func Op C) (s a b : Nat) (ps : List (Phi C)) (sels : List (Inst Op C)) : Func Op C :=
  { entry := F.entry, order := F.order, blk := fun x => (F.blk x).map (fun X => ⟨if x = b then ps else X.phis, if x = a then X.body ++ sels else X.body, if x = s then .br a else X.term⟩) }

/-- the select of phi `p`: its entry for the edge from `A` and the one for the edge from `S` -/
structure SelPhi (P : B2S Op C) (s a : Nat) (c : Opd C) (onTrue : Bool) (p p' : Phi C) (i : Inst Op C) (va vs : Opd C) : Prop where
  pa : p.at a = some va
  ps : p.at s = some vs
  id : p'.id = p.id
  inc : ∀ q v, (q, v) ∈ p'.inc ↔ ((q, v) ∈ p.inc ∧ q ≠ s ∧ q ≠ a) ∨ (q = a ∧ v = .inst i.id)
  old : ∀ q, q ≠ s → q ≠ a → p'.at q = p.at q
  new : p'.at a = some (.inst i.id)
  op : i.op = P.sel
  args : i.args = [c, if onTrue then va else vs, if onTrue then vs else va]

/-- the three lists correspond -/
inductive SelPhis (P : B2S Op C) (s a : Nat) (c : Opd C) (onTrue : Bool) : List (Phi C) → List (Phi C) → List (Inst Op C) → Prop
  | nil : SelPhis P s a c onTrue [] [] []
  | cons {p p' : Phi C} {i : Inst Op C} {va vs : Opd C} {l l' : List (Phi C)} {is : List (Inst Op C)} : SelPhi P s a c onTrue p p' i va vs → SelPhis P s a c onTrue l l' is → SelPhis P s a c onTrue (p :: l) (p' :: l') (i :: is)

structure SelStep (P : B2S Op C) (F : Func Op C) (s a b : Nat) (S A B : Block Op C) (c : Opd C) (onTrue : Bool) (ps : List (Phi C)) (sels : List (Inst Op C)) : Prop where
  hS : F.blk s = some S
  hA : F.blk a = some A
  hB : F.blk b = some B
  ab : a ≠ b
  sterm : S.term = .cbr c (if onTrue then a else b) (if onTrue then b else a)
  aterm : A.term = .br b
  aphis : A.phis = []
  ok : ∀ i ∈ A.body, P.instOk F i = true
  preds : ∀ q, Edge F q a → q = s
  ne : B.phis ≠ []
  phis : SelPhis P s a c onTrue B.phis ps sels
  fresh : ∀ i ∈ sels, ∀ x X, F.blk x = some X → Opd.inst i.id ∉ X.opds ∧ i.id ∉ X.ids
  nodup : (sels.map Inst.id).Nodup

theorem Phi.at_removed {p : Phi C} {src q : Nat} (h : q ≠ src) : (p.removeSource src).at q = p.at q := Phi.at_removeSource h

theorem selPhi_of {P : B2S Op C} {s a n : Nat} {c : Opd C} {onTrue : Bool} {p : Phi C} {i : Inst Op C} (h : selectOf P s a c onTrue n p = some i) :
    i.id = n ∧ ∃ va vs, SelPhi P s a c onTrue p (phiAfter s a n p) i va vs := by
  have hat : (phiAfter s a n p).at a = some (.inst n) := by
    unfold phiAfter Phi.addIncoming Phi.at
    rw [List.find?_append]
    have : ((p.removeSource s).removeSource a).inc.find? (fun e => e.1 == a) = none := by
      rw [List.find?_eq_none]
      intro e he
      unfold Phi.removeSource at he
      simp only [List.mem_filter, decide_eq_true_eq] at he
      simpa using he.2
    rw [this]
    simp
  have key : ∀ va vs, p.at a = some va → p.at s = some vs → i = ⟨n, P.sel, [c, if onTrue then va else vs, if onTrue then vs else va]⟩ → i.id = n ∧ ∃ va vs, SelPhi P s a c onTrue p (phiAfter s a n p) i va vs := by
    rintro va vs h1 h2 rfl
    refine ⟨rfl, va, vs, h1, h2, rfl, ?_, ?_, hat, rfl, rfl⟩
    · intro q v
      unfold phiAfter Phi.addIncoming
      simp only [Phi.removeSource, List.mem_append, List.mem_filter, decide_eq_true_eq, List.mem_singleton, Prod.mk.injEq, and_assoc]
    · intro q hs ha
      unfold phiAfter
      rw [Phi.at_addIncoming ha, Phi.at_removeSource ha, Phi.at_removeSource hs]
  unfold selectOf at h
  cases onTrue with
  | true =>
    simp only [if_true] at h
    split at h
    · rename_i v w h1 h2
      cases h
      exact key v w h1 h2 rfl
    · cases h
  | false =>
    simp only [Bool.false_eq_true, if_false] at h
    split at h
    · rename_i v w h1 h2
      cases h
      exact key w v h2 h1 rfl
    · cases h

theorem selPhis_of {P : B2S Op C} {s a base : Nat} {c : Opd C} {onTrue : Bool} : ∀ {l : List (Phi C)} {k : Nat} {sels : List (Inst Op C)},
    (l.zipIdx k).mapM (fun e => selectOf P s a c onTrue (base + e.2) e.1) = some sels →
      SelPhis P s a c onTrue l ((l.zipIdx k).map (fun e => phiAfter s a (base + e.2) e.1)) sels ∧ (∀ i ∈ sels, base + k ≤ i.id) ∧ (sels.map Inst.id).Nodup := by
  intro l
  induction l with
  | nil => intro k sels h; cases h; exact ⟨.nil, by simp, by simp⟩
  | cons p l ih =>
    intro k sels h
    rw [List.zipIdx_cons, mapM_forall₂] at h
    cases h with
    | cons h1 h2 =>
      rename_i i is
      obtain ⟨hid, va, vs, hp⟩ := selPhi_of h1
      obtain ⟨k1, k2, k3⟩ := ih (mapM_forall₂.2 h2)
      refine ⟨.cons hp k1, ?_, ?_⟩
      · intro j hj
        rcases List.mem_cons.1 hj with rfl | hj
        · exact hid ▸ Nat.le_refl _
        · have := k2 j hj; omega
      · rw [List.map_cons, List.nodup_cons]
        refine ⟨?_, k3⟩
        intro hm
        obtain ⟨j, hj, hji⟩ := List.mem_map.1 hm
        have := k2 j hj
        omega

theorem toSelectAt_some {P : B2S Op C} {preds : Nat → List Nat} {F G : Func Op C} (Sh : Shape F) (hp : ∀ q b, Edge F q b → q ∈ preds b) {a : Nat} (h : toSelectAt P preds F a = some G) :
    G = F ∨ ∃ s b S A B c onTrue ps sels, SelStep P F s a b S A B c onTrue ps sels ∧ G = selTo F s a b ps sels := by
  unfold toSelectAt at h
  split at h
  · cases h; exact .inl rfl
  rename_i A hA
  split at h
  · rename_i b s hcf hps
    split at h
    · rename_i S B hS hB
      split at h
      · cases h; exact .inl rfl
      rename_i c onTrue hbr
      split at h
      · cases h; exact .inl rfl
      rename_i hne
      split at h
      · cases h
      rename_i sels hsels
      cases h
      refine .inr ⟨s, b, S, A, B, c, onTrue, _, sels, ?_, rfl⟩
      unfold B2S.canFold at hcf
      split at hcf
      · rename_i b' hb'
        split at hcf
        · rename_i hc
          cases hcf
          obtain ⟨_, h2, h3, h4, _⟩ := hc
          have hst : S.term = .cbr c (if onTrue then a else b) (if onTrue then b else a) := by
            unfold branchesTo at hbr
            split at hbr
            · rename_i c' t f ht
              split at hbr
              · rename_i h; cases hbr; rw [ht, h.1, h.2]; rfl
              · split at hbr
                · rename_i h; cases hbr; rw [ht, h.1, h.2]; rfl
                · cases hbr
            · cases hbr
          obtain ⟨k1, k2, k3⟩ := selPhis_of hsels
          refine ⟨hS, hA, hB, fun e => h2 e.symm, hst, hb', h3, h4, ?_, hne, k1, ?_, k3⟩
          · intro q hq
            have := hp q a hq
            rw [hps] at this
            simpa using this
          · intro i hi x X hX
            have hge := k2 i hi
            refine ⟨fun hx => ?_, fun hx => ?_⟩
            · have := fresh_inst Sh.listed hX (.inl hx); omega
            · have := fresh_inst Sh.listed hX (.inr hx); omega
        · cases hcf
      · cases hcf
    · cases h; exact .inl rfl
  · cases h; exact .inl rfl

variable {P : B2S Op C} {F : Func Op C} {s a b : Nat} {S A B : Block Op C} {c : Opd C} {onTrue : Bool} {ps : List (Phi C)} {sels : List (Inst Op C)}

theorem SelPhis.ids {l l' : List (Phi C)} {is : List (Inst Op C)} (h : SelPhis P s a c onTrue l l' is) : l'.map Phi.id = l.map Phi.id := by
  induction h with
  | nil => rfl
  | cons h _ ih => rw [List.map_cons, List.map_cons, h.id, ih]

theorem SelPhis.right {l l' : List (Phi C)} {is : List (Inst Op C)} (h : SelPhis P s a c onTrue l l' is) {p' : Phi C} (hp : p' ∈ l') : ∃ p ∈ l, ∃ i ∈ is, ∃ va vs, SelPhi P s a c onTrue p p' i va vs := by
  induction h with
  | nil => cases hp
  | cons h _ ih =>
    rcases List.mem_cons.1 hp with rfl | hp
    · exact ⟨_, by simp, _, by simp, _, _, h⟩
    · obtain ⟨p, h1, i, h2, h3⟩ := ih hp
      exact ⟨p, by simp [h1], i, by simp [h2], h3⟩

theorem SelPhis.sel {l l' : List (Phi C)} {is : List (Inst Op C)} (h : SelPhis P s a c onTrue l l' is) {i : Inst Op C} (hi : i ∈ is) : ∃ p ∈ l, ∃ p' ∈ l', ∃ va vs, SelPhi P s a c onTrue p p' i va vs := by
  induction h with
  | nil => cases hi
  | cons h _ ih =>
    rcases List.mem_cons.1 hi with rfl | hp
    · exact ⟨_, by simp, _, by simp, _, _, h⟩
    · obtain ⟨p, h1, i, h2, h3⟩ := ih hp
      exact ⟨p, by simp [h1], i, by simp [h2], h3⟩

/-- the operands of a select -/
theorem SelPhi.arg {p p' : Phi C} {i : Inst Op C} {va vs : Opd C} (h : SelPhi P s a c onTrue p p' i va vs) {o : Opd C} (ho : o ∈ i.args) : o = c ∨ (a, o) ∈ p.inc ∨ (s, o) ∈ p.inc := by
  rw [h.args] at ho
  have h1 := Phi.at_mem h.pa
  have h2 := Phi.at_mem h.ps
  simp only [List.mem_cons, List.not_mem_nil, or_false] at ho
  rcases ho with rfl | ho | ho
  · exact .inl rfl
  · cases onTrue
    · simp only [Bool.false_eq_true, if_false] at ho; subst ho; exact .inr (.inr h2)
    · simp only [if_true] at ho; subst ho; exact .inr (.inl h1)
  · cases onTrue
    · simp only [Bool.false_eq_true, if_false] at ho; subst ho; exact .inr (.inl h1)
    · simp only [if_true] at ho; subst ho; exact .inr (.inr h2)

theorem SelStep.sa (T : SelStep P F s a b S A B c onTrue ps sels) : s ≠ a := by
  rintro rfl
  have := T.hS.symm.trans T.hA
  cases this
  have := T.sterm.symm.trans T.aterm
  cases this

theorem SelStep.stargets (T : SelStep P F s a b S A B c onTrue ps sels) {x : Nat} : x ∈ S.term.targets ↔ x = a ∨ x = b := by
  rw [T.sterm]
  cases onTrue <;> simp [Term.targets, or_comm]

theorem SelStep.esa (T : SelStep P F s a b S A B c onTrue ps sels) : Edge F s a := ⟨S, T.hS, T.stargets.2 (.inl rfl)⟩
theorem SelStep.esb (T : SelStep P F s a b S A B c onTrue ps sels) : Edge F s b := ⟨S, T.hS, T.stargets.2 (.inr rfl)⟩
theorem SelStep.eab (T : SelStep P F s a b S A B c onTrue ps sels) : Edge F a b := ⟨A, T.hA, by rw [T.aterm]; simp [Term.targets]⟩

theorem selTo_blk {x : Nat} {X' : Block Op C} (h : (selTo F s a b ps sels).blk x = some X') : ∃ X, F.blk x = some X ∧
    X' = ⟨if x = b then ps else X.phis, if x = a then X.body ++ sels else X.body, if x = s then .br a else X.term⟩ := by
  simp only [selTo] at h
  rw [Option.map_eq_some_iff] at h
  obtain ⟨X, h1, h2⟩ := h
  exact ⟨X, h1, h2.symm⟩

theorem selTo_blk' {x : Nat} {X : Block Op C} (h : F.blk x = some X) : (selTo F s a b ps sels).blk x = some ⟨if x = b then ps else X.phis, if x = a then X.body ++ sels else X.body, if x = s then .br a else X.term⟩ := by
  simp only [selTo]
  rw [h]; rfl

theorem SelStep.edge (T : SelStep P F s a b S A B c onTrue ps sels) {x y : Nat} : Edge (selTo F s a b ps sels) x y ↔ Edge F x y ∧ ¬ (x = s ∧ y = b) := by
  constructor
  · rintro ⟨X', hX', ht⟩
    obtain ⟨X, hX, rfl⟩ := selTo_blk hX'
    dsimp only at ht
    by_cases hxs : x = s
    · rw [if_pos hxs] at ht
      have hy : y = a := by simpa [Term.targets] using ht
      subst hy hxs
      exact ⟨T.esa, fun h => T.ab h.2⟩
    · rw [if_neg hxs] at ht
      exact ⟨⟨X, hX, ht⟩, fun h => hxs h.1⟩
  · rintro ⟨⟨X, hX, ht⟩, hn⟩
    refine ⟨_, selTo_blk' hX, ?_⟩
    dsimp only
    by_cases hxs : x = s
    · subst hxs
      rw [if_pos rfl]
      have := T.hS.symm.trans hX
      cases this
      rcases T.stargets.1 ht with rfl | rfl
      · simp [Term.targets]
      · exact absurd ⟨rfl, rfl⟩ hn
    · rw [if_neg hxs]; exact ht

theorem SelStep.live (T : SelStep P F s a b S A B c onTrue ps sels) {x : Nat} (h : Live (selTo F s a b ps sels) x) : Live F x := by
  obtain ⟨p, hp⟩ := h
  exact ⟨p, path_mono (fun _ _ e => (T.edge.1 e).1) hp⟩

theorem SelStep.domi (T : SelStep P F s a b S A B c onTrue ps sels) {d x : Nat} (h : Domi F d x) : Domi (selTo F s a b ps sels) d x :=
  fun _ hp => h _ (path_mono (fun _ _ e => (T.edge.1 e).1) hp)

theorem SelStep.defIn (T : SelStep P F s a b S A B c onTrue ps sels) {x d : Nat} (h : DefIn F x d) : DefIn (selTo F s a b ps sels) x d := by
  obtain ⟨X, hX, hx⟩ := h
  refine ⟨_, selTo_blk' hX, ?_⟩
  unfold Block.ids at hx ⊢
  dsimp only
  rw [List.mem_append] at hx ⊢
  rcases hx with hx | hx
  · left
    by_cases hb : d = b
    · subst hb
      rw [if_pos rfl, T.phis.ids]
      have := T.hB.symm.trans hX
      cases this
      exact hx
    · rw [if_neg hb]; exact hx
  · right
    split
    · rw [List.map_append]; exact List.mem_append_left _ hx
    · exact hx

/-- what dominates `S` dominates `A` -/
theorem SelStep.domA (T : SelStep P F s a b S A B c onTrue ps sels) (E : EntryFirst F) {d : Nat} (h : Domi F d s) : Domi F d a := by
  intro p hp
  rcases path_unsnoc hp with ⟨he, _⟩ | ⟨q, p', hp', e, rfl⟩
  · exact absurd T.esa (he ▸ E s)
  · have := T.preds q e
    subst this
    exact List.mem_append_left _ (h p' hp')

theorem SelStep.domS (T : SelStep P F s a b S A B c onTrue ps sels) {d : Nat} (h : Domi F d a) (hd : d ≠ a) : Domi F d s := h.pred hd T.esa

/-- `A` does not dominate `S` -/
theorem SelStep.notDom (T : SelStep P F s a b S A B c onTrue ps sels) (E : EntryFirst F) (hs : Live F s) : ¬ Domi F a s := fun h =>
  T.sa (Domi.antisymm (T.domA E (domi_self F s)) h (hs.edge T.esa))

theorem SelStep.entryFirst (T : SelStep P F s a b S A B c onTrue ps sels) (E : EntryFirst F) : EntryFirst (selTo F s a b ps sels) := fun q e => E q (T.edge.1 e).1

theorem SelStep.selFresh (T : SelStep P F s a b S A B c onTrue ps sels) (W : Shape F) {i : Inst Op C} (hi : i ∈ sels) : i.id ∉ F.allIds := by
  rw [allIds_eq, List.mem_flatMap]
  rintro ⟨x, hx, hm⟩
  cases hX : F.blk x with
  | none => rw [hX] at hm; cases hm
  | some X => rw [hX] at hm; exact (T.fresh i hi x X hX).2 hm

theorem SelStep.shape (T : SelStep P F s a b S A B c onTrue ps sels) (W : Shape F) : Shape (selTo F s a b ps sels) where
  nodup := W.nodup
  listed x X' hX' := by
    obtain ⟨X, hX, _⟩ := selTo_blk hX'
    exact W.listed x X hX
  total x hx := by
    obtain ⟨X, hX⟩ := W.total x hx
    exact ⟨_, selTo_blk' hX⟩
  entryIn := W.entryIn
  closed x y e := W.closed x y (T.edge.1 e).1
  unique := by
    have h := W.unique
    rw [allIds_eq] at h ⊢
    show (F.order.flatMap _).Nodup
    have hids : ∀ x ∈ F.order, (match (selTo F s a b ps sels).blk x with | some B => B.ids | none => []) = (match F.blk x with | some B => B.ids | none => []) ++ (if x = a then sels.map Inst.id else []) := by
      intro x hx
      obtain ⟨X, hX⟩ := W.total x hx
      rw [selTo_blk' hX, hX]
      simp only [Block.ids]
      have hph : (if x = b then ps else X.phis).map Phi.id = X.phis.map Phi.id := by
        split
        · rename_i hb
          subst hb
          have := T.hB.symm.trans hX
          cases this
          exact T.phis.ids
        · rfl
      rw [hph, List.append_assoc]
      split <;> simp
    refine (fun h1 h2 => h1 ▸ h2 : ∀ {u v : List Nat}, v = u → v.Nodup → u.Nodup) (List.flatMap_congr hids).symm ?_
    have hfresh : ∀ i ∈ sels.map Inst.id, i ∉ F.order.flatMap (fun b => match F.blk b with | some B => B.ids | none => []) := by
      intro x hx
      obtain ⟨i, hi, rfl⟩ := List.mem_map.1 hx
      have := T.selFresh W hi
      rw [allIds_eq] at this
      exact this
    have hperm : (F.order.flatMap (fun x => (match F.blk x with | some B => B.ids | none => []) ++ (if x = a then sels.map Inst.id else []))).Perm
        (F.order.flatMap (fun b => match F.blk b with | some B => B.ids | none => []) ++ F.order.flatMap (fun x => if x = a then sels.map Inst.id else [])) :=
      (List.flatMap_append_perm F.order _ _).symm
    rw [hperm.nodup_iff, List.nodup_append]
    have hone : ∀ {l : List Nat}, l.Nodup → (∀ y ∈ l.flatMap (fun x => if x = a then sels.map Inst.id else []), y ∈ sels.map Inst.id) ∧ (l.flatMap (fun x => if x = a then sels.map Inst.id else [])).Nodup := by
      intro l hl
      refine ⟨?_, ?_⟩
      · intro y hy
        obtain ⟨x, _, hy⟩ := List.mem_flatMap.1 hy
        split at hy
        · exact hy
        · cases hy
      · induction l with
        | nil => simp
        | cons x l ih =>
          rw [List.nodup_cons] at hl
          rw [List.flatMap_cons]
          by_cases hx : x = a
          · subst hx
            have : l.flatMap (fun y => if y = x then sels.map Inst.id else []) = [] := by
              rw [List.flatMap_eq_nil_iff]
              intro y hy
              rw [if_neg]
              rintro rfl
              exact hl.1 hy
            rw [this, if_pos rfl, List.append_nil]
            exact T.nodup
          · rw [if_neg hx]; exact ih hl.2
    refine ⟨h, (hone W.nodup).2, ?_⟩
    intro x hx y hy hxy
    subst hxy
    exact hfresh x ((hone W.nodup).1 x hy) hx

theorem SelStep.liveWf (T : SelStep P F s a b S A B c onTrue ps sels) (W : LiveWf F) (E : EntryFirst F) : LiveWf (selTo F s a b ps sels) where
  toShape := T.shape W.toShape
  entryPhis X' hX' := by
    obtain ⟨X, hX, rfl⟩ := selTo_blk hX'
    dsimp only
    have hp := W.entryPhis X hX
    split
    · rename_i hb
      exact absurd T.eab (hb ▸ E a)
    · exact hp
  inOrder x X' hX' hx := by
    obtain ⟨X, hX, rfl⟩ := selTo_blk hX'
    have hO := W.inOrder x X hX (T.live hx)
    have hph : (if x = b then ps else X.phis).map Phi.id = X.phis.map Phi.id := by
      split
      · rename_i hb
        subst hb
        have := T.hB.symm.trans hX
        cases this
        exact T.phis.ids
      · rfl
    unfold InOrder Block.ids at hO ⊢
    dsimp only
    rw [hph]
    have hold : ∀ y, (Opd.inst y ∈ X.opds) → y ∉ sels.map Inst.id := by
      intro y hy hm
      obtain ⟨i, hi, rfl⟩ := List.mem_map.1 hm
      exact (T.fresh i hi x X hX).1 hy
    by_cases hxa : x = a
    · subst hxa
      have := T.hA.symm.trans hX
      cases this
      simp only [if_true]
      rw [if_neg (Ne.symm T.sa)]
      refine ⟨?_, ?_⟩
      · intro pre i post hsplit y hy hyin
        rw [List.map_append, List.mem_append, List.mem_append] at hyin
        rcases List.append_eq_append_iff.1 hsplit with ⟨z, hz1, hz2⟩ | ⟨z, hz1, hz2⟩
        · -- the instruction is a select
          have hi : i ∈ sels := by rw [hz2]; simp
          have hyn : y ∉ sels.map Inst.id := by
            obtain ⟨p, hp, p', _, va, vs, hs⟩ := T.phis.sel hi
            intro hm
            obtain ⟨j, hj, rfl⟩ := List.mem_map.1 hm
            have hva := (T.fresh j hj b B T.hB).1
            have hc := (T.fresh j hj s S T.hS).1
            have h1 : ∀ q v, (q, v) ∈ p.inc → v ∈ B.opds := fun q v h => mem_opds_phi hp h
            rcases hs.arg hy with hy | hy | hy
            · refine hc ?_
              unfold Block.opds
              rw [T.sterm, hy]
              simp [Term.args]
            · exact hva (h1 _ _ hy)
            · exact hva (h1 _ _ hy)
          rcases hyin with h | h | h
          · exact .inl h
          · right; rw [hz1, List.map_append, List.mem_append]; exact .inl h
          · exact absurd h hyn
        · -- an old instruction
          cases z with
          | nil =>
            -- same as above with empty rest
            rw [List.append_nil] at hz1
            rw [List.nil_append] at hz2
            have hi : i ∈ sels := by rw [← hz2]; simp
            have hyn : y ∉ sels.map Inst.id := by
              obtain ⟨p, hp, p', _, va, vs, hs⟩ := T.phis.sel hi
              intro hm
              obtain ⟨j, hj, rfl⟩ := List.mem_map.1 hm
              have hva := (T.fresh j hj b B T.hB).1
              have hc := (T.fresh j hj s S T.hS).1
              have h1 : ∀ q v, (q, v) ∈ p.inc → v ∈ B.opds := fun q v h => mem_opds_phi hp h
              rcases hs.arg hy with hy | hy | hy
              · refine hc ?_
                unfold Block.opds
                rw [T.sterm, hy]
                simp [Term.args]
              · exact hva (h1 _ _ hy)
              · exact hva (h1 _ _ hy)
            rcases hyin with h | h | h
            · exact .inl h
            · right; rw [← hz1]; exact h
            · exact absurd h hyn
          | cons w z =>
            rw [List.cons_append, List.cons.injEq] at hz2
            obtain ⟨rfl, hz2⟩ := hz2
            have hi : i ∈ A.body := by rw [hz1]; simp
            have hyn := hold y (mem_opds_use (.inl ⟨i, hi, hy⟩))
            refine hO.1 pre i z hz1 y hy (List.mem_append.2 ?_)
            rcases hyin with h | h | h
            · exact .inl h
            · exact .inr h
            · exact absurd h hyn
      · intro y hy
        rw [T.aterm] at hy
        simp [Term.args] at hy
    · rw [if_neg hxa]
      refine ⟨hO.1, ?_⟩
      intro y hy
      split at hy
      · simp [Term.args] at hy
      · exact hO.2 y hy
  use x X' y hX' hx hy := by
    obtain ⟨X, hX, rfl⟩ := selTo_blk hX'
    dsimp only at hy
    have old : ((∃ i ∈ X.body, Opd.inst y ∈ i.args) ∨ Opd.inst y ∈ X.term.args) → ∃ h, DefIn (selTo F s a b ps sels) y h ∧ Domi (selTo F s a b ps sels) h x := by
      intro h
      obtain ⟨d, hd, hdom⟩ := W.use x X y hX (T.live hx) h
      exact ⟨d, T.defIn hd, T.domi hdom⟩
    rcases hy with ⟨i, hi, hy⟩ | hy
    · by_cases hxa : x = a
      · subst hxa
        rw [if_pos rfl, List.mem_append] at hi
        rcases hi with hi | hi
        · exact old (.inl ⟨i, hi, hy⟩)
        · obtain ⟨p, hp, p', _, va, vs, hs⟩ := T.phis.sel hi
          have hls : Live F s := by
            obtain ⟨p, hp⟩ := T.live hx
            rcases path_unsnoc hp with ⟨he, _⟩ | ⟨q, p', hp', e, _⟩
            · exact absurd T.esa (he ▸ E s)
            · have := T.preds q e
              subst this
              exact ⟨p', hp'⟩
          have hla := T.live hx
          have hlb : Live F b := hls.edge T.esb
          have useA : (x, Opd.inst y) ∈ p.inc → ∃ h, DefIn (selTo F s x b ps sels) y h ∧ Domi (selTo F s x b ps sels) h x := by
            intro hm
            obtain ⟨d, hd, hdom⟩ := W.phiUse b B p x y T.hB hlb hp hm hla
            exact ⟨d, T.defIn hd, T.domi hdom⟩
          have useS : (s, Opd.inst y) ∈ p.inc → ∃ h, DefIn (selTo F s x b ps sels) y h ∧ Domi (selTo F s x b ps sels) h x := by
            intro hm
            obtain ⟨d, hd, hdom⟩ := W.phiUse b B p s y T.hB hlb hp hm hls
            exact ⟨d, T.defIn hd, T.domi (T.domA E hdom)⟩
          rcases hs.arg hy with hy | hy | hy
          · obtain ⟨d, hd, hdom⟩ := W.use s S y T.hS hls (.inr (by rw [T.sterm, hy]; simp [Term.args]))
            exact ⟨d, T.defIn hd, T.domi (T.domA E hdom)⟩
          · exact useA hy
          · exact useS hy
      · rw [if_neg hxa] at hi
        exact old (.inl ⟨i, hi, hy⟩)
    · split at hy
      · simp [Term.args] at hy
      · exact old (.inr hy)
  phiUse x X' p' q y hX' hx hp' hq hql := by
    obtain ⟨X, hX, rfl⟩ := selTo_blk hX'
    dsimp only at hp'
    have old : ∀ p ∈ X.phis, (q, Opd.inst y) ∈ p.inc → ∃ h, DefIn (selTo F s a b ps sels) y h ∧ Domi (selTo F s a b ps sels) h q := by
      intro p hp h
      obtain ⟨d, hd, hdom⟩ := W.phiUse x X p q y hX (T.live hx) hp h (T.live hql)
      exact ⟨d, T.defIn hd, T.domi hdom⟩
    split at hp'
    · rename_i hb
      subst hb
      have := T.hB.symm.trans hX
      cases this
      obtain ⟨p, hp, i, hi, va, vs, hs⟩ := T.phis.right hp'
      rcases (hs.inc q _).1 hq with ⟨h, _⟩ | ⟨rfl, h⟩
      · exact old p hp h
      · cases h
        refine ⟨q, ⟨_, selTo_blk' T.hA, ?_⟩, domi_self _ _⟩
        unfold Block.ids
        dsimp only
        rw [if_pos rfl, List.map_append]
        exact List.mem_append_right _ (List.mem_append_right _ (List.mem_map.2 ⟨i, hi, rfl⟩))
    · exact old p' hp' hq
  phiPred x X' p' hX' hx hp' q v hq := by
    obtain ⟨X, hX, rfl⟩ := selTo_blk hX'
    dsimp only at hp'
    split at hp'
    · rename_i hb
      subst hb
      have := T.hB.symm.trans hX
      cases this
      obtain ⟨p, hp, i, hi, va, vs, hs⟩ := T.phis.right hp'
      rcases (hs.inc q _).1 hq with ⟨h, hqs, _⟩ | ⟨rfl, h⟩
      · exact T.edge.2 ⟨W.phiPred x _ p hX (T.live hx) hp q v h, fun h => hqs h.1⟩
      · exact T.edge.2 ⟨T.eab, fun h => T.sa h.1.symm⟩
    · rename_i hb
      exact T.edge.2 ⟨W.phiPred x X p' hX (T.live hx) hp' q v hq, fun h => hb h.2⟩
  phiAll x X' p' q hX' hx hp' he hq := by
    obtain ⟨X, hX, rfl⟩ := selTo_blk hX'
    dsimp only at hp'
    obtain ⟨he0, hn⟩ := T.edge.1 he
    split at hp'
    · rename_i hb
      subst hb
      have := T.hB.symm.trans hX
      cases this
      obtain ⟨p, hp, i, hi, va, vs, hs⟩ := T.phis.right hp'
      by_cases hqa : q = a
      · exact ⟨.inst i.id, (hs.inc q _).2 (.inr ⟨hqa, rfl⟩)⟩
      · obtain ⟨v, hv⟩ := W.phiAll x _ p q hX (T.live hx) hp he0 (T.live hq)
        exact ⟨v, (hs.inc q v).2 (.inl ⟨hv, fun h => hn ⟨h, rfl⟩, hqa⟩)⟩
    · exact W.phiAll x X p' q hX (T.live hx) hp' he0 (T.live hq)
  phiDead x X' p1 p2 q v hX' hx hp1 hp2 hq := by
    obtain ⟨X, hX, rfl⟩ := selTo_blk hX'
    dsimp only at hp1 hp2
    split at hp1
    · rename_i hb
      subst hb
      rw [if_pos rfl] at hp2
      have := T.hB.symm.trans hX
      cases this
      obtain ⟨p, hp, i, hi, va, vs, hs⟩ := T.phis.right hp1
      obtain ⟨p0, hp0, i0, hi0, va0, vs0, hs0⟩ := T.phis.right hp2
      rcases (hs.inc q _).1 hq with ⟨h, h1, h2⟩ | ⟨h, _⟩
      · obtain ⟨w, hw⟩ := W.phiDead x _ p p0 q v hX (T.live hx) hp hp0 h
        exact ⟨w, (hs0.inc q w).2 (.inl ⟨hw, h1, h2⟩)⟩
      · exact ⟨_, (hs0.inc q _).2 (.inr ⟨h, rfl⟩)⟩
    · rename_i hb
      rw [if_neg hb] at hp2
      exact W.phiDead x X p1 p2 q v hX (T.live hx) hp1 hp2 hq

end
end Cmmc.SSA
