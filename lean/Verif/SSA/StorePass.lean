import Verif.SSA.StoreRun
import Mathlib.Logic.Relation
/-!
# C87: StoreEliminate on programs
-/
namespace Cmmc.SSA

/-! ## well-formedness -/
section
variable {Op C : Type} {F : Func Op C} {x : Nat}

theorem eraseInst_blk {b : Nat} {B' : Block Op C} (h : (F.eraseInst x).blk b = some B') : ∃ B, F.blk b = some B ∧ B' = { B with body := B.body.filter (fun i => i.id != x) } := by
  obtain ⟨B, hB, rfl⟩ := Option.map_eq_some_iff.1 h
  exact ⟨B, hB, rfl⟩

theorem eraseInst_ids {B : Block Op C} : ({ B with body := B.body.filter (fun i => i.id != x) } : Block Op C).ids.Sublist B.ids :=
  List.Sublist.append (List.Sublist.refl _) (List.Sublist.map _ List.filter_sublist)

theorem flatMap_sublist {α β : Type} {f g : α → List β} : ∀ {l : List α}, (∀ a ∈ l, (f a).Sublist (g a)) → (l.flatMap f).Sublist (l.flatMap g)
  | [], _ => List.Sublist.refl _
  | a :: l, h => by
    simp only [List.flatMap_cons]
    exact (h a (by simp)).append (flatMap_sublist (fun b hb => h b (by simp [hb])))

/-- a function without an instruction nobody uses is well-formed -/
theorem LiveWf.eraseInst (W : LiveWf F) (hun : ∀ b B, F.blk b = some B → Opd.inst x ∉ B.opds) : LiveWf (F.eraseInst x) := by
  have ht : ∀ b B, F.blk b = some B → ({ B with body := B.body.filter (fun i => i.id != x) } : Block Op C).term = B.term := fun _ _ _ => rfl
  have hlive : ∀ b, Live (F.eraseInst x) b ↔ Live F b := by
    intro b
    constructor
    · rintro ⟨l, h⟩; exact ⟨l, (mapBlocks_path ht).1 h⟩
    · rintro ⟨l, h⟩; exact ⟨l, (mapBlocks_path ht).2 h⟩
  have hdom : ∀ a b, Domi F a b → Domi (F.eraseInst x) a b := fun a b h l hl => h l ((mapBlocks_path ht).1 hl)
  have hdef : ∀ y b, y ≠ x → DefIn F y b → DefIn (F.eraseInst x) y b := by
    rintro y b hne ⟨B, hB, hy⟩
    refine ⟨_, by show (F.blk b).map _ = _; rw [hB]; rfl, ?_⟩
    rcases List.mem_append.1 hy with h | h
    · exact List.mem_append_left _ h
    · obtain ⟨i, hi, rfl⟩ := List.mem_map.1 h
      exact List.mem_append_right _ (List.mem_map_of_mem (List.mem_filter.2 ⟨hi, by simpa using hne⟩))
  refine { nodup := W.nodup, listed := ?_, total := ?_, entryIn := W.entryIn, closed := ?_, unique := ?_, entryPhis := ?_, inOrder := ?_, use := ?_, phiUse := ?_, phiPred := ?_, phiAll := ?_, phiDead := ?_ }
  · intro b B' h
    obtain ⟨B, hB, _⟩ := eraseInst_blk h
    exact W.listed b B hB
  · intro b hb
    obtain ⟨B, hB⟩ := W.total b hb
    exact ⟨_, by show (F.blk b).map _ = _; rw [hB]; rfl⟩
  · intro a b e; exact W.closed a b ((mapBlocks_edge ht).1 e)
  · have : (F.eraseInst x).allIds.Sublist F.allIds := by
      rw [allIds_eq, allIds_eq]
      show (F.order.flatMap _).Sublist (F.order.flatMap _)
      refine flatMap_sublist ?_
      intro b _
      show (match (F.blk b).map (fun (B : Block Op C) => ({ B with body := B.body.filter (fun i => i.id != x) } : Block Op C)) with | some B => B.ids | none => []).Sublist _
      cases hB : F.blk b with
      | none => exact .refl _
      | some B => exact eraseInst_ids
    exact this.nodup W.unique
  · intro B' h
    obtain ⟨B, hB, rfl⟩ := eraseInst_blk h
    exact W.entryPhis B hB
  · intro b B' h hl
    obtain ⟨B, hB, rfl⟩ := eraseInst_blk h
    have hO := W.inOrder b B hB ((hlive b).1 hl)
    constructor
    · intro pre i post hsplit y hy hown
      have hfl : ∃ l1 l2, B.body = l1 ++ i :: l2 ∧ l1.filter (fun i => i.id != x) = pre := by
        obtain ⟨l1, l2, e1, e2, e3⟩ := List.filter_eq_append_iff.1 hsplit
        obtain ⟨l3, l4, e4, e5, e6, _⟩ := List.filter_eq_cons_iff.1 e3
        refine ⟨l1 ++ l3, l4, by rw [e1, e4]; simp, ?_⟩
        rw [List.filter_append, e2, List.filter_eq_nil_iff.2 (fun a ha => e5 a ha), List.append_nil]
      obtain ⟨l1, l2, e1, e2⟩ := hfl
      have hyx : y ≠ x := by
        rintro rfl
        exact hun b B hB (mem_opds_use (.inl ⟨i, by rw [e1]; simp, hy⟩))
      rcases hO.1 l1 i l2 e1 y hy (eraseInst_ids.subset hown) with h | h
      · exact .inl h
      · right
        obtain ⟨j, hj, rfl⟩ := List.mem_map.1 h
        rw [← e2]
        exact List.mem_map_of_mem (List.mem_filter.2 ⟨hj, by simpa using hyx⟩)
    · intro y hy hown
      rcases List.mem_append.1 hown with h | h
      · exact .inl h
      · exact .inr h
  · intro b B' y h hl hy
    obtain ⟨B, hB, rfl⟩ := eraseInst_blk h
    have hy' : (∃ i ∈ B.body, Opd.inst y ∈ i.args) ∨ Opd.inst y ∈ B.term.args := by
      rcases hy with ⟨i, hi, hy⟩ | hy
      · exact .inl ⟨i, (List.mem_filter.1 hi).1, hy⟩
      · exact .inr hy
    obtain ⟨d, h1, h2⟩ := W.use b B y hB ((hlive b).1 hl) hy'
    exact ⟨d, hdef y d (by rintro rfl; exact hun b B hB (mem_opds_use hy')) h1, hdom d b h2⟩
  · intro b B' p q y h hl hpm hy hlq
    obtain ⟨B, hB, rfl⟩ := eraseInst_blk h
    obtain ⟨d, h1, h2⟩ := W.phiUse b B p q y hB ((hlive b).1 hl) hpm hy ((hlive q).1 hlq)
    exact ⟨d, hdef y d (by rintro rfl; exact hun b B hB (mem_opds_phi hpm hy)) h1, hdom d q h2⟩
  · intro b B' p h hl hpm q v hv
    obtain ⟨B, hB, rfl⟩ := eraseInst_blk h
    exact (mapBlocks_edge ht).2 (W.phiPred b B p hB ((hlive b).1 hl) hpm q v hv)
  · intro b B' p q h hl hpm e hlq
    obtain ⟨B, hB, rfl⟩ := eraseInst_blk h
    exact W.phiAll b B p q hB ((hlive b).1 hl) hpm ((mapBlocks_edge ht).1 e) ((hlive q).1 hlq)
  · intro b B' p p' q v h hl hpm hpm' hv
    obtain ⟨B, hB, rfl⟩ := eraseInst_blk h
    exact W.phiDead b B p p' q v hB ((hlive b).1 hl) hpm hpm' hv

theorem after_split {x : Nat} : ∀ {pre : List (Inst Op C)} {i : Inst Op C} {post : List (Inst Op C)}, ((pre ++ i :: post).map Inst.id).Nodup → i.id = x → after x (pre ++ i :: post) = post
  | [], i, post, _, h => by simp [after, h]
  | j :: pre, i, post, hn, h => by
    have hne : j.id ≠ x := by
      intro e
      simp only [List.cons_append, List.map_cons, List.nodup_cons] at hn
      exact hn.1 (by rw [e, ← h]; simp)
    have := after_split (x := x) (pre := pre) (i := i) (post := post) (by simp only [List.cons_append, List.map_cons, List.nodup_cons] at hn; exact hn.2) h
    simp only [after, List.cons_append] at this ⊢
    rw [List.dropWhile_cons_of_pos (by simpa using hne)]
    exact this

end

/-! ## programs -/
section
variable {L : Lang} {V : Frames L} {kind : L.Op → OpKind} {P : Nat → Option L.F}

theorem Frames.sem_le {c1 c2 : CallSem L} (h : ∀ f vs m, c1 f vs m ≠ .ub → c2 f vs m = c1 f vs m) (op : L.Op) (vs : List L.V) (m : L.M) (hu : V.sem c1 op vs m ≠ .ub) :
    V.sem c2 op vs m = V.sem c1 op vs m := by
  unfold Frames.sem at hu ⊢
  cases hc : V.callee op with
  | none => rfl
  | some f => rw [hc] at hu; exact h f vs m hu

theorem Frames.invoke_le {c1 c2 : CallSem L} (h : ∀ f vs m, c1 f vs m ≠ .ub → c2 f vs m = c1 f vs m) {F : L.F} {vs : List L.V} {m : L.M} (hu : V.invoke c1 F vs m ≠ .ub) :
    V.invoke c2 F vs m = V.invoke c1 F vs m := by
  obtain ⟨b, hb, hne, he⟩ := Frames.invoke_ends hu
  have := upd_ends (F := F) (Frames.sem_le (V := V) h) (fun _ _ _ _ _ _ _ => rfl) hb hne
  rw [Frames.invoke_eq this, he]
  cases b <;> rfl

/-- `P'` does what `P` does, whenever that is defined -/
def CallsLike (V : Frames L) (P P' : Nat → Option L.F) : Prop := ∀ d g vs m, V.call P d g vs m ≠ .ub → V.call P' d g vs m = V.call P d g vs m

/-- one function is exchanged for one that does the same in the old program -/
theorem Frames.exchange {f : Nat} {F F' : L.F} (hF : P f = some F) (h : ∀ d vs m, V.invoke (V.call P d) F vs m ≠ .ub → V.invoke (V.call P d) F' vs m = V.invoke (V.call P d) F vs m) : CallsLike V P (setFn P f F') := by
  intro d
  induction d with
  | zero => intro g vs m hu; exact absurd rfl hu
  | succ d ih =>
    intro g vs m hu
    simp only [Frames.call] at hu ⊢
    by_cases hg : g = f
    · subst hg
      rw [hF] at hu ⊢
      simp only at hu ⊢
      have h1 := h d vs m hu
      have hset : setFn P g F' g = some F' := if_pos rfl
      rw [hset]
      simp only
      rw [← h1] at hu ⊢
      exact Frames.invoke_le ih hu
    · have : setFn P f F' g = P g := if_neg hg
      rw [this]
      cases hG : P g with
      | none => rfl
      | some G =>
        rw [hG] at hu
        simp only at hu ⊢
        exact Frames.invoke_le ih hu

variable {S : Spaces L V kind} {A : Nat → Attrs} {cfg : SECfg L.Op L.C} {T : List Nat} {F : L.F}

/-- what `isInvisible` has checked -/
theorem deadStore_of (W : LiveWf F) {b : Nat} {B : Block L.Op L.C} {i : Inst L.Op L.C} {addr : Opd L.C} (hB : F.blk b = some B) (hi : i ∈ B.body) (h0 : i.args[0]? = some addr) (h : storeInvisible V.callee kind A cfg T F b i = true)
    (hun : ∀ c D, F.blk c = some D → Opd.inst i.id ∉ D.opds) (hat : ∀ c D j, F.blk c = some D → j ∈ D.body → V.callee j.op = none → kind j.op = .atomic → j.args[0]? ≠ some addr) : ∃ Z, DeadStore V kind A cfg T F i.id addr Z := by
  unfold storeInvisible at h
  cases hc : V.callee i.op with
  | some g => rw [hc] at h; cases h
  | none =>
    cases hk : kind i.op with
    | store =>
      rw [hc, hk, h0] at h
      simp only [Option.isSome_iff_exists] at h
      obtain ⟨s', hs'⟩ := h
      obtain ⟨B1, hB1, hps, hent⟩ := invis_store hs'
      obtain rfl := Option.some.inj (hB.symm.trans hB1)
      have huniq : ∀ c D j, F.blk c = some D → j ∈ D.body → j.id = i.id → c = b ∧ j = i := by
        intro c D j hD hj hji
        refine ⟨?_, W.toShape.inst_unique hD hB hj hi hji⟩
        exact W.home (i := i.id) ⟨D, hD, List.mem_append_right _ (by rw [← hji]; exact List.mem_map_of_mem hj)⟩ ⟨B, hB, List.mem_append_right _ (List.mem_map_of_mem hi)⟩
      refine ⟨s'.1, ?_, ?_, ?_, ?_, ?_, hent, ?_, hat⟩
      · intro c D j hD hj hji
        obtain ⟨_, rfl⟩ := huniq c D j hD hj hji
        refine ⟨hc, hk, ?_⟩
        cases ha : j.args with
        | nil => rw [ha] at h0; cases h0
        | cons o os => rw [ha] at h0; exact ⟨os, by rw [← Option.some.inj h0]⟩
      · intro c D p hD hp hm
        obtain ⟨q, hq⟩ := mem_ops.1 hm
        exact hun c D hD (mem_opds_phi hp hq)
      · intro c D j hD hj hm
        exact hun c D hD (mem_opds_use (.inl ⟨j, hj, hm⟩))
      · intro c D hD hm
        exact hun c D hD (mem_opds_use (.inr hm))
      · intro c D pre j post hl hD hsplit hji
        obtain ⟨rfl, rfl⟩ := huniq c D j hD (by rw [hsplit]; simp) hji
        obtain rfl := Option.some.inj (hB.symm.trans hD)
        have hids := W.block_ids hB
        unfold Block.ids at hids
        rw [List.nodup_append] at hids
        have haf : after j.id B.body = post := by
          rw [hsplit]
          exact after_split (by rw [← hsplit]; exact hids.2.1) rfl
        rw [haf] at hps
        refine ⟨hps, ?_⟩
        intro k hk' haddr
        have hkB : k ∈ B.body := by rw [hsplit]; simp [hk']
        have harg : Opd.inst k.id ∈ j.args := by rw [← haddr]; exact List.mem_of_getElem? h0
        have hown : k.id ∈ B.ids := List.mem_append_right _ (List.mem_map_of_mem hkB)
        rcases (W.inOrder c B hB hl).1 pre j post hsplit k.id harg hown with h | h
        · exact hids.2.2 _ h _ (List.mem_map_of_mem hkB) rfl
        · have hn := hids.2.1
          rw [hsplit, List.map_append, List.nodup_append] at hn
          exact hn.2.2 _ h _ (List.mem_map_of_mem (List.mem_cons_of_mem _ hk')) rfl
      · intro z hz D hD y haddr hy
        obtain ⟨hok, _⟩ := hent z hz
        have hh := (home_eq W.listed W.unique).2 (⟨D, hD, hy⟩ : DefIn F y z)
        subst haddr
        simp only [okTarget, hh] at hok
        simp at hok
    | load => rw [hc, hk, h0] at h; cases h
    | atomic => rw [hc, hk, h0] at h; cases h
    | ext a => rw [hc, hk, h0] at h; cases h
    | indirect => rw [hc, hk, h0] at h; cases h
    | alloc => rw [hc, hk, h0] at h; cases h
    | gep => rw [hc, hk, h0] at h; cases h
    | ptrCast => rw [hc, hk, h0] at h; cases h
    | ptrAdd => rw [hc, hk, h0] at h; cases h
    | select => rw [hc, hk, h0] at h; cases h
    | other => rw [hc, hk, h0] at h; cases h

/-- The pass removes instruction `i` of block `b` of function `f`: the test says that it is an invisible store, and what the test relies on is true of the program `P` at this time. -/
structure StoreStep (Q : Stores S) (A : Nat → Attrs) (P : Nat → Option L.F) (f b : Nat) (F : L.F) (B : Block L.Op L.C) (i : Inst L.Op L.C) (addr : Opd L.C) (cfg : SECfg L.Op L.C) (T : List Nat) : Prop where
  fn : P f = some F
  wf : LiveWf F
  blk : F.blk b = some B
  mem : i ∈ B.body
  arg : i.args[0]? = some addr
  found : storeInvisible V.callee kind A cfg T F b i = true
  /-- FunctionAttrInfer (C86) -/
  attrs : AttrsOk S P A
  direct : NoIndirect kind P
  /-- StackAddressAnalysis (C86) -/
  tags : TagsOk V.callee kind F T
  /-- AliasAnalysis and StackAddressLeakAnalysis, in every run of the function that ends -/
  sound : ∀ d vs m, V.invoke (V.call P d) F vs m ≠ .ub → Sound S Q cfg (V.call P d) vs F (V.enter m) addr
  /-- a store has no result -/
  unused : ∀ c D, F.blk c = some D → Opd.inst i.id ∉ D.opds
  /-- no atomic add to the address (needed: `atomic_needed`) -/
  noAtomic : ∀ c D j, F.blk c = some D → j ∈ D.body → V.callee j.op = none → kind j.op = .atomic → j.args[0]? ≠ some addr

theorem C87_storeEliminate_partial {Q : Stores S} {f b : Nat} {B : Block L.Op L.C} {i : Inst L.Op L.C} {addr : Opd L.C} (h : StoreStep Q A P f b F B i addr cfg T) :
    CallsLike V P (setFn P f (F.eraseInst i.id)) ∧ LiveWf (F.eraseInst i.id) := by
  refine ⟨?_, h.wf.eraseInst h.unused⟩
  obtain ⟨Z, hds⟩ := deadStore_of h.wf h.blk h.mem h.arg h.found h.unused h.noAtomic
  exact Frames.exchange h.fn (fun d vs m hu => store_invoke Q h.attrs h.direct h.wf.toShape h.tags h.fn (h.sound d vs m hu) hds hu)

/-- any number of removals -/
theorem C87_storeEliminate_pass_partial {Q : Stores S} {P' : Nat → Option L.F}
    (h : Relation.ReflTransGen (fun P P' => ∃ A f b F B i addr cfg T, StoreStep Q A P f b F B i addr cfg T ∧ P' = setFn P f (F.eraseInst i.id)) P P') : CallsLike V P P' := by
  induction h with
  | refl => intro d g vs m _; rfl
  | tail _ hs ih =>
    obtain ⟨A, f, b, F, B, i, addr, cfg, T, hst, rfl⟩ := hs
    intro d g vs m hu
    have h1 := ih d g vs m hu
    rw [← h1] at hu ⊢
    exact (C87_storeEliminate_partial hst).1 d g vs m hu

end
end Cmmc.SSA
