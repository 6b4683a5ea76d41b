import Verif.SSA.InlineWf
/-!
# Inlining one call keeps SSA form: the proof
-/
namespace Cmmc.SSA
section
variable {Op C : Type} {K : Copy} {param : C → Option Nat} {F G : Func Op C} {b k : Nat} {valued : Bool} {B : Block Op C} {call : Inst Op C}

theorem Shape.ids_nodup {F : Func Op C} (S : Shape F) {d : Nat} {D : Block Op C} (hD : F.blk d = some D) : D.ids.Nodup := by
  have hF := S.unique
  unfold Func.allIds at hF
  exact (List.nodup_flatMap.mp hF).1 D (S.listed.mem hD)

theorem InlineOk.body (h : InlineOk K param F G b k valued B call) : B.body = B.body.take k ++ call :: B.body.drop (k + 1) := by
  obtain ⟨hlt, he⟩ := List.getElem?_eq_some_iff.1 h.hk
  conv => lhs; rw [← List.take_append_drop k B.body]
  rw [List.drop_eq_getElem_cons hlt, he]

theorem newPhis_ids (K : Copy) (b : Nat) (B : Block Op C) (x : Nat) (ps : List (Phi C)) : (newPhis K b B x ps).map Phi.id = ps.map Phi.id := by
  unfold newPhis
  split
  · rw [List.map_map]; rfl
  · rfl

theorem InlineOk.order (h : InlineOk K param F G b k valued B call) : (F.inline K param b k valued G).order = F.order.flatMap (fun x => if x = b then b :: G.order.map K.fb ++ [K.sink] else [x]) := by
  unfold Func.inline
  rw [h.hB]
  simp only [h.hk]
  have : ∀ (l : List Nat) (H : Func Op C), (l.foldl (fun H y => H.mapPhis y (List.map (fun p => p.replaceSource b K.sink))) H).order = H.order := by
    intro l
    induction l with
    | nil => intro H; rfl
    | cons y l ih =>
      intro H
      rw [List.foldl_cons, ih]
      unfold Func.mapPhis
      split <;> rfl
  rw [this]

theorem InlineOk.mem_order (h : InlineOk K param F G b k valued B call) (S : Shape F) {z : Nat} : z ∈ (F.inline K param b k valued G).order ↔ z ∈ F.order ∨ z = K.sink ∨ ∃ q ∈ G.order, z = K.fb q := by
  rw [h.order, List.mem_flatMap]
  constructor
  · rintro ⟨x, hx, hz⟩
    split at hz
    · rename_i hxb
      simp only [List.cons_append, List.mem_cons, List.mem_append, List.mem_map, List.not_mem_nil, or_false] at hz
      rcases hz with rfl | ⟨q, hq, rfl⟩ | rfl
      · exact .inl (hxb ▸ hx)
      · exact .inr (.inr ⟨q, hq, rfl⟩)
      · exact .inr (.inl rfl)
    · simp only [List.mem_singleton] at hz
      exact .inl (hz ▸ hx)
  · have hb := S.listed b B h.hB
    rintro (hz | rfl | ⟨q, hq, rfl⟩)
    · refine ⟨z, hz, ?_⟩
      split
      · rename_i e; rw [e]; simp
      · simp
    · exact ⟨b, hb, by rw [if_pos rfl]; simp⟩
    · refine ⟨b, hb, ?_⟩
      rw [if_pos rfl]
      simp only [List.cons_append, List.mem_cons, List.mem_append, List.mem_map]
      exact .inr (.inl ⟨q, hq, rfl⟩)

theorem Copy.argPhis_ids (K : Copy) (b : Nat) (args : List (Opd C)) : (K.argPhis b args).map Phi.id = ((List.range args.length).map K.ps).reverse := by
  unfold Copy.argPhis
  rw [List.map_reverse, List.map_map]
  congr 1
  have : ((Phi.id : Phi C → Nat) ∘ fun e : Opd C × Nat => (⟨K.ps e.2, [(b, e.1)]⟩ : Phi C)) = K.ps ∘ Prod.snd := rfl
  rw [this, ← List.map_map, List.range_eq_range', ← List.zipIdx_map_snd 0 args]

theorem Copy.blockAt_ids (K : Copy) (param : C → Option Nat) (b : Nat) (args : List (Opd C)) (e q : Nat) (T : Block Op C) :
    (K.blockAt param b args e q T).ids = (if q = e then ((List.range args.length).map K.ps).reverse else []) ++ T.ids.map K.fi := by
  unfold Block.ids
  rw [Copy.blockAt_phis, Copy.blockAt_body]
  have h1 : ((if q = e then K.argPhis b args else []) : List (Phi C)).map Phi.id = if q = e then ((List.range args.length).map K.ps).reverse else [] := by
    split
    · exact K.argPhis_ids b args
    · rfl
  rw [List.map_append, h1, List.map_append, List.map_map, List.map_map, List.map_map, List.map_map, List.append_assoc]
  rfl

/-- the part of a block in front of the call -/
def early (B : Block Op C) (k : Nat) : List Nat := B.phis.map Phi.id ++ (B.body.take k).map Inst.id

/-- and behind it -/
def late (B : Block Op C) (k : Nat) : List Nat := (B.body.drop (k + 1)).map Inst.id

theorem InlineOk.ids (h : InlineOk K param F G b k valued B call) : B.ids = early B k ++ call.id :: late B k := by
  unfold Block.ids early late
  conv => lhs; rw [h.body]
  simp

theorem retPhi_ids (valued : Bool) (id : Nat) : (K.retPhi param G valued id).map Phi.id = if valued then [id] else [] := by
  unfold Copy.retPhi
  split <;> rfl

variable (S : Shape F)
include S

/-- where the definitions of the result come from -/
theorem InlineOk.defIn_cases (h : InlineOk K param F G b k valued B call) {y z : Nat} (hd : DefIn (F.inline K param b k valued G) y z) :
    (z = b ∧ y ∈ early B k) ∨ (z = K.sink ∧ ((valued = true ∧ y = call.id) ∨ y ∈ late B k)) ∨ (∃ i q, z = K.fb q ∧ y = K.fi i ∧ DefIn G i q) ∨
    (∃ j, z = K.fb G.entry ∧ y = K.ps j) ∨ (z ≠ b ∧ DefIn F y z) := by
  obtain ⟨Z, hZ, hy⟩ := hd
  rcases h.blk_cases S hZ with ⟨h1, rfl⟩ | ⟨h1, rfl⟩ | ⟨q, T, h1, hT, rfl⟩ | ⟨h1, X, hX, rfl⟩
  · unfold Block.ids at hy
    rw [newPhis_ids] at hy
    exact .inl ⟨h1, hy⟩
  · unfold Block.ids at hy
    rw [retPhi_ids] at hy
    refine .inr (.inl ⟨h1, ?_⟩)
    rcases List.mem_append.1 hy with h2 | h2
    · cases valued
      · simp at h2
      · exact .inl ⟨rfl, by simpa using h2⟩
    · exact .inr h2
  · rw [Copy.blockAt_ids] at hy
    rcases List.mem_append.1 hy with h2 | h2
    · split at h2
      · rename_i hq
        simp only [List.mem_reverse, List.mem_map] at h2
        obtain ⟨j, _, hj⟩ := h2
        exact .inr (.inr (.inr (.inl ⟨j, by rw [h1, hq], hj.symm⟩)))
      · simp at h2
    · obtain ⟨i, hi, rfl⟩ := List.mem_map.1 h2
      exact .inr (.inr (.inl ⟨i, q, h1, rfl, T, hT, hi⟩))
  · unfold Block.ids at hy
    rw [newPhis_ids] at hy
    exact .inr (.inr (.inr (.inr ⟨h1, X, hX, hy⟩)))

theorem InlineOk.defIn_unique (h : InlineOk K param F G b k valued B call) (SG : Shape G) {y z z' : Nat} (hd : DefIn (F.inline K param b k valued G) y z)
    (hd' : DefIn (F.inline K param b k valued G) y z') : z = z' := by
  have hn := h.ids ▸ S.ids_nodup h.hB
  have hF : ∀ {i c}, DefIn F (K.fi i) c → False := fun ⟨X, hX, hi⟩ => (h.newIds _ X hX).1 _ hi
  have hP : ∀ {j c}, DefIn F (K.ps j) c → False := fun ⟨X, hX, hi⟩ => (h.newIds _ X hX).2 _ hi
  have hE : ∀ {y}, y ∈ early B k → DefIn F y b := fun hy => ⟨B, h.hB, h.ids ▸ List.mem_append_left _ hy⟩
  have hL : ∀ {y}, ((valued = true ∧ y = call.id) ∨ y ∈ late B k) → DefIn F y b := by
    rintro y (⟨_, rfl⟩ | hy)
    · exact ⟨B, h.hB, by rw [h.ids]; simp⟩
    · exact ⟨B, h.hB, by rw [h.ids]; exact List.mem_append_right _ (List.mem_cons_of_mem _ hy)⟩
  have hEL : ∀ {y}, y ∈ early B k → ((valued = true ∧ y = call.id) ∨ y ∈ late B k) → False := by
    intro y h1 h2
    rw [List.nodup_append] at hn
    refine hn.2.2 y h1 y ?_ rfl
    rcases h2 with ⟨_, rfl⟩ | h2
    · simp
    · exact List.mem_cons_of_mem _ h2
  rcases h.defIn_cases S hd with ⟨h1, h2⟩ | ⟨h1, h2⟩ | ⟨i, q, h1, h2, h3⟩ | ⟨j, h1, h2⟩ | ⟨h1, h2⟩ <;>
    rcases h.defIn_cases S hd' with ⟨g1, g2⟩ | ⟨g1, g2⟩ | ⟨i', q', g1, g2, g3⟩ | ⟨j', g1, g2⟩ | ⟨g1, g2⟩
  · exact h1.trans g1.symm
  · exact (hEL h2 g2).elim
  · exact (hF (g2 ▸ hE h2)).elim
  · exact (hP (g2 ▸ hE h2)).elim
  · exact absurd (Cmmc.SSA.defIn_unique S.listed S.unique g2 (hE h2)) g1
  · exact (hEL g2 h2).elim
  · exact h1.trans g1.symm
  · exact (hF (g2 ▸ hL h2)).elim
  · exact (hP (g2 ▸ hL h2)).elim
  · exact absurd (Cmmc.SSA.defIn_unique S.listed S.unique g2 (hL h2)) g1
  · exact (hF (h2 ▸ hE g2)).elim
  · exact (hF (h2 ▸ hL g2)).elim
  · obtain rfl := h.fi (h2.symm.trans g2)
    rw [h1, g1, Cmmc.SSA.defIn_unique SG.listed SG.unique h3 g3]
  · exact absurd (h2.symm.trans g2) (h.fp _ _)
  · exact (hF (h2 ▸ g2)).elim
  · exact (hP (h2 ▸ hE g2)).elim
  · exact (hP (h2 ▸ hL g2)).elim
  · exact absurd (g2.symm.trans h2) (h.fp _ _)
  · exact h1.trans g1.symm
  · exact (hP (h2 ▸ g2)).elim
  · exact absurd (Cmmc.SSA.defIn_unique S.listed S.unique h2 (hE g2)) h1
  · exact absurd (Cmmc.SSA.defIn_unique S.listed S.unique h2 (hL g2)) h1
  · exact (hF (g2 ▸ h2)).elim
  · exact (hP (g2 ▸ h2)).elim
  · exact Cmmc.SSA.defIn_unique S.listed S.unique h2 g2

theorem inline_shape (h : InlineOk K param F G b k valued B call) (SG : Shape G) : Shape (F.inline K param b k valued G) := by
  have hb := S.listed b B h.hB
  have hnd : (F.inline K param b k valued G).order.Nodup := by
    rw [h.order]
    refine nodup_flatMap_of_disjoint S.nodup ?_ ?_
    · intro x hx
      split
      · rw [List.cons_append, List.nodup_cons]
        constructor
        · simp only [List.mem_append, List.mem_map, List.mem_singleton, not_or]
          exact ⟨fun ⟨q, _, hq⟩ => h.fbF q (hq ▸ hb), fun e => h.sinkF (e ▸ hb)⟩
        · refine List.Nodup.append (SG.nodup.map h.fb) (by simp) ?_
          intro z h1 h2
          obtain ⟨q, _, rfl⟩ := List.mem_map.1 h1
          exact h.fbS q (by simpa using h2)
      · simp
    · intro x hx y hy z h1 h2
      split at h1 <;> split at h2
      · rename_i e1 e2; rw [e1, e2]
      · rename_i e1 e2
        simp only [List.cons_append, List.mem_cons, List.mem_append, List.mem_map, List.not_mem_nil, or_false] at h1
        rw [List.mem_singleton] at h2
        subst h2
        rcases h1 with h1 | ⟨q, _, h1⟩ | h1
        · exact absurd h1 e2
        · exact absurd (h1 ▸ hy) (h.fbF q)
        · exact absurd (h1 ▸ hy) h.sinkF
      · rename_i e1 e2
        simp only [List.cons_append, List.mem_cons, List.mem_append, List.mem_map, List.not_mem_nil, or_false] at h2
        rw [List.mem_singleton] at h1
        subst h1
        rcases h2 with h1 | ⟨q, _, h1⟩ | h1
        · exact absurd h1 e1
        · exact absurd (h1 ▸ hx) (h.fbF q)
        · exact absurd (h1 ▸ hx) h.sinkF
      · rw [List.mem_singleton] at h1 h2; exact h1.symm.trans h2
  refine ⟨hnd, ?_, ?_, ?_, ?_, ?_⟩
  · intro z Z hZ
    rw [h.mem_order S]
    rcases h.blk_cases S hZ with ⟨h1, _⟩ | ⟨h1, _⟩ | ⟨q, T, h1, hT, _⟩ | ⟨_, X, hX, _⟩
    · exact .inl (h1 ▸ hb)
    · exact .inr (.inl h1)
    · exact .inr (.inr ⟨q, SG.listed q T hT, h1⟩)
    · exact .inl (S.listed z X hX)
  · intro z hz
    rcases (h.mem_order S).1 hz with h1 | rfl | ⟨q, hq, rfl⟩
    · obtain ⟨X, hX⟩ := S.total z h1
      by_cases hzb : z = b
      · subst hzb; exact ⟨_, h.blk_b⟩
      · exact ⟨_, h.blk_old S hzb hX⟩
    · exact ⟨_, h.blk_sink S⟩
    · obtain ⟨T, hT⟩ := SG.total q hq
      exact ⟨_, h.blk_copy S hT⟩
  · rw [h.entry, h.mem_order S]; exact .inl S.entryIn
  · intro z z' e
    rw [h.mem_order S]
    rcases h.edge_cases S e with ⟨_, h2⟩ | ⟨_, e1⟩ | ⟨q, q', _, h2, e1⟩ | ⟨q, T, v, _, h2, _⟩ | ⟨_, e1⟩
    · exact .inr (.inr ⟨_, SG.entryIn, h2⟩)
    · exact .inl (S.closed _ _ e1)
    · exact .inr (.inr ⟨_, SG.closed _ _ e1, h2⟩)
    · exact .inr (.inl h2)
    · exact .inl (S.closed _ _ e1)
  · rw [allIds_eq]
    refine nodup_flatMap_of_disjoint hnd ?_ ?_
    · intro z _
      cases hZ : (F.inline K param b k valued G).blk z with
      | none => simp
      | some Z =>
        show Z.ids.Nodup
        have hnB := h.ids ▸ S.ids_nodup h.hB
        rcases h.blk_cases S hZ with ⟨h1, rfl⟩ | ⟨h1, rfl⟩ | ⟨q, T, h1, hT, rfl⟩ | ⟨h1, X, hX, rfl⟩
        · unfold Block.ids
          rw [newPhis_ids]
          exact (List.nodup_append.1 hnB).1
        · unfold Block.ids
          rw [retPhi_ids]
          have := (List.nodup_append.1 hnB).2.1
          cases valued
          · exact (List.nodup_cons.1 this).2
          · exact this
        · rw [Copy.blockAt_ids]
          refine List.Nodup.append ?_ ((SG.ids_nodup hT).map h.fi) ?_
          · split
            · exact List.nodup_reverse.2 (List.nodup_range.map h.ps)
            · simp
          · intro x h1 h2
            obtain ⟨i, _, rfl⟩ := List.mem_map.1 h2
            split at h1
            · simp only [List.mem_reverse, List.mem_map] at h1
              obtain ⟨j, _, hj⟩ := h1
              exact h.fp _ _ hj.symm
            · simp at h1
        · unfold Block.ids
          rw [newPhis_ids]
          exact S.ids_nodup hX
    · have hdef : ∀ a x, x ∈ (match (F.inline K param b k valued G).blk a with | some B => B.ids | none => []) → DefIn (F.inline K param b k valued G) x a := by
        intro a x hx
        unfold DefIn
        cases ha : (F.inline K param b k valued G).blk a with
        | none => rw [ha] at hx; simp at hx
        | some A => rw [ha] at hx; exact ⟨A, rfl, hx⟩
      intro a _ c _ x h1 h2
      exact h.defIn_unique S SG (hdef a x h1) (hdef c x h2)

/-! ## uses -/

theorem InlineOk.collapse_mv (h : InlineOk K param F G b k valued B call) {x : Nat} (hx : x ∈ F.order) : collapse F b (mv K.sink b x) = x := by
  by_cases e : x = b
  · subst e; rw [mv_eq, h.collapse_sink]
  · rw [mv_ne e, collapse_old hx]

/-- where a definition of the caller is afterwards, and that it still dominates -/
theorem InlineOk.dom_at (h : InlineOk K param F G b k valued B call) {y d x : Nat} (hy : y ≠ call.id ∨ valued = true) (hx : x ∈ F.order) (hd : DefIn F y d) (hdom : Domi F d x) :
    ∃ d', DefIn (F.inline K param b k valued G) y d' ∧ Domi (F.inline K param b k valued G) d' (mv K.sink b x) := by
  obtain ⟨D, hD, hyD⟩ := hd
  by_cases e : d = b
  · subst e
    rw [h.hB] at hD; cases hD
    rw [h.ids] at hyD
    rcases List.mem_append.1 hyD with h1 | h1
    · refine ⟨d, ⟨_, h.blk_b, ?_⟩, ?_⟩
      · unfold Block.ids; rw [newPhis_ids]; exact h1
      · by_cases e : x = d
        · subst e; rw [mv_eq]; exact h.domi_b S h.sinkF
        · rw [mv_ne e]; exact h.domi_b_old S hdom
    · refine ⟨K.sink, ⟨_, h.blk_sink S, ?_⟩, ?_⟩
      · unfold Block.ids
        rw [retPhi_ids]
        rcases List.mem_cons.1 h1 with h1 | h1
        · rcases hy with hy | hy
          · exact absurd h1 hy
          · exact List.mem_append_left _ (by rw [if_pos hy, h1]; simp)
        · exact List.mem_append_right _ h1
      · by_cases e : x = d
        · subst e; rw [mv_eq]; exact domi_self _ _
        · rw [mv_ne e]; exact h.domi_sink S hx e hdom
  · refine ⟨d, ⟨_, h.blk_old S e hD, ?_⟩, h.domi_old S e (S.listed d D hD) (by rw [h.collapse_mv S hx]; exact hdom)⟩
    unfold Block.ids; rw [newPhis_ids]; exact hyD

omit S in
theorem InlineOk.used (h : InlineOk K param F G b k valued B call) {x y : Nat} {X : Block Op C} (hX : F.blk x = some X) (hy : Opd.inst y ∈ X.opds) : y ≠ call.id ∨ valued = true := by
  cases hv : valued with
  | true => exact .inr rfl
  | false => exact .inl fun e => h.void hv x X hX (e ▸ hy)

omit S in
theorem mem_opds_use {X : Block Op C} {o : Opd C} (hu : (∃ i ∈ X.body, o ∈ i.args) ∨ o ∈ X.term.args) : o ∈ X.opds := by
  unfold Block.opds
  rcases hu with ⟨i, h1, h2⟩ | h1
  · exact List.mem_append_left _ (List.mem_append_right _ (List.mem_flatMap.2 ⟨i, h1, h2⟩))
  · exact List.mem_append_right _ h1

omit S in
theorem mem_opds_phi {X : Block Op C} {p : Phi C} {q : Nat} {o : Opd C} (hp : p ∈ X.phis) (hq : (q, o) ∈ p.inc) : o ∈ X.opds := by
  unfold Block.opds
  exact List.mem_append_left _ (List.mem_append_left _ (List.mem_flatMap.2 ⟨p, hp, mem_ops.2 ⟨q, hq⟩⟩))

omit S in
theorem Copy.opd_inst {o : Opd C} {x : Nat} (he : K.opd param o = .inst x) : (∃ i, o = .inst i ∧ x = K.fi i) ∨ ∃ c j, o = .cst c ∧ param c = some j ∧ x = K.ps j := by
  cases o with
  | inst i => simp only [Copy.opd, Opd.inst.injEq] at he; exact .inl ⟨i, rfl, he.symm⟩
  | cst c =>
    simp only [Copy.opd] at he
    cases hp : param c with
    | none => rw [hp] at he; simp at he
    | some j => rw [hp] at he; simp only [Opd.inst.injEq] at he; exact .inr ⟨c, j, rfl, hp, he.symm⟩

/-- an operand of the copy -/
theorem InlineOk.use_copy (h : InlineOk K param F G b k valued B call) (SG : Shape G) {q x : Nat} {q0 : Nat} {T : Block Op C} {o : Opd C} (hT : G.blk q0 = some T) (ho : o ∈ T.opds)
    (hu : ∀ i, o = .inst i → ∃ d, DefIn G i d ∧ Domi G d q) (hx : K.opd param o = .inst x) :
    ∃ d, DefIn (F.inline K param b k valued G) x d ∧ Domi (F.inline K param b k valued G) d (K.fb q) := by
  rcases Copy.opd_inst hx with ⟨i, hi, rfl⟩ | ⟨c, j, rfl, hj, rfl⟩
  · obtain ⟨d, ⟨D, hD, hid⟩, h2⟩ := hu i hi
    refine ⟨K.fb d, ⟨_, h.blk_copy S hD, ?_⟩, h.domi_copy S h2⟩
    rw [Copy.blockAt_ids]
    exact List.mem_append_right _ (List.mem_map.2 ⟨i, hid, rfl⟩)
  · obtain ⟨E, hE⟩ := SG.total _ SG.entryIn
    refine ⟨K.fb G.entry, ⟨_, h.blk_copy S hE, ?_⟩, h.domi_copy S (fun p hp => by cases hp <;> simp)⟩
    rw [Copy.blockAt_ids, if_pos rfl]
    refine List.mem_append_left _ ?_
    simp only [List.mem_reverse, List.mem_map, List.mem_range]
    exact ⟨j, h.params q0 T hT _ ho c j rfl hj, rfl⟩

omit S in
/-- the phis of the caller afterwards -/
theorem InlineOk.mem_newPhis (h : InlineOk K param F G b k valued B call) (W : LiveWf F) {x : Nat} {X : Block Op C} (hX : F.blk x = some X) (hl : Live F x) {p' : Phi C}
    (hp : p' ∈ newPhis K b B x X.phis) : ∃ p ∈ X.phis, ∀ q' v, (q', v) ∈ p'.inc ↔ ∃ q, (q, v) ∈ p.inc ∧ q' = mv K.sink b q := by
  unfold newPhis at hp
  split at hp
  · obtain ⟨p, hp0, rfl⟩ := List.mem_map.1 hp
    exact ⟨p, hp0, fun q' v => Phi.mem_replaceSource⟩
  · rename_i hn
    refine ⟨p', hp, fun q' v => ⟨fun hq => ?_, ?_⟩⟩
    · refine ⟨q', hq, (mv_ne ?_).symm⟩
      rintro rfl
      obtain ⟨Q, hQ, ht⟩ := W.phiPred x X p' hX hl hp _ v hq
      rw [h.hB] at hQ; cases hQ
      exact hn ht
    · rintro ⟨q, hq, rfl⟩
      rw [mv_ne]
      · exact hq
      · rintro rfl
        obtain ⟨Q, hQ, ht⟩ := W.phiPred x X p' hX hl hp _ v hq
        rw [h.hB] at hQ; cases hQ
        exact hn ht

omit S in
theorem Func.mem_retIncs {q : Nat} {v : Opd C} (h : (q, v) ∈ G.retIncs K param) : ∃ g T w, q = K.fb g ∧ G.blk g = some T ∧ T.term = .ret (some w) ∧ v = K.opd param w := by
  unfold Func.retIncs at h
  obtain ⟨g, _, hg⟩ := List.mem_filterMap.1 h
  split at hg
  · rename_i ph bd w hT
    simp only [Option.some.injEq, Prod.mk.injEq] at hg
    exact ⟨g, _, w, hg.1.symm, hT, rfl, hg.2.symm⟩
  · cases hg

omit S in
theorem Func.retIncs_mem (hl : G.Listed) {g : Nat} {T : Block Op C} {w : Opd C} (hT : G.blk g = some T) (hw : T.term = .ret (some w)) : (K.fb g, K.opd param w) ∈ G.retIncs K param := by
  unfold Func.retIncs
  refine List.mem_filterMap.2 ⟨g, hl g T hT, ?_⟩
  obtain ⟨ph, bd, tm⟩ := T
  simp only at hw
  subst hw
  rw [hT]

omit S in
theorem Copy.term_args {t : Term C} {x : Nat} (hx : Opd.inst x ∈ (K.term param t).args) : ∃ o ∈ t.args, K.opd param o = .inst x := by
  cases t with
  | ret v => simp [Copy.term, Term.args] at hx
  | br t => simp [Copy.term, Term.args] at hx
  | cbr c t f => simp only [Copy.term, Term.args, List.mem_singleton] at hx; exact ⟨c, by simp [Term.args], hx.symm⟩
  | sw c d cs => simp only [Copy.term, Term.args, List.mem_singleton] at hx; exact ⟨c, by simp [Term.args], hx.symm⟩
  | unreachable => simp [Copy.term, Term.args] at hx

omit S in
theorem Copy.mem_argPhis {args : List (Opd C)} {p : Phi C} (hp : p ∈ K.argPhis b args) : ∃ v ∈ args, p.inc = [(b, v)] := by
  unfold Copy.argPhis at hp
  rw [List.mem_reverse] at hp
  obtain ⟨⟨v, j⟩, he, rfl⟩ := List.mem_map.1 hp
  exact ⟨v, List.fst_mem_of_mem_zipIdx he, rfl⟩

omit S in
theorem InlineOk.call_mem (h : InlineOk K param F G b k valued B call) : call ∈ B.body := List.mem_of_getElem? h.hk

omit S in
/-- uses in the first half are of definitions outside the block or in the first half -/
theorem InlineOk.use_first (h : InlineOk K param F G b k valued B call) (W : LiveWf F) (hl : Live F b) {pre post : List (Inst Op C)} {i : Inst Op C} {y : Nat}
    (hi : B.body = pre ++ i :: post) (hpre : ∀ j ∈ pre, j ∈ B.body.take k) (hy : Opd.inst y ∈ i.args) : ∃ d, DefIn (F.inline K param b k valued G) y d ∧ Domi (F.inline K param b k valued G) d b := by
  have S := W.toShape
  obtain ⟨d, ⟨D, hD, hyD⟩, hdom⟩ := W.use b B y h.hB hl (.inl ⟨i, by rw [hi]; simp, hy⟩)
  by_cases e : d = b
  · subst e
    rw [h.hB] at hD; cases hD
    refine ⟨d, ⟨_, h.blk_b, ?_⟩, domi_self _ _⟩
    unfold Block.ids
    rw [newPhis_ids]
    rcases (W.inOrder d B h.hB hl).1 pre i post hi y hy hyD with h1 | h1
    · exact List.mem_append_left _ h1
    · obtain ⟨j, hj, rfl⟩ := List.mem_map.1 h1
      exact List.mem_append_right _ (List.mem_map.2 ⟨j, hpre j hj, rfl⟩)
  · refine ⟨d, ⟨_, h.blk_old S e hD, ?_⟩, h.domi_old S e (S.listed d D hD) (by rw [collapse_old (S.listed b B h.hB)]; exact hdom)⟩
    unfold Block.ids; rw [newPhis_ids]; exact hyD

omit S in
theorem InlineOk.inOrder_b (h : InlineOk K param F G b k valued B call) (hO : InOrder B) (t : Nat) : InOrder (⟨newPhis K b B b B.phis, B.body.take k, .br t⟩ : Block Op C) := by
  refine ⟨?_, fun y hy => by simp [Term.args] at hy⟩
  intro pre i post he y hy hyi
  simp only at he
  rw [newPhis_ids]
  have hb : B.body = pre ++ i :: (post ++ call :: B.body.drop (k + 1)) := by
    conv => lhs; rw [h.body, he]
    simp
  refine hO.1 pre i _ hb y hy ?_
  unfold Block.ids at hyi ⊢
  rw [newPhis_ids] at hyi
  rcases List.mem_append.1 hyi with h1 | h1
  · exact List.mem_append_left _ h1
  · obtain ⟨j, hj, rfl⟩ := List.mem_map.1 h1
    exact List.mem_append_right _ (List.mem_map.2 ⟨j, List.mem_of_mem_take hj, rfl⟩)

theorem InlineOk.inOrder_sink (h : InlineOk K param F G b k valued B call) (hO : InOrder B) : InOrder (⟨K.retPhi param G valued call.id, B.body.drop (k + 1), B.term⟩ : Block Op C) := by
  refine ⟨?_, fun y _ hy => List.mem_append.1 hy⟩
  intro pre i post he y hy hyi
  simp only at he
  have hb : B.body = (B.body.take k ++ call :: pre) ++ i :: post := by
    conv => lhs; rw [h.body, he]
    simp
  rcases List.mem_append.1 hyi with h1 | h1
  · exact .inl h1
  right
  have hyB : y ∈ B.ids := by rw [h.ids]; exact List.mem_append_right _ (List.mem_cons_of_mem _ h1)
  have hn := h.ids ▸ S.ids_nodup h.hB
  rw [List.nodup_append, List.nodup_cons] at hn
  have hne : y ∉ early B k := fun h2 => hn.2.2 y h2 y (List.mem_cons_of_mem _ h1) rfl
  have hnc : y ≠ call.id := fun e => hn.2.1.1 (e ▸ h1)
  rcases hO.1 _ i post hb y hy hyB with h2 | h2
  · exact absurd (List.mem_append_left _ h2) hne
  · rw [List.map_append, List.map_cons] at h2
    rcases List.mem_append.1 h2 with h3 | h3
    · exact absurd (List.mem_append_right _ h3) hne
    · rcases List.mem_cons.1 h3 with h4 | h4
      · exact absurd h4 hnc
      · exact h4

omit S in
theorem InlineOk.inOrder_copy (h : InlineOk K param F G b k valued B call) {q : Nat} {T : Block Op C} (hO : InOrder T) : InOrder (K.blockAt param b call.args G.entry q T) := by
  have key : ∀ {x : Nat} {o : Opd C} {l : List Nat}, x ∈ (K.blockAt param b call.args G.entry q T).ids → K.opd param o = .inst x → (∀ i, o = .inst i → i ∈ T.ids → i ∈ T.phis.map Phi.id ∨ i ∈ l) →
      x ∈ (K.blockAt param b call.args G.entry q T).phis.map Phi.id ∨ x ∈ l.map K.fi := by
    intro x o l hx ho hi
    rw [Copy.blockAt_ids] at hx
    have hphi : (K.blockAt param b call.args G.entry q T).phis.map Phi.id = (if q = G.entry then ((List.range call.args.length).map K.ps).reverse else []) ++ (T.phis.map Phi.id).map K.fi := by
      rw [Copy.blockAt_phis, List.map_append]
      congr 1
      · split
        · exact K.argPhis_ids b _
        · rfl
      · rw [List.map_map, List.map_map]; rfl
    rw [hphi]
    rcases List.mem_append.1 hx with h1 | h1
    · exact .inl (List.mem_append_left _ h1)
    · obtain ⟨i, hiT, rfl⟩ := List.mem_map.1 h1
      rcases Copy.opd_inst ho with ⟨i', h2, h3⟩ | ⟨c, j, _, _, h3⟩
      · obtain rfl := h.fi h3
        rcases hi i h2 hiT with h4 | h4
        · exact .inl (List.mem_append_right _ (List.mem_map.2 ⟨i, h4, rfl⟩))
        · exact .inr (List.mem_map.2 ⟨i, h4, rfl⟩)
      · exact absurd h3 (h.fp _ _)
  constructor
  · intro pre i post he y hy hyi
    rw [Copy.blockAt_body] at he
    obtain ⟨l1, l2, h1, h2, h3⟩ := List.map_eq_append_iff.1 he
    obtain ⟨i0, l3, h4, h5, h6⟩ := List.map_eq_cons_iff.1 h3
    subst h5
    simp only [Copy.inst, List.mem_map] at hy
    obtain ⟨o, ho, hoy⟩ := hy
    rcases key hyi hoy (l := l1.map Inst.id) (fun i' e hi' => hO.1 l1 i0 l3 (by rw [h1, h4]) i' (e ▸ ho) hi') with h7 | h7
    · exact .inl h7
    · refine .inr ?_
      rw [← h2, List.map_map]
      rw [List.map_map] at h7
      exact h7
  · intro y hy hyi
    rw [Copy.blockAt_term] at hy
    obtain ⟨o, ho, hoy⟩ := Copy.term_args hy
    rcases key hyi hoy (l := T.body.map Inst.id) (fun i' e hi' => hO.2 i' (e ▸ ho) hi') with h7 | h7
    · exact .inl h7
    · refine .inr ?_
      rw [Copy.blockAt_body, List.map_map]
      rw [List.map_map] at h7
      exact h7

omit S in
/-- **Inlining one call keeps SSA form.** -/
theorem inline_liveWf (h : InlineOk K param F G b k valued B call) (W : LiveWf F) (WG : LiveWf G) : LiveWf (F.inline K param b k valued G) := by
  have S := W.toShape
  have SG := WG.toShape
  have hb := S.listed b B h.hB
  have hlb : ∀ {z}, z ∉ F.order → Live (F.inline K param b k valued G) z → Live F b := by
    intro z hz hl
    have := h.live S hl
    unfold collapse at this
    rwa [if_neg hz] at this
  have hlo : ∀ {z}, z ∈ F.order → Live (F.inline K param b k valued G) z → Live F z := by
    intro z hz hl
    have := h.live S hl
    rwa [collapse_old hz] at this
  have hlm : ∀ {z}, z ∈ F.order → Live (F.inline K param b k valued G) (mv K.sink b z) → Live F z := by
    intro z hz hl
    have := h.live S hl
    rwa [h.collapse_mv S hz] at this
  have hinc : ∀ {x X p q v}, F.blk x = some X → Live F x → p ∈ X.phis → (q, v) ∈ p.inc → Edge F q x := fun hX hl hp hq => W.phiPred _ _ _ hX hl hp _ _ hq
  -- the phis of the caller's blocks
  have holdPhi : ∀ {x X}, F.blk x = some X → Live F x → ∀ p' ∈ newPhis K b B x X.phis,
      (∀ q y, (q, Opd.inst y) ∈ p'.inc → Live (F.inline K param b k valued G) q → ∃ d, DefIn (F.inline K param b k valued G) y d ∧ Domi (F.inline K param b k valued G) d q) ∧
      (∀ q v, (q, v) ∈ p'.inc → Edge (F.inline K param b k valued G) q x) ∧
      (∀ q, Edge (F.inline K param b k valued G) q x → Live (F.inline K param b k valued G) q → ∃ v, (q, v) ∈ p'.inc) ∧
      (∀ p'' ∈ newPhis K b B x X.phis, ∀ q v, (q, v) ∈ p'.inc → ∃ v', (q, v') ∈ p''.inc) := by
    intro x X hX hl p' hp'
    have hx := S.listed x X hX
    obtain ⟨p, hp, hpi⟩ := h.mem_newPhis W hX hl hp'
    refine ⟨?_, ?_, ?_, ?_⟩
    · intro q y hq hql
      obtain ⟨q0, hq0, rfl⟩ := (hpi _ _).1 hq
      have hq0o := S.edge_left (hinc hX hl hp hq0)
      obtain ⟨d, hd, hdom⟩ := W.phiUse x X p q0 y hX hl hp hq0 (hlm hq0o hql)
      exact h.dom_at S (h.used hX (mem_opds_phi hp hq0)) hq0o hd hdom
    · intro q v hq
      obtain ⟨q0, hq0, rfl⟩ := (hpi _ _).1 hq
      exact h.edge_new S (hinc hX hl hp hq0)
    · intro q e hql
      have : ∃ q0, Edge F q0 x ∧ q = mv K.sink b q0 := by
        rcases h.edge_cases S e with ⟨_, h2⟩ | ⟨h2, e1⟩ | ⟨_, _, _, h2, _⟩ | ⟨_, _, _, _, h2, _⟩ | ⟨h2, e1⟩
        · exact absurd (h2 ▸ hx) (h.fbF _)
        · exact ⟨b, e1, by rw [mv_eq, h2]⟩
        · exact absurd (h2 ▸ hx) (h.fbF _)
        · exact absurd (h2 ▸ hx) h.sinkF
        · exact ⟨q, e1, (mv_ne h2).symm⟩
      obtain ⟨q0, e0, rfl⟩ := this
      obtain ⟨v, hv⟩ := W.phiAll x X p q0 hX hl hp e0 (hlm (S.edge_left e0) hql)
      exact ⟨v, (hpi _ _).2 ⟨q0, hv, rfl⟩⟩
    · intro p'' hp'' q v hq
      obtain ⟨q0, hq0, rfl⟩ := (hpi _ _).1 hq
      obtain ⟨p2, hp2, hpi2⟩ := h.mem_newPhis W hX hl hp''
      obtain ⟨v', hv'⟩ := W.phiDead x X p p2 q0 v hX hl hp hp2 hq0
      exact ⟨v', (hpi2 _ _).2 ⟨q0, hv', rfl⟩⟩
  -- the phis of the copy
  have hcopyPhi : ∀ {q T}, G.blk q = some T → Live G q → Live F b → ∀ p' ∈ (K.blockAt param b call.args G.entry q T).phis,
      (q = G.entry ∧ p' ∈ K.argPhis b call.args) ∨ (q ≠ G.entry ∧ ∃ p ∈ T.phis, p' = K.phi param p) := by
    intro q T hT hl hlb p' hp'
    rw [Copy.blockAt_phis] at hp'
    split at hp'
    · rename_i e
      subst e
      rw [WG.entryPhis T hT] at hp'
      exact .inl ⟨rfl, by simpa using hp'⟩
    · rename_i e
      obtain ⟨p, hp, rfl⟩ := List.mem_map.1 (by simpa using hp')
      exact .inr ⟨e, p, hp, rfl⟩
  refine ⟨inline_shape S h SG, ?_, ?_, ?_, ?_, ?_, ?_, ?_⟩
  · intro Z hZ
    rw [h.entry] at hZ
    rcases h.blk_cases S hZ with ⟨h1, rfl⟩ | ⟨h1, rfl⟩ | ⟨q, T, h1, hT, rfl⟩ | ⟨h1, X, hX, rfl⟩
    · have := W.entryPhis B (h1 ▸ h.hB)
      simp only
      rw [this]; unfold newPhis; split <;> rfl
    · exact absurd (h1 ▸ S.entryIn) h.sinkF
    · exact absurd (h1 ▸ S.entryIn) (h.fbF q)
    · have := W.entryPhis X hX
      simp only
      rw [this]; unfold newPhis; split <;> rfl
  · intro z Z hZ hl
    rcases h.blk_cases S hZ with ⟨h1, rfl⟩ | ⟨h1, rfl⟩ | ⟨q, T, h1, hT, rfl⟩ | ⟨h1, X, hX, rfl⟩
    · subst h1
      exact h.inOrder_b (W.inOrder z B h.hB (hlo hb hl)) _
    · subst h1
      exact h.inOrder_sink S (W.inOrder b B h.hB (hlb h.sinkF hl))
    · subst h1
      exact h.inOrder_copy (WG.inOrder q T hT (h.live_copy S hl))
    · have hO := W.inOrder z X hX (hlo (S.listed z X hX) hl)
      unfold InOrder Block.ids at hO ⊢
      rw [newPhis_ids]
      exact hO
  · intro z Z y hZ hl hu
    rcases h.blk_cases S hZ with ⟨h1, rfl⟩ | ⟨h1, rfl⟩ | ⟨q, T, h1, hT, rfl⟩ | ⟨h1, X, hX, rfl⟩
    · subst h1
      rcases hu with ⟨i, hi, hy⟩ | hy
      · obtain ⟨pre, post, he⟩ := List.append_of_mem hi
        simp only at he
        refine h.use_first W (hlo hb hl) (pre := pre) (post := post ++ call :: B.body.drop (k + 1)) (i := i) ?_ (fun j hj => by rw [he]; simp [hj]) hy
        conv => lhs; rw [h.body, he]
        simp
      · simp [Term.args] at hy
    · subst h1
      have hlF := hlb h.sinkF hl
      have hu' : (∃ i ∈ B.body, Opd.inst y ∈ i.args) ∨ Opd.inst y ∈ B.term.args := by
        rcases hu with ⟨i, hi, hy⟩ | hy
        · exact .inl ⟨i, List.mem_of_mem_drop hi, hy⟩
        · exact .inr hy
      obtain ⟨d, hd, hdom⟩ := W.use b B y h.hB hlF hu'
      have := h.dom_at S (h.used h.hB (mem_opds_use hu')) hb hd hdom
      rwa [mv_eq] at this
    · subst h1
      have hlG := h.live_copy S hl
      have : ∃ o, ((∃ i ∈ T.body, o ∈ i.args) ∨ o ∈ T.term.args) ∧ K.opd param o = .inst y := by
        rw [Copy.blockAt_body, Copy.blockAt_term] at hu
        rcases hu with ⟨i, hi, hy⟩ | hy
        · obtain ⟨i0, hi0, rfl⟩ := List.mem_map.1 hi
          simp only [Copy.inst, List.mem_map] at hy
          obtain ⟨o, ho, hoy⟩ := hy
          exact ⟨o, .inl ⟨i0, hi0, ho⟩, hoy⟩
        · obtain ⟨o, ho, hoy⟩ := Copy.term_args hy
          exact ⟨o, .inr ho, hoy⟩
      obtain ⟨o, ho, hoy⟩ := this
      exact h.use_copy S SG hT (mem_opds_use ho) (fun i e => WG.use q T i hT hlG (e ▸ ho)) hoy
    · have hx := S.listed z X hX
      obtain ⟨d, hd, hdom⟩ := W.use z X y hX (hlo hx hl) hu
      have := h.dom_at S (h.used hX (mem_opds_use hu)) hx hd hdom
      rwa [mv_ne h1] at this
  · intro z Z p q y hZ hl hp hq hql
    rcases h.blk_cases S hZ with ⟨h1, rfl⟩ | ⟨h1, rfl⟩ | ⟨g, T, h1, hT, rfl⟩ | ⟨h1, X, hX, rfl⟩
    · subst h1
      exact (holdPhi h.hB (hlo hb hl) p hp).1 q y hq hql
    · subst h1
      simp only [Copy.retPhi] at hp
      split at hp
      · rw [List.mem_singleton] at hp
        subst hp
        obtain ⟨g, T, w, rfl, hT, hw, hv⟩ := Func.mem_retIncs hq
        have ha : w ∈ T.term.args := by rw [hw]; simp [Term.args]
        exact h.use_copy S SG hT (mem_opds_use (.inr ha)) (fun i e => WG.use g T i hT (h.live_copy S hql) (.inr (e ▸ ha))) hv.symm
      · simp at hp
    · subst h1
      have hlG := h.live_copy S hl
      have hlF := hlb (h.fbF g) hl
      rcases hcopyPhi hT hlG hlF p hp with ⟨rfl, h2⟩ | ⟨hne, p0, hp0, rfl⟩
      · obtain ⟨v, hv, hi⟩ := Copy.mem_argPhis h2
        rw [hi] at hq
        simp only [List.mem_singleton, Prod.mk.injEq] at hq
        obtain ⟨rfl, rfl⟩ := hq
        exact h.use_first W hlF (i := call) h.body (fun j hj => hj) hv
      · simp only [Copy.phi, List.mem_map, Prod.mk.injEq] at hq
        obtain ⟨⟨q0, o⟩, he, rfl, hoy⟩ := hq
        exact h.use_copy S SG hT (mem_opds_phi hp0 he) (fun i e => WG.phiUse g T p0 q0 i hT hlG hp0 (e ▸ he) (h.live_copy S hql)) hoy
    · exact (holdPhi hX (hlo (S.listed z X hX) hl) p hp).1 q y hq hql
  · intro z Z p hZ hl hp q v hq
    rcases h.blk_cases S hZ with ⟨h1, rfl⟩ | ⟨h1, rfl⟩ | ⟨g, T, h1, hT, rfl⟩ | ⟨h1, X, hX, rfl⟩
    · subst h1
      exact (holdPhi h.hB (hlo hb hl) p hp).2.1 q v hq
    · subst h1
      simp only [Copy.retPhi] at hp
      split at hp
      · rw [List.mem_singleton] at hp
        subst hp
        obtain ⟨g, T, w, rfl, hT, hw, hv⟩ := Func.mem_retIncs hq
        exact h.edge_ret S hT hw
      · simp at hp
    · subst h1
      have hlG := h.live_copy S hl
      have hlF := hlb (h.fbF g) hl
      rcases hcopyPhi hT hlG hlF p hp with ⟨rfl, h2⟩ | ⟨hne, p0, hp0, rfl⟩
      · obtain ⟨v', hv, hi⟩ := Copy.mem_argPhis h2
        rw [hi] at hq
        simp only [List.mem_singleton, Prod.mk.injEq] at hq
        obtain ⟨rfl, rfl⟩ := hq
        exact h.edge_in
      · simp only [Copy.phi, List.mem_map, Prod.mk.injEq] at hq
        obtain ⟨⟨q0, o⟩, he, rfl, hoy⟩ := hq
        exact h.edge_copy S (WG.phiPred g T p0 hT hlG hp0 q0 o he)
    · exact (holdPhi hX (hlo (S.listed z X hX) hl) p hp).2.1 q v hq
  · intro z Z p q hZ hl hp e hql
    rcases h.blk_cases S hZ with ⟨h1, rfl⟩ | ⟨h1, rfl⟩ | ⟨g, T, h1, hT, rfl⟩ | ⟨h1, X, hX, rfl⟩
    · subst h1
      exact (holdPhi h.hB (hlo hb hl) p hp).2.2.1 q e hql
    · subst h1
      simp only [Copy.retPhi] at hp
      split at hp
      · rename_i hval
        rw [List.mem_singleton] at hp
        subst hp
        rcases h.edge_cases S e with ⟨_, h2⟩ | ⟨_, e1⟩ | ⟨_, _, _, h2, _⟩ | ⟨g, T, v, rfl, h2, hT, hv⟩ | ⟨_, e1⟩
        · exact absurd h2.symm (h.fbS _)
        · exact absurd (S.closed _ _ e1) h.sinkF
        · exact absurd h2.symm (h.fbS _)
        · have := h.rets g T v hT hv
          rw [hval] at this
          obtain ⟨w, rfl⟩ := Option.isSome_iff_exists.1 this
          exact ⟨_, Func.retIncs_mem h.glisted hT hv⟩
        · exact absurd (S.closed _ _ e1) h.sinkF
      · simp at hp
    · subst h1
      have hlG := h.live_copy S hl
      have hlF := hlb (h.fbF g) hl
      rcases hcopyPhi hT hlG hlF p hp with ⟨rfl, h2⟩ | ⟨hne, p0, hp0, rfl⟩
      · obtain ⟨v', hv, hi⟩ := Copy.mem_argPhis h2
        rw [hi]
        rcases h.edge_cases S e with ⟨h2, _⟩ | ⟨_, e1⟩ | ⟨q1, q2, _, h2, e1⟩ | ⟨_, _, _, _, h2, _⟩ | ⟨_, e1⟩
        · exact ⟨v', by rw [h2]; simp⟩
        · exact absurd (S.closed _ _ e1) (h.fbF _)
        · rw [← h.fb h2] at e1
          exact absurd e1 (h.noEntry _)
        · exact absurd h2 (h.fbS _)
        · exact absurd (S.closed _ _ e1) (h.fbF _)
      · rcases h.edge_cases S e with ⟨_, h2⟩ | ⟨_, e1⟩ | ⟨q1, q2, rfl, h2, e1⟩ | ⟨_, _, _, _, h2, _⟩ | ⟨_, e1⟩
        · exact absurd (h.fb h2) hne
        · exact absurd (S.closed _ _ e1) (h.fbF _)
        · obtain rfl := h.fb h2
          obtain ⟨v, hv⟩ := WG.phiAll g T p0 q1 hT hlG hp0 e1 (h.live_copy S hql)
          exact ⟨K.opd param v, List.mem_map.2 ⟨_, hv, rfl⟩⟩
        · exact absurd h2 (h.fbS _)
        · exact absurd (S.closed _ _ e1) (h.fbF _)
    · exact (holdPhi hX (hlo (S.listed z X hX) hl) p hp).2.2.1 q e hql
  · intro z Z p p' q v hZ hl hp hp' hq
    rcases h.blk_cases S hZ with ⟨h1, rfl⟩ | ⟨h1, rfl⟩ | ⟨g, T, h1, hT, rfl⟩ | ⟨h1, X, hX, rfl⟩
    · subst h1
      exact (holdPhi h.hB (hlo hb hl) p hp).2.2.2 p' hp' q v hq
    · simp only [Copy.retPhi] at hp hp'
      split at hp
      · rw [if_pos (by assumption), List.mem_singleton] at hp'
        rw [List.mem_singleton] at hp
        exact ⟨v, by rw [hp', ← hp]; exact hq⟩
      · simp at hp
    · subst h1
      have hlG := h.live_copy S hl
      have hlF := hlb (h.fbF g) hl
      rcases hcopyPhi hT hlG hlF p hp with ⟨rfl, h2⟩ | ⟨hne, p0, hp0, rfl⟩
      · rcases hcopyPhi hT hlG hlF p' hp' with ⟨_, h3⟩ | ⟨hne, _⟩
        · obtain ⟨v1, _, hi⟩ := Copy.mem_argPhis h2
          obtain ⟨v2, _, hi2⟩ := Copy.mem_argPhis h3
          rw [hi] at hq
          simp only [List.mem_singleton, Prod.mk.injEq] at hq
          exact ⟨v2, by rw [hi2, hq.1]; simp⟩
        · exact absurd rfl hne
      · rcases hcopyPhi hT hlG hlF p' hp' with ⟨h3, _⟩ | ⟨_, p2, hp2, rfl⟩
        · exact absurd h3 hne
        · simp only [Copy.phi, List.mem_map, Prod.mk.injEq] at hq
          obtain ⟨⟨q0, o⟩, he, rfl, hoy⟩ := hq
          obtain ⟨v', hv'⟩ := WG.phiDead g T p0 p2 q0 o hT hlG hp0 hp2 he
          exact ⟨K.opd param v', List.mem_map.2 ⟨_, hv', rfl⟩⟩
    · exact (holdPhi hX (hlo (S.listed z X hX) hl) p hp).2.2.2 p' hp' q v hq

end
end Cmmc.SSA
