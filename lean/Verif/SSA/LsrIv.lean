import Verif.SSA.LsrStep
/-!
# LoopStrengthReduction: the chain of induction variables

`IV`: the phis and increments that `buildAddRec` has built for a list of coefficients. `IV.ev`: their value in iteration `n` is the
polynomial. `addIV_refines`: adding a level does not change what the function does.
-/
namespace Cmmc.SSA

section
variable {L : Lang}

/-- the induction variables for the coefficients, in a header `H` with latch `Lt`, of width `w` -/
inductive IV (A : Arith L) (F : L.F) (H Lt w : Nat) : List Int → Opd L.C → Prop
  | last {c z} : A.num c = some (w, z) → IV A F H Lt w [z] (.cst c)
  | more {B φ p c z d D j o zs} : F.blk H = some B → φ ∈ B.phis → (φ.inc = [(p, .cst c), (Lt, .inst j.id)] ∨ φ.inc = [(Lt, .inst j.id), (p, .cst c)]) → p ≠ Lt →
      A.num c = some (w, z) → F.blk d = some D → j ∈ D.body → A.isAdd j.op = true → j.args = [.inst φ.id, o] → IV A F H Lt w zs o → IV A F H Lt w (z :: zs) (.inst φ.id)

variable {A : Arith L} {F G : L.F} {H Lt w : Nat} {ty : Nat → Nat}

theorem IV.ne_nil {zs : List Int} {o : Opd L.C} (h : IV A F H Lt w zs o) : zs ≠ [] := by cases h <;> simp

theorem IV.ev {zs : List Int} {o : Opd L.C} (h : IV A F H Lt w zs o) : Ev A F H Lt (decide (1 < zs.length)) o (poly zs) := by
  induction h with
  | @last c z hn =>
    have : poly [z] = fun _ => z := by funext n; exact poly_const z n
    rw [this]; exact .lit hn
  | @more B φ p c z d D j o zs hB hφ hinc hp hn hD hj hop ha h ih =>
    have : poly (z :: zs) = fun n => z + ∑ i ∈ Finset.range n, poly zs i := by funext n; exact poly_sum z zs n
    have h2 : decide (1 < (z :: zs).length) = true := by
      simpa using List.length_pos_iff.2 h.ne_nil
    rw [this, h2]
    exact .biv hB hφ hinc hp hn hD hj hop (.inl ha) ih

theorem IV.head {zs : List Int} {o : Opd L.C} (h : IV A F H Lt w zs o) : HeadOpd F H o := by
  cases h with
  | last _ => intro y hy; simp at hy
  | more hB hφ => intro y hy; simp only [Opd.inst.injEq] at hy; exact ⟨_, hB, hy ▸ List.mem_map_of_mem hφ⟩

theorem IV.typed (T : Typed A F ty) {zs : List Int} {o : Opd L.C} (h : IV A F H Lt w zs o) : A.oty ty o = some w := by
  cases h with
  | last hn => simp [Arith.oty, hn]
  | @more B φ p c z d D j o zs hB hφ hinc hp hn =>
    have : (p, Opd.cst c) ∈ φ.inc := by rcases hinc with h | h <;> simp [h]
    have := T.phi H B φ hB hφ p _ this w (by simp [Arith.oty, hn])
    simp [Arith.oty, this]

/-- what a function contains, a function with more in it contains too -/
def Grows (F G : L.F) : Prop := ∀ d D, F.blk d = some D → ∃ D', G.blk d = some D' ∧ D.phis ⊆ D'.phis ∧ D.body ⊆ D'.body

theorem IV.mono (g : Grows F G) {zs : List Int} {o : Opd L.C} (h : IV A F H Lt w zs o) : IV A G H Lt w zs o := by
  induction h with
  | last hn => exact .last hn
  | more hB hφ hinc hp hn hD hj hop ha h ih =>
    obtain ⟨B', hB', h1, _⟩ := g _ _ hB
    obtain ⟨D', hD', _, h2⟩ := g _ _ hD
    exact .more hB' (h1 hφ) hinc hp hn hD' (h2 hj) hop ha ih

theorem Ev.mono (g : Grows F G) {fl : Bool} {o : Opd L.C} {f : Nat → Int} (h : Ev A F H Lt fl o f) : Ev A G H Lt fl o f := by
  induction h with
  | lit hn => exact .lit hn
  | add hD hi hop ha _ _ ih1 ih2 => obtain ⟨D', hD', _, h2⟩ := g _ _ hD; exact .add hD' (h2 hi) hop ha ih1 ih2
  | mul hD hi hop ha _ _ ih1 ih2 => obtain ⟨D', hD', _, h2⟩ := g _ _ hD; exact .mul hD' (h2 hi) hop ha ih1 ih2
  | biv hB hφ hinc hp hn hD hj hop ha _ ih =>
    obtain ⟨B', hB', h1, _⟩ := g _ _ hB
    obtain ⟨D', hD', _, h2⟩ := g _ _ hD
    exact .biv hB' (h1 hφ) hinc hp hn hD' (h2 hj) hop ha ih

variable {b x p n : Nat} {keys : List Nat} {c : L.C} {op : L.Op} {o : Opd L.C}

theorem addIV_grows : Grows F (F.addIV H Lt b x keys c op o n) := fun d D hD => by
  obtain ⟨D', h1, h2, h3, _⟩ := addIV_grow (H := H) (Lt := Lt) (b := b) (x := x) (keys := keys) (c := c) (op := op) (o := o) (n := n) hD
  exact ⟨D', h1, h2, h3⟩

/-- the new level -/
theorem addIV_iv (S : Slot F H Lt b x keys p) (hop : A.isAdd op = true) {z : Int} (hc : A.num c = some (w, z)) {zs : List Int} (h : IV A F H Lt w zs o) :
    IV A (F.addIV H Lt b x keys c op o n) H Lt w (z :: zs) (.inst n) := by
  obtain ⟨HB, ref, hHB, href, hk⟩ := S.ref
  obtain ⟨B, hB, hx⟩ := S.inst
  have h1 := addIV_blk (H := H) (Lt := Lt) (b := b) (x := x) (keys := keys) (c := c) (op := op) (o := o) (n := n) |>.2 ⟨HB, hHB, rfl⟩
  have h2 := addIV_blk (H := H) (Lt := Lt) (b := b) (x := x) (keys := keys) (c := c) (op := op) (o := o) (n := n) |>.2 ⟨B, hB, rfl⟩
  refine IV.more (φ := ⟨n, keys.map (fun q => (q, if q = Lt then .inst (n + 1) else .cst c))⟩) (j := ⟨n + 1, op, [.inst n, o]⟩) (p := p) h1 (by simp) ?_ S.other hc h2 ?_ hop rfl (h.mono addIV_grows)
  · rcases S.keys with e | e
    · left; simp [e, S.other]
    · right; simp [e, S.other]
  · obtain ⟨l1, l2, _, e⟩ := insertBefore_split (j := (⟨n + 1, op, [.inst n, o]⟩ : Inst L.Op L.C)) hx
    dsimp only
    rw [if_pos rfl, e]
    simp

/-- the types of the new instructions -/
def ivTy (ty : Nat → Nat) (n w : Nat) : Nat → Nat := fun y => if y = n ∨ y = n + 1 then w else ty y

theorem addIV_typed (T : Typed A F ty) (R : F.Refs) (hn : ∀ d, ¬ DefIn F n d) (hn1 : ∀ d, ¬ DefIn F (n + 1) d) {z : Int}
    (hc : A.num c = some (w, z)) {zs : List Int} (h : IV A F H Lt w zs o) : Typed A (F.addIV H Lt b x keys c op o n) (ivTy ty n w) := by
  have hold : ∀ {y d}, DefIn F y d → ivTy ty n w y = ty y := by
    intro y d hy
    unfold ivTy
    rw [if_neg]
    rintro (rfl | rfl)
    · exact hn _ hy
    · exact hn1 _ hy
  have hoty : ∀ {o d B}, F.blk d = some B → (∀ y, o = .inst y → y ∈ B.operands) → A.oty (ivTy ty n w) o = A.oty ty o := by
    intro o d B hB ho
    cases o with
    | cst c => rfl
    | inst y =>
      obtain ⟨e, he⟩ := R d B hB y (ho y rfl)
      simp only [Arith.oty]
      rw [hold he]
  have hnn : ivTy ty n w n = w := by simp [ivTy]
  have hnn1 : ivTy ty n w (n + 1) = w := by simp [ivTy]
  constructor
  · intro d B' i hB' hi hop' o' ho' t ht
    obtain ⟨B, hB, rfl⟩ := addIV_blk.1 hB'
    have old : i ∈ B.body → t = ivTy ty n w i.id := by
      intro hi
      rw [hoty hB (fun y hy => mem_operands.2 (.inr (.inl ⟨i, hi, hy ▸ ho'⟩)))] at ht
      rw [hold ⟨B, hB, List.mem_append_right _ (List.mem_map_of_mem hi)⟩]
      exact T.op d B i hB hi hop' o' ho' t ht
    dsimp only at hi
    split at hi
    · rcases insertBefore_mem hi with rfl | hi
      · simp only [List.mem_cons, List.not_mem_nil, or_false] at ho'
        rw [hnn1]
        rcases ho' with rfl | rfl
        · simp only [Arith.oty, hnn, Option.some.injEq] at ht; exact ht.symm
        · have h1 := h.typed T
          have h2 : A.oty (ivTy ty n w) o' = A.oty ty o' := by
            cases o' with
            | cst c => rfl
            | inst y =>
              obtain ⟨B2, h3, h4⟩ := h.head y rfl
              simp only [Arith.oty]
              rw [hold ⟨B2, h3, List.mem_append_left _ h4⟩]
          rw [h2, h1] at ht
          exact (Option.some.inj ht).symm
      · exact old hi
    · exact old hi
  · intro d B' φ hB' hφ q o' ho' t ht
    obtain ⟨B, hB, rfl⟩ := addIV_blk.1 hB'
    have old : φ ∈ B.phis → t = ivTy ty n w φ.id := by
      intro hφ
      rw [hoty hB (fun y hy => mem_operands.2 (.inl ⟨φ, hφ, mem_ops.2 ⟨q, hy ▸ ho'⟩⟩))] at ht
      rw [hold ⟨B, hB, List.mem_append_left _ (List.mem_map_of_mem hφ)⟩]
      exact T.phi d B φ hB hφ q o' ho' t ht
    dsimp only at hφ
    split at hφ
    · rcases List.mem_cons.1 hφ with rfl | hφ
      · obtain ⟨q', _, hq'⟩ := List.mem_map.1 ho'
        simp only [Prod.mk.injEq] at hq'
        rw [← hq'.2] at ht
        rw [hnn]
        split at ht
        · simp only [Arith.oty, hnn1, Option.some.injEq] at ht; exact ht.symm
        · simp only [Arith.oty, hc, Option.map_some, Option.some.injEq] at ht; exact ht.symm
      · exact old hφ
    · exact old hφ

theorem StepRel.and {Q Q' : Option Nat → Nat → Env L → Env L → Prop} {r r' : St L ⊕ Beh L} (h : StepRel Q r r') (h' : ∀ s s', r = .inl s → r' = .inl { s with env := s' } → Q s.pred s.cur s.env s' → Q' s.pred s.cur s.env s') :
    StepRel Q' r r' := by
  cases r with
  | inl s =>
    obtain ⟨e, h1, h2⟩ := h
    exact ⟨e, h1, h' s e rfl h1 h2⟩
  | inr b => cases b <;> exact h

theorem addIV_refines (W : LiveWf F) (R : F.Refs) (T : Typed A F ty) (S : Slot F H Lt b x keys p) (hn : ∀ d, ¬ DefIn F n d) (hn1 : ∀ d, ¬ DefIn F (n + 1) d) (hop : A.isAdd op = true) {z : Int}
    (hc : A.num c = some (w, z)) {zs : List Int} (h : IV A F H Lt w zs o) : Refines L F (F.addIV H Lt b x keys c op o n) := by
  have W' : LiveWf (F.addIV H Lt b x keys c op o n) := addIV_wf W R S h.head hn hn1
  have T' := addIV_typed (b := b) (x := x) (keys := keys) (op := op) T R hn hn1 hc h
  have hiv := addIV_iv (A := A) (n := n) S hop hc h
  have I := Iter.point (H := H) (Lt := Lt) W' T'
  have hHl : Live F H := S.above.live (S.below.live S.live)
  obtain ⟨HB, ref, hHB, href, hkeys⟩ := S.ref
  have hne : H ≠ F.entry := by
    rintro rfl
    rw [W.entryPhis HB hHB] at href
    simp at href
  have hKop : ∀ {d B}, F.blk d = some B → ∀ y, (y = n ∨ y = n + 1) → y ∉ B.operands := by
    intro d B hB y hy hm
    obtain ⟨e, he⟩ := R d B hB y hm
    rcases hy with rfl | rfl
    · exact hn _ he
    · exact hn1 _ he
  -- the value of the new phi, wherever it is available
  have hlast : Ev A (F.addIV H Lt b x keys c op o n) H Lt true (.inst n) (poly (z :: zs)) := by
    have h1 := hiv.ev
    have h2 : decide (1 < (z :: zs).length) = true := by simpa using List.length_pos_iff.2 h.ne_nil
    rwa [h2] at h1
  have hstep : Ev A (F.addIV H Lt b x keys c op o n) H Lt true (.inst (n + 1)) (fun k => poly (z :: zs) k + poly zs k) := by
    obtain ⟨B, hB, hx⟩ := S.inst
    have h2 := addIV_blk (H := H) (Lt := Lt) (b := b) (x := x) (keys := keys) (c := c) (op := op) (o := o) (n := n) |>.2 ⟨B, hB, rfl⟩
    obtain ⟨l1, l2, _, e⟩ := insertBefore_split (j := (⟨n + 1, op, [.inst n, o]⟩ : Inst L.Op L.C)) hx
    have h3 := Ev.add (i := (⟨n + 1, op, [.inst n, o]⟩ : Inst L.Op L.C)) h2 (by dsimp only; rw [if_pos rfl, e]; simp) hop rfl hlast (h.mono addIV_grows).ev
    simpa using h3
  refine refines_rel (fun pred cur env e => AgreeK (fun y => y = n ∨ y = n + 1) env e ∧ ∀ m tr, Between (F.addIV H Lt b x keys c op o n) (fun d k env => ∃ t, Iter.J A (F.addIV H Lt b x keys c op o n) (ivTy ty n w) H Lt t d k env) ⟨pred, cur, e, m, tr⟩) rfl
    ⟨fun _ _ => rfl, fun m tr => ⟨rfl, rfl⟩⟩ ?_
  rintro s e ⟨hag, hbt⟩
  have hbt := hbt s.m s.tr
  have hl' := hbt.live
  have hl : Live F s.cur := addIV_live.1 hl'
  refine StepRel.and (Q := fun _ _ => AgreeK (fun y => y = n ∨ y = n + 1)) ?_ ?_
  · unfold SSA.step
    cases hB : F.blk s.cur with
    | none => trivial
    | some B =>
      have hB' := addIV_blk (H := H) (Lt := Lt) (b := b) (x := x) (keys := keys) (c := c) (op := op) (o := o) (n := n) |>.2 ⟨B, hB, rfl⟩
      dsimp only
      rw [hB']
      dsimp only
      refine stepBlk_rel (Q1 := fun r r' => AgreeK (fun y => y = n ∨ y = n + 1) r r' ∧ ∃ t, Iter.J A (F.addIV H Lt b x keys c op o n) (ivTy ty n w) H Lt t s.cur 0 r') (Q2 := AgreeK (fun y => y = n ∨ y = n + 1)) ?_ ?_ ?_ ?_
      · intro r hr
        dsimp only
        have hex : ∃ r', enterPhis L s.pred e (if s.cur = H then (⟨n, keys.map (fun q => (q, if q = Lt then .inst (n + 1) else .cst c))⟩ : Phi L.C) :: B.phis else B.phis) e = some r' ∧ AgreeK (fun y => y = n ∨ y = n + 1) r r' := by
          cases hp : s.pred with
          | none =>
            rw [hp] at hr
            unfold Between at hbt
            simp only [hp] at hbt
            have h1 : s.cur = F.entry := hbt.1
            rw [if_neg (by rw [h1]; exact fun h => hne h.symm)]
            have h2 := W.entryPhis B (h1 ▸ hB)
            rw [h2] at hr ⊢
            simp only [enterPhis, Option.some.injEq] at hr ⊢
            subst hr
            exact ⟨e, rfl, hag⟩
          | some q =>
            rw [hp] at hr
            unfold Between at hbt
            simp only [hp] at hbt
            obtain ⟨hq', he', Q, hQ', t, hJ⟩ := hbt
            have hq := addIV_live.1 hq'
            have he := addIV_edge.1 he'
            have hsame : List.Forall₂ (fun p p' : Phi L.C => p'.id = p.id ∧ p'.at q = p.at q) B.phis B.phis := by
              generalize B.phis = l
              induction l with
              | nil => exact .nil
              | cons a l ih => exact .cons ⟨rfl, rfl⟩ ih
            have hus : ∀ ψ ∈ B.phis, ∀ y, (y = n ∨ y = n + 1) → Opd.inst y ∉ ψ.ops := fun ψ hψ y hy hm => hKop hB y hy (mem_operands.2 (.inl ⟨ψ, hψ, hm⟩))
            split
            · rename_i hcur
              -- the new phi has a value
              have hval : ∃ v, phiVal L (some q) e (⟨n, keys.map (fun q => (q, if q = Lt then .inst (n + 1) else .cst c))⟩ : Phi L.C) = some v := by
                have hqk : q = p ∨ q = Lt := by
                  rw [hcur] at he
                  obtain ⟨v, hv⟩ := W.phiAll H HB ref q hHB hHl href he hq
                  have : q ∈ keys := by rw [← hkeys]; exact List.mem_map.2 ⟨_, hv, rfl⟩
                  rcases S.keys with e | e <;> rw [e] at this <;> simp at this <;> tauto
                have hat : Phi.at (⟨n, keys.map (fun q => (q, if q = Lt then .inst (n + 1) else .cst c))⟩ : Phi L.C) q = some (if q = Lt then .inst (n + 1) else .cst c) := by
                  unfold Phi.at
                  rcases S.keys with e1 | e1 <;> rcases hqk with rfl | rfl <;> simp [e1, S.other, Ne.symm S.other]
                unfold phiVal
                dsimp only
                rw [hat]
                dsimp only
                split
                · rename_i hqL
                  subst hqL
                  have hav : Avail (F.addIV H q b x keys c op o n) q Q.body.length (n + 1) := W'.avail_end ((addIV_defIn S).2 (.inr (.inr ⟨rfl, rfl⟩))) (addIV_domi.2 S.below) hQ'
                  exact ⟨_, hJ _ _ _ hstep hav⟩
                · exact ⟨_, rfl⟩
              obtain ⟨v, hv⟩ := hval
              simp only [enterPhis, hv]
              have hag2 : AgreeK (fun y => y = n ∨ y = n + 1) s.env (setEnv L e n v) := by
                intro y hy
                rw [hag y hy]
                unfold setEnv
                rw [if_neg (fun h => hy (.inl h))]
              obtain ⟨r', h1, h2⟩ := hag.phis (q' := q) hsame hus hag2 hr
              exact ⟨r', h1, h2.mono (fun y hy => hy.1)⟩
            · obtain ⟨r', h1, h2⟩ := hag.phis (q' := q) hsame hus hag hr
              exact ⟨r', h1, h2.mono (fun y hy => hy.1)⟩
        obtain ⟨r', h1, h2⟩ := hex
        exact ⟨r', h1, h2, I.phis_live W' hbt hB' h1⟩
      · rintro r r' m es ⟨hag1, t, hJ⟩
        dsimp only
        have hus : ∀ i ∈ B.body, ∀ y, (y = n ∨ y = n + 1) → Opd.inst y ∉ i.args := fun i hi y hy hm => hKop hB y hy (mem_operands.2 (.inr (.inl ⟨i, hi, hm⟩)))
        split
        · rename_i hcur
          obtain ⟨B1, hB1, hx⟩ := S.inst
          rw [← hcur, hB] at hB1
          rw [← Option.some.inj hB1] at hx
          obtain ⟨l1, l2, e1, e2⟩ := insertBefore_split (j := (⟨n + 1, op, [.inst n, o]⟩ : Inst L.Op L.C)) hx
          have hndB := W.block_ids hB
          rw [e2]
          rw [e1] at hus
          have hus1 : ∀ i ∈ l1, ∀ y, (y = n ∨ y = n + 1) → Opd.inst y ∉ i.args := fun i hi => hus i (by simp [hi])
          have hus2 : ∀ i ∈ l2, ∀ y, (y = n ∨ y = n + 1) → Opd.inst y ∉ i.args := fun i hi => hus i (by simp [hi])
          rw [e1, execBody_append, execBody_append]
          have hb1 := hag1.body (m := m) (es := es) hus1
          cases hx1 : execBody L l1 r m es with
          | ub => trivial
          | halt es' h' => rw [hx1] at hb1; rw [hb1]; rfl
          | ok r1 m1 es1 =>
            rw [hx1] at hb1
            obtain ⟨r1', hx1', hag2⟩ := hb1
            rw [hx1']
            dsimp only
            -- phis of the header keep their values
            have hkeep : ∀ y, (y = n ∨ ∃ B2, F.blk H = some B2 ∧ y ∈ B2.phis.map Phi.id) → y ∉ l1.map Inst.id := by
              rintro y hy hm
              have hyB : DefIn F y s.cur := ⟨B, hB, List.mem_append_right _ (by rw [e1, List.map_append]; exact List.mem_append_left _ hm)⟩
              rcases hy with rfl | ⟨B2, hB2, hy⟩
              · exact hn _ hyB
              · have h9 : s.cur = H := W.home hyB ⟨B2, hB2, List.mem_append_left _ hy⟩
                rw [h9, hB2] at hB
                have := Option.some.inj hB
                subst this
                have := List.nodup_append.1 hndB
                exact this.2.2 y hy y (by rw [e1, List.map_append]; exact List.mem_append_left _ hm) rfl
            have havail : ∀ y, (y = n ∨ ∃ B2, F.blk H = some B2 ∧ y ∈ B2.phis.map Phi.id) → Avail (F.addIV H Lt b x keys c op o n) s.cur 0 y := by
              intro y hy
              have hyH : ∃ B2, (F.addIV H Lt b x keys c op o n).blk H = some B2 ∧ y ∈ B2.phis.map Phi.id := by
                rcases hy with rfl | ⟨B2, hB2, hy⟩
                · exact ⟨_, addIV_blk.2 ⟨HB, hHB, rfl⟩, by simp⟩
                · exact ⟨_, addIV_blk.2 ⟨B2, hB2, rfl⟩, by dsimp only; rw [if_pos rfl]; exact List.mem_cons_of_mem _ hy⟩
              obtain ⟨B2, h1, h2⟩ := hyH
              refine ⟨H, ⟨B2, h1, List.mem_append_left _ h2⟩, ?_, ?_⟩
              · rw [hcur]; exact addIV_domi.2 S.above
              · intro e; exact ⟨B2, e ▸ h1, .inl h2⟩
            have hvn : r1' n = some (A.int w (poly (z :: zs) t)) := by
              rw [execBody_other hx1' n (hkeep n (.inl rfl)), hJ _ _ _ hlast (havail n (.inl rfl))]
              simp [ivTy]
            have hvo : eval L r1' o = some (A.int w (poly zs t)) := by
              obtain ⟨t', h1, h2⟩ := hJ.opd (h.mono addIV_grows).ev (fun y hy => havail y (.inr (h.head y hy)))
              have h3 := (h.mono addIV_grows).typed T'
              rw [h3] at h1
              have := Option.some.inj h1
              subst this
              rw [← h2]
              cases ho : o with
              | cst c => rfl
              | inst y => exact execBody_other hx1' y (hkeep y (.inr (h.head y ho)))
            have hvs : evals L r1' [.inst n, o] = some [A.int w (poly (z :: zs) t), A.int w (poly zs t)] := by
              simp only [evals, hvo, show eval L r1' (.inst n) = some (A.int w (poly (z :: zs) t)) from hvn]
            simp only [execBody, hvs]
            rw [A.add_sem _ _ _ _ _ hop]
            dsimp only
            rw [List.append_nil]
            refine AgreeK.body hus2 ?_
            intro y hy
            rw [hag2 y hy]
            unfold setEnv
            rw [if_neg (fun h => hy (.inr h))]
        · exact hag1.body hus
      · intro r r' hr
        exact .inr (hr.term (fun y hy hm => hKop hB y hy (mem_operands.2 (.inr (.inr hm)))))
      · intro r r' d hr _
        exact hr
  · intro s1 e1 hs1 hs1' hq
    refine ⟨hq, fun m tr => ?_⟩
    have := I.step_live W' hbt hs1'
    unfold Between at this ⊢
    dsimp only at this ⊢
    exact this

end
end Cmmc.SSA
