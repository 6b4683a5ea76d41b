import Verif.SSA.M2Proper
/-!
# ScalarMem2Reg terminates
-/
namespace Cmmc.SSA

section
variable {Op C : Type} [DecidableEq C]

/-! ## removing trivial phis -/

def Func.phiList (G : Func Op C) : List (Phi C) := G.blocks.flatMap Block.phis

/-- `x` is an operand of a phi -/
def usedB (G : Func Op C) (x : Nat) : Bool := G.phiList.any (fun p => decide (Opd.inst x ∈ p.ops))

/-- the phis that are operands of phis -/
def usedCount (G : Func Op C) : Nat := G.phiList.countP (fun p => usedB G p.id)

omit [DecidableEq C] in
theorem phiList_replace (G : Func Op C) (x : Nat) (o : Opd C) : (G.replace x o).phiList = G.phiList.map (Phi.sub (one x o)) := by
  unfold Func.phiList Func.blocks
  show (G.order.filterMap (fun b => (G.blk b).map (Block.sub (one x o)))).flatMap _ = _
  generalize G.order = l
  induction l with
  | nil => rfl
  | cons b l ih =>
    cases hB : G.blk b with
    | none => rw [List.filterMap_cons_none hB, List.filterMap_cons_none (by rw [hB]; rfl)]; exact ih
    | some B =>
      rw [List.filterMap_cons_some hB, List.filterMap_cons_some (by rw [hB]; rfl), List.flatMap_cons, List.flatMap_cons, List.map_append, ih]
      rfl

theorem mem_sub_one {x y : Nat} {o v : Opd C} (h : v.sub (one x o) = .inst y) (ho : o ≠ .inst x) : y ≠ x ∧ (v = .inst y ∨ v = .inst x ∧ o = .inst y) := by
  cases v with
  | cst c => cases h
  | inst z =>
    simp only [Opd.sub, one] at h
    split at h
    · rename_i e
      subst e
      exact ⟨fun e => ho (e ▸ h), .inr ⟨rfl, h⟩⟩
    · rename_i e
      cases h
      exact ⟨e, .inl rfl⟩

theorem usedB_iff {G : Func Op C} {x : Nat} : usedB G x = true ↔ ∃ p ∈ G.phiList, Opd.inst x ∈ p.ops := by
  simp [usedB, List.any_eq_true]

theorem usedB_replace {G : Func Op C} {x : Nat} {o : Opd C} (ho : o ≠ .inst x) (hu : ∀ y, o = .inst y → usedB G y = true) {y : Nat} (h : usedB (G.replace x o) y = true) :
    usedB G y = true ∧ y ≠ x := by
  obtain ⟨p', hp', hy⟩ := usedB_iff.mp h
  rw [phiList_replace] at hp'
  obtain ⟨p, hp, rfl⟩ := List.mem_map.mp hp'
  simp only [Phi.ops, Phi.sub, List.map_map, List.mem_map, Function.comp] at hy
  obtain ⟨e, he, hv⟩ := hy
  obtain ⟨h1, h2⟩ := mem_sub_one hv ho
  refine ⟨?_, h1⟩
  rcases h2 with h2 | ⟨_, h2⟩
  · exact usedB_iff.mpr ⟨p, hp, List.mem_map.mpr ⟨e, he, h2⟩⟩
  · exact hu y h2

theorem countP_lt {α : Type} {p q : α → Bool} : ∀ {l : List α}, (∀ a ∈ l, q a = true → p a = true) → (∃ a ∈ l, p a = true ∧ q a = false) → l.countP q < l.countP p := by
  intro l
  induction l with
  | nil => rintro _ ⟨a, h, _⟩; cases h
  | cons b l ih =>
    rintro h1 ⟨a, ha, hp, hq⟩
    have hmono : l.countP q ≤ l.countP p := List.countP_mono_left (fun x hx h => h1 x (List.mem_cons_of_mem _ hx) h)
    rw [List.countP_cons, List.countP_cons]
    rcases List.mem_cons.mp ha with rfl | ha
    · simp [hp, hq]; omega
    · have := ih (fun x hx => h1 x (List.mem_cons_of_mem _ hx)) ⟨a, ha, hp, hq⟩
      have hb := h1 b (List.mem_cons_self ..)
      cases hqb : q b
      · simp; omega
      · simp [hb hqb]; omega

theorem usedCount_replace {G : Func Op C} {x : Nat} {o : Opd C} (ho : o ≠ .inst x) (hu : ∀ y, o = .inst y → usedB G y = true) :
    usedCount (G.replace x o) ≤ usedCount G ∧ ((∃ p ∈ G.phiList, p.id = x) → usedB G x = true → usedCount (G.replace x o) < usedCount G) := by
  unfold usedCount
  rw [phiList_replace, List.countP_map]
  have hmono : ∀ p ∈ G.phiList, ((fun p => usedB (G.replace x o) p.id) ∘ Phi.sub (one x o)) p = true → usedB G p.id = true := by
    intro p _ h
    exact (usedB_replace ho hu (y := p.id) h).1
  refine ⟨List.countP_mono_left hmono, ?_⟩
  rintro ⟨p, hp, rfl⟩ hx
  refine countP_lt hmono ⟨p, hp, hx, ?_⟩
  by_contra hc
  rw [Bool.not_eq_false] at hc
  exact (usedB_replace ho hu (y := p.id) hc).2 rfl

omit [DecidableEq C] in
theorem phi?_of_mem {G : Func Op C} {x : Nat} (h : ∃ p ∈ G.phiList, p.id = x) : ∃ p, G.phi? x = some p := by
  obtain ⟨p, hp, e⟩ := h
  obtain ⟨B, hB, hp⟩ := List.mem_flatMap.mp hp
  rw [← Option.isSome_iff_exists]
  unfold Func.phi?
  rw [List.findSome?_isSome_iff]
  refine ⟨B, hB, ?_⟩
  unfold Block.phi?
  rw [List.find?_isSome]
  exact ⟨p, hp, by simpa using e⟩

omit [DecidableEq C] in
theorem phi?_mem {G : Func Op C} {x : Nat} {p : Phi C} (h : G.phi? x = some p) : p ∈ G.phiList ∧ p.id = x := by
  obtain ⟨B, hB, hp⟩ := List.exists_of_findSome?_eq_some h
  obtain ⟨h1, h2⟩ := Block.phi?_mem hp
  exact ⟨List.mem_flatMap.mpr ⟨B, hB, h1⟩, h2⟩

theorem tryRemove_total {ord : List Nat → List Nat} {u : Nat → C} (ho : ∀ l y, y ∈ ord l → y ∈ l) : ∀ (n : Nat) (G : Func Op C) (x : Nat), usedCount G < n → (∃ p ∈ G.phiList, p.id = x) →
    ∃ o G', tryRemove ord u n G x = some (o, G') ∧ usedCount G' ≤ usedCount G ∧ G'.phiList.map Phi.id = G.phiList.map Phi.id := by
  intro n
  induction n with
  | zero => intro G x h; omega
  | succ n ih =>
    intro G x hn hx
    obtain ⟨p, hp⟩ := phi?_of_mem hx
    obtain ⟨hpm, hpx⟩ := phi?_mem hp
    simp only [tryRemove, hp]
    cases hc : commonOp x p.ops none with
    | none => exact ⟨_, _, rfl, Nat.le_refl _, rfl⟩
    | some r =>
      obtain ⟨_, _, hr3⟩ := commonOp_spec hc
      simp only
      have hone : r.getD (.cst (u x)) ≠ .inst x := by
        cases r with
        | none => simp
        | some v => exact ((hr3 v rfl).resolve_left (by simp)).2
      have hu : ∀ y, r.getD (.cst (u x)) = .inst y → usedB G y = true := by
        intro y e
        cases r with
        | none => cases e
        | some v =>
          simp only [Option.getD_some] at e
          subst e
          exact usedB_iff.mpr ⟨p, hpm, ((hr3 _ rfl).resolve_left (by simp)).1⟩
      obtain ⟨hle, hlt⟩ := usedCount_replace hone hu
      generalize r.getD (.cst (u x)) = o at *
      have hids : (G.replace x o).phiList.map Phi.id = G.phiList.map Phi.id := by
        rw [phiList_replace, List.map_map]; rfl
      have fold : ∀ (ys : List Nat), (∀ y ∈ ys, y ∈ phiUsers G x) → ∀ G1 : Func Op C, usedCount G1 ≤ usedCount (G.replace x o) → G1.phiList.map Phi.id = G.phiList.map Phi.id →
          ∃ G2, ys.foldlM (fun G y => (tryRemove ord u n G y).map Prod.snd) G1 = some G2 ∧ usedCount G2 ≤ usedCount (G.replace x o) ∧ G2.phiList.map Phi.id = G.phiList.map Phi.id := by
        intro ys
        induction ys with
        | nil => intro _ G1 h1 h2; exact ⟨G1, rfl, h1, h2⟩
        | cons y ys ihy =>
          intro hys G1 h1 h2
          obtain ⟨_, b, p', ⟨B, hB, hp'⟩, hid, hm⟩ := mem_phiUsers (hys y (List.mem_cons_self ..))
          have hym : y ∈ G1.phiList.map Phi.id ∧ usedB G x = true := by
            have hy := hys y (List.mem_cons_self ..)
            unfold phiUsers at hy
            obtain ⟨B, hB, h⟩ := List.mem_flatMap.mp hy
            obtain ⟨p2, hp2, h⟩ := List.mem_flatMap.mp h
            obtain ⟨v, hv, e⟩ := List.mem_map.mp h
            rw [List.mem_filter] at hp2 hv
            have hpl : p2 ∈ G.phiList := List.mem_flatMap.mpr ⟨B, hB, hp2.1⟩
            rw [h2]
            have hvx := hv.2
            simp only [decide_eq_true_eq] at hvx
            exact ⟨List.mem_map.mpr ⟨p2, hpl, e⟩, usedB_iff.mpr ⟨p2, hpl, hvx ▸ hv.1⟩⟩
          have hlt' := hlt hx hym.2
          obtain ⟨o3, G3, h3, h4, h5⟩ := ih G1 y (by omega) (by obtain ⟨p3, hp3, e⟩ := List.mem_map.mp hym.1; exact ⟨p3, hp3, e⟩)
          obtain ⟨G2, h6, h7, h8⟩ := ihy (fun z hz => hys z (List.mem_cons_of_mem _ hz)) G3 (by omega) (h5.trans h2)
          refine ⟨G2, ?_, h7, h8⟩
          rw [List.foldlM_cons]
          rw [h3]
          exact h6
      obtain ⟨G2, h1, h2, h3⟩ := fold _ (fun y hy => ho _ _ hy) _ (Nat.le_refl _) hids
      exact ⟨o, G2, by rw [h1]; rfl, by omega, h3⟩

theorem usedCount_lt (G : Func Op C) : usedCount G < G.phiCount + 1 := Nat.lt_succ_of_le (List.countP_le_length ..)

/-! ## looking up -/
variable {K : Type} {kind : Op → Kind} {slot : Op → Option K} {F : Func Op C} {vars : List Nat} {Φ Φ' : List (Nat × Nat × Nat)} {E E' : List (Nat × Opd C)}
  {opn opn' : Nat → Prop} {pos : Nat → Nat} {s s' : MS Op C}

/-- the blocks where variable `a` has no value yet -/
def unset (F : Func Op C) (s : MS Op C) (a : Nat) : Nat := F.order.countP (fun b => (s.cur a b).isNone)

open Classical in
/-- the number of dominators -/
noncomputable def depth (F : Func Op C) (b : Nat) : Nat := F.order.countP (fun d => decide (Domi F d b))

omit [DecidableEq C] in
theorem depth_le (b : Nat) : depth F b ≤ F.order.length := List.countP_le_length ..

omit [DecidableEq C] in
theorem unset_le (a : Nat) : unset F s a ≤ F.order.length := List.countP_le_length ..

omit [DecidableEq C] in
theorem unset_mono (h : ∀ a b, s.cur a b ≠ none → s'.cur a b ≠ none) (a : Nat) : unset F s' a ≤ unset F s a := by
  unfold unset
  refine List.countP_mono_left fun b _ hb => ?_
  simp only [Option.isNone_iff_eq_none] at hb ⊢
  by_contra hc
  exact h a b hc hb

omit [DecidableEq C] in
theorem unset_def {a b : Nat} {o : Opd C} (hb : b ∈ F.order) (h : s.cur a b = none) : unset F (s.defVar a b o) a < unset F s a := by
  unfold unset
  refine countP_lt ?_ ⟨b, hb, by simp [h], by simp [MS.defVar]⟩
  intro d _ hd
  simp only [MS.defVar] at hd
  split at hd
  · simp at hd
  · exact hd

omit [DecidableEq C] in
theorem depth_single {b q : Nat} (hs : ∀ p, Edge F p b ↔ p = q) (hne : b ≠ F.entry) (hb : Live F b) (hm : b ∈ F.order) : depth F q < depth F b := by
  obtain ⟨h1, h2⟩ := single_dom hs hne hb
  unfold depth
  refine countP_lt ?_ ⟨b, hm, by simpa using Dom.dominates_refl, by simpa using h2⟩
  intro d _ hd
  simp only [decide_eq_true_eq] at hd ⊢
  exact hd.trans h1

section
variable (P : Proper F) (hl : AllLive F) (V : Private kind slot F vars)
include P V

omit [DecidableEq C] in
/-- a new phi in the block -/
theorem MInv.newPhi (I : MInv kind F vars pos Φ E opn s) {a b : Nat} {B : Block Op C} (ha : a ∈ vars) (hB : F.blk b = some B) (hne : b ≠ F.entry) (hc : s.cur a b = none)
    (todo : List (Nat × Nat × Nat)) : MInv kind F vars pos ((s.next, a, b) :: Φ) E (fun y => opn y ∨ y = s.next)
          (MS.defVar { s with G := s.G.addPhi b s.next, next := s.next + 1, todo := todo } a b (.inst s.next)) := by
  have nw := I.noWrite P V ha hB hne hc
  have hfreshH : ∀ d, ¬ Home F Φ s.next d := fun d hd => absurd (I.homeLt hd) (by omega)
  have c1 := I.cert.addPhi (x := s.next) (a := a) hne hB ha hfreshH
  have hsub : ∀ e ∈ Φ, e ∈ (s.next, a, b) :: Φ := fun e h => List.mem_cons_of_mem _ h
  have hvphi : Val kind F ((s.next, a, b) :: Φ) E a b (pos b) (.inst s.next) :=
    Val.upto hB (.phi (by simp)) _ (Nat.zero_le _) (I.le b B hB) nw
  have hnewlt : ∀ e ∈ (s.next, a, b) :: Φ, e.1 < s.next + 1 := by
    intro e he
    rcases List.mem_cons.mp he with rfl | he
    · simp
    · have := I.new e he; omega
  have I0 : MInv kind F vars pos ((s.next, a, b) :: Φ) E (fun y => opn y ∨ y = s.next)
      ({ s with G := s.G.addPhi b s.next, next := s.next + 1, todo := todo }) :=
    ⟨c1, I.cln, fun a' b' o' ha' hc' => (I.dfd a' b' o' ha' hc').mono hsub (fun _ h => h), I.undef, I.fin, I.le, fun x d hd => Nat.lt_succ_of_lt (I.old x d hd), hnewlt⟩
  exact I0.setDef P V hvphi

include hl

omit [DecidableEq C] in
theorem addOps_total (rec : MS Op C → Nat → Nat → Option (Opd C × MS Op C)) {a b x k : Nat} (hb : ∃ B, F.blk b = some B)
    (hrec : ∀ s Φ E opn q Q o s', MInv kind F vars pos Φ E opn s → F.blk q = some Q → pos q = Q.body.length → rec s a q = some (o, s') →
      ∃ Φ' E' opn', MInv kind F vars pos Φ' E' opn' s' ∧ Ext a (fun _ => False) Φ E opn s Φ' E' opn' s' ∧ Val kind F Φ' E' a q (pos q) o)
    (htot : ∀ s Φ E opn q Q, MInv kind F vars pos Φ E opn s → F.blk q = some Q → pos q = Q.body.length → unset F s a ≤ k → ∃ o s', rec s a q = some (o, s')) :
    ∀ (qs : List Nat) (s : MS Op C) (Φ : List (Nat × Nat × Nat)) (E : List (Nat × Opd C)) (opn : Nat → Prop), MInv kind F vars pos Φ E opn s → (x, a, b) ∈ Φ → opn x → qs.Nodup →
      (∀ q ∈ qs, Edge F q b ∧ ∀ Q, F.blk q = some Q → pos q = Q.body.length) →
      (∀ p, PhiAt s.G b p → p.id = x → ∀ q ∈ qs, q ∉ p.inc.map Prod.fst) → unset F s a ≤ k →
      ∃ s', addOps rec a b x qs s = some s' := by
  intro qs
  induction qs with
  | nil => intro s Φ E opn _ _ _ _ _ _ _; exact ⟨s, rfl⟩
  | cons q qs ih =>
    intro s Φ E opn I hx hop hn hq hk hu
    obtain ⟨⟨Q, hQ, hqe⟩, hpos⟩ := hq q (by simp)
    obtain ⟨o, s1, h1⟩ := htot s Φ E opn q Q I hQ (hpos Q hQ) hu
    have h2 : addOps rec a b x [q] s = some { s1 with G := s1.G.addInc b x q o } := by simp [addOps, h1]
    obtain ⟨hqn, hn'⟩ := List.nodup_cons.mp hn
    obtain ⟨Φ1, E1, opn1, I1, X1, hk1⟩ := addOps_ok (g := ⟨fun _ => [], fun _ => []⟩) P hl V rec hb hrec [q] s Φ E opn _ I hx hop (by simp)
      (fun q' hq' => by rw [List.mem_singleton] at hq'; subst hq'; exact hq _ (by simp)) (fun p hp e q' hq' => hk p hp e q' (by rw [List.mem_singleton] at hq'; simp [hq'])) h2
    obtain ⟨T, _, t2, _⟩ := X1.todo
    obtain ⟨s', h3⟩ := ih _ Φ1 E1 opn1 I1 (X1.subΦ _ hx) ((t2 x).mpr (.inl hop)) hn' (fun q' hq' => hq q' (List.mem_cons_of_mem _ hq'))
      (by
        intro p' hp' e q' hq'
        obtain ⟨p, hp, e', k'⟩ := hk1 p' hp' e
        rw [k', List.mem_append, not_or]
        exact ⟨hk p hp e' q' (List.mem_cons_of_mem _ hq'), by rw [List.mem_singleton]; exact fun e => hqn (e ▸ hq')⟩)
      ((unset_mono X1.cur a).trans hu)
    exact ⟨s', by simp only [addOps, h1]; exact h3⟩

theorem addPhiOperands_total {ord : List Nat → List Nat} {u : Nat → C} (ho : ∀ l y, y ∈ ord l → y ∈ l) (rec : MS Op C → Nat → Nat → Option (Opd C × MS Op C)) {a b x k : Nat} (hb : ∃ B, F.blk b = some B)
    (hrec : ∀ s Φ E opn q Q o s', MInv kind F vars pos Φ E opn s → F.blk q = some Q → pos q = Q.body.length → rec s a q = some (o, s') →
      ∃ Φ' E' opn', MInv kind F vars pos Φ' E' opn' s' ∧ Ext a (fun _ => False) Φ E opn s Φ' E' opn' s' ∧ Val kind F Φ' E' a q (pos q) o)
    (htot : ∀ s Φ E opn q Q, MInv kind F vars pos Φ E opn s → F.blk q = some Q → pos q = Q.body.length → unset F s a ≤ k → ∃ o s', rec s a q = some (o, s'))
    {qs : List Nat} {s : MS Op C} (I : MInv kind F vars pos Φ E opn s) (hx : (x, a, b) ∈ Φ) (hop : opn x) (hn : qs.Nodup)
    (hqs : ∀ q, q ∈ qs ↔ Edge F q b) (hq : ∀ q Q, Edge F q b → F.blk q = some Q → pos q = Q.body.length)
    (emp : ∀ p, PhiAt s.G b p → p.id = x → p.inc = []) (hu : unset F s a ≤ k) :
    ∃ o s', addPhiOperands ord u rec qs a b x s = some (o, s') := by
  have hq' : ∀ q ∈ qs, Edge F q b ∧ ∀ Q, F.blk q = some Q → pos q = Q.body.length := fun q hq' => ⟨(hqs q).mp hq', fun Q hQ => hq q Q ((hqs q).mp hq') hQ⟩
  have hk : ∀ p, PhiAt s.G b p → p.id = x → ∀ q ∈ qs, q ∉ p.inc.map Prod.fst := fun p hp e q _ => by simp [emp p hp e]
  obtain ⟨s1, h1⟩ := addOps_total P hl V rec hb hrec htot qs s Φ E opn I hx hop hn hq' hk hu
  obtain ⟨Φ1, E1, opn1, I1, X1, _⟩ := addOps_ok (g := ⟨fun _ => [], fun _ => []⟩) P hl V rec hb hrec qs s Φ E opn s1 I hx hop hn hq' hk h1
  have hxd : DefIn s1.G x b := I1.cert.defIn.mpr (.inr ⟨a, X1.subΦ _ hx⟩)
  have hxp : ∃ p ∈ s1.G.phiList, p.id = x := by
    obtain ⟨B', hB', hm⟩ := hxd
    obtain ⟨B, hB, hr⟩ := I1.cert.back hB'
    have : x ∈ B'.phis.map Phi.id := by
      rw [hr.phiIds]; exact List.mem_append.mpr (.inl (mem_newAt.mpr ⟨a, X1.subΦ _ hx⟩))
    obtain ⟨p, hp, e⟩ := List.mem_map.mp this
    refine ⟨p, List.mem_flatMap.mpr ⟨B', ?_, hp⟩, e⟩
    exact Func.mem_blocks.mpr ⟨b, by rw [I1.cert.order]; exact P.listed b B hB, hB'⟩
  obtain ⟨o, G', h2, _⟩ := tryRemove_total (u := u) ho _ s1.G x (usedCount_lt s1.G) hxp
  exact ⟨o, { s1 with G := G' }, by unfold addPhiOperands; rw [h1]; simp [h2]⟩

theorem useVar_total {ord : List Nat → List Nat} {u : Nat → C} {g : CFG} (ho : ∀ l y, y ∈ ord l → y ∈ l)
    (hg : ∀ b q, q ∈ g.pred b ↔ Edge F q b) (hgn : ∀ b, (g.pred b).Nodup) {a : Nat} (ha : a ∈ vars) :
    ∀ (n : Nat) (s : MS Op C) (Φ : List (Nat × Nat × Nat)) (E : List (Nat × Opd C)) (opn : Nat → Prop) (b : Nat) (B : Block Op C),
      MInv kind F vars pos Φ E opn s → F.blk b = some B → unset F s a * (F.order.length + 1) + depth F b + 1 ≤ n →
      ∃ o s', useVar ord u g n s a b = some (o, s') := by
  intro n
  induction n with
  | zero => intro s Φ E opn b B _ _ h; omega
  | succ n ih =>
    intro s Φ E opn b B I hB hf
    simp only [useVar]
    cases hc : s.cur a b with
    | some v => exact ⟨_, _, rfl⟩
    | none =>
      simp only
      by_cases hbe : b = s.G.entry
      · rw [if_pos hbe]; exact ⟨_, _, rfl⟩
      rw [if_neg hbe]
      have hne : b ≠ F.entry := I.cert.entry ▸ hbe
      have hbl := hl b B hB
      have hbo := P.listed b B hB
      by_cases hfin : b ∉ s.fin
      · rw [if_pos hfin]; exact ⟨_, _, rfl⟩
      rw [if_neg hfin]
      rw [not_not] at hfin
      have hpos := I.fin b hfin
      split
      · rename_i q hqs
        have hqe : ∀ p, Edge F p b ↔ p = q := fun p => by rw [← hg, hqs, List.mem_singleton]
        obtain ⟨Q, hQ, ht⟩ := (hqe q).mpr rfl
        have hd := depth_single hqe hne hbl hbo
        obtain ⟨o, s1, h1⟩ := ih s Φ E opn q Q I hQ (by omega)
        exact ⟨_, _, by rw [h1]; rfl⟩
      · have I1 := I.newPhi P V ha hB hne hc s.todo
        have hun : unset F (MS.defVar { s with G := s.G.addPhi b s.next, next := s.next + 1 } a b (.inst s.next)) a < unset F s a := unset_def hbo hc
        have hrec : ∀ s Φ E opn q Q o s', MInv kind F vars pos Φ E opn s → F.blk q = some Q → pos q = Q.body.length → useVar ord u g n s a q = some (o, s') →
            ∃ Φ' E' opn', MInv kind F vars pos Φ' E' opn' s' ∧ Ext a (fun _ => False) Φ E opn s Φ' E' opn' s' ∧ Val kind F Φ' E' a q (pos q) o := useVar_ok' P hl V ho hg hgn ha n
        obtain ⟨o, s1, h1⟩ := addPhiOperands_total (u := u) (k := unset F s a - 1) P hl V ho (useVar ord u g n) ⟨B, hB⟩ hrec
          (by
            intro s2 Φ2 E2 opn2 q Q I2 hQ hp2 hu2
            refine ih s2 Φ2 E2 opn2 q Q I2 hQ ?_
            have hdq := depth_le (F := F) q
            have h3 : unset F s2 a + 1 ≤ unset F s a := by omega
            have h4 := Nat.mul_le_mul_right (F.order.length + 1) h3
            rw [Nat.add_mul, Nat.one_mul] at h4
            omega)
          I1 (x := s.next) (by simp) (.inr rfl) (hgn b) (hg b) hpos
          (by
            intro p hp e
            rcases phiAt_addPhi.mp hp with hp | ⟨_, _, rfl⟩
            · exact absurd (I.phiLt hp) (by omega)
            · rfl) (by omega)
        exact ⟨_, _, by rw [h1]; rfl⟩

variable {ord : List Nat → List Nat} {u : Nat → C} {g : CFG} (ho : ∀ l y, y ∈ ord l → y ∈ l) (hg : ∀ b q, q ∈ g.pred b ↔ Edge F q b) (hgn : ∀ b, (g.pred b).Nodup)
  {n : Nat} (hfuel : (F.order.length + 1) * (F.order.length + 1) ≤ n)
include ho hg hgn hfuel

theorem useVar_total' {a : Nat} (ha : a ∈ vars) {b : Nat} {B : Block Op C} (I : MInv kind F vars pos Φ E opn s) (hB : F.blk b = some B) :
    ∃ o s', useVar ord u g n s a b = some (o, s') := by
  refine useVar_total P hl V ho hg hgn ha n s Φ E opn b B I hB ?_
  have h1 := unset_le (F := F) (s := s) a
  have h2 := depth_le (F := F) b
  have h3 := Nat.mul_le_mul_right (F.order.length + 1) h1
  have h4 : (F.order.length + 1) * (F.order.length + 1) = F.order.length * (F.order.length + 1) + (F.order.length + 1) := by rw [Nat.add_mul, Nat.one_mul]
  omega

theorem promoteInst_total {b j : Nat} {B : Block Op C} (hB : F.blk b = some B) (T : TInv kind F vars pos Φ E [] opn s) :
    ∃ s', promoteInst kind vars ord u g n b s j = some s' := by
  unfold promoteInst
  split
  · exact ⟨_, rfl⟩
  · split
    · split
      · rename_i ha
        obtain ⟨o, s1, h⟩ := useVar_total' (u := u) P hl V ho hg hgn hfuel ha T.inv hB
        exact ⟨_, by rw [h]; rfl⟩
      · exact ⟨_, rfl⟩
    · split
      · split <;> exact ⟨_, rfl⟩
      · exact ⟨_, rfl⟩
    · exact ⟨_, rfl⟩

theorem instLoop_total {b : Nat} {B : Block Op C} (hB : F.blk b = some B) : ∀ (k j : Nat) (pos : Nat → Nat) (Φ : List (Nat × Nat × Nat)) (E : List (Nat × Opd C)) (opn : Nat → Prop) (s : MS Op C),
    j + k = B.body.length → pos b = j → TInv kind F vars pos Φ E [] opn s → ∃ s', (List.range' j k).foldlM (promoteInst kind vars ord u g n b) s = some s' := by
  intro k
  induction k with
  | zero => intro j pos Φ E opn s _ _ _; exact ⟨s, rfl⟩
  | succ k ih =>
    intro j pos Φ E opn s hk hp T
    obtain ⟨s1, h1⟩ := promoteInst_total (u := u) (j := j) P hl V ho hg hgn hfuel hB T
    obtain ⟨Φ1, E1, opn1, T1, hf1⟩ := promoteInst_ok P hl V ho hg hgn hB (by omega) hp T h1
    obtain ⟨s2, h2⟩ := ih (j + 1) _ Φ1 E1 opn1 s1 (by omega) (by simp) T1
    exact ⟨s2, by rw [List.range'_succ, List.foldlM_cons, h1]; exact h2⟩

theorem sealFold_total {b : Nat} {B : Block Op C} (hB : F.blk b = some B) (hdone : ∀ q Q, Edge F q b → F.blk q = some Q → pos q = Q.body.length) :
    ∀ (r : List (Nat × Nat × Nat)) (D : List Nat) (Φ : List (Nat × Nat × Nat)) (E : List (Nat × Opd C)) (opn : Nat → Prop) (t : MS Op C), SInv kind F vars pos b r D Φ E opn t →
      ∃ t', r.foldlM (fun s e => (addPhiOperands ord u (useVar ord u g n) (g.pred b) e.2.1 b e.2.2 s).map Prod.snd) t = some t' := by
  intro r
  induction r with
  | nil => intro D Φ E opn t _; exact ⟨t, rfl⟩
  | cons e r ih =>
    intro D Φ E opn t SI
    have T := SI.inv
    obtain ⟨hem, hb', hxD⟩ := SI.rest e (List.mem_cons_self ..)
    obtain ⟨hxΦ, _, _⟩ := T.todo _ hem
    have ha : e.2.1 ∈ vars := (T.inv.cert.new _ _ _ hxΦ).2.2.1
    have hop : opn e.2.2 := (T.iff _).mpr ⟨⟨_, hem, rfl⟩, hxD⟩
    rw [hb'] at hxΦ
    obtain ⟨o, t1, h1⟩ := addPhiOperands_total (u := u) (k := F.order.length) P hl V ho (useVar ord u g n) ⟨B, hB⟩ (useVar_ok' P hl V ho hg hgn ha n)
      (fun s Φ E opn q Q I hQ _ _ => useVar_total' P hl V ho hg hgn hfuel ha I hQ) T.inv hxΦ hop (hgn b) (hg b) hdone
      (fun p hp e' => T.emp b p hp (e' ▸ hop)) (unset_le _)
    obtain ⟨Φ1, E1, opn1, S1, f1⟩ := sealStep_ok P hl V ho hg hgn hB hdone SI h1
    obtain ⟨t2, h2⟩ := ih _ Φ1 E1 opn1 t1 S1
    exact ⟨t2, by rw [List.foldlM_cons, h1]; exact h2⟩

theorem trySeal_total {t : Nat} {T : Block Op C} {st : MS Op C × (Nat → Nat)} (hT : F.blk t = some T) (hI : ∃ Φ E opn, TInv kind F vars pos Φ E [] opn st.1)
    (hdone : st.2 t = 0 → ∀ q Q, Edge F q t → F.blk q = some Q → pos q = Q.body.length) : ∃ st', trySeal ord u g n st t = some st' := by
  obtain ⟨Φ, E, opn, I⟩ := hI
  unfold trySeal
  split
  · rename_i hc
    obtain ⟨t', h⟩ := sealFold_total (u := u) P hl V ho hg hgn hfuel hT (hdone hc.1) _ _ _ _ _ _ I.seal
    exact ⟨_, by unfold sealBlock; rw [h]; rfl⟩
  · exact ⟨_, rfl⟩

theorem promoteBlock_total (hsn : ∀ b, (g.succ b).Nodup) (hs : ∀ b x, x ∈ g.succ b ↔ Edge F b x) {b : Nat} {B : Block Op C} (hB : F.blk b = some B) {done : List Nat} (hb : b ∉ done)
    {st : MS Op C × (Nat → Nat)} (D : DInv kind F vars g done st) : ∃ st', promoteBlock kind vars ord u g n st b = some st' := by
  obtain ⟨Φ, E, opn, T⟩ := D.inv
  obtain ⟨B', hB', hr⟩ := T.inv.cert.some_ b B hB
  have hlen := hr.body.length_eq
  obtain ⟨s1, h1⟩ := instLoop_total (u := u) P hl V ho hg hgn hfuel hB B.body.length 0 _ Φ E opn st.1 (by omega) (by unfold posOf; rw [if_neg hb]) T
  rw [← List.range_eq_range', hlen] at h1
  have h1' : (List.range (match st.1.G.blk b with | some B => B.body.length | none => 0)).foldlM (promoteInst kind vars ord u g n b) st.1 = some s1 := by
    rw [hB']; exact h1
  obtain ⟨I1, hf1⟩ := instrs_ok P hl V ho hg hgn hB hb D h1'
  obtain ⟨st2, h2⟩ := trySeal_total (u := u) P hl V ho hg hgn hfuel hB (st := (s1, st.2)) I1 (fun h0 => D.self P hl V ho hg hgn hb h0)
  have F2 := blockSelf_ok P hl V ho hg hgn hsn hs hB hb D I1 hf1 h2
  have fold : ∀ (ts : List Nat) (st : MS Op C × (Nat → Nat)), FInv kind F vars g b done ts st →
      ∃ st', ts.foldlM (fun st t => trySeal ord u g n (st.1, fun x => if x = t then st.2 x - 1 else st.2 x) t) st = some st' := by
    intro ts
    induction ts with
    | nil => intro st _; exact ⟨st, rfl⟩
    | cons t ts ih =>
      intro st FI
      obtain ⟨T', hT'⟩ := P.blk ((hl b B hB).edge (FI.edge t (List.mem_cons_self ..)))
      have hdt := FI.degHead P hl V ho hg hgn hb
      obtain ⟨st3, h3⟩ := trySeal_total (u := u) P hl V ho hg hgn hfuel hT' (st := (st.1, fun x => if x = t then st.2 x - 1 else st.2 x)) FI.inv
        (fun h0 => zdone P hl V ho hg hgn (by simp only [if_true] at h0; rw [← hdt]; exact h0))
      obtain ⟨st4, h4⟩ := ih st3 (succStep_ok P hl V ho hg hgn hB hb FI h3)
      exact ⟨st4, by rw [List.foldlM_cons, h3]; exact h4⟩
  obtain ⟨st3, h3⟩ := fold _ st2 F2
  exact ⟨st3, by unfold promoteBlock; exact Option.bind_eq_some_iff.mpr ⟨s1, h1', Option.bind_eq_some_iff.mpr ⟨st2, h2, h3⟩⟩⟩

theorem promote_total (hsn : ∀ b, (g.succ b).Nodup) (hs : ∀ b x, x ∈ g.succ b ↔ Edge F b x) {new : Nat} {bs : List Nat} (hbn : bs.Nodup) (hbs : ∀ b ∈ bs, b ∈ F.order)
    (hnew : ∀ x d, DefIn F x d → x < new) : ∃ G, promote kind vars ord u g n bs new F = some G := by
  have fold : ∀ (bs done : List Nat) (st : MS Op C × (Nat → Nat)), bs.Nodup → (∀ b ∈ bs, b ∉ done ∧ ∃ B, F.blk b = some B) → DInv kind F vars g done st →
      ∃ st', bs.foldlM (promoteBlock kind vars ord u g n) st = some st' := by
    intro bs
    induction bs with
    | nil => intro done st _ _ _; exact ⟨st, rfl⟩
    | cons b bs ih =>
      intro done st hn hb D
      obtain ⟨hn1, hn2⟩ := List.nodup_cons.mp hn
      obtain ⟨hbd, B, hB⟩ := hb b (List.mem_cons_self ..)
      obtain ⟨st1, h1⟩ := promoteBlock_total (u := u) P hl V ho hg hgn hfuel hsn hs hB hbd D
      obtain ⟨st2, h2⟩ := ih (b :: done) st1 hn2
        (fun b' hb' => ⟨by rw [List.mem_cons, not_or]; exact ⟨fun e => hn1 (e ▸ hb'), (hb b' (List.mem_cons_of_mem _ hb')).1⟩, (hb b' (List.mem_cons_of_mem _ hb')).2⟩)
        (promoteBlock_ok P hl V ho hg hgn hsn hs hB hbd D h1)
      exact ⟨st2, by rw [List.foldlM_cons, h1]; exact h2⟩
  obtain ⟨st, h⟩ := fold bs [] _ hbn (fun b hb => ⟨by simp, P.total b (hbs b hb)⟩) (DInv.start P hl V ho hg hgn hnew)
  exact ⟨_, by unfold promote; rw [h]; rfl⟩

end
end
end Cmmc.SSA
