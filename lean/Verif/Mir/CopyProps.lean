import Verif.Mir.Copy

/-!
# Copy propagation on machine code cannot be seen
-/

namespace Cmmc.Mir

section
variable {Val Mem : Type} {T : Target} {I : Interp Val Mem} {F : Flags} {f : Func}

theorem matchCopy_some {x : Inst} {d s : Reg} (h : matchCopy F x = some (d, s)) :
    F.copy x.op = true ∧ x.ops = [(.dfn, d), (.use, s)] := by
  unfold matchCopy at h
  split at h
  · rename_i hc
    refine ⟨hc, ?_⟩
    split at h
    · rename_i he; cases h; exact he
    · cases h
  · cases h

theorem matchCopy_none {x : Inst} (ht : x.Typed F) (h : matchCopy F x = none) : F.copy x.op = false := by
  by_contra hc
  have hc : F.copy x.op = true := by simpa using hc
  obtain ⟨d, s, ho⟩ := ht.copy hc
  simp [matchCopy, hc, ho] at h

theorem matchCopy_eff (hF : F.Ok I) {x : Inst} (ht : x.Typed F) {d s : Reg} (h : matchCopy F x = some (d, s))
    {σ ρ : Reg → Val} {m m' : Mem} {k : Nat} : Eff T I x σ m ρ m' k ↔ ρ = upd σ d (σ s) ∧ m' = m := by
  obtain ⟨h1, h2⟩ := matchCopy_some h
  obtain ⟨b1, b2, -, -⟩ := ht.bare (hF.copy _ h1).1
  exact copy_eff hF h1 h2 b1 b2

theorem matchCopy_vis (hF : F.Ok I) {x : Inst} {d s : Reg} (h : matchCopy F x = some (d, s)) : F.vis x.op = false :=
  (hF.copy _ (matchCopy_some h).1).1

theorem matchCopy_defs {x : Inst} {d s : Reg} (h : matchCopy F x = some (d, s)) : x.defs = [d] := by
  simp [Inst.defs, (matchCopy_some h).2]

/-- Peephole.cpp:100-111: removing the copies of a register to itself cannot be seen. -/
theorem removeIdentityCopies_same (hF : F.Ok I) (ht : f.Typed F) :
    Same T I F.vis f (removeIdentityCopies F f) := by
  unfold removeIdentityCopies
  refine scan_same _ _ (fun _ _ _ => True) (fun _ _ _ _ => True) ht.last ?_ (fun _ => trivial)
    (fun b B i x σ m ρ m' k _ _ _ _ => fun B _ => ⟨fun _ => trivial, fun _ _ _ => trivial⟩)
    (fun _ _ _ _ _ => trivial) ?_
  · intro b B i x s _ _ hv
    split
    · rename_i d q hm
      rw [matchCopy_vis hF hm] at hv; cases hv
    · rfl
  · intro b B i x s σ hB hx _ _
    have hty := ht.inst B (List.mem_of_getElem? hB) x (List.mem_of_getElem? hx)
    split
    · rename_i d q hm
      split
      · rename_i hd
        subst hd
        refine ⟨matchCopy_vis hF hm, fun m ρ m' k => ?_, trivial⟩
        rw [matchCopy_eff hF hty hm]
        have : upd σ d (σ d) = σ := by
          funext w
          unfold upd
          split
          · rename_i hw; rw [hw]
          · rfl
        rw [this]
      · exact scanOk_some (Twin.refl hty) fun _ _ _ _ _ => trivial
    · exact scanOk_some (Twin.refl hty) fun _ _ _ _ _ => trivial

/-! ## `removeIndirectCopy` -/

/-- What the state of the scan says about the registers. -/
structure CopySt.Inv (s : CopySt) (σ : Reg → Val) : Prop where
  val : ∀ d q v, s.value d = some (q, v) → s.version q = some v → σ d = σ q
  vle : ∀ r v, s.version r = some v → v ≤ s.id
  sle : ∀ d q v, s.value d = some (q, v) → v ≤ s.id
  seen : ∀ d, (s.value d).isSome = true → (s.version d).isSome = true

/-- The context is sensible: the generic copy and whatever `selectCopyOpcode` returns are copies. -/
def CopyCtx.Ok (C : CopyCtx) (F : Flags) : Prop := F.copy C.copyOp = true ∧ ∀ d q, F.copy (C.sel d q) = true

theorem twin_ite {σ : Reg → Val} {x z : Inst} {c : Prop} [Decidable c] (ht : x.Typed F) (h : Twin T I F σ x z) :
    Twin T I F σ x (if c then z else x) := by
  split
  · exact h
  · exact Twin.refl ht

theorem replaceUse_twin (hF : F.Ok I) {C : CopyCtx} (hC : C.Ok F) {s : CopySt} {σ : Reg → Val} (hI : s.Inv σ)
    {x : Inst} (ht : x.Typed F) (i : Nat) : Twin T I F σ x (replaceUse C s x i) := by
  unfold replaceUse
  split
  · rename_i r hi
    split
    · rename_i q v hq
      split
      · rename_i hv
        split
        · exact Twin.refl ht
        · split
          · exact Twin.refl ht
          · have t1 : Twin T I F σ x { x with ops := x.ops.set i (.use, q) } :=
              twin_set ht hi (hI.val r q v hq hv).symm
            have t2 : Twin T I F σ x (if x.op = C.copyOp then
                match x.ops[0]? with
                | some (_, d) => { ({ x with ops := x.ops.set i (.use, q) } : Inst) with op := C.sel d q }
                | none => { x with ops := x.ops.set i (.use, q) }
              else { x with ops := x.ops.set i (.use, q) }) := by
              by_cases ho : x.op = C.copyOp
              · rw [if_pos ho]
                split
                · rename_i d hd
                  exact t1.trans (twin_op hF t1.typed (by show F.copy x.op = true; rw [ho]; exact hC.1) (hC.2 _ _))
                · exact t1
              · rw [if_neg ho]; exact t1
            exact twin_ite ht t2
      · exact Twin.refl ht
    · exact Twin.refl ht
  · exact Twin.refl ht

theorem replaceUses_twin (hF : F.Ok I) {C : CopyCtx} (hC : C.Ok F) {s : CopySt} {σ : Reg → Val} (hI : s.Inv σ)
    (l : List Nat) : ∀ {x : Inst}, x.Typed F → Twin T I F σ x (l.foldl (replaceUse C s) x) := by
  induction l with
  | nil => intro x ht; exact Twin.refl ht
  | cons i l ih =>
    intro x ht
    have t := replaceUse_twin (T := T) hF hC hI ht i
    exact t.trans (ih t.typed)

theorem replaceUse_op {C : CopyCtx} (hC : C.Ok F) {s : CopySt} {x : Inst} (hx : F.copy x.op = false) (i : Nat) :
    (replaceUse C s x i).op = x.op := by
  have : x.op ≠ C.copyOp := fun h => by rw [h, hC.1] at hx; cases hx
  unfold replaceUse
  repeat' split
  all_goals first | rfl | contradiction | (simp only [if_neg this]; split <;> rfl)

theorem replaceUses_op {C : CopyCtx} (hC : C.Ok F) {s : CopySt} (l : List Nat) : ∀ {x : Inst},
    F.copy x.op = false → (l.foldl (replaceUse C s) x).op = x.op := by
  induction l with
  | nil => intro x _; rfl
  | cons i l ih =>
    intro x hx
    have := replaceUse_op hC (s := s) hx i
    rw [List.foldl_cons, ih (by rw [this]; exact hx), this]

theorem CopySt.fold_spec : ∀ (ds : List Reg) (s : CopySt),
    s.id ≤ (ds.foldl CopySt.defReg s).id ∧
    (∀ r, r ∉ ds → (ds.foldl CopySt.defReg s).version r = s.version r ∧
      (ds.foldl CopySt.defReg s).value r = s.value r) ∧
    (∀ r, r ∈ ds → (ds.foldl CopySt.defReg s).value r = none ∧
      ∃ v, (ds.foldl CopySt.defReg s).version r = some v ∧ s.id < v ∧ v ≤ (ds.foldl CopySt.defReg s).id) := by
  intro ds
  induction ds with
  | nil => intro s; simp
  | cons d ds ih =>
    intro s
    obtain ⟨h1, h2, h3⟩ := ih (s.defReg d)
    have hid : (s.defReg d).id = s.id + 1 := rfl
    rw [List.foldl_cons]
    refine ⟨by omega, ?_, ?_⟩
    · intro r hr
      simp only [List.mem_cons, not_or] at hr
      obtain ⟨a, b⟩ := h2 r hr.2
      rw [a, b]
      simp [CopySt.defReg, hr.1]
    · intro r hr
      by_cases hrd : r ∈ ds
      · obtain ⟨a, v, b, c, d'⟩ := h3 r hrd
        exact ⟨a, v, b, by omega, d'⟩
      · have : r = d := by rcases List.mem_cons.1 hr with h | h; exacts [h, absurd h hrd]
        subst this
        obtain ⟨a, b⟩ := h2 r hrd
        rw [a, b]
        refine ⟨by simp [CopySt.defReg], s.id + 1, by simp [CopySt.defReg], by omega, by omega⟩

theorem CopySt.inv_copy {s : CopySt} {σ : Reg → Val} (hI : s.Inv σ) (d q : Reg) :
    ({ ((s.defReg d).getVersion q).2 with
        value := fun w => if w = d then some (q, ((s.defReg d).getVersion q).1)
          else ((s.defReg d).getVersion q).2.value w } : CopySt).Inv (upd σ d (σ q)) := by
  have hver : ((s.defReg d).getVersion q).2.version q = some ((s.defReg d).getVersion q).1 := by
    unfold CopySt.getVersion
    split
    · rename_i v hv; exact hv
    · simp
  have hvalue : ((s.defReg d).getVersion q).2.value = (s.defReg d).value := by
    unfold CopySt.getVersion; split <;> rfl
  have hother : ∀ r, r ≠ q → ((s.defReg d).getVersion q).2.version r = (s.defReg d).version r := by
    intro r hr
    unfold CopySt.getVersion; split
    · rfl
    · simp [hr]
  have hid : s.id + 1 ≤ ((s.defReg d).getVersion q).2.id := by
    unfold CopySt.getVersion; split
    · exact Nat.le_refl _
    · simp [CopySt.defReg]
  have hfst : ((s.defReg d).getVersion q).1 ≤ ((s.defReg d).getVersion q).2.id := by
    unfold CopySt.getVersion
    split
    · rename_i v hv
      show v ≤ s.id + 1
      unfold CopySt.defReg at hv
      simp only at hv
      split at hv
      · cases hv; exact Nat.le_refl _
      · have := hI.vle _ _ hv; omega
    · exact Nat.le_refl _
  have hold : ∀ r v, (s.defReg d).version r = some v → v ≤ s.id + 1 ∧ (v ≤ s.id → r ≠ d ∧ s.version r = some v) := by
    intro r v hv
    unfold CopySt.defReg at hv
    simp only at hv
    split at hv
    · cases hv; exact ⟨Nat.le_refl _, fun h => by omega⟩
    · rename_i hrd; exact ⟨by have := hI.vle _ _ hv; omega, fun _ => ⟨hrd, hv⟩⟩
  constructor
  · intro w q' v h1 h2
    simp only at h1 h2
    split at h1
    · rename_i hw
      cases h1; subst hw
      by_cases hq : q = w
      · rw [hq]
      · rw [upd_same, upd_ne _ _ hq]
    · rename_i hw
      rw [hvalue] at h1
      have h1 : s.value w = some (q', v) := by simpa [CopySt.defReg, hw] using h1
      have hv := hI.sle _ _ _ h1
      have : q' ≠ d ∧ s.version q' = some v := by
        by_cases hqq : q' = q
        · subst hqq
          unfold CopySt.getVersion at h2
          split at h2
          · exact (hold q' v h2).2 hv
          · simp only [if_true, Option.some.injEq] at h2
            have : (s.defReg d).id = s.id + 1 := rfl
            omega
        · rw [hother q' hqq] at h2
          exact (hold q' v h2).2 hv
      rw [upd_ne _ _ hw, upd_ne _ _ this.1]
      exact hI.val _ _ _ h1 this.2
  · intro r v hv
    simp only at hv ⊢
    by_cases hr : r = q
    · subst hr
      rw [hver] at hv; cases hv; exact hfst
    · rw [hother r hr] at hv
      exact Nat.le_trans (hold r v hv).1 hid
  · intro w q' v h1
    simp only at h1 ⊢
    split at h1
    · cases h1; exact hfst
    · rename_i hw
      rw [hvalue] at h1
      have h1 : s.value w = some (q', v) := by simpa [CopySt.defReg, hw] using h1
      have := hI.sle _ _ _ h1
      omega
  · intro w h1
    simp only at h1 ⊢
    by_cases hwq : w = q
    · subst hwq; rw [hver]; rfl
    · rw [hother w hwq]
      unfold CopySt.defReg
      simp only
      split
      · rfl
      · rename_i hw
        rw [if_neg hw, hvalue] at h1
        apply hI.seen
        simpa [CopySt.defReg, hw] using h1

theorem indirect_ok (hF : F.Ok I) {C : CopyCtx} (hC : C.Ok F) {s : CopySt} {σ : Reg → Val} (hI : s.Inv σ)
    {x : Inst} (ht : x.Typed F) (rest : List Inst) :
    ScanOk T I F.vis (fun _ s σ => s.Inv σ) x rest σ (indirectStep F C s x) := by
  have tw := replaceUses_twin (T := T) hF hC hI (List.range x.ops.length) ht
  unfold indirectStep
  set y := (List.range x.ops.length).foldl (replaceUse C s) x with hy
  dsimp only
  cases hm : matchCopy F y with
  | some dq =>
    obtain ⟨d, q⟩ := dq
    have hE : ∀ m ρ m' k, Eff T I x σ m ρ m' k ↔ ρ = upd σ d (σ q) ∧ m' = m := fun m ρ m' k => by
      rw [tw.eff]; exact matchCopy_eff hF tw.typed hm
    have hnew : ScanOk T I F.vis (fun _ s σ => s.Inv σ) x rest σ
        (some y, { ((s.defReg d).getVersion q).2 with
          value := fun w => if w = d then some (q, ((s.defReg d).getVersion q).1)
            else ((s.defReg d).getVersion q).2.value w }) := by
      refine scanOk_some tw fun m ρ m' k he => ?_
      obtain ⟨rfl, -⟩ := (hE m ρ m' k).1 he
      exact CopySt.inv_copy hI d q
    dsimp only
    split
    · rename_i q' v hv
      split
      · rename_i hc
        obtain ⟨rfl, hver⟩ := hc
        refine ⟨by rw [← tw.vis]; exact matchCopy_vis hF hm, fun m ρ m' k => ?_, hI⟩
        rw [hE]
        have e := hI.val d q' v hv hver
        have : upd σ d (σ q') = σ := by
          funext w
          unfold upd
          split
          · rename_i hw; rw [hw, e]
          · rfl
        rw [this]
      · exact hnew
    · exact hnew
  | none =>
    dsimp only
    refine scanOk_some tw fun m ρ m' k he => ?_
    have he := (tw.eff m ρ m' k).1 he
    obtain ⟨f1, f2, f3⟩ := CopySt.fold_spec y.defs s
    have base : ∀ d q v, (y.defs.foldl CopySt.defReg s).value d = some (q, v) →
        (y.defs.foldl CopySt.defReg s).version q = some v →
        d ∉ y.defs ∧ q ∉ y.defs ∧ s.value d = some (q, v) ∧ σ d = σ q := by
      intro d q v h1 h2
      have hd : d ∉ y.defs := fun hd => by rw [(f3 d hd).1] at h1; cases h1
      rw [(f2 d hd).2] at h1
      have hq : q ∉ y.defs := fun hq => by
        obtain ⟨-, v', a, b, -⟩ := f3 q hq
        rw [a] at h2; cases h2
        have := hI.sle _ _ _ h1
        omega
      rw [(f2 q hq).1] at h2
      exact ⟨hd, hq, h1, hI.val _ _ _ h1 h2⟩
    have bvle : ∀ r v, (y.defs.foldl CopySt.defReg s).version r = some v → v ≤ (y.defs.foldl CopySt.defReg s).id := by
      intro r v hv
      by_cases hr : r ∈ y.defs
      · obtain ⟨-, v', a, -, c⟩ := f3 r hr
        rw [a] at hv; cases hv; exact c
      · rw [(f2 r hr).1] at hv
        exact Nat.le_trans (hI.vle _ _ hv) f1
    have bsle : ∀ d q v, (y.defs.foldl CopySt.defReg s).value d = some (q, v) → d ∉ y.defs ∧ v ≤ s.id ∧ (s.version d).isSome = true := by
      intro d q v h1
      have hd : d ∉ y.defs := fun hd => by rw [(f3 d hd).1] at h1; cases h1
      rw [(f2 d hd).2] at h1
      exact ⟨hd, hI.sle _ _ _ h1, hI.seen d (by rw [h1]; rfl)⟩
    by_cases hcall : y.call.isSome = true
    · rw [if_pos hcall]
      have hfr : ∀ r : Reg, r.isVirt = true → r ∉ y.defs → ρ r = σ r := by
        intro r hv hr
        apply eff_frame he
        unfold Inst.dsts
        rw [List.mem_append, List.mem_map]
        rintro (⟨p, -, hp⟩ | h)
        · subst hp; cases hv
        · exact hr h
      constructor
      · intro d q v h1 h2
        simp only at h1 h2
        split at h1
        · cases h1
        · rename_i hd0
          obtain ⟨hd, hle, hs⟩ := bsle d q v h1
          have hdv : d.isVirt = true := by
            by_contra hc
            exact hd0 ⟨by simpa using hc, by rw [(f2 d hd).1]; exact hs⟩
          split at h2
          · simp only [Option.some.injEq] at h2
            omega
          · rename_i hq0
            have hqv : q.isVirt = true := by
              by_contra hc
              exact hq0 ⟨by simpa using hc, by rw [h2]; rfl⟩
            obtain ⟨b1, b2, -, b4⟩ := base d q v h1 h2
            rw [hfr d hdv b1, hfr q hqv b2, b4]
      · intro r v hv
        simp only at hv ⊢
        split at hv
        · cases hv; exact Nat.le_refl _
        · have := bvle r v hv; omega
      · intro d q v h1
        simp only at h1 ⊢
        split at h1
        · cases h1
        · have := (bsle d q v h1).2.1; omega
      · intro d h1
        simp only at h1 ⊢
        split at h1
        · cases h1
        · rename_i hd0
          rw [if_neg hd0]
          obtain ⟨⟨q, v⟩, hqv⟩ := Option.isSome_iff_exists.1 h1
          obtain ⟨hd, -, hs⟩ := bsle d q v hqv
          rw [(f2 d hd).1]; exact hs
    · rw [if_neg hcall]
      have hcn : y.call = none := by simpa using hcall
      have hfr : ∀ r : Reg, r ∉ y.defs → ρ r = σ r := by
        intro r hr
        apply eff_frame he
        rw [dsts_of_bare hcn]; exact hr
      refine ⟨fun d q v h1 h2 => ?_, bvle, fun d q v h1 => ?_, fun d h1 => ?_⟩
      · obtain ⟨b1, b2, -, b4⟩ := base d q v h1 h2
        rw [hfr d b1, hfr q b2, b4]
      · have := (bsle d q v h1).2.1; omega
      · obtain ⟨⟨q, v⟩, hqv⟩ := Option.isSome_iff_exists.1 h1
        obtain ⟨hd, -, hs⟩ := bsle d q v hqv
        rw [(f2 d hd).1]; exact hs

/-- Peephole.cpp:523-626: propagating copies within a block and removing copies that have become useless cannot
    be seen. -/
theorem removeIndirectCopy_same (hF : F.Ok I) {C : CopyCtx} (hC : C.Ok F) (ht : f.Typed F) :
    Same T I F.vis f (removeIndirectCopy F C f) := by
  unfold removeIndirectCopy
  refine scan_same _ _ (fun _ _ _ => True) (fun _ _ s σ => s.Inv σ) ht.last ?_ (fun _ => trivial)
    (fun b B i x σ m ρ m' k _ _ _ _ => fun B _ => ⟨fun _ => trivial, fun _ _ _ => trivial⟩) ?_ ?_
  · intro b B i x s _ _ hv
    have hx : F.copy x.op = false := by
      by_contra hc
      rw [(hF.copy x.op (by simpa using hc)).1] at hv; cases hv
    unfold indirectStep
    have ho := replaceUses_op hC (s := s) (List.range x.ops.length) hx
    have : matchCopy F ((List.range x.ops.length).foldl (replaceUse C s) x) = none := by
      unfold matchCopy; rw [ho, hx]; rfl
    dsimp only
    rw [this]; rfl
  · intro b B σ _ _
    exact ⟨by simp [CopySt.init], by simp [CopySt.init], by simp [CopySt.init], by simp [CopySt.init]⟩
  · intro b B i x s σ hB hx _ hI
    exact indirect_ok hF hC hI (ht.inst B (List.mem_of_getElem? hB) x (List.mem_of_getElem? hx)) _

/-! ## `createIndirectCopy` -/

/-- Registers with the same number have the same value. -/
structure NumSt.Inv (s : NumSt) (σ : Reg → Val) : Prop where
  val : ∀ r q n, s.num r = some n → s.num q = some n → σ r = σ q
  le : ∀ r n, s.num r = some n → n ≤ s.id
  virt : ∀ r n, s.num r = some n → r.isVirt = true

theorem latestUse_spec {s : NumSt} {σ : Reg → Val} (hI : s.Inv σ) {x : Inst} (ht : x.Typed F) (i : Nat) :
    Twin T I F σ x (latestUse (x, s) i).1 ∧ (latestUse (x, s) i).2.num = s.num ∧
      (latestUse (x, s) i).2.id = s.id ∧ (latestUse (x, s) i).1.op = x.op := by
  unfold latestUse
  dsimp only
  split
  · rename_i r hi
    split
    · split
      · rename_i n hn
        split
        · rename_i q hq
          have hqn : s.num q = some n := by
            have := List.head?_dropWhile_not (fun q => decide (s.num q ≠ some n)) (s.latest n)
            rw [hq] at this
            simpa using this
          exact ⟨twin_set ht hi (hI.val _ _ _ hqn hn), rfl, rfl, rfl⟩
        · exact ⟨Twin.refl ht, rfl, rfl, rfl⟩
      · exact ⟨Twin.refl ht, rfl, rfl, rfl⟩
    · exact ⟨Twin.refl ht, rfl, rfl, rfl⟩
  · exact ⟨Twin.refl ht, rfl, rfl, rfl⟩

theorem NumSt.Inv.congr {s s' : NumSt} {σ : Reg → Val} (hI : s.Inv σ) (h1 : s'.num = s.num) (h2 : s'.id = s.id) :
    s'.Inv σ := ⟨by rw [h1]; exact hI.val, by rw [h1, h2]; exact hI.le, by rw [h1]; exact hI.virt⟩

theorem latestUses_spec {σ : Reg → Val} (l : List Nat) : ∀ {s : NumSt} {x : Inst}, s.Inv σ → x.Typed F →
    Twin T I F σ x (l.foldl latestUse (x, s)).1 ∧ (l.foldl latestUse (x, s)).2.num = s.num ∧
      (l.foldl latestUse (x, s)).2.id = s.id ∧ (l.foldl latestUse (x, s)).1.op = x.op := by
  induction l with
  | nil => intro s x hI ht; exact ⟨Twin.refl ht, rfl, rfl, rfl⟩
  | cons i l ih =>
    intro s x hI ht
    obtain ⟨h1, h2, h3, h4⟩ := latestUse_spec (T := T) (I := I) hI ht i
    obtain ⟨g1, g2, g3, g4⟩ := ih (hI.congr h2 h3) h1.typed
    rw [List.foldl_cons]
    exact ⟨h1.trans g1, g2.trans h2, g3.trans h3, g4.trans h4⟩

theorem NumSt.fold_spec : ∀ (ds : List Reg) (s : NumSt),
    s.id ≤ (ds.foldl NumSt.defReg s).id ∧
    (∀ r, r ∉ ds ∨ r.isVirt = false → (ds.foldl NumSt.defReg s).num r = s.num r) ∧
    (∀ r, r ∈ ds → r.isVirt = true → ∃ v, (ds.foldl NumSt.defReg s).num r = some v ∧ s.id < v ∧
      v ≤ (ds.foldl NumSt.defReg s).id) ∧
    (∀ r q n, (ds.foldl NumSt.defReg s).num r = some n → (ds.foldl NumSt.defReg s).num q = some n →
      s.id < n → (∀ r n, s.num r = some n → n ≤ s.id) → r = q) := by
  intro ds
  induction ds with
  | nil =>
    intro s
    refine ⟨Nat.le_refl _, fun _ _ => rfl, fun _ h => by simp at h, ?_⟩
    intro r q n h1 _ h3 h4
    have := h4 r n h1; omega
  | cons d ds ih =>
    intro s
    obtain ⟨h1, h2, h3, h4⟩ := ih (s.defReg d)
    rw [List.foldl_cons]
    by_cases hd : d.isVirt = true
    · have e : s.defReg d = ⟨s.id + 1, fun q => if q = d then some (s.id + 1) else s.num q,
          fun n => if n = s.id + 1 then d :: s.latest n else s.latest n⟩ := by
        unfold NumSt.defReg; rw [if_pos hd]
      have hid : (s.defReg d).id = s.id + 1 := by rw [e]
      refine ⟨by omega, ?_, ?_, ?_⟩
      · intro r hr
        have hrd : r ≠ d := by
          rcases hr with hr | hr
          · exact fun h => hr (by rw [h]; exact List.mem_cons_self ..)
          · exact fun h => by rw [h, hd] at hr; cases hr
        rw [h2 r (by rcases hr with hr | hr; exacts [.inl fun h => hr (List.mem_cons_of_mem _ h), .inr hr]), e]
        simp [hrd]
      · intro r hr hv
        by_cases hrd : r ∈ ds
        · obtain ⟨v, b, c, d'⟩ := h3 r hrd hv
          exact ⟨v, b, by omega, d'⟩
        · have : r = d := by rcases List.mem_cons.1 hr with h | h; exacts [h, absurd h hrd]
          subst this
          refine ⟨s.id + 1, ?_, by omega, by omega⟩
          rw [h2 r (.inl hrd), e]; simp
      · intro r q n hr hq hn hle
        by_cases hn' : (s.defReg d).id < n
        · refine h4 r q n hr hq hn' ?_
          intro r n hrn
          rw [e] at hrn ⊢
          simp only at hrn ⊢
          split at hrn
          · cases hrn; exact Nat.le_refl _
          · have := hle r n hrn; omega
        · have key : ∀ r, (ds.foldl NumSt.defReg (s.defReg d)).num r = some n → r = d := by
            intro r hr
            have hnd : r ∉ ds ∨ r.isVirt = false := by
              by_contra hc
              have hc1 : r ∈ ds := by by_contra h; exact hc (.inl h)
              have hc2 : r.isVirt = true := by
                cases hv : r.isVirt with
                | true => rfl
                | false => exact absurd (.inr hv) hc
              obtain ⟨v, b, c, -⟩ := h3 r hc1 hc2
              rw [hr] at b; cases b; omega
            rw [h2 r hnd, e] at hr
            simp only at hr
            split at hr
            · assumption
            · have := hle r n hr; omega
          rw [key r hr, key q hq]
    · have e : s.defReg d = s := by unfold NumSt.defReg; rw [if_neg hd]
      rw [e] at h1 h2 h3 h4 ⊢
      have hd : d.isVirt = false := by simpa using hd
      refine ⟨h1, ?_, ?_, h4⟩
      · intro r hr
        apply h2
        rcases hr with hr | hr
        · exact .inl fun h => hr (List.mem_cons_of_mem _ h)
        · exact .inr hr
      · intro r hr hv
        apply h3 r _ hv
        rcases List.mem_cons.1 hr with h | h
        · rw [h, hd] at hv; cases hv
        · exact h

theorem NumSt.inv_defs {s : NumSt} {σ ρ : Reg → Val} (hI : s.Inv σ) (ds : List Reg)
    (h : ∀ r : Reg, r.isVirt = true → r ∉ ds → ρ r = σ r) : (ds.foldl NumSt.defReg s).Inv ρ := by
  obtain ⟨h1, h2, h3, h4⟩ := NumSt.fold_spec ds s
  have hvirt : ∀ r n, (ds.foldl NumSt.defReg s).num r = some n → r.isVirt = true := by
    intro r n hr
    by_contra hc
    have hc : r.isVirt = false := by simpa using hc
    rw [h2 r (.inr hc)] at hr
    rw [hI.virt r n hr] at hc; cases hc
  refine ⟨?_, ?_, hvirt⟩
  · intro r q n hr hq
    by_cases hn : s.id < n
    · rw [h4 r q n hr hq hn hI.le]
    · have key : ∀ r, (ds.foldl NumSt.defReg s).num r = some n → r ∉ ds ∧ s.num r = some n := by
        intro r hr
        have : r ∉ ds := by
          intro hm
          obtain ⟨v, b, c, -⟩ := h3 r hm (hvirt r n hr)
          rw [hr] at b; cases b; omega
        exact ⟨this, by rw [← h2 r (.inl this)]; exact hr⟩
      obtain ⟨a1, a2⟩ := key r hr
      obtain ⟨b1, b2⟩ := key q hq
      rw [h r (hvirt r n hr) a1, h q (hvirt q n hq) b1]
      exact hI.val r q n a2 b2
  · intro r n hr
    by_cases hm : r ∈ ds
    · obtain ⟨v, b, -, c⟩ := h3 r hm (hvirt r n hr)
      rw [hr] at b; cases b; exact c
    · rw [h2 r (.inl hm)] at hr
      exact Nat.le_trans (hI.le r n hr) h1

theorem create_ok (hF : F.Ok I) {s : NumSt} {σ : Reg → Val} (hI : s.Inv σ) {x : Inst} (ht : x.Typed F)
    (rest : List Inst) : ScanOk T I F.vis (fun _ s σ => s.Inv σ) x rest σ (createStep F s x) := by
  obtain ⟨tw, n1, n2, -⟩ := latestUses_spec (T := T) (I := I) (List.range x.ops.length) hI ht
  unfold createStep
  set a := (List.range x.ops.length).foldl latestUse (x, s) with ha
  obtain ⟨y, s1⟩ := a
  dsimp only at tw n1 n2 ⊢
  have hI1 := hI.congr n1 n2
  have hd : ∀ m ρ m' k, Eff T I x σ m ρ m' k →
      (if y.call.isSome then { y.defs.foldl NumSt.defReg s1 with latest := fun _ => [] }
        else y.defs.foldl NumSt.defReg s1 : NumSt).Inv ρ := by
    intro m ρ m' k he
    have he := (tw.eff m ρ m' k).1 he
    have hfr : ∀ r : Reg, r.isVirt = true → r ∉ y.defs → ρ r = σ r := by
      intro r hv hr
      apply eff_frame he
      unfold Inst.dsts
      rw [List.mem_append, List.mem_map]
      rintro (⟨p, -, hp⟩ | h)
      · subst hp; cases hv
      · exact hr h
    have := NumSt.inv_defs hI1 y.defs hfr
    split
    · exact this.congr rfl rfl
    · exact this
  cases hm : matchCopy F y with
  | none => exact scanOk_some tw hd
  | some dq =>
    obtain ⟨d, q⟩ := dq
    dsimp only
    split
    · rename_i hv
      rw [Bool.and_eq_true] at hv
      split
      · rename_i n hn
        refine scanOk_some tw fun m ρ m' k he => ?_
        obtain ⟨rfl, -⟩ := (matchCopy_eff hF tw.typed hm).1 ((tw.eff m ρ m' k).1 he)
        have key : ∀ r k, (if r = d then some n else s1.num r) = some k →
            ∃ r', s1.num r' = some k ∧ upd σ d (σ q) r = σ r' := by
          intro r k h
          split at h
          · rename_i hr
            cases h; subst hr
            exact ⟨q, hn, upd_same _ _ _⟩
          · rename_i hr
            exact ⟨r, h, upd_ne _ _ hr⟩
        constructor
        · intro r w k h1 h2
          obtain ⟨r', a1, a2⟩ := key r k h1
          obtain ⟨w', b1, b2⟩ := key w k h2
          rw [a2, b2]; exact hI1.val _ _ _ a1 b1
        · intro r k h1
          obtain ⟨r', a1, -⟩ := key r k h1
          exact hI1.le _ _ a1
        · intro r k h1
          simp only at h1
          split at h1
          · rename_i hr; rw [hr]; exact hv.1
          · exact hI1.virt _ _ h1
      · exact scanOk_some tw hd
    · exact scanOk_some tw hd

/-- Peephole.cpp:628-695: reading the latest copy of a value instead of the value itself cannot be seen. -/
theorem createIndirectCopy_same (hF : F.Ok I) (ht : f.Typed F) : Same T I F.vis f (createIndirectCopy F f) := by
  unfold createIndirectCopy
  refine scan_same _ _ (fun _ _ _ => True) (fun _ _ s σ => s.Inv σ) ht.last ?_ (fun _ => trivial)
    (fun b B i x σ m ρ m' k _ _ _ _ => fun B _ => ⟨fun _ => trivial, fun _ _ _ => trivial⟩) ?_ ?_
  · intro b B i x s _ _ hv
    unfold createStep
    dsimp only
    repeat' split
    all_goals rfl
  · intro b B σ _ _
    exact ⟨by simp [NumSt.init], by simp [NumSt.init], by simp [NumSt.init]⟩
  · intro b B i x s σ hB hx _ hI
    exact create_ok hF hI (ht.inst B (List.mem_of_getElem? hB) x (List.mem_of_getElem? hx)) _

/-! ## `eliminateStackLoads` -/

/-- What the passes know about stack accesses is true of the function: stores and loads of spilled registers copy
    between a register and a slot, and nothing else touches a slot. -/
structure SlotCtx.Ok (C : SlotCtx) (F : Flags) (I : Interp Val Mem) (T : Target) (f : Func) : Prop where
  copy : F.copy C.copyOp = true
  store : ∀ op, C.store op = true → IsCopy F I op
  load : ∀ op, C.load op = true → IsCopy F I op
  sops : ∀ B ∈ f, ∀ x ∈ B.insts, C.store x.op = true → ∃ obj r, x.ops = [(.dfn, obj), (.use, r)] ∧
    C.slot obj = true ∧ C.slot r = false
  lops : ∀ B ∈ f, ∀ x ∈ B.insts, C.load x.op = true → ∃ d obj, x.ops = [(.dfn, d), (.use, obj)] ∧
    C.slot obj = true ∧ C.slot d = false
  rest : ∀ B ∈ f, ∀ x ∈ B.insts, C.store x.op = false → ∀ r ∈ x.dsts T, C.slot r = false

/-- What the state of the scan says about the registers. -/
structure SlotSt.Inv (C : SlotCtx) (s : SlotSt) (σ : Reg → Val) : Prop where
  val : ∀ obj r v, s.held obj = some (r, v) → s.version r = some v → σ obj = σ r
  vle : ∀ r v, s.version r = some v → v ≤ s.id
  hle : ∀ obj r v, s.held obj = some (r, v) → v ≤ s.id ∧ C.slot obj = true ∧ C.slot r = false

theorem SlotSt.fold_spec : ∀ (ds : List Reg) (s : SlotSt),
    s.id ≤ (ds.foldl SlotSt.defReg s).id ∧ (ds.foldl SlotSt.defReg s).held = s.held ∧
    (∀ r, r ∉ ds → (ds.foldl SlotSt.defReg s).version r = s.version r) ∧
    (∀ r, r ∈ ds → ∃ v, (ds.foldl SlotSt.defReg s).version r = some v ∧ s.id < v ∧
      v ≤ (ds.foldl SlotSt.defReg s).id) := by
  intro ds
  induction ds with
  | nil => intro s; simp
  | cons d ds ih =>
    intro s
    obtain ⟨h1, h0, h2, h3⟩ := ih (s.defReg d)
    have hid : (s.defReg d).id = s.id + 1 := rfl
    rw [List.foldl_cons]
    refine ⟨by omega, h0, ?_, ?_⟩
    · intro r hr
      simp only [List.mem_cons, not_or] at hr
      rw [h2 r hr.2]
      simp [SlotSt.defReg, hr.1]
    · intro r hr
      by_cases hrd : r ∈ ds
      · obtain ⟨v, b, c, d'⟩ := h3 r hrd
        exact ⟨v, b, by omega, d'⟩
      · have : r = d := by rcases List.mem_cons.1 hr with h | h; exacts [h, absurd h hrd]
        subst this
        exact ⟨s.id + 1, by rw [h2 r hrd]; simp [SlotSt.defReg], by omega, by omega⟩

theorem SlotSt.after_inv {C : SlotCtx} {s : SlotSt} {σ ρ : Reg → Val} {x : Inst} (hI : s.Inv C σ)
    (hns : ∀ r ∈ x.dsts T, C.slot r = false) (hfr : ∀ r, r ∉ x.dsts T → ρ r = σ r) :
    (s.after C x).Inv C ρ ∧ (s.after C x).held = s.held ∧ s.id ≤ (s.after C x).id ∧
      (∀ r ∈ x.defs, C.slot r = false → ((s.after C x).version r).isSome = true) := by
  have hfil : (x.defs.filter fun r => !C.slot r) = x.defs := by
    rw [List.filter_eq_self]
    intro r hr
    rw [hns r (by unfold Inst.dsts; exact List.mem_append_right _ hr)]; rfl
  obtain ⟨f1, f0, f2, f3⟩ := SlotSt.fold_spec x.defs s
  have bvle : ∀ r v, (x.defs.foldl SlotSt.defReg s).version r = some v → v ≤ (x.defs.foldl SlotSt.defReg s).id := by
    intro r v hv
    by_cases hr : r ∈ x.defs
    · obtain ⟨v', a, -, c⟩ := f3 r hr
      rw [a] at hv; cases hv; exact c
    · rw [f2 r hr] at hv
      exact Nat.le_trans (hI.vle _ _ hv) f1
  have hobj : ∀ obj r v, s.held obj = some (r, v) → ρ obj = σ obj := by
    intro obj r v h
    apply hfr
    intro hm
    have := hns obj hm
    rw [(hI.hle _ _ _ h).2.1] at this; cases this
  unfold SlotSt.after
  rw [hfil]
  dsimp only
  by_cases hcall : x.call.isSome = true
  · rw [if_pos hcall]
    refine ⟨⟨?_, ?_, ?_⟩, f0, by simp only; omega, ?_⟩
    · intro obj r v h1 h2
      simp only at h1 h2
      rw [f0] at h1
      have hv := (hI.hle _ _ _ h1).1
      split at h2
      · simp only [Option.some.injEq] at h2; omega
      · rename_i hr0
        have hrv : r.isVirt = true := by
          by_contra hc
          exact hr0 ⟨by simpa using hc, by rw [h2]; rfl⟩
        have hrd : r ∉ x.defs := fun hm => by
          obtain ⟨v', a, b, -⟩ := f3 r hm
          rw [h2] at a; cases a; omega
        rw [f2 r hrd] at h2
        rw [hobj _ _ _ h1, hfr r ?_]
        · exact hI.val _ _ _ h1 h2
        · unfold Inst.dsts
          rw [List.mem_append, List.mem_map]
          rintro (⟨p, -, hp⟩ | h)
          · subst hp; cases hrv
          · exact hrd h
    · intro r v hv
      simp only at hv ⊢
      split at hv
      · cases hv; exact Nat.le_refl _
      · have := bvle r v hv; omega
    · intro obj r v h
      simp only at h ⊢
      rw [f0] at h
      obtain ⟨a, b⟩ := hI.hle _ _ _ h
      exact ⟨by omega, b⟩
    · intro r hr _
      simp only
      obtain ⟨v', a, -⟩ := f3 r hr
      split
      · rfl
      · rw [a]; rfl
  · rw [if_neg hcall]
    have hcn : x.call = none := by simpa using hcall
    refine ⟨⟨?_, bvle, ?_⟩, f0, f1, ?_⟩
    · intro obj r v h1 h2
      rw [f0] at h1
      have hv := (hI.hle _ _ _ h1).1
      have hrd : r ∉ x.defs := fun hm => by
        obtain ⟨v', a, b, -⟩ := f3 r hm
        rw [h2] at a; cases a; omega
      rw [f2 r hrd] at h2
      rw [hobj _ _ _ h1, hfr r (by rw [dsts_of_bare hcn]; exact hrd)]
      exact hI.val _ _ _ h1 h2
    · intro obj r v h
      rw [f0] at h
      obtain ⟨a, b⟩ := hI.hle _ _ _ h
      exact ⟨by omega, b⟩
    · intro r hr _
      obtain ⟨v', a, -⟩ := f3 r hr
      rw [a]; rfl

theorem slot_ok (hF : F.Ok I) {C : SlotCtx} (hC : C.Ok F I T f) (htf : f.Typed F) {B : Block} (hB : B ∈ f) {x : Inst}
    (hx : x ∈ B.insts) {s : SlotSt} {σ : Reg → Val} (hI : s.Inv C σ) (rest : List Inst) :
    ScanOk T I F.vis (fun _ s σ => s.Inv C σ) x rest σ (slotStep C s x) := by
  have ht := htf.inst B hB x hx
  unfold slotStep
  by_cases hst : C.store x.op = true
  · rw [if_pos hst]
    obtain ⟨obj, r, ho, s1, s2⟩ := hC.sops B hB x hx hst
    have hc := hC.store _ hst
    obtain ⟨b1, b2, -, -⟩ := ht.bare hc.1
    have hu : x.uses = [r] := by simp [Inst.uses, ho]
    have hd : x.defs = [obj] := by simp [Inst.defs, ho]
    rw [ho]
    dsimp only
    refine scanOk_some (Twin.refl ht) fun m ρ m' k he => ?_
    obtain ⟨rfl, -⟩ := (isCopy_eff hF hc hu hd b1 b2).1 he
    have haft : ∀ s : SlotSt, s.after C x = s := by
      intro s
      unfold SlotSt.after
      rw [hd, b2]
      simp [s1]
    rw [haft]
    have hne : r ≠ obj := fun h => by rw [h, s1] at s2; cases s2
    have hold : ∀ q w v, q ≠ obj → s.held q = some (w, v) → s.version w = some v →
        upd σ obj (σ r) q = upd σ obj (σ r) w := by
      intro q w v hq h1 h2
      have hw : w ≠ obj := fun h => by rw [h] at h1; rw [(hI.hle _ _ _ h1).2.2] at s1; cases s1
      rw [upd_ne _ _ hq, upd_ne _ _ hw]
      exact hI.val _ _ _ h1 h2
    split
    · rename_i v hv
      refine ⟨?_, hI.vle, ?_⟩
      · intro q w v' h1 h2
        simp only at h1 h2
        split at h1
        · rename_i hq
          cases h1; subst hq
          rw [upd_same, upd_ne _ _ hne]
        · rename_i hq; exact hold q w v' hq h1 h2
      · intro q w v' h1
        simp only at h1
        split at h1
        · rename_i hq
          cases h1; subst hq
          exact ⟨hI.vle _ _ hv, s1, s2⟩
        · exact hI.hle _ _ _ h1
    · rename_i hv
      refine ⟨?_, ?_, ?_⟩
      · intro q w v' h1 h2
        simp only at h1 h2
        split at h1
        · rename_i hq
          cases h1; subst hq
          rw [upd_same, upd_ne _ _ hne]
        · rename_i hq
          split at h2
          · simp only [Option.some.injEq] at h2
            have := (hI.hle _ _ _ h1).1; omega
          · exact hold q w v' hq h1 h2
      · intro q v' h2
        simp only at h2 ⊢
        split at h2
        · cases h2; exact Nat.le_refl _
        · have := hI.vle _ _ h2; omega
      · intro q w v' h1
        simp only at h1 ⊢
        split at h1
        · rename_i hq
          cases h1; subst hq
          exact ⟨Nat.le_refl _, s1, s2⟩
        · obtain ⟨a, b⟩ := hI.hle _ _ _ h1
          exact ⟨by omega, b⟩
  · rw [if_neg hst]
    have hst : C.store x.op = false := by simpa using hst
    have hns := hC.rest B hB x hx hst
    by_cases hld : C.load x.op = true
    · rw [if_pos hld]
      obtain ⟨d, obj, ho, s1, s2⟩ := hC.lops B hB x hx hld
      have hc := hC.load _ hld
      obtain ⟨b1, b2, -, -⟩ := ht.bare hc.1
      have hu : x.uses = [obj] := by simp [Inst.uses, ho]
      have hd : x.defs = [d] := by simp [Inst.defs, ho]
      have hne : obj ≠ d := fun h => by rw [h, s2] at s1; cases s1
      have hE : ∀ m ρ m' k, Eff T I x σ m ρ m' k ↔ ρ = upd σ d (σ obj) ∧ m' = m := fun m ρ m' k =>
        isCopy_eff hF hc hu hd b1 b2
      rw [ho]
      dsimp only
      have plain : ScanOk T I F.vis (fun _ s σ => s.Inv C σ) x rest σ
          (some x, { s.after C x with held := fun q =>
            if q = obj then ((s.after C x).version d).map fun v => (d, v) else (s.after C x).held q }) := by
        refine scanOk_some (Twin.refl ht) fun m ρ m' k he => ?_
        obtain ⟨i1, i2, i3, i4⟩ := SlotSt.after_inv (T := T) (ρ := ρ) hI hns (fun r hr => eff_frame he hr)
        obtain ⟨rfl, -⟩ := (hE _ _ _ _).1 he
        refine ⟨?_, i1.vle, ?_⟩
        · intro q w v h1 h2
          simp only at h1 h2
          split at h1
          · rename_i hq
            subst hq
            rw [Option.map_eq_some_iff] at h1
            obtain ⟨v', -, h⟩ := h1
            cases h
            rw [upd_same, upd_ne _ _ hne]
          · exact i1.val _ _ _ h1 h2
        · intro q w v h1
          simp only at h1 ⊢
          split at h1
          · rename_i hq
            subst hq
            rw [Option.map_eq_some_iff] at h1
            obtain ⟨v', hv', h⟩ := h1
            cases h
            exact ⟨i1.vle _ _ hv', s1, s2⟩
          · exact i1.hle _ _ _ h1
      split
      · rename_i r v hr
        split
        · rename_i hv
          have e := hI.val _ _ _ hr hv
          have hcc := hF.copy _ hC.copy
          have hyE : ∀ m ρ m' k, Eff T I { op := C.copyOp, ops := [(.dfn, d), (.use, r)] } σ m ρ m' k ↔
              ρ = upd σ d (σ r) ∧ m' = m := fun m ρ m' k => copy_eff hF hC.copy rfl rfl rfl
          refine ⟨by rw [hc.1]; exact hcc.1, fun h => absurd h (by simp [hc.1]), fun m ρ m' k => ?_, ?_⟩
          · rw [hE, hyE, e]
          · intro m ρ m' k he
            have hyd : (({ op := C.copyOp, ops := [(.dfn, d), (.use, r)] } : Inst)).dsts T = [d] := by
              simp [Inst.dsts, Inst.clob, Inst.defs]
            refine (SlotSt.after_inv (T := T) (ρ := ρ) hI ?_ ?_).1
            · intro w hw; rw [hyd] at hw; simp at hw; rw [hw]; exact s2
            · intro w hw
              rw [hyd] at hw
              obtain ⟨rfl, -⟩ := (hE _ _ _ _).1 he
              exact upd_ne _ _ (by simpa using hw)
        · exact plain
      · exact plain
    · rw [if_neg hld]
      refine scanOk_some (Twin.refl ht) fun m ρ m' k he => ?_
      exact (SlotSt.after_inv (T := T) (ρ := ρ) hI hns (fun r hr => eff_frame he hr)).1

/-- Peephole.cpp:113-176: reading a register that still holds the spilled value instead of its stack slot cannot
    be seen. -/
theorem eliminateStackLoads_same (hF : F.Ok I) {C : SlotCtx} (hC : C.Ok F I T f) (ht : f.Typed F) :
    Same T I F.vis f (eliminateStackLoads C f) := by
  unfold eliminateStackLoads
  refine scan_same _ _ (fun _ _ _ => True) (fun _ _ s σ => s.Inv C σ) ht.last ?_ (fun _ => trivial)
    (fun b B i x σ m ρ m' k _ _ _ _ => fun B _ => ⟨fun _ => trivial, fun _ _ _ => trivial⟩) ?_ ?_
  · intro b B i x s _ _ hv
    unfold slotStep
    dsimp only
    repeat' split
    all_goals rfl
  · intro b B σ _ _
    exact ⟨by simp [SlotSt.init], by simp [SlotSt.init], by simp [SlotSt.init]⟩
  · intro b B i x s σ hB hx _ hI
    exact slot_ok hF hC ht (List.mem_of_getElem? hB) (List.mem_of_getElem? hx) hI _

end

end Cmmc.Mir
