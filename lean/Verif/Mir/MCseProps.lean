import Verif.Mir.MCse
import Verif.Mir.CopyProps

/-!
# Removing common subexpressions from machine code cannot be seen
-/

namespace Cmmc.Mir

section
variable {Val Mem : Type} {T : Target} {I : Interp Val Mem} {F : Flags} {f : Func}

/-- The opcode computes the function `g` of the values read. -/
def Computes (F : Flags) (I : Interp Val Mem) (op : Nat) (g : List Val → List Val) : Prop :=
  ∀ rs, rs.length = F.nu op →
    (g rs).length = F.nd op ∧ ∀ m vs m' k, vs.length = F.nd op → (I op rs m vs m' k ↔ vs = g rs ∧ m' = m)

/-! ## Versions stand for values -/

/-- Version `v` of a register has the value `val v`. -/
structure VerSt.Inv (s : VerSt) (σ : Reg → Val) (val : Nat → Val) : Prop where
  val : ∀ r v, s.version r = some v → σ r = val v
  le : ∀ r v, s.version r = some v → v ≤ s.id
  inj : ∀ r q v, s.version r = some v → s.version q = some v → r = q

/-- `val'` says the same as `val` about the versions given out so far. -/
def Agree (n : Nat) (val val' : Nat → Val) : Prop := ∀ v, v ≤ n → val' v = val v

theorem Agree.trans {n n' : Nat} {a b c : Nat → Val} (h : Agree n a b) (h' : Agree n' b c) (hn : n ≤ n') :
    Agree n a c := fun v hv => (h' v (Nat.le_trans hv hn)).trans (h v hv)

theorem Agree.map {n : Nat} {a b : Nat → Val} (h : Agree n a b) {vs : List Nat} (hv : ∀ v ∈ vs, v ≤ n) :
    vs.map b = vs.map a := List.map_congr_left fun v hm => h v (hv v hm)

theorem VerSt.inv_new {s : VerSt} {σ ρ : Reg → Val} {val : Nat → Val} (hI : s.Inv σ val) (r : Reg)
    (h : ∀ q, q ≠ r → ρ q = σ q) :
    VerSt.Inv { id := s.id + 1, version := fun q => if q = r then some (s.id + 1) else s.version q } ρ
      (fun v => if v = s.id + 1 then ρ r else val v) ∧ Agree s.id val (fun v => if v = s.id + 1 then ρ r else val v) := by
  refine ⟨⟨?_, ?_, ?_⟩, ?_⟩
  · intro q v hq
    simp only at hq
    split at hq
    · rename_i hqr; cases hq; subst hqr; simp
    · rename_i hqr
      have := hI.le q v hq
      rw [if_neg (by omega), h q hqr, hI.val q v hq]
  · intro q v hq
    simp only at hq ⊢
    split at hq
    · cases hq; exact Nat.le_refl _
    · have := hI.le q v hq; omega
  · intro q w v hq hw
    simp only at hq hw
    split at hq
    · cases hq
      split at hw
      · simp_all
      · have := hI.le w _ hw; omega
    · split at hw
      · cases hw; have := hI.le q _ hq; omega
      · exact hI.inj q w v hq hw
  · intro v hv
    simp only
    rw [if_neg (by omega)]

theorem VerSt.inv_get {s : VerSt} {σ : Reg → Val} {val : Nat → Val} (hI : s.Inv σ val) (r : Reg) :
    ∃ val', (s.get r).2.Inv σ val' ∧ Agree s.id val val' ∧ val' (s.get r).1 = σ r ∧ s.id ≤ (s.get r).2.id ∧
      (s.get r).1 ≤ (s.get r).2.id := by
  unfold VerSt.get
  split
  · rename_i v hv
    exact ⟨val, hI, fun _ _ => rfl, (hI.val r v hv).symm, Nat.le_refl _, hI.le r v hv⟩
  · obtain ⟨h1, h2⟩ := VerSt.inv_new hI r (ρ := σ) (fun _ _ => rfl)
    exact ⟨_, h1, h2, by simp, Nat.le_succ _, Nat.le_refl _⟩

theorem VerSt.inv_gets {σ : Reg → Val} : ∀ (rs : List Reg) {s : VerSt} {val : Nat → Val}, s.Inv σ val →
    ∃ val', (s.gets rs).2.Inv σ val' ∧ Agree s.id val val' ∧ (s.gets rs).1.map val' = rs.map σ ∧
      s.id ≤ (s.gets rs).2.id ∧ ∀ v ∈ (s.gets rs).1, v ≤ (s.gets rs).2.id := by
  intro rs
  induction rs with
  | nil => intro s val hI; exact ⟨val, hI, fun _ _ => rfl, rfl, Nat.le_refl _, by simp [VerSt.gets]⟩
  | cons r rs ih =>
    intro s val hI
    obtain ⟨v1, a1, a2, a3, a4, a5⟩ := VerSt.inv_get hI r
    obtain ⟨v2, b1, b2, b3, b4, b5⟩ := ih a1
    unfold VerSt.gets
    refine ⟨v2, b1, a2.trans b2 a4, ?_, Nat.le_trans a4 b4, ?_⟩
    · simp only [List.map_cons]
      rw [b3, b2 _ a5, a3]
    · intro v hv
      rcases List.mem_cons.1 hv with rfl | hv
      · exact Nat.le_trans a5 b4
      · exact b5 v hv

theorem VerSt.inv_bumps {ρ : Reg → Val} : ∀ (ds : List Reg) {s : VerSt} {σ : Reg → Val} {val : Nat → Val}, s.Inv σ val →
    (∀ r, r ∉ ds → ρ r = σ r) →
    ∃ val', (ds.foldl VerSt.bump s).Inv ρ val' ∧ Agree s.id val val' ∧ s.id ≤ (ds.foldl VerSt.bump s).id := by
  intro ds
  induction ds with
  | nil =>
    intro s σ val hI h
    have : ρ = σ := funext fun r => h r (by simp)
    subst this
    exact ⟨val, hI, fun _ _ => rfl, Nat.le_refl _⟩
  | cons d ds ih =>
    intro s σ val hI h
    obtain ⟨a1, a2⟩ := VerSt.inv_new hI d (ρ := upd σ d (ρ d)) (fun q hq => upd_ne _ _ hq)
    obtain ⟨v2, b1, b2, b3⟩ := ih (s := s.bump d) a1 (fun r hr => by
      by_cases hrd : r = d
      · subst hrd; rw [upd_same]
      · rw [upd_ne _ _ hrd]
        exact h r (by simp [hrd, hr]))
    refine ⟨v2, b1, a2.trans b2 (by simp [VerSt.bump]), ?_⟩
    have : (s.bump d).id = s.id + 1 := rfl
    rw [List.foldl_cons]; omega

/-- Whatever happened to the registers, versions can be given values again. -/
theorem VerSt.inv_any {s : VerSt} {σ : Reg → Val} {val : Nat → Val} (hI : s.Inv σ val) (ρ : Reg → Val) :
    ∃ val', s.Inv ρ val' := by
  classical
  refine ⟨fun v => if h : ∃ r, s.version r = some v then ρ (Classical.choose h) else val v, ?_, hI.le, hI.inj⟩
  intro r v hr
  have hex : ∃ r, s.version r = some v := ⟨r, hr⟩
  rw [dif_pos hex]
  rw [hI.inj r _ v hr (Classical.choose_spec hex)]

/-! ## Instructions with one result -/

theorem eff_one (hF : F.Ok I) {x : Inst} (ht : x.Typed F) (hv : F.vis x.op = false) {d : Reg} (hd : x.defs = [d])
    {g : List Val → List Val} (hg : Computes F I x.op g) {σ : Reg → Val} :
    ∃ w, g (x.uses.map σ) = [w] ∧ ∀ m ρ m' k, Eff T I x σ m ρ m' k ↔ ρ = upd σ d w ∧ m' = m := by
  have hb := ht.bare hv
  have hl := (hg (x.uses.map σ) (by simpa using hb.2.2.1)).1
  rw [← hb.2.2.2, hd] at hl
  obtain ⟨w, hw⟩ := List.length_eq_one_iff.1 hl
  refine ⟨w, hw, fun m ρ m' k => ?_⟩
  rw [quiet_eff hg rfl hb, hd, hw]
  rfl

/-! ## `deadInstElimination` -/

structure DeadSt.Inv (F : Flags) (I : Interp Val Mem) (s : DeadSt) (σ : Reg → Val) (val : Nat → Val) : Prop where
  ver : s.ver.Inv σ val
  last : ∀ d y vs, s.last d = some (y, vs) → (∀ v ∈ vs, v ≤ s.ver.id) ∧
    (F.vis y.op = false → ∀ g, Computes F I y.op g → g (vs.map val) = [σ d])

theorem dead_ok (hF : F.Ok I) {x : Inst} (ht : x.Typed F) (h1 : x.call = none → x.defs.length ≤ 1)
    {s : DeadSt} {σ : Reg → Val} (hI : ∃ val, s.Inv F I σ val) (rest : List Inst) :
    ScanOk T I F.vis (fun _ s σ => ∃ val, DeadSt.Inv F I s σ val) x rest σ (deadStep F s x) := by
  obtain ⟨val, hI⟩ := hI
  obtain ⟨val1, a1, a2, a3, a4, a5⟩ := VerSt.inv_gets x.uses hI.ver
  have hlast : ∀ d y vs, s.last d = some (y, vs) → (∀ v ∈ vs, v ≤ s.ver.id) ∧
      (F.vis y.op = false → ∀ g, Computes F I y.op g → g (vs.map val1) = [σ d]) := by
    intro d y vs h
    obtain ⟨b1, b2⟩ := hI.last d y vs h
    refine ⟨b1, fun hv g hg => ?_⟩
    rw [a2.map b1]; exact b2 hv g hg
  unfold deadStep
  set p := s.ver.gets x.uses with hp
  obtain ⟨vs, ver⟩ := p
  dsimp only at a1 a3 a4 a5 ⊢
  by_cases hcall : x.call.isSome = true
  · rw [if_pos hcall]
    refine scanOk_some (Twin.refl ht) fun m ρ m' k _ => ?_
    obtain ⟨val2, c1⟩ := VerSt.inv_any a1 ρ
    exact ⟨val2, c1, fun d y vs h => by cases h⟩
  · rw [if_neg hcall]
    have hcn : x.call = none := by simpa using hcall
    have hd1 := h1 hcn
    cases hd : x.defs with
    | nil =>
      dsimp only
      refine scanOk_some (Twin.refl ht) fun m ρ m' k he => ?_
      have : ρ = σ := funext fun r => eff_frame he (by rw [dsts_of_bare hcn, hd]; simp)
      subst this
      exact ⟨val1, a1, fun d y vs' h => ⟨fun v hv => Nat.le_trans ((hlast d y vs' h).1 v hv) a4, (hlast d y vs' h).2⟩⟩
    | cons d ds =>
      have hds : ds = [] := by
        rw [hd] at hd1
        simpa using hd1
      subst hds
      have keep : ScanOk T I F.vis (fun _ s σ => ∃ val, DeadSt.Inv F I s σ val) x rest σ
          (some x, { ver := ver.bump d, last := fun q => if q = d then some (x, vs) else s.last q }) := by
        refine scanOk_some (Twin.refl ht) fun m ρ m' k he => ?_
        have hfr : ∀ q, q ≠ d → ρ q = σ q := fun q hq => eff_frame he (by rw [dsts_of_bare hcn, hd]; simpa using hq)
        obtain ⟨c1, c2⟩ := VerSt.inv_new a1 d hfr
        refine ⟨_, c1, ?_⟩
        intro q y vs' h
        simp only at h
        split at h
        · rename_i hq
          cases h; subst hq
          refine ⟨fun v hv => Nat.le_trans (a5 v hv) (Nat.le_succ _), fun hv g hg => ?_⟩
          rw [c2.map a5, a3]
          obtain ⟨w, w1, w2⟩ := eff_one (T := T) (σ := σ) hF ht hv hd hg
          rw [w1, ((w2 _ _ _ _).1 he).1, upd_same]
        · rename_i hq
          obtain ⟨b1, b2⟩ := hlast q y vs' h
          have b1' : ∀ v ∈ vs', v ≤ ver.id := fun v hv => Nat.le_trans (b1 v hv) a4
          refine ⟨fun v hv => Nat.le_trans (b1' v hv) (Nat.le_succ _), fun hv g hg => ?_⟩
          rw [c2.map b1', b2 hv g hg, hfr q hq]
      dsimp only
      split
      · rename_i y vs' hy
        split
        · rename_i hc
          obtain ⟨hc1, rfl, rfl⟩ := hc
          have hside : F.side y.op = false := by simp at hc1; exact hc1.1.1
          have hv : F.vis y.op = false := by
            by_contra h
            rw [hF.sub y.op (by simpa using h)] at hside; cases hside
          obtain ⟨g, hg⟩ := hF.fn y.op hv
          obtain ⟨w, w1, w2⟩ := eff_one (T := T) (σ := σ) hF ht hv hd hg
          obtain ⟨b1, b2⟩ := hlast d y vs' hy
          have hw : σ d = w := by
            have := b2 hv g hg
            rw [a3, w1] at this
            simpa using this.symm
          refine ⟨hv, fun m ρ m' k => ?_, val1, a1, fun d y vs' h =>
            ⟨fun v hv => Nat.le_trans ((hlast d y vs' h).1 v hv) a4, (hlast d y vs' h).2⟩⟩
          rw [w2]
          have : upd σ d w = σ := by
            funext q
            unfold upd
            split
            · rename_i hq; rw [hq, hw]
            · rfl
          rw [this]
        · exact keep
      · exact keep

/-- Peephole.cpp:470-521: deleting an instruction that recomputes what its register already holds cannot be seen,
    if no instruction but calls writes more than one register. -/
theorem deadInstElimination_same (hF : F.Ok I) (ht : f.Typed F)
    (h1 : ∀ B ∈ f, ∀ x ∈ B.insts, x.call = none → x.defs.length ≤ 1) :
    Same T I F.vis f (deadInstElimination F f) := by
  unfold deadInstElimination
  refine scan_same _ _ (fun _ _ _ => True) (fun _ _ s σ => ∃ val, DeadSt.Inv F I s σ val) ht.last ?_ (fun _ => trivial)
    (fun b B i x σ m ρ m' k _ _ _ _ => fun B _ => ⟨fun _ => trivial, fun _ _ _ => trivial⟩) ?_ ?_
  · intro b B i x s _ _ hv
    have hs := hF.sub _ hv
    unfold deadStep
    dsimp only
    repeat' split
    all_goals first | rfl | (rename_i hc; simp [hs] at hc)
  · intro b B σ _ _
    exact ⟨fun _ => σ (.vr 0), ⟨by simp [DeadSt.init, VerSt.init], by simp [DeadSt.init, VerSt.init], by simp [DeadSt.init, VerSt.init]⟩,
      by simp [DeadSt.init]⟩
  · intro b B i x s σ hB hx _ hI
    exact dead_ok hF (ht.inst B (List.mem_of_getElem? hB) x (List.mem_of_getElem? hx))
      (h1 B (List.mem_of_getElem? hB) x (List.mem_of_getElem? hx)) hI _

/-! ## `machineInstCSE` -/

structure MCseSt.Inv (F : Flags) (I : Interp Val Mem) (s : MCseSt) (σ : Reg → Val) (val : Nat → Val) : Prop where
  ver : s.ver.Inv σ val
  cache : ∀ y vs dv, (y, vs, dv) ∈ s.cache → (∀ v ∈ vs, v ≤ s.ver.id) ∧ dv ≤ s.ver.id ∧
    (∀ g, Computes F I y.op g → g (vs.map val) = [val dv])

theorem mcse_ok (hF : F.Ok I) {copyOp : Nat} (hcp : F.copy copyOp = true) {sameTy : Reg → Reg → Bool}
    {x : Inst} (ht : x.Typed F)
    {s : MCseSt} {σ : Reg → Val} (hI : ∃ val, s.Inv F I σ val) (rest : List Inst) :
    ScanOk T I F.vis (fun _ s σ => ∃ val, MCseSt.Inv F I s σ val) x rest σ (cseStep F copyOp sameTy s x) := by
  obtain ⟨val, hI⟩ := hI
  unfold cseStep
  by_cases hcall : x.call.isSome = true
  · rw [if_pos hcall]
    refine scanOk_some (Twin.refl ht) fun m ρ m' k _ => ?_
    obtain ⟨val2, c1⟩ := VerSt.inv_any hI.ver ρ
    exact ⟨val2, c1, fun y vs dv h => by simp at h⟩
  · rw [if_neg hcall]
    have hcn : x.call = none := by simpa using hcall
    have mono : ∀ {n : Nat} {val' : Nat → Val}, Agree s.ver.id val val' → s.ver.id ≤ n →
        ∀ y vs dv, (y, vs, dv) ∈ s.cache → (∀ v ∈ vs, v ≤ n) ∧ dv ≤ n ∧
          (∀ g, Computes F I y.op g → g (vs.map val') = [val' dv]) := by
      intro n val' hA hn y vs dv h
      obtain ⟨b1, b2, b3⟩ := hI.cache y vs dv h
      refine ⟨fun v hv => Nat.le_trans (b1 v hv) hn, Nat.le_trans b2 hn, fun g hg => ?_⟩
      rw [hA.map b1, hA dv b2]; exact b3 g hg
    by_cases hfl : (F.side x.op || F.pcrel x.op || F.multi x.op || F.copy x.op || F.const x.op) = true
    · rw [if_pos hfl]
      refine scanOk_some (Twin.refl ht) fun m ρ m' k he => ?_
      obtain ⟨val2, c1, c2, c3⟩ := VerSt.inv_bumps (ρ := ρ) x.defs hI.ver
        (fun r hr => eff_frame he (by rw [dsts_of_bare hcn]; exact hr))
      exact ⟨val2, c1, mono c2 c3⟩
    · rw [if_neg hfl]
      have hfl : F.side x.op = false ∧ F.multi x.op = false := by
        simp only [Bool.or_eq_true, not_or, Bool.not_eq_true] at hfl
        exact ⟨hfl.1.1.1.1, hfl.1.1.2⟩
      have hv : F.vis x.op = false := by
        by_contra h
        rw [hF.sub x.op (by simpa using h)] at hfl; cases hfl.1
      have hb := ht.bare hv
      obtain ⟨val1, a1, a2, a3, a4, a5⟩ := VerSt.inv_gets x.uses hI.ver
      set p := s.ver.gets x.uses with hp
      obtain ⟨vs, ver⟩ := p
      dsimp only at a1 a3 a4 a5 ⊢
      cases hd : x.defs with
      | nil =>
        dsimp only
        refine scanOk_some (Twin.refl ht) fun m ρ m' k he => ?_
        have : ρ = σ := funext fun r => eff_frame he (by rw [dsts_of_bare hcn, hd]; simp)
        subst this
        exact ⟨val1, a1, mono a2 a4⟩
      | cons d ds =>
        have hds : ds = [] := by
          have := hF.multi x.op hfl.1 hfl.2
          rw [← hb.2.2.2, hd] at this
          simpa using this
        subst hds
        dsimp only
        have hfr : ∀ {m ρ m' k}, Eff T I x σ m ρ m' k → ∀ q, q ≠ d → ρ q = σ q :=
          fun he q hq => eff_frame he (by rw [dsts_of_bare hcn, hd]; simpa using hq)
        split
        · rename_i d' hhit
          obtain ⟨e, he1, he2⟩ := List.exists_of_findSome?_eq_some hhit
          obtain ⟨y, vs', dv⟩ := e
          unfold cseHit at he2
          dsimp only at he2
          split at he2
          · rename_i w hyd
            split at he2
            · rename_i hc
              obtain ⟨c1, c2, c3, c4, -⟩ := hc
              cases he2
              obtain ⟨g, hg⟩ := hF.fn x.op hv
              obtain ⟨w', w1, w2⟩ := eff_one (T := T) (σ := σ) hF ht hv hd hg
              have hval : σ d' = w' := by
                have := (hI.cache y vs' dv he1).2.2 g (by rw [c1]; exact hg)
                rw [← a2.map (hI.cache y vs' dv he1).1, ← a2 dv (hI.cache y vs' dv he1).2.1, c3, a3, w1,
                  ← a1.val d' dv c4] at this
                simpa using this.symm
              have hcE : ∀ m ρ m' k, Eff T I { op := copyOp, ops := [(.dfn, d), (.use, d')] } σ m ρ m' k ↔
                  ρ = upd σ d (σ d') ∧ m' = m := fun m ρ m' k => copy_eff hF hcp rfl rfl rfl
              refine ⟨by rw [hv]; exact (hF.copy _ hcp).1, fun h => absurd h (by simp [hv]), fun m ρ m' k => ?_, ?_⟩
              · rw [w2, hcE, hval]
              · intro m ρ m' k he
                obtain ⟨i1, i2⟩ := VerSt.inv_new a1 d (hfr he)
                exact ⟨_, i1, mono (a2.trans i2 a4) (Nat.le_trans a4 (Nat.le_succ _))⟩
            · cases he2
          · cases he2
        · refine scanOk_some (Twin.refl ht) fun m ρ m' k he => ?_
          obtain ⟨i1, i2⟩ := VerSt.inv_new a1 d (hfr he)
          refine ⟨_, i1, ?_⟩
          intro y vs' dv hm
          rcases List.mem_append.1 hm with hm | hm
          · exact mono (a2.trans i2 a4) (Nat.le_trans a4 (Nat.le_succ _)) y vs' dv hm
          · simp only [List.mem_singleton, Prod.mk.injEq] at hm
            obtain ⟨rfl, rfl, rfl⟩ := hm
            refine ⟨fun v hv => Nat.le_trans (a5 v hv) (Nat.le_succ _), Nat.le_refl _, fun g hg => ?_⟩
            rw [i2.map a5, a3]
            obtain ⟨w, w1, w2⟩ := eff_one (T := T) (σ := σ) hF ht hv hd hg
            simp only [if_true]
            rw [w1, ((w2 _ _ _ _).1 he).1, upd_same]

/-- Peephole.cpp:377-468: copying the result of an earlier equal computation instead of repeating it cannot be
    seen. -/
theorem machineInstCSE_same (hF : F.Ok I) {copyOp : Nat} (hcp : F.copy copyOp = true) (sameTy : Reg → Reg → Bool)
    (ht : f.Typed F) : Same T I F.vis f (machineInstCSE F copyOp sameTy f) := by
  unfold machineInstCSE
  refine scan_same _ _ (fun _ _ _ => True) (fun _ _ s σ => ∃ val, MCseSt.Inv F I s σ val) ht.last ?_ (fun _ => trivial)
    (fun b B i x σ m ρ m' k _ _ _ _ => fun B _ => ⟨fun _ => trivial, fun _ _ _ => trivial⟩) ?_ ?_
  · intro b B i x s _ _ hv
    unfold cseStep
    dsimp only
    repeat' split
    all_goals rfl
  · intro b B σ _ _
    exact ⟨fun _ => σ (.vr 0), ⟨by simp [MCseSt.init, VerSt.init], by simp [MCseSt.init, VerSt.init], by simp [MCseSt.init, VerSt.init]⟩,
      by simp [MCseSt.init]⟩
  · intro b B i x s σ hB hx _ hI
    exact mcse_ok hF hcp (ht.inst B (List.mem_of_getElem? hB) x (List.mem_of_getElem? hx)) hI _

/-! ## `machineConstantCSE` -/

theorem le_sum : ∀ (l : List Nat) (i a : Nat), l[i]? = some a → a ≤ l.sum := by
  intro l
  induction l with
  | nil => intro i a h; simp at h
  | cons x l ih =>
    intro i a h
    rw [List.sum_cons]
    cases i with
    | zero => simp at h; omega
    | succ i => have := ih i a (by simpa using h); omega

theorem two_le_sum : ∀ (l : List Nat) (i j a b : Nat), l[i]? = some a → l[j]? = some b → i ≠ j → a + b ≤ l.sum := by
  intro l
  induction l with
  | nil => intro i j a b h; simp at h
  | cons x l ih =>
    intro i j a b hi hj hne
    rw [List.sum_cons]
    cases i with
    | zero =>
      cases j with
      | zero => exact absurd rfl hne
      | succ j =>
        simp at hi
        have := le_sum l j b (by simpa using hj); omega
    | succ i =>
      cases j with
      | zero =>
        simp at hj
        have := le_sum l i a (by simpa using hi); omega
      | succ j => have := ih i j a b (by simpa using hi) (by simpa using hj) (by omega); omega

/-- The writes of a register written at most once are all the same one. -/
theorem defCount_unique {r : Reg} (h : defCount f r ≤ 1) {b i b' i' : Nat} {B B' : Block} {x x' : Inst}
    (hB : f[b]? = some B) (hx : B.insts[i]? = some x) (hr : r ∈ x.defs)
    (hB' : f[b']? = some B') (hx' : B'.insts[i']? = some x') (hr' : r ∈ x'.defs) : b = b' ∧ i = i' := by
  unfold defCount at h
  rw [List.count_flatMap] at h
  have cB : ∀ (b : Nat) (B : Block), f[b]? = some B →
      (f.map (List.count r ∘ fun B => B.insts.flatMap fun x => x.defs))[b]? =
        some ((B.insts.map (List.count r ∘ fun x => x.defs)).sum) := by
    intro b B hB
    rw [List.getElem?_map, hB]
    simp only [Option.map_some, Function.comp, List.count_flatMap]
  have cx : ∀ (B : Block) (i : Nat) (x : Inst), B.insts[i]? = some x → r ∈ x.defs →
      ∃ n, 1 ≤ n ∧ (B.insts.map (List.count r ∘ fun x => x.defs))[i]? = some n := by
    intro B i x hx hr
    refine ⟨x.defs.count r, List.count_pos_iff.2 hr, ?_⟩
    rw [List.getElem?_map, hx]; rfl
  obtain ⟨n, n1, n2⟩ := cx B i x hx hr
  obtain ⟨n', n1', n2'⟩ := cx B' i' x' hx' hr'
  by_cases hb : b = b'
  · subst hb
    rw [hB] at hB'; cases hB'
    refine ⟨rfl, ?_⟩
    by_contra hi
    have h1 := two_le_sum _ _ _ _ _ n2 n2' hi
    have h2 := le_sum _ _ _ (cB b B hB)
    omega
  · have h1 := two_le_sum _ _ _ _ _ (cB b B hB) (cB b' B' hB') hb
    have h2 := le_sum _ _ _ n2
    have h3 := le_sum _ _ _ n2'
    omega

theorem commonConst_some {op : Nat} {l : Reg} (h : commonConst F f op = some l) :
    F.const op = true ∧ l.isVirt = true ∧ defCount f l ≤ 1 ∧
      ∃ (E : Block) (i : Nat) (x : Inst), f[0]? = some E ∧ E.insts[i]? = some x ∧ x.op = op ∧ x.defs = [l] := by
  unfold commonConst at h
  split at h
  · cases h
  · rename_i E tl
    obtain ⟨x, hx, he⟩ := List.exists_of_findSome?_eq_some h
    split at he
    · rename_i hc
      split at he
      · rename_i d hd
        split at he
        · rename_i hv
          cases he
          obtain ⟨i, hi⟩ := List.mem_iff_getElem?.1 hx
          exact ⟨by rw [← hc.2]; exact hc.1, hv.1, hv.2, E, i, x, rfl, hi, hc.2, hd⟩
        · cases he
      · cases he
    · cases he

/-- The function an opcode without visible effect computes. -/
noncomputable def Flags.Ok.out (hF : F.Ok I) (op : Nat) : List Val → List Val :=
  open Classical in if h : F.vis op = false then Classical.choose (hF.fn op h) else fun _ => []

theorem Flags.Ok.out_spec (hF : F.Ok I) {op : Nat} (h : F.vis op = false) : Computes F I op (hF.out op) := by
  unfold Flags.Ok.out
  rw [dif_pos h]
  exact Classical.choose_spec (hF.fn op h)

/-- A register loaded with a constant holds it. -/
theorem const_eff (hF : F.Ok I) {x : Inst} (ht : x.Typed F) (hc : F.const x.op = true) {d : Reg} (hd : x.defs = [d])
    {σ : Reg → Val} : ∃ w, hF.out x.op [] = [w] ∧
      ∀ m ρ m' k, Eff T I x σ m ρ m' k ↔ ρ = upd σ d w ∧ m' = m := by
  obtain ⟨c1, c2, c3⟩ := hF.const _ hc
  obtain ⟨w, w1, w2⟩ := eff_one (T := T) (σ := σ) hF ht c1 hd (hF.out_spec c1)
  have hu : x.uses = [] := List.length_eq_zero_iff.1 (by rw [(ht.bare c1).2.2.1, c2])
  rw [hu] at w1
  exact ⟨w, w1, w2⟩

/-- A register written once in the whole function, by loading a constant in the entry block, holds the constant
    from then on. -/
def CommonInv (hF : F.Ok I) (f : Func) (b i : Nat) (σ : Reg → Val) : Prop :=
  ∀ op l, commonConst F f op = some l →
    (b ≠ 0 ∨ ∃ (E : Block) (i0 : Nat) (x0 : Inst), f[0]? = some E ∧ E.insts[i0]? = some x0 ∧ x0.op = op ∧
      x0.defs = [l] ∧ i0 < i) → hF.out op [] = [σ l]

theorem common_step (hF : F.Ok I) (ht : f.Typed F) {b : Nat} {B : Block} {i : Nat} {x : Inst} {σ ρ : Reg → Val}
    {m m' : Mem} {k : Nat} (hB : f[b]? = some B) (hx : B.insts[i]? = some x) (hJ : CommonInv hF f b i σ)
    (he : Eff T I x σ m ρ m' k) : After f b i k fun b i => CommonInv hF f b i ρ := by
  have key : ∀ op l, commonConst F f op = some l →
      (b ≠ 0 ∨ ∃ (E : Block) (i0 : Nat) (x0 : Inst), f[0]? = some E ∧ E.insts[i0]? = some x0 ∧ x0.op = op ∧
        x0.defs = [l] ∧ i0 ≤ i) → hF.out op [] = [ρ l] := by
    intro op l hl hor
    obtain ⟨k1, k2, k3, E, i0, x0, k4, k5, k6, k7⟩ := commonConst_some hl
    by_cases hld : l ∈ x.dsts T
    · have hld : l ∈ x.defs := by
        unfold Inst.dsts at hld
        rw [List.mem_append, List.mem_map] at hld
        rcases hld with ⟨p, -, hp⟩ | h
        · subst hp; cases k2
        · exact h
      obtain ⟨rfl, rfl⟩ := defCount_unique k3 hB hx hld k4 k5 (by rw [k7]; simp)
      rw [hB] at k4; cases k4
      rw [hx] at k5; cases k5
      have hty := ht.inst B (List.mem_of_getElem? hB) x (List.mem_of_getElem? hx)
      obtain ⟨w, w1, w2⟩ := const_eff (T := T) (σ := σ) hF hty (by rw [k6]; exact k1) k7
      rw [← k6, w1, ((w2 _ _ _ _).1 he).1, upd_same]
    · rw [eff_frame he hld]
      apply hJ op l hl
      rcases hor with h | ⟨E', i1, x1, h1, h2, h3, h4, h5⟩
      · exact .inl h
      · by_cases hb : b = 0
        · subst hb
          refine .inr ⟨E', i1, x1, h1, h2, h3, h4, ?_⟩
          rcases Nat.lt_or_ge i1 i with h | h
          · exact h
          · have : i1 = i := by omega
            subst this
            rw [hB] at h1; cases h1
            rw [hx] at h2; cases h2
            exact absurd (by unfold Inst.dsts; rw [h4]; simp) hld
        · exact .inl hb
  intro B1 hB1
  rw [hB] at hB1; cases hB1
  constructor
  · intro _ op l hl hor
    apply key op l hl
    rcases hor with h | ⟨E', i1, x1, h1, h2, h3, h4, h5⟩
    · exact .inl h
    · exact .inr ⟨E', i1, x1, h1, h2, h3, h4, by omega⟩
  · intro hlen b' _ op l hl hor
    apply key op l hl
    by_cases hb : b = 0
    · obtain ⟨-, -, -, E, i0, x0, k4, k5, k6, k7⟩ := commonConst_some hl
      refine .inr ⟨E, i0, x0, k4, k5, k6, k7, ?_⟩
      subst hb
      rw [hB] at k4; cases k4
      have := (List.getElem?_eq_some_iff.1 k5).1
      omega
    · exact .inl hb

/-- Nothing later in its block overwrites a virtual register loaded with a constant. -/
def ConstKept (F : Flags) (f : Func) : Prop :=
  ∀ B ∈ f, ∀ (i : Nat) (x : Inst) (d : Reg), B.insts[i]? = some x → F.const x.op = true → x.defs = [d] → d.isVirt = true →
    ∀ y ∈ B.insts.drop (i + 1), d ∉ y.defs

/-- Peephole.cpp:325-375: copying a constant from a register that holds it cannot be seen, if nothing later in its
    block overwrites a virtual register loaded with a constant. -/
theorem machineConstantCSE_same (hF : F.Ok I) {sel : Reg → Reg → Nat} (hsel : ∀ d q, F.copy (sel d q) = true)
    (ht : f.Typed F) (hk : ConstKept F f) : Same T I F.vis f (machineConstantCSE F sel f) := by
  unfold machineConstantCSE
  refine scan_same _ _ (fun b i σ => CommonInv hF f b i σ)
    (fun _ rest s σ => ∀ op d, s op = some d → d.isVirt = true ∧ (∀ y ∈ rest, d ∉ y.defs) ∧ hF.out op [] = [σ d])
    ht.last ?_ ?_ ?_ ?_ ?_
  · intro b B i x s _ _ hv
    unfold constStep
    repeat' split
    all_goals rfl
  · intro σ op l hl hor
    rcases hor with h | ⟨_, _, _, _, _, _, _, h⟩
    · exact absurd rfl h
    · omega
  · intro b B i x σ m ρ m' k hB hx hJ he
    exact common_step hF ht hB hx hJ he
  · intro b B σ _ _ op d h; cases h
  · intro b B i x s σ hB hx hJ hI
    have hBm := List.mem_of_getElem? hB
    have hty := ht.inst B hBm x (List.mem_of_getElem? hx)
    have hdrop : B.insts.drop i = x :: B.insts.drop (i + 1) := by
      obtain ⟨hlt, rfl⟩ := List.getElem?_eq_some_iff.1 hx
      exact List.drop_eq_getElem_cons hlt
    rw [hdrop] at hI
    have hframe : ∀ m ρ m' k, Eff T I x σ m ρ m' k → ∀ op d, s op = some d →
        d.isVirt = true ∧ (∀ y ∈ B.insts.drop (i + 1), d ∉ y.defs) ∧ hF.out op [] = [ρ d] := by
      intro m ρ m' k he op d h
      obtain ⟨h1, h2, h3⟩ := hI op d h
      refine ⟨h1, fun y hy => h2 y (List.mem_cons_of_mem _ hy), ?_⟩
      rw [eff_frame he]
      · exact h3
      · unfold Inst.dsts
        rw [List.mem_append, List.mem_map]
        rintro (⟨p, -, hp⟩ | h)
        · subst hp; cases h1
        · exact h2 x (List.mem_cons_self ..) h
    unfold constStep
    by_cases hc : F.const x.op = true
    · rw [if_pos hc]
      split
      · rename_i d hd
        obtain ⟨w, w1, w2⟩ := const_eff (T := T) (σ := σ) hF hty hc hd
        have hv := (hF.const _ hc).1
        have hcopy : ∀ l, σ l = w → ScanOk T I F.vis
            (fun rest s σ => ∀ op d, s op = some d → d.isVirt = true ∧ (∀ y ∈ rest, d ∉ y.defs) ∧ hF.out op [] = [σ d])
            x (B.insts.drop (i + 1)) σ (some { op := sel d l, ops := [(.dfn, d), (.use, l)] }, s) := by
          intro l hl
          refine ⟨by rw [hv]; exact (hF.copy _ (hsel d l)).1, fun h => absurd h (by simp [hv]), fun m ρ m' k => ?_, hframe⟩
          rw [w2, copy_eff hF (x := { op := sel d l, ops := [(.dfn, d), (.use, l)] }) (hsel d l) rfl rfl rfl, hl]
        split
        · rename_i l hl
          apply hcopy
          split at hl
          · rename_i hb
            have := hJ x.op l hl (.inl hb)
            rw [w1] at this
            simpa using this.symm
          · cases hl
        · split
          · rename_i l hl
            apply hcopy
            have := (hI x.op l hl).2.2
            rw [w1] at this
            simpa using this.symm
          · refine scanOk_some (Twin.refl hty) fun m ρ m' k he => ?_
            split
            · rename_i hdv
              intro op q hq
              simp only at hq
              split at hq
              · rename_i ho
                cases hq; subst ho
                refine ⟨hdv, hk B hBm i x d hx hc hd hdv, ?_⟩
                rw [w1, ((w2 _ _ _ _).1 he).1, upd_same]
              · exact hframe m ρ m' k he op q hq
            · exact hframe m ρ m' k he
      · exact scanOk_some (Twin.refl hty) hframe
    · rw [if_neg hc]
      exact scanOk_some (Twin.refl hty) hframe

end

end Cmmc.Mir
