import Verif.Mir.Rewrite

/-!
# Block-local scans

Most passes of `/repo/cmmc/CodeGen/Peephole.cpp` walk over each block from its start with some state (versions
of registers, known values, …) and decide for each instruction whether to keep, replace or delete it.
-/

namespace Cmmc.Mir

section
variable {S : Type}

/-- Walk over the instructions of a block, keeping, replacing (`some`) or deleting (`none`) each. -/
def scanList (step : S → Inst → Option Inst × S) : S → List Inst → List Inst
  | _, [] => []
  | s, x :: xs =>
    match step s x with
    | (some y, s') => y :: scanList step s' xs
    | (none, s') => scanList step s' xs

/-- Walk over every block of a function, starting each from the state `s0`. -/
def Func.scan (f : Func) (step : Nat → S → Inst → Option Inst × S) (s0 : S) : Func :=
  f.mapIdx fun b B => { B with insts := scanList (step b) s0 B.insts }

/-- The state after walking over some instructions. -/
def scanState (step : S → Inst → Option Inst × S) (s : S) (l : List Inst) : S :=
  l.foldl (fun s x => (step s x).2) s

theorem scanList_eq (step : S → Inst → Option Inst × S) : ∀ (l : List Inst) (s : S),
    scanList step s l = (l.mapIdx fun i x => (step (scanState step s (l.take i)) x).1).filterMap id := by
  intro l
  induction l with
  | nil => intro s; rfl
  | cons x l ih =>
    intro s
    have e : (x :: l).mapIdx (fun i y => (step (scanState step s ((x :: l).take i)) y).1) =
        (step s x).1 :: l.mapIdx (fun i y => (step (scanState step (step s x).2 (l.take i)) y).1) := by
      rw [List.mapIdx_cons]; rfl
    rw [e]
    unfold scanList
    rcases hs : step s x with ⟨_ | y, s'⟩
    · simp only [List.filterMap_cons, id_eq]
      exact ih s'
    · simp only [List.filterMap_cons, id_eq]
      rw [ih s']; rfl

theorem scan_eq_rewrite (f : Func) (step : Nat → S → Inst → Option Inst × S) (s0 : S) :
    f.scan step s0 = f.rewrite fun b i x =>
      match f[b]? with
      | none => some x
      | some B => (step b (scanState (step b) s0 (B.insts.take i)) x).1 := by
  unfold Func.scan Func.rewrite
  apply List.ext_getElem?
  intro b
  rw [List.getElem?_mapIdx, List.getElem?_mapIdx]
  cases hB : f[b]? with
  | none => rfl
  | some B =>
    simp only [Option.map_some]
    rw [scanList_eq, hB]

variable {Val Mem : Type} {T : Target} {I : Interp Val Mem} {eff : Nat → Bool} {f : Func}

/-- One step of a scan cannot be seen: the rewritten instruction has exactly the same effect. -/
def ScanOk (T : Target) (I : Interp Val Mem) (eff : Nat → Bool) (Inv : List Inst → S → (Reg → Val) → Prop)
    (x : Inst) (rest : List Inst) (σ : Reg → Val) (out : Option Inst × S) : Prop :=
  match out with
  | (some y, s') => eff y.op = eff x.op ∧ (eff x.op = true → y.op = x.op) ∧
      (∀ m ρ m' k, Eff T I x σ m ρ m' k ↔ Eff T I y σ m ρ m' k) ∧
      (∀ m ρ m' k, Eff T I x σ m ρ m' k → Inv rest s' ρ)
  | (none, s') => eff x.op = false ∧ (∀ m ρ m' k, Eff T I x σ m ρ m' k ↔ ρ = σ ∧ m' = m) ∧ Inv rest s' σ

/-- A scan whose state says true things (`Inv`) about the registers, and whose every step has the same effect as
    the instruction it rewrites, cannot be seen. `J` is something known about every state the program can reach. -/
theorem scan_same (step : Nat → S → Inst → Option Inst × S) (s0 : S)
    (J : Nat → Nat → (Reg → Val) → Prop) (Inv : Nat → List Inst → S → (Reg → Val) → Prop)
    (hl : ∀ B ∈ f, ∀ x, B.insts.getLast? = some x → eff x.op = true)
    (hk : ∀ (b : Nat) (B : Block) (i : Nat) (x : Inst) (s : S), f[b]? = some B → B.insts[i]? = some x → eff x.op = true → (step b s x).1.isSome = true)
    (hJ0 : ∀ σ, J 0 0 σ)
    (hJ : ∀ b B i x σ m ρ m' k, f[b]? = some B → B.insts[i]? = some x → J b i σ → Eff T I x σ m ρ m' k →
      After f b i k fun b i => J b i ρ)
    (h0 : ∀ b B σ, f[b]? = some B → J b 0 σ → Inv b B.insts s0 σ)
    (h : ∀ b B i x s σ, f[b]? = some B → B.insts[i]? = some x → J b i σ → Inv b (B.insts.drop i) s σ →
      ScanOk T I eff (Inv b) x (B.insts.drop (i + 1)) σ (step b s x)) :
    Same T I eff f (f.scan step s0) := by
  rw [scan_eq_rewrite]
  apply rewrite_same _ (fun b i σ σ' => σ = σ' ∧ J b i σ ∧
    ∀ B, f[b]? = some B → Inv b (B.insts.drop i) (scanState (step b) s0 (B.insts.take i)) σ)
  · intro σ
    refine ⟨rfl, hJ0 σ, fun B hB => ?_⟩
    rw [List.drop_zero, List.take_zero]
    exact h0 0 B σ hB (hJ0 σ)
  · exact hl
  · intro b B i x hB hx he
    simp only [hB]
    exact hk _ _ _ _ _ hB hx he
  · intro b B i x hB hx
    simp only [hB]
    intro σ σ' hR
    obtain ⟨rfl, hj, hI⟩ := hR
    have hI := hI B hB
    have hok := h b B i x _ σ hB hx hj hI
    have hst : scanState (step b) s0 (B.insts.take (i + 1)) =
        (step b (scanState (step b) s0 (B.insts.take i)) x).2 := by
      unfold scanState
      rw [List.take_add_one, hx, List.foldl_append]; rfl
    have haft : ∀ m ρ m' k, Eff T I x σ m ρ m' k →
        Inv b (B.insts.drop (i + 1)) (step b (scanState (step b) s0 (B.insts.take i)) x).2 ρ →
        After f b i k fun b i => ρ = ρ ∧ J b i ρ ∧
          ∀ B, f[b]? = some B → Inv b (B.insts.drop i) (scanState (step b) s0 (B.insts.take i)) ρ := by
      intro m ρ m' k hE hi B1 hB1
      rw [hB] at hB1; cases hB1
      obtain ⟨j1, j2⟩ := hJ b B i x σ m ρ m' k hB hx hj hE B hB
      refine ⟨fun hlt => ⟨rfl, j1 hlt, fun B2 hB2 => ?_⟩, fun he b' hb' => ⟨rfl, j2 he b' hb', fun B2 hB2 => ?_⟩⟩
      · rw [hB] at hB2; cases hB2
        rw [hst]; exact hi
      · rw [List.drop_zero, List.take_zero]
        exact h0 b' B2 ρ hB2 (j2 he b' hb')
    unfold ScanOk at hok
    rcases hs : step b (scanState (step b) s0 (B.insts.take i)) x with ⟨_ | y, s'⟩
    · rw [hs] at hok haft
      dsimp only at hok haft ⊢
      obtain ⟨o1, o2, o3⟩ := hok
      refine ⟨o1, fun m k => ⟨σ, (o2 m σ m k).2 ⟨rfl, rfl⟩⟩, fun m ρ m' k hE => ?_⟩
      obtain ⟨rfl, rfl⟩ := (o2 m ρ m' k).1 hE
      exact ⟨rfl, haft _ _ _ _ hE o3⟩
    · rw [hs] at hok haft
      dsimp only at hok haft ⊢
      obtain ⟨o1, o2, o3, o4⟩ := hok
      refine ⟨o1, o2, fun m ρ m' k hE => ⟨ρ, (o3 _ _ _ _).1 hE, haft _ _ _ _ hE (o4 _ _ _ _ hE)⟩,
        fun m ρ m' k hE => ?_⟩
      have hE := (o3 _ _ _ _).2 hE
      exact ⟨ρ, hE, haft _ _ _ _ hE (o4 _ _ _ _ hE)⟩

/-! ## What instructions without visible effect do -/

/-- Change the value of one register. -/
def upd (σ : Reg → Val) (r : Reg) (v : Val) : Reg → Val := fun q => if q = r then v else σ q

@[simp] theorem upd_same (σ : Reg → Val) (r : Reg) (v : Val) : upd σ r v r = v := by simp [upd]

theorem upd_ne (σ : Reg → Val) {r q : Reg} (v : Val) (h : q ≠ r) : upd σ r v q = σ q := by simp [upd, h]

theorem writes_not_mem {r : Reg} : ∀ (ds : List Reg) (vs : List Val) (σ : Reg → Val), r ∉ ds →
    writes σ ds vs r = σ r := by
  intro ds
  induction ds with
  | nil => intro vs σ _; rfl
  | cons d ds ih =>
    intro vs σ h
    cases vs with
    | nil => rfl
    | cons v vs =>
      simp only [List.mem_cons, not_or] at h
      unfold writes
      rw [ih vs _ h.2, if_neg h.1]

/-- An instruction changes only the registers it overwrites. -/
theorem eff_frame {x : Inst} {σ ρ : Reg → Val} {m m' : Mem} {k : Nat} (h : Eff T I x σ m ρ m' k) {r : Reg}
    (hr : r ∉ x.dsts T) : ρ r = σ r := by
  obtain ⟨vs, -, -, rfl⟩ := h
  exact writes_not_mem _ _ _ hr

/-- The effect of an instruction without visible effect. -/
theorem quiet_eff {F : Flags} {op : Nat} {g : List Val → List Val}
    (hg : ∀ rs, rs.length = F.nu op →
      (g rs).length = F.nd op ∧ ∀ m vs m' k, vs.length = F.nd op → (I op rs m vs m' k ↔ vs = g rs ∧ m' = m))
    {x : Inst} (hx : x.op = op) (ht : x.args = [] ∧ x.call = none ∧ x.uses.length = F.nu x.op ∧ x.defs.length = F.nd x.op)
    {σ ρ : Reg → Val} {m m' : Mem} {k : Nat} :
    Eff T I x σ m ρ m' k ↔ ρ = writes σ x.defs (g (x.uses.map σ)) ∧ m' = m := by
  subst hx
  obtain ⟨h1, h2, h3, h4⟩ := ht
  have hr : x.reads σ = x.uses.map σ := by simp [Inst.reads, h1]
  have hd : x.dsts T = x.defs := by simp [Inst.dsts, Inst.clob, h2]
  obtain ⟨g1, g2⟩ := hg (x.uses.map σ) (by simpa using h3)
  unfold Eff
  rw [hr, hd]
  constructor
  · rintro ⟨vs, a, b, c⟩
    obtain ⟨rfl, rfl⟩ := (g2 m vs m' k (by rw [b, h4])).1 a
    exact ⟨c, rfl⟩
  · rintro ⟨rfl, rfl⟩
    exact ⟨_, (g2 _ _ _ k g1).2 ⟨rfl, rfl⟩, by rw [g1, h4], rfl⟩

theorem dsts_of_bare {x : Inst} (h2 : x.call = none) : x.dsts T = x.defs := by simp [Inst.dsts, Inst.clob, h2]

/-- The opcode copies one register to another. -/
def IsCopy (F : Flags) (I : Interp Val Mem) (op : Nat) : Prop :=
  F.vis op = false ∧ F.nu op = 1 ∧ F.nd op = 1 ∧ ∀ v m k, I op [v] m [v] m k

/-- The effect of an instruction that copies one register to another. -/
theorem isCopy_eff {F : Flags} (hF : F.Ok I) {x : Inst} (hc : IsCopy F I x.op) {d s : Reg}
    (hu : x.uses = [s]) (hd : x.defs = [d]) (ha : x.args = []) (hca : x.call = none)
    {σ ρ : Reg → Val} {m m' : Mem} {k : Nat} :
    Eff T I x σ m ρ m' k ↔ ρ = upd σ d (σ s) ∧ m' = m := by
  obtain ⟨c1, c2, c3, c4⟩ := hc
  obtain ⟨g, hg⟩ := hF.fn x.op c1
  rw [quiet_eff hg rfl ⟨ha, hca, by rw [hu, c2]; rfl, by rw [hd, c3]; rfl⟩, hu, hd]
  have : g [σ s] = [σ s] := by
    have := ((hg [σ s] (by rw [c2]; rfl)).2 m [σ s] m k (by rw [c3]; rfl)).1 (c4 _ _ _)
    exact this.1.symm
  simp only [List.map_cons, List.map_nil, this]
  rfl

/-- The effect of a register copy. -/
theorem copy_eff {F : Flags} (hF : F.Ok I) {x : Inst} (hc : F.copy x.op = true) {d s : Reg}
    (ho : x.ops = [(.dfn, d), (.use, s)]) (ha : x.args = []) (hca : x.call = none)
    {σ ρ : Reg → Val} {m m' : Mem} {k : Nat} :
    Eff T I x σ m ρ m' k ↔ ρ = upd σ d (σ s) ∧ m' = m :=
  isCopy_eff hF (hF.copy x.op hc) (by simp [Inst.uses, ho]) (by simp [Inst.defs, ho]) ha hca

/-- Replacing what is read by something equal changes nothing. -/
theorem eff_congr {x y : Inst} {σ : Reg → Val} (h1 : y.op = x.op) (h2 : y.uses.map σ = x.uses.map σ)
    (h3 : y.defs = x.defs) (h4 : y.args = x.args) (h5 : y.call = x.call) {m m' : Mem} {ρ : Reg → Val} {k : Nat} :
    Eff T I x σ m ρ m' k ↔ Eff T I y σ m ρ m' k := by
  unfold Eff Inst.reads Inst.dsts Inst.clob
  rw [h1, h2, h3, h4, h5]

theorem set_use {x : Inst} {i : Nat} {r s : Reg} (h : x.ops[i]? = some (.use, r)) (σ : Reg → Val) (he : σ s = σ r) :
    ({ x with ops := x.ops.set i (.use, s) } : Inst).uses.map σ = x.uses.map σ ∧
    ({ x with ops := x.ops.set i (.use, s) } : Inst).uses.length = x.uses.length ∧
    ({ x with ops := x.ops.set i (.use, s) } : Inst).defs = x.defs := by
  have key : ∀ (l : List (Role × Reg)) (i : Nat), l[i]? = some (.use, r) →
      ((l.set i (.use, s)).filterMap fun (r, x) => if r = Role.use then some x else none).map σ =
        (l.filterMap fun (r, x) => if r = Role.use then some x else none).map σ ∧
      ((l.set i (.use, s)).filterMap fun (r, x) => if r = Role.use then some x else none).length =
        (l.filterMap fun (r, x) => if r = Role.use then some x else none).length ∧
      ((l.set i (.use, s)).filterMap fun (r, x) => if r = Role.dfn then some x else none) =
        (l.filterMap fun (r, x) => if r = Role.dfn then some x else none) := by
    intro l
    induction l with
    | nil => intro i h; simp at h
    | cons a l ih =>
      intro i h
      cases i with
      | zero =>
        simp at h; subst h
        simp [he]
      | succ i =>
        simp only [List.getElem?_cons_succ] at h
        obtain ⟨i1, i2, i3⟩ := ih i h
        obtain ⟨q, w⟩ := a
        simp only [List.set_cons_succ, List.filterMap_cons]
        cases q <;> simp_all
  exact key x.ops i h

/-- The rewritten instruction is as good as the old one in the state `σ`. -/
structure Twin (T : Target) (I : Interp Val Mem) (F : Flags) (σ : Reg → Val) (x y : Inst) : Prop where
  vis : F.vis y.op = F.vis x.op
  op : F.vis x.op = true → y.op = x.op
  eff : ∀ m ρ m' k, Eff T I x σ m ρ m' k ↔ Eff T I y σ m ρ m' k
  defs : y.defs = x.defs
  call : y.call = x.call
  typed : y.Typed F

theorem Twin.refl {F : Flags} {σ : Reg → Val} {x : Inst} (h : x.Typed F) : Twin T I F σ x x :=
  ⟨rfl, fun _ => rfl, fun _ _ _ _ => Iff.rfl, rfl, rfl, h⟩

theorem Twin.trans {F : Flags} {σ : Reg → Val} {x y z : Inst} (a : Twin T I F σ x y) (b : Twin T I F σ y z) :
    Twin T I F σ x z :=
  ⟨b.vis.trans a.vis, fun h => (b.op (a.vis.trans h)).trans (a.op h),
    fun _ _ _ _ => (a.eff _ _ _ _).trans (b.eff _ _ _ _), b.defs.trans a.defs, b.call.trans a.call, b.typed⟩

/-- Replacing one operand that is read by another register with the same value. -/
theorem twin_set {F : Flags} {σ : Reg → Val} {x : Inst} (h : x.Typed F) {i : Nat} {r s : Reg}
    (hi : x.ops[i]? = some (.use, r)) (he : σ s = σ r) :
    Twin T I F σ x { x with ops := x.ops.set i (.use, s) } := by
  obtain ⟨h1, h2, h3⟩ := set_use hi σ he
  refine ⟨rfl, fun _ => rfl, fun m ρ m' k => eff_congr (x := x) (y := { x with ops := x.ops.set i (.use, s) }) rfl h1 h3 rfl rfl, h3, rfl, ?_, ?_⟩
  · intro hv
    obtain ⟨b1, b2, b3, b4⟩ := h.bare hv
    exact ⟨b1, b2, by rw [h2]; exact b3, by rw [h3]; exact b4⟩
  · intro hc
    obtain ⟨d, q, hq⟩ := h.copy hc
    rw [hq] at hi
    have : i = 1 := by
      match i, hi with
      | 0, hi => simp at hi
      | 1, _ => rfl
      | n + 2, hi => simp at hi
    subst this
    exact ⟨d, s, by simp [hq]⟩

/-- The opcode of a copy may be replaced by that of another copy. -/
theorem twin_op {F : Flags} (hF : F.Ok I) {σ : Reg → Val} {x : Inst} (h : x.Typed F) {op : Nat}
    (hc : F.copy x.op = true) (hc' : F.copy op = true) :
    Twin T I F σ x { x with op := op } := by
  obtain ⟨c1, c2, c3, -⟩ := hF.copy _ hc
  obtain ⟨d1, d2, d3, -⟩ := hF.copy _ hc'
  obtain ⟨d, s, ho⟩ := h.copy hc
  obtain ⟨b1, b2, b3, b4⟩ := h.bare c1
  refine ⟨by rw [c1]; exact d1, fun hv => absurd hv (by simp [c1]), fun m ρ m' k => ?_, rfl, rfl, ?_, ?_⟩
  · rw [copy_eff hF hc ho b1 b2, copy_eff hF (x := { x with op := op }) hc' ho b1 b2]
  · intro _
    exact ⟨b1, b2, by rw [d2, ← c2]; exact b3, by rw [d3, ← c3]; exact b4⟩
  · intro _
    exact ⟨d, s, ho⟩

/-- A scan that only does such rewritings, step by step. -/
theorem scanOk_some {F : Flags} {S : Type} {Inv : List Inst → S → (Reg → Val) → Prop} {x y : Inst} {rest : List Inst}
    {σ : Reg → Val} {s' : S} (h : Twin T I F σ x y) (hI : ∀ m ρ m' k, Eff T I x σ m ρ m' k → Inv rest s' ρ) :
    ScanOk T I F.vis Inv x rest σ (some y, s') :=
  ⟨h.vis, h.op, h.eff, hI⟩

end

end Cmmc.Mir
