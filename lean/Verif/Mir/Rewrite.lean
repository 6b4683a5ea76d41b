import Verif.Mir.Obs

/-!
# Rewriting machine code in place

The passes of `/repo/cmmc/CodeGen/Peephole.cpp` walk over the instructions of a function and keep, replace or
delete each of them. This file has the instruction flags those passes look at (`InstFlag`, InstInfo.hpp:30-54),
what the flags promise about the instructions, and the general argument that such a rewriting cannot be seen.
-/

namespace Cmmc.Mir

/-- What the code generator knows about an opcode (`InstInfo::getInstFlag`, InstInfo.hpp:30-54):
    `side` is `InstFlagSideEffect` (loads, stores, branches, calls, returns, …, and `InstFlagRegDef`: copies
    into a physical register), `copy` is `InstFlagRegCopy`, `const` is `InstFlagLoadConstant`, `multi` is
    `InstFlagMultiDef`, `pcrel` is `InstFlagPCRel`, `branch` is `InstFlagBranch`.
    `vis` (not in the code) says which of the `side` opcodes do something outside the registers. -/
structure Flags where
  side : Nat → Bool
  vis : Nat → Bool
  copy : Nat → Bool
  const : Nat → Bool
  multi : Nat → Bool
  pcrel : Nat → Bool
  branch : Nat → Bool
  nu : Nat → Nat
  nd : Nat → Nat

section
variable {Val Mem : Type}

/-- The flags tell the truth about what the opcodes do: an opcode without visible effect leaves memory alone,
    always has a result, and the result depends only on the values read; a copy copies; a constant reads no
    register. (At this level the address produced by a PC-relative instruction is symbolic: the address of
    the symbol it names; RISCVTarget.cpp:502-615 later attaches the labels.) -/
structure Flags.Ok (F : Flags) (I : Interp Val Mem) : Prop where
  sub : ∀ op, F.vis op = true → F.side op = true
  fn : ∀ op, F.vis op = false → ∃ g : List Val → List Val, ∀ rs, rs.length = F.nu op →
    (g rs).length = F.nd op ∧ ∀ m vs m' k, vs.length = F.nd op → (I op rs m vs m' k ↔ vs = g rs ∧ m' = m)
  copy : ∀ op, F.copy op = true → F.vis op = false ∧ F.nu op = 1 ∧ F.nd op = 1 ∧ ∀ v m k, I op [v] m [v] m k
  const : ∀ op, F.const op = true → F.vis op = false ∧ F.nu op = 0 ∧ F.nd op = 1
  multi : ∀ op, F.side op = false → F.multi op = false → F.nd op ≤ 1

/-- An instruction uses its opcode as the description says: without visible effect it has its operands and
    nothing else (in particular calls and returns are visible), a copy is `dst, src`. -/
structure Inst.Typed (F : Flags) (x : Inst) : Prop where
  bare : F.vis x.op = false →
    x.args = [] ∧ x.call = none ∧ x.uses.length = F.nu x.op ∧ x.defs.length = F.nd x.op
  copy : F.copy x.op = true → ∃ d s, x.ops = [(.dfn, d), (.use, s)]

/-- Every instruction of the function uses its opcode as the description says, and a block ends with a visible
    instruction. -/
structure Func.Typed (F : Flags) (f : Func) : Prop where
  inst : ∀ B ∈ f, ∀ x ∈ B.insts, x.Typed F
  last : ∀ B ∈ f, ∀ x, B.insts.getLast? = some x → F.vis x.op = true

/-! ## Keeping, replacing or deleting instructions -/

/-- Rewrite every instruction: keep or replace it (`some`) or delete it (`none`). -/
def Func.rewrite (f : Func) (r : Nat → Nat → Inst → Option Inst) : Func :=
  f.mapIdx fun b B => { B with insts := (B.insts.mapIdx fun i x => r b i x).filterMap id }

/-- The opcode `n` does nothing. -/
def Interp.nop (I : Interp Val Mem) (n : Nat) : Interp Val Mem :=
  fun op rs m vs m' k => if op = n then m' = m else I op rs m vs m' k

def Func.NoOp (f : Func) (n : Nat) : Prop := ∀ B ∈ f, ∀ x ∈ B.insts, x.op ≠ n

variable {T : Target} {I : Interp Val Mem} {eff : Nat → Bool} {f g : Func}

theorem eff_nop_iff {n : Nat} {x : Inst} (h : x.op ≠ n) {σ ρ : Reg → Val} {m m' : Mem} {k : Nat} :
    Eff T (I.nop n) x σ m ρ m' k ↔ Eff T I x σ m ρ m' k := by
  unfold Eff Interp.nop
  simp only [if_neg h]

theorem step_nop_iff {n : Nat} (h : f.NoOp n) {s s' : St Val Mem} :
    Step T (I.nop n) f s s' ↔ Step T I f s s' := by
  rw [step_iff, step_iff]
  constructor
  · rintro ⟨B, x, k, h1, h2, h3, h4⟩
    exact ⟨B, x, k, h1, h2, (eff_nop_iff (h B (List.mem_of_getElem? h1) x (List.mem_of_getElem? h2))).1 h3, h4⟩
  · rintro ⟨B, x, k, h1, h2, h3, h4⟩
    exact ⟨B, x, k, h1, h2, (eff_nop_iff (h B (List.mem_of_getElem? h1) x (List.mem_of_getElem? h2))).2 h3, h4⟩

theorem leaves_nop_iff {n : Nat} (h : f.NoOp n) {s : St Val Mem} {m' : Mem} :
    Leaves T (I.nop n) f s m' ↔ Leaves T I f s m' := by
  rw [leaves_iff, leaves_iff]
  constructor
  · rintro ⟨B, x, ρ, k, h1, h2, h0, h3, h4⟩
    exact ⟨B, x, ρ, k, h1, h2, h0, (eff_nop_iff (h B (List.mem_of_getElem? h1) x (List.mem_of_getElem? h2))).1 h3, h4⟩
  · rintro ⟨B, x, ρ, k, h1, h2, h0, h3, h4⟩
    exact ⟨B, x, ρ, k, h1, h2, h0, (eff_nop_iff (h B (List.mem_of_getElem? h1) x (List.mem_of_getElem? h2))).2 h3, h4⟩

theorem opAt_some {b i op : Nat} (h : opAt f b i = some op) :
    ∃ B x, f[b]? = some B ∧ B.insts[i]? = some x ∧ x.op = op := by
  unfold opAt at h
  cases hB : f[b]? with
  | none => rw [hB] at h; cases h
  | some B =>
    rw [hB] at h
    simp only [Option.bind_some] at h
    cases hx : B.insts[i]? with
    | none => rw [hx] at h; cases h
    | some x => rw [hx] at h; exact ⟨B, x, rfl, hx, by simpa using h⟩

theorem obs_nop_iff {n : Nat} (h : f.NoOp n) {s s' : St Val Mem} {tr : List (Nat × Mem)} :
    Obs T (I.nop n) (fun op => eff op && op != n) f s tr s' ↔ Obs T I eff f s tr s' := by
  have hop : ∀ {b i op}, opAt f b i = some op → op ≠ n := by
    intro b i op ho
    obtain ⟨B, x, h1, h2, rfl⟩ := opAt_some ho
    exact h B (List.mem_of_getElem? h1) x (List.mem_of_getElem? h2)
  constructor
  · intro ho
    induction ho with
    | nil => exact .nil
    | vis a b c _ ih => exact .vis ((step_nop_iff h).1 a) b (by simp at c; exact c.1) ih
    | sil a b c _ ih => exact .sil ((step_nop_iff h).1 a) b (by have := hop b; simp_all) ih
  · intro ho
    induction ho with
    | nil => exact .nil
    | vis a b c _ ih => exact .vis ((step_nop_iff h).2 a) b (by have := hop b; simp_all) ih
    | sil a b c _ ih => exact .sil ((step_nop_iff h).2 a) b (by simp_all) ih

theorem incl_nop {n : Nat} (hf : f.NoOp n) (hg : g.NoOp n)
    (h : Incl T (I.nop n) (fun op => eff op && op != n) f g) : Incl T I eff f g := by
  intro σ m tr
  constructor
  · rintro ⟨s, hs⟩
    obtain ⟨t, ht⟩ := (h σ m tr).1 ⟨s, (obs_nop_iff hf).2 hs⟩
    exact ⟨t, (obs_nop_iff hg).1 ht⟩
  · rintro m' ⟨s, hs, hl⟩
    obtain ⟨t, ht, hl'⟩ := (h σ m tr).2 m' ⟨s, (obs_nop_iff hf).2 hs, (leaves_nop_iff hf).2 hl⟩
    exact ⟨t, (obs_nop_iff hg).1 ht, (leaves_nop_iff hg).1 hl'⟩

theorem same_nop {n : Nat} (hf : f.NoOp n) (hg : g.NoOp n)
    (h : Same T (I.nop n) (fun op => eff op && op != n) f g) : Same T I eff f g :=
  ⟨incl_nop hf hg h.1, incl_nop hg hf h.2⟩

theorem exists_noOp (fs : List Func) : ∃ n, ∀ f ∈ fs, f.NoOp n := by
  have key : ∀ l : List Nat, ∃ n, ∀ x ∈ l, x < n := by
    intro l
    induction l with
    | nil => exact ⟨0, by simp⟩
    | cons a l ih =>
      obtain ⟨n, hn⟩ := ih
      refine ⟨max n (a + 1), ?_⟩
      intro x hx
      rcases List.mem_cons.1 hx with rfl | hx
      · omega
      · have := hn x hx; omega
  obtain ⟨n, hn⟩ := key (fs.flatMap fun f => f.flatMap fun B => B.insts.map Inst.op)
  refine ⟨n, ?_⟩
  intro f hf B hB x hx he
  have := hn x.op (List.mem_flatMap.2 ⟨f, hf, List.mem_flatMap.2 ⟨B, hB, List.mem_map.2 ⟨x, hx, rfl⟩⟩⟩)
  omega

/-- `R` holds at the point reached after instruction `i` of block `b`. -/
def After (f : Func) (b i k : Nat) (P : Nat → Nat → Prop) : Prop :=
  ∀ B, f[b]? = some B → (i + 1 < B.insts.length → P b (i + 1)) ∧
    (i + 1 = B.insts.length → ∀ b', B.term.next f.length b k = some b' → P b' 0)

/-- The conditions under which rewriting one instruction cannot be seen. -/
def RwOk (T : Target) (I : Interp Val Mem) (eff : Nat → Bool) (f : Func)
    (R : Nat → Nat → (Reg → Val) → (Reg → Val) → Prop) (b i : Nat) (x : Inst) (y : Option Inst) : Prop :=
  ∀ σ σ', R b i σ σ' →
    match y with
    | some y => eff y.op = eff x.op ∧ (eff x.op = true → y.op = x.op) ∧
      (∀ m ρ m' k, Eff T I x σ m ρ m' k → ∃ ρ', Eff T I y σ' m ρ' m' k ∧ After f b i k fun b i => R b i ρ ρ') ∧
      (∀ m ρ' m' k, Eff T I y σ' m ρ' m' k → ∃ ρ, Eff T I x σ m ρ m' k ∧ After f b i k fun b i => R b i ρ ρ')
    | none => eff x.op = false ∧ (∀ m k, ∃ ρ, Eff T I x σ m ρ m k) ∧
      (∀ m ρ m' k, Eff T I x σ m ρ m' k → m' = m ∧ After f b i k fun b i => R b i ρ σ')

/-- The same rewriting with deleted instructions replaced by `n`. -/
def Func.rewriteN (f : Func) (n : Nat) (r : Nat → Nat → Inst → Option Inst) : Func :=
  f.mapIdx fun b B => { B with insts := B.insts.mapIdx fun i x => (r b i x).getD { op := n, ops := [] } }

theorem filterMap_getD (n : Nat) : ∀ l : List (Option Inst), (∀ y, some y ∈ l → y.op ≠ n) →
    (l.map fun o => o.getD { op := n, ops := [] }).filter (fun x => decide (x.op ≠ n)) = l.filterMap id := by
  intro l
  induction l with
  | nil => intro _; rfl
  | cons a l ih =>
    intro h
    have ih := ih fun y hy => h y (List.mem_cons_of_mem _ hy)
    cases a with
    | none => rw [List.map_cons, List.filter_cons_of_neg (by simp), ih]; simp
    | some y =>
      have := h y (List.mem_cons_self ..)
      rw [List.map_cons, List.filter_cons_of_pos (by simpa using this), ih]; simp

theorem rewrite_eq_erase {n : Nat} {r : Nat → Nat → Inst → Option Inst} (h : (f.rewrite r).NoOp n) :
    f.rewrite r = (f.rewriteN n r).erase n := by
  unfold Func.rewrite Func.rewriteN Func.erase
  apply List.ext_getElem?
  intro b
  rw [List.getElem?_map, List.getElem?_mapIdx, List.getElem?_mapIdx]
  cases hB : f[b]? with
  | none => rfl
  | some B =>
    simp only [Option.map_some]
    congr 2
    rw [← filterMap_getD n]
    · congr 1
      apply List.ext_getElem?
      intro i
      rw [List.getElem?_map, List.getElem?_mapIdx, List.getElem?_mapIdx]
      cases B.insts[i]? <;> rfl
    · intro y hy
      refine h { B with insts := (B.insts.mapIdx fun i x => r b i x).filterMap id } ?_ y ?_
      · apply List.mem_of_getElem? (i := b)
        unfold Func.rewrite
        rw [List.getElem?_mapIdx, hB]; rfl
      · exact List.mem_filterMap.2 ⟨_, hy, rfl⟩

theorem rewriteN_get {n : Nat} {r : Nat → Nat → Inst → Option Inst} {b : Nat} {B' : Block}
    (h : (f.rewriteN n r)[b]? = some B') : ∃ B, f[b]? = some B ∧ B'.term = B.term ∧
      B'.insts = B.insts.mapIdx fun i x => (r b i x).getD { op := n, ops := [] } := by
  unfold Func.rewriteN at h
  rw [List.getElem?_mapIdx] at h
  cases hB : f[b]? with
  | none => rw [hB] at h; cases h
  | some B => rw [hB] at h; cases h; exact ⟨B, rfl, rfl, rfl⟩

theorem rewrite_get {r : Nat → Nat → Inst → Option Inst} {b : Nat} {B' : Block}
    (h : (f.rewrite r)[b]? = some B') : ∃ B, f[b]? = some B ∧ B'.term = B.term ∧
      B'.insts = (B.insts.mapIdx fun i x => r b i x).filterMap id := by
  unfold Func.rewrite at h
  rw [List.getElem?_mapIdx] at h
  cases hB : f[b]? with
  | none => rw [hB] at h; cases h
  | some B => rw [hB] at h; cases h; exact ⟨B, rfl, rfl, rfl⟩

theorem mem_rewrite {r : Nat → Nat → Inst → Option Inst} {B' : Block} {y : Inst}
    (hB : B' ∈ f.rewrite r) (hy : y ∈ B'.insts) : ∃ b B i x, f[b]? = some B ∧ B.insts[i]? = some x ∧ r b i x = some y := by
  obtain ⟨b, hb⟩ := List.mem_iff_getElem?.1 hB
  obtain ⟨B, h1, -, h3⟩ := rewrite_get hb
  rw [h3] at hy
  obtain ⟨o, ho, rfl⟩ := List.mem_filterMap.1 hy
  obtain ⟨i, hi⟩ := List.mem_iff_getElem?.1 ho
  rw [List.getElem?_mapIdx] at hi
  cases hx : B.insts[i]? with
  | none => rw [hx] at hi; cases hi
  | some x => rw [hx] at hi; simp at hi; exact ⟨b, B, i, x, h1, hx, hi⟩

theorem rewriteN_shape {n : Nat} {r : Nat → Nat → Inst → Option Inst} : Shape f (f.rewriteN n r) := by
  refine ⟨by unfold Func.rewriteN; simp, ?_⟩
  intro b B B' h1 h2
  obtain ⟨B0, h3, h4, h5⟩ := rewriteN_get h2
  rw [h1] at h3; cases h3
  exact ⟨by rw [h5]; simp, h4.symm⟩

theorem rewriteN_inst {n : Nat} {r : Nat → Nat → Inst → Option Inst} {b i : Nat} {B B' : Block} {x x' : Inst}
    (h1 : f[b]? = some B) (h2 : (f.rewriteN n r)[b]? = some B') (h3 : B.insts[i]? = some x)
    (h4 : B'.insts[i]? = some x') : x' = (r b i x).getD { op := n, ops := [] } := by
  obtain ⟨B0, h5, -, h6⟩ := rewriteN_get h2
  rw [h1] at h5; cases h5
  rw [h6, List.getElem?_mapIdx, h3] at h4
  exact (Option.some.inj h4).symm

theorem eff_bare {n : Nat} {σ ρ : Reg → Val} {m m' : Mem} {k : Nat} :
    Eff T (I.nop n) { op := n, ops := [] } σ m ρ m' k ↔ ρ = σ ∧ m' = m := by
  unfold Eff Interp.nop
  simp only [if_true, Inst.dsts, Inst.clob, Inst.defs, List.map_nil, List.filterMap_nil, List.append_nil,
    List.length_nil, writes]
  constructor
  · rintro ⟨vs, a, -, c⟩; exact ⟨c, a⟩
  · rintro ⟨a, c⟩; exact ⟨[], c, rfl, a⟩

/-- Rewriting every instruction under the conditions `RwOk` cannot be seen. -/
theorem rewrite_same (r : Nat → Nat → Inst → Option Inst)
    (R : Nat → Nat → (Reg → Val) → (Reg → Val) → Prop) (hR : ∀ σ, R 0 0 σ σ)
    (hl : ∀ B ∈ f, ∀ x, B.insts.getLast? = some x → eff x.op = true)
    (hk : ∀ b B i x, f[b]? = some B → B.insts[i]? = some x → eff x.op = true → (r b i x).isSome = true)
    (h : ∀ b B i x, f[b]? = some B → B.insts[i]? = some x → RwOk T I eff f R b i x (r b i x)) :
    Same T I eff f (f.rewrite r) := by
  obtain ⟨n, hn⟩ := exists_noOp [f, f.rewrite r]
  have hnf : f.NoOp n := hn f (by simp)
  have hng : (f.rewrite r).NoOp n := hn _ (by simp)
  have hry : ∀ b B i x y, f[b]? = some B → B.insts[i]? = some x → r b i x = some y → y.op ≠ n := by
    intro b B i x y hB hx hy
    refine hng { B with insts := (B.insts.mapIdx fun i x => r b i x).filterMap id } ?_ y ?_
    · apply List.mem_of_getElem? (i := b)
      unfold Func.rewrite
      rw [List.getElem?_mapIdx, hB]; rfl
    · refine List.mem_filterMap.2 ⟨some y, List.mem_of_getElem? (i := i) ?_, rfl⟩
      rw [List.getElem?_mapIdx, hx, ← hy]; rfl
  apply same_nop hnf hng
  rw [rewrite_eq_erase hng]
  have hgen : ∀ (b i : Nat) (B B' : Block) (x x' : Inst), f[b]? = some B → (f.rewriteN n r)[b]? = some B' →
      B.insts[i]? = some x → B'.insts[i]? = some x' →
      (∃ y, r b i x = some y ∧ x' = y) ∨ (r b i x = none ∧ x' = { op := n, ops := [] }) := by
    intro b i B B' x x' h1 h2 h3 h4
    have := rewriteN_inst h1 h2 h3 h4
    cases hr : r b i x with
    | some y => rw [hr] at this; exact .inl ⟨y, rfl, this⟩
    | none => rw [hr] at this; exact .inr ⟨rfl, this⟩
  have hAft : ∀ (b i k : Nat) (B : Block) (P : Nat → Nat → Prop), f[b]? = some B → After f b i k P →
      (i + 1 < B.insts.length → P b (i + 1)) ∧
      (i + 1 = B.insts.length → ∀ b', B.term.next f.length b k = some b' → P b' 0) :=
    fun b i k B P hB hA => hA B hB
  have hlen : f.length = (f.rewriteN n r).length := rewriteN_shape.len
  have L1 : Lock T (I.nop n) (fun op => eff op && op != n) f (f.rewriteN n r) R := by
    refine ⟨rewriteN_shape, ?_⟩
    intro b i B B' x x' σ σ' m ρ m' k h1 h2 h3 h4 hRs hE
    have hxn : x.op ≠ n := hnf B (List.mem_of_getElem? h1) x (List.mem_of_getElem? h3)
    rw [eff_nop_iff hxn] at hE
    have hok := h b B i x h1 h3 σ σ' hRs
    rcases hgen b i B B' x x' h1 h2 h3 h4 with ⟨y, hy, rfl⟩ | ⟨hy, rfl⟩
    · have hyn := hry b B i x x' h1 h3 hy
      rw [hy] at hok
      simp only at hok
      obtain ⟨o1, o2, o3, -⟩ := hok
      obtain ⟨ρ', e1, e2⟩ := o3 m ρ m' k hE
      refine ⟨by simp only [o1, bne_iff_ne.2 hxn, bne_iff_ne.2 hyn], fun hh => o2 (by simp at hh; exact hh.1), ρ', (eff_nop_iff hyn).2 e1, ?_⟩
      exact e2 B h1
    · rw [hy] at hok
      simp only at hok
      obtain ⟨o1, -, o3⟩ := hok
      obtain ⟨rfl, e2⟩ := o3 m ρ m' k hE
      refine ⟨by simp [o1], fun hh => by simp [o1] at hh, σ', eff_bare.2 ⟨rfl, rfl⟩, ?_⟩
      exact e2 B h1
  have L2 : Lock T (I.nop n) (fun op => eff op && op != n) (f.rewriteN n r) f (fun b i s t => R b i t s) := by
    refine ⟨rewriteN_shape.symm, ?_⟩
    intro b i B' B x' x σ' σ m ρ' m' k h2 h1 h4 h3 hRs hE
    have hxn : x.op ≠ n := hnf B (List.mem_of_getElem? h1) x (List.mem_of_getElem? h3)
    obtain ⟨sh1, sh2⟩ := (rewriteN_shape (f := f) (n := n) (r := r)).blk b B B' h1 h2
    have hok := h b B i x h1 h3 σ σ' hRs
    rw [← sh1, ← sh2, ← hlen]
    rcases hgen b i B B' x x' h1 h2 h3 h4 with ⟨y, hy, rfl⟩ | ⟨hy, rfl⟩
    · have hyn := hry b B i x x' h1 h3 hy
      rw [hy] at hok
      simp only at hok
      obtain ⟨o1, o2, -, o3⟩ := hok
      rw [eff_nop_iff hyn] at hE
      obtain ⟨ρ, e1, e2⟩ := o3 m ρ' m' k hE
      refine ⟨by simp only [o1, bne_iff_ne.2 hxn, bne_iff_ne.2 hyn], fun hh => (o2 (by simp at hh; rw [← o1]; exact hh.1)).symm, ρ,
        (eff_nop_iff hxn).2 e1, ?_⟩
      exact e2 B h1
    · rw [hy] at hok
      simp only at hok
      obtain ⟨o1, o2, o3⟩ := hok
      obtain ⟨rfl, rfl⟩ := eff_bare.1 hE
      obtain ⟨ρ, hρ⟩ := o2 m' k
      refine ⟨by simp [o1], fun hh => by simp at hh, ρ, (eff_nop_iff hxn).2 hρ, ?_⟩
      exact (o3 _ _ _ _ hρ).2 B h1
  refine Same.trans ⟨L1.incl hR, L2.incl hR⟩ (erase_same ?_)
  refine ⟨fun m vs m' k _ => by simp [Interp.nop], by simp, ?_, ?_⟩
  · intro B' hB' x' hx' ho
    obtain ⟨b, hb⟩ := List.mem_iff_getElem?.1 hB'
    obtain ⟨i, hi⟩ := List.mem_iff_getElem?.1 hx'
    obtain ⟨B, h1, h2, h3⟩ := rewriteN_get hb
    rw [h3, List.getElem?_mapIdx] at hi
    cases hx : B.insts[i]? with
    | none => rw [hx] at hi; cases hi
    | some x =>
      rw [hx] at hi
      simp only [Option.map_some, Option.some.injEq] at hi
      cases hr : r b i x with
      | none => rw [hr] at hi; subst hi; simp
      | some y =>
        rw [hr] at hi; subst hi
        exact absurd ho (hry b B i x y h1 hx hr)
  · intro B' hB' x' hx'
    obtain ⟨b, hb⟩ := List.mem_iff_getElem?.1 hB'
    obtain ⟨B, h1, h2, h3⟩ := rewriteN_get hb
    rw [List.getLast?_eq_getElem?, h3, List.getElem?_mapIdx] at hx'
    simp only [List.length_mapIdx] at hx'
    cases hx : B.insts[B.insts.length - 1]? with
    | none => rw [hx] at hx'; cases hx'
    | some x =>
      rw [hx] at hx'
      simp only [Option.map_some, Option.some.injEq] at hx'
      have hv := hl B (List.mem_of_getElem? h1) x (by rw [List.getLast?_eq_getElem?]; exact hx)
      have hs := hk b B _ x h1 hx hv
      cases hr : r b (B.insts.length - 1) x with
      | none => rw [hr] at hs; cases hs
      | some y =>
        rw [hr] at hx'; subst hx'
        exact hry b B _ x y h1 hx hr

end

end Cmmc.Mir
