import Verif.Mir.Scan

/-!
# Machine code as laid out in memory

After register allocation the block structure is rearranged: blocks are merged, duplicated, reordered, emptied and
removed, branches may stand in the middle of a block, and control falls through from each block to the next
(`/repo/cmmc/CodeGen/SimplifyCFG.cpp`, `TailDuplication.cpp`, `BlockLayoutOpt.cpp`, `ICF.cpp`; "the unique terminator
assumption is not true now"). Here a function is a list of labelled blocks, and running it means walking over the
instructions in layout order.
-/

namespace Cmmc.Mir

/-- What an instruction does to control (`matchBranch`, `matchUnconditionalBranch`, `matchConditionalBranch`,
    InstInfo.cpp:227-254; `InstFlagIndirectJump`; `InstFlagTerminator | InstFlagNoFallthrough` without a target:
    returns and `unreachable`). -/
inductive Br where
  | none
  | goto (t : Nat)
  | cond (t : Nat)
  | table (ts : List Nat)
  | stop
deriving DecidableEq, Repr

/-- An instruction together with where it may jump to. -/
structure FInst where
  inst : Inst
  br : Br
deriving DecidableEq, Repr

/-- A function: its blocks in layout order, each with its label. The first block is the entry. -/
abbrev Code := List (Nat × List FInst)

/-- The instructions in layout order. -/
def Code.flat (f : Code) : List FInst := f.flatMap Prod.snd

/-- The code from a label on. -/
def Code.at (f : Code) (t : Nat) : Option (List FInst) :=
  match f with
  | [] => none
  | (l, is) :: f => if l = t then some (is ++ Code.flat f) else Code.at f t

/-- Where control goes after instruction `x` followed by `r` when it takes way out `k`. -/
def Code.next (f : Code) (x : FInst) (r : List FInst) (k : Nat) : Option (List FInst) :=
  match x.br with
  | .none => some r
  | .goto t => f.at t
  | .cond t => if k = 0 then f.at t else some r
  | .table ts => ts[k]?.bind f.at
  | .stop => none

def FInst.stops (x : FInst) : Bool := match x.br with | .stop => true | _ => false

/-- Control cannot pass to the next instruction (`InstFlagTerminator | InstFlagNoFallthrough`). -/
def FInst.noFall (x : FInst) : Bool :=
  match x.br with
  | .goto _ => true
  | .table _ => true
  | .stop => true
  | _ => false

/-- The labels an instruction mentions. -/
def FInst.targets (x : FInst) : List Nat :=
  match x.br with
  | .goto t => [t]
  | .cond t => [t]
  | .table ts => ts
  | _ => []

section
variable {Val Mem : Type}

/-- The machine: the instructions still ahead, the registers, the memory. -/
structure FSt (Val Mem : Type) where
  c : List FInst
  σ : Reg → Val
  m : Mem

variable (T : Target) (I : Interp Val Mem) (vis : Nat → Bool)

/-- A run and what is seen of it: the visible instructions and the memory after each. -/
inductive FObs (f : Code) : FSt Val Mem → List (Nat × Mem) → FSt Val Mem → Prop
  | nil {s} : FObs f s [] s
  | cons {x r σ m ρ m' k d tr s} : Eff T I x.inst σ m ρ m' k → f.next x r k = some d → FObs f ⟨d, ρ, m'⟩ tr s →
      FObs f ⟨x :: r, σ, m⟩ (shown vis x.inst.op m' ++ tr) s

/-- The function is left (returned from) with memory `m'`. -/
def FLeaves (s : FSt Val Mem) (m' : Mem) : Prop :=
  ∃ x r ρ k, s.c = x :: r ∧ x.stops = true ∧ Eff T I x.inst s.σ s.m ρ m' k

/-- Everything that can be seen of `f` can be seen of `g`. -/
def FIncl (f g : Code) : Prop :=
  ∀ (σ : Reg → Val) (m : Mem) (tr : List (Nat × Mem)),
    ((∃ s, FObs T I vis f ⟨f.flat, σ, m⟩ tr s) → ∃ t, FObs T I vis g ⟨g.flat, σ, m⟩ tr t) ∧
    ∀ m', (∃ s, FObs T I vis f ⟨f.flat, σ, m⟩ tr s ∧ FLeaves T I s m') →
      ∃ t, FObs T I vis g ⟨g.flat, σ, m⟩ tr t ∧ FLeaves T I t m'

/-- Two functions cannot be told apart. -/
def FSame (f g : Code) : Prop := FIncl T I vis f g ∧ FIncl T I vis g f

variable {T I vis} {f g h : Code}

theorem FIncl.trans (a : FIncl T I vis f g) (b : FIncl T I vis g h) : FIncl T I vis f h := fun σ m tr =>
  ⟨fun x => (b σ m tr).1 ((a σ m tr).1 x), fun m' x => (b σ m tr).2 m' ((a σ m tr).2 m' x)⟩

theorem FSame.refl : FSame T I vis f f := ⟨fun _ _ _ => ⟨id, fun _ => id⟩, fun _ _ _ => ⟨id, fun _ => id⟩⟩
theorem FSame.symm (a : FSame T I vis f g) : FSame T I vis g f := ⟨a.2, a.1⟩
theorem FSame.trans (a : FSame T I vis f g) (b : FSame T I vis g h) : FSame T I vis f h := ⟨a.1.trans b.1, b.2.trans a.2⟩

/-- A branch does nothing but branch: no visible effect, registers and memory unchanged, and it always goes
    somewhere. -/
structure BrPure (T : Target) (I : Interp Val Mem) (vis : Nat → Bool) (x : Inst) : Prop where
  vis : vis x.op = false
  only : ∀ σ m ρ m' k, Eff T I x σ m ρ m' k → ρ = σ ∧ m' = m
  some : ∀ σ m, ∃ k, Eff T I x σ m σ m k

/-- Jumps and conditional branches do nothing but branch. -/
def BrOk (T : Target) (I : Interp Val Mem) (vis : Nat → Bool) (f : Code) : Prop :=
  ∀ B ∈ f, ∀ x ∈ B.2, (∃ t, x.br = .goto t ∨ x.br = .cond t) → BrPure T I vis x.inst

/-! ## Comparing two layouts -/

/-- The points of two layouts that correspond to each other: those in `S`, and those that do so after some jumps. -/
inductive Clo (T : Target) (I : Interp Val Mem) (vis : Nat → Bool) (f g : Code) (S : List FInst → List FInst → Prop) :
    List FInst → List FInst → Prop
  | base {c c'} : S c c' → Clo T I vis f g S c c'
  | left {x t r d c'} : x.br = .goto t → BrPure T I vis x.inst → f.at t = some d → Clo T I vis f g S d c' →
      Clo T I vis f g S (x :: r) c'
  | right {x t r c d} : x.br = .goto t → BrPure T I vis x.inst → g.at t = some d → Clo T I vis f g S c d →
      Clo T I vis f g S c (x :: r)

/-- Two instructions at corresponding points do the same and go to corresponding points. -/
structure Match (T : Target) (I : Interp Val Mem) (vis : Nat → Bool) (f g : Code) (Q : List FInst → List FInst → Prop)
    (x : FInst) (r : List FInst) (x' : FInst) (r' : List FInst) : Prop where
  seen : vis x'.inst.op = vis x.inst.op
  op : vis x.inst.op = true → x'.inst.op = x.inst.op
  fwd : ∀ σ m ρ m' k d, Eff T I x.inst σ m ρ m' k → f.next x r k = some d →
    ∃ k' d', Eff T I x'.inst σ m ρ m' k' ∧ g.next x' r' k' = some d' ∧ Q d d'
  bwd : ∀ σ m ρ m' k d', Eff T I x'.inst σ m ρ m' k → g.next x' r' k = some d' →
    ∃ k' d, Eff T I x.inst σ m ρ m' k' ∧ f.next x r k' = some d ∧ Q d d'
  stop : x.stops = x'.stops
  leave : x.stops = true → x'.inst = x.inst

/-- Corresponding points of two layouts. -/
def Sync (T : Target) (I : Interp Val Mem) (vis : Nat → Bool) (f g : Code) (S : List FInst → List FInst → Prop) : Prop :=
  ∀ c c', S c c' → (c = [] ∧ c' = []) ∨
    ∃ x r x' r', c = x :: r ∧ c' = x' :: r' ∧ Match T I vis f g (Clo T I vis f g S) x r x' r'

theorem Clo.symm {S : List FInst → List FInst → Prop} {c c' : List FInst} (h : Clo T I vis f g S c c') :
    Clo T I vis g f (fun a b => S b a) c' c := by
  induction h with
  | base h => exact .base h
  | left h1 h2 h3 _ ih => exact .right h1 h2 h3 ih
  | right h1 h2 h3 _ ih => exact .left h1 h2 h3 ih

theorem Sync.symm {S : List FInst → List FInst → Prop} (h : Sync T I vis f g S) : Sync T I vis g f (fun a b => S b a) := by
  intro c c' hs
  rcases h c' c hs with ⟨h1, h2⟩ | ⟨x, r, x', r', h1, h2, m⟩
  · exact .inl ⟨h2, h1⟩
  · refine .inr ⟨x', r', x, r, h2, h1, m.seen.symm, ?_, ?_, ?_, m.stop.symm, ?_⟩
    · intro hv
      exact (m.op (by rw [← m.seen]; exact hv)).symm
    · intro σ mm ρ mm' k d a b
      obtain ⟨k', d', e1, e2, e3⟩ := m.bwd σ mm ρ mm' k d a b
      exact ⟨k', d', e1, e2, e3.symm⟩
    · intro σ mm ρ mm' k d a b
      obtain ⟨k', d', e1, e2, e3⟩ := m.fwd σ mm ρ mm' k d a b
      exact ⟨k', d', e1, e2, e3.symm⟩
    · intro hs'
      exact (m.leave (by rw [m.stop]; exact hs')).symm

theorem FObs.append {s s' s'' : FSt Val Mem} {tr tr' : List (Nat × Mem)} (a : FObs T I vis f s tr s')
    (b : FObs T I vis f s' tr' s'') : FObs T I vis f s (tr ++ tr') s'' := by
  induction a with
  | nil => exact b
  | cons h1 h2 _ ih => rw [List.append_assoc]; exact .cons h1 h2 (ih b)

theorem step_goto {x : FInst} {t : Nat} {r d : List FInst} {σ : Reg → Val} {m : Mem} (h1 : x.br = .goto t)
    (h2 : BrPure T I vis x.inst) (h3 : f.at t = some d) : FObs T I vis f ⟨x :: r, σ, m⟩ [] ⟨d, σ, m⟩ := by
  obtain ⟨k, hk⟩ := h2.some σ m
  have := FObs.cons (vis := vis) (f := f) (r := r) (d := d) (tr := []) hk (by simp [Code.next, h1, h3]) .nil
  simpa [shown, h2.vis] using this

/-- One step of `f` from a corresponding point. -/
theorem clo_step {S : List FInst → List FInst → Prop} (h : Sync T I vis f g S) {c c' : List FInst}
    (hQ : Clo T I vis f g S c c') : ∀ x r σ m ρ m' k d, c = x :: r → Eff T I x.inst σ m ρ m' k → f.next x r k = some d →
      ∃ d', FObs T I vis g ⟨c', σ, m⟩ (shown vis x.inst.op m') ⟨d', ρ, m'⟩ ∧ Clo T I vis f g S d d' := by
  induction hQ with
  | base hs =>
    rintro x r σ m ρ m' k d rfl hE hn
    rcases h _ _ hs with ⟨h1, -⟩ | ⟨y, s, y', s', h1, h2, hm⟩
    · cases h1
    · cases h1
      obtain ⟨k', d', e1, e2, e3⟩ := hm.fwd σ m ρ m' k d hE hn
      refine ⟨d', ?_, e3⟩
      have := FObs.cons (vis := vis) e1 e2 (.nil (s := ⟨d', ρ, m'⟩))
      rw [List.append_nil] at this
      subst h2
      have e : shown vis y'.inst.op m' = shown vis x.inst.op m' := by
        unfold shown
        rw [hm.seen]
        split
        · rw [hm.op (by assumption)]
        · rfl
      rw [← e]; exact this
  | left h1 h2 h3 hq ih =>
    rintro x r σ m ρ m' k d he hE hn
    cases he
    obtain ⟨rfl, rfl⟩ := h2.only _ _ _ _ _ hE
    simp only [Code.next, h1, h3] at hn
    cases hn
    exact ⟨_, by simp [shown, h2.vis]; exact .nil, hq⟩
  | right h1 h2 h3 hq ih =>
    rintro x r σ m ρ m' k d rfl hE hn
    obtain ⟨d', o, q⟩ := ih x r σ m ρ m' k d rfl hE hn
    exact ⟨d', by simpa using (step_goto h1 h2 h3).append o, q⟩

theorem clo_leave {S : List FInst → List FInst → Prop} (h : Sync T I vis f g S) {c c' : List FInst}
    (hQ : Clo T I vis f g S c c') : ∀ σ m m', FLeaves T I ⟨c, σ, m⟩ m' →
      ∃ d', FObs T I vis g ⟨c', σ, m⟩ [] ⟨d', σ, m⟩ ∧ FLeaves T I ⟨d', σ, m⟩ m' := by
  induction hQ with
  | base hs =>
    rintro σ m m' ⟨x, r, ρ, k, he, hst, hE⟩
    simp only at he hE
    rcases h _ _ hs with ⟨h1, -⟩ | ⟨y, s, y', s', h1, h2, hm⟩
    · rw [h1] at he; cases he
    · rw [h1] at he; cases he
      refine ⟨_, .nil, y', s', ρ, k, h2, ?_, ?_⟩
      · rw [← hm.stop]; exact hst
      · rw [hm.leave hst]; exact hE
  | left h1 h2 h3 hq ih =>
    rintro σ m m' ⟨x, r, ρ, k, he, hst, hE⟩
    simp only at he hE
    cases he
    simp [FInst.stops, h1] at hst
  | right h1 h2 h3 hq ih =>
    intro σ m m' hl
    obtain ⟨d', o, q⟩ := ih σ m m' hl
    exact ⟨d', by simpa using (step_goto h1 h2 h3).append o, q⟩

theorem clo_obs {S : List FInst → List FInst → Prop} (h : Sync T I vis f g S) {s s' : FSt Val Mem} {tr : List (Nat × Mem)}
    (ho : FObs T I vis f s tr s') : ∀ c', Clo T I vis f g S s.c c' →
      ∃ d', FObs T I vis g ⟨c', s.σ, s.m⟩ tr ⟨d', s'.σ, s'.m⟩ ∧ Clo T I vis f g S s'.c d' := by
  induction ho with
  | nil => intro c' hc; exact ⟨c', .nil, hc⟩
  | cons h1 h2 _ ih =>
    intro c' hc
    obtain ⟨d', o, q⟩ := clo_step h hc _ _ _ _ _ _ _ _ rfl h1 h2
    obtain ⟨d'', o', q'⟩ := ih d' q
    exact ⟨d'', o.append o', q'⟩

theorem sync_incl {S : List FInst → List FInst → Prop} (h : Sync T I vis f g S) (h0 : Clo T I vis f g S f.flat g.flat) :
    FIncl T I vis f g := by
  intro σ m tr
  constructor
  · rintro ⟨s, hs⟩
    obtain ⟨d', o, -⟩ := clo_obs h hs _ h0
    exact ⟨_, o⟩
  · rintro m' ⟨s, hs, hl⟩
    obtain ⟨d', o, q⟩ := clo_obs h hs _ h0
    obtain ⟨d'', o', l⟩ := clo_leave h q s.σ s.m m' hl
    exact ⟨_, by simpa using o.append o', l⟩

/-- Two layouts with corresponding points cannot be told apart. -/
theorem sync_same {S : List FInst → List FInst → Prop} (h : Sync T I vis f g S) (h0 : Clo T I vis f g S f.flat g.flat) :
    FSame T I vis f g :=
  ⟨sync_incl h h0, sync_incl h.symm h0.symm⟩

/-- The same instruction at both points. -/
theorem match_same {Q : List FInst → List FInst → Prop} {x : FInst} {r : List FInst} {x' : FInst} {r' : List FInst}
    (hi : x'.inst = x.inst) (hs : x.stops = x'.stops)
    (h1 : ∀ k d, f.next x r k = some d → ∃ d', g.next x' r' k = some d' ∧ Q d d')
    (h2 : ∀ k d', g.next x' r' k = some d' → ∃ d, f.next x r k = some d ∧ Q d d') : Match T I vis f g Q x r x' r' where
  seen := by rw [hi]
  op := fun _ => by rw [hi]
  fwd := fun σ m ρ m' k d hE hn => by
    obtain ⟨d', a, b⟩ := h1 k d hn
    exact ⟨k, d', by rw [hi]; exact hE, a, b⟩
  bwd := fun σ m ρ m' k d hE hn => by
    obtain ⟨d', a, b⟩ := h2 k d hn
    exact ⟨k, d', by rw [← hi]; exact hE, a, b⟩
  stop := hs
  leave := fun _ => hi

end

end Cmmc.Mir
