import Verif.Mir.Sem

/-!
# What can be observed of machine code, and how to compare two versions of a function

The passes after instruction selection (`/repo/cmmc/CodeGen/Peephole.cpp`, spilling in
`GraphColoringRegisterAllocator.cpp`, …) delete, insert and replace instructions. Observable are the
instructions with side effects (`InstFlagSideEffect`, InstInfo.hpp:52-53: loads, stores, calls, branches,
returns), in order, with the memory after each.
-/

namespace Cmmc.Mir

section
variable {Val Mem : Type}

/-- The effect of one instruction on the registers and memory; `k` is the way out taken. -/
def Eff (T : Target) (I : Interp Val Mem) (i : Inst) (σ : Reg → Val) (m : Mem) (ρ : Reg → Val) (m' : Mem)
    (k : Nat) : Prop :=
  ∃ vs, I i.op (i.reads σ) m vs m' k ∧ vs.length = (i.dsts T).length ∧ ρ = writes σ (i.dsts T) vs

/-- The opcode of the instruction about to be executed. -/
def opAt (f : Func) (b i : Nat) : Option Nat := f[b]?.bind fun B => B.insts[i]?.map Inst.op

/-- A run and what is seen of it: the instructions with side effects and the memory after each. -/
inductive Obs (T : Target) (I : Interp Val Mem) (eff : Nat → Bool) (f : Func) :
    St Val Mem → List (Nat × Mem) → St Val Mem → Prop
  | nil {s} : Obs T I eff f s [] s
  | vis {s s' s'' op tr} : Step T I f s s' → opAt f s.b s.i = some op → eff op = true →
      Obs T I eff f s' tr s'' → Obs T I eff f s ((op, s'.m) :: tr) s''
  | sil {s s' s'' op tr} : Step T I f s s' → opAt f s.b s.i = some op → eff op = false →
      Obs T I eff f s' tr s'' → Obs T I eff f s tr s''

/-- Everything that can be seen of `f` can be seen of `g`: every sequence of visible instructions, and every
    way of leaving the function after one. -/
def Incl (T : Target) (I : Interp Val Mem) (eff : Nat → Bool) (f g : Func) : Prop :=
  ∀ (σ : Reg → Val) (m : Mem) (tr : List (Nat × Mem)),
    ((∃ s, Obs T I eff f ⟨0, 0, σ, m⟩ tr s) → ∃ t, Obs T I eff g ⟨0, 0, σ, m⟩ tr t) ∧
    ∀ m', (∃ s, Obs T I eff f ⟨0, 0, σ, m⟩ tr s ∧ Leaves T I f s m') →
      ∃ t, Obs T I eff g ⟨0, 0, σ, m⟩ tr t ∧ Leaves T I g t m'

/-- Two functions cannot be told apart. -/
def Same (T : Target) (I : Interp Val Mem) (eff : Nat → Bool) (f g : Func) : Prop :=
  Incl T I eff f g ∧ Incl T I eff g f

theorem Incl.trans {T : Target} {I : Interp Val Mem} {eff : Nat → Bool} {f g h : Func}
    (a : Incl T I eff f g) (b : Incl T I eff g h) : Incl T I eff f h := fun σ m tr =>
  ⟨fun x => (b σ m tr).1 ((a σ m tr).1 x), fun m' x => (b σ m tr).2 m' ((a σ m tr).2 m' x)⟩

theorem Incl.refl {T : Target} {I : Interp Val Mem} {eff : Nat → Bool} {f : Func} : Incl T I eff f f :=
  fun _ _ _ => ⟨id, fun _ => id⟩

theorem Same.refl {T : Target} {I : Interp Val Mem} {eff : Nat → Bool} {f : Func} : Same T I eff f f :=
  ⟨Incl.refl, Incl.refl⟩

theorem Same.symm {T : Target} {I : Interp Val Mem} {eff : Nat → Bool} {f g : Func}
    (a : Same T I eff f g) : Same T I eff g f := ⟨a.2, a.1⟩

theorem Same.trans {T : Target} {I : Interp Val Mem} {eff : Nat → Bool} {f g h : Func}
    (a : Same T I eff f g) (b : Same T I eff g h) : Same T I eff f h := ⟨a.1.trans b.1, b.2.trans a.2⟩

/-! ## Steps in terms of effects -/

variable {T : Target} {I : Interp Val Mem} {eff : Nat → Bool} {f g : Func}

theorem step_iff {s s' : St Val Mem} : Step T I f s s' ↔
    ∃ B inst k, f[s.b]? = some B ∧ B.insts[s.i]? = some inst ∧ Eff T I inst s.σ s.m s'.σ s'.m k ∧
      ((s.i + 1 < B.insts.length ∧ s'.b = s.b ∧ s'.i = s.i + 1) ∨
       (s.i + 1 = B.insts.length ∧ B.term.next f.length s.b k = some s'.b ∧ s'.i = 0)) := by
  constructor
  · intro h
    cases h with
    | seq h1 h2 h3 h4 h5 => exact ⟨_, _, _, h1, h2, ⟨_, h4, h5, rfl⟩, .inl ⟨h3, rfl, rfl⟩⟩
    | jump h1 h2 h3 h4 h5 h6 => exact ⟨_, _, _, h1, h2, ⟨_, h4, h5, rfl⟩, .inr ⟨h3, h6, rfl⟩⟩
  · obtain ⟨b, i, σ, m⟩ := s
    obtain ⟨b', i', σ', m'⟩ := s'
    rintro ⟨B, inst, k, h1, h2, ⟨vs, h4, h5, h6⟩, ⟨h3, h7, h8⟩ | ⟨h3, h7, h8⟩⟩
    · simp only at *; subst h6 h7 h8; exact .seq h1 h2 h3 h4 h5
    · simp only at *; subst h6 h8; exact .jump h1 h2 h3 h4 h5 h7

theorem leaves_iff {s : St Val Mem} {m' : Mem} : Leaves T I f s m' ↔
    ∃ B inst ρ k, f[s.b]? = some B ∧ B.insts[s.i]? = some inst ∧ s.i + 1 = B.insts.length ∧
      Eff T I inst s.σ s.m ρ m' k ∧ B.term.next f.length s.b k = none := by
  unfold Leaves
  constructor
  · rintro ⟨B, inst, vs, k, h1, h2, h3, h4, h5, h6⟩
    exact ⟨B, inst, _, k, h1, h2, h3, ⟨vs, h4, h5, rfl⟩, h6⟩
  · rintro ⟨B, inst, ρ, k, h1, h2, h3, ⟨vs, h4, h5, -⟩, h6⟩
    exact ⟨B, inst, vs, k, h1, h2, h3, h4, h5, h6⟩

theorem opAt_eq {b i : Nat} {B : Block} {inst : Inst} (h1 : f[b]? = some B) (h2 : B.insts[i]? = some inst) :
    opAt f b i = some inst.op := by
  simp [opAt, h1, h2]

theorem Obs.append {s s' s'' : St Val Mem} {tr tr' : List (Nat × Mem)} (h : Obs T I eff f s tr s')
    (h' : Obs T I eff f s' tr' s'') : Obs T I eff f s (tr ++ tr') s'' := by
  induction h with
  | nil => exact h'
  | vis a b c _ ih => exact .vis a b c (ih h')
  | sil a b c _ ih => exact .sil a b c (ih h')

/-- What one step shows. -/
def shown (eff : Nat → Bool) (op : Nat) (m : Mem) : List (Nat × Mem) := if eff op then [(op, m)] else []

theorem Obs.one {s s' : St Val Mem} {op : Nat} (h : Step T I f s s') (ho : opAt f s.b s.i = some op) :
    Obs T I eff f s (shown eff op s'.m) s' := by
  unfold shown
  split
  · exact .vis h ho (by assumption) .nil
  · rename_i hh; exact .sil h ho (by simpa using hh) .nil

/-- A simulation: each step of `f` is matched by steps of `g` showing the same. -/
structure Sim (T : Target) (I : Interp Val Mem) (eff : Nat → Bool) (f g : Func)
    (R : St Val Mem → St Val Mem → Prop) : Prop where
  step : ∀ s t s' op, R s t → Step T I f s s' → opAt f s.b s.i = some op →
    ∃ t', Obs T I eff g t (shown eff op s'.m) t' ∧ R s' t'
  leave : ∀ s t m', R s t → Leaves T I f s m' → ∃ t', Obs T I eff g t [] t' ∧ Leaves T I g t' m'

theorem Sim.obs {R : St Val Mem → St Val Mem → Prop} (h : Sim T I eff f g R) {s s' : St Val Mem}
    {tr : List (Nat × Mem)} (ho : Obs T I eff f s tr s') :
    ∀ t, R s t → ∃ t', Obs T I eff g t tr t' ∧ R s' t' := by
  induction ho with
  | nil => intro t ht; exact ⟨t, .nil, ht⟩
  | vis a b c _ ih =>
    intro t ht
    obtain ⟨t1, h1, h2⟩ := h.step _ _ _ _ ht a b
    obtain ⟨t2, h3, h4⟩ := ih t1 h2
    refine ⟨t2, ?_, h4⟩
    have := h1.append h3
    simpa [shown, c] using this
  | sil a b c _ ih =>
    intro t ht
    obtain ⟨t1, h1, h2⟩ := h.step _ _ _ _ ht a b
    obtain ⟨t2, h3, h4⟩ := ih t1 h2
    refine ⟨t2, ?_, h4⟩
    have := h1.append h3
    simpa [shown, c] using this

theorem Sim.incl {R : St Val Mem → St Val Mem → Prop} (h : Sim T I eff f g R)
    (h0 : ∀ σ m, R ⟨0, 0, σ, m⟩ ⟨0, 0, σ, m⟩) : Incl T I eff f g := by
  intro σ m tr
  constructor
  · rintro ⟨s, hs⟩
    obtain ⟨t, ht, -⟩ := h.obs hs _ (h0 σ m)
    exact ⟨t, ht⟩
  · rintro m' ⟨s, hs, hl⟩
    obtain ⟨t, ht, hr⟩ := h.obs hs _ (h0 σ m)
    obtain ⟨t', h1, h2⟩ := h.leave _ _ _ hr hl
    exact ⟨t', by simpa using ht.append h1, h2⟩

/-! ## Replacing instructions one by one -/

/-- The two functions have the same blocks with equally many instructions and the same ways out. -/
structure Shape (f g : Func) : Prop where
  len : f.length = g.length
  blk : ∀ (b : Nat) (B B' : Block), f[b]? = some B → g[b]? = some B' → B.insts.length = B'.insts.length ∧ B.term = B'.term

theorem Shape.symm (h : Shape f g) : Shape g f :=
  ⟨h.len.symm, fun b B B' h1 h2 => by obtain ⟨a, c⟩ := h.blk b B' B h2 h1; exact ⟨a.symm, c.symm⟩⟩

theorem Shape.get (h : Shape f g) {b : Nat} {B : Block} (hB : f[b]? = some B) : ∃ B', g[b]? = some B' := by
  have : b < g.length := by rw [← h.len]; exact (List.getElem?_eq_some_iff.1 hB).1
  exact ⟨_, List.getElem?_eq_getElem this⟩

theorem Shape.inst (h : Shape f g) {b i : Nat} {B B' : Block} {x : Inst} (hB : f[b]? = some B)
    (hB' : g[b]? = some B') (hi : B.insts[i]? = some x) : ∃ x', B'.insts[i]? = some x' := by
  have : i < B'.insts.length := by
    rw [← (h.blk b B B' hB hB').1]; exact (List.getElem?_eq_some_iff.1 hi).1
  exact ⟨_, List.getElem?_eq_getElem this⟩

/-- Instruction by instruction, `g` can do what `f` does; `R` relates the registers at each point. -/
structure Lock (T : Target) (I : Interp Val Mem) (eff : Nat → Bool) (f g : Func)
    (R : Nat → Nat → (Reg → Val) → (Reg → Val) → Prop) : Prop where
  shape : Shape f g
  step : ∀ (b i : Nat) (B B' : Block) (x x' : Inst) (σ σ' : Reg → Val) (m : Mem) (ρ : Reg → Val) (m' : Mem) (k : Nat), f[b]? = some B → g[b]? = some B' →
    B.insts[i]? = some x → B'.insts[i]? = some x' → R b i σ σ' → Eff T I x σ m ρ m' k →
    eff x'.op = eff x.op ∧ (eff x.op = true → x'.op = x.op) ∧
    ∃ ρ', Eff T I x' σ' m ρ' m' k ∧
      (i + 1 < B.insts.length → R b (i + 1) ρ ρ') ∧
      (i + 1 = B.insts.length → ∀ b', B.term.next f.length b k = some b' → R b' 0 ρ ρ')

theorem Lock.sim {R : Nat → Nat → (Reg → Val) → (Reg → Val) → Prop} (h : Lock T I eff f g R) :
    Sim T I eff f g (fun s t => s.b = t.b ∧ s.i = t.i ∧ s.m = t.m ∧ R s.b s.i s.σ t.σ) := by
  constructor
  · rintro ⟨b, i, σ, m⟩ ⟨b1, i1, σ1, m1⟩ ⟨b', i', ρ, m'⟩ op ⟨h1, h2, h3, hR⟩ hs ho
    simp only at h1 h2 h3 hR
    subst h1 h2 h3
    obtain ⟨B, x, k, hB, hx, hE, hn⟩ := step_iff.1 hs
    simp only at hB hx hE hn
    obtain ⟨B', hB'⟩ := h.shape.get hB
    obtain ⟨x', hx'⟩ := h.shape.inst hB hB' hx
    obtain ⟨e1, e2, ρ', hE', r1, r2⟩ := h.step b i B B' x x' σ σ1 m ρ m' k hB hB' hx hx' hR hE
    obtain ⟨hl, ht⟩ := h.shape.blk b B B' hB hB'
    have hs' : Step T I g ⟨b, i, σ1, m⟩ ⟨b', i', ρ', m'⟩ := by
      rw [step_iff]
      refine ⟨B', x', k, hB', hx', hE', ?_⟩
      simp only
      rw [← hl, ← ht, ← h.shape.len]
      exact hn
    refine ⟨⟨b', i', ρ', m'⟩, ?_, rfl, rfl, rfl, ?_⟩
    · have hop : op = x.op := by
        rw [opAt_eq hB hx] at ho; exact (Option.some.inj ho).symm
      subst hop
      have := Obs.one (eff := eff) hs' (opAt_eq hB' hx')
      have e : shown eff x'.op m' = shown eff x.op m' := by
        unfold shown
        rw [e1]
        split
        · rw [e2 (by assumption)]
        · rfl
      simpa [e] using this
    · rcases hn with ⟨a1, rfl, rfl⟩ | ⟨a1, a2, rfl⟩
      · exact r1 a1
      · exact r2 a1 _ a2
  · rintro ⟨b, i, σ, m⟩ ⟨b1, i1, σ1, m1⟩ m' ⟨h1, h2, h3, hR⟩ hl
    simp only at h1 h2 h3 hR
    subst h1 h2 h3
    obtain ⟨B, x, ρ, k, hB, hx, hi, hE, hn⟩ := leaves_iff.1 hl
    simp only at hB hx hE hn hi
    obtain ⟨B', hB'⟩ := h.shape.get hB
    obtain ⟨x', hx'⟩ := h.shape.inst hB hB' hx
    obtain ⟨e1, e2, ρ', hE', r1, r2⟩ := h.step b i B B' x x' σ σ1 m ρ m' k hB hB' hx hx' hR hE
    obtain ⟨hl, ht⟩ := h.shape.blk b B B' hB hB'
    refine ⟨⟨b, i, σ1, m⟩, .nil, leaves_iff.2 ⟨B', x', ρ', k, hB', hx', ?_, hE', ?_⟩⟩
    · simp only; rw [← hl]; exact hi
    · simp only; rw [← ht, ← h.shape.len]; exact hn

theorem Lock.incl {R : Nat → Nat → (Reg → Val) → (Reg → Val) → Prop} (h : Lock T I eff f g R)
    (h0 : ∀ σ, R 0 0 σ σ) : Incl T I eff f g :=
  h.sim.incl fun σ _ => ⟨rfl, rfl, rfl, h0 σ⟩

/-! ## Removing instructions that do nothing -/

/-- Drop the instructions with the given opcode. -/
def Func.erase (f : Func) (nop : Nat) : Func :=
  f.map fun B => { B with insts := B.insts.filter fun x => x.op ≠ nop }

/-- `nop` stands for an instruction that does nothing: it has no operands where it is used, and never ends a
    block. (The model's own marker for a deleted or not yet inserted instruction.) -/
structure NopOk (I : Interp Val Mem) (eff : Nat → Bool) (nop : Nat) (f : Func) : Prop where
  sem : ∀ m vs m' k, vs = [] → (I nop [] m vs m' k ↔ m' = m)
  eff : eff nop = false
  bare : ∀ B ∈ f, ∀ x ∈ B.insts, x.op = nop → x.ops = [] ∧ x.args = [] ∧ x.call = none
  last : ∀ B ∈ f, ∀ x, B.insts.getLast? = some x → x.op ≠ nop

theorem eff_nop {nop : Nat} (h : NopOk I eff nop f) {B : Block} (hB : B ∈ f) {x : Inst} (hx : x ∈ B.insts)
    (ho : x.op = nop) {σ ρ : Reg → Val} {m m' : Mem} {k : Nat} :
    Eff T I x σ m ρ m' k ↔ ρ = σ ∧ m' = m := by
  obtain ⟨h1, h2, h3⟩ := h.bare B hB x hx ho
  have hr : x.reads σ = [] := by simp [Inst.reads, Inst.uses, h1, h2]
  have hd : x.dsts T = [] := by simp [Inst.dsts, Inst.clob, Inst.defs, h1, h3]
  unfold Eff
  rw [hr, hd, ho]
  constructor
  · rintro ⟨vs, a, b, c⟩
    have : vs = [] := List.length_eq_zero_iff.1 (by simpa using b)
    subst this
    exact ⟨by simpa [writes] using c, (h.sem m [] m' k rfl).1 a⟩
  · rintro ⟨rfl, rfl⟩
    exact ⟨[], (h.sem _ [] _ k rfl).2 rfl, rfl, rfl⟩

theorem filter_take_get {α : Type} (p : α → Bool) : ∀ (l : List α) (i : Nat) (x : α), l[i]? = some x → p x = true →
    (l.filter p)[((l.take i).filter p).length]? = some x := by
  intro l
  induction l with
  | nil => intro i x h; simp at h
  | cons a l ih =>
    intro i x h hp
    cases i with
    | zero => simp at h; subst h; simp [hp]
    | succ i =>
      simp only [List.getElem?_cons_succ] at h
      have := ih i x h hp
      by_cases ha : p a = true
      · simp [List.filter_cons, ha, this]
      · simp [List.filter_cons, ha, this]

theorem filter_take_succ {α : Type} (p : α → Bool) (l : List α) (i : Nat) (x : α) (h : l[i]? = some x) :
    ((l.take (i + 1)).filter p).length = ((l.take i).filter p).length + if p x then 1 else 0 := by
  rw [List.take_add_one, List.filter_append, List.length_append, h]
  simp only [Option.toList_some, List.filter_cons, List.filter_nil]
  split <;> simp

theorem filter_take_lt {α : Type} (p : α → Bool) (l : List α) (i : Nat) (x : α) (h : l[i]? = some x)
    (hp : p x = true) (hl : ∀ y, l.getLast? = some y → p y = true) :
    (i + 1 < l.length ↔ ((l.take i).filter p).length + 1 < (l.filter p).length) ∧
    (i + 1 = l.length ↔ ((l.take i).filter p).length + 1 = (l.filter p).length) := by
  have hlt : i < l.length := (List.getElem?_eq_some_iff.1 h).1
  have e : l.filter p = (l.take (i + 1)).filter p ++ (l.drop (i + 1)).filter p := by
    rw [← List.filter_append, List.take_append_drop]
  have e2 := filter_take_succ p l i x h
  rw [if_pos hp] at e2
  have e3 : (l.filter p).length = ((l.take i).filter p).length + 1 + ((l.drop (i + 1)).filter p).length := by
    rw [e, List.length_append, e2]
  have key : i + 1 < l.length → 0 < ((l.drop (i + 1)).filter p).length := by
    intro hlt'
    obtain ⟨y, hy⟩ : ∃ y, l.getLast? = some y := by
      cases hh : l.getLast? with
      | none => rw [List.getLast?_eq_none_iff] at hh; subst hh; simp at hlt
      | some y => exact ⟨y, rfl⟩
    have hm : y ∈ l.drop (i + 1) := by
      rw [List.getLast?_eq_getElem?] at hy
      apply List.mem_of_getElem? (i := l.length - 1 - (i + 1))
      rw [List.getElem?_drop, ← hy]
      congr 1; omega
    exact List.length_pos_of_mem (List.mem_filter.2 ⟨hm, hl y hy⟩)
  have key2 : i + 1 = l.length → ((l.drop (i + 1)).filter p).length = 0 := by
    intro he; rw [List.drop_of_length_le (by omega)]; rfl
  constructor
  · constructor
    · intro a; have := key a; omega
    · intro a
      by_contra hc
      have := key2 (by omega); omega
  · constructor
    · intro a; have := key2 a; omega
    · intro a
      by_contra hc
      have := key (by omega); omega

theorem erase_get {nop b : Nat} {B : Block} (h : f[b]? = some B) :
    (f.erase nop)[b]? = some { B with insts := B.insts.filter fun x => x.op ≠ nop } := by
  unfold Func.erase; rw [List.getElem?_map, h]; rfl

theorem erase_length {nop : Nat} : (f.erase nop).length = f.length := by unfold Func.erase; simp

/-- The index after dropping. -/
def newIdx (nop : Nat) (B : Block) (i : Nat) : Nat := ((B.insts.take i).filter fun x => x.op ≠ nop).length

theorem erase_sim {nop : Nat} (h : NopOk I eff nop f) : Sim T I eff f (f.erase nop)
    (fun s t => s.b = t.b ∧ s.m = t.m ∧ s.σ = t.σ ∧ ∀ B, f[s.b]? = some B → t.i = newIdx nop B s.i) := by
  constructor
  · rintro ⟨b, i, σ, m⟩ ⟨b1, i1, σ1, m1⟩ ⟨b', i', ρ, m'⟩ op ⟨h1, h2, h3, hR⟩ hs ho
    simp only at h1 h2 h3 hR
    subst h1 h2 h3
    obtain ⟨B, x, k, hB, hx, hE, hn⟩ := step_iff.1 hs
    simp only at hB hx hE hn
    have hBm := List.mem_of_getElem? hB
    have hxm := List.mem_of_getElem? hx
    have hop : op = x.op := by
      rw [opAt_eq hB hx] at ho; exact (Option.some.inj ho).symm
    subst hop
    have hi1 := hR B hB
    subst hi1
    by_cases hnop : x.op = nop
    · have hlast : i + 1 < B.insts.length := by
        rcases hn with ⟨a, -⟩ | ⟨a, -⟩
        · exact a
        · refine absurd hnop (h.last B hBm x ?_)
          rw [List.getLast?_eq_getElem?, ← hx]; congr 1; omega
      obtain ⟨rfl, rfl⟩ := (eff_nop h hBm hxm hnop).1 hE
      rcases hn with ⟨a, rfl, rfl⟩ | ⟨a, -⟩
      · refine ⟨⟨b', newIdx nop B i, ρ, m'⟩, ?_, rfl, rfl, rfl, ?_⟩
        · simp only [shown, hnop, h.eff]; exact .nil
        · intro B1 hB1
          simp only at hB1
          rw [hB] at hB1; cases hB1
          unfold newIdx
          rw [filter_take_succ _ _ _ _ hx]
          simp [hnop]
      · omega
    · have hp : (decide (x.op ≠ nop)) = true := by simpa using hnop
      have hget := filter_take_get (fun x : Inst => decide (x.op ≠ nop)) B.insts i x hx hp
      have hlt := filter_take_lt (fun x : Inst => decide (x.op ≠ nop)) B.insts i x hx hp
        (fun y hy => by simpa using h.last B hBm y hy)
      have hs' : Step T I (f.erase nop) ⟨b, newIdx nop B i, σ, m⟩
          ⟨b', if i + 1 < B.insts.length then newIdx nop B i + 1 else 0, ρ, m'⟩ := by
        rw [step_iff]
        refine ⟨_, x, k, erase_get hB, hget, hE, ?_⟩
        simp only [erase_length]
        rcases hn with ⟨a, a2, a3⟩ | ⟨a, a2, a3⟩
        · exact .inl ⟨hlt.1.1 a, a2, by rw [if_pos a]⟩
        · exact .inr ⟨hlt.2.1 a, a2, by rw [if_neg (by omega)]⟩
      refine ⟨⟨b', if i + 1 < B.insts.length then newIdx nop B i + 1 else 0, ρ, m'⟩,
        Obs.one hs' (opAt_eq (erase_get hB) hget), rfl, rfl, rfl, ?_⟩
      intro B1 hB1
      simp only at hB1
      rcases hn with ⟨a, rfl, rfl⟩ | ⟨a, a2, rfl⟩
      · rw [hB] at hB1; cases hB1
        unfold newIdx
        simp only
        rw [filter_take_succ _ _ _ _ hx, if_pos hp, if_pos a]
      · simp only
        rw [if_neg (by omega)]; simp [newIdx]
  · rintro ⟨b, i, σ, m⟩ ⟨b1, i1, σ1, m1⟩ m' ⟨h1, h2, h3, hR⟩ hl
    simp only at h1 h2 h3 hR
    subst h1 h2 h3
    obtain ⟨B, x, ρ, k, hB, hx, hi, hE, hn⟩ := leaves_iff.1 hl
    simp only at hB hx hE hn hi
    have hBm := List.mem_of_getElem? hB
    have hi1 := hR B hB
    subst hi1
    have hnop : x.op ≠ nop := by
      refine h.last B hBm x ?_
      rw [List.getLast?_eq_getElem?, ← hx]; congr 1; omega
    have hp : (decide (x.op ≠ nop)) = true := by simpa using hnop
    have hget := filter_take_get (fun x : Inst => decide (x.op ≠ nop)) B.insts i x hx hp
    have hlt := filter_take_lt (fun x : Inst => decide (x.op ≠ nop)) B.insts i x hx hp
      (fun y hy => by simpa using h.last B hBm y hy)
    exact ⟨⟨b, newIdx nop B i, σ, m⟩, .nil,
      leaves_iff.2 ⟨_, x, ρ, k, erase_get hB, hget, hlt.2.1 hi, hE, by simpa [erase_length] using hn⟩⟩

/-- Run the nops in front of instruction number `n` of the shortened block. -/
theorem skip_nops {nop : Nat} (h : NopOk I eff nop f) {b : Nat} {B : Block} (hB : f[b]? = some B)
    {σ : Reg → Val} {m : Mem} : ∀ (d i : Nat), B.insts.length - i = d → i ≤ B.insts.length → ∀ x,
    (B.insts.filter fun x => decide (x.op ≠ nop))[newIdx nop B i]? = some x →
    ∃ j, B.insts[j]? = some x ∧ x.op ≠ nop ∧ newIdx nop B j = newIdx nop B i ∧
      Obs T I eff f ⟨b, i, σ, m⟩ [] ⟨b, j, σ, m⟩ := by
  intro d
  induction d with
  | zero =>
    intro i hd hi x hx
    have : i = B.insts.length := by omega
    subst this
    unfold newIdx at hx
    rw [List.take_length] at hx
    simp at hx
  | succ d ih =>
    intro i hd hi x hx
    have hlt : i < B.insts.length := by omega
    have hy : B.insts[i]? = some B.insts[i] := List.getElem?_eq_getElem hlt
    by_cases hnop : B.insts[i].op = nop
    · have hidx : newIdx nop B (i + 1) = newIdx nop B i := by
        unfold newIdx
        rw [filter_take_succ _ _ _ _ hy]
        simp [hnop]
      have hBm := List.mem_of_getElem? hB
      have hl : i + 1 < B.insts.length := by
        rcases Nat.lt_or_ge (i + 1) B.insts.length with a | a
        · exact a
        · refine absurd hnop (h.last B hBm _ ?_)
          rw [List.getLast?_eq_getElem?, ← hy]; congr 1; omega
      obtain ⟨j, h1, h2, h3, h4⟩ := ih (i + 1) (by omega) (by omega) x (by rw [hidx]; exact hx)
      refine ⟨j, h1, h2, by rw [h3, hidx], ?_⟩
      have hs : Step T I f ⟨b, i, σ, m⟩ ⟨b, i + 1, σ, m⟩ := by
        rw [step_iff]
        exact ⟨B, _, 0, hB, hy, (eff_nop h hBm (List.mem_of_getElem? hy) hnop).2 ⟨rfl, rfl⟩, .inl ⟨hl, rfl, rfl⟩⟩
      exact .sil hs (opAt_eq hB hy) (by rw [hnop]; exact h.eff) h4
    · have hp : (decide (B.insts[i].op ≠ nop)) = true := by simpa using hnop
      have hget := filter_take_get (fun x : Inst => decide (x.op ≠ nop)) B.insts i _ hy hp
      have : x = B.insts[i] := by
        have e : (some x : Option Inst) = some B.insts[i] := by rw [← hx, ← hget]; rfl
        exact Option.some.inj e
      subst this
      exact ⟨i, hy, hnop, rfl, .nil⟩

theorem erase_sim' {nop : Nat} (h : NopOk I eff nop f) : Sim T I eff (f.erase nop) f
    (fun t s => s.b = t.b ∧ s.m = t.m ∧ s.σ = t.σ ∧
      ∀ B, f[s.b]? = some B → t.i = newIdx nop B s.i ∧ s.i ≤ B.insts.length) := by
  constructor
  · rintro ⟨b, i, σ, m⟩ ⟨b1, i1, σ1, m1⟩ ⟨b', i', ρ, m'⟩ op ⟨h1, h2, h3, hR⟩ hs ho
    simp only at h1 h2 h3 hR
    subst h1 h2 h3
    obtain ⟨B0, x, k, hB0, hx, hE, hn⟩ := step_iff.1 hs
    simp only at hB0 hx hE hn
    obtain ⟨B, hB, rfl⟩ : ∃ B, f[b1]? = some B ∧ B0 = { B with insts := B.insts.filter fun x => x.op ≠ nop } := by
      unfold Func.erase at hB0
      rw [List.getElem?_map] at hB0
      cases hB : f[b1]? with
      | none => rw [hB] at hB0; cases hB0
      | some B => rw [hB] at hB0; exact ⟨B, rfl, (Option.some.inj hB0).symm⟩
    have hBm := List.mem_of_getElem? hB
    obtain ⟨hi1, hle⟩ := hR B hB
    subst hi1
    obtain ⟨j, j1, j2, j3, j4⟩ := skip_nops (σ := σ1) (m := m1) h hB _ i1 rfl hle x hx
    have hp : (decide (x.op ≠ nop)) = true := by simpa using j2
    have hlt := filter_take_lt (fun x : Inst => decide (x.op ≠ nop)) B.insts j x j1 hp
      (fun y hy => by simpa using h.last B hBm y hy)
    have hop : op = x.op := by
      rw [opAt_eq (erase_get hB) hx] at ho; exact (Option.some.inj ho).symm
    subst hop
    have hj : ((B.insts.take j).filter fun x => decide (x.op ≠ nop)).length = newIdx nop B i1 := j3
    rw [hj] at hlt
    simp only [erase_length] at hn
    have hs' : Step T I f ⟨b1, j, σ1, m1⟩ ⟨b', if j + 1 < B.insts.length then j + 1 else 0, ρ, m'⟩ := by
      rw [step_iff]
      refine ⟨B, x, k, hB, j1, hE, ?_⟩
      simp only
      rcases hn with ⟨a, a2, a3⟩ | ⟨a, a2, a3⟩
      · exact .inl ⟨hlt.1.2 a, a2, by rw [if_pos (hlt.1.2 a)]⟩
      · have := hlt.2.2 a
        exact .inr ⟨this, a2, by rw [if_neg (by omega)]⟩
    refine ⟨⟨b', if j + 1 < B.insts.length then j + 1 else 0, ρ, m'⟩,
      j4.append (Obs.one hs' (opAt_eq hB j1)), rfl, rfl, rfl, ?_⟩
    intro B1 hB1
    simp only at hB1
    rcases hn with ⟨a, rfl, rfl⟩ | ⟨a, a2, rfl⟩
    · rw [hB] at hB1; cases hB1
      have := hlt.1.2 a
      simp only [if_pos this]
      refine ⟨?_, by omega⟩
      unfold newIdx
      rw [filter_take_succ _ _ _ _ j1, if_pos hp, hj]
      rfl
    · have := hlt.2.2 a
      simp only [if_neg (show ¬ j + 1 < B.insts.length by omega)]
      simp [newIdx]
  · rintro ⟨b, i, σ, m⟩ ⟨b1, i1, σ1, m1⟩ m' ⟨h1, h2, h3, hR⟩ hl
    simp only at h1 h2 h3 hR
    subst h1 h2 h3
    obtain ⟨B0, x, ρ, k, hB0, hx, hi, hE, hn⟩ := leaves_iff.1 hl
    simp only at hB0 hx hE hn hi
    obtain ⟨B, hB, rfl⟩ : ∃ B, f[b1]? = some B ∧ B0 = { B with insts := B.insts.filter fun x => x.op ≠ nop } := by
      unfold Func.erase at hB0
      rw [List.getElem?_map] at hB0
      cases hB : f[b1]? with
      | none => rw [hB] at hB0; cases hB0
      | some B => rw [hB] at hB0; exact ⟨B, rfl, (Option.some.inj hB0).symm⟩
    have hBm := List.mem_of_getElem? hB
    obtain ⟨hi1, hle⟩ := hR B hB
    subst hi1
    obtain ⟨j, j1, j2, j3, j4⟩ := skip_nops (σ := σ1) (m := m1) h hB _ i1 rfl hle x hx
    have hp : (decide (x.op ≠ nop)) = true := by simpa using j2
    have hlt := filter_take_lt (fun x : Inst => decide (x.op ≠ nop)) B.insts j x j1 hp
      (fun y hy => by simpa using h.last B hBm y hy)
    have hj : ((B.insts.take j).filter fun x => decide (x.op ≠ nop)).length = newIdx nop B i1 := j3
    rw [hj] at hlt
    exact ⟨⟨b1, j, σ1, m1⟩, j4,
      leaves_iff.2 ⟨B, x, ρ, k, hB, j1, hlt.2.2 hi, hE, by simpa [erase_length] using hn⟩⟩

/-- Dropping instructions that do nothing cannot be seen. -/
theorem erase_same {nop : Nat} (h : NopOk I eff nop f) : Same T I eff f (f.erase nop) :=
  ⟨(erase_sim h).incl fun σ m => ⟨rfl, rfl, rfl, fun B _ => by simp [newIdx]⟩,
   (erase_sim' h).incl fun σ m => ⟨rfl, rfl, rfl, fun B _ => by simp [newIdx]⟩⟩

end

end Cmmc.Mir
