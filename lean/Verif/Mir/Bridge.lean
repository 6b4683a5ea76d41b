import Verif.Mir.CfgEx

/-!
# From functions made of blocks to laid-out code

The peephole passes and the scheduler (C45-C50) are stated on functions whose blocks have an explicit terminator
(`Func`, `Same`); the passes that rearrange blocks on laid-out code (`Code`, `FSame`). Both describe the same
`MIRFunction`; here the two views are connected, so that the theorems compose.
-/

namespace Cmmc.Mir

/-- How a terminator looks in laid-out code. -/
def Term.toBr : Term → Br
  | .jmp t => .goto t
  | .cond t => .cond t
  | .table ts => .table ts
  | .ret => .stop

def codeOf : List Inst → Term → List FInst
  | [], _ => []
  | [x], t => [⟨x, t.toBr⟩]
  | x :: y :: r, t => ⟨x, .none⟩ :: codeOf (y :: r) t

def layFrom : Nat → Func → Code
  | _, [] => []
  | n, B :: f => (n, codeOf B.insts B.term) :: layFrom (n + 1) f

/-- The blocks in order; each is labelled with its number. -/
def Func.lay (f : Func) : Code := layFrom 0 f

/-- Control does not leave through the end of the last block, or through a jump table. -/
structure Func.Kept {Val Mem : Type} (T : Target) (I : Interp Val Mem) (f : Func) : Prop where
  last : ∀ B ∈ f.getLast?, ∀ t, B.term ≠ .cond t
  table : ∀ B ∈ f, ∀ ts, B.term = .table ts → ∀ x ∈ B.insts.getLast?, ∀ σ m ρ m' k, Eff T I x σ m ρ m' k → k < ts.length

theorem lay_at {f : Func} {n t : Nat} : (layFrom n f).at (n + t) = if t < f.length then some (Code.flat (layFrom (n + t) (f.drop t))) else none := by
  induction f generalizing n t with
  | nil => simp [layFrom, Code.at]
  | cons B f ih =>
    cases t with
    | zero => simp [layFrom, Code.at, Code.flat]
    | succ t =>
      simp only [layFrom, Code.at]
      rw [if_neg (by omega)]
      have := ih (n := n + 1) (t := t)
      rw [show n + (t + 1) = n + 1 + t from by omega, this]
      simp

theorem codeOf_drop {L : List Inst} {t : Term} {i : Nat} {x : Inst} (h : L[i]? = some x) :
    ∃ r, (codeOf L t).drop i = ⟨x, if i + 1 < L.length then .none else t.toBr⟩ :: r ∧ r = (codeOf L t).drop (i + 1) := by
  induction L generalizing i with
  | nil => simp at h
  | cons y L ih =>
    cases L with
    | nil =>
      cases i with
      | zero => simp at h; subst h; exact ⟨_, rfl, rfl⟩
      | succ i => simp at h
    | cons z L =>
      cases i with
      | zero => simp at h; subst h; exact ⟨_, by simp [codeOf], rfl⟩
      | succ i =>
        obtain ⟨r, h1, h2⟩ := ih (i := i) (by simpa using h)
        refine ⟨r, ?_, ?_⟩
        · simp only [codeOf, List.drop_succ_cons, h1, List.length_cons]
          simp
        · simpa [codeOf] using h2

theorem codeOf_length {L : List Inst} {t : Term} : (codeOf L t).length = L.length := by
  induction L with
  | nil => rfl
  | cons y L ih =>
    cases L with
    | nil => rfl
    | cons z L => simp only [codeOf, List.length_cons] at ih ⊢; omega

/-- What is still ahead at instruction `i` of block `b`. -/
def Func.ahead (f : Func) (b i : Nat) : List FInst :=
  match f[b]? with
  | none => []
  | some B => (codeOf B.insts B.term).drop i ++ Code.flat (layFrom (b + 1) (f.drop (b + 1)))

theorem lay_at' {f : Func} {t : Nat} (h : t < f.length) : f.lay.at t = some (f.ahead t 0) := by
  have := lay_at (f := f) (n := 0) (t := t)
  rw [Nat.zero_add, if_pos h] at this
  rw [Func.lay, this, Func.ahead]
  have e : f[t]? = some f[t] := List.getElem?_eq_getElem h
  rw [e, List.drop_eq_getElem_cons h]
  simp [layFrom, Code.flat]

theorem ahead_fall {f : Func} {b : Nat} (h : b + 1 < f.length) :
    f.ahead (b + 1) 0 = Code.flat (layFrom (b + 1) (f.drop (b + 1))) := by
  rw [Func.ahead, List.getElem?_eq_getElem h, List.drop_eq_getElem_cons h]
  simp [layFrom, Code.flat]

section
variable {Val Mem : Type} {T : Target} {I : Interp Val Mem} {vis : Nat → Bool} {f g : Func}

/-- One step of the function is one step of the laid-out code. -/
theorem step_lay (hf : f.Wf) {s s' : St Val Mem} {op : Nat} (h : Step T I f s s') (ho : opAt f s.b s.i = some op) :
    ∃ x r k, f.ahead s.b s.i = x :: r ∧ x.inst.op = op ∧ Eff T I x.inst s.σ s.m s'.σ s'.m k ∧
      f.lay.next x r k = some (f.ahead s'.b s'.i) := by
  obtain ⟨B, x, k, hB, hx, he, hc⟩ := step_iff.1 h
  have hop : x.op = op := by rw [opAt_eq hB hx] at ho; exact Option.some.inj ho
  obtain ⟨r, h1, h2⟩ := codeOf_drop (t := B.term) hx
  refine ⟨⟨x, if s.i + 1 < B.insts.length then .none else B.term.toBr⟩,
    r ++ Code.flat (layFrom (s.b + 1) (f.drop (s.b + 1))), k, ?_, hop, he, ?_⟩
  · rw [Func.ahead, hB]; simp only; rw [h1]; rfl
  · rcases hc with ⟨c1, c2, c3⟩ | ⟨c1, c2, c3⟩
    · rw [if_pos c1]
      simp only [Code.next]
      rw [Func.ahead, c2, hB, c3, h2]
    · rw [if_neg (by omega)]
      have hr : r = [] := by
        rw [h2]
        apply List.drop_eq_nil_of_le
        rw [codeOf_length]; omega
      subst hr
      have hw := hf.2 B (List.mem_of_getElem? hB)
      rw [c3]
      cases hT : B.term with
      | jmp t =>
        rw [hT] at c2 hw
        simp only [Term.next, Option.some.injEq] at c2
        simp only [Term.toBr, Code.next]
        rw [← c2]; exact lay_at' hw
      | cond t =>
        rw [hT] at c2 hw
        simp only [Term.next] at c2
        simp only [Term.toBr, Code.next]
        split at c2
        · rename_i hk
          rw [if_pos hk]
          cases c2; exact lay_at' hw
        · rename_i hk
          rw [if_neg hk]
          split at c2
          · rename_i hb
            rw [← Option.some.inj c2, ahead_fall hb]; rfl
          · cases c2
      | table ts =>
        rw [hT] at c2 hw
        simp only [Term.next] at c2
        simp only [Term.toBr, Code.next, c2, Option.bind_some]
        exact lay_at' (hw _ (List.mem_of_getElem? c2))
      | ret =>
        rw [hT] at c2
        simp [Term.next] at c2

/-- A point of the function: it is at an instruction. -/
def Func.Point (f : Func) (b i : Nat) : Prop := ∃ B, f[b]? = some B ∧ i < B.insts.length

theorem point_zero (hf : f.Wf) {b : Nat} (h : b < f.length) : f.Point b 0 :=
  ⟨f[b], List.getElem?_eq_getElem h, List.length_pos_of_ne_nil (hf.1 _ (List.getElem_mem h))⟩

/-- One step of the laid-out code is one step of the function. -/
theorem lay_step (hf : f.Wf) (hk : f.Kept T I) {b i : Nat} {σ ρ : Reg → Val} {m m' : Mem} {x : FInst} {r d : List FInst}
    {k : Nat} (hp : f.Point b i) (ha : f.ahead b i = x :: r) (he : Eff T I x.inst σ m ρ m' k)
    (hn : f.lay.next x r k = some d) :
    ∃ b' i', Step T I f ⟨b, i, σ, m⟩ ⟨b', i', ρ, m'⟩ ∧ opAt f b i = some x.inst.op ∧ f.Point b' i' ∧ d = f.ahead b' i' := by
  obtain ⟨B, hB, hi⟩ := hp
  have hx : B.insts[i]? = some B.insts[i] := List.getElem?_eq_getElem hi
  obtain ⟨r', h1, h2⟩ := codeOf_drop (t := B.term) hx
  rw [Func.ahead, hB] at ha
  simp only at ha
  rw [h1] at ha
  simp only [List.cons_append, List.cons.injEq] at ha
  obtain ⟨rfl, rfl⟩ := ha
  have hbl : b < f.length := (List.getElem?_eq_some_iff.1 hB).1
  by_cases hl : i + 1 < B.insts.length
  · rw [if_pos hl] at hn
    simp only [Code.next, Option.some.injEq] at hn
    refine ⟨b, i + 1, step_iff.2 ⟨B, _, k, hB, hx, he, .inl ⟨hl, rfl, rfl⟩⟩, opAt_eq hB hx, ⟨B, hB, hl⟩, ?_⟩
    rw [Func.ahead, hB, ← hn, h2]
  · rw [if_neg hl] at hn
    have hr : r' = [] := by
      rw [h2]
      apply List.drop_eq_nil_of_le
      rw [codeOf_length]; omega
    subst hr
    have hw := hf.2 B (List.mem_of_getElem? hB)
    have hlast : i + 1 = B.insts.length := by omega
    have fin : ∀ b', b' < f.length → B.term.next f.length b k = some b' → d = f.ahead b' 0 →
        ∃ b' i', Step T I f ⟨b, i, σ, m⟩ ⟨b', i', ρ, m'⟩ ∧ opAt f b i = some B.insts[i].op ∧ f.Point b' i' ∧ d = f.ahead b' i' :=
      fun b' hb' hb'' hd => ⟨b', 0, step_iff.2 ⟨B, _, k, hB, hx, he, .inr ⟨hlast, hb'', rfl⟩⟩, opAt_eq hB hx, point_zero hf hb', hd⟩
    cases hT : B.term with
    | jmp t =>
      rw [hT] at hn hw fin
      simp only [Term.toBr, Code.next] at hn
      rw [lay_at' hw] at hn
      exact fin t hw rfl (by simpa using hn.symm)
    | cond t =>
      rw [hT] at hn hw fin
      simp only [Term.toBr, Code.next] at hn
      split at hn
      · rename_i hk0
        rw [lay_at' hw] at hn
        exact fin t hw (by simp [Term.next, hk0]) (by simpa using hn.symm)
      · rename_i hk0
        have hb1 : b + 1 < f.length := by
          by_contra hcon
          have hlen : b = f.length - 1 := by omega
          refine hk.last B ?_ t hT
          rw [Option.mem_def, List.getLast?_eq_getElem?, ← hlen, hB]
        refine fin (b + 1) hb1 (by simp [Term.next, hk0, hb1]) ?_
        rw [ahead_fall hb1]
        simpa using hn.symm
    | table ts =>
      rw [hT] at hn hw fin
      simp only [Term.toBr, Code.next] at hn
      cases hts : ts[k]? with
      | none => rw [hts] at hn; cases hn
      | some t =>
        rw [hts] at hn
        have ht := hw t (List.mem_of_getElem? hts)
        simp only [Option.bind_some] at hn
        rw [lay_at' ht] at hn
        exact fin t ht (by simp [Term.next, hts]) (by simpa using hn.symm)
    | ret =>
      rw [hT] at hn
      simp [Term.toBr, Code.next] at hn

theorem obs_lay (hf : f.Wf) {s s' : St Val Mem} {tr : List (Nat × Mem)} (h : Obs T I vis f s tr s') :
    FObs T I vis f.lay ⟨f.ahead s.b s.i, s.σ, s.m⟩ tr ⟨f.ahead s'.b s'.i, s'.σ, s'.m⟩ := by
  induction h with
  | nil => exact .nil
  | vis hs ho hv _ ih =>
    obtain ⟨x, r, k, h1, h2, h3, h4⟩ := step_lay hf hs ho
    rw [h1]
    have := FObs.cons h3 h4 ih
    rw [shown, h2, if_pos hv] at this
    simpa using this
  | sil hs ho hv _ ih =>
    obtain ⟨x, r, k, h1, h2, h3, h4⟩ := step_lay hf hs ho
    rw [h1]
    have := FObs.cons h3 h4 ih
    rw [shown, h2, if_neg (by simp [hv])] at this
    simpa using this

theorem lay_obs (hf : f.Wf) (hk : f.Kept T I) {c c' : FSt Val Mem} {tr : List (Nat × Mem)} (h : FObs T I vis f.lay c tr c')
    {b i : Nat} (hp : f.Point b i) (hc : c.c = f.ahead b i) :
    ∃ b' i', Obs T I vis f ⟨b, i, c.σ, c.m⟩ tr ⟨b', i', c'.σ, c'.m⟩ ∧ f.Point b' i' ∧ c'.c = f.ahead b' i' := by
  induction h generalizing b i with
  | nil => exact ⟨b, i, .nil, hp, hc⟩
  | cons he hn _ ih =>
    obtain ⟨b1, i1, hs, ho, hp', hd⟩ := lay_step hf hk hp hc.symm he hn
    obtain ⟨b2, i2, hobs, hp2, hd2⟩ := ih hp' hd
    refine ⟨b2, i2, ?_, hp2, hd2⟩
    exact Obs.append (Obs.one hs ho) hobs

theorem leaves_lay (hk : f.Kept T I) {s : St Val Mem} {m' : Mem} (h : Leaves T I f s m') :
    FLeaves T I ⟨f.ahead s.b s.i, s.σ, s.m⟩ m' := by
  obtain ⟨B, x, ρ, k, hB, hx, hl, he, hn⟩ := leaves_iff.1 h
  obtain ⟨r, h1, h2⟩ := codeOf_drop (t := B.term) hx
  rw [if_neg (by omega)] at h1
  have hbl : s.b < f.length := (List.getElem?_eq_some_iff.1 hB).1
  refine ⟨⟨x, B.term.toBr⟩, r ++ Code.flat (layFrom (s.b + 1) (f.drop (s.b + 1))), ρ, k, ?_, ?_, he⟩
  · simp only [Func.ahead, hB, h1]; rfl
  · cases hT : B.term with
    | jmp t => rw [hT] at hn; cases hn
    | cond t =>
      exfalso
      rw [hT] at hn
      simp only [Term.next] at hn
      split at hn
      · cases hn
      · split at hn
        · cases hn
        · rename_i hcon
          have hlen : s.b = f.length - 1 := by omega
          refine hk.last B ?_ t hT
          rw [Option.mem_def, List.getLast?_eq_getElem?, ← hlen, hB]
    | table ts =>
      exfalso
      rw [hT] at hn
      simp only [Term.next] at hn
      have := hk.table B (List.mem_of_getElem? hB) ts hT x (by
        rw [Option.mem_def, List.getLast?_eq_getElem?, ← hl, Nat.add_sub_cancel, hx]) _ _ _ _ _ he
      rw [List.getElem?_eq_getElem this] at hn
      cases hn
    | ret => rfl

theorem lay_leaves {b i : Nat} {σ : Reg → Val} {m m' : Mem} (hp : f.Point b i)
    (h : FLeaves T I ⟨f.ahead b i, σ, m⟩ m') : Leaves T I f ⟨b, i, σ, m⟩ m' := by
  obtain ⟨x, r, ρ, k, hc, hs, he⟩ := h
  obtain ⟨B, hB, hi⟩ := hp
  have hx : B.insts[i]? = some B.insts[i] := List.getElem?_eq_getElem hi
  obtain ⟨r', h1, h2⟩ := codeOf_drop (t := B.term) hx
  rw [Func.ahead, hB] at hc
  simp only at hc
  rw [h1] at hc
  simp only [List.cons_append, List.cons.injEq] at hc
  obtain ⟨rfl, rfl⟩ := hc
  by_cases hl : i + 1 < B.insts.length
  · rw [if_pos hl] at hs; cases hs
  · rw [if_neg hl] at hs
    refine leaves_iff.2 ⟨B, _, ρ, k, hB, hx, by show i + 1 = _; omega, he, ?_⟩
    cases hT : B.term with
    | ret => rfl
    | jmp t => rw [hT] at hs; cases hs
    | cond t => rw [hT] at hs; cases hs
    | table ts => rw [hT] at hs; cases hs

theorem lay_start (hf : f.Wf) (h0 : f ≠ []) : f.Point 0 0 ∧ f.lay.flat = f.ahead 0 0 := by
  have : 0 < f.length := List.length_pos_of_ne_nil h0
  refine ⟨point_zero hf this, ?_⟩
  have h1 := lay_at' (f := f) this
  have h2 := lay_at (f := f) (n := 0) (t := 0)
  rw [if_pos this] at h2
  simp only [Nat.add_zero, List.drop_zero] at h2
  rw [Func.lay] at h1
  rw [h1] at h2
  exact (Option.some.inj h2).symm

/-- Two functions that cannot be told apart as blocks cannot be told apart as laid out, and conversely. -/
theorem same_lay (hf : f.Wf) (hk : f.Kept T I) (hf0 : f ≠ []) (hg : g.Wf) (hl : g.Kept T I) (hg0 : g ≠ []) :
    Same T I vis f g ↔ FSame T I vis f.lay g.lay := by
  have key : ∀ {f g : Func}, f.Wf → f.Kept T I → f ≠ [] → g.Wf → g.Kept T I → g ≠ [] → Incl T I vis f g →
      FIncl T I vis f.lay g.lay := by
    intro f g hf hk hf0 hg hl hg0 h σ m tr
    obtain ⟨p1, e1⟩ := lay_start hf hf0
    obtain ⟨p2, e2⟩ := lay_start hg hg0
    constructor
    · rintro ⟨s, hs⟩
      obtain ⟨b', i', ho, -, -⟩ := lay_obs hf hk hs p1 e1
      obtain ⟨t, ht⟩ := (h σ m tr).1 ⟨_, ho⟩
      exact ⟨_, by rw [e2]; exact obs_lay hg ht⟩
    · rintro m' ⟨s, hs, hv⟩
      obtain ⟨b', i', ho, hp', hd⟩ := lay_obs hf hk hs p1 e1
      obtain ⟨t, ht, hv'⟩ := (h σ m tr).2 m' ⟨_, ho, lay_leaves hp' (by rw [← hd]; exact hv)⟩
      exact ⟨_, by rw [e2]; exact obs_lay hg ht, leaves_lay hl hv'⟩
  have yek : ∀ {f g : Func}, f.Wf → f.Kept T I → f ≠ [] → g.Wf → g.Kept T I → g ≠ [] → FIncl T I vis f.lay g.lay →
      Incl T I vis f g := by
    intro f g hf hk hf0 hg hl hg0 h σ m tr
    obtain ⟨p1, e1⟩ := lay_start hf hf0
    obtain ⟨p2, e2⟩ := lay_start hg hg0
    constructor
    · rintro ⟨s, hs⟩
      obtain ⟨t, ht⟩ := (h σ m tr).1 ⟨_, by rw [e1]; exact obs_lay hf hs⟩
      obtain ⟨b', i', ho, -, -⟩ := lay_obs hg hl ht p2 e2
      exact ⟨_, ho⟩
    · rintro m' ⟨s, hs, hv⟩
      obtain ⟨t, ht, hv'⟩ := (h σ m tr).2 m' ⟨_, by rw [e1]; exact obs_lay hf hs, leaves_lay hk hv⟩
      obtain ⟨b', i', ho, hp', hd⟩ := lay_obs hg hl ht p2 e2
      exact ⟨_, ho, lay_leaves hp' (by rw [← hd]; exact hv')⟩
  exact ⟨fun h => ⟨key hf hk hf0 hg hl hg0 h.1, key hg hl hg0 hf hk hf0 h.2⟩,
    fun h => ⟨yek hf hk hf0 hg hl hg0 h.1, yek hg hl hg0 hf hk hf0 h.2⟩⟩

/-! ## Seeing less -/

theorem obs_less {vis' : Nat → Bool} (hv : ∀ op, vis' op = true → vis op = true) {s s' : St Val Mem} {tr : List (Nat × Mem)} :
    Obs T I vis' f s tr s' ↔ ∃ tr', Obs T I vis f s tr' s' ∧ tr = tr'.filter fun e => vis' e.1 := by
  constructor
  · intro h
    induction h with
    | nil => exact ⟨[], .nil, rfl⟩
    | vis a b c _ ih =>
      obtain ⟨tr', h1, rfl⟩ := ih
      exact ⟨_, .vis a b (hv _ c) h1, by simp [c]⟩
    | @sil s s' s'' op tr a b c _ ih =>
      obtain ⟨tr', h1, rfl⟩ := ih
      cases hv' : vis op with
      | true => exact ⟨_, .vis a b hv' h1, by simp [c]⟩
      | false => exact ⟨_, .sil a b hv' h1, rfl⟩
  · rintro ⟨tr', h, rfl⟩
    induction h with
    | nil => exact .nil
    | @vis s s' s'' op tr a b c _ ih =>
      cases hv' : vis' op with
      | true => simpa [hv'] using .vis a b hv' ih
      | false => simpa [hv'] using .sil a b hv' ih
    | @sil s s' s'' op tr a b c _ ih =>
      cases hv' : vis' op with
      | true => rw [hv _ hv'] at c; cases c
      | false => exact .sil a b hv' ih

/-- Functions that cannot be told apart cannot be told apart by looking at fewer instructions. -/
theorem Same.less {vis' : Nat → Bool} (hv : ∀ op, vis' op = true → vis op = true) (h : Same T I vis f g) :
    Same T I vis' f g := by
  have key : ∀ {f g : Func}, Incl T I vis f g → Incl T I vis' f g := by
    intro f g h σ m tr
    constructor
    · rintro ⟨s, hs⟩
      obtain ⟨tr', h1, rfl⟩ := (obs_less hv).1 hs
      obtain ⟨t, ht⟩ := (h σ m tr').1 ⟨s, h1⟩
      exact ⟨t, (obs_less hv).2 ⟨tr', ht, rfl⟩⟩
    · rintro m' ⟨s, hs, hl⟩
      obtain ⟨tr', h1, rfl⟩ := (obs_less hv).1 hs
      obtain ⟨t, ht, hl'⟩ := (h σ m tr').2 m' ⟨s, h1, hl⟩
      exact ⟨t, (obs_less hv).2 ⟨tr', ht, rfl⟩, hl'⟩
  exact ⟨key h.1, key h.2⟩

/-- The passes on blocks and the passes on laid-out code compose: if `g` came from `f` by passes that cannot be seen
    (C45-C50) and the code of `g` was then simplified (C51), the result cannot be told from the code of `f`. -/
theorem peephole_then_simplify {vis' : Nat → Bool} {C : Inst → Prop} {J : BrOps} (hv : ∀ op, vis' op = true → vis op = true)
    (hf : f.Wf) (hk : f.Kept T I) (hf0 : f ≠ []) (hg : g.Wf) (hl : g.Kept T I) (hg0 : g ≠ []) (h : Same T I vis f g)
    (hJ : J.Ok T I vis' C) {peep : Code → Code × Bool} (hp : Sound T I vis' C fun f => (peep f).1) (hh : Honest peep)
    (hc : CodeOk T I vis' C g.lay) {n : Nat} {c : Code} (hs : simplifyCFG J peep n g.lay = some c) :
    FSame T I vis' f.lay c :=
  ((same_lay hf hk hf0 hg hl hg0).1 (h.less hv)).trans (C51_simplifyCFG hJ hp hh hc hs).1

end

/-! A concrete function meets the hypotheses. -/

namespace CfgEx

def h6 : Func :=
  [⟨[(out 1).inst, (beqz 2 2).inst], .cond 2⟩, ⟨[(ret 0).inst], .ret⟩, ⟨[(out 3).inst, (jmp 1).inst], .jmp 1⟩]

theorem h6_lay : h6.lay = f2 := rfl

theorem h6_wf : h6.Wf := by
  refine ⟨?_, ?_⟩ <;> intro B hB <;> simp only [h6, List.mem_cons, List.not_mem_nil, or_false] at hB <;>
    rcases hB with rfl | rfl | rfl <;> simp [h6]

theorem h6_kept : h6.Kept T I := by
  refine ⟨?_, ?_⟩
  · intro B hB t
    simp only [h6, List.getLast?_cons_cons, List.getLast?_singleton, Option.mem_def, Option.some.injEq] at hB
    subst hB; simp
  · intro B hB ts ht
    simp only [h6, List.mem_cons, List.not_mem_nil, or_false] at hB
    rcases hB with rfl | rfl | rfl <;> cases ht

theorem h6_simplified : FSame T I vis h6.lay [(0, [out 1, bnez 2 1, out 3]), (1, [ret 0])] :=
  peephole_then_simplify (vis := vis) (fun _ h => h) h6_wf h6_kept (by decide) h6_wf h6_kept (by decide) Same.refl J_ok
    noPeep_ok.sound (fun _ _ => rfl) f2_ok f2_simplified

end CfgEx

end Cmmc.Mir
