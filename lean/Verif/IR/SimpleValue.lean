/-!
# C98: SimpleValueAnalysis (cmmc/Analysis/SimpleValueAnalysis.cpp:33-184) and the two passes that replace within a block by it:
LoadReduce::runBlock (cmmc/Transforms/Combine/LoadReduce.cpp:70-79) and the removal of self assignments in StoreEliminate (cmmc/Transforms/DCE/StoreEliminate.cpp:139-152)

Values are numbers: instructions, arguments, constants and globals alike. One execution of a block is described by one valuation `ρ`
of the names (SSA: a name has one value during one execution of its block, and names defined later in the block are not used before), and by the
states before and after each instruction. A memory access reads or writes one cell; naturally aligned accesses of the same type either are to the same cell or do not
overlap, and accesses of different types to overlapping memory are outside the model.
-/
namespace Cmmc.SimpleValue

/-- constant initial values (`ConstantArray`, `ConstantInteger`, `ConstantFloatingPoint`); a leaf carries the constant -/
inductive Ini
  | leaf (v : Nat)
  | arr (es : List Ini)

/-- the instructions SimpleValueAnalysis tells apart -/
inductive Inst
  | load (d p : Nat)
  | store (p v : Nat)
  /-- `AtomicAdd`: the result is the old value -/
  | atomic (d p v : Nat)
  /-- a call of function `f`, or an indirect call -/
  | call (d : Nat) (f : Option Nat) (args : List Nat)
  /-- `GetElementPtr`: root, first index, other indices; whether the pointee is primitive -/
  | gep (d root i0 : Nat) (idx : List Nat) (prim : Bool)
  | op (d f : Nat) (args : List Nat)
  deriving DecidableEq

/-- the operands of an instruction -/
def Inst.opds : Inst → List Nat
  | .load _ p => [p]
  | .store p v => [p, v]
  | .atomic _ p v => [p, v]
  | .call _ _ as => as
  | .gep _ r i0 is _ => i0 :: is ++ [r]
  | .op _ _ as => as

/-! ## what a block does (the specification) -/

/-- the state a block runs on: the cells of the memory and the rest of the world -/
structure St (V W : Type) where
  m : V → V
  w : W

/-- the meaning of operations and of calls, and which cells belong to read-only globals -/
structure Sem (V W : Type) where
  add : V → V → V
  opRel : Nat → List V → V → Prop
  gepRel : V → V → List V → V → Prop
  callRel : Option Nat → List V → St V W → V → St V W → Prop
  /-- the constant content of a cell of a read-only global -/
  ro : V → Option V
  /-- an index as a number -/
  ival : V → Nat
  zero : V

section
variable {V W : Type}

open Classical in
/-- one cell is written -/
noncomputable def St.set (s : St V W) (a v : V) : St V W := { s with m := fun b => if b = a then v else s.m b }

/-- one instruction, with names valued by `ρ`. Nothing writes to cells of read-only globals (the attribute is inferred from that). -/
noncomputable def Step (S : Sem V W) (ρ : Nat → V) : Inst → St V W → St V W → Prop
  | .load d p, s, t => ρ d = s.m (ρ p) ∧ t = s
  | .store p v, s, t => S.ro (ρ p) = none ∧ t = s.set (ρ p) (ρ v)
  | .atomic d p v, s, t => S.ro (ρ p) = none ∧ ρ d = s.m (ρ p) ∧ t = s.set (ρ p) (S.add (s.m (ρ p)) (ρ v))
  | .call d f as, s, t => S.callRel f (as.map ρ) s (ρ d) t ∧ ∀ a c, S.ro a = some c → t.m a = s.m a
  | .gep d r i0 is _, s, t => S.gepRel (ρ r) (ρ i0) (is.map ρ) (ρ d) ∧ t = s
  | .op d f as, s, t => S.opRel f (as.map ρ) (ρ d) ∧ t = s

/-- the instructions of a block, one after the other -/
def Run (S : Sem V W) (ρ : Nat → V) : List Inst → St V W → St V W → Prop
  | [], s, t => t = s
  | i :: is, s, t => ∃ u, Step S ρ i s u ∧ Run S ρ is u t

/-- cells of read-only globals have their content -/
def RoMem (S : Sem V W) (s : St V W) : Prop := ∀ a c, S.ro a = some c → s.m a = c

/-- the element of an initial value at an index path; elements that are not given are zero -/
def elemAt (S : Sem V W) (ρ : Nat → V) : Ini → List Nat → V
  | .leaf v, [] => ρ v
  | .arr es, k :: ks => match es[k]? with | some e => elemAt S ρ e ks | none => S.zero
  | _, _ => S.zero

end

/-! ## the analysis -/

/-- what the analysis asks: `AliasAnalysisResult::isDistinct`, `PointerBaseAnalysisResult::lookup`, the initial values of read-only globals (scalar: `roVal`, any: `roTree`),
integer constants, functions with `NoMemoryWrite`, the zero of the type a GEP points to. `fixed`: an AtomicAdd also forgets the value at its own address, which the code does not do. -/
structure Cfg where
  dist : Nat → Nat → Bool
  base : Nat → Option Nat
  /-- globals with `ReadOnly` and a scalar initial value. Simplification: the entry made for a global with an array value is left out, there are no loads of arrays -/
  roVal : Nat → Option Nat
  /-- globals with `ReadOnly`: the initial value, which may be absent -/
  roTree : Nat → Option (Option Ini)
  cint : Nat → Option Nat
  noWrite : Nat → Bool
  zeroOf : Nat → Nat
  fixed : Bool

/-- `mLastValue`: base (or null), pointer, value -/
abbrev Last := Option Nat → Nat → Option Nat

/-- `extractConstant` (l.33-63); a path that ends at an array is excluded by the pointee being primitive -/
def extract (cint : Nat → Option Nat) (z : Nat) : Option Ini → List Nat → Option Nat
  | none, _ => some z
  | some (.leaf v), [] => some v
  | some (.leaf _), _ :: _ => none
  | some (.arr _), [] => none
  | some (.arr es), i :: is => match cint i with | none => none | some k => extract cint z es[k]? is

/-- `invalidate` (l.69-87) -/
def invalidate (c : Cfg) (L : Nat → Option Nat) (addr : Nat) (ov : Option Nat) : Nat → Option Nat := fun p =>
  match L p with
  | none => none
  | some v => if p != addr && some v != ov && !c.dist p addr then none else some v

/-- `replace` (l.88-94), only called with a value -/
def replaceVal (L : Nat → Option Nat) (addr v : Nat) (force : Bool) : Nat → Option Nat := fun p =>
  if p = addr then (if !force && (L addr).isSome then L addr else some v) else L p

/-- `update` (l.96-112) with a base; the case without a base is never used -/
def update (c : Cfg) (A : Last) (b addr : Nat) (val : Option Nat) (force : Bool) : Last := fun b' =>
  if b' = some b then
    match val with
    | some v => replaceVal (invalidate c (A b') addr val) addr v force
    | none => invalidate c (A b') addr val
  else if b' = none then invalidate c (A b') addr val
  else A b'

/-- the values of read-only globals among the operands (l.114-122); `emplace` keeps what is there -/
def seed (c : Cfg) (A : Last) (ops : List Nat) : Last := fun b p =>
  match A b p with
  | some v => some v
  | none => if b = some p ∧ p ∈ ops then c.roVal p else none

/-- all cached values are discarded -/
def Last.empty : Last := fun _ _ => none

/-- what the analysis would have to do in addition at an AtomicAdd -/
def forget (A : Last) (b addr : Nat) : Last := fun b' p => if b' = some b ∧ p = addr then none else A b' p

/-- `next` (l.65-175) -/
def next (c : Cfg) (A0 : Last) (i : Inst) : Last :=
  let A := seed c A0 i.opds
  match i with
  | .load d p => match c.base p with | some b => update c A b p (some d) false | none => A
  | .store p v => match c.base p with | some b => update c A b p (some v) true | none => Last.empty
  | .atomic _ p _ =>
    match c.base p with
    | some b => if c.fixed then forget (update c A b p none false) b p else update c A b p none false
    | none => Last.empty
  | .call _ f _ => match f with | some g => if c.noWrite g then A else Last.empty | none => Last.empty
  | .gep d r i0 is prim =>
    if prim && c.cint i0 == some 0 then
      match c.roTree r with
      | some t =>
        match extract c.cint (c.zeroOf d) t is with
        | some v => fun b p => if b = c.base d ∧ p = d then some v else A b p
        | none => A
      | none => A
    else A
  | .op _ _ _ => A

/-- `getLastValue` (l.177-184) -/
def getLast (c : Cfg) (A : Last) (p : Nat) : Option Nat := match c.base p with | none => none | some b => A (some b) p

/-- the analysis after some instructions -/
def scan (c : Cfg) (is : List Inst) : Last := is.foldl (next c) Last.empty

/-! ## the passes -/

/-- an instruction with its operands replaced -/
def Inst.sub (σ : Nat → Nat) : Inst → Inst
  | .load d p => .load d (σ p)
  | .store p v => .store (σ p) (σ v)
  | .atomic d p v => .atomic d (σ p) (σ v)
  | .call d f as => .call d f (as.map σ)
  | .gep d r i0 is pr => .gep d (σ r) (σ i0) (is.map σ) pr
  | .op d f as => .op d f (as.map σ)

/-- uses of the result of a load whose value is known are replaced (LoadReduce.cpp:73-75); `i` has the replacements so far applied -/
def replStep (c : Cfg) (A : Last) (σ : Nat → Nat) : Inst → Nat → Nat
  | .load d p => match getLast c A p with | some v => fun x => if x = d then v else σ x | none => σ
  | _ => σ

/-- `LoadReduce::runBlock` (LoadReduce.cpp:70-79): the block afterwards, and what uses elsewhere are replaced by -/
def reduce (c : Cfg) : List Inst → Last → (Nat → Nat) → List Inst × (Nat → Nat)
  | [], _, σ => ([], σ)
  | i :: is, A, σ =>
    let j := i.sub σ
    let r := reduce c is (next c A j) (replStep c A σ j)
    (j :: r.1, r.2)

/-- a store of the value that is there already -/
def selfStore (c : Cfg) (A : Last) : Inst → Bool
  | .store p v => getLast c A p == some v
  | _ => false

/-- the removal of self assignments (StoreEliminate.cpp:139-152) -/
def dropSelf (c : Cfg) : List Inst → Last → List Inst
  | [], _ => []
  | i :: is, A => if selfStore c A i then dropSelf c is (next c A i) else i :: dropSelf c is (next c A i)

/-! ## when the analysis is right -/

section
variable {V W : Type}

/-- what has to be true of one execution: the alias analysis, the bases (cells of different bases are different), the initial values of read-only globals, `NoMemoryWrite` -/
structure Facts (c : Cfg) (S : Sem V W) (ρ : Nat → V) : Prop where
  dist : ∀ p q, c.dist p q = true → ρ p ≠ ρ q
  base : ∀ p q b b', c.base p = some b → c.base q = some b' → b ≠ b' → ρ p ≠ ρ q
  roBase : ∀ g v, c.roVal g = some v → c.base g = some g
  roCell : ∀ g v, c.roVal g = some v → S.ro (ρ g) = some (ρ v)
  gep : ∀ r t x is a, c.roTree r = some t → S.ival x = 0 → S.gepRel (ρ r) x is a → S.ro a = some (match t with | some e => elemAt S ρ e (is.map S.ival) | none => S.zero)
  cint : ∀ x k, c.cint x = some k → S.ival (ρ x) = k
  zero : ∀ x, ρ (c.zeroOf x) = S.zero
  noWrite : ∀ g as s r t, c.noWrite g = true → S.callRel (some g) as s r t → t.m = s.m

/-- entries of the table are right about the memory -/
def Inv (c : Cfg) (ρ : Nat → V) (A : Last) (s : St V W) : Prop := ∀ b p v, A (some b) p = some v → c.base p = some b ∧ s.m (ρ p) = ρ v

/-- no AtomicAdd, or the fixed analysis -/
def AtomOk (c : Cfg) (is : List Inst) : Prop := c.fixed = true ∨ ∀ d p v, Inst.atomic d p v ∉ is

theorem extract_ok {c : Cfg} {S : Sem V W} {ρ : Nat → V} (hF : Facts c S ρ) (d : Nat) : ∀ (is : List Nat) (t : Option Ini) (v : Nat), extract c.cint (c.zeroOf d) t is = some v →
    ρ v = match t with | some e => elemAt S ρ e ((is.map ρ).map S.ival) | none => S.zero := by
  intro is
  induction is with
  | nil =>
    intro t v h
    match t with
    | none => simp only [extract, Option.some.injEq] at h; subst h; exact hF.zero d
    | some (.leaf w) => simp only [extract, Option.some.injEq] at h; subst h; simp [elemAt]
    | some (.arr es) => simp [extract] at h
  | cons i is ih =>
    intro t v h
    match t with
    | none => simp only [extract, Option.some.injEq] at h; subst h; exact hF.zero d
    | some (.leaf w) => simp [extract] at h
    | some (.arr es) =>
      simp only [extract] at h
      cases hc : c.cint i with
      | none => simp [hc] at h
      | some k =>
        simp only [hc] at h
        have := ih _ _ h
        rw [this]
        simp only [List.map_cons, elemAt, hF.cint i k hc]

theorem seed_inv {c : Cfg} {S : Sem V W} {ρ : Nat → V} (hF : Facts c S ρ) {A : Last} {s : St V W} (hI : Inv c ρ A s) (hR : RoMem S s) (ops : List Nat) : Inv c ρ (seed c A ops) s := by
  intro b p v h
  simp only [seed] at h
  cases hA : A (some b) p with
  | some w => simp only [hA] at h; exact hI b p v (by rw [hA, h])
  | none =>
    simp only [hA] at h
    split at h
    · rename_i hb
      obtain ⟨hb, -⟩ := hb
      cases hb
      exact ⟨hF.roBase _ _ h, hR _ _ (hF.roCell _ _ h)⟩
    · cases h

theorem invalidate_some {c : Cfg} {L : Nat → Option Nat} {addr : Nat} {ov : Option Nat} {p v : Nat} (h : invalidate c L addr ov p = some v) :
    L p = some v ∧ (p = addr ∨ ov = some v ∨ c.dist p addr = true) := by
  unfold invalidate at h
  cases hL : L p with
  | none => simp [hL] at h
  | some w =>
    simp only [hL] at h
    split at h
    · cases h
    · rename_i hc
      simp only [Option.some.injEq] at h
      subst h
      refine ⟨rfl, ?_⟩
      by_cases h1 : p = addr
      · exact Or.inl h1
      by_cases h2 : ov = some w
      · exact Or.inr (Or.inl h2)
      · right; right
        have h2' : ¬ (some w = ov) := fun h => h2 h.symm
        simpa [h1, h2'] using hc

theorem St.set_m_same (s : St V W) (a v : V) : (s.set a v).m a = v := by simp [St.set]
theorem St.set_m_ne (s : St V W) {a b : V} (v : V) (h : b ≠ a) : (s.set a v).m b = s.m b := by simp [St.set, h]

/-- read-only memory stays -/
theorem step_ro {S : Sem V W} {ρ : Nat → V} {i : Inst} {s t : St V W} (h : Step S ρ i s t) (hR : RoMem S s) : RoMem S t := by
  intro a e ha
  cases i with
  | load d p => obtain ⟨-, rfl⟩ := h; exact hR a e ha
  | store p v =>
    obtain ⟨hn, rfl⟩ := h
    have : a ≠ ρ p := by rintro rfl; rw [hn] at ha; cases ha
    rw [St.set_m_ne _ _ this]; exact hR a e ha
  | atomic d p v =>
    obtain ⟨hn, -, rfl⟩ := h
    have : a ≠ ρ p := by rintro rfl; rw [hn] at ha; cases ha
    rw [St.set_m_ne _ _ this]; exact hR a e ha
  | call d f as => rw [h.2 a e ha]; exact hR a e ha
  | gep d r i0 is pr => obtain ⟨-, rfl⟩ := h; exact hR a e ha
  | op d f as => obtain ⟨-, rfl⟩ := h; exact hR a e ha

/-- one instruction keeps the table right -/
theorem next_inv {c : Cfg} {S : Sem V W} {ρ : Nat → V} (hF : Facts c S ρ) {i : Inst} {A : Last} {s t : St V W} (hI : Inv c ρ A s) (hR : RoMem S s) (h : Step S ρ i s t)
    (hat : c.fixed = true ∨ ∀ d p v, i ≠ .atomic d p v) : Inv c ρ (next c A i) t := by
  have hS := seed_inv hF hI hR i.opds
  generalize hA : seed c A i.opds = A1 at hS
  cases i with
  | load d p =>
    obtain ⟨hd, rfl⟩ := h
    simp only [next, hA]
    cases hb : c.base p with
    | none => exact hS
    | some b =>
      intro b' q v hv
      simp only [update] at hv
      split at hv
      · rename_i hbb
        cases hbb
        simp only [replaceVal] at hv
        split at hv
        · rename_i hq
          subst hq
          split at hv
          · exact hS b q v (invalidate_some hv).1
          · simp only [Option.some.injEq] at hv; subst hv; exact ⟨hb, hd.symm⟩
        · exact hS b q v (invalidate_some hv).1
      · split at hv
        · rename_i h1; cases h1
        · exact hS b' q v hv
  | store p v =>
    obtain ⟨hn, rfl⟩ := h
    simp only [next, hA]
    cases hb : c.base p with
    | none => intro b' q w hw; cases hw
    | some b =>
      intro b' q w hw
      simp only [update] at hw
      split at hw
      · rename_i hbb
        cases hbb
        simp only [replaceVal] at hw
        split at hw
        · rename_i hq
          subst hq
          simp only [Bool.not_true, Bool.false_and, Bool.false_eq_true, if_false, Option.some.injEq] at hw
          subst hw
          exact ⟨hb, St.set_m_same _ _ _⟩
        · rename_i hq
          obtain ⟨hL, h1⟩ := invalidate_some hw
          obtain ⟨hbq, hm⟩ := hS b q w hL
          refine ⟨hbq, ?_⟩
          rcases h1 with h1 | h1 | h1
          · exact absurd h1 hq
          · cases h1
            by_cases he : ρ q = ρ p
            · rw [he]; exact St.set_m_same _ _ _
            · rw [St.set_m_ne _ _ he]; exact hm
          · rw [St.set_m_ne _ _ (hF.dist _ _ h1)]; exact hm
      · rename_i hbb
        split at hw
        · rename_i h1; cases h1
        · obtain ⟨hbq, hm⟩ := hS b' q w hw
          exact ⟨hbq, by rw [St.set_m_ne _ _ (hF.base q p b' b hbq hb (fun h => hbb (by rw [h])))]; exact hm⟩
  | atomic d p v =>
    have hfix : c.fixed = true := hat.resolve_right (fun h => h d p v rfl)
    obtain ⟨hn, -, rfl⟩ := h
    simp only [next, hA]
    cases hb : c.base p with
    | none => intro b' q w hw; cases hw
    | some b =>
      simp only [hfix, if_true]
      intro b' q w hw
      simp only [forget] at hw
      split at hw
      · cases hw
      · rename_i hnq
        simp only [update] at hw
        split at hw
        · rename_i hbb
          cases hbb
          obtain ⟨hL, h1⟩ := invalidate_some hw
          obtain ⟨hbq, hm⟩ := hS b q w hL
          refine ⟨hbq, ?_⟩
          rcases h1 with h1 | h1 | h1
          · exact absurd ⟨rfl, h1⟩ hnq
          · cases h1
          · rw [St.set_m_ne _ _ (hF.dist _ _ h1)]; exact hm
        · rename_i hbb
          split at hw
          · rename_i h1; cases h1
          · obtain ⟨hbq, hm⟩ := hS b' q w hw
            exact ⟨hbq, by rw [St.set_m_ne _ _ (hF.base q p b' b hbq hb (fun h => hbb (by rw [h])))]; exact hm⟩
  | call d f as =>
    simp only [next, hA]
    cases f with
    | none => intro b' q w hw; cases hw
    | some g =>
      simp only
      split
      · rename_i hg
        intro b' q w hw
        obtain ⟨h1, h2⟩ := hS b' q w hw
        exact ⟨h1, by rw [hF.noWrite g _ _ _ _ hg h.1]; exact h2⟩
      · intro b' q w hw; cases hw
  | gep d r i0 is pr =>
    obtain ⟨hg, rfl⟩ := h
    simp only [next, hA]
    split
    · rename_i hc
      simp only [Bool.and_eq_true, beq_iff_eq] at hc
      cases hrt : c.roTree r with
      | none => exact hS
      | some tr =>
        simp only
        cases hex : extract c.cint (c.zeroOf d) tr is with
        | none => exact hS
        | some e =>
          intro b' q w hw
          simp only at hw
          split at hw
          · rename_i hbq
            obtain ⟨hb, rfl⟩ := hbq
            simp only [Option.some.injEq] at hw
            subst hw
            refine ⟨hb.symm, ?_⟩
            have h1 := hF.gep r tr (ρ i0) (is.map ρ) (ρ q) hrt (hF.cint i0 0 hc.2) hg
            rw [hR _ _ h1]
            exact (extract_ok hF q is tr e hex).symm
          · exact hS b' q w hw
    · exact hS
  | op d f as =>
    obtain ⟨-, rfl⟩ := h
    simp only [next, hA]
    exact hS

theorem inv_empty (c : Cfg) (ρ : Nat → V) (s : St V W) : Inv c ρ Last.empty s := by intro b p v h; cases h

theorem AtomOk.head {c : Cfg} {i : Inst} {is : List Inst} (h : AtomOk c (i :: is)) : c.fixed = true ∨ ∀ d p v, i ≠ .atomic d p v :=
  h.imp_right (fun h d p v he => h d p v (by simp [he]))
theorem AtomOk.tail {c : Cfg} {i : Inst} {is : List Inst} (h : AtomOk c (i :: is)) : AtomOk c is := h.imp_right (fun h d p v hm => h d p v (by simp [hm]))

theorem foldl_inv {c : Cfg} {S : Sem V W} {ρ : Nat → V} (hF : Facts c S ρ) : ∀ (is : List Inst) {A : Last} {s t : St V W}, Inv c ρ A s → RoMem S s → Run S ρ is s t → AtomOk c is →
    Inv c ρ (is.foldl (next c) A) t := by
  intro is
  induction is with
  | nil => intro A s t hI _ h _; cases h; exact hI
  | cons i is ih =>
    intro A s t hI hR h hat
    obtain ⟨u, h1, h2⟩ := h
    exact ih (next_inv hF hI hR h1 hat.head) (step_ro h1 hR) h2 hat.tail

/-- **C98** the value the analysis gives for a pointer after some instructions of a block is what the memory contains there -/
theorem C98_lastValue_partial {c : Cfg} {S : Sem V W} {ρ : Nat → V} (hF : Facts c S ρ) {is : List Inst} {s t : St V W} (hR : RoMem S s) (h : Run S ρ is s t) (hat : AtomOk c is)
    {p v : Nat} (hv : getLast c (scan c is) p = some v) : t.m (ρ p) = ρ v := by
  have := foldl_inv hF is (inv_empty c ρ s) hR h hat
  unfold getLast at hv
  cases hb : c.base p with
  | none => simp [hb] at hv
  | some b => simp only [hb] at hv; exact (this b p v hv).2

/-! ## the passes keep the runs -/

theorem sub_step {S : Sem V W} {ρ : Nat → V} {σ : Nat → Nat} (hσ : ∀ x, ρ (σ x) = ρ x) (i : Inst) (s t : St V W) : Step S ρ (i.sub σ) s t ↔ Step S ρ i s t := by
  have hm : ∀ l : List Nat, (l.map σ).map ρ = l.map ρ := by intro l; rw [List.map_map]; exact List.map_congr_left (fun x _ => hσ x)
  cases i <;> simp only [Inst.sub, Step, hσ, hm]

theorem sub_atom (σ : Nat → Nat) {i : Inst} (h : ∀ d p v, i ≠ .atomic d p v) : ∀ d p v, i.sub σ ≠ .atomic d p v := by
  intro d p v he
  cases i <;> simp only [Inst.sub, Inst.atomic.injEq, reduceCtorEq] at he
  exact h _ _ _ rfl

theorem replStep_ok {c : Cfg} {S : Sem V W} {ρ : Nat → V} {A : Last} {σ : Nat → Nat} {s t : St V W} (hI : Inv c ρ A s) (hσ : ∀ x, ρ (σ x) = ρ x) {j : Inst} (h : Step S ρ j s t) :
    ∀ x, ρ (replStep c A σ j x) = ρ x := by
  intro x
  cases j with
  | load d p =>
    simp only [replStep, getLast]
    cases hb : c.base p with
    | none => exact hσ x
    | some b =>
      simp only
      cases hA : A (some b) p with
      | none => exact hσ x
      | some v =>
        simp only
        split
        · rename_i hx; rw [hx, h.1]; exact ((hI b p v hA).2).symm
        · exact hσ x
  | _ => exact hσ x

theorem reduce_aux {c : Cfg} {S : Sem V W} {ρ : Nat → V} (hF : Facts c S ρ) : ∀ (is : List Inst) {A : Last} {σ : Nat → Nat} {s : St V W}, Inv c ρ A s → RoMem S s → (∀ x, ρ (σ x) = ρ x) → AtomOk c is →
    ∀ t, (Run S ρ (reduce c is A σ).1 s t ↔ Run S ρ is s t) ∧ (Run S ρ is s t → ∀ x, ρ ((reduce c is A σ).2 x) = ρ x) := by
  intro is
  induction is with
  | nil => intro A σ s _ _ hσ _ t; exact ⟨Iff.rfl, fun _ => hσ⟩
  | cons i is ih =>
    intro A σ s hI hR hσ hat t
    have key : ∀ u, Step S ρ i s u → (Run S ρ (reduce c is (next c A (i.sub σ)) (replStep c A σ (i.sub σ))).1 u t ↔ Run S ρ is u t) ∧
        (Run S ρ is u t → ∀ x, ρ ((reduce c is (next c A (i.sub σ)) (replStep c A σ (i.sub σ))).2 x) = ρ x) := by
      intro u hu
      have hu' := (sub_step hσ i s u).2 hu
      exact ih (next_inv hF hI hR hu' (hat.head.imp_right (sub_atom σ))) (step_ro hu hR) (replStep_ok hI hσ hu') hat.tail t
    refine ⟨?_, ?_⟩
    · simp only [reduce, Run]
      constructor
      · rintro ⟨u, h1, h2⟩
        have h1' := (sub_step hσ i s u).1 h1
        exact ⟨u, h1', ((key u h1').1).1 h2⟩
      · rintro ⟨u, h1, h2⟩
        exact ⟨u, (sub_step hσ i s u).2 h1, ((key u h1).1).2 h2⟩
    · rintro ⟨u, h1, h2⟩
      exact (key u h1).2 h2

/-- **C98** LoadReduce within a block: the block has the same executions, and every replaced result has the value that replaces it -/
theorem C98_loadReduce_partial {c : Cfg} {S : Sem V W} {ρ : Nat → V} (hF : Facts c S ρ) (is : List Inst) {s : St V W} (hR : RoMem S s) (hat : AtomOk c is) (t : St V W) :
    (Run S ρ (reduce c is Last.empty id).1 s t ↔ Run S ρ is s t) ∧ (Run S ρ is s t → ∀ x, ρ ((reduce c is Last.empty id).2 x) = ρ x) :=
  reduce_aux hF is (inv_empty c ρ s) hR (fun _ => rfl) hat t

/-- the name an instruction defines -/
def Inst.dst : Inst → Option Nat
  | .load d _ => some d
  | .store _ _ => none
  | .atomic d _ _ => some d
  | .call d _ _ => some d
  | .gep d _ _ _ _ => some d
  | .op d _ _ => some d

/-- only operands are replaced: the instructions define what they defined -/
theorem reduce_dst (c : Cfg) : ∀ (is : List Inst) (A : Last) (σ : Nat → Nat), (reduce c is A σ).1.map Inst.dst = is.map Inst.dst := by
  intro is
  induction is with
  | nil => intro A σ; rfl
  | cons i is ih =>
    intro A σ
    simp only [reduce, List.map_cons, ih, List.cons.injEq, and_true]
    cases i <;> rfl

theorem St.set_self (s : St V W) (a : V) : s.set a (s.m a) = s := by
  cases s with
  | mk m w =>
    simp only [St.set, St.mk.injEq, and_true]
    funext b
    split
    · rename_i h; rw [h]
    · rfl

theorem drop_aux {c : Cfg} {S : Sem V W} {ρ : Nat → V} (hF : Facts c S ρ) : ∀ (is : List Inst) {A : Last} {s : St V W}, Inv c ρ A s → RoMem S s → AtomOk c is →
    ∀ t, Run S ρ is s t → Run S ρ (dropSelf c is A) s t := by
  intro is
  induction is with
  | nil => intro A s _ _ _ t h; exact h
  | cons i is ih =>
    intro A s hI hR hat t h
    obtain ⟨u, h1, h2⟩ := h
    have hr := ih (next_inv hF hI hR h1 hat.head) (step_ro h1 hR) hat.tail t h2
    simp only [dropSelf]
    split
    · rename_i hs
      cases i with
      | store p v =>
        simp only [selfStore, getLast, beq_iff_eq] at hs
        cases hb : c.base p with
        | none => simp [hb] at hs
        | some b =>
          simp only [hb] at hs
          obtain ⟨-, hm⟩ := hI b p v hs
          obtain ⟨-, hu⟩ := h1
          rw [← hm, St.set_self] at hu
          rw [← hu]; exact hr
      | _ => simp [selfStore] at hs
    · exact ⟨u, h1, hr⟩

/-- the other direction of `drop_aux`, for stores to writable cells -/
theorem drop_rev {c : Cfg} {S : Sem V W} {ρ : Nat → V} (hF : Facts c S ρ) : ∀ (is : List Inst) {A : Last} {s : St V W}, Inv c ρ A s → RoMem S s → AtomOk c is →
    (∀ p v, Inst.store p v ∈ is → S.ro (ρ p) = none) → ∀ t, Run S ρ (dropSelf c is A) s t → Run S ρ is s t := by
  intro is
  induction is with
  | nil => intro A s _ _ _ _ t h; exact h
  | cons i is ih =>
    intro A s hI hR hat hw t h
    have hw' : ∀ p v, Inst.store p v ∈ is → S.ro (ρ p) = none := fun p v hm => hw p v (List.mem_cons_of_mem _ hm)
    simp only [dropSelf] at h
    split at h
    · rename_i hs
      cases i with
      | store p v =>
        simp only [selfStore, getLast, beq_iff_eq] at hs
        cases hb : c.base p with
        | none => simp [hb] at hs
        | some b =>
          simp only [hb] at hs
          obtain ⟨-, hm⟩ := hI b p v hs
          have h1 : Step S ρ (.store p v) s s := ⟨hw p v (by simp), by rw [← hm, St.set_self]⟩
          exact ⟨s, h1, ih (next_inv hF hI hR h1 hat.head) hR hat.tail hw' t h⟩
      | _ => simp [selfStore] at hs
    · obtain ⟨u, h1, h2⟩ := h
      exact ⟨u, h1, ih (next_inv hF hI hR h1 hat.head) (step_ro h1 hR) hat.tail hw' t h2⟩

/-- **C98** removing self assignments keeps the executions of a block -/
theorem C98_selfStore_partial {c : Cfg} {S : Sem V W} {ρ : Nat → V} (hF : Facts c S ρ) (is : List Inst) {s : St V W} (hR : RoMem S s) (hat : AtomOk c is)
    (hw : ∀ p v, Inst.store p v ∈ is → S.ro (ρ p) = none) (t : St V W) : Run S ρ (dropSelf c is Last.empty) s t ↔ Run S ρ is s t :=
  ⟨drop_rev hF is (inv_empty c ρ s) hR hat hw t, drop_aux hF is (inv_empty c ρ s) hR hat t⟩

end

/-! ## examples -/
namespace Ex

/-- names: 1 and 2 are allocations at cells 10 and 20, 3 is the constant 5, 6 is a read-only global at cell 60 with value 9 (constant 7), 8 is a read-only table at cell 80 that starts with 5 and 9,
12 and 13 are the constants 0 and 1; 4, 5, 14, 15, 16 are loads, 11 is an address in the table -/
def rho : Nat → Nat
  | 1 => 10 | 2 => 20 | 3 => 5 | 4 => 2 | 5 => 5 | 6 => 60 | 7 => 9 | 8 => 80 | 11 => 81 | 12 => 0 | 13 => 1 | 14 => 9 | 15 => 9 | 16 => 9 | _ => 0

def table : Ini := .arr [.leaf 3, .leaf 7]

def cfg (fixed : Bool) : Cfg where
  dist _ _ := false
  base x := match x with | 1 => some 1 | 2 => some 2 | 6 => some 6 | 8 => some 8 | 11 => some 8 | _ => none
  roVal x := if x = 6 then some 7 else none
  roTree x := if x = 8 then some (some table) else none
  cint x := match x with | 12 => some 0 | 13 => some 1 | _ => none
  noWrite _ := false
  zeroOf _ := 100
  fixed := fixed

def sem : Sem Nat Unit where
  add := (· + ·)
  opRel _ _ _ := True
  gepRel r x is a := r = 80 ∧ x = 0 ∧ ∃ k, is = [k] ∧ a = 80 + k
  callRel _ _ s _ t := s = t
  ro a := if a = 60 then some 9 else if 80 ≤ a then some (match a - 80 with | 0 => 5 | 1 => 9 | _ => 0) else none
  ival x := x
  zero := 0

theorem facts (f : Bool) : Facts (cfg f) sem rho where
  dist := by intro p q h; cases h
  base := by
    intro p q b b' h1 h2 hne
    simp only [cfg] at h1 h2
    split at h1 <;> split at h2 <;> first | cases h1; done | cases h2; done | (cases h1; cases h2; first | exact absurd rfl hne | decide)
  roBase := by intro g v h; simp only [cfg] at h ⊢; split at h <;> simp_all
  roCell := by intro g v h; simp only [cfg] at h; split at h <;> simp_all [rho, sem]; subst h; rfl
  gep := by
    rintro r t x is a h - ⟨-, -, k, rfl, rfl⟩
    simp only [cfg] at h
    split at h
    · simp only [Option.some.injEq] at h
      subst h
      have : ¬ (80 + k = 60) := by omega
      match k with
      | 0 => simp [sem, table, elemAt, rho]
      | 1 => simp [sem, table, elemAt, rho]
      | k + 2 => simp [sem, table, elemAt]; omega
    · cases h
  cint := by intro x k h; simp only [cfg] at h; split at h <;> simp_all [rho, sem]
  zero := by intro x; rfl
  noWrite := by intro g as s r t h; cases h

/-- a store whose value is loaded again, a load from another allocation that is stored back, a load from the table, two loads from a read-only global (the first is what makes its initial value known) -/
def block : List Inst := [.store 1 3, .load 4 2, .store 2 4, .load 5 1, .gep 11 8 12 [13] true, .load 14 11, .load 15 6, .load 16 6, .store 2 16]

/-- what the passes do to the block -/
example : (reduce (cfg false) block Last.empty id).2 5 = 3 ∧ (reduce (cfg false) block Last.empty id).2 14 = 7 ∧ (reduce (cfg false) block Last.empty id).2 16 = 7 ∧
    (reduce (cfg false) block Last.empty id).1 = [.store 1 3, .load 4 2, .store 2 4, .load 5 1, .gep 11 8 12 [13] true, .load 14 11, .load 15 6, .load 16 6, .store 2 7] := by decide
example : dropSelf (cfg false) block Last.empty = [.store 1 3, .load 4 2, .load 5 1, .gep 11 8 12 [13] true, .load 14 11, .load 15 6, .load 16 6, .store 2 16] := by decide

def s0 : St Nat Unit where
  m a := match sem.ro a with | some c => c | none => if a = 20 then 2 else 0
  w := ()

theorem s0_ro : RoMem sem s0 := by intro a c h; simp [s0, h]

/-- the block runs, and the hypotheses of the theorems hold for it -/
theorem block_runs : ∃ t, Run sem rho block s0 t := by
  refine ⟨_, _, ⟨rfl, rfl⟩, _, ⟨?_, rfl⟩, _, ⟨rfl, rfl⟩, _, ⟨?_, rfl⟩, _, ⟨⟨rfl, rfl, 1, rfl, rfl⟩, rfl⟩, _, ⟨?_, rfl⟩, _, ⟨?_, rfl⟩, _, ⟨?_, rfl⟩, _, ⟨rfl, rfl⟩, rfl⟩ <;>
    simp [St.set, rho, s0, sem]

theorem block_atom : AtomOk (cfg false) block := by right; intro d p v h; simp [block] at h

example : ∃ t, Run sem rho (reduce (cfg false) block Last.empty id).1 s0 t := block_runs.imp (fun t h => ((C98_loadReduce_partial (facts false) block s0_ro block_atom t).1).2 h)
example : ∃ t, Run sem rho (dropSelf (cfg false) block Last.empty) s0 t :=
  block_runs.imp (fun t h => (C98_selfStore_partial (facts false) block s0_ro block_atom (by intro p v h; simp [block] at h; rcases h with ⟨rfl, -⟩ | ⟨rfl, -⟩ | ⟨rfl, -⟩ <;> rfl) t).2 h)

/-- a value loaded before an AtomicAdd to the same address is taken for the value after it: 5 is added to a cell with 2, and the second load (16) is replaced by the first (4) -/
def atomBlock : List Inst := [.load 4 2, .atomic 17 2 3, .load 16 2]

def rhoA : Nat → Nat := fun x => match x with | 16 => 7 | 17 => 2 | x => rho x

theorem factsA (f : Bool) : Facts (cfg f) sem rhoA where
  dist := by intro p q h; cases h
  base := by
    intro p q b b' h1 h2 hne
    simp only [cfg] at h1 h2
    split at h1 <;> split at h2 <;> first | cases h1; done | cases h2; done | (cases h1; cases h2; first | exact absurd rfl hne | decide)
  roBase := (facts f).roBase
  roCell := by intro g v h; simp only [cfg] at h; split at h <;> simp_all [rho, rhoA, sem]; subst h; rfl
  gep := by
    intro r t x is a h h1 h2
    have h3 := (facts f).gep 8 t x is a (by simp only [cfg] at h ⊢; split at h <;> simp_all) h1 ⟨rfl, h1, h2.2.2⟩
    rw [h3]
    simp only [cfg] at h
    split at h
    · simp only [Option.some.injEq] at h
      subst h
      obtain ⟨-, -, k, rfl, rfl⟩ := h2
      match k with
      | 0 => rfl
      | 1 => rfl
      | k + 2 => rfl
    · cases h
  cint := by intro x k h; simp only [cfg] at h; split at h <;> simp_all [rho, rhoA, sem]
  zero := by intro x; rfl
  noWrite := by intro g as s r t h; cases h

/-- the run exists and every fact holds, but the replaced result has another value (Finding 98) -/
theorem atomic_bad : (∃ t, Run sem rhoA atomBlock s0 t) ∧ Facts (cfg false) sem rhoA ∧ RoMem sem s0 ∧ rhoA ((reduce (cfg false) atomBlock Last.empty id).2 16) ≠ rhoA 16 := by
  refine ⟨⟨_, _, ⟨?_, rfl⟩, _, ⟨rfl, ?_, rfl⟩, _, ⟨?_, rfl⟩, rfl⟩, factsA false, s0_ro, by decide⟩ <;> simp [St.set, rhoA, rho, s0, sem]

/-- with the entry of the address itself forgotten the load stays -/
example : (reduce (cfg true) atomBlock Last.empty id).2 16 = 16 ∧ AtomOk (cfg true) atomBlock := ⟨by decide, Or.inl rfl⟩

end Ex

end Cmmc.SimpleValue
