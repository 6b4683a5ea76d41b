import Mathlib.Data.List.Basic
import Mathlib.Tactic.ByContra
/-!
# Semantics of one IR function (cmmc/IR/Instruction.hpp, Block.hpp, Function.hpp; executed as in ExecutionEngine/Interpreter.cpp:580-1000)

The semantics is parametrised by a `Lang`: the meaning of constants and opcodes is arbitrary, so every theorem about the control-flow
and value-flow passes holds whatever the opcodes compute. A run is one invocation of the function on given argument values.

* A `Block*` and an `Instruction*` are numbers. An operand is an instruction or something that keeps its value during the invocation
  (constant, argument, global, function): `cst`.
* Reading the result of an instruction that has not been executed is undefined (`ub`): it cannot happen in functions accepted by
  `Block::verify` and the dominance discipline. Likewise jumping to a block that is not in the function and a phi without an entry for
  the predecessor (`incomings().at` throws).
* Phis read their operands before any of them is written (Interpreter.cpp:607-617).
* A call that does not come back (`exit`, an endless loop in the callee) is `halt`, with an arbitrary description of its behaviour.
* Stack allocation, loads, stores, calls are opcodes: their effect on the memory `M` and the observable events `E` is given by `sem`.
-/
namespace Cmmc.SSA

/-- what executing one instruction does -/
inductive Res (V M E H : Type)
  | ok (v : V) (m : M) (es : List E)
  | ub
  | halt (es : List E) (h : H)

/-- values, memory, events, and the meaning of constants and opcodes -/
structure Lang where
  V : Type
  M : Type
  E : Type
  H : Type
  Op : Type
  C : Type
  decOp : DecidableEq Op
  decC : DecidableEq C
  /-- the value of a constant, argument or global in this invocation -/
  cval : C → V
  sem : Op → List V → M → Res V M E H
  /-- the condition of a conditional branch; `none`: undefined -/
  truth : V → Option Bool
  /-- the integer a `switch` looks up -/
  key : V → Option Int

instance (L : Lang) : DecidableEq L.Op := L.decOp
instance (L : Lang) : DecidableEq L.C := L.decC

/-- `Value*` as an operand -/
inductive Opd (C : Type)
  | inst (i : Nat)
  | cst (c : C)
deriving DecidableEq

/-- `PhiInst` (Instruction.hpp:781-800): incoming values keyed by predecessor -/
structure Phi (C : Type) where
  id : Nat
  inc : List (Nat × Opd C)

/-- an instruction that is neither a phi nor a terminator; `op` stands for the opcode with type, comparison predicate, callee, ... -/
structure Inst (Op C : Type) where
  id : Nat
  op : Op
  args : List (Opd C)

/-- terminators: `ret`, `br`, conditional `br`, `switch`, `unreachable` -/
inductive Term (C : Type)
  | ret (v : Option (Opd C))
  | br (t : Nat)
  | cbr (c : Opd C) (t f : Nat)
  | sw (c : Opd C) (dflt : Nat) (cases : List (Int × Nat))
  | unreachable

structure Block (Op C : Type) where
  phis : List (Phi C)
  body : List (Inst Op C)
  term : Term C

/-- a function: entry block, the blocks in list order, their contents -/
structure Func (Op C : Type) where
  entry : Nat
  order : List Nat
  blk : Nat → Option (Block Op C)

abbrev Lang.F (L : Lang) := Func L.Op L.C
abbrev Lang.B (L : Lang) := Block L.Op L.C

section
variable (L : Lang)

abbrev Env := Nat → Option L.V

/-- operand lookup (`buildOperand`, Interpreter.cpp:595-606) -/
def eval (env : Env L) : Opd L.C → Option L.V
  | .inst i => env i
  | .cst c => some (L.cval c)

def evals (env : Env L) : List (Opd L.C) → Option (List L.V)
  | [] => some []
  | a :: as =>
    match eval L env a, evals env as with
    | some v, some vs => some (v :: vs)
    | _, _ => none

def setEnv (env : Env L) (i : Nat) (v : L.V) : Env L := fun j => if j = i then some v else env j

/-- `incomings().at(pred)` -/
def Phi.at {C : Type} (p : Phi C) (pred : Nat) : Option (Opd C) := (p.inc.find? (fun e => e.1 == pred)).map Prod.snd

/-- the value of one phi on entry from `pred` (Interpreter.cpp:610) -/
def phiVal (pred : Option Nat) (env : Env L) (p : Phi L.C) : Option L.V :=
  match pred with
  | none => none
  | some b =>
    match p.at b with
    | none => none
    | some o => eval L env o

/-- all phis read, then written (Interpreter.cpp:607-617) -/
def enterPhis (pred : Option Nat) (old : Env L) : List (Phi L.C) → Env L → Option (Env L)
  | [], env => some env
  | p :: ps, env =>
    match phiVal L pred old p with
    | none => none
    | some v => enterPhis pred old ps (setEnv L env p.id v)

inductive BodyRes
  | ok (env : Env L) (m : L.M) (es : List L.E)
  | ub
  | halt (es : List L.E) (h : L.H)

/-- straight-line code (Interpreter.cpp:619-1000) -/
def execBody : List (Inst L.Op L.C) → Env L → L.M → List L.E → BodyRes L
  | [], env, m, es => .ok env m es
  | i :: is, env, m, es =>
    match evals L env i.args with
    | none => .ub
    | some vs =>
      match L.sem i.op vs m with
      | .ok v m' es' => execBody is (setEnv L env i.id v) m' (es ++ es')
      | .ub => .ub
      | .halt es' h => .halt (es ++ es') h

/-- where a terminator goes -/
inductive Next
  | goto (b : Nat)
  | ret (v : Option L.V)
  | ub

def evalTerm (env : Env L) : Term L.C → Next L
  | .ret none => .ret none
  | .ret (some o) =>
    match eval L env o with
    | none => .ub
    | some v => .ret (some v)
  | .br t => .goto t
  | .cbr c t f =>
    match (eval L env c).bind L.truth with
    | none => .ub
    | some true => .goto t
    | some false => .goto f
  | .sw c d cases =>
    match (eval L env c).bind L.key with
    | none => .ub
    | some k =>
      match cases.find? (fun e => e.1 == k) with
      | some e => .goto e.2
      | none => .goto d
  | .unreachable => .ub

/-- a state: about to enter block `cur` coming from `pred`; `tr` are the events so far -/
structure St where
  pred : Option Nat
  cur : Nat
  env : Env L
  m : L.M
  tr : List L.E

/-- how a run ends -/
inductive Beh
  | ret (v : Option L.V) (m : L.M) (tr : List L.E)
  | halt (h : L.H) (tr : List L.E)
  | ub

/-- execute the code of a block -/
def stepBlk (B : L.B) (s : St L) : St L ⊕ Beh L :=
  match enterPhis L s.pred s.env B.phis s.env with
  | none => .inr .ub
  | some env =>
    match execBody L B.body env s.m s.tr with
    | .ub => .inr .ub
    | .halt es h => .inr (.halt h es)
    | .ok env m es =>
      match evalTerm L env B.term with
      | .ub => .inr .ub
      | .ret v => .inr (.ret v m es)
      | .goto b => .inl ⟨some s.cur, b, env, m, es⟩

/-- one block -/
def step (F : L.F) (s : St L) : St L ⊕ Beh L :=
  match F.blk s.cur with
  | none => .inr .ub
  | some B => stepBlk L B s

/-- `n` blocks -/
def run (F : L.F) : Nat → St L → St L ⊕ Beh L
  | 0, s => .inl s
  | n + 1, s =>
    match step L F s with
    | .inl s' => run F n s'
    | .inr b => .inr b

/-- the function is called in memory `m` -/
def start (F : L.F) (m : L.M) : St L := ⟨none, F.entry, fun _ => none, m, []⟩

/-- the run of `F` from memory `m` ends with `b` -/
def Ends (F : L.F) (m : L.M) (b : Beh L) : Prop := ∃ n, run L F n (start L F m) = .inr b

/-- the run never ends -/
def Diverges (F : L.F) (m : L.M) : Prop := ∀ n, ∃ s, run L F n (start L F m) = .inl s

/-- `tr` is a prefix of the events of the run so far at some moment -/
def Emits (F : L.F) (m : L.M) (tr : List L.E) : Prop := ∃ n s, run L F n (start L F m) = .inl s ∧ tr <+: s.tr

/-- `G` may replace `F`: unless `F` runs into undefined behaviour, every result of `F` (return value, final memory, events, or
not coming back from a call) is the result of `G`, and an endless run of `F` is an endless run of `G` with the same events. -/
def Refines (F G : L.F) : Prop :=
  ∀ m, (∀ b, Ends L F m b → b ≠ .ub → Ends L G m b) ∧
    (Diverges L F m → Diverges L G m ∧ ∀ tr, Emits L F m tr ↔ Emits L G m tr)

/-- the weaker contract of the passes that assume that functions return: only returning runs are preserved -/
def RefinesRet (F G : L.F) : Prop :=
  ∀ m v m' tr, Ends L F m (.ret v m' tr) → Ends L G m (.ret v m' tr)

end

/-! ## targets -/

/-- jump targets of a terminator, in code order -/
def Term.targets {C : Type} : Term C → List Nat
  | .br t => [t]
  | .cbr _ t f => [t, f]
  | .sw _ d cs => d :: cs.map Prod.snd
  | _ => []

/-- operands of a terminator -/
def Term.args {C : Type} : Term C → List (Opd C)
  | .ret (some o) => [o]
  | .cbr c _ _ => [c]
  | .sw c _ _ => [c]
  | _ => []

theorem evalTerm_targets {L : Lang} {env : Env L} {t : Term L.C} {b : Nat} (h : evalTerm L env t = .goto b) : b ∈ t.targets := by
  cases t with
  | ret v =>
    cases v with
    | none => simp [evalTerm] at h
    | some o => simp only [evalTerm] at h; split at h <;> simp at h
  | br t => simp only [evalTerm, Next.goto.injEq] at h; simp [Term.targets, h]
  | cbr c t f =>
    simp only [evalTerm] at h
    split at h <;> simp only [Next.goto.injEq, reduceCtorEq] at h <;> simp [Term.targets, h]
  | sw c d cs =>
    simp only [evalTerm] at h
    split at h
    · simp at h
    · split at h
      · rename_i e he
        simp only [Next.goto.injEq] at h
        subst h
        exact List.mem_cons_of_mem _ (List.mem_map.mpr ⟨e, List.mem_of_find?_eq_some he, rfl⟩)
      · simp only [Next.goto.injEq] at h
        simp [Term.targets, h]
  | unreachable => simp [evalTerm] at h

/-! ## runs -/
section
variable {L : Lang}

theorem run_add (F : L.F) : ∀ (a b : Nat) (s : St L), run L F (a + b) s =
    match run L F a s with
    | .inl s' => run L F b s'
    | .inr r => .inr r := by
  intro a
  induction a with
  | zero => intro b s; simp [run]
  | succ a ih =>
    intro b s
    rw [Nat.succ_add]
    simp only [run]
    cases step L F s with
    | inl s' => exact ih b s'
    | inr r => rfl

theorem run_one (F : L.F) (s : St L) : run L F 1 s = step L F s := by
  unfold run
  cases step L F s <;> rfl

theorem run_done {F : L.F} {s : St L} {n m : Nat} {b : Beh L} (h : run L F n s = .inr b) (hm : n ≤ m) : run L F m s = .inr b := by
  obtain ⟨k, rfl⟩ := Nat.exists_eq_add_of_le hm
  rw [run_add, h]

theorem run_det {F : L.F} {s : St L} {n m : Nat} {b c : Beh L} (h : run L F n s = .inr b) (h' : run L F m s = .inr c) : b = c := by
  have h1 := run_done h (Nat.le_max_left n m)
  have h2 := run_done h' (Nat.le_max_right n m)
  rw [h1] at h2
  simpa using h2

theorem run_live {F : L.F} {s s' : St L} {n m : Nat} (h : run L F n s = .inl s') (hm : m ≤ n) : ∃ t, run L F m s = .inl t := by
  cases h' : run L F m s with
  | inl t => exact ⟨t, rfl⟩
  | inr b => rw [run_done h' hm] at h; simp at h

theorem execBody_tr {is : List (Inst L.Op L.C)} : ∀ {env : Env L} {m : L.M} {es : List L.E} {env' m' es'},
    execBody L is env m es = .ok env' m' es' → es <+: es' := by
  induction is with
  | nil => intro env m es env' m' es' h; simp only [execBody, BodyRes.ok.injEq] at h; rw [h.2.2]; exact List.prefix_rfl
  | cons i is ih =>
    intro env m es env' m' es' h
    simp only [execBody] at h
    split at h
    · simp at h
    · split at h
      · exact (List.prefix_append _ _).trans (ih h)
      · simp at h
      · simp at h

theorem step_tr {F : L.F} {s s' : St L} (h : step L F s = .inl s') : s.tr <+: s'.tr := by
  unfold step at h
  split at h
  · simp at h
  · unfold stepBlk at h
    split at h
    · simp at h
    · split at h
      · simp at h
      · simp at h
      · rename_i e
        split at h
        · simp at h
        · simp at h
        · simp only [Sum.inl.injEq] at h
          subst h
          exact execBody_tr e

theorem run_tr {F : L.F} : ∀ {n : Nat} {s s' : St L}, run L F n s = .inl s' → s.tr <+: s'.tr := by
  intro n
  induction n with
  | zero => intro s s' h; simp only [run, Sum.inl.injEq] at h; rw [h]; exact List.prefix_rfl
  | succ n ih =>
    intro s s' h
    simp only [run] at h
    split at h
    · rename_i t ht
      exact (step_tr ht).trans (ih h)
    · simp at h

theorem run_tr_le {F : L.F} {a b : Nat} {s x y : St L} (hx : run L F a s = .inl x) (hy : run L F b s = .inl y) (h : a ≤ b) :
    x.tr <+: y.tr := by
  obtain ⟨k, rfl⟩ := Nat.exists_eq_add_of_le h
  rw [run_add, hx] at hy
  exact run_tr hy

/-! ## simulation -/

/-- `R` relates states of `F` and `G` such that from related states either `F` is undefined, or both end alike, or both get, after at
least one block each, to related states again -/
def Simulation (F G : L.F) (R : St L → St L → Prop) : Prop :=
  ∀ s t, R s t → s.tr = t.tr ∧
    ((∃ k, run L F k s = .inr .ub) ∨
     (∃ k j b, run L F k s = .inr b ∧ run L G j t = .inr b) ∨
     (∃ k j s' t', run L F (k + 1) s = .inl s' ∧ run L G (j + 1) t = .inl t' ∧ R s' t'))

theorem Simulation.ends {F G : L.F} {R : St L → St L → Prop} (S : Simulation F G R) {b : Beh L} (hb : b ≠ .ub) :
    ∀ (n : Nat) (s t : St L), R s t → run L F n s = .inr b → ∃ j, run L G j t = .inr b := by
  intro n
  induction n using Nat.strongRecOn with
  | _ n ih =>
    intro s t hR h
    rcases (S s t hR).2 with ⟨k, hk⟩ | ⟨k, j, c, hk, hj⟩ | ⟨k, j, s', t', hk, hj, hR'⟩
    · exact absurd (run_det h hk) hb
    · rw [run_det h hk]; exact ⟨j, hj⟩
    · have hlt : k + 1 < n := by
        by_contra hn
        rw [run_done h (by omega)] at hk; simp at hk
      obtain ⟨r, rfl⟩ := Nat.exists_eq_add_of_le (Nat.le_of_lt hlt)
      rw [run_add, hk] at h
      obtain ⟨j', hj'⟩ := ih r (by omega) s' t' hR' h
      refine ⟨j + 1 + j', ?_⟩
      rw [run_add, hj]
      exact hj'

theorem Simulation.diverges {F G : L.F} {R : St L → St L → Prop} (S : Simulation F G R) {s t : St L} (hR : R s t)
    (hd : ∀ n, ∃ s', run L F n s = .inl s') :
    ∀ N, ∃ k j s' t', N ≤ k ∧ N ≤ j ∧ run L F k s = .inl s' ∧ run L G j t = .inl t' ∧ R s' t' := by
  intro N
  induction N with
  | zero => exact ⟨0, 0, s, t, Nat.le_refl _, Nat.le_refl _, rfl, rfl, hR⟩
  | succ N ih =>
    obtain ⟨k, j, s', t', hk, hj, e1, e2, hR'⟩ := ih
    rcases (S s' t' hR').2 with ⟨k', hk'⟩ | ⟨k', j', c, hk', hj'⟩ | ⟨k', j', s'', t'', hk', hj', hR''⟩
    · obtain ⟨x, hx⟩ := hd (k + k')
      rw [run_add, e1] at hx
      simp only [hk'] at hx
      simp at hx
    · obtain ⟨x, hx⟩ := hd (k + k')
      rw [run_add, e1] at hx
      simp only [hk'] at hx
      simp at hx
    · refine ⟨k + (k' + 1), j + (j' + 1), s'', t'', by omega, by omega, ?_, ?_, hR''⟩
      · rw [run_add, e1]; exact hk'
      · rw [run_add, e2]; exact hj'

theorem Simulation.refines {F G : L.F} {R : St L → St L → Prop} (S : Simulation F G R)
    (h0 : ∀ m, R (start L F m) (start L G m)) : Refines L F G := by
  intro m
  refine ⟨?_, ?_⟩
  · rintro b ⟨n, hn⟩ hb
    exact S.ends hb n _ _ (h0 m) hn
  · intro hd
    have D := S.diverges (h0 m) hd
    refine ⟨?_, ?_⟩
    · intro n
      obtain ⟨k, j, s', t', _, hj, _, e, _⟩ := D n
      exact run_live e hj
    · intro tr
      constructor
      · rintro ⟨n, s, hn, hp⟩
        obtain ⟨k, j, s', t', hk, _, e1, e2, hR⟩ := D n
        refine ⟨j, t', e2, ?_⟩
        rw [← (S s' t' hR).1]
        exact hp.trans (run_tr_le hn e1 hk)
      · rintro ⟨n, t, hn, hp⟩
        obtain ⟨k, j, s', t', _, hj, e1, e2, hR⟩ := D n
        refine ⟨k, s', e1, ?_⟩
        rw [(S s' t' hR).1]
        exact hp.trans (run_tr_le hn e2 hj)

theorem Refines.refl (F : L.F) : Refines L F F := fun _ => ⟨fun _ h _ => h, fun h => ⟨h, fun _ => Iff.rfl⟩⟩

theorem Refines.trans {F G K : L.F} (h : Refines L F G) (h' : Refines L G K) : Refines L F K := by
  intro m
  refine ⟨fun b hb hne => (h' m).1 b ((h m).1 b hb hne) hne, fun hd => ?_⟩
  obtain ⟨d1, e1⟩ := (h m).2 hd
  obtain ⟨d2, e2⟩ := (h' m).2 d1
  exact ⟨d2, fun tr => (e1 tr).trans (e2 tr)⟩

theorem Refines.ret {F G : L.F} (h : Refines L F G) : RefinesRet L F G :=
  fun m v m' tr hb => (h m).1 (.ret v m' tr) hb (by simp)

theorem RefinesRet.trans {F G K : L.F} (h : RefinesRet L F G) (h' : RefinesRet L G K) : RefinesRet L F K :=
  fun m v m' tr hb => h' m v m' tr (h m v m' tr hb)

theorem RefinesRet.refl (F : L.F) : RefinesRet L F F := fun _ _ _ _ h => h

/-- one block of `F` against one block of `G` on the very same states, restricted to states satisfying `P` -/
theorem refines_lockstep {F G : L.F} (P : St L → Prop) (hentry : F.entry = G.entry) (h0 : ∀ m, P (start L F m))
    (hstep : ∀ s, P s → step L F s = .inr .ub ∨ (step L G s = step L F s ∧ ∀ s', step L F s = .inl s' → P s')) :
    Refines L F G := by
  refine Simulation.refines (R := fun s t => s = t ∧ P s) ?_ (fun m => ⟨by unfold start; rw [hentry], h0 m⟩)
  rintro s t ⟨rfl, hP⟩
  refine ⟨rfl, ?_⟩
  rcases hstep s hP with h | ⟨h1, h2⟩
  · exact .inl ⟨1, by rw [run_one]; exact h⟩
  · cases e : step L F s with
    | inr b => exact .inr (.inl ⟨1, 1, b, by rw [run_one, e], by rw [run_one, h1, e]⟩)
    | inl s' => exact .inr (.inr ⟨0, 0, s', s', by rw [run_one, e], by rw [run_one, h1, e], rfl, h2 s' e⟩)

/-- one step goes to a target of the terminator of the current block -/
theorem step_target {F : L.F} {s s' : St L} (h : step L F s = .inl s') :
    s'.pred = some s.cur ∧ ∃ B, F.blk s.cur = some B ∧ s'.cur ∈ B.term.targets := by
  unfold step at h
  split at h
  · simp at h
  · rename_i B hB
    unfold stepBlk at h
    split at h
    · simp at h
    · split at h
      · simp at h
      · simp at h
      · split at h
        · simp at h
        · simp at h
        · rename_i e
          simp only [Sum.inl.injEq] at h
          subst h
          exact ⟨rfl, B, hB, evalTerm_targets e⟩

end
end Cmmc.SSA
