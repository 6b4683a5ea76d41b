import Verif.Fe.CSem
import Verif.SSA.Sem
import Verif.IR.Expr
/-!
# The IR produced by the front end and how it runs

The instructions are those of cmmc/IR/Instruction.hpp that EmitIR.cpp creates for the modelled part of the language. Their meaning is
that of `Verif/IR/Expr.lean` (used for C24, C26); control flow, phis and SSA names are those of `Verif/SSA/Sem.lean` (used for C32-C41):
`irL` is an instance of its `Lang`, so the result of the front end is a function to which those theorems apply.

* A run-time value is a bit pattern (`int`, the width is in the instruction) or a pointer: an object and the index of an integer in it.
  (cmmc counts bytes; all integers of an object have the same size, so the two agree.)
* Each `alloca` of an activation owns one object, `loc k`. Accesses outside an object and reads of an element never written are
  undefined.
-/
namespace Cmmc.Fe
open Cmmc

/-- instructions; the numbers are bit widths -/
inductive Op
  | bin (op : IR.BinOp) (w : Nat)
  | neg (w : Nat)
  | icmp (c : IR.Cmp) (w : Nat)
  | cast (op : IR.CastOp) (w w' : Nat)
  | load (w : Nat)
  | store (w : Nat)
  /-- `GetElementPtrInst base, 0, idx`: `cnt` integers per element, index of width `w` -/
  | gep (cnt : Int) (w : Nat)
  | call (f : String) (ret : Option Nat)
  | alloca (k : Nat) (size : Int)
deriving DecidableEq

/-- constants, globals, arguments -/
inductive Cst
  | int (w n : Nat)
  | glob (g : String)
  | arg (i : Nat)
  | undef
deriving DecidableEq

inductive V
  | int (n : Nat)
  | ptr (o : Obj) (off : Int)
  | undef
deriving DecidableEq

structure Mem (X : Ext) where
  mem : Nat → Int → Option Nat
  size : Nat → Int
  w : X.World

instance (nsw : Bool) {w : Nat} (op : IR.BinOp) (x y : BitVec w) : Decidable (IR.binDef nsw op x y) := by
  cases op <;> simp only [IR.binDef, IR.Fits] <;> infer_instance

def V.nat : V → Option Nat
  | .int n => some n
  | _ => none

/-- meaning of the instructions -/
def irSem {X : Ext} (call : Calls X) : Op → List V → Mem X → SSA.Res V (Mem X) X.E X.H
  | .bin op w, [.int a, .int b], m =>
    if IR.binDef false op (BitVec.ofNat w a) (BitVec.ofNat w b) then
      .ok (.int (IR.binVal op (BitVec.ofNat w a) (BitVec.ofNat w b)).toNat) m []
    else .ub
  | .neg w, [.int a], m => .ok (.int (-(BitVec.ofNat w a)).toNat) m []
  | .icmp c w, [.int a, .int b], m => .ok (.int (IR.cmpVal c (BitVec.ofNat w a) (BitVec.ofNat w b)).toNat) m []
  | .cast op w w', [.int a], m => .ok (.int (IR.castVal w' op (BitVec.ofNat w a)).toNat) m []
  | .load w, [.ptr (.loc k) off], m =>
    match m.mem k off with
    | some n => if (0 ≤ off ∧ off < m.size k) ∧ n < 2 ^ w then .ok (.int n) m [] else .ub
    | none => .ub
  | .load w, [.ptr (.glob g) off], m =>
    match X.rd m.w g off with
    | some n => .ok (.int (n % 2 ^ w)) m []
    | none => .ub
  | .store w, [.ptr (.loc k) off, .int n], m =>
    if (0 ≤ off ∧ off < m.size k) ∧ n < 2 ^ w then
      .ok .undef { m with mem := fun k' i => if k' = k ∧ i = off then some n else m.mem k' i } []
    else .ub
  | .store _, [.ptr (.glob g) off, .int n], m =>
    match X.wr m.w g off n with
    | some w' => .ok .undef { m with w := w' } []
    | none => .ub
  | .gep cnt w, [.ptr o off, .int i], m => .ok (.ptr o (off + (BitVec.ofNat w i).toInt * cnt)) m []
  | .call f r, vs, m =>
    match vs.mapM V.nat with
    | none => .ub
    | some ns =>
      match call f ns m.w with
      | .ub => .ub
      | .halt es h => .halt es h
      | .ok n w' es => .ok (match r with | some w => .int (n % 2 ^ w) | none => .undef) { m with w := w' } es
  | .alloca k size, [], m =>
    .ok (.ptr (.loc k) 0)
      { m with mem := fun k' i => if k' = k then none else m.mem k' i, size := fun k' => if k' = k then size else m.size k' } []
  | _, _, _ => .ub

/-- the language of one invocation with argument patterns `args` -/
def irL {X : Ext} (call : Calls X) (args : List Nat) : SSA.Lang where
  V := V
  M := Mem X
  E := X.E
  H := X.H
  Op := Op
  C := Cst
  decOp := inferInstance
  decC := inferInstance
  cval := fun
    | .int _ n => .int n
    | .glob g => .ptr (.glob g) 0
    | .arg i => match args[i]? with | some n => .int n | none => .undef
    | .undef => .undef
  sem := irSem call
  truth := fun
    | .int 1 => some true
    | .int 0 => some false
    | _ => none
  key := fun _ => none

abbrev Opd := SSA.Opd Cst

/-- an entry of an instruction list -/
inductive Raw
  | phi (p : SSA.Phi Cst)
  | inst (i : SSA.Inst Op Cst)
  | term (t : SSA.Term Cst)

def Raw.isPhi : Raw → Bool
  | .phi _ => true
  | _ => false

/-! ## from instruction lists to blocks -/

/-- instructions up to the first terminator; `fb` is the terminator of a block that has none (EmitIR.cpp:221-249) -/
def splitTerm (fb : SSA.Term Cst) : List Raw → List (SSA.Inst Op Cst) × SSA.Term Cst
  | [] => ([], fb)
  | .inst i :: rs => let p := splitTerm fb rs; (i :: p.1, p.2)
  | .term t :: _ => ([], t)
  | .phi _ :: rs => splitTerm fb rs

def leadPhis : List Raw → List (SSA.Phi Cst)
  | .phi p :: rs => p :: leadPhis rs
  | _ => []

def mkBlock (fb : SSA.Term Cst) (rs : List Raw) : SSA.Block Op Cst :=
  let p := splitTerm fb rs
  ⟨leadPhis rs, p.1, p.2⟩

/-! ## running an instruction list -/

section
variable {X : Ext} (call : Calls X) (args : List Nat)

abbrev Env := Nat → Option V

/-- the rest of block `cur` -/
def runCode (fb : SSA.Term Cst) (cur : Nat) : List Raw → Option Nat → Env → Mem X → List X.E →
    SSA.St (irL call args) ⊕ SSA.Beh (irL call args)
  | [], _, env, m, tr =>
    match SSA.evalTerm (irL call args) env fb with
    | .ub => .inr .ub
    | .ret v => .inr (.ret v m tr)
    | .goto b => .inl ⟨some cur, b, env, m, tr⟩
  | .phi p :: rs, pred, env, m, tr =>
    match SSA.phiVal (irL call args) pred env p with
    | none => .inr .ub
    | some v => runCode fb cur rs pred (SSA.setEnv (irL call args) env p.id v) m tr
  | .inst i :: rs, pred, env, m, tr =>
    match SSA.evals (irL call args) env i.args with
    | none => .inr .ub
    | some vs =>
      match irSem call i.op vs m with
      | .ok v m' es => runCode fb cur rs pred (SSA.setEnv (irL call args) env i.id v) m' (tr ++ es)
      | .ub => .inr .ub
      | .halt es h => .inr (.halt h (tr ++ es))
  | .term t :: _, _, env, m, tr =>
    match SSA.evalTerm (irL call args) env t with
    | .ub => .inr .ub
    | .ret v => .inr (.ret v m tr)
    | .goto b => .inl ⟨some cur, b, env, m, tr⟩

/-- phis only at the head, at most one -/
def PhiOk (rs : List Raw) : Prop := ∀ r ∈ rs.tail, r.isPhi = false

theorem runCode_noPhi (fb : SSA.Term Cst) (cur : Nat) : ∀ (rs : List Raw) (pred : Option Nat) (env : Env) (m : Mem X) (tr : List X.E),
    (∀ r ∈ rs, r.isPhi = false) →
    runCode call args fb cur rs pred env m tr =
      match SSA.execBody (irL call args) (splitTerm fb rs).1 env m tr with
      | .ub => .inr .ub
      | .halt es h => .inr (.halt h es)
      | .ok env m es =>
        match SSA.evalTerm (irL call args) env (splitTerm fb rs).2 with
        | .ub => .inr .ub
        | .ret v => .inr (.ret v m es)
        | .goto b => .inl ⟨some cur, b, env, m, es⟩ := by
  intro rs
  induction rs with
  | nil => intro pred env m tr _; rfl
  | cons r rs ih =>
    intro pred env m tr h
    have h' : ∀ r ∈ rs, r.isPhi = false := fun r hr => h r (by simp [hr])
    cases r with
    | phi p => exact absurd (h (.phi p) (by simp)) (by simp [Raw.isPhi])
    | term t => rfl
    | inst i =>
      have hL : (irL call args).sem = irSem call := rfl
      simp only [runCode, splitTerm, SSA.execBody]
      rcases hv : SSA.evals (irL call args) env i.args with _ | vs
      · rfl
      · simp only [hL]
        rcases hs : irSem call i.op vs m with ⟨v, m', es⟩ | _ | ⟨es, h⟩
        · exact ih _ _ _ _ h'
        · rfl
        · rfl

theorem splitTerm_noPhi_lead {rs : List Raw} (h : ∀ r ∈ rs, r.isPhi = false) : leadPhis rs = [] := by
  cases rs with
  | nil => rfl
  | cons r rs =>
    cases r with
    | phi p => exact absurd (h (.phi p) (by simp)) (by simp [Raw.isPhi])
    | _ => rfl

/-- running the list is running the block made of it -/
theorem stepBlk_mkBlock (fb : SSA.Term Cst) {rs : List Raw} (h : PhiOk rs) (s : SSA.St (irL call args)) :
    SSA.stepBlk (irL call args) (mkBlock fb rs) s = runCode call args fb s.cur rs s.pred s.env s.m s.tr := by
  cases rs with
  | nil =>
    simp only [SSA.stepBlk, mkBlock, leadPhis, SSA.enterPhis]
    rw [runCode_noPhi call args fb s.cur [] s.pred s.env s.m s.tr (by simp)]
    rcases SSA.execBody (irL call args) (splitTerm fb []).1 s.env s.m s.tr with ⟨e, m, es⟩ | _ | ⟨es, h⟩
    · simp only []
      rcases SSA.evalTerm (irL call args) e (splitTerm fb []).2 with b | v | _ <;> rfl
    · rfl
    · rfl
  | cons r rs =>
    cases r with
    | phi p =>
      have h' : ∀ r ∈ rs, r.isPhi = false := h
      simp only [SSA.stepBlk, mkBlock, leadPhis, splitTerm_noPhi_lead h', SSA.enterPhis, splitTerm, runCode]
      rcases hv : SSA.phiVal (irL call args) s.pred s.env p with _ | v
      · rfl
      · simp only []
        rw [runCode_noPhi call args fb s.cur rs s.pred (SSA.setEnv (irL call args) s.env p.id v) s.m s.tr h']
        rcases SSA.execBody (irL call args) (splitTerm fb rs).1 (SSA.setEnv (irL call args) s.env p.id v) s.m s.tr with ⟨e, m, es⟩ | _ | ⟨es, h⟩
        · simp only []
          rcases SSA.evalTerm (irL call args) e (splitTerm fb rs).2 with b | v | _ <;> rfl
        · rfl
        · rfl
    | inst i =>
      have h' : ∀ r ∈ Raw.inst i :: rs, r.isPhi = false := by
        intro r hr
        rcases List.mem_cons.1 hr with rfl | hr
        · rfl
        · exact h r hr
      simp only [SSA.stepBlk, mkBlock, leadPhis, SSA.enterPhis]
      rw [runCode_noPhi call args fb s.cur (Raw.inst i :: rs) s.pred s.env s.m s.tr h']
      rcases SSA.execBody (irL call args) (splitTerm fb (Raw.inst i :: rs)).1 s.env s.m s.tr with ⟨e, m, es⟩ | _ | ⟨es, h⟩
      · simp only []
        rcases SSA.evalTerm (irL call args) e (splitTerm fb (Raw.inst i :: rs)).2 with b | v | _ <;> rfl
      · rfl
      · rfl
    | term t =>
      have h' : ∀ r ∈ Raw.term t :: rs, r.isPhi = false := by
        intro r hr
        rcases List.mem_cons.1 hr with rfl | hr
        · rfl
        · exact h r hr
      simp only [SSA.stepBlk, mkBlock, leadPhis, SSA.enterPhis]
      rw [runCode_noPhi call args fb s.cur (Raw.term t :: rs) s.pred s.env s.m s.tr h']
      rcases SSA.execBody (irL call args) (splitTerm fb (Raw.term t :: rs)).1 s.env s.m s.tr with ⟨e, m, es⟩ | _ | ⟨es, h⟩
      · simp only []
        rcases SSA.evalTerm (irL call args) e (splitTerm fb (Raw.term t :: rs)).2 with b | v | _ <;> rfl
      · rfl
      · rfl

/-! ## a machine that can stop in the middle of a block -/

/-- about to execute `rest` in block `b` -/
structure PS (X : Ext) where
  b : Nat
  rest : List Raw
  pred : Option Nat
  env : Env
  m : Mem X
  tr : List X.E

/-- `n` block exits -/
def brun (fb : SSA.Term Cst) (code : Nat → Option (List Raw)) : Nat → PS X → PS X ⊕ SSA.Beh (irL call args)
  | 0, s => .inl s
  | n + 1, s =>
    match runCode call args fb s.b s.rest s.pred s.env s.m s.tr with
    | .inr b => .inr b
    | .inl t => brun fb code n ⟨t.cur, (code t.cur).getD [.term .unreachable], t.pred, t.env, t.m, t.tr⟩

/-- the same run with whole blocks -/
theorem run_brun {fb : SSA.Term Cst} {code : Nat → Option (List Raw)} {F : (irL call args).F}
    (hF : ∀ b, F.blk b = (code b).map (mkBlock fb)) (hp : ∀ b rs, code b = some rs → PhiOk rs) :
    ∀ (n : Nat) (s : SSA.St (irL call args)),
      SSA.run (irL call args) F n s =
        match brun call args fb code n ⟨s.cur, (code s.cur).getD [.term .unreachable], s.pred, s.env, s.m, s.tr⟩ with
        | .inl t => .inl ⟨t.pred, t.b, t.env, t.m, t.tr⟩
        | .inr b => .inr b := by
  intro n
  induction n with
  | zero => intro s; rfl
  | succ n ih =>
    intro s
    have hstep : SSA.step (irL call args) F s =
        runCode call args fb s.cur ((code s.cur).getD [.term .unreachable]) s.pred s.env s.m s.tr := by
      simp only [SSA.step, hF]
      rcases hc : code s.cur with _ | rs
      · rfl
      · exact stepBlk_mkBlock call args fb (hp _ _ hc) s
    simp only [SSA.run, brun, hstep]
    rcases hr : runCode call args fb s.cur ((code s.cur).getD [.term .unreachable]) s.pred s.env s.m s.tr with t | b
    · exact ih t
    · rfl

end
end Cmmc.Fe
