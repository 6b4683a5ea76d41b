import Verif.MulConst.Model
/-! Specification side: what machine code means, independent of the pass. -/
namespace Cmmc.MulConst

/-- register file: raw bits -/
abbrev Env := Nat → Nat

/-- value of an operand in a `w`-bit type -/
def Operand.val (w : Nat) (e : Env) : Operand → BitVec w
  | .reg r => BitVec.ofNat w (e r)
  | .imm i => BitVec.ofInt w i

def Env.set (e : Env) (r : Nat) (v : Nat) : Env := fun x => if x = r then v else e x

/-- one instruction; a shift amount outside `[0, w)` is undefined -/
def Inst.exec (e : Env) : Inst → Option Env
  | .mul w d a b => some (e.set d (a.val w e * b.val w e).toNat)
  | .add w d a b => some (e.set d (a.val w e + b.val w e).toNat)
  | .sub w d a b => some (e.set d (a.val w e - b.val w e).toNat)
  | .shl w d a s => if 0 ≤ s ∧ s < w then some (e.set d (a.val w e <<< s.toNat).toNat) else none
  | .copy w d a => some (e.set d (a.val w e).toNat)
  | .other f => f e

def execCode : List Inst → Env → Option Env
  | [], e => some e
  | i :: is, e => (i.exec e).bind (execCode is)

/-- two register files agree on the registers below `N` -/
def Agree (N : Nat) (e e' : Env) : Prop := ∀ r, r < N → e r = e' r

/-- two outcomes agree: both undefined, or both defined and equal on the registers below `N` -/
def AgreeO (N : Nat) : Option Env → Option Env → Prop
  | none, none => True
  | some e, some e' => Agree N e e'
  | _, _ => False

def Operand.Below (N : Nat) : Operand → Prop
  | .reg r => r < N
  | .imm _ => True

/-- the instruction only uses registers below `N`, and a multiplication constant fits the type -/
def Inst.WF (N : Nat) : Inst → Prop
  | .mul w d a b => d < N ∧ a.Below N ∧ b.Below N ∧ 1 < w ∧ ∀ c, b = .imm c → -2 ^ (w - 1) ≤ c ∧ c ≤ 2 ^ (w - 1)
  | .add _ d a b => d < N ∧ a.Below N ∧ b.Below N
  | .sub _ d a b => d < N ∧ a.Below N ∧ b.Below N
  | .shl _ d a _ => d < N ∧ a.Below N
  | .copy _ d a => d < N ∧ a.Below N
  | .other f => ∀ e e', Agree N e e' → AgreeO N (f e) (f e')

/-- tables that can arise: any sequence of earlier queries -/
inductive MemoReach : Memo → Prop
  | empty : MemoReach Memo.empty
  | query {m m' : Memo} {n u : Int} {p : Option Plan} : MemoReach m → 1 ≤ n → u < 12 → find m n u = some (m', p) → MemoReach m'

end Cmmc.MulConst
