/-!
# Model of cmmc/CodeGen/MultiplyByConstant.cpp

* `intmax_t`/`int32_t` values are integers; the places where the C++ would overflow are undefined (`none`).
* A `shared_ptr<ShiftArithNode>` is a `Plan` (immutable after construction); `nullptr` as a parent is `Plan.root`, `nullptr` as a
  result is `none` inside the returned pair.
* `none` outside the pair: undefined behaviour, failed assert or non-termination (`partial_fixpoint`).
* the static table `memo[12]` is threaded through all calls.
-/
namespace Cmmc.MulConst

/-- `ArtihType` (l.29-33), in enum order -/
inductive Arith | add | sub | nop
deriving DecidableEq, Repr
def Arith.ord : Arith → Nat | .add => 0 | .sub => 1 | .nop => 2

/-- `RhsType` (l.34-37) -/
inductive Rhs | chain | origin
deriving DecidableEq, Repr

/-- `ShiftArithNode` (l.28-44) -/
inductive Plan
  | root
  | node (cost : Int) (shamt : Nat) (arith : Arith) (rhs : Rhs) (parent : Plan)
deriving DecidableEq, Repr

def Plan.cost : Plan → Int
  | .root => 0
  | .node c _ _ _ _ => c
def Plan.arith : Plan → Arith
  | .root => .nop
  | .node _ _ a _ _ => a

/-- the constructor (l.45-48) -/
def mkNode (shamt : Nat) (a : Arith) (r : Rhs) (parent : Plan) : Plan :=
  .node (parent.cost + (if a ≠ .nop then 1 else 0) + (if shamt > 0 then 1 else 0)) shamt a r parent

/-- `operator<` (l.50-54) -/
def Plan.lt (x y : Plan) : Bool := if x.cost = y.cost then x.arith.ord < y.arith.ord else x.cost < y.cost

/-- `minPlan` (l.59-66) -/
def minPlan : Option Plan → Option Plan → Option Plan
  | none, r => r
  | l, none => l
  | some l, some r => if l.lt r then some l else some r

/-- `memo` (l.57) -/
abbrev Memo := Nat → Int → Option Plan
def Memo.empty : Memo := fun _ _ => none
def Memo.set (m : Memo) (u : Int) (n : Int) (p : Plan) : Memo := fun u' n' => if u' = u.toNat ∧ n' = n then some p else m u' n'

/-- `currentUpper` (l.78) -/
def curUpper (upper : Int) : Option Plan → Int
  | none => upper
  | some p => min upper p.cost

/-- `tryUpdatePlan` (l.79-86) -/
def tryUpdate (plan new : Option Plan) (shamt : Nat) (a : Arith) (r : Rhs) : Option Plan :=
  match new with
  | none => plan
  | some p => minPlan plan (some (mkNode shamt a r p))

/-- the loop stripping factors of two (l.120-123) -/
def strip (m : Int) (shamt : Nat) : Option (Int × Nat) :=
  if m % 2 = 0 then strip (m / 2) (shamt + 1) else some (m, shamt)
partial_fixpoint

mutual
/-- `findMultiplyPlan` (l.110-133) -/
def find (memo : Memo) (n upper : Int) : Option (Memo × Option Plan) :=
  if upper ≥ 12 then none else
  if upper < 0 then some (memo, none) else
  match memo upper.toNat n with
  | some p => some (memo, some p)
  | none => do
    let s ← strip n 0
    if s.1 = 1 then
      some (memo.set upper n (mkNode s.2 .nop .origin .root), some (mkNode s.2 .nop .origin .root))
    else do
      let r ← odd memo s.1 (upper - (if s.2 > 0 then 1 else 0))
      match r.2 with
      | none => some (r.1, none)
      | some p =>
        let p' := if s.2 > 0 then mkNode s.2 .nop .origin p else p
        some (r.1.set upper n p', some p')
partial_fixpoint
/-- `findMultiplyPlanOdd` (l.69-108) -/
def odd (memo : Memo) (n upper : Int) : Option (Memo × Option Plan) :=
  if upper < 0 then some (memo, none) else
  match memo upper.toNat n with
  | some p => some (memo, some p)
  | none =>
    if ¬ (n > 1 ∧ n % 2 = 1) then none else do
    let r1 ← find memo (n - 1) (upper - 1)
    if n + 1 > 9223372036854775807 then none else do
    let r2 ← find r1.1 (n + 1) (curUpper upper (tryUpdate none r1.2 0 .add .origin) - 1)
    let r3 ← loop r2.1 n upper 1 (tryUpdate (tryUpdate none r1.2 0 .add .origin) r2.2 0 .sub .origin)
    match r3.2 with
    | none => some (r3.1, none)
    | some p => some (r3.1.set upper n p, some p)
partial_fixpoint
/-- the loop over `i` (l.93-102); `1 << i` overflows `intmax_t` at `i = 63` -/
def loop (memo : Memo) (n upper : Int) (i : Nat) (plan : Option Plan) : Option (Memo × Option Plan) :=
  if i ≥ 63 then none else
  if (2 : Int) ^ i ≤ n then do
    let r1 ← tryDiv memo n upper i plan (2 ^ i + 1) .add
    let r2 ← tryDiv r1.1 n upper i r1.2 (2 ^ i - 1) .sub
    loop r2.1 n upper (i + 1) r2.2
  else some (memo, plan)
partial_fixpoint
/-- one division attempt (l.96-98 and l.99-101) -/
def tryDiv (memo : Memo) (n upper : Int) (i : Nat) (plan : Option Plan) (p : Int) (a : Arith) : Option (Memo × Option Plan) :=
  if n % p = 0 then do
    let r ← find memo (n / p) (curUpper upper plan - 2)
    some (r.1, tryUpdate plan r.2 i a .chain)
  else some (memo, plan)
partial_fixpoint
end

/-! ## Machine code -/

/-- `MIROperand`: a virtual register or an immediate -/
inductive Operand
  | reg (r : Nat)
  | imm (i : Int)
deriving DecidableEq, Repr

/-- generic MIR instructions on operands of a `w`-bit integer type; everything the pass does not touch is `other`, with an
arbitrary (possibly undefined) effect on the registers -/
inductive Inst
  | mul (w : Nat) (dst : Nat) (a b : Operand)
  | add (w : Nat) (dst : Nat) (a b : Operand)
  | sub (w : Nat) (dst : Nat) (a b : Operand)
  | shl (w : Nat) (dst : Nat) (a : Operand) (shamt : Int)
  | copy (w : Nat) (dst : Nat) (a : Operand)
  | other (f : (Nat → Nat) → Option (Nat → Nat))

/-- the recursive lambda `expand` (l.144-171): `next` is the next virtual register id (`codeGenCtx.nextId()`); returns the emitted
instructions in order, the operand holding the result and the new `next` -/
def expand (w : Nat) (lhs : Operand) : Plan → Nat → List Inst × Operand × Nat
  | .root, next => ([], lhs, next)
  | .node _ shamt a r parent, next =>
    match expand w lhs parent next with
    | (code, v, next) =>
      match (if shamt > 0 then (code ++ [.shl w next v shamt], Operand.reg next, next + 1) else (code, v, next)) with
      | (code, ret, next) =>
        let rhs := if r = .chain then v else lhs
        if a = .nop then (code, ret, next)
        else (code ++ [if a = .add then .add w next ret rhs else .sub w next ret rhs], Operand.reg next, next + 1)

/-- state of the pass: memo table and next register id -/
structure St where
  memo : Memo
  next : Nat

/-- `expandMulWithConstantImpl` (l.135-186) on one instruction: the instructions that take its place -/
def expandInst (maxCost : Int) (s : St) (inst : Inst) : Option (List Inst × St) :=
  match inst with
  | .mul w dst lhs (.imm v2) =>
    if v2 = 0 ∨ v2 = -9223372036854775808 then some ([inst], s)
    else do
      let r ← find s.memo v2.natAbs maxCost
      match r.2 with
      | none => some ([inst], { s with memo := r.1 })
      | some plan =>
        match expand w lhs plan s.next with
        | (code, ret, next) =>
          some (code ++ [if v2 < 0 then .sub w dst (.imm 0) ret else .copy w dst ret], ⟨r.1, next⟩)
  | _ => some ([inst], s)

/-- the pass over one block (l.194-199) -/
def expandBlock (maxCost : Int) (s : St) : List Inst → Option (List Inst × St)
  | [] => some ([], s)
  | i :: is => do
    let r ← expandInst maxCost s i
    let r' ← expandBlock maxCost r.2 is
    return (r.1 ++ r'.1, r'.2)

/-- the pass over a function (l.188-202) -/
def expandFunc (maxCost : Int) (s : St) : List (List Inst) → Option (List (List Inst) × St)
  | [] => some ([], s)
  | b :: bs => do
    let r ← expandBlock maxCost s b
    let r' ← expandFunc maxCost r.2 bs
    return (r.1 :: r'.1, r'.2)

end Cmmc.MulConst
