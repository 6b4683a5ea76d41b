import Verif.Fe.Ir
/-!
# Model of the front end's code generator (cmmc/Frontend/EmitIR.cpp, cmmc/IR/IRBuilder.cpp)

The functions follow the code one to one; a fatal diagnostic is `none`. Not modelled: floating point, pointers and address-of, structs,
array initialisers and decay of arrays (they are `none` here), `switch`, `goto`, string literals, strict (SPL) mode, the extra argument
of `starttime`/`stoptime`, branch probabilities and labels.

Simplifications:
* Instructions and stack slots are numbered separately: instruction `j` is the SSA name `2j+1`, slot `k` is the name `2k`.
* `Value*` constants are their type width and bit pattern; `intmax_t` arithmetic in constant folding is exact (it overflows only for
  source expressions whose behaviour is undefined).
* The `const` qualifier is kept for lvalues only (nothing reads it for rvalues of integer type).
-/
namespace Cmmc.Fe
open Cmmc

/-- `QualifiedValue` (EmitIR.hpp:55-69): the operand with its type and qualifiers. For an lvalue the operand is the address. -/
structure QVal where
  o : Opd
  t : CT

/-- `EmitContext` and `IRBuilder` -/
structure Ctx where
  /-- blocks created so far -/
  nb : Nat
  /-- instructions created so far -/
  nv : Nat
  /-- sizes of the stack slots created so far -/
  slots : List Int
  /-- `mCurrentBlock`; the insert point is its end -/
  cur : Nat
  code : Nat → List Raw
  /-- `mVariables`: per name, innermost first -/
  vars : String → List QVal
  /-- `mScopes` -/
  scopes : List (List String)
  /-- `mTerminatorTarget`: (continue, break) -/
  loops : List (Nat × Nat)
  /-- `mConstantBinding` -/
  cb : List (Opd × Wd × Nat)

/-! ## IRBuilder -/

/-- append to the current block (`makeOp`, IRBuilder.hpp:50-57) -/
def Ctx.push (c : Ctx) (r : Raw) : Ctx := { c with code := fun b => if b = c.cur then c.code b ++ [r] else c.code b }

/-- `makeOp` of an instruction -/
def Ctx.op (c : Ctx) (o : Op) (as : List Opd) : Opd × Ctx :=
  (.inst (2 * c.nv + 1), { c.push (.inst ⟨2 * c.nv + 1, o, as⟩) with nv := c.nv + 1 })

/-- `makeOp<BranchInst>` / `makeOp<ReturnInst>` -/
def Ctx.term (c : Ctx) (t : SSA.Term Cst) : Ctx := c.push (.term t)

/-- `addBlock` (IRBuilder.cpp:30-35) -/
def Ctx.newBlock (c : Ctx) : Nat × Ctx := (c.nb, { c with nb := c.nb + 1 })

/-- `setCurrentBlock` (IRBuilder.cpp:66-76) -/
def Ctx.setCur (c : Ctx) (b : Nat) : Ctx := { c with cur := b }

/-- `createAlloc` (IRBuilder.cpp:39-44): at the front of the entry block -/
def Ctx.alloc (c : Ctx) (size : Int) : Opd × Ctx := (.inst (2 * c.slots.length), { c with slots := c.slots ++ [size] })

/-- `createPhi` (IRBuilder.cpp:45-53): only at the front of the block; the incoming edges are added at once -/
def Ctx.phi (c : Ctx) (inc : List (Nat × Opd)) : Option (Opd × Ctx) :=
  if (c.code c.cur).isEmpty then some (.inst (2 * c.nv + 1), { c.push (.phi ⟨2 * c.nv + 1, inc⟩) with nv := c.nv + 1 }) else none

/-! ## scopes (EmitIR.cpp:1349-1414) -/

def Ctx.pushScope (c : Ctx) : Ctx := { c with scopes := [] :: c.scopes }

/-- `popScope` (1352-1364): for every name of the scope drop the newest variable and its constant binding -/
def popNames : List String → (String → List QVal) × List (Opd × Wd × Nat) → (String → List QVal) × List (Opd × Wd × Nat)
  | [], p => p
  | x :: xs, (vars, cb) =>
    let cb := match vars x with | q :: _ => cb.filter (fun e => !decide (e.1 = q.o)) | [] => cb
    popNames xs (fun y => if y = x then (vars y).tail else vars y, cb)

def Ctx.popScope (c : Ctx) : Option Ctx :=
  match c.scopes with
  | [] => none
  | sc :: scs =>
    let p := popNames sc (c.vars, c.cb)
    some { c with scopes := scs, vars := p.1, cb := p.2 }

/-- `addIdentifier` (1372-1395); unnamed parameters are not modelled -/
def Ctx.addId (c : Ctx) (x : String) (q : QVal) : Option Ctx :=
  match c.scopes with
  | [] => none
  | sc :: scs =>
    if x = "" ∨ x ∈ sc then none
    else some { c with scopes := (x :: sc) :: scs, vars := fun y => if y = x then q :: c.vars y else c.vars y }

/-- `addConstant` (1415-1418): `emplace`, an existing binding stays -/
def Ctx.addConst (c : Ctx) (o : Opd) (w : Wd) (n : Nat) : Ctx :=
  match c.cb.lookup o with
  | some _ => c
  | none => { c with cb := (o, w, n) :: c.cb }

/-! ## conversions -/

/-- `ConstantInteger::getSignExtended` (ConstantValue.cpp:47-58) for types wider than one bit -/
def sx (w : Nat) (n : Nat) : Int := (BitVec.ofNat w n).toInt

/-- `ConstantInteger::get(type, v)` (ConstantValue.cpp:79-94) -/
def cint (w : Wd) (v : Int) : Opd := .cst (.int w.bits (raw w v))

/-- `applyIntegerPromotion` (429-436); sizes are in bytes -/
def applyPromotion (t : IT) : IT := if t.w.bits / 8 < 4 then ⟨.w32, true⟩ else t

/-- `selectTargetType` (441-463) -/
def selectTarget (lt rt : IT) : IT :=
  let lt := applyPromotion lt
  let rt := applyPromotion rt
  if lt.sg == rt.sg then ⟨if rt.w.bits / 8 < lt.w.bits / 8 then lt.w else rt.w, lt.sg⟩
  else
    let uns := if lt.sg then rt else lt
    let sig := if lt.sg then lt else rt
    if sig.w.bits / 8 ≤ uns.w.bits / 8 then ⟨uns.w, false⟩ else ⟨sig.w, true⟩

/-- `calcImplicitTypeConversion` (438-513), integer part; `none` stands for `OperatorID::Select` -/
def implicitTarget (op : Option BOp) (lt rt : IT) : IT :=
  match op with
  | some .shl | some .shr => applyPromotion lt
  | _ => selectTarget lt rt

/-- `convertTo` (1202-1301), integer to integer -/
def convertTo (c : Ctx) (o : Opd) (src dst : IT) : Opd × Ctx :=
  if src.w = dst.w ∧ src.sg = dst.sg then (o, c)
  else
    match o with
    | .cst (.int w n) => (cint dst.w (if src.sg then sx w n else n), c)
    | _ =>
      if src.w.bits / 8 < dst.w.bits / 8 then c.op (.cast (if src.sg then .sext else .zext) src.w.bits dst.w.bits) [o]
      else c.op (.cast (if dst.sg then .strunc else .ztrunc) src.w.bits dst.w.bits) [o]

/-- `convertTo` to the boolean type (1229-1232) -/
def toBool (c : Ctx) (o : Opd) (src : IT) : Opd × Ctx := c.op (.icmp .ne src.w.bits) [o, cint src.w 0]

/-- `booleanToInt` (1175-1178) -/
def boolToInt (c : Ctx) (o : Opd) : Opd × Ctx := c.op (.cast .zext 1 32) [o]

/-- `getRValue(QualifiedValue)` (1945-1959) -/
def getRValue (c : Ctx) (q : QVal) : Option (Opd × IT × Ctx) :=
  match q.t with
  | .rv t => some (q.o, t, c)
  | .lv (.int w) sg _ =>
    match c.cb.lookup q.o with
    | some (w', n) => some (.cst (.int w'.bits n), ⟨w', sg⟩, c)
    | none => let p := c.op (.load w.bits) [q.o]; some (p.1, ⟨w, sg⟩, p.2)
  | _ => none

/-! ## operators -/

/-- `evaluateOp` (363-391) -/
def evaluateOp (op : BOp) (l r : Int) : Option Int :=
  match op with
  | .add => some (l + r)
  | .sub => some (l - r)
  | .mul => some (l * r)
  | .div => if r = 0 then none else some (l.tdiv r)
  | .rem => if r = 0 then none else some (l.tmod r)
  | _ => none

/-- `getBinaryOp` (261-320) -/
def getBinaryOp (op : BOp) (sg : Bool) : Option IR.BinOp :=
  match op with
  | .add => some .add
  | .sub => some .sub
  | .mul => some .mul
  | .div => some (if sg then .sdiv else .udiv)
  | .rem => some (if sg then .srem else .urem)
  | .band => some .and
  | .bor => some .or
  | .xor => some .xor
  | .shl => some .shl
  | .shr => some (if sg then .ashr else .lshr)
  | _ => none

/-- `getCompareOp` (323-358) -/
def getCompareOp (op : BOp) (sg : Bool) : IR.Cmp :=
  match op with
  | .eq => .eq
  | .ne => .ne
  | .lt => if sg then .slt else .ult
  | .le => if sg then .sle else .ule
  | .gt => if sg then .sgt else .ugt
  | _ => if sg then .sge else .uge

/-- the constant folding part of `makeBinaryOp` (394-419) -/
def foldBin (op : BOp) (t : IT) (l r : Opd) : Option Opd :=
  match l, r with
  | .cst (.int wl nl), .cst (.int wr nr) =>
    let lv : Int := if t.sg then sx wl nl else nl
    let rv : Int := if t.sg then sx wr nr else nr
    (evaluateOp op lv rv).map (cint t.w)
  | _, _ => none

/-- `makeBinaryOp` (393-427) -/
def makeBinaryOp (c : Ctx) (op : BOp) (t : IT) (l r : Opd) : Opd × Ctx :=
  match foldBin op t l r with
  | some o => (o, c)
  | none =>
    match getBinaryOp op t.sg with
    | some bo => c.op (.bin bo t.w.bits) [l, r]
    | none =>
      let p := c.op (.icmp (getCompareOp op t.sg) t.w.bits) [l, r]
      boolToInt p.2 p.1

/-- `emitArithmeticOp` (515-556) -/
def emitArith (c : Ctx) (op : BOp) (l : Opd) (lt : IT) (r : Opd) (rt : IT) : Opd × IT × Ctx :=
  let t := implicitTarget (some op) lt rt
  let a := convertTo c l lt t
  let b := convertTo a.2 r rt t
  let p := makeBinaryOp b.2 op t a.1 b.1
  (p.1, if op.isCmp then ⟨.w32, true⟩ else t, p.2)

/-- `UnaryExpr::emit` after the operand (642-695) -/
def emitUn (c : Ctx) (op : UOp) (o : Opd) (t0 : IT) : Opd × IT × Ctx :=
  let t := applyPromotion t0
  let p := if t0.w.bits / 8 < 4 then convertTo c o t0 t else (o, c)
  let o := p.1
  let c := p.2
  match op, o with
  | .neg, .cst (.int w n) => (cint t.w (-(sx w n)), t, c)
  | .plus, .cst (.int w n) => (cint t.w (sx w n), t, c)
  | .neg, _ => let p := c.op (.neg t.w.bits) [o]; (p.1, t, p.2)
  | .plus, _ => (o, t, c)
  | .bnot, _ => let p := c.op (.bin .xor t.w.bits) [o, cint t.w (-1)]; (p.1, t, p.2)
  | .lnot, _ =>
    let p := toBool c o t
    let p := p.2.op (.bin .xor 1) [p.1, .cst (.int 1 1)]
    let p := boolToInt p.2 p.1
    (p.1, ⟨.w32, true⟩, p.2)

/-! ## expressions -/

section
variable (sigs : Sigs) (P : Wd)

mutual
/-- `Expr::emit`; `P` is the width of the index type (the pointer size) -/
def emitE : Expr → Ctx → Option (QVal × Ctx)
  -- ConstantIntExpr (756-760)
  | .lit v t, c => some (⟨cint t.w v, .rv t⟩, c)
  -- IdentifierExpr (944-946), lookupIdentifier (1397-1414)
  | .id x, c =>
    match c.vars x with
    | q :: _ => some (q, c)
    | [] => none
  -- ArrayIndexExpr (1052-1097), the case of an array lvalue
  | .idx a i, c => do
    let (q, c) ← emitE a c
    let (qi, c) ← emitE i c
    let (oi, ti, c) ← getRValue c qi
    let (oi, c) := convertTo c oi ti ⟨P, false⟩
    match q.t with
    | .lv (.arr _ e) sg cst =>
      let (o, c) := c.op (.gep e.cnt P.bits) [q.o, oi]
      some (⟨o, .lv e sg cst⟩, c)
    | _ => none
  -- BinaryExpr (609-611)
  | .bin op a b, c => do
    let (qa, c) ← emitE a c
    let (oa, ta, c) ← getRValue c qa
    let (qb, c) ← emitE b c
    let (ob, tb, c) ← getRValue c qb
    let (o, t, c) := emitArith c op oa ta ob tb
    some (⟨o, .rv t⟩, c)
  -- BinaryExpr (583-607)
  | .land a b, c => do
    let (qa, c) ← emitE a c
    let (oa, ta, c) ← getRValue c qa
    let (o, c) := toBool c oa ta
    let src := c.cur
    let (rhsB, c) := c.newBlock
    let (newB, c) := c.newBlock
    let c := c.term (.cbr o rhsB newB)
    let c := c.setCur rhsB
    let (qb, c) ← emitE b c
    let (ob, tb, c) ← getRValue c qb
    let (ob, c) := toBool c ob tb
    let rhsB := c.cur
    let c := c.term (.br newB)
    let c := c.setCur newB
    let (o, c) ← c.phi [(src, .cst (.int 1 0)), (rhsB, ob)]
    let (o, c) := boolToInt c o
    some (⟨o, .rv ⟨.w32, true⟩⟩, c)
  | .lor a b, c => do
    let (qa, c) ← emitE a c
    let (oa, ta, c) ← getRValue c qa
    let (o, c) := toBool c oa ta
    let src := c.cur
    let (rhsB, c) := c.newBlock
    let (newB, c) := c.newBlock
    let c := c.term (.cbr o newB rhsB)
    let c := c.setCur rhsB
    let (qb, c) ← emitE b c
    let (ob, tb, c) ← getRValue c qb
    let (ob, c) := toBool c ob tb
    let rhsB := c.cur
    let c := c.term (.br newB)
    let c := c.setCur newB
    let (o, c) ← c.phi [(src, .cst (.int 1 1)), (rhsB, ob)]
    let (o, c) := boolToInt c o
    some (⟨o, .rv ⟨.w32, true⟩⟩, c)
  -- BinaryExpr, assignment (560-581)
  | .assign a b, c => do
    let (qa, c) ← emitE a c
    match qa.t with
    | .lv (.int w) sg false =>
      let (qb, c) ← emitE b c
      let (ob, tb, c) ← getRValue c qb
      let (o, c) := convertTo c ob tb ⟨w, sg⟩
      let (_, c) := c.op (.store w.bits) [qa.o, o]
      some (⟨o, .rv ⟨w, sg⟩⟩, c)
    | _ => none
  -- CompoundAssignExpr (613-626)
  | .cassign op a b, c => do
    let (qa, c) ← emitE a c
    match qa.t with
    | .lv (.int w) sg false =>
      let (l, c) := c.op (.load w.bits) [qa.o]
      let (qb, c) ← emitE b c
      let (ob, tb, c) ← getRValue c qb
      let (o, t, c) := emitArith c op l ⟨w, sg⟩ ob tb
      let (o, c) := convertTo c o t ⟨w, sg⟩
      let (_, c) := c.op (.store w.bits) [qa.o, o]
      some (⟨qa.o, .lv (.int w) sg false⟩, c)
    | _ => none
  -- UnaryExpr (640-700)
  | .un op a, c => do
    let (qa, c) ← emitE a c
    let (oa, ta, c) ← getRValue c qa
    let (o, t, c) := emitUn c op oa ta
    some (⟨o, .rv t⟩, c)
  -- SelfIncDecExpr (706-745)
  | .incdec pre inc a, c => do
    let (qa, c) ← emitE a c
    match qa.t with
    | .lv (.int w) sg false =>
      let (old, c) := c.op (.load w.bits) [qa.o]
      if w.bits / 8 < 4 then
        let (v, c) := convertTo c old ⟨w, sg⟩ ⟨.w32, sg⟩
        let (n, c) := c.op (.bin (if inc then .add else .sub) 32) [v, cint .w32 1]
        let (n, c) := c.op (.cast (if sg then .strunc else .ztrunc) 32 w.bits) [n]
        let (_, c) := c.op (.store w.bits) [qa.o, n]
        some (⟨if pre then n else old, .rv ⟨w, sg⟩⟩, c)
      else
        let (n, c) := c.op (.bin (if inc then .add else .sub) w.bits) [old, cint w 1]
        let (_, c) := c.op (.store w.bits) [qa.o, n]
        some (⟨if pre then n else old, .rv ⟨w, sg⟩⟩, c)
    | _ => none
  -- SelectExpr (1960-2012)
  | .sel k a b, c => do
    let (lhsB, c) := c.newBlock
    let (rhsB, c) := c.newBlock
    let (qk, c) ← emitE k c
    let (ok, tk, c) ← getRValue c qk
    let (ok, c) := toBool c ok tk
    let c := c.term (.cbr ok lhsB rhsB)
    let c := c.setCur lhsB
    let (qa, c) ← emitE a c
    let lhsB := c.cur
    let c := c.setCur rhsB
    let (qb, c) ← emitE b c
    let rhsB := c.cur
    let (next, c) := c.newBlock
    let c := c.setCur lhsB
    let (oa, ta, c) ← getRValue c qa
    let c := c.setCur rhsB
    let (ob, tb, c) ← getRValue c qb
    let t := implicitTarget none ta tb
    let c := c.setCur lhsB
    let (oa, c) := convertTo c oa ta t
    let c := c.term (.br next)
    let c := c.setCur rhsB
    let (ob, c) := convertTo c ob tb t
    let c := c.term (.br next)
    let c := c.setCur next
    let (o, c) ← c.phi [(lhsB, oa), (rhsB, ob)]
    some (⟨o, .rv t⟩, c)
  -- CastExpr (2085-2088)
  | .cast t a, c => do
    let (qa, c) ← emitE a c
    let (oa, ta, c) ← getRValue c qa
    let (o, c) := convertTo c oa ta t
    some (⟨o, .rv t⟩, c)
  -- CommaExpr (2090-2093)
  | .comma a b, c => do
    let (_, c) ← emitE a c
    emitE b c
  -- FunctionCallExpr (792-871), integer arguments
  | .call f as, c => do
    match c.vars f, sigs f with
    | [], some (ps, r) =>
      let (os, c) ← emitArgs ps as c
      let (o, c) := c.op (.call f (r.map (fun t => t.w.bits))) os
      some (⟨o, match r with | some t => .rv t | none => .void⟩, c)
    | _, _ => none
/-- the arguments (846-859) -/
def emitArgs : List IT → Args → Ctx → Option (List Opd × Ctx)
  | [], .nil, c => some ([], c)
  | t :: ts, .cons a as, c => do
    let (qa, c) ← emitE a c
    let (oa, ta, c) ← getRValue c qa
    let (o, c) := convertTo c oa ta t
    let (os, c) ← emitArgs ts as c
    some (o :: os, c)
  | _, _, _ => none
end

/-- a condition: `getRValue(e, boolean, ..)` -/
def emitC (e : Expr) (c : Ctx) : Option (Opd × Ctx) := do
  let (q, c) ← emitE sigs P e c
  let (o, t, c) ← getRValue c q
  some (toBool c o t)

/-! ## statements -/

/-- `getType` (1476-1516): array sizes -/
def Ty.ok : Ty → Bool
  | .int _ => true
  | .arr n e => decide (0 < n) && decide (n < 2 ^ 30) && e.ok

def isCInt : Opd → Option Nat
  | .cst (.int _ n) => some n
  | _ => none

/-- the `emit` of statements; `rt` is the return type -/
def emitS (rt : Option IT) : Stmt → Ctx → Option Ctx
  | .skip, c => some c
  | .seq a b, c => do
    let c ← emitS rt a c
    emitS rt b c
  | .expr e, c => do
    let (_, c) ← emitE sigs P e c
    some c
  -- LocalVarDefExpr (1004-1050)
  | .decl x ty sg cst init, c =>
    if ty.ok then
      let (slot, c) := c.alloc ty.cnt
      match ty, init with
      | .int w, some e => do
        let (q, c) ← emitE sigs P e c
        let (o, t, c) ← getRValue c q
        let (o, c) := convertTo c o t ⟨w, sg⟩
        let (_, c) := c.op (.store w.bits) [slot, o]
        let c := match isCInt o, cst with
          | some n, true => c.addConst slot w n
          | _, _ => c
        c.addId x ⟨slot, .lv ty sg cst⟩
      | .int w, none =>
        let (_, c) := c.op (.store w.bits) [slot, cint w 0]
        c.addId x ⟨slot, .lv ty sg cst⟩
      | .arr _ _, none => c.addId x ⟨slot, .lv ty sg cst⟩
      | .arr _ _, some _ => none
    else none
  -- ScopedExpr (948-954)
  | .scope a, c => do
    let c := c.pushScope
    let c ← emitS rt a c
    c.popScope
  -- IfElseExpr (912-942)
  | .ifThen k a, c => do
    let (o, c) ← emitC sigs P k c
    let old := c.cur
    let (ifB, c) := c.newBlock
    let (newB, c) := c.newBlock
    let c := c.setCur ifB
    let c ← emitS rt a c
    let c := c.term (.br newB)
    let c := c.setCur old
    let c := c.term (.cbr o ifB newB)
    some (c.setCur newB)
  | .ifElse k a b, c => do
    let (o, c) ← emitC sigs P k c
    let old := c.cur
    let (ifB, c) := c.newBlock
    let (newB, c) := c.newBlock
    let c := c.setCur ifB
    let c ← emitS rt a c
    let c := c.term (.br newB)
    let (elseB, c) := c.newBlock
    let c := c.setCur old
    let c := c.term (.cbr o ifB elseB)
    let c := c.setCur elseB
    let c ← emitS rt b c
    let c := c.term (.br newB)
    some (c.setCur newB)
  -- WhileExpr (956-979)
  | .while k a, c => do
    let (header, c) := c.newBlock
    let c := c.term (.br header)
    let c := c.setCur header
    let (o, c) ← emitC sigs P k c
    let (body, c) := c.newBlock
    let (newB, c) := c.newBlock
    let c := c.term (.cbr o body newB)
    let c := { c with loops := (header, newB) :: c.loops }
    let c := c.setCur body
    let c ← emitS rt a c
    let c := c.term (.br header)
    let c := { c with loops := c.loops.tail }
    some (c.setCur newB)
  -- DoWhileExpr (981-1002)
  | .doWhile a k, c => do
    let (body, c) := c.newBlock
    let (header, c) := c.newBlock
    let (next, c) := c.newBlock
    let c := c.term (.br body)
    let c := { c with loops := (header, next) :: c.loops }
    let c := c.setCur body
    let c ← emitS rt a c
    let c := c.term (.br header)
    let c := { c with loops := c.loops.tail }
    let c := c.setCur header
    let (o, c) ← emitC sigs P k c
    let c := c.term (.cbr o body next)
    some (c.setCur next)
  -- ForExpr (1907-1944)
  | .for i k it a, c => do
    let c := c.pushScope
    let c ← emitS rt i c
    let (header, c) := c.newBlock
    let (body, c) := c.newBlock
    let (iter, c) := c.newBlock
    let (next, c) := c.newBlock
    let c := c.term (.br header)
    let c := c.setCur header
    let c ← match k with
      | some k => do
        let (o, c) ← emitC sigs P k c
        some (c.term (.cbr o body next))
      | none => some (c.term (.br body))
    let c := c.setCur body
    let c := { c with loops := (iter, next) :: c.loops }
    let c ← emitS rt a c
    let c := c.term (.br iter)
    let c := { c with loops := c.loops.tail }
    let c := c.setCur iter
    let c ← match it with
      | some e => do
        let (_, c) ← emitE sigs P e c
        some c
      | none => some c
    let c := c.term (.br header)
    let c := c.setCur next
    c.popScope
  -- BreakExpr, ContinueExpr (1744-1751)
  | .brk, c =>
    match c.loops with
    | (_, b) :: _ => some (c.term (.br b))
    | [] => none
  | .cont, c =>
    match c.loops with
    | (b, _) :: _ => some (c.term (.br b))
    | [] => none
  -- ReturnExpr (873-910)
  | .ret none, c => if rt = none then some (c.term (.ret none)) else none
  | .ret (some e), c =>
    match rt with
    | none => none
    | some t => do
      let (q, c) ← emitE sigs P e c
      let (o, s, c) ← getRValue c q
      let (o, c) := convertTo c o s t
      some (c.term (.ret (some o)))

/-! ## functions -/

/-- the parameters (185-211): passed in registers, copied to the stack -/
def emitParams : Nat → List (String × IT × Bool) → Ctx → Option Ctx
  | _, [], c => some c
  | i, (x, t, cst) :: ps, c => do
    let (slot, c) := c.alloc 1
    let (_, c) := c.op (.store t.w.bits) [slot, .cst (.arg i)]
    let c ← c.addId x ⟨slot, .lv (.int t.w) t.sg cst⟩
    emitParams (i + 1) ps c

/-- a global: name, type, qualifiers, and its value if it is a constant with an initialiser (GlobalVarDefinition::emit, 1757-1811) -/
structure Glob where
  name : String
  ty : Ty
  sg : Bool
  cst : Bool
  val : Option Nat

/-- the context in which function bodies are emitted -/
def ctx0 (gs : List Glob) : Ctx where
  nb := 1
  nv := 0
  slots := []
  cur := 0
  code := fun _ => []
  vars := fun x => (gs.filter (fun g => g.name == x)).map (fun g => ⟨.cst (.glob g.name), .lv g.ty g.sg g.cst⟩)
  scopes := [[], gs.map Glob.name]
  loops := []
  cb := gs.filterMap (fun g =>
    match g.ty, g.cst, g.val with
    | .int w, true, some n => some (.cst (.glob g.name), w, n)
    | _, _, _ => none)

/-- `FunctionDefinition::emit` (158-259) up to the fix-up. The declaration of a global variable fails if its name is taken
    (`addIdentifier`, 1381-1386) or its type is not valid (1476-1516). -/
def emitFn (gs : List Glob) (fn : Fn) : Option Ctx :=
  if (gs.map Glob.name).Nodup ∧ ∀ g ∈ gs, g.ty.ok = true then do
    let c ← emitParams 0 fn.params (ctx0 gs)
    emitS sigs P fn.ret fn.body c
  else none

/-- the terminator of a block that has none (235-245) -/
def fallback (fn : Fn) : SSA.Term Cst := if fn.ret = none then .ret none else .ret (some (.cst .undef))

/-- the stack slots at the front of the entry block: the newest first -/
def allocas : List Int → List Raw := fun ss =>
  (ss.zipIdx.map (fun (p : Int × Nat) => Raw.inst ⟨2 * p.2, .alloca p.2 p.1, []⟩)).reverse

/-- the instruction list of a block -/
def Ctx.full (c : Ctx) (b : Nat) : Option (List Raw) :=
  if b < c.nb then some (if b = 0 then allocas c.slots ++ c.code 0 else c.code b) else none

/-- the finished function (221-252); the order of the blocks does not matter -/
def finish (fn : Fn) (c : Ctx) : SSA.Func Op Cst where
  entry := 0
  order := List.range c.nb
  blk := fun b => (c.full b).map (mkBlock (fallback fn))

end
end Cmmc.Fe
