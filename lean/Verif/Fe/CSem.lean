import Mathlib.Data.List.Basic
import Mathlib.Tactic.Linarith
/-!
# The source language: a specification of the integer part of C as cmmc accepts it

This file is the *specification* side of C61-C64. It does not mention the compiler. It gives the meaning of the abstract syntax
produced by the SysY parser (cmmc/Frontend/AST.hpp, ParserSysY.yy) in terms of mathematical integers:

* integer types of 8, 16, 32, 64 bits, signed or unsigned; integer promotion, usual arithmetic conversions, conversion on assignment
  (C11 6.3.1); a value that does not fit a signed type is reduced modulo 2^w (implementation-defined in C, what gcc does);
* signed overflow, division by zero, shifts by a negative or too large amount, an index outside its array and reading an element that
  was never written are undefined (`ub`);
* scopes and shadowing: an environment is a list of scopes; each execution of a declaration makes a new object;
* `&&`, `||`, `?:` evaluate only what C says they evaluate; operands are evaluated from left to right (one of the orders C allows);
* statements: expression statements, declarations, blocks, `if`, `while`, `do`, `for`, `break`, `continue`, `return`;
* everything outside the function -- globals, other functions, input and output -- is an arbitrary `World`.

cmmc gives integer variables declared without an initialiser the value 0 (EmitIR.cpp:1040-1044); C leaves them indeterminate. The
specification follows cmmc here (a stronger promise).
-/
namespace Cmmc.Fe

/-! ## types -/

inductive Wd | w8 | w16 | w32 | w64
deriving DecidableEq

def Wd.bits : Wd → Nat
  | .w8 => 8 | .w16 => 16 | .w32 => 32 | .w64 => 64

/-- an integer type -/
structure IT where
  w : Wd
  sg : Bool
deriving DecidableEq

def IT.int : IT := ⟨.w32, true⟩

/-- the values of a type -/
def IT.lo (t : IT) : Int := if t.sg then -2 ^ (t.w.bits - 1) else 0
def IT.hi (t : IT) : Int := if t.sg then 2 ^ (t.w.bits - 1) - 1 else 2 ^ t.w.bits - 1

def IT.has (t : IT) (v : Int) : Bool := decide (t.lo ≤ v) && decide (v ≤ t.hi)

/-- conversion to an integer type (C11 6.3.1.3) -/
def conv (t : IT) (v : Int) : Int := if t.sg then Int.bmod v (2 ^ t.w.bits) else v % 2 ^ t.w.bits

/-- integer promotion (C11 6.3.1.1): types narrower than `int` become `int` -/
def promote (t : IT) : IT := if t.w.bits < 32 then .int else t

/-- the wider of two widths -/
def wider (a b : Wd) : Wd := if b.bits < a.bits then a else b

/-- usual arithmetic conversions (C11 6.3.1.8) of the promoted types: same signedness -- the wider type; otherwise the unsigned type if
    it is at least as wide, else the signed type -/
def usual (a b : IT) : IT :=
  let a := promote a
  let b := promote b
  if a.sg = b.sg then ⟨wider a.w b.w, a.sg⟩
  else
    let u := if a.sg then b else a
    let s := if a.sg then a else b
    if s.w.bits ≤ u.w.bits then u else s

/-- object types: integers and arrays -/
inductive Ty
  | int (w : Wd)
  | arr (n : Nat) (e : Ty)
deriving DecidableEq

/-- number of integers in an object -/
def Ty.cnt : Ty → Int
  | .int _ => 1
  | .arr n e => n * e.cnt

/-- the width of the integers in an object -/
def Ty.base : Ty → Wd
  | .int w => w
  | .arr _ e => e.base

/-! ## operations -/

inductive BOp
  | add | sub | mul | div | rem | band | bor | xor | shl | shr | lt | le | gt | ge | eq | ne
deriving DecidableEq

def BOp.isCmp : BOp → Bool
  | .lt | .le | .gt | .ge | .eq | .ne => true
  | _ => false

def BOp.isShift : BOp → Bool
  | .shl | .shr => true
  | _ => false

/-- the type in which an operation is carried out -/
def opTy (op : BOp) (a b : IT) : IT := if op.isShift then promote a else usual a b

/-- the type of its result -/
def resTy (op : BOp) (a b : IT) : IT := if op.isCmp then .int else opTy op a b

/-- a result of arithmetic in type `t`: overflow is undefined for signed types, wraps for unsigned types -/
def arith (t : IT) (v : Int) : Option Int := if t.sg then (if t.has v then some v else none) else some (v % 2 ^ t.w.bits)

def b2i (b : Bool) : Int := if b then 1 else 0

/-- bit patterns -/
def bitop (t : IT) (f : BitVec t.w.bits → BitVec t.w.bits → BitVec t.w.bits) (x y : Int) : Int :=
  conv t (f (BitVec.ofInt _ x) (BitVec.ofInt _ y)).toNat

/-- `x op y` for operands that have been converted to the operation type `t`; `none` is undefined behaviour -/
def binop (op : BOp) (t : IT) (x y : Int) : Option Int :=
  match op with
  | .add => arith t (x + y)
  | .sub => arith t (x - y)
  | .mul => arith t (x * y)
  | .div => if y = 0 then none else arith t (x.tdiv y)
  | .rem => if y = 0 then none else if t.sg && !t.has (x.tdiv y) then none else some (x.tmod y)
  | .band => some (bitop t (· &&& ·) x y)
  | .bor => some (bitop t (· ||| ·) x y)
  | .xor => some (bitop t (· ^^^ ·) x y)
  | .shl => if 0 ≤ y ∧ y < t.w.bits then some (conv t (x * 2 ^ y.toNat)) else none
  | .shr => if 0 ≤ y ∧ y < t.w.bits then some (x / 2 ^ y.toNat) else none
  | .lt => some (b2i (x < y))
  | .le => some (b2i (x ≤ y))
  | .gt => some (b2i (y < x))
  | .ge => some (b2i (y ≤ x))
  | .eq => some (b2i (x = y))
  | .ne => some (b2i (x ≠ y))

/-- a binary operator on values of any two types: convert, operate. The amount of a shift keeps its own promoted type. -/
def binary (op : BOp) (a : IT) (x : Int) (b : IT) (y : Int) : Option Int :=
  let t := opTy op a b
  binop op t (conv t x) (if op.isShift then y else conv t y)

inductive UOp | neg | bnot | lnot | plus
deriving DecidableEq

def unTy (op : UOp) (a : IT) : IT := if op = .lnot then .int else promote a

/-- a unary operator -/
def unary (op : UOp) (a : IT) (x : Int) : Option Int :=
  match op with
  | .neg => arith (promote a) (-x)
  | .bnot => some (conv (promote a) (-x - 1))
  | .lnot => some (b2i (x = 0))
  | .plus => some x

/-! ## syntax -/

mutual
inductive Expr
  | lit (v : Nat) (t : IT)
  | id (x : String)
  | idx (a i : Expr)
  | bin (op : BOp) (a b : Expr)
  | land (a b : Expr)
  | lor (a b : Expr)
  | assign (a b : Expr)
  | cassign (op : BOp) (a b : Expr)
  | un (op : UOp) (a : Expr)
  | incdec (pre inc : Bool) (a : Expr)
  | sel (c a b : Expr)
  | cast (t : IT) (a : Expr)
  | comma (a b : Expr)
  | call (f : String) (as : Args)
inductive Args
  | nil
  | cons (a : Expr) (as : Args)
end

inductive Stmt
  | skip
  | seq (a b : Stmt)
  | expr (e : Expr)
  /-- `ty x;` / `ty x = e;` for an integer variable, `ty x[n]..;` for an array -/
  | decl (x : String) (ty : Ty) (sg cst : Bool) (init : Option Expr)
  | scope (s : Stmt)
  | ifThen (c : Expr) (a : Stmt)
  | ifElse (c : Expr) (a b : Stmt)
  | while (c : Expr) (a : Stmt)
  | doWhile (a : Stmt) (c : Expr)
  | for (init : Stmt) (c : Option Expr) (it : Option Expr) (a : Stmt)
  | brk
  | cont
  | ret (e : Option Expr)

/-! ## the world -/

/-- everything outside one activation of the function: global objects, other functions, devices. Values cross this border as bit
    patterns (`Nat`); a reader takes the low bits of its type. -/
structure Ext where
  World : Type
  E : Type
  H : Type
  rd : World → String → Int → Option Nat
  wr : World → String → Int → Nat → Option World

/-- what a call does -/
inductive CallRes (X : Ext)
  | ok (r : Nat) (w : X.World) (es : List X.E)
  | ub
  | halt (es : List X.E) (h : X.H)

/-- the functions that can be called: parameter types, return type (`none`: void) -/
abbrev Sigs := String → Option (List IT × Option IT)

abbrev Calls (X : Ext) := String → List Nat → X.World → CallRes X

/-- the bit pattern of a value in a type of width `w` -/
def raw (w : Wd) (v : Int) : Nat := (v % 2 ^ w.bits).toNat

/-! ## states and results -/

/-- objects: locals of this activation, globals -/
inductive Obj
  | loc (l : Nat)
  | glob (g : String)
deriving DecidableEq

/-- a declared variable -/
structure Ent where
  obj : Obj
  ty : Ty
  sg : Bool
  cst : Bool

abbrev SEnv := List (List (String × Ent))

def SEnv.find (ρ : SEnv) (x : String) : Option Ent := (ρ.flatten.find? (fun e => e.1 == x)).map Prod.snd

/-- `mem l i`: the integer at index `i` of local object `l`; `none`: not written yet -/
structure SSt (X : Ext) where
  mem : Nat → Int → Option Int
  next : Nat
  w : X.World
  tr : List X.E

inductive Out (X : Ext) (α : Type)
  | ok (a : α) (s : SSt X)
  | ub
  | halt (h : X.H) (tr : List X.E)

def Out.bind {X : Ext} {α β : Type} (o : Out X α) (f : α → SSt X → Out X β) : Out X β :=
  match o with
  | .ok a s => f a s
  | .ub => .ub
  | .halt h tr => .halt h tr

/-- what an expression evaluates to: an object part (lvalue), an integer, nothing -/
inductive QV
  | lv (o : Obj) (off : Int) (ty : Ty) (sg cst : Bool)
  | rv (t : IT) (v : Int)
  | void

/-- static type of an expression -/
inductive CT
  | lv (ty : Ty) (sg cst : Bool)
  | rv (t : IT)
  | void
deriving DecidableEq

/-- the type of the value of an expression -/
def CT.val : CT → Option IT
  | .lv (.int w) sg _ => some ⟨w, sg⟩
  | .rv t => some t
  | _ => none

section
variable {X : Ext}

/-- read an integer of type `t` -/
def readObj (s : SSt X) (o : Obj) (off : Int) (t : IT) : Out X (IT × Int) :=
  match o with
  | .loc l => match s.mem l off with
    | some v => .ok (t, v) s
    | none => .ub
  | .glob g => match X.rd s.w g off with
    | some n => .ok (t, conv t n) s
    | none => .ub

/-- write an integer of type `t` -/
def writeObj (s : SSt X) (o : Obj) (off : Int) (t : IT) (v : Int) : Out X Unit :=
  match o with
  | .loc l => .ok () { s with mem := fun l' i => if l' = l ∧ i = off then some v else s.mem l' i }
  | .glob g => match X.wr s.w g off (raw t.w v) with
    | some w' => .ok () { s with w := w' }
    | none => .ub

/-- lvalue conversion (C11 6.3.2.1) -/
def rval (q : QV) (s : SSt X) : Out X (IT × Int) :=
  match q with
  | .lv o off (.int w) sg _ => readObj s o off ⟨w, sg⟩
  | .rv t v => .ok (t, v) s
  | _ => .ub

/-- lift undefinedness -/
def ofOpt {α : Type} (o : Option α) (s : SSt X) : Out X α :=
  match o with
  | some a => .ok a s
  | none => .ub

variable (sigs : Sigs) (call : Calls X)

/-- static types (C11 6.5) -/
def typeOf (ρ : SEnv) : Expr → Option CT
  | .lit _ t => some (.rv t)
  | .id x => (ρ.find x).map (fun e => .lv e.ty e.sg e.cst)
  | .idx a _ =>
    match typeOf ρ a with
    | some (.lv (.arr _ e) sg cst) => some (.lv e sg cst)
    | _ => none
  | .bin op a b => do
    let ta ← (← typeOf ρ a).val
    let tb ← (← typeOf ρ b).val
    pure (.rv (resTy op ta tb))
  | .land _ _ => some (.rv .int)
  | .lor _ _ => some (.rv .int)
  | .assign a _ =>
    match typeOf ρ a with
    | some (.lv (.int w) sg _) => some (.rv ⟨w, sg⟩)
    | _ => none
  | .cassign _ a _ =>
    match typeOf ρ a with
    | some (.lv (.int w) sg c) => some (.lv (.int w) sg c)
    | _ => none
  | .un op a => do
    let ta ← (← typeOf ρ a).val
    pure (.rv (unTy op ta))
  | .incdec _ _ a =>
    match typeOf ρ a with
    | some (.lv (.int w) sg _) => some (.rv ⟨w, sg⟩)
    | _ => none
  | .sel _ a b => do
    let ta ← (← typeOf ρ a).val
    let tb ← (← typeOf ρ b).val
    pure (.rv (usual ta tb))
  | .cast t _ => some (.rv t)
  | .comma _ b => typeOf ρ b
  | .call f _ =>
    match sigs f with
    | some (_, some t) => some (.rv t)
    | some (_, none) => some .void
    | none => none

/-! ## expressions -/

mutual
/-- evaluation of an expression -/
def evalE (ρ : SEnv) : Expr → SSt X → Out X QV
  | .lit v t, s => .ok (.rv t (conv t v)) s
  | .id x, s =>
    match ρ.find x with
    | some e => .ok (.lv e.obj 0 e.ty e.sg e.cst) s
    | none => .ub
  | .idx a i, s =>
    (evalE ρ a s).bind fun q s =>
    (evalE ρ i s).bind fun qi s =>
    (rval qi s).bind fun vi s =>
    match q with
    | .lv o off (.arr n e) sg cst => if 0 ≤ vi.2 ∧ vi.2 < n then .ok (.lv o (off + vi.2 * e.cnt) e sg cst) s else .ub
    | _ => .ub
  | .bin op a b, s =>
    (evalE ρ a s).bind fun qa s =>
    (rval qa s).bind fun va s =>
    (evalE ρ b s).bind fun qb s =>
    (rval qb s).bind fun vb s =>
    (ofOpt (binary op va.1 va.2 vb.1 vb.2) s).bind fun v s => .ok (.rv (resTy op va.1 vb.1) v) s
  | .land a b, s =>
    (evalE ρ a s).bind fun qa s =>
    (rval qa s).bind fun va s =>
    if va.2 = 0 then .ok (.rv .int 0) s
    else
      (evalE ρ b s).bind fun qb s =>
      (rval qb s).bind fun vb s => .ok (.rv .int (b2i (vb.2 ≠ 0))) s
  | .lor a b, s =>
    (evalE ρ a s).bind fun qa s =>
    (rval qa s).bind fun va s =>
    if va.2 ≠ 0 then .ok (.rv .int 1) s
    else
      (evalE ρ b s).bind fun qb s =>
      (rval qb s).bind fun vb s => .ok (.rv .int (b2i (vb.2 ≠ 0))) s
  | .assign a b, s =>
    (evalE ρ a s).bind fun qa s =>
    (evalE ρ b s).bind fun qb s =>
    (rval qb s).bind fun vb s =>
    match qa with
    | .lv o off (.int w) sg false =>
      let v := conv ⟨w, sg⟩ vb.2
      (writeObj s o off ⟨w, sg⟩ v).bind fun _ s => .ok (.rv ⟨w, sg⟩ v) s
    | _ => .ub
  | .cassign op a b, s =>
    (evalE ρ a s).bind fun qa s =>
    match qa with
    | .lv o off (.int w) sg false =>
      (readObj s o off ⟨w, sg⟩).bind fun va s =>
      (evalE ρ b s).bind fun qb s =>
      (rval qb s).bind fun vb s =>
      (ofOpt (binary op ⟨w, sg⟩ va.2 vb.1 vb.2) s).bind fun v s =>
      (writeObj s o off ⟨w, sg⟩ (conv ⟨w, sg⟩ v)).bind fun _ s => .ok (.lv o off (.int w) sg false) s
    | _ => .ub
  | .un op a, s =>
    (evalE ρ a s).bind fun qa s =>
    (rval qa s).bind fun va s =>
    (ofOpt (unary op va.1 va.2) s).bind fun v s => .ok (.rv (unTy op va.1) v) s
  | .incdec pre inc a, s =>
    (evalE ρ a s).bind fun qa s =>
    match qa with
    | .lv o off (.int w) sg false =>
      (readObj s o off ⟨w, sg⟩).bind fun va s =>
      (ofOpt (binary (if inc then .add else .sub) ⟨w, sg⟩ va.2 .int 1) s).bind fun v s =>
      (writeObj s o off ⟨w, sg⟩ (conv ⟨w, sg⟩ v)).bind fun _ s =>
      .ok (.rv ⟨w, sg⟩ (if pre then conv ⟨w, sg⟩ v else va.2)) s
    | _ => .ub
  | .sel c a b, s =>
    match (typeOf sigs ρ a).bind CT.val, (typeOf sigs ρ b).bind CT.val with
    | some ta, some tb =>
      let t := usual ta tb
      (evalE ρ c s).bind fun qc s =>
      (rval qc s).bind fun vc s =>
      if vc.2 ≠ 0 then
        (evalE ρ a s).bind fun qa s => (rval qa s).bind fun va s => .ok (.rv t (conv t va.2)) s
      else
        (evalE ρ b s).bind fun qb s => (rval qb s).bind fun vb s => .ok (.rv t (conv t vb.2)) s
    | _, _ => .ub
  | .cast t a, s =>
    (evalE ρ a s).bind fun qa s =>
    (rval qa s).bind fun va s => .ok (.rv t (conv t va.2)) s
  | .comma a b, s => (evalE ρ a s).bind fun _ s => evalE ρ b s
  | .call f as, s =>
    match sigs f with
    | none => .ub
    | some (ps, r) =>
      (evalArgs ρ ps as s).bind fun vs s =>
      match call f vs s.w with
      | .ub => .ub
      | .halt es h => .halt h (s.tr ++ es)
      | .ok n w' es =>
        .ok (match r with | some t => .rv t (conv t n) | none => .void) { s with w := w', tr := s.tr ++ es }
/-- arguments are converted to the parameter types -/
def evalArgs (ρ : SEnv) : List IT → Args → SSt X → Out X (List Nat)
  | [], .nil, s => .ok [] s
  | t :: ts, .cons a as, s =>
    (evalE ρ a s).bind fun qa s =>
    (rval qa s).bind fun va s =>
    (evalArgs ρ ts as s).bind fun vs s => .ok (raw t.w (conv t va.2) :: vs) s
  | _, _, s => let _ := s; .ub
end

/-- the truth of a condition -/
def evalC (ρ : SEnv) (e : Expr) (s : SSt X) : Out X Bool :=
  (evalE sigs call ρ e s).bind fun q s => (rval q s).bind fun v s => .ok (decide (v.2 ≠ 0)) s

/-! ## statements -/

/-- how a statement ends -/
inductive Fin
  | normal (ρ : SEnv)
  | brk
  | cont
  /-- `return;` or `return e;` with the value converted to the return type -/
  | ret (v : Option Int)

inductive SOut (X : Ext)
  | ok (f : Fin) (s : SSt X)
  | ub
  | halt (h : X.H) (tr : List X.E)
  /-- out of fuel after these events -/
  | more (tr : List X.E)

def Out.bindS {α : Type} (o : Out X α) (f : α → SSt X → SOut X) : SOut X :=
  match o with
  | .ok a s => f a s
  | .ub => .ub
  | .halt h tr => .halt h tr

def SOut.bind (o : SOut X) (f : Fin → SSt X → SOut X) : SOut X :=
  match o with
  | .ok a s => f a s
  | .ub => .ub
  | .halt h tr => .halt h tr
  | .more tr => .more tr

/-- declare `x` in the innermost scope -/
def SEnv.add (ρ : SEnv) (x : String) (e : Ent) : SEnv :=
  match ρ with
  | [] => [[(x, e)]]
  | sc :: ρ => ((x, e) :: sc) :: ρ

/-- leaving a scope: what happened inside is not visible outside, except for how control leaves it -/
def Fin.leave (ρ : SEnv) : Fin → Fin
  | .normal _ => .normal ρ
  | f => f

/-- a new object -/
def newObj (s : SSt X) (v : Option Int) : SSt X :=
  { s with mem := fun l i => if l = s.next then (if i = 0 then v else none) else s.mem l i, next := s.next + 1 }

/-- `while (c) b` with `it` after each iteration (`for`); at most `n` iterations -/
def loop (ρ : SEnv) (c : SSt X → Out X Bool) (b : SSt X → SOut X) (it : SSt X → Out X QV) : Nat → SSt X → SOut X
  | 0, s => .more s.tr
  | n + 1, s => (c s).bindS fun t s =>
    if t then (b s).bind fun f s =>
      match f with
      | .brk => .ok (.normal ρ) s
      | .ret v => .ok (.ret v) s
      | _ => (it s).bindS fun _ s => loop ρ c b it n s
    else .ok (.normal ρ) s

/-- `do b while (c)`; at most `n` iterations -/
def dloop (ρ : SEnv) (b : SSt X → SOut X) (c : SSt X → Out X Bool) : Nat → SSt X → SOut X
  | 0, s => .more s.tr
  | n + 1, s => (b s).bind fun f s =>
    match f with
    | .brk => .ok (.normal ρ) s
    | .ret v => .ok (.ret v) s
    | _ => (c s).bindS fun t s => if t then dloop ρ b c n s else .ok (.normal ρ) s

/-- `exec n`: execution of a statement where every loop may take up to `n` iterations (otherwise the result is `more`); `rt` is the
    return type of the function -/
def exec (rt : Option IT) (n : Nat) : SEnv → Stmt → SSt X → SOut X
  | ρ, .skip, s => .ok (.normal ρ) s
  | ρ, .seq a b, s => (exec rt n ρ a s).bind fun f s =>
    match f with
    | .normal ρ' => exec rt n ρ' b s
    | f => .ok f s
  | ρ, .expr e, s => (evalE sigs call ρ e s).bindS fun _ s => .ok (.normal ρ) s
  | ρ, .decl x ty sg cst init, s =>
    match ty, init with
    | .int w, none => .ok (.normal (ρ.add x ⟨.loc s.next, ty, sg, cst⟩)) (newObj s (some (conv ⟨w, sg⟩ 0)))
    | .int w, some e =>
      (evalE sigs call ρ e s).bindS fun q s => (rval q s).bindS fun v s =>
      .ok (.normal (ρ.add x ⟨.loc s.next, ty, sg, cst⟩)) (newObj s (some (conv ⟨w, sg⟩ v.2)))
    | .arr _ _, none => .ok (.normal (ρ.add x ⟨.loc s.next, ty, sg, cst⟩)) (newObj s none)
    | .arr _ _, some _ => .ub
  | ρ, .scope a, s => (exec rt n ([] :: ρ) a s).bind fun f s => .ok (f.leave ρ) s
  | ρ, .ifThen c a, s => (evalC sigs call ρ c s).bindS fun b s =>
    if b then (exec rt n ρ a s).bind fun f s => .ok (f.leave ρ) s else .ok (.normal ρ) s
  | ρ, .ifElse c a b, s => (evalC sigs call ρ c s).bindS fun t s =>
    if t then (exec rt n ρ a s).bind fun f s => .ok (f.leave ρ) s
    else (exec rt n ρ b s).bind fun f s => .ok (f.leave ρ) s
  | ρ, .while c a, s => loop ρ (evalC sigs call ρ c) (exec rt n ρ a) (fun s => .ok .void s) n s
  | ρ, .doWhile a c, s => dloop ρ (exec rt n ρ a) (evalC sigs call ρ c) n s
  | ρ, .for i c it a, s =>
    (exec rt n ([] :: ρ) i s).bind fun f s =>
    match f with
    | .normal ρ' =>
      (loop ρ' (match c with | none => fun s => .ok true s | some c => evalC sigs call ρ' c) (exec rt n ρ' a)
        (match it with | none => fun s => .ok .void s | some e => evalE sigs call ρ' e) n s).bind fun f s => .ok (f.leave ρ) s
    | f => .ok f s
  | _, .brk, s => .ok .brk s
  | _, .cont, s => .ok .cont s
  | _, .ret none, s => if rt = none then .ok (.ret none) s else .ub
  | ρ, .ret (some e), s =>
    match rt with
    | none => .ub
    | some t => (evalE sigs call ρ e s).bindS fun q s => (rval q s).bindS fun v s => .ok (.ret (some (conv t v.2))) s

/-! ## functions -/

/-- the statement declares nothing in the scope it stands in -/
def Stmt.noDecl : Stmt → Bool
  | .decl .. => false
  | .seq a b => a.noDecl && b.noDecl
  | _ => true

/-- C's grammar: the body of `if`, `while`, `do`, `for` is not a declaration -/
def Stmt.wf : Stmt → Bool
  | .seq a b => a.wf && b.wf
  | .scope a => a.wf
  | .ifThen _ a => a.wf && a.noDecl
  | .ifElse _ a b => a.wf && b.wf && a.noDecl && b.noDecl
  | .while _ a => a.wf && a.noDecl
  | .doWhile a _ => a.wf && a.noDecl
  | .for i _ _ a => i.wf && a.wf && a.noDecl
  | _ => true

/-- a function: parameters, return type, body (the statements share the scope of the parameters, as in C) -/
structure Fn where
  params : List (String × IT × Bool)
  ret : Option IT
  body : Stmt

/-- the objects of the parameters -/
def bindParams (ρ : SEnv) : List (String × IT × Bool) → List Nat → SSt X → Option (SEnv × SSt X)
  | [], [], s => some (ρ, s)
  | (x, t, c) :: ps, a :: as, s => bindParams (ρ.add x ⟨.loc s.next, .int t.w, t.sg, c⟩) ps as (newObj s (some (conv t a)))
  | _, _, _ => none

/-- how a call of the function ends -/
inductive FOut (X : Ext)
  /-- `v = none`: no value (a void function, or the end of the body was reached) -/
  | ret (v : Option Int) (w : X.World) (tr : List X.E)
  | ub
  | halt (h : X.H) (tr : List X.E)
  /-- the iteration bound was reached after these events -/
  | more (tr : List X.E)

/-- a call with the argument patterns `as` in world `w`; `globs`: the global declarations -/
def runFn (globs : List (String × Ent)) (fn : Fn) (n : Nat) (as : List Nat) (w : X.World) : FOut X :=
  match bindParams ([] :: [globs]) fn.params as ⟨fun _ _ => none, 0, w, []⟩ with
  | none => .ub
  | some (ρ, s) =>
    match exec sigs call fn.ret n ρ fn.body s with
    | .ok (.normal _) s => .ret none s.w s.tr
    | .ok (.ret v) s => .ret v s.w s.tr
    | .ok _ _ => .ub
    | .ub => .ub
    | .halt h tr => .halt h tr
    | .more tr => .more tr

end
end Cmmc.Fe
