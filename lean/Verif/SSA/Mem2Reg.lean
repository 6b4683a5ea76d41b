import Verif.SSA.PhiElim
/-!
# ScalarMem2Reg (cmmc/Transforms/Combine/ScalarMem2Reg.cpp): the pass

The construction of SSA form of Braun et al. Loads of promoted stack slots are replaced by the value that was stored last; phis are inserted
where several stores meet and removed again (their uses replaced) when they turn out to be trivial. The loads, the stores and the trivial phis
stay in the code for later passes to delete.

`std::unordered_map` of the source is a function or a list here; the order in which a value lists its users is the parameter `ord`.
Left out: types (`u` gives the undefined value of the type of a variable or a phi), and `mIncompletePhis.erase(iter)` (l.126) with an iterator
that a rehash inside the loop may have invalidated.
-/
namespace Cmmc.SSA

/-- the instructions the pass tells apart -/
inductive Kind
  | alloca (scalar : Bool)
  | load
  | store
  | select
  | cast
  | call
  | atomicAdd
  | other
deriving DecidableEq

section
variable {Op C : Type}

/-! ## which slots are promoted -/

/-- the operands that an instruction takes off the list (`filterPromotable`, l.183-230) -/
def erased (kind : Op → Kind) (i : Inst Op C) : List (Opd C) :=
  match kind i.op with
  | .store => i.args[1]?.toList
  | .select => i.args[1]?.toList ++ i.args[2]?.toList
  | .cast | .atomicAdd => i.args[0]?.toList
  | .call => i.args
  | _ => []

def Kind.isAlloca : Kind → Bool
  | .alloca _ => true
  | _ => false

/-- the `alloc`s in front of the entry block with a primitive type (l.238-247) -/
def leading (kind : Op → Kind) (F : Func Op C) : List Nat :=
  match F.blk F.entry with
  | none => []
  | some B => ((B.body.takeWhile (fun i => (kind i.op).isAlloca)).filter (fun i => decide (kind i.op = .alloca true))).map Inst.id

/-- nothing takes `a` off the list; phis are not asked for their type here (a slot is an operand of phis of pointer type only) -/
def keepsSlot [DecidableEq C] (kind : Op → Kind) (a : Nat) (B : Block Op C) : Bool :=
  B.phis.all (fun p => decide (Opd.inst a ∉ p.ops)) && B.body.all (fun i => decide (Opd.inst a ∉ erased kind i))

/-- `interested` after `filterPromotable` (l.238-249) -/
def promotable [DecidableEq C] (kind : Op → Kind) (F : Func Op C) : List Nat :=
  (leading kind F).filter (fun a => F.blocks.all (keepsSlot kind a))

/-! ## the construction -/

/-- `ScalarMem2RegContext` -/
structure MS (Op C : Type) where
  /-- the function as it is now -/
  G : Func Op C
  /-- the next new instruction -/
  next : Nat
  /-- `mCurrentDef`: variable, block -/
  cur : Nat → Nat → Option (Opd C)
  /-- `mSealedBlocks` -/
  fin : List Nat
  /-- `mIncompletePhis`: block, variable, phi -/
  todo : List (Nat × Nat × Nat)

/-- `phi->insertBefore(block, block->instructions().begin())` of a phi without operands -/
def Func.addPhi (G : Func Op C) (b x : Nat) : Func Op C := G.mapPhis b (fun ps => ⟨x, []⟩ :: ps)

/-- `phi->addIncoming(q, o)` for the phi `x` of block `b` -/
def Func.addInc (G : Func Op C) (b x q : Nat) (o : Opd C) : Func Op C := G.mapPhis b (fun ps => ps.map (fun p => if p.id = x then p.addIncoming q o else p))

/-- `defVar` (l.55-57) -/
def MS.defVar (s : MS Op C) (a b : Nat) (o : Opd C) : MS Op C :=
  { s with cur := fun a' b' => if a' = a ∧ b' = b then some o else s.cur a' b' }

/-- l.71-78: `none` if there are two different operands; otherwise the only one, if any -/
def commonOp [DecidableEq C] (x : Nat) : List (Opd C) → Option (Opd C) → Option (Option (Opd C))
  | [], c => some c
  | v :: vs, c =>
    if some v = c ∨ v = .inst x then commonOp x vs c
    else if c.isSome then none
    else commonOp x vs (some v)

/-- l.81-85: the phis other than `x` that use `x`, one entry for each use -/
def phiUsers [DecidableEq C] (G : Func Op C) (x : Nat) : List Nat :=
  G.blocks.flatMap (fun B => (B.phis.filter (fun p => p.id ≠ x)).flatMap (fun p => (p.ops.filter (fun o => decide (o = .inst x))).map (fun _ => p.id)))

/-- `tryRemoveTrivalPhi` (l.68-97) -/
def tryRemove [DecidableEq C] (ord : List Nat → List Nat) (u : Nat → C) : Nat → Func Op C → Nat → Option (Opd C × Func Op C)
  | 0, _, _ => none
  | n + 1, G, x =>
    match G.phi? x with
    | none => none
    | some p =>
      match commonOp x p.ops none with
      | none => some (.inst x, G)
      | some c =>
        let o := c.getD (.cst (u x))
        ((ord (phiUsers G x)).foldlM (fun G y => (tryRemove ord u n G y).map Prod.snd) (G.replace x o)).map (fun G => (o, G))

/-- all phis -/
def Func.phiCount (G : Func Op C) : Nat := (G.blocks.flatMap Block.phis).length

/-- the loop of `addPhiOperands` (l.99-101) -/
def addOps (rec : MS Op C → Nat → Nat → Option (Opd C × MS Op C)) (a b x : Nat) : List Nat → MS Op C → Option (MS Op C)
  | [], s => some s
  | q :: qs, s =>
    match rec s a q with
    | none => none
    | some (o, s) => addOps rec a b x qs { s with G := s.G.addInc b x q o }

/-- `addPhiOperands` (l.98-103) -/
def addPhiOperands [DecidableEq C] (ord : List Nat → List Nat) (u : Nat → C) (rec : MS Op C → Nat → Nat → Option (Opd C × MS Op C)) (qs : List Nat)
    (a b x : Nat) (s : MS Op C) : Option (Opd C × MS Op C) :=
  (addOps rec a b x qs s).bind fun s => (tryRemove ord u (s.G.phiCount + 1) s.G x).map fun r => (r.1, { s with G := r.2 })

/-- `useVar` (l.58-67) and `useVarRecursive` (l.107-128) -/
def useVar [DecidableEq C] (ord : List Nat → List Nat) (u : Nat → C) (g : CFG) : Nat → MS Op C → Nat → Nat → Option (Opd C × MS Op C)
  | 0, _, _, _ => none
  | n + 1, s, a, b =>
    match s.cur a b with
    | some o => some (o, s)
    | none =>
      if b = s.G.entry then some (.cst (u a), s)
      else if b ∉ s.fin then
        some (.inst s.next, MS.defVar { s with G := s.G.addPhi b s.next, next := s.next + 1, todo := s.todo ++ [(b, a, s.next)] } a b (.inst s.next))
      else
        match g.pred b with
        | [q] => (useVar ord u g n s a q).map fun r => (r.1, r.2.defVar a b r.1)
        | qs =>
          (addPhiOperands ord u (useVar ord u g n) qs a b s.next
            (MS.defVar { s with G := s.G.addPhi b s.next, next := s.next + 1 } a b (.inst s.next))).map fun r => (r.1, r.2.defVar a b r.1)

/-- `sealBlock` (l.129-139) -/
def sealBlock [DecidableEq C] (ord : List Nat → List Nat) (u : Nat → C) (g : CFG) (n : Nat) (s : MS Op C) (b : Nat) : Option (MS Op C) :=
  ((s.todo.filter (fun e => e.1 = b)).foldlM (fun s e => (addPhiOperands ord u (useVar ord u g n) (g.pred b) e.2.1 b e.2.2 s).map Prod.snd) s).map fun s =>
    { s with todo := s.todo.filter (fun e => e.1 ≠ b), fin := b :: s.fin }

/-- the body of the loop over the instructions of block `b` (l.166-185), for the instruction at index `j` -/
def promoteInst [DecidableEq C] (kind : Op → Kind) (vars : List Nat) (ord : List Nat → List Nat) (u : Nat → C) (g : CFG) (n : Nat) (b : Nat)
    (s : MS Op C) (j : Nat) : Option (MS Op C) :=
  match (s.G.blk b).bind (fun B => B.body[j]?) with
  | none => some s
  | some i =>
    match kind i.op, i.args[0]? with
    | .load, some (Opd.inst a) =>
      if a ∈ vars then (useVar ord u g n s a b).map fun r => { r.2 with G := r.2.G.replace i.id r.1 } else some s
    | .store, some (Opd.inst a) =>
      if a ∈ vars then
        match i.args[1]? with
        | some v => some (s.defVar a b v)
        | none => some s
      else some s
    | _, _ => some s

/-- `tryMarkSealed` (l.152-155) -/
def trySeal [DecidableEq C] (ord : List Nat → List Nat) (u : Nat → C) (g : CFG) (n : Nat) (st : MS Op C × (Nat → Nat)) (b : Nat) : Option (MS Op C × (Nat → Nat)) :=
  if st.2 b = 0 ∧ b ∉ st.1.fin then (sealBlock ord u g n st.1 b).map fun s => (s, st.2) else some st

/-- the body of the loop over the blocks (l.163-192) -/
def promoteBlock [DecidableEq C] (kind : Op → Kind) (vars : List Nat) (ord : List Nat → List Nat) (u : Nat → C) (g : CFG) (n : Nat)
    (st : MS Op C × (Nat → Nat)) (b : Nat) : Option (MS Op C × (Nat → Nat)) :=
  ((List.range (match st.1.G.blk b with | some B => B.body.length | none => 0)).foldlM (promoteInst kind vars ord u g n b) st.1).bind fun s =>
  (trySeal ord u g n (s, st.2) b).bind fun st =>
  (g.succ b).foldlM (fun st t => trySeal ord u g n (st.1, fun x => if x = t then st.2 x - 1 else st.2 x) t) st

/-- `runOnFunction` (l.146-194); `bs` is `order`: the live blocks in reverse postorder, then the others -/
def promote [DecidableEq C] (kind : Op → Kind) (vars : List Nat) (ord : List Nat → List Nat) (u : Nat → C) (g : CFG) (n : Nat) (bs : List Nat) (new : Nat)
    (F : Func Op C) : Option (Func Op C) :=
  (bs.foldlM (promoteBlock kind vars ord u g n) (⟨F, new, fun _ _ => none, [], []⟩, fun b => (g.pred b).length)).map fun st => st.1.G

/-- a number larger than all instructions of the function -/
def Func.fresh (F : Func Op C) : Nat := F.allIds.foldl max 0 + 1

/-- `ScalarMem2Reg::run` (l.233-257). The recursion of `useVar` visits, for one variable, a block at most twice without giving it a value. -/
def scalarMem2Reg [DecidableEq C] (kind : Op → Kind) (ord : List Nat → List Nat) (cord : Nat → List Nat → List Nat) (u : Nat → C) (bs : List Nat) (F : Func Op C) :
    Option (Func Op C) :=
  match promotable kind F with
  | [] => some F
  | vars => promote kind vars ord u (F.cfg cord) ((F.order.length + 1) * (F.order.length + 1)) bs F.fresh F

end
end Cmmc.SSA
