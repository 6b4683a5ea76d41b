import Verif.SSA.AttrSem
/-!
# C86: FunctionAttrInfer (cmmc/Transforms/Analysis/FunctionAttrInfer.cpp) and PointerAddressSpaceAnalysis (cmmc/Analysis/PointerAddressSpaceAnalysis.cpp)
-/
namespace Cmmc.SSA

/-- the function attributes that are inferred (cmmc/IR/Function.hpp) -/
structure Attrs where
  noReturn : Bool
  noRead : Bool
  noWrite : Bool
  noEffect : Bool
  stateless : Bool
  noRecurse : Bool

/-- what the two passes distinguish; calls of functions with a body are given by `callee` -/
inductive OpKind
  | load
  | store
  | atomic
  | alloc
  | gep
  | ptrCast
  | ptrAdd
  | select
  /-- a call of a function without body that has these attributes -/
  | ext (a : Attrs)
  /-- a call of something that is not a function -/
  | indirect
  | other

section
variable {Op C : Type}

/-! ## the analysis of address spaces -/

/-- `isTagged` -/
def tagOpd (T : List Nat) : Opd C → Bool
  | .inst x => T.contains x
  | .cst _ => false

/-- the cases of the switch that tag an instruction (PointerAddressSpaceAnalysis.cpp:76-126) -/
def tagInst (callee : Op → Option Nat) (kind : Op → OpKind) (T : List Nat) (i : Inst Op C) : Bool :=
  match callee i.op with
  | some _ => false
  | none =>
    match kind i.op with
    | .alloc => true
    | .gep => match i.args.getLast? with | some o => tagOpd T o | none => false
    | .ptrCast => match i.args[0]? with | some o => tagOpd T o | none => false
    | .ptrAdd => match i.args[0]? with | some o => tagOpd T o | none => false
    | .select => match i.args[1]?, i.args[2]? with | some o, some o' => tagOpd T o && tagOpd T o' | _, _ => false
    | _ => false

/-- a phi is tagged if all its operands are (l.107-120) -/
def tagPhi (T : List Nat) (p : Phi C) : Bool := p.ops.all (tagOpd T)

/-- one block of one round (l.61-135); tagging twice changes nothing -/
def tagBlock (callee : Op → Option Nat) (kind : Op → OpKind) (T : List Nat) (B : Block Op C) : List Nat :=
  B.body.foldl (fun T i => if tagInst callee kind T i then i.id :: T else T) (B.phis.foldl (fun T p => if tagPhi T p then p.id :: T else T) T)

/-- some rounds of the loop (l.49-141) over the blocks `ord`: how often it is repeated does not matter for what follows -/
def tagRounds (callee : Op → Option Nat) (kind : Op → OpKind) (ord : List Nat) (F : Func Op C) : Nat → List Nat → List Nat
  | 0, T => T
  | n + 1, T => tagRounds callee kind ord F n (ord.foldl (fun T b => match F.blk b with | some B => tagBlock callee kind T B | none => T) T)

/-! ## the inference of attributes -/

/-- an instruction of `F` that satisfies `q` -/
def Func.anyInst (F : Func Op C) (q : Inst Op C → Bool) : Bool := F.blocks.any (fun B => B.body.any q)

/-- operand 0 is not known to be in the frame -/
def outside (T : List Nat) (i : Inst Op C) : Bool := match i.args[0]? with | some o => !tagOpd T o | none => true

/-- `hasLoad` (l.46-73) -/
def hasLoad (callee : Op → Option Nat) (kind : Op → OpKind) (A : Nat → Attrs) (T : List Nat) (f : Nat) (F : Func Op C) : Bool :=
  F.anyInst (fun i => match callee i.op with
    | some g => g != f && !(A g).noRead
    | none => match kind i.op with
      | .load => outside T i
      | .atomic => outside T i
      | .ext a => !a.noRead
      | _ => false)

/-- `hasWrite` (l.82-111) -/
def hasWrite (callee : Op → Option Nat) (kind : Op → OpKind) (A : Nat → Attrs) (T : List Nat) (f : Nat) (F : Func Op C) : Bool :=
  F.anyInst (fun i => match callee i.op with
    | some g => g != f && !(A g).noWrite
    | none => match kind i.op with
      | .store => outside T i
      | .atomic => outside T i
      | .ext a => !a.noWrite
      | .indirect => true
      | _ => false)

/-- `hasSideEffect` (l.119-141) -/
def hasSideEffect (callee : Op → Option Nat) (kind : Op → OpKind) (A : Nat → Attrs) (f : Nat) (F : Func Op C) : Bool :=
  F.anyInst (fun i => match callee i.op with
    | some g => g != f && !(A g).noEffect
    | none => match kind i.op with
      | .ext a => !a.noEffect
      | .indirect => true
      | _ => false)

/-- `hasSelfCall` (l.157-173) -/
def hasSelfCall (callee : Op → Option Nat) (f : Nat) (F : Func Op C) : Bool := F.anyInst (fun i => decide (callee i.op = some f))

/-- no block ends in `ret` (l.33-39) -/
def neverReturns (F : Func Op C) : Bool := F.blocks.all (fun B => match B.term with | .ret _ => false | _ => true)

/-- `run` (l.27-183): the attributes of `f` afterwards -/
def inferAttrs (callee : Op → Option Nat) (kind : Op → OpKind) (A : Nat → Attrs) (T : List Nat) (f : Nat) (F : Func Op C) : Attrs :=
  let a := A f
  let noRead := a.noRead || !hasLoad callee kind A T f F
  let noWrite := a.noWrite || !hasWrite callee kind A T f F
  let noEffect := a.noEffect || (noWrite && !hasSideEffect callee kind A f F)
  { noReturn := a.noReturn || neverReturns F
    noRead := noRead
    noWrite := noWrite
    noEffect := noEffect
    stateless := a.stateless || (noRead && noEffect)
    noRecurse := a.noRecurse || !hasSelfCall callee f F }

/-- the pass on function `f` of a program: `rounds f` of the analysis over the blocks `ord f` -/
def inferFn (callee : Op → Option Nat) (kind : Op → OpKind) (rounds : Nat → Nat) (ord : Nat → List Nat) (P : Nat → Option (Func Op C)) (A : Nat → Attrs) (f : Nat) : Nat → Attrs :=
  match P f with
  | none => A
  | some F => fun g => if g = f then inferAttrs callee kind A (tagRounds callee kind (ord f) F (rounds f) []) f F else A g

/-- the pass on a module, once or more often: `fs` are the functions in the order in which they are visited -/
def inferModule (callee : Op → Option Nat) (kind : Op → OpKind) (rounds : Nat → Nat) (ord : Nat → List Nat) (fs : List Nat) (P : Nat → Option (Func Op C)) (A : Nat → Attrs) : Nat → Attrs :=
  fs.foldl (inferFn callee kind rounds ord P) A

end

/-! ## what the attributes mean -/
section
variable {L : Lang}

/-- what the opcodes do to memory, seen from the function that executes them -/
structure Spaces (L : Lang) (V : Frames L) (kind : L.Op → OpKind) where
  /-- frames, and the frame of the running function -/
  Fr : Type
  frame : L.M → Fr
  /-- the value is the address of something allocated in this frame -/
  Stack : Fr → L.V → Prop
  /-- nothing outside of the frame of the running function has changed -/
  same : L.M → L.M → Prop
  /-- sets of locations; the two memories have the same frames and agree on these locations -/
  Loc : Type
  eqv : Loc → L.M → L.M → Prop
  /-- these locations and those of the frame -/
  own : Fr → Loc → Loc
  same_refl : ∀ m, same m m
  same_trans : ∀ m m' m'', same m m' → same m' m'' → same m m''
  same_leave : ∀ m mc, same (V.enter m) mc → V.leave m mc = m
  frame_leave : ∀ m mc, frame (V.leave m mc) = frame m
  frame_sem : ∀ op vs m v m' es, V.callee op = none → L.sem op vs m = .ok v m' es → frame m' = frame m
  eqv_enter : ∀ r m m', eqv r m m' → eqv (own (frame (V.enter m)) r) (V.enter m) (V.enter m')
  eqv_leave : ∀ r m m' mc mc', eqv r m m' → frame mc = frame (V.enter m) → eqv (own (frame (V.enter m)) r) mc mc' → eqv r (V.leave m mc) (V.leave m' mc')
  /-- addresses -/
  alloc : ∀ op vs m v m' es, V.callee op = none → kind op = .alloc → L.sem op vs m = .ok v m' es → Stack (frame m) v
  gep : ∀ op vs m v m' es a, V.callee op = none → kind op = .gep → L.sem op vs m = .ok v m' es → vs.getLast? = some a → Stack (frame m) a → Stack (frame m) v
  cast : ∀ op vs m v m' es a, V.callee op = none → kind op = .ptrCast ∨ kind op = .ptrAdd → L.sem op vs m = .ok v m' es → vs[0]? = some a → Stack (frame m) a → Stack (frame m) v
  select : ∀ op vs m v m' es, V.callee op = none → kind op = .select → L.sem op vs m = .ok v m' es → vs[1]? = some v ∨ vs[2]? = some v
  /-- effects: no output, and the running function goes on -/
  silent : ∀ op vs m, V.callee op = none → (∀ a, kind op = .ext a → a.noEffect = true) → kind op ≠ .indirect → (∀ v m' es, L.sem op vs m = .ok v m' es → es = []) ∧ ∀ es h, L.sem op vs m ≠ .halt es h
  /-- writes: stores into the frame, functions without writes, everything that is not a store or a call -/
  writes : ∀ op vs m v m' es, V.callee op = none → L.sem op vs m = .ok v m' es →
    ((kind op = .store ∨ kind op = .atomic) → ∃ a, vs[0]? = some a ∧ Stack (frame m) a) → (∀ a, kind op = .ext a → a.noWrite = true) → kind op ≠ .indirect → same m m'
  /-- reads: loads from the frame, functions without reads, everything that is not a load or a call -/
  reads : ∀ op vs m m' r, V.callee op = none → eqv r m m' → (kind op = .load ∨ kind op = .atomic → (∃ a, vs[0]? = some a ∧ Stack (frame m) a) ∧ ∃ r', r = own (frame m) r') →
    (∀ a, kind op = .ext a → a.noRead = true) → kind op ≠ .indirect →
    (∀ v m1 es, L.sem op vs m = .ok v m1 es → ∃ m1', L.sem op vs m' = .ok v m1' es ∧ eqv r m1 m1') ∧ ∀ es h, L.sem op vs m = .halt es h → L.sem op vs m' = .halt es h

variable {V : Frames L} {kind : L.Op → OpKind} (S : Spaces L V kind) (P : Nat → Option L.F)

/-- no call of `f` returns -/
def NoReturnSem (V : Frames L) (P : Nat → Option L.F) (f : Nat) : Prop := ∀ d vs m v m' es, V.call P d f vs m ≠ .ok v m' es

/-- calls of `f` leave the memory as it is -/
def NoWriteSem (V : Frames L) (P : Nat → Option L.F) (f : Nat) : Prop := ∀ d vs m v m' es, V.call P d f vs m = .ok v m' es → m' = m

/-- calls of `f` that end return, and leave the memory as it is, without output -/
def NoEffectSem (V : Frames L) (P : Nat → Option L.F) (f : Nat) : Prop := ∀ d vs m, V.call P d f vs m ≠ .ub → ∃ v, V.call P d f vs m = .ok v m []

/-- what a call of `f` does is the same in two memories whose contents differ; where they agree, they agree afterwards -/
def NoReadSem (f : Nat) : Prop := ∀ d vs m m' r, S.eqv r m m' →
  (∀ v m1 es, V.call P d f vs m = .ok v m1 es → ∃ m1', V.call P d f vs m' = .ok v m1' es ∧ S.eqv r m1 m1') ∧ ∀ es h, V.call P d f vs m = .halt es h → V.call P d f vs m' = .halt es h

/-- no calls through pointers -/
def NoIndirect (kind : L.Op → OpKind) (P : Nat → Option L.F) : Prop := ∀ f F, P f = some F → ∀ b B, F.blk b = some B → ∀ i ∈ B.body, kind i.op ≠ .indirect

/-- the attributes are true -/
structure AttrsOk (A : Nat → Attrs) : Prop where
  noReturn : ∀ f, (A f).noReturn = true → NoReturnSem V P f
  noWrite : ∀ f, (A f).noWrite = true → NoWriteSem V P f
  noEffect : ∀ f, (A f).noEffect = true → NoEffectSem V P f
  noRead : NoIndirect kind P → ∀ f, (A f).noRead = true → NoReadSem S P f
  stateless : NoIndirect kind P → ∀ f, (A f).stateless = true → NoEffectSem V P f ∧ NoReadSem S P f
  noRecurse : ∀ f F, P f = some F → (A f).noRecurse = true → ∀ b B, F.blk b = some B → ∀ i ∈ B.body, V.callee i.op ≠ some f

end

/-! ## tags -/
section
variable {Op C : Type} {callee : Op → Option Nat} {kind : Op → OpKind} {F : Func Op C}

/-- every tagged instruction has a reason -/
structure TagsOk (callee : Op → Option Nat) (kind : Op → OpKind) (F : Func Op C) (T : List Nat) : Prop where
  inst : ∀ b B i, F.blk b = some B → i ∈ B.body → i.id ∈ T → tagInst callee kind T i = true
  phi : ∀ b B p, F.blk b = some B → p ∈ B.phis → p.id ∈ T → tagPhi T p = true

theorem tagOpd_mono {T T' : List Nat} (h : ∀ x ∈ T, x ∈ T') {o : Opd C} (ho : tagOpd T o = true) : tagOpd T' o = true := by
  cases o with
  | cst c => exact ho
  | inst x =>
    simp only [tagOpd, List.contains_eq_mem, decide_eq_true_eq] at ho ⊢
    exact h x ho

theorem tagInst_mono {T T' : List Nat} (h : ∀ x ∈ T, x ∈ T') {i : Inst Op C} (hi : tagInst callee kind T i = true) : tagInst callee kind T' i = true := by
  unfold tagInst at hi ⊢
  cases hc : callee i.op with
  | some g => rw [hc] at hi; exact hi
  | none =>
    rw [hc] at hi
    simp only at hi ⊢
    cases hk : kind i.op with
    | alloc => rfl
    | gep =>
      rw [hk] at hi
      simp only at hi ⊢
      cases hl : i.args.getLast? with
      | none => rw [hl] at hi; exact hi
      | some o => rw [hl] at hi; exact tagOpd_mono h hi
    | ptrCast =>
      rw [hk] at hi
      simp only at hi ⊢
      cases hl : i.args[0]? with
      | none => rw [hl] at hi; exact hi
      | some o => rw [hl] at hi; exact tagOpd_mono h hi
    | ptrAdd =>
      rw [hk] at hi
      simp only at hi ⊢
      cases hl : i.args[0]? with
      | none => rw [hl] at hi; exact hi
      | some o => rw [hl] at hi; exact tagOpd_mono h hi
    | select =>
      rw [hk] at hi
      simp only at hi ⊢
      cases h1 : i.args[1]? with
      | none => rw [h1] at hi; simp at hi
      | some o =>
        cases h2 : i.args[2]? with
        | none => rw [h1, h2] at hi; simp at hi
        | some o' =>
          rw [h1, h2] at hi
          simp only [Bool.and_eq_true] at hi ⊢
          exact ⟨tagOpd_mono h hi.1, tagOpd_mono h hi.2⟩
    | load => rw [hk] at hi; exact hi
    | store => rw [hk] at hi; exact hi
    | atomic => rw [hk] at hi; exact hi
    | ext a => rw [hk] at hi; exact hi
    | indirect => rw [hk] at hi; exact hi
    | other => rw [hk] at hi; exact hi

theorem tagPhi_mono {T T' : List Nat} (h : ∀ x ∈ T, x ∈ T') {p : Phi C} (hp : tagPhi T p = true) : tagPhi T' p = true := by
  unfold tagPhi at hp ⊢
  rw [List.all_eq_true] at hp ⊢
  exact fun o ho => tagOpd_mono h (hp o ho)

end
end Cmmc.SSA
