import Verif.SSA.InlinePass
import Verif.SSA.Forward
/-!
# C77: TailCallEliminate (cmmc/Transforms/ControlFlow/TailCallEliminate.cpp:38-349), one recursive call

`eliminateCall` turns the last recursive call of a block that returns into a jump to the (old) entry block, which becomes the header of a loop. There are four shapes:
the call's value is returned (or the function is void); the call's value goes through one associative and commutative instruction ("accumulator") and is then
returned; the call's value is dropped and something else is returned.

* `TailNm` are names for new blocks and instructions; the pass takes fresh ones (`freshTail`).
* `accOp op` is the identity of an accumulator opcode (l.59-78 and 110-124). SMax and SMin pass the first switch and abort the compiler in the second (finding 67);
  they count as no accumulator here.
* `retValue` and `retValid` are created and erased again when no block returns its own value (l.216-218): not created here.
-/
namespace Cmmc.SSA
section
variable {Op C : Type}

/-- new names: the new entry block, the phis for the arguments, `accValue`/`retValue`, `retValid`, and one instruction per block that returns -/
structure TailNm where
  e0 : Nat
  ps : Nat → Nat
  x1 : Nat
  x2 : Nat
  leaf : Nat → Nat

/-- `SelectInst` and the constants it is used with (l.164-167, 199, 203) -/
structure TailSel (Op C : Type) where
  op : Op
  undef : C
  tt : C
  ff : C

/-- what happens to the value of the call; `left`: the call is operand 0 of the accumulator, `x` is its other operand -/
inductive TailKind (Op C : Type)
  | plain
  | acc (i : Inst Op C) (left : Bool) (x : Opd C) (ident : C)
  | first (x : Opd C)

/-- stage 1 (l.101-137) and the case distinction of l.194-204, for the call number `k` of the block, with result `cid` -/
def tailKind [DecidableEq C] (accOp : Op → Option C) (F : Func Op C) (B : Block Op C) (k cid : Nat) : Option (TailKind Op C) :=
  match B.body.drop (k + 1), B.term with
  | [], .ret none => some .plain
  | [], .ret (some x) => if x = .inst cid then some .plain else some (.first x)
  | [i], .ret (some r) =>
    match accOp i.op, i.args with
    | some ident, [a, c] =>
      if F.useCount i.id = 1 ∧ r = .inst i.id then
        if a = .inst cid ∧ c ≠ .inst cid then some (.acc i true c ident)
        else if a ≠ .inst cid ∧ c = .inst cid then some (.acc i false a ident)
        else none
      else none
    | _, _ => none
  | _, _ => none

/-- `argument->replaceWith(phi)` (l.158) -/
def TailNm.opd (N : TailNm) (param : C → Option Nat) : Opd C → Opd C
  | .inst i => .inst i
  | .cst c => match param c with | some j => .inst (N.ps j) | none => .cst c

def TailNm.phi (N : TailNm) (param : C → Option Nat) (p : Phi C) : Phi C := ⟨p.id, p.inc.map (fun e => (e.1, N.opd param e.2))⟩
def TailNm.inst (N : TailNm) (param : C → Option Nat) (i : Inst Op C) : Inst Op C := ⟨i.id, i.op, i.args.map (N.opd param)⟩
def TailNm.term (N : TailNm) (param : C → Option Nat) : Term C → Term C
  | .ret v => .ret (v.map (N.opd param))
  | .br t => .br t
  | .cbr c t f => .cbr (N.opd param c) t f
  | .sw c d cs => .sw (N.opd param c) d cs
  | .unreachable => .unreachable

/-- the phis of the loop header (l.154-189, 200-207): the accumulator or the value to be returned, then the arguments, last one first; `as` are the parameters -/
def TailNm.phis (N : TailNm) (param : C → Option Nat) (S : TailSel Op C) (as : List C) (b : Nat) (args : List (Opd C)) (K : TailKind Op C) : List (Phi C) :=
  (match K with
    | .plain => []
    | .acc i _ _ ident => [⟨N.x1, [(N.e0, .cst ident), (b, .inst i.id)]⟩]
    | .first _ => [⟨N.x2, [(N.e0, .cst S.ff), (b, .cst S.tt)]⟩, ⟨N.x1, [(N.e0, .cst S.undef), (b, .inst (N.leaf b))]⟩]) ++
  ((as.zip args).zipIdx.map (fun e => ⟨N.ps e.2, [(N.e0, .cst e.1.1), (b, N.opd param e.1.2)]⟩)).reverse

/-- what is left behind the call in its block: the accumulator, reading `accValue` instead of the call (l.187), or the select of l.199 -/
def TailNm.rest (N : TailNm) (param : C → Option Nat) (S : TailSel Op C) (b : Nat) : TailKind Op C → List (Inst Op C)
  | .plain => []
  | .acc i left x _ => [⟨i.id, i.op, if left then [.inst N.x1, N.opd param x] else [N.opd param x, .inst N.x1]⟩]
  | .first x => [⟨N.leaf b, S.op, [.inst N.x2, .inst N.x1, N.opd param x]⟩]

/-- what is inserted in front of the returns (l.219-252) -/
def TailNm.leaves (N : TailNm) (S : TailSel Op C) (y : Nat) (v : Opd C) : TailKind Op C → List (Inst Op C)
  | .plain => []
  | .acc i left _ _ => [⟨N.leaf y, i.op, if left then [.inst N.x1, v] else [v, .inst N.x1]⟩]
  | .first _ => [⟨N.leaf y, S.op, [.inst N.x2, .inst N.x1, v]⟩]

def TailNm.leafOpd (N : TailNm) (y : Nat) (v : Opd C) : TailKind Op C → Opd C
  | .plain => v
  | _ => .inst (N.leaf y)

/-- the block `y` afterwards, apart from the phis of the header -/
def TailNm.block (N : TailNm) (param : C → Option Nat) (S : TailSel Op C) (h b k : Nat) (K : TailKind Op C) (y : Nat) (T : Block Op C) : Block Op C :=
  if y = b then ⟨T.phis.map (N.phi param), (T.body.take k).map (N.inst param) ++ N.rest param S b K, .br h⟩
  else
    match T.term with
    | .ret (some v) => ⟨T.phis.map (N.phi param), T.body.map (N.inst param) ++ N.leaves S y (N.opd param v) K, .ret (some (N.leafOpd y (N.opd param v) K))⟩
    | t => ⟨T.phis.map (N.phi param), T.body.map (N.inst param), N.term param t⟩

/-- stages 2 and 3 (l.147-256) -/
def Func.tailElim (F : Func Op C) (N : TailNm) (param : C → Option Nat) (S : TailSel Op C) (as : List C) (b k : Nat) (args : List (Opd C)) (K : TailKind Op C) : Func Op C where
  entry := N.e0
  order := N.e0 :: F.order
  blk y :=
    if y = N.e0 then some ⟨[], [], .br F.entry⟩
    else (F.blk y).map (fun T =>
      let T' := N.block param S F.entry b k K y T
      if y = F.entry then { T' with phis := N.phis param S as b args K ++ T'.phis } else T')

end

/-! ## one block before and after -/
section
variable {L : Lang} {V : Conv L} {N : TailNm} {as : List L.C} {ws vs0 : List L.V} {cF cG : CallSem L}

/-- the value of a constant or parameter in an invocation with arguments `ws` -/
abbrev Conv.cv (V : Conv L) (ws : List L.V) (c : L.C) : L.V := match V.param c with | some j => (ws[j]?).getD (L.cval c) | none => L.cval c

/-- the parameters that occur are those of the function -/
def TailPar (param : L.C → Option Nat) (as : List L.C) (o : Opd L.C) : Prop := ∀ c j, o = .cst c → param c = some j → as[j]? = some c

/-- values in the loop: everything the recursive invocation knows, its arguments in the phis, and the values `ext` of the other phis -/
structure TailEnv (V : Conv L) (N : TailNm) (as : List L.C) (ws : List L.V) (ext : List (Nat × L.V)) (ge te : Env L) : Prop where
  inst : ∀ x v, ge x = some v → te x = some v
  par : ∀ j c, as[j]? = some c → te (N.ps j) = some (V.cv ws c)
  ext : ∀ e ∈ ext, te e.1 = some e.2

variable {ext : List (Nat × L.V)}

theorem TailEnv.eval {ge te : Env L} (h : TailEnv V N as ws ext ge te) {o : Opd L.C} (ho : TailPar V.param as o) {v : L.V} (hv : eval (V.lang cF ws) ge o = some v) :
    eval (V.lang cG vs0) te (N.opd V.param o) = some v := by
  cases o with
  | inst i => exact h.inst i v hv
  | cst c =>
    have hv' : V.cv ws c = v := Option.some.inj hv
    simp only [TailNm.opd]
    cases hp : V.param c with
    | none =>
      unfold Conv.cv at hv'
      rw [hp] at hv'
      simp only at hv'
      simp only [Cmmc.SSA.eval]
      rw [hp]
      exact congrArg some hv'
    | some j =>
      simp only [Cmmc.SSA.eval]
      rw [h.par j c (ho c j rfl hp), hv']

theorem TailEnv.evals {ge te : Env L} (h : TailEnv V N as ws ext ge te) : ∀ {os : List (Opd L.C)} {xs : List L.V}, (∀ o ∈ os, TailPar V.param as o) →
    evals (V.lang cF ws) ge os = some xs → evals (V.lang cG vs0) te (os.map (N.opd V.param)) = some xs := by
  intro os
  induction os with
  | nil => intro xs _ h; exact h
  | cons o os ih =>
    intro xs ho hx
    simp only [Cmmc.SSA.evals] at hx
    cases h1 : Cmmc.SSA.eval (V.lang cF ws) ge o with
    | none => simp [h1] at hx
    | some v =>
      cases h2 : Cmmc.SSA.evals (V.lang cF ws) ge os with
      | none => simp [h1, h2] at hx
      | some vs =>
        simp only [h1, h2, Option.some.injEq] at hx
        simp only [List.map_cons, Cmmc.SSA.evals]
        rw [h.eval (cG := cG) (vs0 := vs0) (ho o (by simp)) h1, ih (fun o h => ho o (by simp [h])) h2]
        simp only [hx]

theorem TailEnv.set {ge te : Env L} (h : TailEnv V N as ws ext ge te) {i : Nat} (hp : ∀ j, i ≠ N.ps j) (he : ∀ e ∈ ext, i ≠ e.1) (v : L.V) :
    TailEnv V N as ws ext (setEnv L ge i v) (setEnv L te i v) where
  inst x w hw := by
    unfold setEnv at hw ⊢
    by_cases hx : x = i
    · rw [if_pos hx] at hw ⊢; exact hw
    · rw [if_neg hx] at hw ⊢; exact h.inst x w hw
  par j c hj := by unfold setEnv; rw [if_neg (fun e => hp j e.symm)]; exact h.par j c hj
  ext e he' := by unfold setEnv; rw [if_neg (fun x => he e he' x.symm)]; exact h.ext e he'

theorem TailEnv.phis {q : Nat} {gold told : Env L} (hold : TailEnv V N as ws ext gold told) :
    ∀ {ps : List (Phi L.C)} {ge te gr : Env L}, (∀ p ∈ ps, ∀ o ∈ p.ops, TailPar V.param as o) → (∀ p ∈ ps, (∀ j, p.id ≠ N.ps j) ∧ ∀ e ∈ ext, p.id ≠ e.1) → TailEnv V N as ws ext ge te →
      enterPhis (V.lang cF ws) (some q) gold ps ge = some gr →
      ∃ tr, enterPhis (V.lang cG vs0) (some q) told (ps.map (N.phi V.param)) te = some tr ∧ TailEnv V N as ws ext gr tr := by
  intro ps
  induction ps with
  | nil => intro ge te gr _ _ h hr; simp only [enterPhis, Option.some.injEq] at hr; subst hr; exact ⟨te, rfl, h⟩
  | cons p ps ih =>
    intro ge te gr ho hid h hr
    simp only [enterPhis] at hr
    cases hv : phiVal (V.lang cF ws) (some q) gold p with
    | none => rw [hv] at hr; simp at hr
    | some v =>
      rw [hv] at hr
      simp only at hr
      have hv' : phiVal (V.lang cG vs0) (some q) told (N.phi V.param p) = some v := by
        simp only [phiVal] at hv ⊢
        have hat : (N.phi V.param p).at q = (p.at q).map (N.opd V.param) := by
          unfold Phi.at TailNm.phi
          simp only
          rw [List.find?_map]
          simp only [Option.map_map]
          rfl
        rw [hat]
        cases hp : p.at q with
        | none => rw [hp] at hv; simp at hv
        | some o =>
          rw [hp] at hv
          simp only at hv
          simp only [Option.map_some]
          exact hold.eval (ho p (by simp) o (mem_ops.2 ⟨q, Phi.at_mem hp⟩)) hv
      obtain ⟨tr, h1, h2⟩ := ih (fun p hp => ho p (by simp [hp])) (fun p hp => hid p (by simp [hp])) (h.set (hid p (by simp)).1 (hid p (by simp)).2 v) hr
      refine ⟨tr, ?_, h2⟩
      simp only [List.map_cons, enterPhis]
      rw [hv']
      exact h1

theorem TailEnv.term {ge te : Env L} (h : TailEnv V N as ws ext ge te) {t : Term L.C} (ht : ∀ o ∈ t.args, TailPar V.param as o) :
    match evalTerm (V.lang cF ws) ge t with
    | .goto q => evalTerm (V.lang cG vs0) te (N.term V.param t) = .goto q
    | .ret v => evalTerm (V.lang cG vs0) te (N.term V.param t) = .ret v
    | .ub => True := by
  have he : ∀ o ∈ t.args, ∀ v, Cmmc.SSA.eval (V.lang cF ws) ge o = some v → Cmmc.SSA.eval (V.lang cG vs0) te (N.opd V.param o) = some v := fun o ho v hv => h.eval (ht o ho) hv
  cases t with
  | ret v =>
    cases v with
    | none => rfl
    | some o =>
      simp only [evalTerm, TailNm.term, Option.map_some]
      cases hv : Cmmc.SSA.eval (V.lang cF ws) ge o with
      | none => trivial
      | some v => simp only [he o (by simp [Term.args]) v hv]
  | br t => rfl
  | cbr c t f =>
    simp only [evalTerm, TailNm.term]
    cases hv : Cmmc.SSA.eval (V.lang cF ws) ge c with
    | none => simp
    | some v =>
      rw [he c (by simp [Term.args]) v hv]
      simp only [Option.bind_some]
      cases L.truth v with
      | none => trivial
      | some t => cases t <;> rfl
  | sw c d cs =>
    simp only [evalTerm, TailNm.term]
    cases hv : Cmmc.SSA.eval (V.lang cF ws) ge c with
    | none => simp
    | some v =>
      rw [he c (by simp [Term.args]) v hv]
      simp only [Option.bind_some]
      cases L.key v with
      | none => trivial
      | some k => simp only; cases cs.find? (fun e => e.1 == k) <;> rfl
  | unreachable => simp [evalTerm]

/-- an operation of the recursive invocation and of the loop -/
def TailOp (V : Conv L) (cF cG : CallSem L) (op : L.Op) : Prop := ∀ vs mc, V.I mc →
  match V.sem cF op vs mc with
  | .ok v mc' es => V.I mc' ∧ ∀ m, V.sem cG op vs (V.leave m mc) = .ok v (V.leave m mc') es
  | .halt es h => ∀ m, V.sem cG op vs (V.leave m mc) = .halt es h
  | .ub => True

theorem TailEnv.body {m0 : L.M} {tr0 : List L.E} :
    ∀ {is : List (Inst L.Op L.C)} {ge te : Env L} {mc : L.M} {es : List L.E}, (∀ i ∈ is, TailOp V cF cG i.op) → (∀ i ∈ is, ∀ o ∈ i.args, TailPar V.param as o) →
      (∀ i ∈ is, (∀ j, i.id ≠ N.ps j) ∧ ∀ e ∈ ext, i.id ≠ e.1) → V.I mc → TailEnv V N as ws ext ge te →
      match execBody (V.lang cF ws) is ge mc es with
      | .ok ge' mc' es' => V.I mc' ∧ ∃ te', execBody (V.lang cG vs0) (is.map (N.inst V.param)) te (V.leave m0 mc) (tr0 ++ es) = .ok te' (V.leave m0 mc') (tr0 ++ es') ∧ TailEnv V N as ws ext ge' te'
      | .halt es' h => execBody (V.lang cG vs0) (is.map (N.inst V.param)) te (V.leave m0 mc) (tr0 ++ es) = .halt (tr0 ++ es') h
      | .ub => True := by
  intro is
  induction is with
  | nil => intro ge te mc es _ _ _ hI h; exact ⟨hI, te, rfl, h⟩
  | cons i is ih =>
    intro ge te mc es hop hpo hid hI h
    simp only [execBody, List.map_cons]
    cases hv : Cmmc.SSA.evals (V.lang cF ws) ge i.args with
    | none => trivial
    | some xs =>
      have hv' := h.evals (cG := cG) (vs0 := vs0) (fun o ho => hpo i (by simp) o ho) hv
      have hop' := hop i (by simp) xs mc hI
      simp only [TailNm.inst]
      rw [hv']
      simp only
      cases hs : V.sem cF i.op xs mc with
      | ub => trivial
      | halt es' hh =>
        rw [hs] at hop'
        simp only at hop' ⊢
        rw [hop' m0]
        simp [List.append_assoc]
      | ok v mc' es' =>
        rw [hs] at hop'
        simp only at hop' ⊢
        rw [hop'.2 m0]
        simp only
        rw [List.append_assoc]
        exact ih (fun i hi => hop i (by simp [hi])) (fun i hi => hpo i (by simp [hi])) (fun i hi => hid i (by simp [hi])) hop'.1 (h.set (hid i (by simp)).1 (hid i (by simp)).2 v)

end
end Cmmc.SSA
