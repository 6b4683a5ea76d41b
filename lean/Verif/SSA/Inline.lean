import Verif.SSA.Redirect
/-!
# Function inlining (cmmc/Transforms/IPO/Inlining.cpp:47-153): what one inlined call does

The call, the last instruction of the first half of its block, becomes a branch to a copy of the callee. The copy reads its parameters from
phis in its entry block, its returns branch to the second half of the block, where a phi collects the returned values.
-/
namespace Cmmc.SSA

/-- the new objects: clones of the blocks and instructions of the callee, phis for its parameters, the block behind the call (Inlining.cpp:51, 64, 72) -/
structure Copy where
  fb : Nat → Nat
  fi : Nat → Nat
  ps : Nat → Nat
  sink : Nat

section
variable {Op C : Type}

/-- the operands of a block -/
def Block.opds (B : Block Op C) : List (Opd C) := B.phis.flatMap Phi.ops ++ B.body.flatMap Inst.args ++ B.term.args

/-- `Block::clone` with `targetReplace` and `replaceWithInBlockList` (Block.cpp:161-183, Inlining.cpp:66, 146-149) for one operand: instructions of the
callee become their clones, parameters the phis made for them. `param c` is the position of the parameter `c`. -/
def Copy.opd (K : Copy) (param : C → Option Nat) : Opd C → Opd C
  | .inst i => .inst (K.fi i)
  | .cst c => match param c with | some j => .inst (K.ps j) | none => .cst c

/-- a cloned phi; `replaceSource(oldBlock, newBlock)` for all blocks (Inlining.cpp:113-116) -/
def Copy.phi (K : Copy) (param : C → Option Nat) (p : Phi C) : Phi C := ⟨K.fi p.id, p.inc.map (fun e => (K.fb e.1, K.opd param e.2))⟩

def Copy.inst (K : Copy) (param : C → Option Nat) (i : Inst Op C) : Inst Op C := ⟨K.fi i.id, i.op, i.args.map (K.opd param)⟩

/-- terminators (Inlining.cpp:118-144) -/
def Copy.term (K : Copy) (param : C → Option Nat) : Term C → Term C
  | .ret _ => .br K.sink
  | .br t => .br (K.fb t)
  | .cbr c t f => .cbr (K.opd param c) (K.fb t) (K.fb f)
  | .sw c d cs => .sw (K.opd param c) (K.fb d) (cs.map (fun e => (e.1, K.fb e.2)))
  | .unreachable => .unreachable

/-- the phis for the parameters (Inlining.cpp:63-68, 102-103; each is put in front of the ones before) -/
def Copy.argPhis (K : Copy) (b : Nat) (args : List (Opd C)) : List (Phi C) := (args.zipIdx.map (fun e => ⟨K.ps e.2, [(b, e.1)]⟩)).reverse

/-- a cloned block -/
def Copy.block (K : Copy) (param : C → Option Nat) (T : Block Op C) : Block Op C := ⟨T.phis.map (K.phi param), T.body.map (K.inst param), K.term param T.term⟩

/-- a cloned block, with the phis for the parameters if it is the entry -/
def Copy.blockAt (K : Copy) (param : C → Option Nat) (b : Nat) (args : List (Opd C)) (entry q : Nat) (T : Block Op C) : Block Op C :=
  if q = entry then { K.block param T with phis := K.argPhis b args ++ (K.block param T).phis } else K.block param T

/-- the returned values (Inlining.cpp:119-127) -/
def Func.retIncs (K : Copy) (param : C → Option Nat) (G : Func Op C) : List (Nat × Opd C) :=
  G.order.filterMap (fun q => match G.blk q with | some ⟨_, _, .ret (some v)⟩ => some (K.fb q, K.opd param v) | _ => none)

/-- `retValue` (Inlining.cpp:105-111). The code makes a new phi and lets all users of the call use it; here the phi keeps the name of the call, so that
the users need no change. -/
def Copy.retPhi (K : Copy) (param : C → Option Nat) (G : Func Op C) (valued : Bool) (id : Nat) : List (Phi C) := if valued then [⟨id, G.retIncs K param⟩] else []

/-- `applyInline` (Inlining.cpp:47-153) for the call at position `k` of block `b` without the treatment of leading allocas (Inlining.cpp:90-100): callees
with allocas are not modelled. `valued` says whether the call has a value. -/
def Func.inline (K : Copy) (param : C → Option Nat) (F : Func Op C) (b k : Nat) (valued : Bool) (G : Func Op C) : Func Op C :=
  match F.blk b with
  | none => F
  | some B =>
    match B.body[k]? with
    | none => F
    | some call =>
      let H : Func Op C :=
        { entry := F.entry
          order := F.order.flatMap (fun x => if x = b then b :: G.order.map K.fb ++ [K.sink] else [x])
          blk := fun x =>
            if x = b then some ⟨B.phis, B.body.take k, .br (K.fb G.entry)⟩
            else if x = K.sink then some ⟨K.retPhi param G valued call.id, B.body.drop (k + 1), B.term⟩
            else
              match G.order.find? (fun q => K.fb q == x) with
              | some q => (G.blk q).map (K.blockAt param b call.args G.entry q)
              | none => F.blk x }
      B.term.targets.dedup.foldl (fun H y => H.mapPhis y (List.map (fun p => p.replaceSource b K.sink))) H

end

/-! ## the meaning of a call -/

/-- an invocation with arguments `vs`: the parameters have these values, everything else is as in the caller -/
@[reducible] def Lang.withArgs (L : Lang) (param : L.C → Option Nat) (vs : List L.V) : Lang :=
  { L with cval := fun c => match param c with | some j => (vs[j]?).getD (L.cval c) | none => L.cval c }

/-- what an instruction does in the memory of the callee it does in the caller's memory that the callee works on -/
def LiftsOp (L : Lang) (leave : L.M → L.M → L.M) (I : L.M → Prop) (op : L.Op) : Prop := ∀ vs m mc, I mc →
  match L.sem op vs mc with
  | .ok v mc' es => I mc' ∧ L.sem op vs (leave m mc) = .ok v (leave m mc') es
  | .halt es h => L.sem op vs (leave m mc) = .halt es h
  | .ub => True

/-- the result of a run of the callee with arguments `vs`, seen from the caller -/
def CallRes (L : Lang) (param : L.C → Option Nat) (vs : List L.V) (leave : L.M → L.M → L.M) (m : L.M) (r : Res L.V L.M L.E L.H) : Beh (L.withArgs param vs) → Prop
  | .ret v mc es => ∃ w : L.V, r = .ok w (leave m mc) es ∧ ∀ x, v = some x → w = x
  | .halt h es => r = .halt es h
  | .ub => False

/-- The opcode `call` with `n` arguments runs `G`: in the memory `enter m`, and the caller goes on in `leave m mc` when the callee has left `mc`. `I` holds of the memory of
the callee all the time. (A callee that shares all memory with the caller has `enter m = m` and `leave m mc = mc`.) -/
structure CallOf (L : Lang) (call : L.Op) (n : Nat) (param : L.C → Option Nat) (G : L.F) (enter : L.M → L.M) (leave : L.M → L.M → L.M) (I : L.M → Prop) : Prop where
  enter_I : ∀ m, I (enter m)
  leave_enter : ∀ m, leave m (enter m) = m
  ops : ∀ q T, G.blk q = some T → ∀ i ∈ T.body, LiftsOp L leave I i.op
  runs : ∀ vs m, vs.length = n → L.sem call vs m = .ub ∨ ∃ b : Beh (L.withArgs param vs), Ends (L.withArgs param vs) G (enter m) b ∧
    CallRes L param vs leave m (L.sem call vs m) b

/-! ## the copy does what the callee does -/
section
variable {L : Lang} {K : Copy} {param : L.C → Option Nat} {vs : List L.V} {leave : L.M → L.M → L.M} {I : L.M → Prop}

/-- environments of the callee and of the copy; the copy may still have values from an earlier call -/
structure CopyEnv (K : Copy) (vs : List L.V) (e0 ge te : Env L) : Prop where
  inst : ∀ x v, ge x = some v → te (K.fi x) = some v
  par : ∀ j, j < vs.length → te (K.ps j) = vs[j]?
  other : ∀ x, (∀ y, x ≠ K.fi y) → (∀ j, x ≠ K.ps j) → te x = e0 x

/-- the parameters an operand mentions exist -/
def ParamOk (param : L.C → Option Nat) (n : Nat) (o : Opd L.C) : Prop := ∀ c j, o = .cst c → param c = some j → j < n

theorem CopyEnv.eval {e0 ge te : Env L} (h : CopyEnv K vs e0 ge te) {o : Opd L.C} (ho : ParamOk param vs.length o) {v : L.V} (hv : eval (L.withArgs param vs) ge o = some v) :
    eval L te (K.opd param o) = some v := by
  cases o with
  | inst i => exact h.inst i v hv
  | cst c =>
    simp only [Cmmc.SSA.eval] at hv
    rw [← hv]
    simp only [Copy.opd]
    cases hp : param c with
    | none => rfl
    | some j =>
      have hj := ho c j rfl hp
      simp only [Cmmc.SSA.eval]
      rw [h.par j hj, List.getElem?_eq_getElem hj]
      rfl

theorem CopyEnv.evals {e0 ge te : Env L} (h : CopyEnv K vs e0 ge te) : ∀ {os : List (Opd L.C)} {xs : List L.V}, (∀ o ∈ os, ParamOk param vs.length o) →
    evals (L.withArgs param vs) ge os = some xs → evals L te (os.map (K.opd param)) = some xs := by
  intro os
  induction os with
  | nil => intro xs _ h; exact h
  | cons o os ih =>
    intro xs ho hx
    simp only [Cmmc.SSA.evals] at hx
    simp only [List.map_cons, Cmmc.SSA.evals]
    cases he : Cmmc.SSA.eval (L.withArgs param vs) ge o with
    | none => rw [he] at hx; cases hx
    | some v =>
      cases hes : Cmmc.SSA.evals (L.withArgs param vs) ge os with
      | none => rw [he, hes] at hx; cases hx
      | some ys =>
        rw [he, hes] at hx
        rw [h.eval (ho o (by simp)) he, ih (fun o' ho' => ho o' (by simp [ho'])) hes]
        exact hx

theorem CopyEnv.set (hfi : Function.Injective K.fi) (hps : ∀ i j, K.fi i ≠ K.ps j) {e0 ge te : Env L} (h : CopyEnv K vs e0 ge te) (i : Nat) (v : L.V) :
    CopyEnv K vs e0 (setEnv L ge i v) (setEnv L te (K.fi i) v) where
  inst x w hw := by
    unfold setEnv at hw ⊢
    by_cases hx : x = i
    · rw [if_pos hx] at hw; rw [if_pos (by rw [hx])]; exact hw
    · rw [if_neg hx] at hw; rw [if_neg (fun he => hx (hfi he))]; exact h.inst x w hw
  par j hj := by
    unfold setEnv
    rw [if_neg (fun he => hps i j he.symm)]
    exact h.par j hj
  other x h1 h2 := by
    unfold setEnv
    rw [if_neg (h1 i)]
    exact h.other x h1 h2

/-- terminators -/
theorem CopyEnv.term {e0 ge te : Env L} (h : CopyEnv K vs e0 ge te) {t : Term L.C} (ht : ∀ o ∈ t.args, ParamOk param vs.length o) :
    match evalTerm (L.withArgs param vs) ge t with
    | .goto q => evalTerm L te (K.term param t) = .goto (K.fb q)
    | .ret v => evalTerm L te (K.term param t) = .goto K.sink ∧ ∃ o, t = .ret o ∧ ∀ o', o = some o' → ∃ x, v = some x ∧ Cmmc.SSA.eval L te (K.opd param o') = some x
    | .ub => True := by
  cases t with
  | ret v =>
    cases v with
    | none => exact ⟨rfl, none, rfl, nofun⟩
    | some o =>
      simp only [evalTerm]
      cases he : Cmmc.SSA.eval (L.withArgs param vs) ge o with
      | none => trivial
      | some v => exact ⟨rfl, some o, rfl, fun o' ho' => by cases ho'; exact ⟨v, rfl, h.eval (ht o (by simp [Term.args])) he⟩⟩
  | br t => rfl
  | cbr c a b =>
    simp only [evalTerm, Copy.term]
    cases he : Cmmc.SSA.eval (L.withArgs param vs) ge c with
    | none => trivial
    | some v =>
      rw [h.eval (ht c (by simp [Term.args])) he]
      simp only [Option.bind_some]
      cases L.truth v with
      | none => trivial
      | some d => cases d <;> rfl
  | sw c d cs =>
    simp only [evalTerm, Copy.term]
    cases he : Cmmc.SSA.eval (L.withArgs param vs) ge c with
    | none => trivial
    | some v =>
      rw [h.eval (ht c (by simp [Term.args])) he]
      simp only [Option.bind_some]
      cases L.key v with
      | none => trivial
      | some k =>
        simp only [List.find?_map]
        have : ((fun e : Int × Nat => e.1 == k) ∘ fun e : Int × Nat => (e.1, K.fb e.2)) = (fun e => e.1 == k) := rfl
        rw [this]
        cases cs.find? (fun e => e.1 == k) <;> rfl
  | unreachable => trivial

/-- phis -/
theorem CopyEnv.phis (hfb : Function.Injective K.fb) (hfi : Function.Injective K.fi) (hps : ∀ i j, K.fi i ≠ K.ps j) {q : Nat} {e0 gold told : Env L} (hold : CopyEnv K vs e0 gold told) :
    ∀ {ps : List (Phi L.C)} {ge te gr : Env L}, (∀ p ∈ ps, ∀ o ∈ p.ops, ParamOk param vs.length o) → CopyEnv K vs e0 ge te →
      enterPhis (L.withArgs param vs) (some q) gold ps ge = some gr →
      ∃ tr, enterPhis L (some (K.fb q)) told (ps.map (K.phi param)) te = some tr ∧ CopyEnv K vs e0 gr tr := by
  intro ps
  induction ps with
  | nil =>
    intro ge te gr _ h hr
    simp only [enterPhis, Option.some.injEq] at hr
    subst hr
    exact ⟨te, rfl, h⟩
  | cons p ps ih =>
    intro ge te gr hp h hr
    simp only [enterPhis, phiVal] at hr
    simp only [List.map_cons, enterPhis, phiVal]
    have hat : (K.phi param p).at (K.fb q) = (p.at q).map (K.opd param) := by
      unfold Phi.at Copy.phi
      simp only [List.find?_map]
      have : ((fun e : Nat × Opd L.C => e.1 == K.fb q) ∘ fun e : Nat × Opd L.C => (K.fb e.1, K.opd param e.2)) = (fun e => e.1 == q) := by
        funext e
        simp only [Function.comp, beq_eq_beq]
        exact ⟨fun h => hfb h, fun h => by rw [h]⟩
      rw [this, Option.map_map, Option.map_map]
      rfl
    rw [hat]
    cases ha : p.at q with
    | none => rw [ha] at hr; cases hr
    | some o =>
      rw [ha] at hr
      simp only [Option.map_some] at hr ⊢
      have hmem : o ∈ p.ops := List.mem_map.2 ⟨(q, o), Phi.at_mem ha, rfl⟩
      cases he : Cmmc.SSA.eval (L.withArgs param vs) gold o with
      | none => rw [he] at hr; cases hr
      | some v =>
        rw [he] at hr
        rw [hold.eval (hp p (by simp) o hmem) he]
        exact ih (fun p' hp' => hp p' (by simp [hp'])) (h.set hfi hps p.id v) hr

/-- straight-line code -/
theorem CopyEnv.body (hfi : Function.Injective K.fi) (hps : ∀ i j, K.fi i ≠ K.ps j) {e0 : Env L} {m0 : L.M} {tr0 : List L.E} :
    ∀ {is : List (Inst L.Op L.C)} {ge te : Env L} {mc : L.M} {es : List L.E}, (∀ i ∈ is, LiftsOp L leave I i.op) → (∀ i ∈ is, ∀ o ∈ i.args, ParamOk param vs.length o) → I mc → CopyEnv K vs e0 ge te →
      match execBody (L.withArgs param vs) is ge mc es with
      | .ok ge' mc' es' => I mc' ∧ ∃ te', execBody L (is.map (K.inst param)) te (leave m0 mc) (tr0 ++ es) = .ok te' (leave m0 mc') (tr0 ++ es') ∧ CopyEnv K vs e0 ge' te'
      | .halt es' h => execBody L (is.map (K.inst param)) te (leave m0 mc) (tr0 ++ es) = .halt (tr0 ++ es') h
      | .ub => True := by
  intro is
  induction is with
  | nil => intro ge te mc es _ _ hI h; exact ⟨hI, te, rfl, h⟩
  | cons i is ih =>
    intro ge te mc es hop hpar hI h
    simp only [execBody, List.map_cons, Copy.inst]
    cases hv : Cmmc.SSA.evals (L.withArgs param vs) ge i.args with
    | none => trivial
    | some xs =>
      rw [h.evals (hpar i (by simp)) hv]
      have hl := hop i (by simp) xs m0 mc hI
      simp only
      have hs0 : (L.withArgs param vs).sem i.op xs mc = L.sem i.op xs mc := rfl
      rw [hs0]
      cases hs : L.sem i.op xs mc with
      | ub => trivial
      | halt es' hh =>
        rw [hs] at hl
        simp only at hl
        simp only [hl, List.append_assoc]
      | ok v mc' es' =>
        rw [hs] at hl
        simp only at hl
        have := ih (es := es ++ es') (fun i' hi' => hop i' (by simp [hi'])) (fun i' hi' => hpar i' (by simp [hi'])) hl.1 (h.set hfi hps i.id v)
        simp only [hl.2, List.append_assoc]
        exact this

/-- states of the callee and of the copy. The call was made in block `b` with operands `args`, environment `e0`, memory `m0`, events `tr0`. -/
structure CopySt (K : Copy) (param : L.C → Option Nat) (vs : List L.V) (leave : L.M → L.M → L.M) (I : L.M → Prop) (G : L.F) (b : Nat) (args : List (Opd L.C)) (e0 : Env L) (m0 : L.M) (tr0 : List L.E)
    (g : St (L.withArgs param vs)) (t : St L) : Prop where
  cur : t.cur = K.fb g.cur
  m : t.m = leave m0 g.m
  inv : I g.m
  tr : t.tr = tr0 ++ g.tr
  pred : (g.pred = none ∧ g.cur = G.entry ∧ t.pred = some b ∧ t.env = e0 ∧ (∀ x, g.env x = none) ∧ evals L e0 args = some vs) ∨
    (∃ q, g.pred = some q ∧ Edge G q g.cur ∧ t.pred = some (K.fb q) ∧ CopyEnv K vs e0 g.env t.env)

theorem evals_length {e : Env L} : ∀ {os : List (Opd L.C)} {xs : List L.V}, evals L e os = some xs → xs.length = os.length := by
  intro os
  induction os with
  | nil => intro xs h; simp only [Cmmc.SSA.evals, Option.some.injEq] at h; rw [← h]; rfl
  | cons o os ih =>
    intro xs h
    simp only [Cmmc.SSA.evals] at h
    split at h
    · rename_i v ys _ h2
      cases h
      simp [ih h2]
    · cases h

theorem evals_nth {e : Env L} : ∀ {os : List (Opd L.C)} {xs : List L.V}, evals L e os = some xs → ∀ (j : Nat) (o : Opd L.C), os[j]? = some o → eval L e o = xs[j]? := by
  intro os
  induction os with
  | nil => intro xs h j o ho; simp at ho
  | cons o os ih =>
    intro xs h j o' ho
    simp only [Cmmc.SSA.evals] at h
    split at h
    · rename_i v ys h1 h2
      cases h
      cases j with
      | zero => simp at ho; subst ho; simpa using h1
      | succ j => simp at ho; simpa using ih h2 j o' ho
    · cases h

/-- entering a list of phis that all have a value -/
theorem enterPhis_vals {q : Nat} {old : Env L} : ∀ {ps : List (Phi L.C)} {e : Env L}, (∀ p ∈ ps, ∃ v, phiVal L (some q) old p = some v) → (ps.map Phi.id).Nodup →
    ∃ r, enterPhis L (some q) old ps e = some r ∧ (∀ p ∈ ps, r p.id = phiVal L (some q) old p) ∧ ∀ x, x ∉ ps.map Phi.id → r x = e x := by
  intro ps
  induction ps with
  | nil => intro e _ _; exact ⟨e, rfl, by simp, by simp⟩
  | cons p ps ih =>
    intro e hv hn
    obtain ⟨v, hv0⟩ := hv p (by simp)
    rw [List.map_cons, List.nodup_cons] at hn
    obtain ⟨r, h1, h2, h3⟩ := ih (e := setEnv L e p.id v) (fun p' hp' => hv p' (by simp [hp'])) hn.2
    refine ⟨r, by simp only [enterPhis, hv0]; exact h1, ?_, ?_⟩
    · intro p' hp'
      rcases List.mem_cons.1 hp' with rfl | hp'
      · rw [h3 _ hn.1, hv0]; simp [setEnv]
      · exact h2 p' hp'
    · intro x hx
      simp only [List.map_cons, List.mem_cons, not_or] at hx
      rw [h3 x hx.2]
      simp [setEnv, hx.1]

theorem argPhis_ids (K : Copy) (b : Nat) (args : List (Opd L.C)) : (K.argPhis b args).map Phi.id = ((List.range args.length).map K.ps).reverse := by
  unfold Copy.argPhis
  rw [List.map_reverse, List.map_map]
  congr 1
  apply List.ext_getElem
  · simp
  · intro n h1 h2
    simp

theorem mem_argPhis {K : Copy} {b : Nat} {args : List (Opd L.C)} {p : Phi L.C} (h : p ∈ K.argPhis b args) : ∃ j o, args[j]? = some o ∧ p = ⟨K.ps j, [(b, o)]⟩ := by
  unfold Copy.argPhis at h
  rw [List.mem_reverse, List.mem_map] at h
  obtain ⟨⟨o, j⟩, h, rfl⟩ := h
  exact ⟨j, o, List.mem_zipIdx_iff_getElem?.1 h, rfl⟩

theorem argPhis_mem {K : Copy} {b : Nat} {args : List (Opd L.C)} {j : Nat} {o : Opd L.C} (h : args[j]? = some o) : (⟨K.ps j, [(b, o)]⟩ : Phi L.C) ∈ K.argPhis b args := by
  unfold Copy.argPhis
  rw [List.mem_reverse, List.mem_map]
  exact ⟨(o, j), List.mem_zipIdx_iff_getElem?.2 h, rfl⟩

/-- entering the copy -/
theorem enter_copy (hps : Function.Injective K.ps) (hpf : ∀ i j, K.fi i ≠ K.ps j) {b : Nat} {args : List (Opd L.C)} {e0 ge : Env L} (hg : ∀ x, ge x = none) (hv : evals L e0 args = some vs) :
    ∃ te, enterPhis L (some b) e0 (K.argPhis b args) e0 = some te ∧ CopyEnv K vs e0 ge te := by
  have hpv : ∀ p ∈ K.argPhis b args, ∀ j o, args[j]? = some o → p = ⟨K.ps j, [(b, o)]⟩ → phiVal L (some b) e0 p = vs[j]? := by
    rintro p _ j o ho rfl
    simp only [phiVal, Phi.at, List.find?_cons, beq_self_eq_true, Option.map_some]
    exact evals_nth hv j o ho
  have hlen := evals_length hv
  obtain ⟨r, h1, h2, h3⟩ := enterPhis_vals (L := L) (q := b) (old := e0) (ps := K.argPhis b args) (e := e0) (by
      intro p hp
      obtain ⟨j, o, ho, rfl⟩ := mem_argPhis hp
      have hj : j < vs.length := by rw [hlen]; exact (List.getElem?_eq_some_iff.1 ho).1
      exact ⟨vs[j], by rw [hpv _ hp j o ho rfl, List.getElem?_eq_getElem hj]⟩)
    (by
      rw [argPhis_ids, List.nodup_reverse]
      exact List.nodup_range.map hps)
  refine ⟨r, h1, ⟨fun x v hx => (by rw [hg] at hx; cases hx), ?_, ?_⟩⟩
  · intro j hj
    have hj' : j < args.length := by rw [← hlen]; exact hj
    have ho : args[j]? = some args[j] := List.getElem?_eq_getElem hj'
    rw [← hpv _ (argPhis_mem ho) j _ ho rfl]
    exact h2 _ (argPhis_mem ho)
  · intro x _ hx
    refine h3 x ?_
    rw [argPhis_ids]
    simp only [List.mem_reverse, List.mem_map, not_exists, not_and]
    intro j _ h
    exact hx j h.symm

/-- the copy of `G` in `H` -/
structure IsCopy (K : Copy) (param : L.C → Option Nat) (G H : L.F) (b : Nat) (args : List (Opd L.C)) : Prop where
  fb : Function.Injective K.fb
  fi : Function.Injective K.fi
  ps : Function.Injective K.ps
  fp : ∀ i j, K.fi i ≠ K.ps j
  noEntry : ∀ q, ¬ Edge G q G.entry
  params : ∀ q T, G.blk q = some T → ∀ o ∈ T.opds, ParamOk param args.length o
  blk : ∀ q T, G.blk q = some T → H.blk (K.fb q) = some (K.blockAt param b args G.entry q T)

/-- what the copy does when the callee stops -/
def AtSink (K : Copy) (param : L.C → Option Nat) (leave : L.M → L.M → L.M) (G : L.F) (e0 : Env L) (m0 : L.M) (tr0 : List L.E) (v : Option L.V) (mc : L.M) (es : List L.E) (t : St L) : Prop :=
  t.cur = K.sink ∧ t.m = leave m0 mc ∧ t.tr = tr0 ++ es ∧ (∀ x, (∀ y, x ≠ K.fi y) → (∀ j, x ≠ K.ps j) → t.env x = e0 x) ∧
    ∃ q T o, t.pred = some (K.fb q) ∧ G.blk q = some T ∧ T.term = .ret o ∧ ∀ o', o = some o' → ∃ x, v = some x ∧ eval L t.env (K.opd param o') = some x

theorem copy_step {G H : L.F} {b : Nat} {args : List (Opd L.C)} (D : IsCopy K param G H b args) (hops : ∀ q T, G.blk q = some T → ∀ i ∈ T.body, LiftsOp L leave I i.op)
    (hlen : vs.length = args.length) {e0 : Env L} {m0 : L.M} {tr0 : List L.E} {g : St (L.withArgs param vs)} {t : St L} (R : CopySt K param vs leave I G b args e0 m0 tr0 g t) :
    match step (L.withArgs param vs) G g with
    | .inl g' => ∃ t', step L H t = .inl t' ∧ CopySt K param vs leave I G b args e0 m0 tr0 g' t'
    | .inr (.ret v mc es) => ∃ t', step L H t = .inl t' ∧ AtSink K param leave G e0 m0 tr0 v mc es t'
    | .inr (.halt h es) => step L H t = .inr (.halt h (tr0 ++ es))
    | .inr .ub => True := by
  unfold step
  cases hT : G.blk g.cur with
  | none => trivial
  | some T =>
    rw [R.cur, D.blk _ T hT]
    simp only [stepBlk_go]
    have hpar : ∀ o ∈ T.opds, ParamOk param vs.length o := by rw [hlen]; exact D.params _ T hT
    cases hen : enterPhis (L.withArgs param vs) g.pred g.env T.phis g.env with
    | none => trivial
    | some ge =>
      have hent : ∃ te, enterPhis L t.pred t.env (K.blockAt param b args G.entry g.cur T).phis t.env = some te ∧ CopyEnv K vs e0 ge te := by
        rcases R.pred with ⟨h1, h2, h3, h4, h5, h6⟩ | ⟨q, h1, h2, h3, h4⟩
        · have hph : T.phis = [] := by
            cases hp : T.phis with
            | nil => rfl
            | cons p ps => rw [hp, h1] at hen; simp [enterPhis, phiVal] at hen
          rw [hph] at hen
          simp only [enterPhis, Option.some.injEq] at hen
          subst hen
          have : (K.blockAt param b args G.entry g.cur T).phis = K.argPhis b args := by
            unfold Copy.blockAt
            rw [if_pos h2]
            simp [Copy.block, hph]
          rw [this, h3, h4]
          exact enter_copy D.ps D.fp h5 h6
        · have hne : g.cur ≠ G.entry := fun h => D.noEntry q (h ▸ h2)
          have : (K.blockAt param b args G.entry g.cur T).phis = T.phis.map (K.phi param) := by
            unfold Copy.blockAt
            rw [if_neg hne]
            rfl
          rw [this, h3]
          rw [h1] at hen
          exact CopyEnv.phis D.fb D.fi D.fp h4 (fun p hp o ho => hpar o (by unfold Block.opds; simp only [List.mem_append, List.mem_flatMap]; exact .inl (.inl ⟨p, hp, ho⟩))) h4 hen
      obtain ⟨te, hte, hce⟩ := hent
      have hbody : (K.blockAt param b args G.entry g.cur T).body = T.body.map (K.inst param) := by unfold Copy.blockAt; split <;> rfl
      have hterm : (K.blockAt param b args G.entry g.cur T).term = K.term param T.term := by unfold Copy.blockAt; split <;> rfl
      rw [hte]
      simp only [hbody, hterm]
      unfold goBlk
      have hb := CopyEnv.body (leave := leave) (I := I) (m0 := m0) (tr0 := tr0) (mc := g.m) (es := g.tr) D.fi D.fp (hops _ T hT)
        (fun i hi o ho => hpar o (by unfold Block.opds; simp only [List.mem_append, List.mem_flatMap]; exact .inl (.inr ⟨i, hi, ho⟩))) R.inv hce
      rw [R.m, R.tr]
      cases hx : execBody (L.withArgs param vs) T.body ge g.m g.tr with
      | ub => trivial
      | halt es h => rw [hx] at hb; simp only at hb; rw [hb]
      | ok ge' mc' es' =>
        rw [hx] at hb
        obtain ⟨hI, te', he', hce'⟩ := hb
        rw [he']
        have ht := hce'.term (param := param) (t := T.term) (fun o ho => hpar o (by unfold Block.opds; simp only [List.mem_append]; exact .inr ho))
        simp only
        cases hn : evalTerm (L.withArgs param vs) ge' T.term with
        | ub => trivial
        | ret v =>
          rw [hn] at ht
          obtain ⟨h1, o, h2, h3⟩ := ht
          rw [h1]
          exact ⟨_, rfl, rfl, rfl, rfl, fun x a b => hce'.other x a b, g.cur, T, o, congrArg some R.cur, hT, h2, h3⟩
        | goto q =>
          rw [hn] at ht
          simp only at ht
          rw [ht]
          refine ⟨_, rfl, rfl, rfl, hI, rfl, .inr ⟨g.cur, rfl, ⟨T, hT, ?_⟩, congrArg some R.cur, hce'⟩⟩
          exact evalTerm_targets (L := L.withArgs param vs) hn

/-- the run of the copy -/
theorem copy_run {G H : L.F} {b : Nat} {args : List (Opd L.C)} (D : IsCopy K param G H b args) (hops : ∀ q T, G.blk q = some T → ∀ i ∈ T.body, LiftsOp L leave I i.op)
    (hlen : vs.length = args.length) {e0 : Env L} {m0 : L.M} {tr0 : List L.E} : ∀ (n : Nat) {g : St (L.withArgs param vs)} {t : St L} {r : Beh (L.withArgs param vs)}, CopySt K param vs leave I G b args e0 m0 tr0 g t →
      run (L.withArgs param vs) G n g = .inr r →
      match r with
      | .ret v mc es => ∃ j t', run L H j t = .inl t' ∧ AtSink K param leave G e0 m0 tr0 v mc es t'
      | .halt h es => ∃ j, run L H j t = .inr (.halt h (tr0 ++ es))
      | .ub => True := by
  intro n
  induction n with
  | zero => intro g t r _ h; cases h
  | succ n ih =>
    intro g t r R h
    have hs := copy_step D hops hlen R
    simp only [run] at h
    cases hst : step (L.withArgs param vs) G g with
    | inr r0 =>
      rw [hst] at h hs
      obtain rfl : r0 = r := by simpa using h
      cases r0 with
      | ub => trivial
      | halt hh es => exact ⟨1, by rw [run_one]; exact hs⟩
      | ret v mc es =>
        obtain ⟨t', h1, h2⟩ := hs
        exact ⟨1, t', by rw [run_one]; exact h1, h2⟩
    | inl g' =>
      rw [hst] at h hs
      obtain ⟨t', h1, h2⟩ := hs
      have := ih h2 h
      have h3 : run L H 1 t = .inl t' := by rw [run_one]; exact h1
      cases r with
      | ub => trivial
      | halt hh es =>
        obtain ⟨j, hj⟩ := this
        exact ⟨1 + j, by rw [run_add, h3]; exact hj⟩
      | ret v mc es =>
        obtain ⟨j, t'', hj, hj'⟩ := this
        exact ⟨1 + j, t'', by rw [run_add, h3]; exact hj, hj'⟩

end
end Cmmc.SSA
