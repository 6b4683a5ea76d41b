import Verif.SSA.StoreElim
/-!
# C87: runs with and without an invisible store
-/
namespace Cmmc.SSA

section
variable {L : Lang} {V : Frames L} {kind : L.Op → OpKind}

/-- loads and stores through addresses -/
structure Stores (S : Spaces L V kind) where
  /-- all locations but those a store through this address writes -/
  but : L.V → S.Loc
  /-- accesses through the two addresses do not overlap -/
  apart : L.V → L.V → Prop
  eqv_trans : ∀ r m m' m'', S.eqv r m m' → S.eqv r m' m'' → S.eqv r m m''
  /-- a store changes nothing else, and has no output -/
  store : ∀ op a vs m v m' es, V.callee op = none → kind op = .store → L.sem op (a :: vs) m = .ok v m' es → S.eqv (but a) m' m ∧ es = []
  /-- after a store it does not matter what was there before -/
  over : ∀ op a vs m m' v m1 es, V.callee op = none → kind op = .store → S.eqv (but a) m m' → L.sem op (a :: vs) m = .ok v m1 es → L.sem op (a :: vs) m' = .ok v m1 es
  /-- a load or an atomic add elsewhere -/
  elsewhere : ∀ op a y vs m m', V.callee op = none → kind op = .load ∨ kind op = .atomic → apart a y → S.eqv (but a) m m' →
    (∀ v m1 es, L.sem op (y :: vs) m = .ok v m1 es → ∃ m1', L.sem op (y :: vs) m' = .ok v m1' es ∧ S.eqv (but a) m1 m1') ∧ ∀ es h, L.sem op (y :: vs) m = .halt es h → L.sem op (y :: vs) m' = .halt es h
  /-- what is in the frame is gone when the function returns -/
  gone : ∀ m a mc mc', S.Stack (S.frame (V.enter m)) a → S.eqv (but a) mc mc' → V.leave m mc = V.leave m mc'

/-- `f` does the same in both memories -/
def SameOn (S : Spaces L V kind) (f : L.M → Res L.V L.M L.E L.H) (r : S.Loc) (m m' : L.M) : Prop :=
  (∀ v m1 es, f m = .ok v m1 es → ∃ m1', f m' = .ok v m1' es ∧ S.eqv r m1 m1') ∧ ∀ es h, f m = .halt es h → f m' = .halt es h

/-- the run of `F` from `m0` comes to instruction `i` of block `B` with these registers and this memory -/
def AtInst (l : Lang) (F : l.F) (m0 : l.M) (B : l.B) (i : Inst l.Op l.C) (e : Env l) (m : l.M) : Prop :=
  ∃ n s e1 pre post tr, run l F n (start l F m0) = .inl s ∧ F.blk s.cur = some B ∧ B.body = pre ++ i :: post ∧ enterPhis l s.pred s.env B.phis s.env = some e1 ∧ execBody l pre e1 s.m s.tr = .ok e m tr

/-- a call of a function of the program, of an external function or through a pointer -/
def IsCall (V : Frames L) (kind : L.Op → OpKind) (op : L.Op) : Prop := V.callee op ≠ none ∨ (∃ a, kind op = .ext a) ∨ kind op = .indirect

/-- what the analyses say about the run of `F` with calls `call` and arguments `vs` from `m0` is true, as far as `addr` is concerned -/
structure Sound (S : Spaces L V kind) (Q : Stores S) (cfg : SECfg L.Op L.C) (call : CallSem L) (vs : List L.V) (F : L.F) (m0 : L.M) (addr : Opd L.C) : Prop where
  /-- `isDistinct` -/
  dist : ∀ B i e m o a y, AtInst (V.lang call vs) F m0 B i e m → i.args[0]? = some o → cfg.dist addr o = true → eval (V.lang call vs) e addr = some a → eval (V.lang call vs) e o = some y → Q.apart a y
  /-- a call to which the address of an allocation has not leaked -/
  leak : ∀ B i e m us a z, AtInst (V.lang call vs) F m0 B i e m → IsCall V kind i.op → addr = .inst z → isAlloc kind F addr = true → cfg.leak i z = false → evals (V.lang call vs) e i.args = some us → eval (V.lang call vs) e addr = some a →
    ∀ m', S.eqv (Q.but a) m m' → SameOn S (V.sem call i.op us) (Q.but a) m m'

/-- a store in a function: nobody uses its result, and the search from it has come to an end -/
structure DeadStore (V : Frames L) (kind : L.Op → OpKind) (A : Nat → Attrs) (cfg : SECfg L.Op L.C) (T : List Nat) (F : L.F) (x : Nat) (addr : Opd L.C) (W : List Nat) : Prop where
  inst : ∀ b B i, F.blk b = some B → i ∈ B.body → i.id = x → V.callee i.op = none ∧ kind i.op = .store ∧ ∃ os, i.args = addr :: os
  unusedPhi : ∀ b B p, F.blk b = some B → p ∈ B.phis → Opd.inst x ∉ p.ops
  unusedInst : ∀ b B i, F.blk b = some B → i ∈ B.body → Opd.inst x ∉ i.args
  unusedTerm : ∀ b B, F.blk b = some B → Opd.inst x ∉ B.term.args
  /-- after the store -/
  rest : ∀ b B pre i post, Live F b → F.blk b = some B → B.body = pre ++ i :: post → i.id = x → Passes (verdict V.callee kind A cfg F addr) cfg T F addr W B.term post ∧ ∀ j ∈ post, addr ≠ .inst j.id
  entered : ∀ z ∈ W, Entered (verdict V.callee kind A cfg F addr) cfg T F addr W z
  /-- blocks entered by the search do not compute the address -/
  away : ∀ z ∈ W, ∀ Z, F.blk z = some Z → ∀ y, addr = .inst y → y ∉ Z.ids
  /-- the search treats an atomic add to the same address as overwriting it -/
  noAtomic : ∀ b B i, F.blk b = some B → i ∈ B.body → V.callee i.op = none → kind i.op = .atomic → i.args[0]? ≠ some addr

variable {S : Spaces L V kind} (Q : Stores S) {A : Nat → Attrs} {cfg : SECfg L.Op L.C} {T : List Nat} {F : L.F} {x : Nat} {addr : Opd L.C} {W : List Nat} {P : Nat → Option L.F} {d : Nat} {vs : List L.V} {m0 : L.M}

/-- the memories: equal, or different only where `addr` points to, while the search is on -/
def Pend (Q : Stores S) (call : CallSem L) (vs : List L.V) (addr : Opd L.C) (ok : Prop) (e : Env (V.lang call vs)) (m m' : L.M) : Prop :=
  m = m' ∨ ∃ a, eval (V.lang call vs) e addr = some a ∧ S.eqv (Q.but a) m m' ∧ ok

/-- an instruction that the search lets pass does the same in both memories -/
theorem pass_same (hA : AttrsOk S P A) (hind : NoIndirect kind P) {f : Nat} (hF : P f = some F) (hs : Sound S Q cfg (V.call P d) vs F m0 addr) {b : Nat} {B : Block L.Op L.C} (hB : F.blk b = some B) {i : Inst L.Op L.C} (hi : i ∈ B.body)
    {e : Env (V.lang (V.call P d) vs)} {m m' : L.M} (hat : AtInst (V.lang (V.call P d) vs) F m0 B i e m) {us : List L.V} (hus : evals (V.lang (V.call P d) vs) e i.args = some us) {a : L.V} (ha : eval (V.lang (V.call P d) vs) e addr = some a)
    (he : S.eqv (Q.but a) m m') (hv : verdict V.callee kind A cfg F addr i = .pass) : SameOn S (V.sem (V.call P d) i.op us) (Q.but a) m m' := by
  have hcall : ∀ nr : Bool, IsCall V kind i.op → callVerdict kind cfg F addr nr i = .pass → nr = true ∨ SameOn S (V.sem (V.call P d) i.op us) (Q.but a) m m' := by
    intro nr hisc h
    unfold callVerdict at h
    cases haddr : addr with
    | cst c =>
      rw [haddr] at h
      left
      simp only at h
      split at h
      · assumption
      · cases h
    | inst z =>
      rw [haddr] at h
      simp only at h
      by_cases hal : isAlloc kind F (.inst z) = true
      · rw [if_pos hal] at h
        right
        split at h
        · cases h
        · rename_i hl
          subst haddr
          exact hs.leak B i e m us a z hat hisc rfl hal (by simpa using hl) hus ha m' he
      · rw [if_neg hal] at h
        left
        split at h
        · assumption
        · cases h
  unfold verdict at hv
  cases hc : V.callee i.op with
  | some g =>
    rw [hc] at hv
    simp only at hv
    rcases hcall _ (.inl (by rw [hc]; simp)) hv with h | h
    · have := hA.noRead hind g h d us m m' _ he
      unfold SameOn Frames.sem
      rw [hc]
      exact this
    · exact h
  | none =>
    rw [hc] at hv
    simp only at hv
    have hreads : (kind i.op ≠ .load ∧ kind i.op ≠ .atomic) → (∀ a, kind i.op = .ext a → a.noRead = true) → SameOn S (V.sem (V.call P d) i.op us) (Q.but a) m m' := by
      intro h1 h2
      unfold SameOn Frames.sem
      rw [hc]
      exact S.reads i.op us m m' (Q.but a) hc he (fun h => by rcases h with h | h; exact absurd h h1.1; exact absurd h h1.2) h2 (hind f F hF b B hB i hi)
    have hels : (kind i.op = .load ∨ kind i.op = .atomic) → (∃ o, i.args[0]? = some o ∧ cfg.dist addr o = true) → SameOn S (V.sem (V.call P d) i.op us) (Q.but a) m m' := by
      rintro h1 ⟨o, ho, hd⟩
      obtain ⟨y, hy, hoy⟩ := evals_getElem hus ho
      have := hs.dist B i e m o a y hat ho hd ha hoy
      unfold SameOn Frames.sem
      rw [hc]
      cases us with
      | nil => simp at hy
      | cons u us =>
        simp only [List.getElem?_cons_zero, Option.some.injEq] at hy
        subst hy
        exact Q.elsewhere i.op a u us m m' hc h1 this he
    have hst : verdict.storeVerdict cfg addr i = .pass → ∃ o, i.args[0]? = some o ∧ cfg.dist addr o = true := by
      intro h
      unfold verdict.storeVerdict at h
      cases h0 : i.args[0]? with
      | none => rw [h0] at h; cases h
      | some o =>
        cases h1 : i.args[1]? with
        | none => rw [h0, h1] at h; cases h
        | some w =>
          rw [h0, h1] at h
          simp only at h
          split at h
          · cases h
          · split at h
            · cases h
            · split at h
              · exact ⟨o, rfl, by assumption⟩
              · cases h
    cases hk : kind i.op with
    | load =>
      rw [hk] at hv
      simp only at hv
      refine hels (.inl hk) ?_
      cases h0 : i.args[0]? with
      | none => rw [h0] at hv; cases hv
      | some o =>
        rw [h0] at hv
        simp only at hv
        split at hv
        · exact ⟨o, rfl, by assumption⟩
        · cases hv
    | atomic => rw [hk] at hv; exact hels (.inr hk) (hst hv)
    | store => exact hreads (by rw [hk]; exact ⟨by simp, by simp⟩) (fun a h => by rw [hk] at h; cases h)
    | ext at' =>
      rw [hk] at hv
      rcases hcall _ (.inr (.inl ⟨_, hk⟩)) hv with h | h
      · exact hreads (by rw [hk]; exact ⟨by simp, by simp⟩) (fun a h' => by rw [hk] at h'; cases h'; exact h)
      · exact h
    | indirect => exact absurd hk (hind f F hF b B hB i hi)
    | alloc => exact hreads (by rw [hk]; exact ⟨by simp, by simp⟩) (fun a h => by rw [hk] at h; cases h)
    | gep => exact hreads (by rw [hk]; exact ⟨by simp, by simp⟩) (fun a h => by rw [hk] at h; cases h)
    | ptrCast => exact hreads (by rw [hk]; exact ⟨by simp, by simp⟩) (fun a h => by rw [hk] at h; cases h)
    | ptrAdd => exact hreads (by rw [hk]; exact ⟨by simp, by simp⟩) (fun a h => by rw [hk] at h; cases h)
    | select => exact hreads (by rw [hk]; exact ⟨by simp, by simp⟩) (fun a h => by rw [hk] at h; cases h)
    | other => exact hreads (by rw [hk]; exact ⟨by simp, by simp⟩) (fun a h => by rw [hk] at h; cases h)

/-- an instruction that ends the search stores through the same address -/
theorem over_store (hds : DeadStore V kind A cfg T F x addr W) {b : Nat} {B : Block L.Op L.C} (hB : F.blk b = some B) {i : Inst L.Op L.C} (hi : i ∈ B.body) (hv : verdict V.callee kind A cfg F addr i = .over) :
    V.callee i.op = none ∧ kind i.op = .store ∧ i.args[0]? = some addr := by
  have hcall : ∀ nr : Bool, callVerdict kind cfg F addr nr i ≠ .over := by
    intro nr h
    unfold callVerdict at h
    split at h
    · split at h
      · split at h <;> cases h
      · split at h <;> cases h
    · split at h <;> cases h
  have hst : verdict.storeVerdict cfg addr i = .over → i.args[0]? = some addr := by
    intro h
    unfold verdict.storeVerdict at h
    split at h
    · rename_i o w h0 h1
      split at h
      · cases h
      · split at h
        · rename_i hoa; rw [h0, hoa]
        · split at h <;> cases h
    · cases h
  unfold verdict at hv
  cases hc : V.callee i.op with
  | some g => rw [hc] at hv; exact absurd hv (hcall _)
  | none =>
    rw [hc] at hv
    simp only at hv
    cases hk : kind i.op with
    | store => rw [hk] at hv; exact ⟨rfl, rfl, hst hv⟩
    | atomic => rw [hk] at hv; exact absurd (hst hv) (hds.noAtomic b B i hB hi hc hk)
    | ext a => rw [hk] at hv; exact absurd hv (hcall _)
    | indirect => rw [hk] at hv; exact absurd hv (hcall _)
    | load =>
      rw [hk] at hv
      simp only at hv
      split at hv
      · split at hv <;> cases hv
      · cases hv
    | alloc => rw [hk] at hv; cases hv
    | gep => rw [hk] at hv; cases hv
    | ptrCast => rw [hk] at hv; cases hv
    | ptrAdd => rw [hk] at hv; cases hv
    | select => rw [hk] at hv; cases hv
    | other => rw [hk] at hv; cases hv

theorem eval_setEnv {l : Lang} {e : Env l} {o : Opd l.C} {y : Nat} {v : l.V} (h : o ≠ .inst y) : eval l (setEnv l e y v) o = eval l e o := by
  cases o with
  | cst c => rfl
  | inst z =>
    simp only [eval, setEnv]
    rw [if_neg]
    rintro rfl
    exact h rfl

/-- registers and frame along the run -/
def FrameInv (S : Spaces L V kind) (T : List Nat) (m0 : L.M) (e : Nat → Option L.V) (m : L.M) : Prop := TagInv S T (S.frame m0) e ∧ S.frame m = S.frame m0

theorem store_body (hA : AttrsOk S P A) (hind : NoIndirect kind P) (hT : TagsOk V.callee kind F T) {f : Nat} (hF : P f = some F) (hs : Sound S Q cfg (V.call P d) vs F m0 addr) (hds : DeadStore V kind A cfg T F x addr W)
    {n : Nat} {s : St (V.lang (V.call P d) vs)} (hrun : run (V.lang (V.call P d) vs) F n (start (V.lang (V.call P d) vs) F m0) = .inl s) (hlive : Live F s.cur) {B : Block L.Op L.C} (hB : F.blk s.cur = some B)
    {e1 : Env (V.lang (V.call P d) vs)} (he1 : enterPhis (V.lang (V.call P d) vs) s.pred s.env B.phis s.env = some e1) :
    ∀ (is pre : List (Inst L.Op L.C)), B.body = pre ++ is → ∀ (e e' : Env (V.lang (V.call P d) vs)) (m m' : L.M) (tr : List L.E), execBody (V.lang (V.call P d) vs) pre e1 s.m s.tr = .ok e m tr → AgreeOff x e e' → FrameInv S T m0 e m →
      Pend Q (V.call P d) vs addr (Passes (verdict V.callee kind A cfg F addr) cfg T F addr W B.term is ∧ ∀ j ∈ is, addr ≠ .inst j.id) e m m' →
      match execBody (V.lang (V.call P d) vs) is e m tr with
      | .ub => True
      | .halt es h => execBody (V.lang (V.call P d) vs) (is.filter (fun i => i.id != x)) e' m' tr = .halt es h
      | .ok e2 m2 tr2 => ∃ e2' m2', execBody (V.lang (V.call P d) vs) (is.filter (fun i => i.id != x)) e' m' tr = .ok e2' m2' tr2 ∧ AgreeOff x e2 e2' ∧ FrameInv S T m0 e2 m2 ∧
          Pend Q (V.call P d) vs addr (TermOk cfg T F addr W B.term) e2 m2 m2' := by
  intro is
  induction is with
  | nil =>
    intro pre hpre e e' m m' tr hex hag hfi hp
    refine ⟨e', m', rfl, hag, hfi, ?_⟩
    rcases hp with h | ⟨a, h1, h2, h3⟩
    · exact .inl h
    · exact .inr ⟨a, h1, h2, h3.1⟩
  | cons i is ih =>
    intro pre hpre e e' m m' tr hex hag hfi hp
    have hi : i ∈ B.body := by rw [hpre]; simp
    have hat : AtInst (V.lang (V.call P d) vs) F m0 B i e m := ⟨n, s, e1, pre, is, tr, hrun, hB, hpre, he1, hex⟩
    have hpre' : B.body = (pre ++ [i]) ++ is := by rw [hpre, List.append_assoc]; rfl
    simp only [execBody]
    cases hus : evals (V.lang (V.call P d) vs) e i.args with
    | none => trivial
    | some us =>
      dsimp only
      have hex' : ∀ v m1 es, V.sem (V.call P d) i.op us m = .ok v m1 es → execBody (V.lang (V.call P d) vs) (pre ++ [i]) e1 s.m s.tr = .ok (setEnv (V.lang (V.call P d) vs) e i.id v) m1 (tr ++ es) := by
        intro v m1 es h
        rw [execBody_append, hex]
        simp only [execBody, hus]
        rw [h]
      have hfi' : ∀ v m1 es, V.sem (V.call P d) i.op us m = .ok v m1 es → FrameInv S T m0 (setEnv (V.lang (V.call P d) vs) e i.id v) m1 :=
        fun v m1 es h => ⟨hfi.1.inst hT hB hi hfi.2 hus h, (S.frame_step h).trans hfi.2⟩
      by_cases hix : i.id = x
      · -- the store
        obtain ⟨hc, hk, os, hargs⟩ := hds.inst s.cur B i hB hi hix
        have hfil : (i :: is).filter (fun i => i.id != x) = is.filter (fun i => i.id != x) := by simp [hix]
        rw [hfil]
        have hsem : V.sem (V.call P d) i.op us m = L.sem i.op us m := by unfold Frames.sem; rw [hc]
        cases hr : V.sem (V.call P d) i.op us m with
        | ub => trivial
        | halt es h =>
          exfalso
          rw [hsem] at hr
          exact (S.silent i.op us m hc (fun a h => by rw [hk] at h; cases h) (by rw [hk]; simp)).2 es h hr
        | ok v m1 es =>
          dsimp only
          obtain ⟨a, ha, hua⟩ := evals_getElem hus (j := 0) (o := addr) (by rw [hargs]; rfl)
          cases us with
          | nil => simp at ha
          | cons u us =>
            simp only [List.getElem?_cons_zero, Option.some.injEq] at ha
            subst ha
            have hst := Q.store i.op u us m v m1 es hc hk (by rw [← hsem]; exact hr)
            have hne : addr ≠ .inst i.id := by
              rw [hix]
              intro h
              exact hds.unusedInst s.cur B i hB hi (by rw [hargs, h]; simp)
            have hrest := hds.rest s.cur B pre i is hlive hB hpre hix
            have h1 := ih (pre ++ [i]) hpre' (setEnv (V.lang (V.call P d) vs) e i.id v) e' m1 m' (tr ++ es) (hex' v m1 es hr)
              (fun z hz => by
                have hzi : z ≠ i.id := by rw [hix]; exact hz
                show (if z = i.id then some v else e z) = e' z
                rw [if_neg hzi]; exact hag z hz)
              (hfi' v m1 es hr)
              (.inr ⟨u, by rw [eval_setEnv (l := V.lang (V.call P d) vs) hne]; exact hua, by
                rcases hp with rfl | ⟨a, g1, g2, _⟩
                · exact hst.1
                · rw [hua] at g1
                  obtain rfl := Option.some.inj g1
                  exact Q.eqv_trans _ _ _ _ hst.1 g2, hrest⟩)
            rw [hst.2, List.append_nil] at h1 ⊢
            exact h1
      · have hfil : (i :: is).filter (fun i => i.id != x) = i :: is.filter (fun i => i.id != x) := by simp [hix]
        rw [hfil]
        simp only [execBody]
        rw [hag.evals' (hds.unusedInst s.cur B i hB hi), hus]
        dsimp only
        -- the memories after the instruction
        have key : (∀ v m1 es, V.sem (V.call P d) i.op us m = .ok v m1 es → ∃ m1', V.sem (V.call P d) i.op us m' = .ok v m1' es ∧
              Pend Q (V.call P d) vs addr (Passes (verdict V.callee kind A cfg F addr) cfg T F addr W B.term is ∧ ∀ j ∈ is, addr ≠ .inst j.id) (setEnv (V.lang (V.call P d) vs) e i.id v) m1 m1') ∧
            ∀ es h, V.sem (V.call P d) i.op us m = .halt es h → V.sem (V.call P d) i.op us m' = .halt es h := by
          rcases hp with rfl | ⟨a, g1, g2, g3, g4⟩
          · exact ⟨fun v m1 es h => ⟨m1, h, .inl rfl⟩, fun es h hh => hh⟩
          · simp only [Passes] at g3
            cases hv : verdict V.callee kind A cfg F addr i with
            | fail => rw [hv] at g3; exact g3.elim
            | over =>
              obtain ⟨hc, hk, h0⟩ := over_store hds hB hi hv
              have hsem : ∀ m, V.sem (V.call P d) i.op us m = L.sem i.op us m := by intro m; unfold Frames.sem; rw [hc]
              obtain ⟨u, hu, hua⟩ := evals_getElem hus h0
              rw [g1] at hua
              obtain rfl := Option.some.inj hua
              cases us with
              | nil => simp at hu
              | cons w us =>
                simp only [List.getElem?_cons_zero, Option.some.injEq] at hu
                subst hu
                rw [hsem, hsem]
                constructor
                · intro v m1 es h
                  exact ⟨m1, Q.over i.op w us m m' v m1 es hc hk g2 h, .inl rfl⟩
                · intro es h hh
                  exact absurd hh ((S.silent i.op _ m hc (fun a h => by rw [hk] at h; cases h) (by rw [hk]; simp)).2 es h)
            | pass =>
              rw [hv] at g3
              have hsame := pass_same Q hA hind hF hs hB hi hat hus g1 g2 hv
              refine ⟨?_, hsame.2⟩
              intro v m1 es h
              obtain ⟨m1', k1, k2⟩ := hsame.1 v m1 es h
              refine ⟨m1', k1, .inr ⟨a, ?_, k2, g3, fun j hj => g4 j (by simp [hj])⟩⟩
              rw [eval_setEnv (l := V.lang (V.call P d) vs) (g4 i (by simp))]
              exact g1
        cases hr : V.sem (V.call P d) i.op us m with
        | ub => trivial
        | halt es h => dsimp only; rw [key.2 es h hr]
        | ok v m1 es =>
          dsimp only
          obtain ⟨m1', k1, k2⟩ := key.1 v m1 es hr
          rw [k1]
          exact ih (pre ++ [i]) hpre' _ _ _ _ _ (hex' v m1 es hr) (hag.set i.id v) (hfi' v m1 es hr) k2

/-- the two runs side by side -/
theorem store_run (hA : AttrsOk S P A) (hind : NoIndirect kind P) (Sh : Shape F) (hT : TagsOk V.callee kind F T) {f : Nat} (hF : P f = some F) (hs : Sound S Q cfg (V.call P d) vs F m0 addr) (hds : DeadStore V kind A cfg T F x addr W) :
    ∀ (k n : Nat) (s s' : St (V.lang (V.call P d) vs)) (r : Beh (V.lang (V.call P d) vs)), run (V.lang (V.call P d) vs) F n (start (V.lang (V.call P d) vs) F m0) = .inl s → Live F s.cur →
      s'.pred = s.pred → s'.cur = s.cur → s'.tr = s.tr → AgreeOff x s.env s'.env → FrameInv S T m0 s.env s.m → Pend Q (V.call P d) vs addr (s.cur ∈ W) s.env s.m s'.m →
      run (V.lang (V.call P d) vs) F k s = .inr r →
      match r with
      | .ub => True
      | .halt h es => run (V.lang (V.call P d) vs) (F.eraseInst x) k s' = .inr (.halt h es)
      | .ret v mc es => ∃ mc', run (V.lang (V.call P d) vs) (F.eraseInst x) k s' = .inr (.ret v mc' es) ∧ (mc = mc' ∨ ∃ a, S.Stack (S.frame m0) a ∧ S.eqv (Q.but a) mc mc') := by
  intro k
  induction k with
  | zero => intro n s s' r _ _ _ _ _ _ _ _ h; simp [run] at h
  | succ k ih =>
    rintro n ⟨p, c, e, m, tr⟩ ⟨p', c', e', m', tr'⟩ r hrun hlive hp hc htr hag hfi hpd h
    dsimp only at hlive hp hc htr hag hfi hpd
    subst hp; subst hc; subst htr
    have hrunk := hrun
    simp only [run] at h ⊢
    have hstep := h
    unfold SSA.step at h ⊢
    dsimp only at h ⊢
    cases hB : F.blk c' with
    | none => rw [hB] at h; simp only [Sum.inr.injEq] at h; subst h; trivial
    | some B =>
      have hB' : (F.eraseInst x).blk c' = some { B with body := B.body.filter (fun i => i.id != x) } := by
        simp only [Func.eraseInst, Func.mapBlocks, hB, Option.map_some]
      rw [hB] at h
      rw [hB']
      simp only [stepBlk] at h ⊢
      cases hph : enterPhis (V.lang (V.call P d) vs) p' e B.phis e with
      | none => rw [hph] at h; simp only [Sum.inr.injEq] at h; subst h; trivial
      | some e1 =>
        obtain ⟨e1', hph', hag1⟩ := hag.phis (fun q hq => hds.unusedPhi c' B q hB hq) hag hph
        rw [hph] at h
        rw [hph']
        dsimp only at h ⊢
        have hfi1 : FrameInv S T m0 e1 m := ⟨hfi.1.phis Sh hT hB hph, hfi.2⟩
        have hpd1 : Pend Q (V.call P d) vs addr (Passes (verdict V.callee kind A cfg F addr) cfg T F addr W B.term B.body ∧ ∀ j ∈ B.body, addr ≠ .inst j.id) e1 m m' := by
          rcases hpd with rfl | ⟨a, g1, g2, g3⟩
          · exact .inl rfl
          · obtain ⟨_, B2, hB2, hps⟩ := hds.entered c' g3
            obtain rfl := Option.some.inj (hB.symm.trans hB2)
            have haway := hds.away c' g3 B hB
            refine .inr ⟨a, ?_, g2, hps, ?_⟩
            · cases haddr : addr with
              | cst cc => rw [haddr] at g1; exact g1
              | inst y =>
                rw [haddr] at g1
                show e1 y = some a
                rw [enterPhis_other hph y (fun hm => haway y haddr (List.mem_append_left _ hm))]
                exact g1
            · intro j hj haddr
              exact haway j.id haddr (List.mem_append_right _ (List.mem_map_of_mem hj))
        have hbody := store_body Q hA hind hT hF hs hds hrunk hlive hB hph B.body [] rfl e1 e1' m m' tr' rfl hag1 hfi1 hpd1
        cases hx : execBody (V.lang (V.call P d) vs) B.body e1 m tr' with
        | ub => rw [hx] at h; simp only [Sum.inr.injEq] at h; subst h; trivial
        | halt es h' =>
          rw [hx] at h hbody
          simp only [Sum.inr.injEq] at h
          subst h
          dsimp only at hbody ⊢
          rw [hbody]
        | ok e2 m2 tr2 =>
          rw [hx] at h hbody
          obtain ⟨e2', m2', hx', hag2, hfi2, hpd2⟩ := hbody
          rw [hx']
          dsimp only at h ⊢
          rw [hag2.term (hds.unusedTerm c' B hB)]
          cases ht : evalTerm (V.lang (V.call P d) vs) e2 B.term with
          | ub => rw [ht] at h; simp only [Sum.inr.injEq] at h; subst h; trivial
          | goto u =>
            rw [ht] at h
            dsimp only at h ⊢
            refine ih (n + 1) ⟨some c', u, e2, m2, tr2⟩ ⟨some c', u, e2', m2', tr2⟩ r ?_ (hlive.edge ⟨B, hB, evalTerm_targets (L := V.lang (V.call P d) vs) ht⟩) rfl rfl rfl hag2 hfi2 ?_ h
            · rw [run_add, hrunk]
              simp only [run, SSA.step, hB, stepBlk, hph, hx, ht]
            · rcases hpd2 with rfl | ⟨a, g1, g2, g3⟩
              · exact .inl rfl
              · exact .inr ⟨a, g1, g2, (g3.2 u (evalTerm_targets (L := V.lang (V.call P d) vs) ht)).1⟩
          | ret v =>
            rw [ht] at h
            simp only [Sum.inr.injEq] at h
            subst h
            dsimp only
            refine ⟨m2', rfl, ?_⟩
            rcases hpd2 with rfl | ⟨a, g1, g2, g3⟩
            · exact .inl rfl
            · refine .inr ⟨a, ?_, g2⟩
              have htg : B.term.targets = [] := by
                cases htm : B.term with
                | ret o => rfl
                | unreachable => rfl
                | br t => rw [htm] at ht; simp [evalTerm] at ht
                | cbr cc t f => rw [htm] at ht; simp only [evalTerm] at ht; split at ht <;> cases ht
                | sw cc dd cs =>
                  rw [htm] at ht
                  simp only [evalTerm] at ht
                  split at ht
                  · cases ht
                  · split at ht <;> cases ht
              exact hfi2.1.opd (g3.1 htg) g1

/-- a call of the function without the store -/
theorem store_invoke (hA : AttrsOk S P A) (hind : NoIndirect kind P) (Sh : Shape F) (hT : TagsOk V.callee kind F T) {f : Nat} (hF : P f = some F) {m : L.M} (hs : Sound S Q cfg (V.call P d) vs F (V.enter m) addr) (hds : DeadStore V kind A cfg T F x addr W)
    (h : V.invoke (V.call P d) F vs m ≠ .ub) : V.invoke (V.call P d) (F.eraseInst x) vs m = V.invoke (V.call P d) F vs m := by
  obtain ⟨r, ⟨k, hk⟩, hne, he⟩ := Frames.invoke_ends h
  have := store_run Q hA hind Sh hT hF hs hds k 0 (start _ F (V.enter m)) (start _ F (V.enter m)) r rfl (live_entry F) rfl rfl rfl (fun _ _ => rfl) ⟨fun x _ v hv => by (cases hv), rfl⟩ (.inl rfl) hk
  rw [he]
  cases r with
  | ub => exact absurd rfl hne
  | halt h' es => exact Frames.invoke_eq (V := V) (F := F.eraseInst x) ⟨k, this⟩
  | ret v mc es =>
    obtain ⟨mc', h1, h2⟩ := this
    rw [Frames.invoke_eq (V := V) (F := F.eraseInst x) ⟨k, h1⟩]
    have : V.leave m mc' = V.leave m mc := by
      rcases h2 with rfl | ⟨a, h3, h4⟩
      · rfl
      · exact (Q.gone m a mc mc' h3 h4).symm
    simp only [Frames.result, this]

end
end Cmmc.SSA
