import Verif.SSA.AttrMain
import Verif.SSA.Insert
import Verif.SSA.LiveEqns
import Verif.SSA.ReorderMain
/-!
# C87: StoreEliminate (cmmc/Transforms/DCE/StoreEliminate.cpp:45-153): stores that nobody reads
-/
namespace Cmmc.SSA

section
variable {Op C : Type}

/-- what the pass asks other analyses -/
structure SECfg (Op C : Type) where
  /-- `aliasSet.isDistinct` -/
  dist : Opd C → Opd C → Bool
  /-- the operand has a pointer type -/
  isPtr : Opd C → Bool
  /-- `leak.mayRead(call, addr) || leak.mayModify(call, addr)` -/
  leak : Inst Op C → Nat → Bool
  /-- `dom.dominate` -/
  dom : Nat → Nat → Bool

/-- what an instruction after the store means for the search -/
inductive Verdict
  | pass
  | over
  | fail
  deriving DecidableEq

/-- `addr` is a stack allocation -/
def isAlloc (kind : Op → OpKind) (F : Func Op C) : Opd C → Bool
  | .cst _ => false
  | .inst y => F.anyInst (fun i => i.id == y && (match kind i.op with | .alloc => true | _ => false))

/-- a call (l.86-98): with `leak` if the address is an allocation, otherwise the callee must not read -/
def callVerdict (kind : Op → OpKind) (cfg : SECfg Op C) (F : Func Op C) (addr : Opd C) (noRead : Bool) (i : Inst Op C) : Verdict :=
  match addr with
  | .inst y => if isAlloc kind F addr then (if cfg.leak i y then .fail else .pass) else if noRead then .pass else .fail
  | .cst _ => if noRead then .pass else .fail

/-- the chain of cases for an instruction after the store (l.86-117), without terminators -/
def verdict [DecidableEq C] (callee : Op → Option Nat) (kind : Op → OpKind) (A : Nat → Attrs) (cfg : SECfg Op C) (F : Func Op C) (addr : Opd C) (i : Inst Op C) : Verdict :=
  match callee i.op with
  | some g => callVerdict kind cfg F addr (A g).noRead i
  | none =>
    match kind i.op with
    | .ext a => callVerdict kind cfg F addr a.noRead i
    | .indirect => callVerdict kind cfg F addr false i
    | .store => storeVerdict i
    | .atomic => storeVerdict i
    | .load => match i.args[0]? with | some o => if cfg.dist addr o then .pass else .fail | none => .fail
    | _ => .pass
where
  /-- l.99-112; an atomic add to the same address counts as overwriting -/
  storeVerdict (i : Inst Op C) : Verdict :=
    match i.args[0]?, i.args[1]? with
    | some o, some v => if cfg.isPtr v && !cfg.dist addr v then .fail else if o = addr then .over else if cfg.dist addr o then .pass else .fail
    | _, _ => .fail

/-- `maxLookaheadCount` -/
def maxLookahead : Nat := 100

/-- the instructions of a block in order (l.62-117), `n` of them counted before; `true`: overwritten -/
def scan (vd : Inst Op C → Verdict) : List (Inst Op C) → Nat → Option (Bool × Nat)
  | [], n => some (false, n)
  | i :: is, n =>
    if maxLookahead ≤ n + 1 then none
    else
      match vd i with
      | .fail => none
      | .over => some (true, n + 1)
      | .pass => scan vd is (n + 1)

/-- the part of a block after instruction `x` -/
def after (x : Nat) (is : List (Inst Op C)) : List (Inst Op C) := (is.dropWhile (fun i => i.id != x)).drop 1

/-- the address is not computed again (l.70-74) -/
def okTarget (cfg : SECfg Op C) (F : Func Op C) (addr : Opd C) (t : Nat) : Bool :=
  match addr with
  | .cst _ => true
  | .inst y => match F.home y with | none => true | some h => h != t && cfg.dom h t

/-- `isInvisible` (l.46-120): the visited blocks and the number of instructions looked at, if it says yes. `st` is the store, `none` in recursive calls. The first argument bounds the depth of the
recursion; every call counts at least one instruction, so with `maxLookahead + 1` it is never reached -/
def invis (vd : Inst Op C → Verdict) (cfg : SECfg Op C) (T : List Nat) (F : Func Op C) (addr : Opd C) : Nat → Nat → Option Nat → List Nat × Nat → Option (List Nat × Nat)
  | 0, _, _, _ => none
  | fuel + 1, c, st, (vis, n) =>
    match F.blk c with
    | none => none
    | some B =>
      if st = none ∧ c ∈ vis then some (vis, n)
      else
        let vis1 := if st = none then c :: vis else vis
        let is := match st with | none => B.body | some x => after x B.body
        let n0 := n + B.phis.length + (B.body.length - is.length)
        if maxLookahead ≤ n0 then none
        else
          match scan vd is n0 with
          | none => none
          | some (true, n1) => some (vis1, n1)
          | some (false, n1) =>
            if maxLookahead ≤ n1 + 1 then none
            else
              match B.term with
              | .ret _ => if tagOpd T addr then some (vis1, n1 + 1) else none
              | .unreachable => if tagOpd T addr then some (vis1, n1 + 1) else none
              | t => t.targets.foldlM (fun s u => if okTarget cfg F addr u then invis vd cfg T F addr fuel u none s else none) (vis1, n1 + 1)

/-- instruction `x` is removed -/
def Func.eraseInst (F : Func Op C) (x : Nat) : Func Op C := F.mapBlocks (fun _ B => { B with body := B.body.filter (fun i => i.id != x) })

/-- the test of `remove_if` (l.131-138) for instruction `i` of block `b` -/
def storeInvisible [DecidableEq C] (callee : Op → Option Nat) (kind : Op → OpKind) (A : Nat → Attrs) (cfg : SECfg Op C) (T : List Nat) (F : Func Op C) (b : Nat) (i : Inst Op C) : Bool :=
  match callee i.op, kind i.op, i.args[0]? with
  | none, .store, some addr => (invis (verdict callee kind A cfg F addr) cfg T F addr (maxLookahead + 1) b (some i.id) ([], 0)).isSome
  | _, _, _ => false

/-! ## what the search has found -/

/-- the end of a block -/
def TermOk (cfg : SECfg Op C) (T : List Nat) (F : Func Op C) (addr : Opd C) (W : List Nat) (t : Term C) : Prop :=
  (t.targets = [] → tagOpd T addr = true) ∧ ∀ u ∈ t.targets, u ∈ W ∧ okTarget cfg F addr u = true

/-- from here on the old value is not read before it is overwritten -/
def Passes (vd : Inst Op C → Verdict) (cfg : SECfg Op C) (T : List Nat) (F : Func Op C) (addr : Opd C) (W : List Nat) (t : Term C) : List (Inst Op C) → Prop
  | [] => TermOk cfg T F addr W t
  | i :: is =>
    match vd i with
    | .fail => False
    | .over => True
    | .pass => Passes vd cfg T F addr W t is

variable {vd : Inst Op C → Verdict} {cfg : SECfg Op C} {T : List Nat} {F : Func Op C} {addr : Opd C}

theorem TermOk.mono {W W' : List Nat} (h : ∀ z ∈ W, z ∈ W') {t : Term C} (ht : TermOk cfg T F addr W t) : TermOk cfg T F addr W' t :=
  ⟨ht.1, fun u hu => ⟨h u (ht.2 u hu).1, (ht.2 u hu).2⟩⟩

theorem Passes.mono {W W' : List Nat} (h : ∀ z ∈ W, z ∈ W') {t : Term C} : ∀ {is : List (Inst Op C)}, Passes vd cfg T F addr W t is → Passes vd cfg T F addr W' t is
  | [], hp => TermOk.mono h hp
  | i :: is, hp => by
    simp only [Passes] at hp ⊢
    cases hv : vd i with
    | fail => rw [hv] at hp; exact hp
    | over => trivial
    | pass => rw [hv] at hp; exact Passes.mono h hp

theorem scan_passes {W : List Nat} {t : Term C} : ∀ {is : List (Inst Op C)} {n n1 : Nat} {r : Bool}, scan vd is n = some (r, n1) → (r = false → TermOk cfg T F addr W t) → Passes vd cfg T F addr W t is
  | [], n, n1, r, h, ht => by
    simp only [scan, Option.some.injEq, Prod.mk.injEq] at h
    exact ht h.1.symm
  | i :: is, n, n1, r, h, ht => by
    simp only [scan] at h
    split at h
    · cases h
    · simp only [Passes]
      cases hv : vd i with
      | fail => rw [hv] at h; cases h
      | over => trivial
      | pass => rw [hv] at h; exact scan_passes h ht

/-- a block that the search has entered -/
def Entered (vd : Inst Op C → Verdict) (cfg : SECfg Op C) (T : List Nat) (F : Func Op C) (addr : Opd C) (W : List Nat) (z : Nat) : Prop :=
  okTarget cfg F addr z = true ∧ ∃ B, F.blk z = some B ∧ Passes vd cfg T F addr W B.term B.body

theorem invis_targets {fuel : Nat} (ih : ∀ c s s', okTarget cfg F addr c = true → invis vd cfg T F addr fuel c none s = some s' → (∀ z ∈ s.1, z ∈ s'.1) ∧ c ∈ s'.1 ∧ ∀ z ∈ s'.1, z ∉ s.1 → Entered vd cfg T F addr s'.1 z) :
    ∀ (us : List Nat) (s s' : List Nat × Nat), us.foldlM (fun s u => if okTarget cfg F addr u then invis vd cfg T F addr fuel u none s else none) s = some s' →
      (∀ z ∈ s.1, z ∈ s'.1) ∧ (∀ u ∈ us, u ∈ s'.1 ∧ okTarget cfg F addr u = true) ∧ ∀ z ∈ s'.1, z ∉ s.1 → Entered vd cfg T F addr s'.1 z := by
  intro us
  induction us with
  | nil =>
    intro s s' h
    simp only [List.foldlM_nil, Option.pure_def, Option.some.injEq] at h
    subst h
    exact ⟨fun _ h => h, fun u hu => by (cases hu), fun z h1 h2 => absurd h1 h2⟩
  | cons u us ihu =>
    intro s s' h
    simp only [List.foldlM_cons] at h
    by_cases ho : okTarget cfg F addr u = true
    · rw [if_pos ho] at h
      cases hi : invis vd cfg T F addr fuel u none s with
      | none => rw [hi] at h; simp at h
      | some s1 =>
        rw [hi] at h
        simp only [Option.bind_eq_bind, Option.bind_some] at h
        obtain ⟨g1, g2, g3⟩ := ih u s s1 ho hi
        obtain ⟨k1, k2, k3⟩ := ihu s1 s' h
        refine ⟨fun z hz => k1 z (g1 z hz), ?_, ?_⟩
        · intro w hw
          rcases List.mem_cons.1 hw with rfl | hw
          · exact ⟨k1 _ g2, ho⟩
          · exact k2 w hw
        · intro z hz hzs
          by_cases hz1 : z ∈ s1.1
          · obtain ⟨e1, B, hB, e2⟩ := g3 z hz1 hzs
            exact ⟨e1, B, hB, e2.mono k1⟩
          · exact k3 z hz hz1
    · rw [if_neg ho] at h
      simp at h

theorem invis_sound : ∀ (fuel c : Nat) (s s' : List Nat × Nat), okTarget cfg F addr c = true → invis vd cfg T F addr fuel c none s = some s' →
    (∀ z ∈ s.1, z ∈ s'.1) ∧ c ∈ s'.1 ∧ ∀ z ∈ s'.1, z ∉ s.1 → Entered vd cfg T F addr s'.1 z := by
  intro fuel
  induction fuel with
  | zero => intro c s s' _ h; simp [invis] at h
  | succ fuel ih =>
    rintro c ⟨vis, n⟩ ⟨vis', n'⟩ ho h
    simp only [invis] at h
    cases hB : F.blk c with
    | none => rw [hB] at h; cases h
    | some B =>
      rw [hB] at h
      simp only [true_and, if_true] at h
      by_cases hc : c ∈ vis
      · rw [if_pos hc] at h
        simp only [Option.some.injEq, Prod.mk.injEq] at h
        obtain ⟨rfl, rfl⟩ := h
        exact ⟨fun _ h => h, hc, fun z h1 h2 => absurd h1 h2⟩
      · rw [if_neg hc] at h
        split at h
        · cases h
        · cases hs : scan vd B.body (n + B.phis.length + (B.body.length - B.body.length)) with
          | none => rw [hs] at h; cases h
          | some r =>
            obtain ⟨r, n1⟩ := r
            rw [hs] at h
            cases r with
            | true =>
              simp only [Option.some.injEq, Prod.mk.injEq] at h
              obtain ⟨rfl, rfl⟩ := h
              refine ⟨fun z hz => by simp [hz], by simp, ?_⟩
              intro z hz hzn
              have : z = c := (List.mem_cons.1 hz).resolve_right hzn
              subst this
              exact ⟨ho, B, hB, scan_passes hs (fun h => by cases h)⟩
            | false =>
              simp only at h
              split at h
              · cases h
              · have leaf : B.term.targets = [] → (if tagOpd T addr = true then some (c :: vis, n1 + 1) else none) = some (vis', n') →
                    (∀ z ∈ vis, z ∈ vis') ∧ c ∈ vis' ∧ ∀ z ∈ vis', z ∉ vis → Entered vd cfg T F addr vis' z := by
                  intro ht h
                  split at h
                  · rename_i htag
                    simp only [Option.some.injEq, Prod.mk.injEq] at h
                    obtain ⟨rfl, rfl⟩ := h
                    refine ⟨fun z hz => by simp [hz], by simp, ?_⟩
                    intro z hz hzn
                    have : z = c := (List.mem_cons.1 hz).resolve_right hzn
                    subst this
                    exact ⟨ho, B, hB, scan_passes hs (fun _ => ⟨fun _ => htag, fun u hu => by rw [ht] at hu; cases hu⟩)⟩
                  · cases h
                have node : B.term.targets ≠ [] → B.term.targets.foldlM (fun s u => if okTarget cfg F addr u then invis vd cfg T F addr fuel u none s else none) (c :: vis, n1 + 1) = some (vis', n') →
                    (∀ z ∈ vis, z ∈ vis') ∧ c ∈ vis' ∧ ∀ z ∈ vis', z ∉ vis → Entered vd cfg T F addr vis' z := by
                  intro hne h
                  obtain ⟨k1, k2, k3⟩ := invis_targets ih _ _ _ h
                  refine ⟨fun z hz => k1 z (by simp [hz]), k1 c (by simp), ?_⟩
                  intro z hz hzn
                  by_cases hzc : z = c
                  · subst hzc
                    exact ⟨ho, B, hB, scan_passes hs (fun _ => ⟨fun h => absurd h hne, k2⟩)⟩
                  · exact k3 z hz (by simp [hzc, hzn])
                cases htm : B.term with
                | ret v => rw [htm] at h leaf; exact leaf rfl h
                | unreachable => rw [htm] at h leaf; exact leaf rfl h
                | br t => rw [htm] at h node; exact node (by simp [Term.targets]) h
                | cbr cc t f => rw [htm] at h node; exact node (by simp [Term.targets]) h
                | sw cc d cs => rw [htm] at h node; exact node (by simp [Term.targets]) h

/-- what a search from a store has found -/
theorem invis_store {fuel b x : Nat} {s' : List Nat × Nat} (h : invis vd cfg T F addr fuel b (some x) ([], 0) = some s') :
    ∃ B, F.blk b = some B ∧ Passes vd cfg T F addr s'.1 B.term (after x B.body) ∧ ∀ z ∈ s'.1, Entered vd cfg T F addr s'.1 z := by
  cases fuel with
  | zero => simp [invis] at h
  | succ fuel =>
    simp only [invis] at h
    cases hB : F.blk b with
    | none => rw [hB] at h; cases h
    | some B =>
      rw [hB] at h
      simp only [reduceCtorEq, false_and, if_false] at h
      refine ⟨B, rfl, ?_⟩
      split at h
      · cases h
      · cases hs : scan vd (after x B.body) (0 + B.phis.length + (B.body.length - (after x B.body).length)) with
        | none => rw [hs] at h; cases h
        | some r =>
          obtain ⟨r, n1⟩ := r
          rw [hs] at h
          cases r with
          | true =>
            simp only [Option.some.injEq] at h
            subst h
            exact ⟨scan_passes hs (fun h => by cases h), fun z hz => by cases hz⟩
          | false =>
            simp only at h
            split at h
            · cases h
            · obtain ⟨vis', n'⟩ := s'
              have leaf : B.term.targets = [] → (if tagOpd T addr = true then some (([] : List Nat), n1 + 1) else none) = some (vis', n') →
                  Passes vd cfg T F addr vis' B.term (after x B.body) ∧ ∀ z ∈ vis', Entered vd cfg T F addr vis' z := by
                intro ht h
                split at h
                · rename_i htag
                  simp only [Option.some.injEq, Prod.mk.injEq] at h
                  obtain ⟨rfl, rfl⟩ := h
                  exact ⟨scan_passes hs (fun _ => ⟨fun _ => htag, fun u hu => by rw [ht] at hu; cases hu⟩), fun z hz => by cases hz⟩
                · cases h
              have node : B.term.targets ≠ [] → B.term.targets.foldlM (fun s u => if okTarget cfg F addr u then invis vd cfg T F addr fuel u none s else none) ([], n1 + 1) = some (vis', n') →
                  Passes vd cfg T F addr vis' B.term (after x B.body) ∧ ∀ z ∈ vis', Entered vd cfg T F addr vis' z := by
                intro hne h
                obtain ⟨k1, k2, k3⟩ := invis_targets (fun c s s' ho h => invis_sound fuel c s s' ho h) _ _ _ h
                exact ⟨scan_passes hs (fun _ => ⟨fun h => absurd h hne, k2⟩), fun z hz => k3 z hz (by simp)⟩
              cases htm : B.term with
              | ret v => rw [htm] at h leaf; exact leaf rfl h
              | unreachable => rw [htm] at h leaf; exact leaf rfl h
              | br t => rw [htm] at h node; exact node (by simp [Term.targets]) h
              | cbr cc t f => rw [htm] at h node; exact node (by simp [Term.targets]) h
              | sw cc d cs => rw [htm] at h node; exact node (by simp [Term.targets]) h

end
end Cmmc.SSA
