import Verif.Fe.EmitMono
import Verif.Fe.Conv
/-!
# Running emitted code: program points, pure instructions
-/
namespace Cmmc.Fe
open Cmmc

/-- everything that stays fixed while one function runs: signatures, the two meanings of calls, the finished builder state -/
structure Cfg (X : Ext) where
  sigs : Sigs
  P : Wd
  hP : 32 ≤ P.bits
  sc : Calls X
  tc : Calls X
  args : List Nat
  fb : SSA.Term Cst
  Fc : Ctx
  /-- an invariant of the world: constant globals keep their values -/
  inv : X.World → Prop
  consts : String → Option (Wd × Nat)
  ref : ∀ f ns w, inv w → sc f ns w ≠ .ub → tc f ns w = sc f ns w
  icall : ∀ f ns w n w' es, inv w → sc f ns w = .ok n w' es → inv w'
  iwr : ∀ w g off n w', inv w → consts g = none → X.wr w g off n = some w' → inv w'
  ird : ∀ w g wd n n', inv w → consts g = some (wd, n) → X.rd w g 0 = some n' → n' % 2 ^ wd.bits = n

section
variable {X : Ext} (K : Cfg X)

abbrev Cfg.L : SSA.Lang := irL K.tc K.args

def Cfg.brun (n : Nat) (s : PS X) : PS X ⊕ SSA.Beh K.L := Fe.brun K.tc K.args K.fb K.Fc.full n s

/-- the insert point of `c` in the finished function -/
def Cfg.pt (c : Ctx) (pred : Option Nat) (env : Env) (m : Mem X) (tr : List X.E) : PS X :=
  ⟨c.cur, (K.Fc.code c.cur).drop (c.code c.cur).length, pred, env, m, tr⟩

/-- the beginning of block `b` -/
def Cfg.bdry (b : Nat) (pred : Option Nat) (env : Env) (m : Mem X) (tr : List X.E) : PS X :=
  ⟨b, (K.Fc.full b).getD [.term .unreachable], pred, env, m, tr⟩

/-- `s'` is reached from `s` by `k` jumps and some straight-line code -/
def Cfg.Leads (k : Nat) (s s' : PS X) : Prop := ∀ n, K.brun (n + 1 + k) s = K.brun (n + 1) s'

variable {K}

theorem brun_add : ∀ (a b : Nat) (s : PS X), K.brun (a + b) s =
    match K.brun a s with
    | .inl s' => K.brun b s'
    | .inr r => .inr r := by
  intro a
  induction a with
  | zero => intro b s; simp [Cfg.brun, Fe.brun]
  | succ a ih =>
    intro b s
    rw [Nat.succ_add]
    simp only [Cfg.brun, Fe.brun]
    rcases runCode K.tc K.args K.fb s.b s.rest s.pred s.env s.m s.tr with t | r
    · exact ih b _
    · rfl

theorem Leads.refl (s : PS X) : K.Leads 0 s s := fun _ => rfl

theorem Leads.trans {k k' : Nat} {s s' s'' : PS X} (h : K.Leads k s s') (h' : K.Leads k' s' s'') : K.Leads (k' + k) s s'' := by
  intro n
  have h1 := h (n + k')
  rw [show n + 1 + (k' + k) = n + k' + 1 + k by omega, h1, show n + k' + 1 = n + 1 + k' by omega, h' n]

theorem leads_of_run {k : Nat} {s s' : PS X} (h : K.brun k s = .inl s') : K.Leads k s s' := by
  intro n
  rw [Nat.add_comm, brun_add, h]

theorem Leads.run {k n : Nat} {s s' : PS X} {r : PS X ⊕ SSA.Beh K.L} (h : K.Leads k s s') (hn : 0 < n) (h' : K.brun n s' = r) :
    K.brun (n + k) s = r := by
  obtain ⟨m, rfl⟩ : ∃ m, n = m + 1 := ⟨n - 1, by omega⟩
  rw [h m, h']

theorem brun_pos {n : Nat} {s : PS X} {b : SSA.Beh K.L} (h : K.brun n s = .inr b) : 0 < n := by
  cases n with
  | zero => simp [Cfg.brun, Fe.brun] at h
  | succ n => omega

theorem pt_congr {c c' : Ctx} (hc : c.cur = c'.cur) (h : c.code c.cur = c'.code c.cur) (pred : Option Nat) (env : Env) (m : Mem X)
    (tr : List X.E) : K.pt c pred env m tr = K.pt c' pred env m tr := by
  unfold Cfg.pt
  rw [← hc, h]

theorem pt_rest {c c' : Ctx} {r : Raw} (hc : c'.cur = c.cur) (h : c'.code c.cur = c.code c.cur ++ [r]) (he : Ext' c' K.Fc) :
    (K.Fc.code c.cur).drop (c.code c.cur).length = r :: (K.Fc.code c'.cur).drop (c'.code c'.cur).length := by
  rw [hc, h]
  obtain ⟨t, ht⟩ := he.code c.cur
  rw [← ht, h]
  simp

theorem evals_one {env : Env} {o : Opd} {v : V} (h : SSA.eval K.L env o = some v) : SSA.evals K.L env [o] = some [v] := by
  simp only [SSA.evals, h]; rfl

theorem evals_two {env : Env} {o o' : Opd} {v v' : V} (h : SSA.eval K.L env o = some v) (h' : SSA.eval K.L env o' = some v') :
    SSA.evals K.L env [o, o'] = some [v, v'] := by
  simp only [SSA.evals, h, h']; rfl

/-- one instruction -/
theorem lead_op {c : Ctx} {o : Op} {as : List Opd} (he : Ext' (c.op o as).2 K.Fc) {env : Env} {vs : List V} {m m' : Mem X} {v : V}
    {es : List X.E} (ha : SSA.evals K.L env as = some vs) (hs : irSem K.tc o vs m = .ok v m' es) (pred : Option Nat) (tr : List X.E) :
    K.Leads 0 (K.pt c pred env m tr) (K.pt (c.op o as).2 pred (SSA.setEnv K.L env (2 * c.nv + 1) v) m' (tr ++ es)) := by
  intro n
  have hr := pt_rest (c := c) (c' := (c.op o as).2) (r := .inst ⟨2 * c.nv + 1, o, as⟩) rfl (by simp [Ctx.op, Ctx.push]) he
  simp only [Cfg.brun, Fe.brun, Cfg.pt, hr, runCode]
  have ha' : SSA.evals (irL K.tc K.args) env as = some vs := ha
  simp only [ha', hs]
  rfl

theorem halt_op {c : Ctx} {o : Op} {as : List Opd} (he : Ext' (c.op o as).2 K.Fc) {env : Env} {vs : List V} {m : Mem X} {h : X.H}
    {es : List X.E} (ha : SSA.evals K.L env as = some vs) (hs : irSem K.tc o vs m = .halt es h) (pred : Option Nat) (tr : List X.E) :
    K.brun 1 (K.pt c pred env m tr) = .inr (.halt h (tr ++ es)) := by
  have hr := pt_rest (c := c) (c' := (c.op o as).2) (r := .inst ⟨2 * c.nv + 1, o, as⟩) rfl (by simp [Ctx.op, Ctx.push]) he
  simp only [Cfg.brun, Fe.brun, Cfg.pt, hr, runCode]
  have ha' : SSA.evals (irL K.tc K.args) env as = some vs := ha
  simp only [ha', hs]

theorem lead_phi {c c' : Ctx} {inc : List (Nat × Opd)} {o : Opd} (h : c.phi inc = some (o, c')) (he : Ext' c' K.Fc) {env : Env} {v : V}
    {p : Nat} {x : Opd} (hx : inc.find? (fun e => e.1 == p) = some (p, x)) (hv : SSA.eval K.L env x = some v) (m : Mem X)
    (tr : List X.E) :
    o = .inst (2 * c.nv + 1) ∧ c'.nv = c.nv + 1 ∧
    K.Leads 0 (K.pt c (some p) env m tr) (K.pt c' (some p) (SSA.setEnv K.L env (2 * c.nv + 1) v) m tr) := by
  unfold Ctx.phi at h
  split at h
  · simp only [Option.some.injEq, Prod.mk.injEq] at h
    obtain ⟨rfl, rfl⟩ := h
    refine ⟨rfl, rfl, ?_⟩
    intro n
    have hr := pt_rest (c := c) (c' := { c.push (.phi ⟨2 * c.nv + 1, inc⟩) with nv := c.nv + 1 }) (r := .phi ⟨2 * c.nv + 1, inc⟩) rfl
      (by simp [Ctx.push]) he
    have hp : SSA.phiVal (irL K.tc K.args) (some p) env (⟨2 * c.nv + 1, inc⟩ : SSA.Phi Cst) = some v := by
      simp only [SSA.phiVal, SSA.Phi.at]
      have hx' : List.find? (fun (e : Nat × SSA.Opd (irL K.tc K.args).C) => e.1 == p) inc = some (p, x) := hx
      rw [hx']
      exact hv
    simp only [Cfg.brun, Fe.brun, Cfg.pt, hr, runCode]
    simp only [hp]
    rfl
  · cases h

/-- a jump -/
theorem goto_term {c : Ctx} {t : SSA.Term Cst} (he : Ext' (c.term t) K.Fc) {env : Env} {b : Nat} (h : SSA.evalTerm K.L env t = .goto b)
    (pred : Option Nat) (m : Mem X) (tr : List X.E) :
    K.brun 1 (K.pt c pred env m tr) = .inl (K.bdry b (some c.cur) env m tr) := by
  have hr := pt_rest (c := c) (c' := c.term t) (r := .term t) rfl (by simp [Ctx.term, Ctx.push]) he
  have h' : SSA.evalTerm (irL K.tc K.args) env t = .goto b := h
  simp only [Cfg.brun, Fe.brun, Cfg.pt, hr, runCode, h', Cfg.bdry]

theorem ret_term {c : Ctx} {t : SSA.Term Cst} (he : Ext' (c.term t) K.Fc) {env : Env} {v : Option V} (h : SSA.evalTerm K.L env t = .ret v)
    (pred : Option Nat) (m : Mem X) (tr : List X.E) :
    K.brun 1 (K.pt c pred env m tr) = .inr (.ret v m tr) := by
  have hr := pt_rest (c := c) (c' := c.term t) (r := .term t) rfl (by simp [Ctx.term, Ctx.push]) he
  have h' : SSA.evalTerm (irL K.tc K.args) env t = .ret v := h
  simp only [Cfg.brun, Fe.brun, Cfg.pt, hr, runCode, h']

theorem bdry_pt {c : Ctx} (h0 : c.cur ≠ 0) (hn : c.cur < K.Fc.nb) (hc : c.code c.cur = []) (pred : Option Nat) (env : Env) (m : Mem X)
    (tr : List X.E) : K.bdry c.cur pred env m tr = K.pt c pred env m tr := by
  simp [Cfg.bdry, Cfg.pt, Ctx.full, h0, hn, hc]

/-! ## values -/

/-- the names below `nv` and the stack slots keep their values -/
def Agree (nv : Nat) (env env' : Env) : Prop := ∀ i, (i % 2 = 0 ∨ i < 2 * nv) → env' i = env i

theorem Agree.refl (nv : Nat) (env : Env) : Agree nv env env := fun _ _ => rfl
theorem Agree.trans {n n' : Nat} {a b c : Env} (h : Agree n a b) (h' : Agree n' b c) (hn : n ≤ n') : Agree n a c := by
  intro i hi
  rw [h' i (by omega), h i hi]
theorem Agree.mono {n n' : Nat} {a b : Env} (h : Agree n' a b) (hn : n ≤ n') : Agree n a b := fun i hi => h i (by omega)
theorem Agree.set (nv : Nat) (env : Env) (v : V) : Agree nv env (SSA.setEnv K.L env (2 * nv + 1) v) := by
  intro i hi
  have : i ≠ 2 * nv + 1 := by omega
  simp [SSA.setEnv, this]

/-- the operand has the value `v` of type `t` -/
structure RRel (nv : Nat) (env : Env) (o : Opd) (t : IT) (v : Int) : Prop where
  has : t.has v = true
  val : o = .cst (.int t.w.bits (raw t.w v)) ∨ ∃ j, j < nv ∧ o = .inst (2 * j + 1) ∧ env (2 * j + 1) = some (.int (raw t.w v))

/-- the operand is the truth value `b` -/
structure BRel (nv : Nat) (env : Env) (o : Opd) (b : Bool) : Prop where
  val : ∃ j, j < nv ∧ o = .inst (2 * j + 1) ∧ env (2 * j + 1) = some (.int b.toNat)

theorem RRel.agree {nv nv' : Nat} {env env' : Env} {o : Opd} {t : IT} {v : Int} (h : RRel nv env o t v) (ha : Agree nv env env') (hn : nv ≤ nv') :
    RRel nv' env' o t v := by
  refine ⟨h.has, h.val.imp id ?_⟩
  rintro ⟨j, hj, ho, hv⟩
  exact ⟨j, by omega, ho, by rw [ha _ (by omega)]; exact hv⟩

theorem BRel.agree {nv nv' : Nat} {env env' : Env} {o : Opd} {b : Bool} (h : BRel nv env o b) (ha : Agree nv env env') (hn : nv ≤ nv') :
    BRel nv' env' o b := by
  obtain ⟨j, hj, ho, hv⟩ := h.val
  exact ⟨j, by omega, ho, by rw [ha _ (by omega)]; exact hv⟩

theorem RRel.eval {nv : Nat} {env : Env} {o : Opd} {t : IT} {v : Int} (h : RRel nv env o t v) :
    SSA.eval K.L env o = some (.int (raw t.w v)) := by
  rcases h.val with rfl | ⟨j, _, rfl, hv⟩
  · rfl
  · exact hv

theorem BRel.eval {nv : Nat} {env : Env} {o : Opd} {b : Bool} (h : BRel nv env o b) : SSA.eval K.L env o = some (.int b.toNat) := by
  obtain ⟨j, _, rfl, hv⟩ := h.val
  exact hv

/-- the new instruction's value -/
theorem RRel.new {nv : Nat} {env : Env} {t : IT} {v : Int} (h : t.has v = true) :
    RRel (nv + 1) (SSA.setEnv K.L env (2 * nv + 1) (.int (raw t.w v))) (.inst (2 * nv + 1)) t v :=
  ⟨h, Or.inr ⟨nv, by omega, rfl, by simp [SSA.setEnv]; rfl⟩⟩

theorem BRel.new {nv : Nat} {env : Env} {b : Bool} :
    BRel (nv + 1) (SSA.setEnv K.L env (2 * nv + 1) (.int b.toNat)) (.inst (2 * nv + 1)) b :=
  ⟨nv, by omega, rfl, by simp [SSA.setEnv]; rfl⟩

theorem evalTerm_cbr {nv : Nat} {env : Env} {o : Opd} {b : Bool} (h : BRel nv env o b) (t f : Nat) :
    SSA.evalTerm K.L env (.cbr o t f) = .goto (if b then t else f) := by
  have : (SSA.eval K.L env o).bind K.L.truth = some b := by
    rw [h.eval]; cases b <;> rfl
  simp only [SSA.evalTerm]
  rw [this]
  cases b <;> rfl

/-! ## instructions without effect on memory -/

variable (K)

/-- `c` to `c'` is straight-line code that only computes -/
def Cfg.Step (c c' : Ctx) (env : Env) (R : Env → Prop) : Prop :=
  ∃ env', Agree c.nv env env' ∧ R env' ∧ ∀ pred m tr, K.Leads 0 (K.pt c pred env m tr) (K.pt c' pred env' m tr)

variable {K}

theorem Step.refl {c : Ctx} {env : Env} {R : Env → Prop} (h : R env) : K.Step c c env R := ⟨env, Agree.refl _ _, h, fun _ _ _ => Leads.refl _⟩

theorem Step.trans {c c1 c2 : Ctx} {env : Env} {R1 R2 : Env → Prop} (h : K.Step c c1 env R1) (hn : c.nv ≤ c1.nv)
    (h' : ∀ env1, Agree c.nv env env1 → R1 env1 → K.Step c1 c2 env1 R2) : K.Step c c2 env R2 := by
  obtain ⟨env1, ha, hr, hl⟩ := h
  obtain ⟨env2, ha2, hr2, hl2⟩ := h' env1 ha hr
  exact ⟨env2, ha.trans ha2 hn, hr2, fun pred m tr => Leads.trans (hl pred m tr) (hl2 pred m tr)⟩

theorem Step.imp {c c1 : Ctx} {env : Env} {R1 R2 : Env → Prop} (h : K.Step c c1 env R1) (hi : ∀ e, R1 e → R2 e) : K.Step c c1 env R2 := by
  obtain ⟨e, ha, hr, hl⟩ := h
  exact ⟨e, ha, hi e hr, hl⟩

/-- a pure instruction -/
theorem step_op {c : Ctx} {o : Op} {as : List Opd} (he : Ext' (c.op o as).2 K.Fc) {env : Env} {vs : List V} {v : V}
    (ha : SSA.evals K.L env as = some vs) (hs : ∀ m : Mem X, irSem K.tc o vs m = .ok v m []) {R : Env → Prop}
    (hR : R (SSA.setEnv K.L env (2 * c.nv + 1) v)) : K.Step c (c.op o as).2 env R := by
  refine ⟨_, Agree.set _ _ _, hR, fun pred m tr => ?_⟩
  have := lead_op he ha (hs m) pred tr
  simpa using this

theorem step_cint {nv : Nat} {env : Env} {t : IT} (r v : Int) (h : raw t.w r = raw t.w v) (hv : t.has v = true) :
    RRel nv env (cint t.w r) t v := ⟨hv, Or.inl (by unfold cint; rw [h])⟩

theorem convertTo_op {c : Ctx} {o : Opd} {s d : IT} (hnc : ∀ w n, o ≠ .cst (.int w n)) (hsd : s ≠ d) : convertTo c o s d =
    if s.w.bits / 8 < d.w.bits / 8 then c.op (.cast (if s.sg then .sext else .zext) s.w.bits d.w.bits) [o]
    else c.op (.cast (if d.sg then .strunc else .ztrunc) s.w.bits d.w.bits) [o] := by
  unfold convertTo
  rw [if_neg (by rintro ⟨h1, h2⟩; rcases s with ⟨a, b⟩; rcases d with ⟨a', b'⟩; simp_all)]
  split
  · rename_i w n; exact absurd rfl (hnc w n)
  · rfl

theorem step_convertTo {c : Ctx} {o : Opd} {s d : IT} {env : Env} {v : Int} (he : Ext' (convertTo c o s d).2 K.Fc)
    (h : RRel c.nv env o s v) :
    K.Step c (convertTo c o s d).2 env (fun e => RRel (convertTo c o s d).2.nv e (convertTo c o s d).1 d (conv d v)) := by
  by_cases hsd : s = d
  · subst hsd
    have : convertTo c o s s = (o, c) := by simp [convertTo]
    rw [this]
    apply Step.refl
    rw [conv_of_has h.has]; exact h
  · by_cases hnc : ∃ w n, o = .cst (.int w n)
    · obtain ⟨w, n, rfl⟩ := hnc
      have : convertTo c (.cst (.int w n)) s d = (cint d.w (if s.sg then sx w n else n), c) := by
        unfold convertTo
        rw [if_neg (by rintro ⟨h1, h2⟩; rcases s with ⟨a, b⟩; rcases d with ⟨a', b'⟩; simp_all)]
      rw [this]
      apply Step.refl
      rcases h.val with ho | ⟨j, _, ho, _⟩
      · simp only [SSA.Opd.cst.injEq, Cst.int.injEq] at ho
        obtain ⟨rfl, rfl⟩ := ho
        refine step_cint _ _ ?_ (conv_has _ _)
        rw [cval_raw h.has, raw_conv]
      · cases ho
    · have hnc : ∀ w n, o ≠ .cst (.int w n) := fun w n e => hnc ⟨w, n, e⟩
      have ha := evals_one (K := K) (h.eval (K := K))
      have heq := convertTo_op (c := c) hnc hsd
      by_cases hw : s.w.bits / 8 < d.w.bits / 8
      · rw [if_pos hw] at heq
        rw [heq] at he ⊢
        refine step_op he ha (v := .int (raw d.w (conv d v))) (fun m => ?_) (RRel.new (conv_has _ _))
        simp only [irSem, ofNat_raw, ext_ok h.has (Wd.bytes_lt.1 hw), raw_conv]
      · rw [if_neg hw] at heq
        rw [heq] at he ⊢
        have hw' : d.w.bits ≤ s.w.bits := by
          have := mt Wd.bytes_lt.2 hw; omega
        refine step_op he ha (v := .int (raw d.w (conv d v))) (fun m => ?_) (RRel.new (conv_has _ _))
        simp only [irSem, ofNat_raw, trunc_ok d.sg v hw', raw_conv]

theorem step_toBool {c : Ctx} {o : Opd} {t : IT} {env : Env} {v : Int} (he : Ext' (toBool c o t).2 K.Fc) (h : RRel c.nv env o t v) :
    K.Step c (toBool c o t).2 env (fun e => BRel (toBool c o t).2.nv e (toBool c o t).1 (decide (v ≠ 0))) := by
  have hz : RRel c.nv env (cint t.w 0) t 0 := step_cint _ _ rfl (zero_has t)
  have ha := evals_two (K := K) (h.eval (K := K)) (hz.eval (K := K))
  refine step_op he ha (v := .int (decide (v ≠ 0)).toNat) (fun m => ?_) BRel.new
  have : binop .ne t v 0 = some (b2i (v ≠ 0)) := rfl
  have h1 := cmp_ok h.has (zero_has t) this rfl
  have h2 : IR.cmpVal .ne (BitVec.ofInt t.w.bits v) (BitVec.ofInt t.w.bits 0) = decide (v ≠ 0) := by
    revert h1
    simp only [getCompareOp]
    cases IR.cmpVal .ne (BitVec.ofInt t.w.bits v) (BitVec.ofInt t.w.bits 0) <;> cases decide (v ≠ 0) <;> simp [b2i]
  simp only [irSem, ofNat_raw, h2]

theorem step_boolToInt {c : Ctx} {o : Opd} {env : Env} {b : Bool} (he : Ext' (boolToInt c o).2 K.Fc) (h : BRel c.nv env o b) :
    K.Step c (boolToInt c o).2 env (fun e => RRel (boolToInt c o).2.nv e (boolToInt c o).1 .int (b2i b)) := by
  have ha := evals_one (K := K) (h.eval (K := K))
  refine step_op he ha (v := .int (raw .w32 (b2i b))) (fun m => ?_) (RRel.new (t := .int) (b2i_has b))
  cases b <;> rfl

theorem fold_some {op : BOp} {t : IT} {l r o : Opd} (h : foldBin op t l r = some o) :
    ∃ wl nl wr nr x, l = .cst (.int wl nl) ∧ r = .cst (.int wr nr) ∧
      evaluateOp op (if t.sg then sx wl nl else nl) (if t.sg then sx wr nr else nr) = some x ∧ o = cint t.w x := by
  unfold foldBin at h
  split at h
  · rename_i wl nl wr nr
    simp only [Option.map_eq_some_iff] at h
    obtain ⟨x, hx, rfl⟩ := h
    exact ⟨wl, nl, wr, nr, x, rfl, rfl, hx, rfl⟩
  · cases h

theorem RRel.cst {nv : Nat} {env : Env} {t : IT} {v : Int} {w n : Nat} (h : RRel nv env (.cst (.int w n)) t v) : w = t.w.bits ∧ n = raw t.w v := by
  rcases h.val with ho | ⟨j, _, ho, _⟩
  · simpa using ho
  · cases ho

theorem getBinaryOp_none {op : BOp} {sg : Bool} (h : getBinaryOp op sg = none) : op.isCmp = true := by
  cases op <;> simp [getBinaryOp] at h <;> rfl

theorem getBinaryOp_some {op : BOp} {sg : Bool} {bo : IR.BinOp} (h : getBinaryOp op sg = some bo) : op.isCmp = false := by
  cases op <;> simp [getBinaryOp] at h <;> rfl

theorem step_makeBinaryOp {c : Ctx} {op : BOp} {t : IT} {l r : Opd} {env : Env} {x y v : Int} (he : Ext' (makeBinaryOp c op t l r).2 K.Fc)
    (hl : RRel c.nv env l t x) (hr : RRel c.nv env r t y) (h : binop op t x y = some v) :
    K.Step c (makeBinaryOp c op t l r).2 env
      (fun e => RRel (makeBinaryOp c op t l r).2.nv e (makeBinaryOp c op t l r).1 (if op.isCmp then .int else t) v) := by
  have ha := evals_two (K := K) (hl.eval (K := K)) (hr.eval (K := K))
  unfold makeBinaryOp at he ⊢
  rcases hf : foldBin op t l r with _ | o
  · simp only [hf] at he ⊢
    rcases hb : getBinaryOp op t.sg with _ | bo
    · simp only [hb] at he ⊢
      have hc := cmp_ok hl.has hr.has h hb
      refine Step.trans (R1 := fun e => BRel (c.nv + 1) e (.inst (2 * c.nv + 1))
          (IR.cmpVal (getCompareOp op t.sg) (BitVec.ofInt t.w.bits x) (BitVec.ofInt t.w.bits y)))
        (step_op ((em_op _ _ _).mono.toExt'.trans he) ha
        (v := .int (IR.cmpVal (getCompareOp op t.sg) (BitVec.ofInt t.w.bits x) (BitVec.ofInt t.w.bits y)).toNat) (fun m => ?_) BRel.new)
        (Nat.le_succ _) (fun env1 _ hb1 => ?_)
      · simp only [irSem, ofNat_raw]
      · refine (step_boolToInt he hb1).imp (fun e hR => ?_)
        rw [getBinaryOp_none hb, if_pos rfl, hc]
        exact hR
    · simp only [hb] at he ⊢
      obtain ⟨h1, h2, h3⟩ := bin_ok hl.has hr.has h hb
      refine step_op he ha (v := .int (raw t.w v)) (fun m => ?_) ?_
      · simp only [irSem, ofNat_raw, h1, if_true, h2]
      · rw [getBinaryOp_some hb]
        exact RRel.new h3
  · simp only [hf] at he ⊢
    apply Step.refl
    obtain ⟨wl, nl, wr, nr, z, rfl, rfl, hz, rfl⟩ := fold_some hf
    obtain ⟨rfl, rfl⟩ := hl.cst
    obtain ⟨rfl, rfl⟩ := hr.cst
    rw [cval_raw hl.has, cval_raw hr.has] at hz
    obtain ⟨h1, h2⟩ := eval_ok hl.has hr.has h hz
    have : op.isCmp = false := by cases op <;> simp [evaluateOp] at hz <;> rfl
    rw [this]
    exact step_cint _ _ h1 h2

theorem emitArith_ty (c : Ctx) (op : BOp) (l : Opd) (lt : IT) (r : Opd) (rt : IT) : (emitArith c op l lt r rt).2.1 = resTy op lt rt := by
  simp only [emitArith, resTy, implicitTarget_some, IT.int]

theorem step_emitArith {c : Ctx} {op : BOp} {l r : Opd} {lt rt : IT} {env : Env} {x y v : Int}
    (he : Ext' (emitArith c op l lt r rt).2.2 K.Fc) (hl : RRel c.nv env l lt x) (hr : RRel c.nv env r rt y)
    (h : binary op lt x rt y = some v) :
    K.Step c (emitArith c op l lt r rt).2.2 env
      (fun e => RRel (emitArith c op l lt r rt).2.2.nv e (emitArith c op l lt r rt).1 (resTy op lt rt) v) := by
  have ht := implicitTarget_some op lt rt
  unfold emitArith at he ⊢
  simp only [ht] at he ⊢
  have hbin : binop op (opTy op lt rt) (conv (opTy op lt rt) x) (conv (opTy op lt rt) y) = some v := by
    unfold binary at h
    dsimp only at h
    by_cases hsh : op.isShift = true
    · simp only [hsh, if_true] at h
      have hy : 0 ≤ y ∧ y < (opTy op lt rt).w.bits := by
        cases op <;> simp [BOp.isShift] at hsh
        · simp only [binop] at h
          split at h
          · assumption
          · cases h
        · simp only [binop] at h
          split at h
          · assumption
          · cases h
      have hb := (opTy op lt rt).w.bits_le
      rw [conv_of_has (small_has _ hy.1 (by omega))]
      exact h
    · simp only [Bool.not_eq_true] at hsh
      simpa only [hsh, Bool.false_eq_true, if_false] using h
  have e1 := em_convertTo c l lt (opTy op lt rt)
  have e2 := em_convertTo (convertTo c l lt (opTy op lt rt)).2 r rt (opTy op lt rt)
  have e3 := em_makeBinaryOp (convertTo (convertTo c l lt (opTy op lt rt)).2 r rt (opTy op lt rt)).2 op (opTy op lt rt)
    (convertTo c l lt (opTy op lt rt)).1 (convertTo (convertTo c l lt (opTy op lt rt)).2 r rt (opTy op lt rt)).1
  have x2 := e3.toExt'.trans he
  have x1 := e2.toExt'.trans x2
  refine Step.trans (step_convertTo x1 hl) e1.nv (fun env1 ha1 h1 => ?_)
  refine Step.trans (step_convertTo x2 (hr.agree ha1 e1.nv)) e2.nv (fun env2 ha2 h2 => ?_)
  exact (step_makeBinaryOp he (h1.agree ha2 e2.nv) h2 hbin).imp (fun e hR => by
    unfold resTy; exact hR)

theorem neg_emod_congr {a b n : Int} (h : a % n = b % n) : (-a) % n = (-b) % n := by
  rw [Int.emod_eq_emod_iff_emod_sub_eq_zero] at h ⊢
  have : -a - -b = -(a - b) := by omega
  rw [this]
  exact Int.emod_eq_zero_of_dvd (Int.dvd_neg.2 (Int.dvd_of_emod_eq_zero h))

theorem emitUn_ty (c : Ctx) (op : UOp) (o : Opd) (t : IT) : (emitUn c op o t).2.1 = unTy op t := by
  unfold emitUn
  dsimp only
  split <;> simp [unTy, applyPromotion_eq, IT.int]

theorem step_emitUn {c : Ctx} {op : UOp} {o : Opd} {t : IT} {env : Env} {x v : Int}
    (he : Ext' (emitUn c op o t).2.2 K.Fc) (ho : RRel c.nv env o t x) (h : unary op t x = some v) :
    K.Step c (emitUn c op o t).2.2 env (fun e => RRel (emitUn c op o t).2.2.nv e (emitUn c op o t).1 (unTy op t) v) := by
  have hE : EM c (if t.w.bits / 8 < 4 then convertTo c o t (applyPromotion t) else (o, c)).2 := by
    split
    · exact em_convertTo _ _ _ _
    · exact EM.refl c
  have hS : ∀ (he : Ext' (if t.w.bits / 8 < 4 then convertTo c o t (applyPromotion t) else (o, c)).2 K.Fc),
      K.Step c (if t.w.bits / 8 < 4 then convertTo c o t (applyPromotion t) else (o, c)).2 env
        (fun e => RRel (if t.w.bits / 8 < 4 then convertTo c o t (applyPromotion t) else (o, c)).2.nv e
          (if t.w.bits / 8 < 4 then convertTo c o t (applyPromotion t) else (o, c)).1 (promote t) x) := by
    intro he
    rw [← applyPromotion_eq]
    split
    · rename_i hw
      rw [if_pos hw] at he
      have := step_convertTo he ho
      rwa [conv_of_has (by rw [applyPromotion_eq]; exact promote_has ho.has)] at this
    · rename_i hw
      apply Step.refl
      have : applyPromotion t = t := by simp [applyPromotion, hw]
      rw [this]; exact ho
  unfold emitUn at he ⊢
  dsimp only at he ⊢
  generalize (if t.w.bits / 8 < 4 then convertTo c o t (applyPromotion t) else (o, c)) = p at *
  rcases p with ⟨o1, c1⟩
  dsimp only at *
  rw [applyPromotion_eq] at *
  have hx1 : Ext' c1 K.Fc := by
    refine Ext'.trans ?_ he
    split
    · exact Ext'.refl _
    · exact Ext'.refl _
    · exact (em_op _ _ _).toExt'
    · exact Ext'.refl _
    · exact (em_op _ _ _).toExt'
    · exact (((em_op _ _ _).trans (em_op _ _ _)).trans (em_op _ _ _)).toExt'
  obtain ⟨env1, ha1, hR1, hl1⟩ := hS hx1
  have hev := evals_one (K := K) (hR1.eval (K := K))
  have hph := promote_has ho.has
  -- the part after the promotion
  refine Step.trans (R1 := fun e => e = env1) ⟨env1, ha1, rfl, hl1⟩ hE.nv (fun e _ hr => ?_)
  rw [hr]
  cases op with
  | neg =>
    have h' : arith (promote t) (-x) = some v := h
    obtain ⟨h1, h2⟩ := arith_some h'
    rcases hR1.val with rfl | ⟨j, hj, rfl, hv⟩
    · refine Step.refl (step_cint _ _ ?_ h2)
      rw [← h1]
      apply raw_congr
      have := sx_emod (promote t).w x
      exact (neg_emod_congr this)
    · refine step_op he hev (v := .int (raw (promote t).w v)) (fun m => ?_) (RRel.new h2)
      simp only [irSem, ofNat_raw, ← BitVec.ofInt_neg, toNat_ofInt, h1]
  | bnot =>
    have hv : v = conv (promote t) (-x - 1) := by simp only [unary, Option.some.injEq] at h; exact h.symm
    have hm1 : SSA.eval K.L env1 (cint (promote t).w (-1)) = some (.int (raw (promote t).w (-1))) := rfl
    have hev2 := evals_two (hR1.eval (K := K)) hm1
    have hcase : K.Step c1 (c1.op (.bin .xor (promote t).w.bits) [o1, cint (promote t).w (-1)]).2 env1
        (fun e => RRel (c1.nv + 1) e (.inst (2 * c1.nv + 1)) (promote t) v) := by
      refine step_op ?_ hev2 (v := .int (raw (promote t).w v)) (fun m => ?_) (RRel.new (by rw [hv]; exact conv_has _ _))
      · rcases hR1.val with rfl | ⟨j, hj, rfl, _⟩ <;> exact he
      · have hx : (BitVec.ofInt (promote t).w.bits x) ^^^ (BitVec.ofInt (promote t).w.bits (-1)) = BitVec.ofInt _ (-x - 1) := by
          have e1 : BitVec.ofInt (promote t).w.bits (-1) = BitVec.allOnes _ := by
            rw [BitVec.ofInt_neg]; exact (BitVec.neg_one_eq_allOnes)
          rw [e1, BitVec.xor_allOnes, BitVec.not_eq_neg_add]
          rw [BitVec.sub_eq_add_neg, Int.sub_eq_add_neg, BitVec.ofInt_add, BitVec.ofInt_neg, BitVec.ofInt_neg]
          rfl
        simp only [irSem, IR.binDef, if_true, IR.binVal, ofNat_raw, hx, toNat_ofInt, hv, raw_conv]
    rcases hR1.val with rfl | ⟨j, hj, rfl, _⟩ <;> exact hcase
  | lnot =>
    have hv : v = b2i (x = 0) := by simp only [unary, Option.some.injEq] at h; exact h.symm
    have hcase : ∀ he : Ext' (boolToInt ((toBool c1 o1 (promote t)).2.op (.bin .xor 1) [(toBool c1 o1 (promote t)).1, .cst (.int 1 1)]).2
          ((toBool c1 o1 (promote t)).2.op (.bin .xor 1) [(toBool c1 o1 (promote t)).1, .cst (.int 1 1)]).1).2 K.Fc,
        K.Step c1 (boolToInt ((toBool c1 o1 (promote t)).2.op (.bin .xor 1) [(toBool c1 o1 (promote t)).1, .cst (.int 1 1)]).2
          ((toBool c1 o1 (promote t)).2.op (.bin .xor 1) [(toBool c1 o1 (promote t)).1, .cst (.int 1 1)]).1).2 env1
        (fun e => RRel (boolToInt ((toBool c1 o1 (promote t)).2.op (.bin .xor 1) [(toBool c1 o1 (promote t)).1, .cst (.int 1 1)]).2
          ((toBool c1 o1 (promote t)).2.op (.bin .xor 1) [(toBool c1 o1 (promote t)).1, .cst (.int 1 1)]).1).2.nv e
          (boolToInt ((toBool c1 o1 (promote t)).2.op (.bin .xor 1) [(toBool c1 o1 (promote t)).1, .cst (.int 1 1)]).2
          ((toBool c1 o1 (promote t)).2.op (.bin .xor 1) [(toBool c1 o1 (promote t)).1, .cst (.int 1 1)]).1).1 .int v) := by
      intro he
      have x2 : Ext' ((toBool c1 o1 (promote t)).2.op (.bin .xor 1) [(toBool c1 o1 (promote t)).1, .cst (.int 1 1)]).2 K.Fc :=
        (em_op _ _ _).toExt'.trans he
      have x1 : Ext' (toBool c1 o1 (promote t)).2 K.Fc := (em_op _ _ _).toExt'.trans x2
      refine Step.trans (step_toBool x1 hR1) (em_op _ _ _).nv (fun env2 _ hB => ?_)
      have h1 : SSA.eval K.L env2 (.cst (.int 1 1)) = some (.int 1) := rfl
      have hev2 := evals_two (hB.eval (K := K)) h1
      refine Step.trans (R1 := fun e => BRel ((toBool c1 o1 (promote t)).2.nv + 1) e (.inst (2 * (toBool c1 o1 (promote t)).2.nv + 1)) (decide (x = 0)))
        (step_op x2 hev2 (v := .int (decide (x = 0)).toNat) (fun m => ?_) BRel.new) (em_op _ _ _).nv (fun env3 _ hB3 => ?_)
      · by_cases hx : x = 0 <;> simp [irSem, IR.binDef, IR.binVal, hx]
      · rw [hv]
        exact step_boolToInt he hB3
    rcases hR1.val with rfl | ⟨j, hj, rfl, _⟩ <;> exact hcase he
  | plus =>
    have hv : v = x := by simp only [unary, Option.some.injEq] at h; exact h.symm
    subst hv
    rcases hR1.val with ho1 | ⟨j, hj, rfl, hv⟩
    · subst ho1
      refine Step.refl (step_cint _ _ ?_ hph)
      exact raw_congr (sx_emod (promote t).w v)
    · exact Step.refl hR1

end
end Cmmc.Fe
