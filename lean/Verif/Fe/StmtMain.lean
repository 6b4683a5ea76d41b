import Verif.Fe.StmtSim
/-!
# Statements: the emitted code does what the specification says
-/
namespace Cmmc.Fe
open Cmmc

section
variable {X : Ext} (K : Cfg X) (rt : Option IT)

def SOk (s : Stmt) : Prop :=
  ∀ (c c' : Ctx) (Γ : List (List SE)), s.wf = true → Wf c → Stat K.consts Γ c → emitS K.sigs K.P rt s c = some c' →
    ∃ new, Stat K.consts (addTop new Γ) c' ∧ (s.noDecl = true → new = []) ∧ Fresh new Γ.flatten ∧
      (Ext' c' K.Fc → ∀ (ob : Opd → Obj) (pred : Option Nat) (env : Env) (m : Mem X) (S : SSt X) (n : Nat), Dyn K Γ ob S env m →
        K.SMeets rt Γ (addTop new Γ) ob (K.pt c pred env m S.tr) c.loops c' n (exec K.sigs K.sc rt n (den Γ ob) s S))

variable {K rt}

theorem fresh_nil (l : List SE) : Fresh [] l := fun _ he => by cases he

/-- statements without declarations -/
theorem sok_of {s : Stmt} (h : ∀ (c c' : Ctx) (Γ : List (List SE)), s.wf = true → Wf c → Stat K.consts Γ c → emitS K.sigs K.P rt s c = some c' →
    Stat K.consts Γ c' ∧
      (Ext' c' K.Fc → ∀ (ob : Opd → Obj) (pred : Option Nat) (env : Env) (m : Mem X) (S : SSt X) (n : Nat), Dyn K Γ ob S env m →
        K.SMeets rt Γ Γ ob (K.pt c pred env m S.tr) c.loops c' n (exec K.sigs K.sc rt n (den Γ ob) s S))) : SOk K rt s := by
  intro c c' Γ hwf w hs he
  obtain ⟨h1, h2⟩ := h c c' Γ hwf w hs he
  exact ⟨[], by rw [addTop_nil]; exact h1, fun _ => rfl, fresh_nil _, by rw [addTop_nil]; exact h2⟩

/-- and back -/
theorem SOk.noDecl {s : Stmt} (h : SOk K rt s) (hn : s.noDecl = true) {c c' : Ctx} {Γ : List (List SE)} (hwf : s.wf = true) (w : Wf c)
    (hs : Stat K.consts Γ c) (he : emitS K.sigs K.P rt s c = some c') :
    Stat K.consts Γ c' ∧
      (Ext' c' K.Fc → ∀ (ob : Opd → Obj) (pred : Option Nat) (env : Env) (m : Mem X) (S : SSt X) (n : Nat), Dyn K Γ ob S env m →
        K.SMeets rt Γ Γ ob (K.pt c pred env m S.tr) c.loops c' n (exec K.sigs K.sc rt n (den Γ ob) s S)) := by
  obtain ⟨new, h1, h2, _, h3⟩ := h c c' Γ hwf w hs he
  rw [h2 hn, addTop_nil] at h1 h3
  exact ⟨h1, h3⟩

theorem sok_skip : SOk K rt .skip := by
  refine sok_of (fun c c' Γ _ w hs h => ?_)
  rw [emitS] at h
  cases h
  refine ⟨hs, fun he ob pred env m S n hd => ?_⟩
  rw [exec]
  exact SMeets.done (Leads.refl _) hd (fun _ _ => rfl)

theorem sok_expr (e : Expr) : SOk K rt (.expr e) := by
  refine sok_of (fun c c' Γ _ w hs h => ?_)
  obtain ⟨q, h1⟩ := emitS_expr h
  have e1 := em_emitE _ _ _ _ w h1
  refine ⟨hs.same e1.same, fun he ob pred env m S n hd => ?_⟩
  rw [exec]
  refine Meets.bindS (emitE_ok e _ _ _ w hs h1 he pred env m S hd) (fun a S1 p1 env1 m1 _ hd1 _ => ?_)
  exact SMeets.done (Leads.refl _) hd1 (fun _ _ => rfl)

theorem sok_seq {a b : Stmt} (iha : SOk K rt a) (ihb : SOk K rt b) : SOk K rt (.seq a b) := by
  intro c c' Γ hwf w hs h
  simp only [Stmt.wf, Bool.and_eq_true] at hwf
  obtain ⟨c1, h1, h2⟩ := emitS_seq h
  have ea := sm_emitS a _ _ w h1
  have eb := sm_emitS b _ _ (ea.wf w) h2
  obtain ⟨new1, s1, d1, f1, sim1⟩ := iha c c1 Γ hwf.1 w hs h1
  obtain ⟨new2, s2, d2, f2, sim2⟩ := ihb c1 c' _ hwf.2 (ea.wf w) s1 h2
  rw [addTop_add] at s2 sim2
  refine ⟨new2 ++ new1, s2, ?_, ?_, ?_⟩
  · intro hn
    simp only [Stmt.noDecl, Bool.and_eq_true] at hn
    rw [d1 hn.1, d2 hn.2]; rfl
  · intro e he e' he'
    rcases List.mem_append.1 he with he | he
    · exact f2 e he e' (mem_addTop he')
    · exact f1 e he e' he'
  · intro hx ob pred env m S n hd
    rw [exec]
    refine SMeets.bind (sim1 (eb.toExt'.trans hx) ob pred env m S n hd) (fun g S hg => ?_) (fun S1 p1 env1 m1 ob1 hd1 ho => ?_)
    · cases g with
      | normal ρ => exact absurd rfl (hg ρ)
      | _ => rfl
    · have := sim2 hx ob1 p1 env1 m1 S1 n hd1
      rw [ea.loops] at this
      exact SMeets.sub this (fun e he => mem_addTop he) ho

theorem sok_brk : SOk K rt .brk := by
  refine sok_of (fun c c' Γ _ w hs h => ?_)
  rw [emitS] at h
  split at h
  · rename_i p b l hl
    cases h
    refine ⟨hs.same (em_term _ _).same, fun he ob pred env m S n hd => ?_⟩
    rw [exec]
    exact ⟨_, _, 1, _, env, m, hl, by omega, goto_term he rfl pred m S.tr, hd⟩
  · cases h

theorem sok_cont : SOk K rt .cont := by
  refine sok_of (fun c c' Γ _ w hs h => ?_)
  rw [emitS] at h
  split at h
  · rename_i p b l hl
    cases h
    refine ⟨hs.same (em_term _ _).same, fun he ob pred env m S n hd => ?_⟩
    rw [exec]
    exact ⟨_, _, 1, _, env, m, hl, by omega, goto_term he rfl pred m S.tr, hd⟩
  · cases h

theorem sok_ret0 : SOk K rt (.ret none) := by
  refine sok_of (fun c c' Γ _ w hs h => ?_)
  rw [emitS] at h
  split at h
  · rename_i hr
    cases h
    refine ⟨hs.same (em_term _ _).same, fun he ob pred env m S n hd => ?_⟩
    rw [exec, if_pos hr]
    refine ⟨1, m, ?_, hd.w, hd.inv⟩
    rw [hr]
    exact ret_term he rfl pred m S.tr
  · cases h

theorem sok_ret1 (e : Expr) : SOk K rt (.ret (some e)) := by
  refine sok_of (fun c c' Γ _ w hs h => ?_)
  obtain ⟨t, q, c1, o, s, c2, hr, h1, h2, rfl⟩ := emitS_ret h
  have e1 := em_emitE _ _ _ _ w h1
  have r1 := em_getRValue h2
  have v1 := em_convertTo c2 o s t
  have t1 := em_term (convertTo c2 o s t).2 (.ret (some (convertTo c2 o s t).1))
  refine ⟨hs.same (((e1.trans r1).trans v1).trans t1).same, fun he ob pred env m S n hd => ?_⟩
  have xv := t1.toExt'.trans he
  have x2 := v1.toExt'.trans xv
  have x1 := r1.toExt'.trans x2
  subst hr
  rw [exec]
  refine Meets.bindS (emitE_ok e _ _ _ w hs h1 x1 pred env m S hd) (fun a S1 p1 env1 m1 _ hd1 hq1 => ?_)
  refine Meets.bindS (meets_rval h2 x2 (hs.same e1.same) hd1 hq1) (fun va S2 p2 env2 m2 _ hd2 hr2 => ?_)
  obtain ⟨env3, ha, hR, hl⟩ := step_convertTo xv hr2.2
  refine SMeets.lead (hl p2 m2 S2.tr) ?_
  refine ⟨1, m2, ?_, hd2.w, hd2.inv⟩
  refine ret_term he ?_ p2 m2 S2.tr
  simp only [SSA.evalTerm, hR.eval (K := K), retV]
  rfl

theorem sok_scope {a : Stmt} (iha : SOk K rt a) : SOk K rt (.scope a) := by
  refine sok_of (fun c c' Γ hwf w hs h => ?_)
  simp only [Stmt.wf] at hwf
  obtain ⟨c1, h1, h2⟩ := emitS_scope h
  have ep := sm_popScope h2
  obtain ⟨new, s1, _, f1, sim1⟩ := iha c.pushScope c1 ([] :: Γ) hwf ((sm_pushScope c).wf w) (stat_push hs) h1
  have hflat : ([] :: Γ : List (List SE)).flatten = Γ.flatten := by simp
  rw [hflat] at f1
  have htop : addTop new ([] :: Γ) = new :: Γ := by simp [addTop]
  rw [htop] at s1 sim1
  refine ⟨stat_pop s1 f1 h2, fun he ob pred env m S n hd => ?_⟩
  rw [exec]
  have hd' : Dyn K ([] :: Γ) ob S env m := hd.sub (by simp) (fun _ _ => rfl)
  have sim := sim1 (ep.toExt'.trans he) ob pred env m S n hd'
  have sim' := SMeets.sub (Γ := Γ) (ob := ob) sim (by simp) (fun _ _ => rfl)
  refine SMeets.leave sim' (fun S1 p1 env1 m1 ob1 hd1 ho => ?_)
  have hpt : K.pt c1 p1 env1 m1 S1.tr = K.pt c' p1 env1 m1 S1.tr := by
    obtain ⟨sc, scs, _, rfl⟩ := popScope_eq h2
    rfl
  rw [hpt]
  exact SMeets.done (Leads.refl _) (hd1.sub (fun e he => by simp only [List.flatten_cons, List.mem_append]; exact Or.inr he) ho) (fun _ _ => rfl)

/-! ## declarations -/

/-- a store to a slot -/
theorem store_slot {Γ : List (List SE)} {ob : Opd → Obj} {c : Ctx} {k : Nat} {ov : Opd} {w : Wd} {sg : Bool} {v : Int} {env : Env} {m : Mem X} {S : SSt X}
    (he : Ext' (c.op (.store w.bits) [.inst (2 * k), ov]).2 K.Fc) (hd : Dyn K Γ ob S env m) (hk : c.slots[k]? = some 1)
    (hv : RRel c.nv env ov ⟨w, sg⟩ v) (pred : Option Nat) :
    ∃ env', Agree c.nv env env' ∧ K.Leads 0 (K.pt c pred env m S.tr) (K.pt (c.op (.store w.bits) [.inst (2 * k), ov]).2 pred env'
      { m with mem := fun k' i => if k' = k ∧ i = 0 then some (raw w v) else m.mem k' i } S.tr) := by
  have hsl : c.slots <+: K.Fc.slots := he.slots
  obtain ⟨h1, h2⟩ := hd.slot k 1 (prefix_get hsl hk)
  have hev : SSA.eval K.L env (.inst (2 * k)) = some (.ptr (.loc k) 0) := h1
  have hm : irSem K.tc (.store w.bits) [.ptr (.loc k) 0, .int (raw w v)] m =
      .ok .undef { m with mem := fun k' i => if k' = k ∧ i = 0 then some (raw w v) else m.mem k' i } [] := by
    simp only [irSem]
    rw [if_pos ⟨by omega, raw_lt w v⟩]
  have hl := lead_op he (evals_two hev hv.eval) hm pred S.tr
  rw [List.append_nil] at hl
  exact ⟨_, Agree.set (K := K) c.nv env _, hl⟩

theorem pt_addId {c c' : Ctx} {x : String} {q : QVal} (h : c.addId x q = some c') (pred : Option Nat) (env : Env) (m : Mem X) (tr : List X.E) :
    K.pt c' pred env m tr = K.pt c pred env m tr := by
  obtain ⟨_, _, _, _, rfl⟩ := addId_eq h
  rfl

theorem pt_bindConst (c : Ctx) (slot o : Opd) (w : Wd) (cst : Bool) (pred : Option Nat) (env : Env) (m : Mem X) (tr : List X.E) :
    K.pt (bindConst c slot o w cst) pred env m tr = K.pt c pred env m tr := by
  have h : (bindConst c slot o w cst).cur = c.cur ∧ (bindConst c slot o w cst).code = c.code := by
    unfold bindConst
    split
    · unfold Ctx.addConst
      split <;> exact ⟨rfl, rfl⟩
    · exact ⟨rfl, rfl⟩
  unfold Cfg.pt
  rw [h.1, h.2]

/-- the common part of the three forms of declarations -/
theorem decl_tail {Γ : List (List SE)} {c c2 c' : Ctx} {x : String} {ty : Ty} {sg cst : Bool} {cv : Option (Wd × Nat)}
    (hs : Stat K.consts Γ c) (hv : c2.vars = c.vars) (hsc : c2.scopes = c.scopes) (hsl : c2.slots = c.slots ++ [ty.cnt]) (hok : ty.ok = true)
    (hcb : c2.cb = match cv with | some p => (.inst (2 * c.slots.length), p) :: c.cb | none => c.cb)
    (hcv : ∀ p, cv = some p → cst = true ∧ ty = .int p.1)
    (ha : c2.addId x ⟨.inst (2 * c.slots.length), .lv ty sg cst⟩ = some c') :
    Stat K.consts (addTop [⟨x, .inst (2 * c.slots.length), ty, sg, cst, cv⟩] Γ) c' ∧
    Fresh [⟨x, .inst (2 * c.slots.length), ty, sg, cst, cv⟩] Γ.flatten ∧
    ∀ (ob : Opd → Obj) (s : PS X) (k n : Nat) (lb : List (Nat × Nat)) (pred : Option Nat) (env : Env) (m : Mem X) (S : SSt X) (v : Option Int)
      (mm : Nat → Int → Option Nat), K.Leads k s (K.pt c2 pred env { m with mem := mm } S.tr) → Dyn K Γ ob S env m →
      (∀ k' i, k' ≠ c.slots.length → mm k' i = m.mem k' i) →
      (∀ y, v = some y → IT.has ⟨ty.base, sg⟩ y = true ∧ mm c.slots.length 0 = some (raw ty.base y) ∧ ∀ p, cv = some p → raw p.1 y = p.2) →
      K.SMeets rt Γ (addTop [⟨x, .inst (2 * c.slots.length), ty, sg, cst, cv⟩] Γ) ob s lb c' n
        (.ok (.normal ((den Γ ob).add x ⟨.loc S.next, ty, sg, cst⟩)) (newObj S v)) := by
  obtain ⟨h1, h2, h3⟩ := stat_decl hs hv hsc hsl hok hcb hcv ha
  have hne : Γ ≠ [] := by
    obtain ⟨sc, scs, hsc', _, _⟩ := addId_eq ha
    rintro rfl
    rw [hsc, hs.scopes] at hsc'
    cases hsc'
  refine ⟨h1, ?_, ?_⟩
  · intro e he e' he'
    rw [List.mem_singleton] at he
    rw [he]
    exact fun h => h2 e' he' h.symm
  · intro ob s k n lb pred env m S v mm hl hd hm hv'
    have hd' := dyn_decl (Γ' := addTop [⟨x, .inst (2 * c.slots.length), ty, sg, cst, cv⟩] Γ)
      (e := ⟨x, .inst (2 * c.slots.length), ty, sg, cst, cv⟩) hd rfl
      (fun e' he' => (hs.opd e' he').imp (fun ⟨k, h, _⟩ => ⟨k, h⟩) id) h2 hm hv'
      (fun e' he' => by rw [h3] at he'; exact List.mem_cons.1 he')
    rw [← den_addTop (ob := ob) (e := ⟨x, .inst (2 * c.slots.length), ty, sg, cst, cv⟩) hne h2]
    refine SMeets.done (k := k) (pred := pred) (env := env) ?_ hd' (fun e he => ?_)
    · rw [pt_addId ha]; exact hl
    · simp [obNew, h2 e he]

theorem sok_declA {x : String} {k : Nat} {ty : Ty} {sg cst : Bool} {i : Option Expr} : SOk K rt (.decl x (.arr k ty) sg cst i) := by
  intro c c' Γ _ w hs h
  obtain ⟨hok, rfl, ha⟩ := emitS_declA h
  obtain ⟨h1, h2, h3⟩ := decl_tail (rt := rt) (cv := none) hs (by rfl) (by rfl) (by rfl) hok (by rfl) (by simp) ha
  refine ⟨_, h1, by simp [Stmt.noDecl], h2, fun he ob pred env m S n hd => ?_⟩
  rw [exec]
  exact h3 ob _ 0 n _ pred env m S none m.mem (Leads.refl _) hd (fun _ _ _ => rfl) (by simp)

theorem sok_declN {x : String} {w : Wd} {sg cst : Bool} : SOk K rt (.decl x (.int w) sg cst none) := by
  intro c c' Γ _ wf hs h
  have ha := emitS_declN h
  obtain ⟨h1, h2, h3⟩ := decl_tail (rt := rt) (cv := none) hs (by rfl) (by rfl) (by rfl) (by rfl) (by rfl) (by simp) ha
  refine ⟨_, h1, by simp [Stmt.noDecl], h2, fun he ob pred env m S n hd => ?_⟩
  rw [exec]
  have x1 := (sm_addId ha).toExt'.trans he
  have hv : RRel (c.alloc 1).2.nv env (cint w 0) ⟨w, sg⟩ (conv ⟨w, sg⟩ 0) := step_cint _ _ (raw_conv ⟨w, sg⟩ 0).symm (conv_has _ _)
  obtain ⟨env', hag, hl⟩ := store_slot (c := (c.alloc 1).2) (k := c.slots.length) x1 hd (by simp [Ctx.alloc]) hv pred
  refine h3 ob _ 0 n _ pred env' m S _ _ hl (hd.agree hag) (fun k' i hk => by simp [hk]) (fun y hy => ?_)
  rw [Option.some.injEq] at hy
  subst hy
  exact ⟨conv_has _ _, by simp [Ty.base], by simp⟩

/-- the constant bound by a declaration -/
def declCv (o : Opd) (w : Wd) (cst : Bool) : Option (Wd × Nat) :=
  match isCInt o, cst with
  | some n, true => some (w, n)
  | _, _ => none

theorem bindConst_eq {c : Ctx} {slot o : Opd} {w : Wd} {cst : Bool} (h : c.cb.lookup slot = none) :
    bindConst c slot o w cst = { c with cb := match declCv o w cst with | some p => (slot, p) :: c.cb | none => c.cb } := by
  rcases hi : isCInt o with _ | n
  · cases cst <;> simp [bindConst, declCv, hi]
  · cases cst <;> simp [bindConst, declCv, hi, Ctx.addConst, h]

theorem sok_declI {x : String} {w : Wd} {sg cst : Bool} {e : Expr} : SOk K rt (.decl x (.int w) sg cst (some e)) := by
  intro c c' Γ _ wf hs h
  obtain ⟨q, c1, o, t, c2, h1, h2, ha⟩ := emitS_declI h
  dsimp only at ha
  have a0 := sm_alloc c 1
  have w0 := a0.wf wf
  have s0 := stat_alloc hs 1
  have e1 := em_emitE _ _ _ _ w0 h1
  have r1 := em_getRValue h2
  have v1 := em_convertTo c2 o t ⟨w, sg⟩
  have o1 := em_op (convertTo c2 o t ⟨w, sg⟩).2 (.store w.bits) [.inst (2 * c.slots.length), (convertTo c2 o t ⟨w, sg⟩).1]
  have all := ((e1.trans r1).trans v1).trans o1
  have hcb : ((convertTo c2 o t ⟨w, sg⟩).2.op (.store w.bits) [.inst (2 * c.slots.length), (convertTo c2 o t ⟨w, sg⟩).1]).2.cb = c.cb := all.cb
  have hbc := bindConst_eq (o := (convertTo c2 o t ⟨w, sg⟩).1) (w := w) (cst := cst) ((congrArg (List.lookup _) hcb).trans (stat_noConst hs))
  have ha' := ha
  rw [hbc] at ha'
  obtain ⟨k1, k2, k3⟩ := decl_tail (rt := rt) (cv := declCv (convertTo c2 o t ⟨w, sg⟩).1 w cst) hs (by exact all.vars) (by exact all.scopes)
    (by exact all.slotsEq) (by rfl) (by dsimp only; rw [hcb]) (by
      intro p hp
      unfold declCv at hp
      split at hp
      · simp only [Option.some.injEq] at hp
        rw [← hp]; exact ⟨rfl, rfl⟩
      · cases hp) ha'
  refine ⟨_, k1, by simp [Stmt.noDecl], k2, fun he ob pred env m S n hd => ?_⟩
  have x4 := (sm_bindConst _ _ _ _ _).toExt'.trans ((sm_addId ha).toExt'.trans he)
  have x3 := o1.toExt'.trans x4
  have x2 := v1.toExt'.trans x3
  have x1 := r1.toExt'.trans x2
  rw [exec]
  refine Meets.bindS (c1 := c1) (nv := (c.alloc 1).2.nv) (env := env) (emitE_ok e _ _ _ w0 s0 h1 x1 pred env m S hd) (fun a S1 p1 env1 m1 _ hd1 hq1 => ?_)
  refine Meets.bindS (meets_rval h2 x2 (s0.same e1.same) hd1 hq1) (fun va S2 p2 env2 m2 _ hd2 hr2 => ?_)
  obtain ⟨env3, hag, hR, hl⟩ := step_convertTo x3 hr2.2
  have hd3 := hd2.agree hag
  have hslots : (convertTo c2 o t ⟨w, sg⟩).2.slots = c.slots ++ [1] := ((e1.trans r1).trans v1).slotsEq
  obtain ⟨env4, hag4, hl4⟩ := store_slot (k := c.slots.length) x4 hd3 (by rw [hslots]; simp) hR p2
  have hl' := Leads.trans (hl p2 m2 S2.tr) hl4
  refine k3 ob _ (0 + 0) n _ p2 env4 m2 S2 _
    (fun k' i => if k' = c.slots.length ∧ i = 0 then some (raw w (conv ⟨w, sg⟩ va.2)) else m2.mem k' i) ?_ (hd3.agree hag4) ?_ ?_
  · exact hl'
  · intro k' i hk; simp [hk]
  · intro y hy
    rw [Option.some.injEq] at hy
    subst hy
    refine ⟨conv_has _ _, by simp [Ty.base], fun p hp => ?_⟩
    unfold declCv at hp
    rcases hc : isCInt (convertTo c2 o t ⟨w, sg⟩).1 with _ | n'
    · rw [hc] at hp; cases hp
    · rw [hc] at hp
      cases cst with
      | false => cases hp
      | true =>
        simp only [Option.some.injEq] at hp
        rw [← hp]
        unfold isCInt at hc
        split at hc
        · rename_i w' n'' ho
          simp only [Option.some.injEq] at hc
          rw [ho] at hR
          rw [← hc]
          exact hR.cst.2.symm
        · cases hc

end
end Cmmc.Fe
