import Verif.Fe.StmtMain3
/-!
# Functions: parameters, globals, stack slots
-/
namespace Cmmc.Fe
open Cmmc

/-! ## the initial context -/

/-- the value of a constant global -/
def Glob.cv (g : Glob) : Option (Wd × Nat) :=
  match g.ty, g.cst, g.val with
  | .int w, true, some n => some (w, n)
  | _, _, _ => none

def Glob.se (g : Glob) : SE := ⟨g.name, .cst (.glob g.name), g.ty, g.sg, g.cst, g.cv⟩

/-- the values of the constant globals -/
def constsOf (gs : List Glob) (x : String) : Option (Wd × Nat) := (gs.find? (fun g => g.name == x)).bind Glob.cv

theorem find_name {gs : List Glob} (hn : (gs.map Glob.name).Nodup) {g : Glob} (hg : g ∈ gs) : gs.find? (fun g' => g'.name == g.name) = some g := by
  induction gs with
  | nil => cases hg
  | cons a gs ih =>
    simp only [List.map_cons, List.nodup_cons] at hn
    rcases List.mem_cons.1 hg with rfl | h
    · simp
    · have hne : a.name ≠ g.name := fun hc => hn.1 (List.mem_map.2 ⟨g, h, hc.symm⟩)
      rw [List.find?_cons_of_neg (by simpa using hne)]
      exact ih hn.2 h

theorem ctx0_cb (gs : List Glob) : (ctx0 gs).cb = gs.filterMap (fun g => g.cv.map (fun p => ((.cst (.glob g.name) : Opd), p))) := by
  show gs.filterMap _ = _
  congr 1
  funext g
  rcases g with ⟨n, ty, sg, cst, val⟩
  cases ty <;> cases cst <;> cases val <;> rfl

theorem lookup_cb {gs : List Glob} (hn : (gs.map Glob.name).Nodup) {g : Glob} (hg : g ∈ gs) :
    (gs.filterMap (fun g => g.cv.map (fun p => ((.cst (.glob g.name) : Opd), p)))).lookup (.cst (.glob g.name)) = g.cv := by
  induction gs with
  | nil => cases hg
  | cons a gs ih =>
    simp only [List.map_cons, List.nodup_cons] at hn
    have hnone : ∀ (x : String) (l : List Glob), x ∉ l.map Glob.name →
        (l.filterMap (fun g => g.cv.map (fun p => ((.cst (.glob g.name) : Opd), p)))).lookup (.cst (.glob x)) = none := by
      intro x l
      induction l with
      | nil => intro _; rfl
      | cons b l ih =>
        intro hx
        simp only [List.map_cons, List.mem_cons, not_or] at hx
        rcases hb : b.cv with _ | p
        · rw [List.filterMap_cons_none (by simp [hb])]; exact ih hx.2
        · rw [List.filterMap_cons_some (b := (.cst (.glob b.name), p)) (by simp [hb]), List.lookup_cons]
          have : ((.cst (.glob x) : Opd) == .cst (.glob b.name)) = false := by
            rw [beq_eq_false_iff_ne]; intro hc; simp at hc; exact hx.1 hc
          rw [this]; exact ih hx.2
    rcases List.mem_cons.1 hg with rfl | h
    · rcases hb : g.cv with _ | p
      · rw [List.filterMap_cons_none (by simp [hb])]; exact hnone _ _ hn.1
      · rw [List.filterMap_cons_some (b := (.cst (.glob g.name), p)) (by simp [hb]), List.lookup_cons]
        simp
    · have hne : g.name ≠ a.name := fun hc => hn.1 (List.mem_map.2 ⟨g, h, hc⟩)
      rcases hb : a.cv with _ | p
      · rw [List.filterMap_cons_none (by simp [hb])]; exact ih hn.2 h
      · rw [List.filterMap_cons_some (b := (.cst (.glob a.name), p)) (by simp [hb]), List.lookup_cons]
        have : ((.cst (.glob g.name) : Opd) == .cst (.glob a.name)) = false := by
          rw [beq_eq_false_iff_ne]; intro hc; simp at hc; exact hne hc
        rw [this]; exact ih hn.2 h

/-- the scopes at the beginning of a function -/
def Γ0 (gs : List Glob) : List (List SE) := [[], gs.map Glob.se]

theorem stat_ctx0 {gs : List Glob} (hn : (gs.map Glob.name).Nodup) (hok : ∀ g ∈ gs, g.ty.ok = true) : Stat (constsOf gs) (Γ0 gs) (ctx0 gs) := by
  have hflat : (Γ0 gs).flatten = gs.map Glob.se := by simp [Γ0]
  have hmem : ∀ {e}, e ∈ (Γ0 gs).flatten → ∃ g ∈ gs, e = g.se := by
    intro e he
    rw [hflat] at he
    obtain ⟨g, hg, rfl⟩ := List.mem_map.1 he
    exact ⟨g, hg, rfl⟩
  constructor
  · simp [ctx0, Γ0, Glob.se, Function.comp_def]
  · intro x
    rw [hflat]
    show (gs.filter (fun g => g.name == x)).map _ = _
    rw [List.filter_map, List.map_map]
    rfl
  · intro sc hsc
    simp only [Γ0, List.mem_cons, List.not_mem_nil, or_false] at hsc
    rcases hsc with rfl | rfl
    · exact List.nodup_nil
    · rw [List.map_map]; exact hn
  · intro e he
    obtain ⟨g, hg, rfl⟩ := hmem he
    exact hok g hg
  · intro e he
    obtain ⟨g, hg, rfl⟩ := hmem he
    exact Or.inr ⟨g.name, rfl⟩
  · intro e he e' he' heq
    obtain ⟨g, hg, rfl⟩ := hmem he
    obtain ⟨g', hg', rfl⟩ := hmem he'
    have hname : g.name = g'.name := by simpa [Glob.se] using heq
    have h1 := find_name hn hg
    have h2 := find_name hn hg'
    rw [hname, h2] at h1
    rw [Option.some.injEq] at h1
    rw [h1]
  · intro e he
    obtain ⟨g, hg, rfl⟩ := hmem he
    rw [ctx0_cb]
    exact lookup_cb hn hg
  · intro e he p hp
    obtain ⟨g, hg, rfl⟩ := hmem he
    have hp' : g.cv = some p := hp
    show g.cst = true ∧ g.ty = .int p.1
    unfold Glob.cv at hp'
    split at hp'
    · rename_i w n h1 h2 h3
      simp only [Option.some.injEq] at hp'
      rw [h1, h2, ← hp']; exact ⟨rfl, rfl⟩
    · cases hp'
  · intro p hp
    rw [ctx0_cb] at hp
    obtain ⟨g, _, hg⟩ := List.mem_filterMap.1 hp
    rcases hc : g.cv with _ | q
    · rw [hc] at hg; cases hg
    · rw [hc] at hg
      simp only [Option.map_some, Option.some.injEq] at hg
      exact Or.inl ⟨g.name, by rw [← hg]⟩
  · intro e he x hx
    obtain ⟨g, hg, rfl⟩ := hmem he
    have hxn : g.name = x := by simpa [Glob.se] using hx
    subst hxn
    unfold constsOf
    rw [find_name hn hg]
    refine ⟨fun hc => ?_, fun p hp => hp⟩
    have hc' : g.cst = false := hc
    show g.cv = none
    unfold Glob.cv
    rw [hc']
    split
    · rename_i h1 h2 h3; cases h2
    · rfl

theorem wf_ctx0 (gs : List Glob) : Wf (ctx0 gs) where
  cur := by show 0 < 1; decide
  empty _ _ := rfl
  phi _ := by intro r hr; cases hr
  zero r hr := by cases hr

section
variable {X : Ext} {K : Cfg X} {rt : Option IT}

/-! ## parameters -/

theorem emitParams_cons {i : Nat} {x : String} {t : IT} {cst : Bool} {ps : List (String × IT × Bool)} {c c' : Ctx}
    (h : emitParams i ((x, t, cst) :: ps) c = some c') :
    ∃ c1, ((c.alloc 1).2.op (.store t.w.bits) [.inst (2 * c.slots.length), .cst (.arg i)]).2.addId x ⟨.inst (2 * c.slots.length), .lv (.int t.w) t.sg cst⟩ = some c1 ∧
      emitParams (i + 1) ps c1 = some c' := by
  rw [emitParams] at h
  exact bind_some' h

theorem sm_emitParams : ∀ (ps : List (String × IT × Bool)) (i : Nat) (c c' : Ctx), Wf c → emitParams i ps c = some c' → SM c c'
  | [], i, c, c', w, h => by
    rw [emitParams] at h; cases h; exact SM.refl c
  | (x, t, cst) :: ps, i, c, c', w, h => by
    obtain ⟨c1, h1, h2⟩ := emitParams_cons h
    have e1 := ((sm_alloc c 1).trans (em_op _ _ _).sm).trans (sm_addId h1)
    exact e1.trans (sm_emitParams ps _ _ _ (e1.wf w) h2)

/-- arguments are patterns of the types of the parameters -/
def ArgsOk : List (String × IT × Bool) → List Nat → Prop
  | [], [] => True
  | (_, t, _) :: ps, a :: as => a < 2 ^ t.w.bits ∧ ArgsOk ps as
  | _, _ => False

instance decArgsOk : ∀ (ps : List (String × IT × Bool)) (as : List Nat), Decidable (ArgsOk ps as)
  | [], [] => isTrue trivial
  | (_, t, _) :: ps, a :: as => @instDecidableAnd (a < 2 ^ t.w.bits) (ArgsOk ps as) inferInstance (decArgsOk ps as)
  | [], _ :: _ => isFalse id
  | _ :: _, [] => isFalse id

theorem raw_nat {t : IT} {a : Nat} (h : a < 2 ^ t.w.bits) : raw t.w (conv t a) = a := by
  rw [raw_conv t a]
  unfold raw
  have : ((a : Int) % 2 ^ t.w.bits) = a := Int.emod_eq_of_lt (by positivity) (by exact_mod_cast h)
  rw [this]; rfl

theorem emitParams_ok : ∀ (ps : List (String × IT × Bool)) (i : Nat) (c c' : Ctx) (Γ : List (List SE)), Wf c → Stat K.consts Γ c →
    emitParams i ps c = some c' →
    ∃ new, Stat K.consts (addTop new Γ) c' ∧
      (Ext' c' K.Fc → ∀ (ob : Opd → Obj) (pred : Option Nat) (env : Env) (m : Mem X) (S : SSt X) (as : List Nat), Dyn K Γ ob S env m →
        K.args.drop i = as → ArgsOk ps as →
        ∃ ob' k pred' env' m' S', bindParams (den Γ ob) ps as S = some (den (addTop new Γ) ob', S') ∧
          K.Leads k (K.pt c pred env m S.tr) (K.pt c' pred' env' m' S'.tr) ∧ Dyn K (addTop new Γ) ob' S' env' m')
  | [], i, c, c', Γ, w, hs, h => by
    rw [emitParams] at h
    cases h
    refine ⟨[], by rw [addTop_nil]; exact hs, fun he ob pred env m S as hd ha hok => ?_⟩
    rw [addTop_nil]
    cases as with
    | nil => exact ⟨ob, 0, pred, env, m, S, rfl, Leads.refl _, hd⟩
    | cons a as => exact hok.elim
  | (x, t, cst) :: ps, i, c, c', Γ, w, hs, h => by
    obtain ⟨c1, h1, h2⟩ := emitParams_cons h
    have e1 := ((sm_alloc c 1).trans (em_op _ (.store t.w.bits) [.inst (2 * c.slots.length), .cst (.arg i)]).sm).trans (sm_addId h1)
    have w1 := e1.wf w
    have e2 := sm_emitParams ps _ _ _ w1 h2
    obtain ⟨k1, _, k3⟩ := decl_tail (K := K) (rt := none) (cv := none) hs (by rfl) (by rfl) (by rfl) (by rfl) (by rfl) (by simp) h1
    obtain ⟨new, s2, sim⟩ := emitParams_ok ps (i + 1) c1 c' _ w1 k1 h2
    rw [addTop_add] at s2 sim
    refine ⟨_, s2, fun he ob pred env m S as hd ha hok => ?_⟩
    cases as with
    | nil => exact hok.elim
    | cons a as =>
      obtain ⟨hlt, hok'⟩ := hok
      have x1 := e2.toExt'.trans he
      have xo := (sm_addId h1).toExt'.trans x1
      have hsl : (c.alloc 1).2.slots <+: K.Fc.slots := xo.slots
      obtain ⟨g1, g2⟩ := hd.slot c.slots.length 1 (prefix_get hsl (by simp [Ctx.alloc]))
      have hev : SSA.eval K.L env (.inst (2 * c.slots.length)) = some (.ptr (.loc c.slots.length) 0) := g1
      have hai : K.args[i]? = some a := by
        have := congrArg List.head? ha
        rw [List.head?_drop] at this
        exact this
      have hea : SSA.eval K.L env (.cst (.arg i)) = some (.int a) := by
        simp only [SSA.eval, Cfg.L, irL, hai]
      have hm : irSem K.tc (.store t.w.bits) [.ptr (.loc c.slots.length) 0, .int a] m =
          .ok .undef { m with mem := fun k' i => if k' = c.slots.length ∧ i = 0 then some a else m.mem k' i } [] := by
        simp only [irSem]
        rw [if_pos ⟨by omega, hlt⟩]
      have hl := lead_op xo (evals_two hev hea) hm pred S.tr
      rw [List.append_nil] at hl
      have hd1 := hd.agree (Agree.set (K := K) (c.alloc 1).2.nv env .undef)
      have hstep := k3 ob _ 0 0 [] pred _ m S (some (conv t a)) _ hl hd1 (fun k' i hk => by simp [hk]) (fun y hy => by
        rw [Option.some.injEq] at hy
        subst hy
        refine ⟨conv_has _ _, ?_, by simp⟩
        simp only [and_self, if_true, Option.some.injEq]
        exact (raw_nat hlt).symm)
      obtain ⟨k, pred', env1, m1, ob1, hl1, hd1', hden, _⟩ := hstep
      have hdr : K.args.drop (i + 1) = as := by
        rw [← List.tail_drop, ha]; rfl
      obtain ⟨ob2, k2, pred2, env2, m2, S2, b1, b2, b3⟩ := sim he ob1 pred' env1 m1 _ as hd1' hdr hok'
      refine ⟨ob2, k2 + k, pred2, env2, m2, S2, ?_, Leads.trans hl1 b2, b3⟩
      rw [bindParams, hden]
      exact b1

/-! ## the stack slots -/

theorem runCode_append (fb : SSA.Term Cst) (cur : Nat) (pred : Option Nat) (rs : List Raw) : ∀ (l : List (Int × Nat)) (env : Env) (m : Mem X)
    (tr : List X.E), (l.map Prod.snd).Nodup →
    ∃ env' m', runCode K.tc K.args fb cur (l.map (fun p => Raw.inst ⟨2 * p.2, .alloca p.2 p.1, []⟩) ++ rs) pred env m tr =
        runCode K.tc K.args fb cur rs pred env' m' tr ∧ m'.w = m.w ∧
      (∀ p ∈ l, env' (2 * p.2) = some (.ptr (.loc p.2) 0) ∧ m'.size p.2 = p.1) ∧
      (∀ k, k ∉ l.map Prod.snd → env' (2 * k) = env (2 * k) ∧ m'.size k = m.size k) := by
  intro l
  induction l with
  | nil => intro env m tr _; exact ⟨env, m, rfl, rfl, by simp, by simp⟩
  | cons p l ih =>
    intro env m tr hn
    simp only [List.map_cons, List.nodup_cons] at hn
    obtain ⟨env', m', h1, h2, h3, h4⟩ := ih (SSA.setEnv (irL K.tc K.args) env (2 * p.2) (.ptr (.loc p.2) 0))
      { m with mem := fun k' i => if k' = p.2 then none else m.mem k' i, size := fun k' => if k' = p.2 then p.1 else m.size k' } tr hn.2
    refine ⟨env', m', ?_, h2, ?_, ?_⟩
    · rw [← h1]
      simp only [List.map_cons, List.cons_append, runCode, SSA.evals, irSem, List.append_nil]
    · intro q hq
      rcases List.mem_cons.1 hq with rfl | hq
      · obtain ⟨g1, g2⟩ := h4 q.2 hn.1
        rw [g1, g2]
        refine ⟨?_, by simp⟩
        exact if_pos rfl
      · exact h3 q hq
    · intro k hk
      simp only [List.map_cons, List.mem_cons, not_or] at hk
      obtain ⟨g1, g2⟩ := h4 k hk.2
      rw [g1, g2]
      have : ¬ 2 * k = 2 * p.2 := by omega
      simp [SSA.setEnv, hk.1, this]

theorem allocas_eq (ss : List Int) : allocas ss = ss.zipIdx.reverse.map (fun p => Raw.inst ⟨2 * p.2, .alloca p.2 p.1, []⟩) := by
  unfold allocas
  rw [List.map_reverse]

/-- entering the function: the slots are allocated -/
theorem enter_ok (h0 : 0 < K.Fc.nb) (pred : Option Nat) (env : Env) (m : Mem X) (tr : List X.E) :
    ∃ env' m', K.Leads 0 (K.bdry 0 pred env m tr) ⟨0, K.Fc.code 0, pred, env', m', tr⟩ ∧ m'.w = m.w ∧
      ∀ k z, K.Fc.slots[k]? = some z → env' (2 * k) = some (.ptr (.loc k) 0) ∧ m'.size k = z := by
  have hnd : ((K.Fc.slots.zipIdx.reverse).map Prod.snd).Nodup := by
    rw [List.map_reverse, List.nodup_reverse, List.zipIdx_map_snd]
    exact List.nodup_range'
  obtain ⟨env', m', h1, h2, h3, _⟩ := runCode_append (K := K) K.fb 0 pred (K.Fc.code 0) K.Fc.slots.zipIdx.reverse env m tr hnd
  refine ⟨env', m', ?_, h2, ?_⟩
  · intro n
    have hb : K.bdry 0 pred env m tr = ⟨0, allocas K.Fc.slots ++ K.Fc.code 0, pred, env, m, tr⟩ := by
      simp [Cfg.bdry, Ctx.full, h0]
    rw [hb]
    simp only [Cfg.brun, Fe.brun, Nat.add_zero]
    rw [allocas_eq, h1]
  · intro k z hk
    have := h3 (z, k) (by
      rw [List.mem_reverse]
      exact List.mk_mem_zipIdx_iff_getElem?.2 hk)
    exact this

end
end Cmmc.Fe
