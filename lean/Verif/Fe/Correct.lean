import Verif.Fe.FuncSim
/-!
# The front end preserves the meaning of functions
-/
namespace Cmmc.Fe
open Cmmc

/-- the constant globals whose value the compiler knows hold that value -/
def ConstOk {X : Ext} (gs : List Glob) (w : X.World) : Prop :=
  ∀ g ∈ gs, ∀ wd n n', g.ty = .int wd → g.cst = true → g.val = some n → X.rd w g.name 0 = some n' → n' % 2 ^ wd.bits = n

/-- writing an element of one global does not change the others -/
def Separate (X : Ext) : Prop := ∀ w g off n w' g', X.wr w g off n = some w' → g' ≠ g → X.rd w' g' 0 = X.rd w g' 0

/-- the environment of the global declarations -/
def globEnv (gs : List Glob) : List (String × Ent) := gs.map (fun g => (g.name, ⟨.glob g.name, g.ty, g.sg, g.cst⟩))

/-- the pattern that stands for what the source function returns; a function that should return a value but reaches its end gives an
    undefined one -/
def result (fn : Fn) : Option Int → Option V
  | some x => match fn.ret with
    | some t => some (.int (raw t.w x))
    | none => none
  | none => if fn.ret = none then none else some .undef

section
variable {X : Ext}

theorem cv_eq {g : Glob} {p : Wd × Nat} (h : g.cv = some p) : g.ty = .int p.1 ∧ g.cst = true ∧ g.val = some p.2 := by
  unfold Glob.cv at h
  split at h
  · rename_i w n h1 h2 h3
    simp only [Option.some.injEq] at h
    rw [h1, h2, h3, ← h]; exact ⟨rfl, rfl, rfl⟩
  · cases h

theorem constsOf_mem {gs : List Glob} {x : String} {p : Wd × Nat} (h : constsOf gs x = some p) : ∃ g ∈ gs, g.name = x ∧ g.cv = some p := by
  unfold constsOf at h
  rcases hf : gs.find? (fun g => g.name == x) with _ | g
  · rw [hf] at h; cases h
  · rw [hf] at h
    exact ⟨g, List.mem_of_find?_eq_some hf, by simpa using List.find?_some hf, h⟩

theorem constOk_iff {gs : List Glob} (hn : (gs.map Glob.name).Nodup) (w : X.World) :
    ConstOk gs w ↔ ∀ x wd n n', constsOf gs x = some (wd, n) → X.rd w x 0 = some n' → n' % 2 ^ wd.bits = n := by
  constructor
  · intro h x wd n n' hx hr
    obtain ⟨g, hg, rfl, hc⟩ := constsOf_mem hx
    obtain ⟨h1, h2, h3⟩ := cv_eq hc
    exact h g hg wd n n' h1 h2 h3 hr
  · intro h g hg wd n n' h1 h2 h3 hr
    refine h g.name wd n n' ?_ hr
    unfold constsOf
    rw [find_name hn hg]
    show g.cv = _
    unfold Glob.cv
    rw [h1, h2, h3]

theorem retV_result {fn : Fn} {v : Option Int} (h : v.isSome = fn.ret.isSome) : retV fn.ret v = result fn v := by
  rcases hr : fn.ret with _ | t <;> rcases v with _ | x <;> rw [hr] at h <;> simp [retV, result, hr] at h ⊢

section
variable {sigs : Sigs} {call : Calls X} {rt : Option IT} {n : Nat}

def RetOk (rt : Option IT) (r : SOut X) : Prop := ∀ v S, r = .ok (.ret v) S → v.isSome = rt.isSome

theorem RetOk.bindS {α : Type} {o : Out X α} {f : α → SSt X → SOut X} (h : ∀ a S, RetOk rt (f a S)) : RetOk rt (o.bindS f) := by
  rcases o with ⟨a, S⟩ | _ | ⟨h, tr⟩
  · exact h a S
  · intro v S hc; cases hc
  · intro v S hc; cases hc

theorem RetOk.bind {o : SOut X} {f : Fin → SSt X → SOut X} (ho : RetOk rt o)
    (h : ∀ a S, (∀ v, a = .ret v → v.isSome = rt.isSome) → RetOk rt (f a S)) : RetOk rt (o.bind f) := by
  rcases o with ⟨a, S⟩ | _ | ⟨h, tr⟩ | tr
  · exact h a S (fun v hv => ho v S (by rw [hv]))
  · intro v S hc; cases hc
  · intro v S hc; cases hc
  · intro v S hc; cases hc

theorem RetOk.fin {f : Fin} {S : SSt X} (h : ∀ v, f = .ret v → v.isSome = rt.isSome) : RetOk rt (.ok f S : SOut X) := by
  intro v S' hc
  cases hc
  exact h v rfl

theorem RetOk.leave {o : SOut X} {ρ : SEnv} (ho : RetOk rt o) : RetOk rt (o.bind fun f s => .ok (f.leave ρ) s) := by
  refine RetOk.bind ho (fun a S h => RetOk.fin (fun v hv => ?_))
  cases a with
  | ret v' => cases hv; exact h v rfl
  | _ => cases hv

theorem RetOk.normal {ρ : SEnv} {S : SSt X} : RetOk rt (.ok (.normal ρ) S : SOut X) := by intro v S hc; cases hc

theorem retOk_loop {ρ : SEnv} {c : SSt X → Out X Bool} {b : SSt X → SOut X} {it : SSt X → Out X QV} (hb : ∀ S, RetOk rt (b S)) :
    ∀ (n : Nat) (S : SSt X), RetOk rt (loop ρ c b it n S) := by
  intro n
  induction n with
  | zero => intro S v S' hc; cases hc
  | succ n ih =>
    intro S
    rw [loop]
    refine RetOk.bindS (fun t S => ?_)
    cases t with
    | false => exact RetOk.normal
    | true =>
      simp only [if_true]
      refine RetOk.bind (hb S) (fun a S h => ?_)
      cases a with
      | ret v => exact RetOk.fin h
      | brk => exact RetOk.normal
      | cont => exact RetOk.bindS (fun _ S => ih S)
      | normal ρ' => exact RetOk.bindS (fun _ S => ih S)

theorem retOk_dloop {ρ : SEnv} {c : SSt X → Out X Bool} {b : SSt X → SOut X} (hb : ∀ S, RetOk rt (b S)) :
    ∀ (n : Nat) (S : SSt X), RetOk rt (dloop ρ b c n S) := by
  intro n
  induction n with
  | zero => intro S v S' hc; cases hc
  | succ n ih =>
    intro S
    rw [dloop]
    have hk : ∀ S, RetOk rt ((c S).bindS fun t s => if t then dloop ρ b c n s else .ok (.normal ρ) s) := by
      intro S
      refine RetOk.bindS (fun t S => ?_)
      cases t with
      | false => exact RetOk.normal
      | true => exact ih S
    refine RetOk.bind (hb S) (fun a S h => ?_)
    cases a with
    | ret v => exact RetOk.fin h
    | brk => exact RetOk.normal
    | cont => exact hk S
    | normal ρ' => exact hk S

/-- a function that returns with a value is not void, and conversely -/
theorem retOk_exec : ∀ (s : Stmt) (ρ : SEnv) (S : SSt X), RetOk rt (exec sigs call rt n ρ s S)
  | .skip, ρ, S => RetOk.normal
  | .seq a b, ρ, S => by
    rw [exec]
    refine RetOk.bind (retOk_exec a ρ S) (fun f S h => ?_)
    cases f with
    | normal ρ' => exact retOk_exec b ρ' S
    | _ => exact RetOk.fin h
  | .expr e, ρ, S => by
    rw [exec]
    exact RetOk.bindS (fun _ S => RetOk.normal)
  | .decl x (.int w) sg cst none, ρ, S => by rw [exec]; exact RetOk.normal
  | .decl x (.int w) sg cst (some e), ρ, S => by
    rw [exec]
    exact RetOk.bindS (fun _ S => RetOk.bindS (fun _ S => RetOk.normal))
  | .decl x (.arr k e) sg cst none, ρ, S => by rw [exec]; exact RetOk.normal
  | .decl x (.arr k e) sg cst (some i), ρ, S => by rw [exec]; intro v S hc; cases hc
  | .scope a, ρ, S => by rw [exec]; exact RetOk.leave (retOk_exec a _ S)
  | .ifThen c a, ρ, S => by
    rw [exec]
    refine RetOk.bindS (fun t S => ?_)
    cases t with
    | true => exact RetOk.leave (retOk_exec a _ S)
    | false => exact RetOk.normal
  | .ifElse c a b, ρ, S => by
    rw [exec]
    refine RetOk.bindS (fun t S => ?_)
    cases t with
    | true => exact RetOk.leave (retOk_exec a _ S)
    | false => exact RetOk.leave (retOk_exec b _ S)
  | .while c a, ρ, S => by rw [exec]; exact retOk_loop (fun S => retOk_exec a ρ S) n S
  | .doWhile a c, ρ, S => by rw [exec]; exact retOk_dloop (fun S => retOk_exec a ρ S) n S
  | .for i c it a, ρ, S => by
    rw [exec]
    refine RetOk.bind (retOk_exec i _ S) (fun f S h => ?_)
    cases f with
    | normal ρ' => exact RetOk.leave (retOk_loop (fun S => retOk_exec a ρ' S) n S)
    | _ => exact RetOk.fin h
  | .brk, ρ, S => by rw [exec]; intro v S hc; cases hc
  | .cont, ρ, S => by rw [exec]; intro v S hc; cases hc
  | .ret none, ρ, S => by
    rw [exec]
    split
    · rename_i h; exact RetOk.fin (fun v hv => by cases hv; rw [h]; rfl)
    · intro v S hc; cases hc
  | .ret (some e), ρ, S => by
    cases rt with
    | none => rw [exec]; intro v S hc; cases hc
    | some t =>
      rw [exec]
      exact RetOk.bindS (fun _ S => RetOk.bindS (fun _ S => RetOk.fin (fun v hv => by cases hv; rfl)))

end

theorem run_inl (tc : Calls X) (as : List Nat) {r : SSA.St (irL tc as) ⊕ SSA.Beh (irL tc as)} {z : PS X ⊕ SSA.Beh (irL tc as)} {t : PS X}
    (h : r = match z with
      | .inl t => .inl ⟨t.pred, t.b, t.env, t.m, t.tr⟩
      | .inr b => .inr b) (hz : z = .inl t) : r = .inl ⟨t.pred, t.b, t.env, t.m, t.tr⟩ := by
  subst hz; exact h

theorem run_inr (tc : Calls X) (as : List Nat) {r : SSA.St (irL tc as) ⊕ SSA.Beh (irL tc as)} {z : PS X ⊕ SSA.Beh (irL tc as)}
    {b : SSA.Beh (irL tc as)}
    (h : r = match z with
      | .inl t => .inl ⟨t.pred, t.b, t.env, t.m, t.tr⟩
      | .inr b => .inr b) (hz : z = .inr b) : r = .inr b := by
  subst hz; exact h

theorem runCode_end (tc : Calls X) (as : List Nat) (fn : Fn) (cur : Nat) (pred : Option Nat) (env : Env) (m : Mem X) (tr : List X.E) :
    runCode tc as (fallback fn) cur [] pred env m tr = .inr (.ret (result fn none) m tr) := by
  unfold fallback result
  by_cases hr : fn.ret = none
  · rw [if_pos hr, if_pos hr]; rfl
  · rw [if_neg hr, if_neg hr]; rfl

/-- what the target does for every outcome of the source -/
def Agrees (tc : Calls X) (as : List Nat) (F : SSA.Func Op Cst) (fn : Fn) (gs : List Glob) (m : Mem X) (n : Nat) (r : FOut X) : Prop :=
  match r with
  | .ret v w' tr => ConstOk gs w' ∧ ∃ m', SSA.Ends (irL tc as) F m (.ret (result fn v) m' tr) ∧ m'.w = w'
  | .ub => True
  | .halt h tr => SSA.Ends (irL tc as) F m (.halt h tr)
  | .more tr => ∃ k s, n < k ∧ SSA.run (irL tc as) F k (SSA.start (irL tc as) F m) = .inl s ∧ s.tr = tr

/-- one function -/
theorem fn_correct {sigs : Sigs} {P : Wd} (hP : 32 ≤ P.bits) {gs : List Glob} {fn : Fn} {c : Ctx} (h : emitFn sigs P gs fn = some c)
    (hwf : fn.body.wf = true) {sc tc : Calls X} (hX : Separate X)
    (href : ∀ f ns w, ConstOk gs w → sc f ns w ≠ .ub → tc f ns w = sc f ns w)
    (hic : ∀ f ns w n w' es, ConstOk gs w → sc f ns w = .ok n w' es → ConstOk gs w')
    {as : List Nat} (ha : ArgsOk fn.params as) (m : Mem X) (hm : ConstOk gs m.w) (n : Nat) :
    Agrees tc as (finish fn c) fn gs m n (runFn sigs sc (globEnv gs) fn n as m.w) := by
  unfold emitFn at h
  split at h
  rotate_left
  · cases h
  rename_i hg
  obtain ⟨hn, hok⟩ := hg
  obtain ⟨c1, h1, h2⟩ : ∃ c1, emitParams 0 fn.params (ctx0 gs) = some c1 ∧ emitS sigs P fn.ret fn.body c1 = some c := bind_some' h
  have hiwr : ∀ (w : X.World) g off n w', ConstOk gs w → constsOf gs g = none → X.wr w g off n = some w' → ConstOk gs w' := by
    intro w g off n w' hi hc hw
    rw [constOk_iff hn] at hi ⊢
    intro x wd k k' hx hr
    have hne : x ≠ g := by intro hc'; rw [hc', hc] at hx; cases hx
    rw [hX w g off n w' x hw hne] at hr
    exact hi x wd k k' hx hr
  have hird : ∀ (w : X.World) g wd n n', ConstOk gs w → constsOf gs g = some (wd, n) → X.rd w g 0 = some n' → n' % 2 ^ wd.bits = n := by
    intro w g wd n n' hi hc hr
    rw [constOk_iff hn] at hi
    exact hi g wd n n' hc hr
  let K : Cfg X := ⟨sigs, P, hP, sc, tc, as, fallback fn, c, ConstOk gs, constsOf gs, href, hic, hiwr, hird⟩
  have w0 := wf_ctx0 gs
  have s0 : Stat K.consts (Γ0 gs) (ctx0 gs) := stat_ctx0 hn hok
  have e1 := sm_emitParams _ _ _ _ w0 h1
  have w1 := e1.wf w0
  obtain ⟨new, s1, p1⟩ := emitParams_ok (K := K) fn.params 0 _ _ _ w0 s0 h1
  obtain ⟨new2, s2, _, _, p2⟩ := emitS_ok (K := K) (rt := fn.ret) fn.body c1 c _ hwf w1 s1 h2
  have e2 := sm_emitS _ _ _ w1 h2
  have hc0 : 0 < c.nb := lt_of_lt_of_le (show 0 < (ctx0 gs).nb from Nat.one_pos) ((e1.toExt'.trans e2.toExt').nb)
  have hEc : Ext' c K.Fc := ⟨Nat.le_refl _, Nat.le_refl _, List.prefix_refl _, fun b => List.prefix_refl _⟩
  obtain ⟨env1, m1, l1, hw1, hsl⟩ := enter_ok (K := K) hc0 none (fun _ => none) m []
  let ob0 : Opd → Obj := fun o => match o with | .cst (.glob g) => .glob g | _ => .loc 0
  have hflat : (Γ0 gs).flatten = gs.map Glob.se := by simp [Γ0]
  have hmem : ∀ {e}, e ∈ (Γ0 gs).flatten → ∃ g, e.o = .cst (.glob g) := by
    intro e he
    rw [hflat] at he
    obtain ⟨g, hg, rfl⟩ := List.mem_map.1 he
    exact ⟨g.name, rfl⟩
  have hd0 : Dyn K (Γ0 gs) ob0 ⟨fun _ _ => none, 0, m.w, []⟩ env1 m1 := by
    constructor
    · exact hsl
    · intro e he i hi
      obtain ⟨g, hg⟩ := hmem he
      rw [hg] at hi; cases hi
    · intro e he g hg
      rw [hg]
    · intro e he e' he' hh
      obtain ⟨g, hg⟩ := hmem he
      obtain ⟨g', hg'⟩ := hmem he'
      rw [hg, hg'] at hh ⊢
      simp only [ob0, Obj.glob.injEq] at hh
      rw [hh]
    · intro e he k l hk
      obtain ⟨g, hg⟩ := hmem he
      rw [hg] at hk; cases hk
    · intro e he l p v hv hl
      obtain ⟨g, hg⟩ := hmem he
      rw [hg] at hl; cases hl
    · exact hw1
    · exact hm
  have hden : den (Γ0 gs) ob0 = [] :: [globEnv gs] := by
    simp only [den, Γ0, globEnv, List.map_cons, List.map_nil, List.map_map]
    rfl
  obtain ⟨ob1, k1, pred1, env2, m2, S1, b1, l2, hd1⟩ := p1 (e2.toExt'.trans hEc) ob0 none env1 m1 _ as hd0 rfl ha
  have hrun := run_brun tc as (F := finish fn c) (code := c.full) (fb := fallback fn) (fun b => rfl) (by
    intro b rs hb
    have wc := e2.wf w1
    unfold Ctx.full at hb
    split at hb
    rotate_left
    · cases hb
    rw [Option.some.injEq] at hb
    subst hb
    split
    · intro r hr
      have := List.mem_of_mem_tail hr
      rcases List.mem_append.1 this with h | h
      · rw [allocas_eq] at h
        obtain ⟨p, _, rfl⟩ := List.mem_map.1 h
        rfl
      · exact wc.zero r h
    · exact wc.phi b)
  have hRl : ∀ k t, K.brun k (K.bdry 0 none (fun _ => none) m []) = .inl t →
      SSA.run (irL tc as) (finish fn c) k (SSA.start (irL tc as) (finish fn c) m) = .inl ⟨t.pred, t.b, t.env, t.m, t.tr⟩ :=
    fun k t h => run_inl tc as (hrun k _) h
  have hRr : ∀ k b, K.brun k (K.bdry 0 none (fun _ => none) m []) = .inr b →
      SSA.run (irL tc as) (finish fn c) k (SSA.start (irL tc as) (finish fn c) m) = .inr b :=
    fun k t h => run_inr tc as (hrun k _) h
  have hL : K.Leads (k1 + 0) (K.bdry 0 none (fun _ => none) m []) (K.pt c1 pred1 env2 m2 S1.tr) := Leads.trans l1 l2
  have hS := SMeets.lead hL (p2 hEc ob1 pred1 env2 m2 S1 n hd1)
  have hrf : runFn sigs sc (globEnv gs) fn n as m.w = match exec sigs sc fn.ret n (den (addTop new (Γ0 gs)) ob1) fn.body S1 with
      | .ok (.normal _) s => .ret none s.w s.tr
      | .ok (.ret v) s => .ret v s.w s.tr
      | .ok _ _ => .ub
      | .ub => .ub
      | .halt h tr => .halt h tr
      | .more tr => .more tr := by
    unfold runFn
    rw [← hden, b1]
    simp only []
    rcases exec sigs sc fn.ret n (den (addTop new (Γ0 gs)) ob1) fn.body S1 with ⟨f, S⟩ | _ | ⟨hh, tr⟩ | tr
    · cases f <;> rfl
    · rfl
    · rfl
    · rfl
  rw [hrf]
  have hKe : exec K.sigs K.sc fn.ret n (den (addTop new (Γ0 gs)) ob1) fn.body S1 = exec sigs sc fn.ret n (den (addTop new (Γ0 gs)) ob1) fn.body S1 := rfl
  rw [hKe] at hS
  generalize hr : exec sigs sc fn.ret n (den (addTop new (Γ0 gs)) ob1) fn.body S1 = r at hS
  rcases r with ⟨f, S⟩ | _ | ⟨hh, tr⟩ | tr
  · cases f with
    | normal ρ =>
      obtain ⟨k, pred, env, m', ob', hl, hd, _, _⟩ := hS
      have hend : K.brun 1 (K.pt c pred env m' S.tr) = .inr (.ret (result fn none) m' S.tr) := by
        have h0 : (K.Fc.code c.cur).drop (c.code c.cur).length = [] := List.drop_length
        simp only [Cfg.brun, Cfg.pt, Fe.brun, h0]
        have := runCode_end tc as fn c.cur pred env m' S.tr
        show (match runCode tc as (fallback fn) c.cur [] pred env m' S.tr with | .inr b => _ | .inl t => _) = _
        rw [this]
      refine ⟨hd.inv, m', ⟨1 + k, ?_⟩, hd.w⟩
      exact hRr _ _ (Leads.run hl Nat.one_pos hend)
    | brk => trivial
    | cont => trivial
    | ret v =>
      obtain ⟨k, m', h1, h2, h3⟩ := hS
      refine ⟨h3, m', ⟨k, ?_⟩, h2⟩
      refine (hRr _ _ h1).trans ?_
      exact congrArg (fun v => Sum.inr (SSA.Beh.ret v m' S.tr)) (retV_result (retOk_exec fn.body _ _ _ _ hr))
  · trivial
  · obtain ⟨k, h1⟩ := hS
    refine ⟨k, ?_⟩
    exact hRr _ _ h1
  · obtain ⟨k, t, h1, h2, h3⟩ := hS
    exact ⟨k, _, h1, hRl _ _ h2, h3⟩

end
end Cmmc.Fe
