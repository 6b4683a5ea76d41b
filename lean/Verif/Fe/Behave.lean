import Verif.Fe.Prog
/-!
# Behaviours of source functions: the iteration bound only limits how far we look
-/
namespace Cmmc.Fe
open Cmmc

section
variable {X : Ext}

/-- `r'` looks further than `r` -/
def SOut.Le (r r' : SOut X) : Prop := (∃ tr, r = .more tr) ∨ r' = r

theorem SOut.Le.rfl {r : SOut X} : r.Le r := Or.inr (Eq.refl r)

theorem Le.bindS {α : Type} {o : Out X α} {f f' : α → SSt X → SOut X} (h : ∀ a S, (f a S).Le (f' a S)) : (o.bindS f).Le (o.bindS f') := by
  rcases o with ⟨a, S⟩ | _ | ⟨h, tr⟩
  · exact h a S
  · exact SOut.Le.rfl
  · exact SOut.Le.rfl

theorem Le.bind {o o' : SOut X} {f f' : Fin → SSt X → SOut X} (ho : o.Le o') (h : ∀ a S, (f a S).Le (f' a S)) : (o.bind f).Le (o'.bind f') := by
  rcases ho with ⟨tr, rfl⟩ | rfl
  · exact Or.inl ⟨tr, rfl⟩
  · rcases o' with ⟨a, S⟩ | _ | ⟨h, tr⟩ | tr
    · exact h a S
    · exact SOut.Le.rfl
    · exact SOut.Le.rfl
    · exact SOut.Le.rfl

theorem Le.bind1 {o o' : SOut X} {f : Fin → SSt X → SOut X} (ho : o.Le o') : (o.bind f).Le (o'.bind f) := Le.bind ho (fun _ _ => SOut.Le.rfl)

theorem le_loop {ρ : SEnv} {c : SSt X → Out X Bool} {b b' : SSt X → SOut X} {it : SSt X → Out X QV} (hb : ∀ S, (b S).Le (b' S)) :
    ∀ (n : Nat) (S : SSt X), (loop ρ c b it n S).Le (loop ρ c b' it (n + 1) S) := by
  intro n
  induction n with
  | zero => intro S; exact Or.inl ⟨S.tr, rfl⟩
  | succ n ih =>
    intro S
    rw [loop, loop]
    refine Le.bindS (fun t S => ?_)
    cases t with
    | false => exact SOut.Le.rfl
    | true =>
      simp only [if_true]
      refine Le.bind (hb S) (fun a S => ?_)
      cases a with
      | ret v => exact SOut.Le.rfl
      | brk => exact SOut.Le.rfl
      | cont => exact Le.bindS (fun _ S => ih S)
      | normal ρ' => exact Le.bindS (fun _ S => ih S)

theorem le_dloop {ρ : SEnv} {c : SSt X → Out X Bool} {b b' : SSt X → SOut X} (hb : ∀ S, (b S).Le (b' S)) :
    ∀ (n : Nat) (S : SSt X), (dloop ρ b c n S).Le (dloop ρ b' c (n + 1) S) := by
  intro n
  induction n with
  | zero => intro S; exact Or.inl ⟨S.tr, rfl⟩
  | succ n ih =>
    intro S
    rw [dloop, dloop]
    refine Le.bind (hb S) (fun a S => ?_)
    have hk : ∀ S, ((c S).bindS fun t s => if t then dloop ρ b c n s else .ok (.normal ρ) s).Le
        ((c S).bindS fun t s => if t then dloop ρ b' c (n + 1) s else .ok (.normal ρ) s) := by
      intro S
      refine Le.bindS (fun t S => ?_)
      cases t with
      | false => exact SOut.Le.rfl
      | true => exact ih S
    cases a with
    | ret v => exact SOut.Le.rfl
    | brk => exact SOut.Le.rfl
    | cont => exact hk S
    | normal ρ' => exact hk S

variable {sigs : Sigs} {call : Calls X} {rt : Option IT} {n : Nat}

theorem le_exec : ∀ (s : Stmt) (ρ : SEnv) (S : SSt X), (exec sigs call rt n ρ s S).Le (exec sigs call rt (n + 1) ρ s S)
  | .skip, ρ, S => SOut.Le.rfl
  | .seq a b, ρ, S => by
    rw [exec, exec]
    refine Le.bind (le_exec a ρ S) (fun f S => ?_)
    cases f with
    | normal ρ' => exact le_exec b ρ' S
    | _ => exact SOut.Le.rfl
  | .expr e, ρ, S => by rw [exec, exec]; exact SOut.Le.rfl
  | .decl x (.int w) sg cst none, ρ, S => by rw [exec, exec]; exact SOut.Le.rfl
  | .decl x (.int w) sg cst (some e), ρ, S => by rw [exec, exec]; exact SOut.Le.rfl
  | .decl x (.arr k e) sg cst none, ρ, S => by rw [exec, exec]; exact SOut.Le.rfl
  | .decl x (.arr k e) sg cst (some i), ρ, S => by rw [exec, exec]; exact SOut.Le.rfl
  | .scope a, ρ, S => by rw [exec, exec]; exact Le.bind1 (le_exec a _ S)
  | .ifThen c a, ρ, S => by
    rw [exec, exec]
    refine Le.bindS (fun t S => ?_)
    cases t with
    | true => exact Le.bind1 (le_exec a _ S)
    | false => exact SOut.Le.rfl
  | .ifElse c a b, ρ, S => by
    rw [exec, exec]
    refine Le.bindS (fun t S => ?_)
    cases t with
    | true => exact Le.bind1 (le_exec a _ S)
    | false => exact Le.bind1 (le_exec b _ S)
  | .while c a, ρ, S => by rw [exec, exec]; exact le_loop (fun S => le_exec a ρ S) n S
  | .doWhile a c, ρ, S => by rw [exec, exec]; exact le_dloop (fun S => le_exec a ρ S) n S
  | .for i c it a, ρ, S => by
    rw [exec, exec]
    refine Le.bind (le_exec i _ S) (fun f S => ?_)
    cases f with
    | normal ρ' => exact Le.bind1 (le_loop (fun S => le_exec a ρ' S) n S)
    | _ => exact SOut.Le.rfl
  | .brk, ρ, S => SOut.Le.rfl
  | .cont, ρ, S => SOut.Le.rfl
  | .ret none, ρ, S => by rw [exec, exec]; exact SOut.Le.rfl
  | .ret (some e), ρ, S => by
    cases rt with
    | none => rw [exec, exec]; exact SOut.Le.rfl
    | some t => rw [exec, exec]; exact SOut.Le.rfl

/-- the outcome does not depend on the bound once it is reached -/
theorem runFn_mono {globs : List (String × Ent)} {fn : Fn} {as : List Nat} {w : X.World} {k n : Nat} (hkn : k ≤ n)
    (h : ∀ tr, runFn sigs call globs fn k as w ≠ .more tr) : runFn sigs call globs fn n as w = runFn sigs call globs fn k as w := by
  induction n, hkn using Nat.le_induction with
  | base => rfl
  | succ n hn ih =>
    rw [← ih]
    rw [← ih] at h
    unfold runFn at h ⊢
    rcases hb : bindParams ([] :: [globs]) fn.params as ⟨fun _ _ => none, 0, w, []⟩ with _ | ⟨ρ, s⟩
    · rfl
    · rw [hb] at h
      simp only [] at h ⊢
      rcases le_exec (sigs := sigs) (call := call) (rt := fn.ret) (n := n) fn.body ρ s with ⟨tr, he⟩ | he
      · rw [he] at h; exact absurd rfl (h tr)
      · rw [he]

/-! ## behaviours -/

variable (sigs call)

/-- the call ends with `r` -/
def SEnds (globs : List (String × Ent)) (fn : Fn) (as : List Nat) (w : X.World) (r : FOut X) : Prop :=
  (∀ tr, r ≠ .more tr) ∧ ∃ n, runFn sigs call globs fn n as w = r

/-- the call never ends -/
def SDiverges (globs : List (String × Ent)) (fn : Fn) (as : List Nat) (w : X.World) : Prop :=
  ∀ n, ∃ tr, runFn sigs call globs fn n as w = .more tr

/-- at some moment `tr` has happened -/
def SEmits (globs : List (String × Ent)) (fn : Fn) (as : List Nat) (w : X.World) (tr : List X.E) : Prop :=
  ∃ n tr', runFn sigs call globs fn n as w = .more tr' ∧ tr <+: tr'

variable {sigs call}

theorem source_det {globs : List (String × Ent)} {fn : Fn} {as : List Nat} {w : X.World} {r r' : FOut X}
    (h : SEnds sigs call globs fn as w r) (h' : SEnds sigs call globs fn as w r') : r = r' := by
  obtain ⟨h1, n, rfl⟩ := h
  obtain ⟨h2, n', rfl⟩ := h'
  rcases Nat.le_total n n' with hn | hn
  · exact (runFn_mono hn h1).symm
  · exact runFn_mono hn h2

theorem source_total (sigs : Sigs) (call : Calls X) (globs : List (String × Ent)) (fn : Fn) (as : List Nat) (w : X.World) :
    (∃ r, SEnds sigs call globs fn as w r) ∨ SDiverges sigs call globs fn as w := by
  by_cases h : ∃ n, ∀ tr, runFn sigs call globs fn n as w ≠ .more tr
  · obtain ⟨n, h⟩ := h
    exact Or.inl ⟨_, h, n, rfl⟩
  · refine Or.inr (fun n => ?_)
    by_contra hc
    exact h ⟨n, fun tr ht => hc ⟨tr, ht⟩⟩

theorem run_before {L : SSA.Lang} {F : L.F} {s t : SSA.St L} {n k : Nat} (h : SSA.run L F (n + k) s = .inl t) :
    ∃ t', SSA.run L F n s = .inl t' := by
  rw [SSA.run_add] at h
  rcases hr : SSA.run L F n s with t' | b
  · exact ⟨t', rfl⟩
  · rw [hr] at h; cases h

/-- The code of a function does what the function does: it returns the same value with the same effects on the world, does not come back
    if a call it makes does not come back, runs for ever if the source does, and has emitted the same events at any time. No claim is
    made if the source has undefined behaviour. -/
theorem C61_function {P : Wd} (hP : 32 ≤ P.bits) {gs : List Glob} {fn : Fn} {c : Ctx} (h : emitFn sigs P gs fn = some c)
    (hwf : fn.body.wf = true) {tc : Calls X} (hX : Separate X)
    (href : ∀ f ns w, ConstOk gs w → call f ns w ≠ .ub → tc f ns w = call f ns w)
    (hic : ∀ f ns w n w' es, ConstOk gs w → call f ns w = .ok n w' es → ConstOk gs w')
    {as : List Nat} (ha : ArgsOk fn.params as) (m : Mem X) (hm : ConstOk gs m.w) :
    (∀ v w' tr, SEnds sigs call (globEnv gs) fn as m.w (.ret v w' tr) →
      ∃ m', SSA.Ends (irL tc as) (finish fn c) m (.ret (result fn v) m' tr) ∧ m'.w = w') ∧
    (∀ hh tr, SEnds sigs call (globEnv gs) fn as m.w (.halt hh tr) → SSA.Ends (irL tc as) (finish fn c) m (.halt hh tr)) ∧
    (SDiverges sigs call (globEnv gs) fn as m.w → SSA.Diverges (irL tc as) (finish fn c) m ∧
      ∀ tr, SEmits sigs call (globEnv gs) fn as m.w tr ↔ SSA.Emits (irL tc as) (finish fn c) m tr) := by
  have key := fn_correct hP h hwf hX href hic ha m hm
  refine ⟨?_, ?_, ?_⟩
  · rintro v w' tr ⟨_, n, hr⟩
    have := key n
    rw [hr] at this
    exact this.2
  · rintro hh tr ⟨_, n, hr⟩
    have := key n
    rw [hr] at this
    exact this
  · intro hd
    have hk : ∀ n, ∃ tr k s, n < k ∧ runFn sigs call (globEnv gs) fn n as m.w = .more tr ∧
        SSA.run (irL tc as) (finish fn c) k (SSA.start (irL tc as) (finish fn c) m) = .inl s ∧ s.tr = tr := by
      intro n
      obtain ⟨tr, ht⟩ := hd n
      have := key n
      rw [ht] at this
      obtain ⟨k, s, h1, h2, h3⟩ := this
      exact ⟨tr, k, s, h1, ht, h2, h3⟩
    refine ⟨fun n => ?_, fun tr => ⟨?_, ?_⟩⟩
    · obtain ⟨_, k, s, hk', _, hs, _⟩ := hk n
      obtain ⟨j, rfl⟩ := Nat.exists_eq_add_of_lt hk'
      exact run_before (L := irL tc as) (F := finish fn c) (by rw [Nat.add_assoc] at hs; exact hs)
    · rintro ⟨n, tr', ht, hp⟩
      obtain ⟨tr2, k, s, _, ht2, hs, hst⟩ := hk n
      rw [ht, FOut.more.injEq] at ht2
      exact ⟨k, s, hs, by rw [hst, ← ht2]; exact hp⟩
    · rintro ⟨n, s, hs, hp⟩
      obtain ⟨tr2, k, s2, hlt, ht2, hs2, hst⟩ := hk n
      refine ⟨n, tr2, ht2, hp.trans ?_⟩
      rw [← hst]
      exact SSA.run_tr_le hs hs2 (Nat.le_of_lt hlt)

end
end Cmmc.Fe
