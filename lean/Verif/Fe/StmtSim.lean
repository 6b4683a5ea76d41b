import Verif.Fe.StmtState
/-!
# Statements: what the emitted code has to do, and how loops compose
-/
namespace Cmmc.Fe
open Cmmc

/-- the value a function returns: a bit pattern of the return type -/
def retV : Option IT → Option Int → Option V
  | some t, some x => some (.int (raw t.w x))
  | _, _ => none

section
variable {X : Ext} (K : Cfg X) (rt : Option IT)

/-- what the target does where the source statement ends with `r`: on normal completion it reaches the insert point of `c'`; on `break`
    and `continue` the blocks on top of `lb`; if the source needs more than `n` iterations the target runs for more than `n` blocks -/
def Cfg.SMeets (Γ Γ' : List (List SE)) (ob : Opd → Obj) (s : PS X) (lb : List (Nat × Nat)) (c' : Ctx) (n : Nat) (r : SOut X) : Prop :=
  match r with
  | .ok (.normal ρ) S' => ∃ k pred env m ob', K.Leads k s (K.pt c' pred env m S'.tr) ∧ Dyn K Γ' ob' S' env m ∧ ρ = den Γ' ob' ∧
      ∀ e ∈ Γ.flatten, ob' e.o = ob e.o
  | .ok .brk S' => ∃ p l k pred env m, lb = p :: l ∧ 0 < k ∧ K.brun k s = .inl (K.bdry p.2 pred env m S'.tr) ∧ Dyn K Γ ob S' env m
  | .ok .cont S' => ∃ p l k pred env m, lb = p :: l ∧ 0 < k ∧ K.brun k s = .inl (K.bdry p.1 pred env m S'.tr) ∧ Dyn K Γ ob S' env m
  | .ok (.ret v) S' => ∃ k m, K.brun k s = .inr (.ret (retV rt v) m S'.tr) ∧ m.w = S'.w ∧ K.inv S'.w
  | .ub => True
  | .halt h tr => ∃ k, K.brun k s = .inr (.halt h tr)
  | .more tr => ∃ k t, n < k ∧ K.brun k s = .inl t ∧ t.tr = tr

variable {K rt} {Γ Γ' Γ1 Γ2 : List (List SE)} {ob ob1 : Opd → Obj} {s s' : PS X} {lb : List (Nat × Nat)} {c1 c2 c' : Ctx} {n : Nat}

theorem SMeets.lead {k : Nat} {r : SOut X} (hl : K.Leads k s s') (h : K.SMeets rt Γ Γ' ob s' lb c' n r) : K.SMeets rt Γ Γ' ob s lb c' n r := by
  rcases r with ⟨f, S⟩ | _ | ⟨hh, tr⟩ | tr
  · cases f with
    | normal ρ =>
      obtain ⟨k', pred, env, m, ob', h1, h2⟩ := h
      exact ⟨_, pred, env, m, ob', Leads.trans hl h1, h2⟩
    | brk =>
      obtain ⟨p, l, k', pred, env, m, h0, h1, h2, h3⟩ := h
      exact ⟨p, l, k' + k, pred, env, m, h0, by omega, Leads.run hl h1 h2, h3⟩
    | cont =>
      obtain ⟨p, l, k', pred, env, m, h0, h1, h2, h3⟩ := h
      exact ⟨p, l, k' + k, pred, env, m, h0, by omega, Leads.run hl h1 h2, h3⟩
    | ret v =>
      obtain ⟨k', m, h1, h2⟩ := h
      exact ⟨k' + k, m, Leads.run hl (brun_pos h1) h1, h2⟩
  · trivial
  · obtain ⟨k', h1⟩ := h
    exact ⟨k' + k, Leads.run hl (brun_pos h1) h1⟩
  · obtain ⟨k', t, h1, h2, h3⟩ := h
    exact ⟨k' + k, t, by omega, Leads.run hl (by omega) h2, h3⟩

/-- fewer variables -/
theorem SMeets.sub {r : SOut X} (h : K.SMeets rt Γ1 Γ' ob1 s lb c' n r) (hs : ∀ e ∈ Γ.flatten, e ∈ Γ1.flatten)
    (ho : ∀ e ∈ Γ.flatten, ob1 e.o = ob e.o) : K.SMeets rt Γ Γ' ob s lb c' n r := by
  rcases r with ⟨f, S⟩ | _ | ⟨hh, tr⟩ | tr
  · cases f with
    | normal ρ =>
      obtain ⟨k', pred, env, m, ob', h1, h2, h3, h4⟩ := h
      exact ⟨k', pred, env, m, ob', h1, h2, h3, fun e he => (h4 e (hs e he)).trans (ho e he)⟩
    | brk =>
      obtain ⟨p, l, k', pred, env, m, h0, h1, h2, h3⟩ := h
      exact ⟨p, l, k', pred, env, m, h0, h1, h2, h3.sub hs ho⟩
    | cont =>
      obtain ⟨p, l, k', pred, env, m, h0, h1, h2, h3⟩ := h
      exact ⟨p, l, k', pred, env, m, h0, h1, h2, h3.sub hs ho⟩
    | ret v => exact h
  · trivial
  · exact h
  · exact h

/-- a normal end -/
theorem SMeets.done {k : Nat} {S : SSt X} {pred : Option Nat} {env : Env} {m : Mem X} (hl : K.Leads k s (K.pt c' pred env m S.tr))
    (hd : Dyn K Γ' ob1 S env m) (ho : ∀ e ∈ Γ.flatten, ob1 e.o = ob e.o) :
    K.SMeets rt Γ Γ' ob s lb c' n (.ok (.normal (den Γ' ob1)) S) := ⟨k, pred, env, m, ob1, hl, hd, rfl, ho⟩

/-- an expression, then the rest -/
theorem Meets.bindS {α : Type} {nv : Nat} {env : Env} {r : Out X α} {R : Env → α → Prop} {f : α → SSt X → SOut X}
    (h : K.Meets Γ ob s nv env c1 r R)
    (h' : ∀ a S1 pred env1 m1, r = .ok a S1 → Dyn K Γ ob S1 env1 m1 → R env1 a →
      K.SMeets rt Γ Γ' ob (K.pt c1 pred env1 m1 S1.tr) lb c2 n (f a S1)) : K.SMeets rt Γ Γ' ob s lb c2 n (r.bindS f) := by
  cases r with
  | ok a S1 =>
    obtain ⟨k, pred, env1, m1, h1, h2, h3, h4⟩ := h
    exact SMeets.lead h1 (h' a S1 pred env1 m1 rfl h2 h4)
  | ub => trivial
  | halt h tr => exact h

/-- a statement, then the rest -/
theorem SMeets.bind {r : SOut X} {f : Fin → SSt X → SOut X} (h : K.SMeets rt Γ Γ1 ob s lb c1 n r)
    (hf : ∀ g S, (∀ ρ, g ≠ .normal ρ) → f g S = .ok g S)
    (h' : ∀ S1 pred env1 m1 ob1, Dyn K Γ1 ob1 S1 env1 m1 → (∀ e ∈ Γ.flatten, ob1 e.o = ob e.o) →
      K.SMeets rt Γ Γ2 ob (K.pt c1 pred env1 m1 S1.tr) lb c2 n (f (.normal (den Γ1 ob1)) S1)) : K.SMeets rt Γ Γ2 ob s lb c2 n (r.bind f) := by
  rcases r with ⟨g, S⟩ | _ | ⟨hh, tr⟩ | tr
  · cases g with
    | normal ρ =>
      obtain ⟨k', pred, env, m, ob', h1, h2, h3, h4⟩ := h
      rw [h3]
      exact SMeets.lead h1 (h' S pred env m ob' h2 h4)
    | brk => simp only [SOut.bind]; rw [hf _ _ (by simp)]; exact h
    | cont => simp only [SOut.bind]; rw [hf _ _ (by simp)]; exact h
    | ret v => simp only [SOut.bind]; rw [hf _ _ (by simp)]; exact h
  · trivial
  · exact h
  · exact h

/-- `Fin.leave` -/
theorem SMeets.leave {r : SOut X} (h : K.SMeets rt Γ Γ1 ob s lb c1 n r)
    (h' : ∀ S1 pred env1 m1 ob1, Dyn K Γ1 ob1 S1 env1 m1 → (∀ e ∈ Γ.flatten, ob1 e.o = ob e.o) →
      K.SMeets rt Γ Γ2 ob (K.pt c1 pred env1 m1 S1.tr) lb c2 n (.ok (.normal (den Γ ob)) S1)) :
    K.SMeets rt Γ Γ2 ob s lb c2 n (r.bind fun f s => .ok (f.leave (den Γ ob)) s) := by
  refine SMeets.bind h (fun g S hg => ?_) h'
  cases g with
  | normal ρ => exact absurd rfl (hg ρ)
  | _ => rfl

/-- the same objects, the same environment -/
theorem den_congr (h : ∀ e ∈ Γ.flatten, ob1 e.o = ob e.o) : den Γ ob1 = den Γ ob := by
  unfold den
  refine List.map_congr_left (fun sc hsc => List.map_congr_left (fun e he => ?_))
  rw [h e (List.mem_flatten.2 ⟨sc, hsc, he⟩)]

/-! ## loops -/

variable (K rt) in
/-- the target goes from `s` to the beginning of a block that `dst` allows -/
def Cfg.Bd (Γ : List (List SE)) (ob : Opd → Obj) (s : PS X) (n : Nat) (dst : Fin → Nat → Prop) (r : SOut X) : Prop :=
  match r with
  | .ok (.ret v) S' => ∃ k m, K.brun k s = .inr (.ret (retV rt v) m S'.tr) ∧ m.w = S'.w ∧ K.inv S'.w
  | .ok f S' => ∃ b k pred env m, dst f b ∧ K.brun k s = .inl (K.bdry b pred env m S'.tr) ∧ Dyn K Γ ob S' env m
  | .ub => True
  | .halt h tr => ∃ k, K.brun k s = .inr (.halt h tr)
  | .more tr => ∃ k t, n ≤ k ∧ K.brun k s = .inl t ∧ t.tr = tr

variable (K) in
def Cfg.Od {α : Type} (Γ : List (List SE)) (ob : Opd → Obj) (s : PS X) (lo : Nat) (dst : α → Nat) (r : Out X α) : Prop :=
  match r with
  | .ok a S' => ∃ k pred env m, lo ≤ k ∧ K.brun k s = .inl (K.bdry (dst a) pred env m S'.tr) ∧ Dyn K Γ ob S' env m
  | .ub => True
  | .halt h tr => ∃ k, K.brun k s = .inr (.halt h tr)

theorem Bd.run {dst : Fin → Nat → Prop} {r : SOut X} {k n' : Nat} (hk : K.brun k s = .inl s') (hn : n' ≤ n + k) (h : K.Bd rt Γ ob s' n dst r) :
    K.Bd rt Γ ob s n' dst r := by
  have key : ∀ j, K.brun (k + j) s = K.brun j s' := fun j => by rw [brun_add, hk]
  rcases r with ⟨f, S⟩ | _ | ⟨hh, tr⟩ | tr
  · cases f with
    | ret v =>
      obtain ⟨k', m, h1, h2⟩ := h
      exact ⟨k + k', m, by rw [key]; exact h1, h2⟩
    | normal ρ =>
      obtain ⟨b, k', pred, env, m, h0, h1, h2⟩ := h
      exact ⟨b, k + k', pred, env, m, h0, by rw [key]; exact h1, h2⟩
    | brk =>
      obtain ⟨b, k', pred, env, m, h0, h1, h2⟩ := h
      exact ⟨b, k + k', pred, env, m, h0, by rw [key]; exact h1, h2⟩
    | cont =>
      obtain ⟨b, k', pred, env, m, h0, h1, h2⟩ := h
      exact ⟨b, k + k', pred, env, m, h0, by rw [key]; exact h1, h2⟩
  · trivial
  · obtain ⟨k', h1⟩ := h
    exact ⟨k + k', by rw [key]; exact h1⟩
  · obtain ⟨k', t, h1, h2, h3⟩ := h
    exact ⟨k + k', t, by omega, by rw [key]; exact h2, h3⟩

theorem Od.bindS {α : Type} {lo : Nat} {d : α → Nat} {dst : Fin → Nat → Prop} {r : Out X α} {f : α → SSt X → SOut X} (h : K.Od Γ ob s lo d r)
    {n' : Nat} (hn : n' ≤ n + lo)
    (h' : ∀ a S1 pred env1 m1, Dyn K Γ ob S1 env1 m1 → K.Bd rt Γ ob (K.bdry (d a) pred env1 m1 S1.tr) n dst (f a S1)) :
    K.Bd rt Γ ob s n' dst (r.bindS f) := by
  cases r with
  | ok a S1 =>
    obtain ⟨k, pred, env1, m1, h0, h1, h2⟩ := h
    exact Bd.run h1 (by omega) (h' a S1 pred env1 m1 h2)
  | ub => trivial
  | halt h tr => exact h

/-- where the body of a loop leads -/
def bodyDst (It N : Nat) : Fin → Nat → Prop := fun f b => match f with
  | .brk => b = N
  | _ => b = It

theorem loop_ok {ρ : SEnv} {C : SSt X → Out X Bool} {B : SSt X → SOut X} {I : SSt X → Out X QV} {H Bb It N N0 : Nat}
    (hC : ∀ pred env m S, Dyn K Γ ob S env m → K.Od Γ ob (K.bdry H pred env m S.tr) 1 (fun t => if t then Bb else N) (C S))
    (hB : ∀ pred env m S, Dyn K Γ ob S env m → K.Bd rt Γ ob (K.bdry Bb pred env m S.tr) N0 (bodyDst It N) (B S))
    (hI : ∀ pred env m S, Dyn K Γ ob S env m → K.Od Γ ob (K.bdry It pred env m S.tr) 0 (fun _ => H) (I S)) :
    ∀ n, n ≤ N0 → ∀ pred env m S, Dyn K Γ ob S env m →
      K.Bd rt Γ ob (K.bdry H pred env m S.tr) n (fun f b => f = .normal ρ ∧ b = N) (loop ρ C B I n S) := by
  intro n
  induction n with
  | zero =>
    intro _ pred env m S hd
    exact ⟨0, _, le_rfl, rfl, rfl⟩
  | succ n ih =>
    intro hn pred env m S hd
    rw [loop]
    refine Od.bindS (hC pred env m S hd) (n := n) le_rfl (fun t S1 pred1 env1 m1 hd1 => ?_)
    cases t with
    | false => exact ⟨N, 0, pred1, env1, m1, ⟨rfl, rfl⟩, rfl, hd1⟩
    | true =>
      have hb := hB pred1 env1 m1 S1 hd1
      simp only [if_true] at hb ⊢
      have next : ∀ S2 k pred2 env2 m2, K.brun k (K.bdry Bb pred1 env1 m1 S1.tr) = .inl (K.bdry It pred2 env2 m2 S2.tr) →
          Dyn K Γ ob S2 env2 m2 → K.Bd rt Γ ob (K.bdry Bb pred1 env1 m1 S1.tr) n (fun f b => f = .normal ρ ∧ b = N)
            ((I S2).bindS fun _ s => loop ρ C B I n s) := by
        intro S2 k pred2 env2 m2 h1 h2
        refine Bd.run h1 (Nat.le_add_right n k) ?_
        refine Od.bindS (hI pred2 env2 m2 S2 h2) (n := n) (Nat.le_add_right n 0) (fun _ S3 pred3 env3 m3 hd3 => ?_)
        exact ih (by omega) pred3 env3 m3 S3 hd3
      rcases hBS : B S1 with ⟨f, S2⟩ | _ | ⟨hh, tr⟩ | tr
      · rw [hBS] at hb
        cases f with
        | ret v => exact hb
        | brk =>
          obtain ⟨b, k, pred2, env2, m2, h0, h1, h2⟩ := hb
          exact ⟨b, k, pred2, env2, m2, ⟨rfl, h0⟩, h1, h2⟩
        | cont =>
          obtain ⟨b, k, pred2, env2, m2, h0, h1, h2⟩ := hb
          have h0' : b = It := h0
          rw [h0'] at h1
          exact next S2 k pred2 env2 m2 h1 h2
        | normal ρ' =>
          obtain ⟨b, k, pred2, env2, m2, h0, h1, h2⟩ := hb
          have h0' : b = It := h0
          rw [h0'] at h1
          exact next S2 k pred2 env2 m2 h1 h2
      · trivial
      · rw [hBS] at hb; exact hb
      · rw [hBS] at hb
        obtain ⟨k, t, h1, h2⟩ := hb
        exact ⟨k, t, by omega, h2⟩

theorem dloop_ok {ρ : SEnv} {C : SSt X → Out X Bool} {B : SSt X → SOut X} {H Bb N N0 : Nat}
    (hC : ∀ pred env m S, Dyn K Γ ob S env m → K.Od Γ ob (K.bdry H pred env m S.tr) 1 (fun t => if t then Bb else N) (C S))
    (hB : ∀ pred env m S, Dyn K Γ ob S env m → K.Bd rt Γ ob (K.bdry Bb pred env m S.tr) N0 (bodyDst H N) (B S)) :
    ∀ n, n ≤ N0 → ∀ pred env m S, Dyn K Γ ob S env m →
      K.Bd rt Γ ob (K.bdry Bb pred env m S.tr) n (fun f b => f = .normal ρ ∧ b = N) (dloop ρ B C n S) := by
  intro n
  induction n with
  | zero =>
    intro _ pred env m S hd
    exact ⟨0, _, le_rfl, rfl, rfl⟩
  | succ n ih =>
    intro hn pred env m S hd
    rw [dloop]
    have hb := hB pred env m S hd
    have next : ∀ S2 k pred2 env2 m2, K.brun k (K.bdry Bb pred env m S.tr) = .inl (K.bdry H pred2 env2 m2 S2.tr) →
        Dyn K Γ ob S2 env2 m2 → K.Bd rt Γ ob (K.bdry Bb pred env m S.tr) (n + 1) (fun f b => f = .normal ρ ∧ b = N)
          ((C S2).bindS fun t s => if t then dloop ρ B C n s else .ok (.normal ρ) s) := by
      intro S2 k pred2 env2 m2 h1 h2
      refine Bd.run h1 (Nat.le_add_right (n + 1) k) ?_
      refine Od.bindS (hC pred2 env2 m2 S2 h2) (n := n) le_rfl (fun t S3 pred3 env3 m3 hd3 => ?_)
      cases t with
      | true => exact ih (by omega) pred3 env3 m3 S3 hd3
      | false => exact ⟨N, 0, pred3, env3, m3, ⟨rfl, rfl⟩, rfl, hd3⟩
    rcases hBS : B S with ⟨f, S2⟩ | _ | ⟨hh, tr⟩ | tr
    · rw [hBS] at hb
      cases f with
      | ret v => exact hb
      | brk =>
        obtain ⟨b, k, pred2, env2, m2, h0, h1, h2⟩ := hb
        exact ⟨b, k, pred2, env2, m2, ⟨rfl, h0⟩, h1, h2⟩
      | cont =>
        obtain ⟨b, k, pred2, env2, m2, h0, h1, h2⟩ := hb
        have h0' : b = H := h0
        rw [h0'] at h1
        exact next S2 k pred2 env2 m2 h1 h2
      | normal ρ' =>
        obtain ⟨b, k, pred2, env2, m2, h0, h1, h2⟩ := hb
        have h0' : b = H := h0
        rw [h0'] at h1
        exact next S2 k pred2 env2 m2 h1 h2
    · trivial
    · rw [hBS] at hb; exact hb
    · rw [hBS] at hb
      obtain ⟨k, t, h1, h2⟩ := hb
      exact ⟨k, t, by omega, h2⟩

/-- leaving a loop -/
theorem Bd.smeets {ρ : SEnv} {N : Nat} {r : SOut X} {k : Nat} (hk : K.brun k s = .inl s') (hk0 : 0 < k)
    (h : K.Bd rt Γ ob s' n (fun f b => f = .normal ρ ∧ b = N) r) (hρ : ρ = den Γ ob)
    (hN : ∀ pred env m tr, K.bdry N pred env m tr = K.pt c' pred env m tr) : K.SMeets rt Γ Γ ob s lb c' n r := by
  have key : ∀ j, K.brun (k + j) s = K.brun j s' := fun j => by rw [brun_add, hk]
  rcases r with ⟨f, S⟩ | _ | ⟨hh, tr⟩ | tr
  · cases f with
    | ret v =>
      obtain ⟨k', m, h1, h2⟩ := h
      exact ⟨k + k', m, by rw [key]; exact h1, h2⟩
    | normal ρ' =>
      obtain ⟨b, k', pred, env, m, ⟨h0, h0'⟩, h1, h2⟩ := h
      rw [Fin.normal.injEq] at h0
      rw [h0, hρ]
      rw [h0', hN] at h1
      exact SMeets.done (leads_of_run ((key k').trans h1)) h2 (fun _ _ => rfl)
    | brk => obtain ⟨b, k', pred, env, m, ⟨h0, _⟩, _⟩ := h; cases h0
    | cont => obtain ⟨b, k', pred, env, m, ⟨h0, _⟩, _⟩ := h; cases h0
  · trivial
  · obtain ⟨k', h1⟩ := h
    exact ⟨k + k', by rw [key]; exact h1⟩
  · obtain ⟨k', t, h1, h2, h3⟩ := h
    exact ⟨k + k', t, by omega, by rw [key]; exact h2, h3⟩

/-- a condition with its branch -/
theorem Meets.od {env : Env} {nv : Nat} {r : Out X Bool} {o : Opd} {a b : Nat} (h : K.Meets Γ ob s nv env c1 r (fun env' t => BRel c1.nv env' o t))
    (he : Ext' (c1.term (.cbr o a b)) K.Fc) : K.Od Γ ob s 1 (fun t => if t then a else b) r := by
  cases r with
  | ok t S1 =>
    obtain ⟨k, pred, env1, m1, h1, h2, h3, h4⟩ := h
    have hg := goto_term he (evalTerm_cbr h4 a b) pred m1 S1.tr
    refine ⟨1 + k, _, env1, m1, by omega, Leads.run h1 (by omega) hg, h2⟩
  | ub => trivial
  | halt h tr => exact h

/-- a computation with a jump after it -/
theorem Meets.odBr {α : Type} {env : Env} {nv : Nat} {r : Out X α} {R : Env → α → Prop} {a : Nat} (h : K.Meets Γ ob s nv env c1 r R)
    (he : Ext' (c1.term (.br a)) K.Fc) : K.Od Γ ob s 1 (fun _ => a) r := by
  cases r with
  | ok t S1 =>
    obtain ⟨k, pred, env1, m1, h1, h2, h3, h4⟩ := h
    have hg := goto_term he (show SSA.evalTerm K.L env1 (.br a) = .goto a from rfl) pred m1 S1.tr
    refine ⟨1 + k, _, env1, m1, by omega, Leads.run h1 (by omega) hg, h2⟩
  | ub => trivial
  | halt h tr => exact h

/-- a loop body with the jump after it -/
theorem SMeets.body {r : SOut X} {It N : Nat} {l : List (Nat × Nat)} (h : K.SMeets rt Γ Γ ob s ((It, N) :: l) c1 n r)
    (he : Ext' (c1.term (.br It)) K.Fc) : K.Bd rt Γ ob s n (bodyDst It N) r := by
  rcases r with ⟨f, S⟩ | _ | ⟨hh, tr⟩ | tr
  · cases f with
    | normal ρ =>
      obtain ⟨k', pred, env, m, ob', h1, h2, h3, h4⟩ := h
      have hg := goto_term he (show SSA.evalTerm K.L env (.br It) = .goto It from rfl) pred m S.tr
      exact ⟨It, 1 + k', _, env, m, rfl, Leads.run h1 (by omega) hg, h2.sub (fun _ h => h) h4⟩
    | brk =>
      obtain ⟨p, l', k', pred, env, m, h0, h1, h2, h3⟩ := h
      obtain ⟨rfl, rfl⟩ := List.cons.inj h0
      exact ⟨N, k', pred, env, m, rfl, h2, h3⟩
    | cont =>
      obtain ⟨p, l', k', pred, env, m, h0, h1, h2, h3⟩ := h
      obtain ⟨rfl, rfl⟩ := List.cons.inj h0
      exact ⟨It, k', pred, env, m, rfl, h2, h3⟩
    | ret v => exact h
  · trivial
  · exact h
  · obtain ⟨k', t, h1, h2, h3⟩ := h
    exact ⟨k', t, by omega, h2, h3⟩

/-- a jump to the point `c2` -/
theorem SMeets.goto {c : Ctx} {t : SSA.Term Cst} {r : SOut X} {pred : Option Nat} {env : Env} {m : Mem X} {tr : List X.E}
    (he : Ext' (c.term t) K.Fc) (ht : SSA.evalTerm K.L env t = .goto c2.cur) (h0 : c2.cur ≠ 0)
    (hn : c2.cur < K.Fc.nb) (hc : c2.code c2.cur = []) (h : K.SMeets rt Γ Γ' ob (K.pt c2 (some c.cur) env m tr) lb c' n r) :
    K.SMeets rt Γ Γ' ob (K.pt c pred env m tr) lb c' n r := by
  have h1 := goto_term he ht pred m tr
  rw [bdry_pt h0 hn hc] at h1
  exact SMeets.lead (leads_of_run h1) h

end
end Cmmc.Fe
