import Verif.Rvp.MemProps

/-!
# `earlyFoldStore`, `earlyFoldLoad` and `foldStoreZero`
-/

namespace Cmmc.Rvp

open Cmmc.Isel

/-! ## Well-formed input -/

def PI.isSW : PI → Bool
  | .store .w _ _ _ => true
  | _ => false

def PI.isLW : PI → Bool
  | .load true .w _ _ _ => true
  | _ => false

/-- Up to the next instruction with a side effect, nothing writes a register that a word store reads. -/
def NoClobberSt : List PI → Prop
  | [] => True
  | i :: is => (i.isSW = true → ∀ j ∈ is.takeWhile (fun j => !j.side), ∀ r ∈ i.uses, j.dst ≠ some r) ∧ NoClobberSt is

/-- A word load does not write a register its address is made of, and up to the next instruction with a side effect
nothing else writes one. -/
def NoClobberLd : List PI → Prop
  | [] => True
  | i :: is => (i.isLW = true → (∀ r ∈ i.uses, i.dst ≠ some r) ∧
      ∀ j ∈ is.takeWhile (fun j => !j.side), ∀ r ∈ i.uses, j.dst ≠ some r) ∧ NoClobberLd is

/-- The registers that are given the address of a symbol are virtual and nothing later in the block writes them. -/
def LaOnce : List PI → Prop
  | [] => True
  | i :: is => (∀ d k, i = .la d k → d.isV = true ∧ ∀ j ∈ is, j.dst ≠ some d) ∧ LaOnce is

instance : ∀ is, Decidable (NoClobberSt is)
  | [] => isTrue trivial
  | i :: is => by
    have := instDecidableNoClobberSt is
    unfold NoClobberSt; infer_instance

instance : ∀ is, Decidable (NoClobberLd is)
  | [] => isTrue trivial
  | i :: is => by
    have := instDecidableNoClobberLd is
    unfold NoClobberLd; infer_instance

theorem noClobberSt_app : ∀ (a b : List PI), NoClobberSt (a ++ b) → NoClobberSt b
  | [], _, h => h
  | _ :: a, b, h => noClobberSt_app a b h.2

theorem noClobberLd_app : ∀ (a b : List PI), NoClobberLd (a ++ b) → NoClobberLd b
  | [], _, h => h
  | _ :: a, b, h => noClobberLd_app a b h.2

theorem mem_quiet {mid is : List PI} (h : ∀ i ∈ mid, i.side = false) {j : PI} (hj : j ∈ mid) :
    j ∈ (mid ++ is).takeWhile (fun j => !j.side) := by
  rw [List.takeWhile_append_of_pos (fun i hi => by simp [h i hi])]
  exact List.mem_append_left _ hj

/-! ## The addresses of symbols -/

/-- The registers recorded hold the addresses recorded, and keep them. -/
def MOk (E : Env) (M : R → Option ℕ) (s : St) (is : List PI) : Prop :=
  ∀ r k, M r = some k → s.get r = E.sym k ∧ r.isV = true ∧ ∀ j ∈ is, j.dst ≠ some r

theorem exec_get_virt {E : Env} {i : PI} {q : R} (hv : q.isV = true) (hq : i.dst ≠ some q) (s : St) :
    (i.exec E s).get q = s.get q := by
  by_cases hc : i.isCall = true
  · cases i with
    | call n => cases q <;> first | rfl | cases hv
    | _ => cases hc
  · exact exec_get_ne (by simpa using hc) hq s

theorem mok_step {E : Env} {M : R → Option ℕ} {s : St} {i : PI} {is : List PI} (h : MOk E M s (i :: is))
    (hl : LaOnce (i :: is)) : MOk E (noteLa M i) (i.exec E s) is := by
  have keep : ∀ r k, M r = some k → (i.exec E s).get r = E.sym k ∧ r.isV = true ∧ ∀ j ∈ is, j.dst ≠ some r := by
    intro r k hr
    obtain ⟨h1, h2, h3⟩ := h r k hr
    exact ⟨(exec_get_virt h2 (h3 i (by simp)) s).trans h1, h2, fun j hj => h3 j (by simp [hj])⟩
  cases i with
  | la d k =>
    intro r k' hr
    simp only [noteLa] at hr
    split at hr
    · rename_i e
      subst e
      cases hM : M r with
      | some k0 => exact absurd rfl ((h r k0 hM).2.2 (.la r k) (by simp))
      | none =>
        simp only [hM, Option.getD_none, Option.some.injEq] at hr
        subst hr
        obtain ⟨h1, h2⟩ := hl.1 r k rfl
        refine ⟨?_, h1, h2⟩
        simp only [PI.exec]
        rw [get_set, if_pos ⟨rfl, by rintro rfl; cases h1⟩]
    · exact keep r k' hr
  | _ => exact keep

theorem adj_eval {E : Env} {M : R → Option ℕ} {s t : St} {is : List PI} {a a' : Ad} (h : adjacent M a a' = true)
    (hM : MOk E M t is) (hu : ∀ r ∈ a.uses, t.get r = s.get r) : a'.eval E t = a.eval E s + 4 := by
  have imm4 : ∀ o : ℤ, immW (o + 4) = immW o + 4 := by
    intro o; simp only [immW]; rw [BitVec.ofInt_add]; rfl
  cases a with
  | reg r o =>
    cases a' with
    | reg r' o' =>
      simp only [adjacent, Bool.and_eq_true, decide_eq_true_eq] at h
      obtain ⟨rfl, rfl⟩ := h
      simp only [Ad.eval, hu r (by simp [Ad.uses]), imm4]
      exact (BitVec.add_assoc _ _ _).symm
    | _ => cases h
  | stk n o =>
    cases a' with
    | stk n' o' =>
      simp only [adjacent, Bool.and_eq_true, decide_eq_true_eq] at h
      obtain ⟨rfl, rfl⟩ := h
      simp only [Ad.eval, hu R.sp (by simp [Ad.uses])]
      rw [← Int.add_assoc, imm4]
      exact (BitVec.add_assoc _ _ _).symm
    | _ => cases h
  | sym k =>
    cases a' with
    | reg r' o' =>
      simp only [adjacent, Bool.and_eq_true, decide_eq_true_eq] at h
      obtain ⟨h1, rfl⟩ := h
      simp only [Ad.eval, (hM r' k h1).1]
      rfl
    | _ => cases h

/-! ## Stores -/

/-- The instructions not yet emitted. -/
def preS (prev : Option (R × Ad × ℕ)) (mid : List PI) : List PI :=
  match prev with
  | none => mid
  | some (x, a, al) => .store .w x a al :: mid

theorem foldStore_none {M : R → Option ℕ} {n : ℕ} {mid : List PI} {i : PI} {is : List PI} (h : i.isSW = false) :
    foldStore M n none mid (i :: is) = mid ++ i :: foldStore (noteLa M i) n none [] is := by
  cases i with
  | store w x a al => cases w <;> first | (cases h; done) | rfl
  | _ => rfl

theorem foldStore_some {M : R → Option ℕ} {n : ℕ} {x : R} {a : Ad} {al : ℕ} {mid : List PI} {i : PI} {is : List PI}
    (h : i.isSW = false) :
    foldStore M n (some (x, a, al)) mid (i :: is) =
      if i.side then .store .w x a al :: mid ++ i :: foldStore (noteLa M i) n none [] is
      else foldStore (noteLa M i) n (some (x, a, al)) (mid ++ [i]) is := by
  cases i with
  | store w x a al => cases w <;> first | (cases h; done) | rfl
  | _ => rfl

theorem app_off {E : Env} {n0 : ℕ} {mid is js : List PI} (hq : ∀ i ∈ mid, i.side = false) (ho : ∀ i ∈ mid, i.old n0)
    {s s' : St} (h : Off n0 s s')
    (hr : ∀ t', Off n0 (execs E mid s) t' → OutOff n0 (run E is (execs E mid s)) (run E js t')) :
    OutOff n0 (run E (mid ++ is) s) (run E (mid ++ js) s') := by
  rw [run_quiet mid hq, run_quiet mid hq]
  exact hr _ (execs_off mid ho h)

/-- A double word store in place of two word stores. -/
theorem two_stores {E : Env} {n0 n : ℕ} (hn : n0 ≤ n) {M : R → Option ℕ} {x1 x : R} {a1 a : Ad} {al1 al : ℕ} {mid is : List PI}
    (hq : ∀ i ∈ mid, i.side = false) (ho : ∀ i ∈ mid, i.old n0) (ho1 : (PI.store .w x1 a1 al1).old n0)
    (ho2 : (PI.store .w x a al).old n0) (hc : ∀ j ∈ mid, ∀ r ∈ x1 :: a1.uses, j.dst ≠ some r)
    (hadj : adjacent M a1 a = true) {s s' : St} (h : Off n0 s s')
    (hM : MOk E M (execs E (.store .w x1 a1 al1 :: mid) s) is) :
    Off n0 (execs E (.store .w x1 a1 al1 :: mid ++ [.store .w x a al]) s)
      (execs E (mid ++ [.opI .sll (.v n) x 32, .op2 .addUw (.v (n + 1)) x1 (.v n), .store .d (.v (n + 1)) a1 al1]) s') := by
  have hs : execs E (.store .w x1 a1 al1 :: mid) s =
      { execs E mid s with mem := wrBytes s.mem (a1.eval E s) (s.get x1).toNat 4 } := by
    change execs E mid { s with mem := wrBytes s.mem (a1.eval E s) (s.get x1).toNat 4 } = _
    exact execs_quiet_mem mid hq s _
  have ha : a.eval E (execs E (.store .w x1 a1 al1 :: mid) s) = a1.eval E s + 4 := by
    apply adj_eval hadj hM
    intro r hr
    rw [hs]
    have := execs_get (E := E) mid hq (fun j hj => hc j hj r (by simp [hr])) s
    cases r <;> exact this
  rw [execs_append, execs_append]
  have h0 : Off n0 (execs E mid s) (execs E mid s') := execs_off mid ho h
  have hm : (execs E mid s).mem = s.mem := execs_mem mid hq s
  have hx1 : (execs E mid s).get x1 = s.get x1 := execs_get mid hq (fun j hj => hc j hj x1 (by simp)) s
  have ha1 : a1.eval E (execs E mid s) = a1.eval E s :=
    eval_eq fun r hr => execs_get mid hq (fun j hj => hc j hj r (by simp [hr])) s
  rw [hs] at ha
  rw [hs]
  generalize execs E mid s = t at *
  generalize execs E mid s' = t' at *
  have hv : ∀ k, n0 ≤ k → (R.v k).newer n0 := fun k hk => hk
  have gx : t'.get x = t.get x := h0.eq x (ho2.1 x (by simp [PI.uses]))
  have gx1 : t'.get x1 = t.get x1 := h0.eq x1 (ho1.1 x1 (by simp [PI.uses]))
  have nx1 : x1 ≠ .v n := fun e => ho1.1 x1 (by simp [PI.uses]) (e ▸ hv n hn)
  have na : ∀ r ∈ a1.uses, r ≠ .v n ∧ r ≠ .v (n + 1) := fun r hr =>
    ⟨fun e => ho1.1 r (by simp [PI.uses, hr]) (e ▸ hv n hn), fun e => ho1.1 r (by simp [PI.uses, hr]) (e ▸ hv (n + 1) (by omega))⟩
  simp only [execs, List.foldl_cons, List.foldl_nil, PI.exec]
  have gx' : St.get { t with mem := wrBytes s.mem (a1.eval E s) (s.get x1).toNat 4 } x = t.get x := by cases x <;> rfl
  rw [ha, gx']
  simp only [Wd.bytes]
  -- the value stored
  have g1 : ∀ (u : St) (y : W), (u.set (.v n) y).get (.v n) = y := fun u y => by rw [get_set, if_pos ⟨rfl, by simp⟩]
  have g2 : ∀ (u : St) (y : W), (u.set (.v (n + 1)) y).get (.v (n + 1)) = y := fun u y => by
    rw [get_set, if_pos ⟨rfl, by simp⟩]
  rw [g1, get_set_ne _ _ nx1, gx1, gx, hx1, g2]
  have e1 : a1.eval E ((t'.set (.v n) ((Rv2.sll).run (t.get x) (immW 32))).set (.v (n + 1))
      ((Rv2.addUw).run (s.get x1) ((Rv2.sll).run (t.get x) (immW 32)))) = a1.eval E s := by
    rw [← ha1]
    apply eval_eq
    intro r hr
    rw [get_set_ne _ _ (na r hr).2, get_set_ne _ _ (na r hr).1]
    exact h0.eq r (ho1.1 r (by simp [PI.uses, hr]))
  rw [e1, wr_two]
  simp only [set_mem]
  rw [h0.mem, hm]
  exact off_mem (off_new (off_new h0 (hv n hn) _) (hv (n + 1) (by omega)) _) _

theorem run_off_nil {E : Env} {n0 : ℕ} : ∀ (is : List PI), (∀ i ∈ is, i.old n0) → ∀ {s s' : St}, Off n0 s s' →
    OutOff n0 (run E is s) (run E is s')
  | [], _, _, _, h => h
  | i :: is, ho, s, s', h => cons_off (ho i (by simp)) h fun t t' ht _ _ => run_off_nil is (fun j hj => ho j (by simp [hj])) ht

theorem foldStore_run {E : Env} {n0 : ℕ} : ∀ (is : List PI) (M : R → Option ℕ) (n : ℕ) (prev : Option (R × Ad × ℕ))
    (mid : List PI) (s s' : St), n0 ≤ n → Off n0 s s' → (∀ i ∈ mid, i.side = false) →
    (∀ i ∈ preS prev mid ++ is, i.old n0) → NoClobberSt (preS prev mid ++ is) → LaOnce is →
    MOk E M (execs E (preS prev mid) s) is →
    OutOff n0 (run E (preS prev mid ++ is) s) (run E (foldStore M n prev mid is) s') := by
  intro is
  induction is with
  | nil =>
    intro M n prev mid s s' _ h _ ho _ _ _
    have : foldStore M n prev mid [] = preS prev mid ++ [] := by
      rcases prev with _ | ⟨x, a, al⟩ <;> simp [foldStore, preS]
    rw [this]
    exact run_off_nil _ ho h
  | cons i is ih =>
    intro M n prev mid s s' hn h hq ho hc hl hM
    have hoM : ∀ j ∈ mid, j.old n0 := fun j hj => ho j (by rcases prev with _ | ⟨x, a, al⟩ <;> simp [preS, hj])
    have hoi : i.old n0 := ho i (by simp)
    have hoS : ∀ j ∈ is, j.old n0 := fun j hj => ho j (by simp [hj])
    have hcI : NoClobberSt (i :: is) := noClobberSt_app _ _ hc
    have hM1 : MOk E (noteLa M i) (i.exec E (execs E (preS prev mid) s)) is := mok_step hM hl
    -- the instructions not yet emitted, then the next one: nothing pending any more
    have flush : ∀ (t' : St), Off n0 s t' → i.isSW = false →
        OutOff n0 (run E (preS prev mid ++ i :: is) s) (run E (preS prev mid ++ i :: foldStore (noteLa M i) n none [] is) t') := by
      intro t' ht' _
      have rest : ∀ u', Off n0 (execs E (preS prev mid) s) u' → OutOff n0 (run E (i :: is) (execs E (preS prev mid) s))
          (run E (i :: foldStore (noteLa M i) n none [] is) u') := by
        intro u' hu'
        refine cons_off hoi hu' fun v v' hv hve _ => ?_
        subst hve
        exact ih (noteLa M i) n none [] _ v' hn hv (by simp) (by simpa [preS] using hoS) (by simpa [preS] using hcI.2)
          hl.2 (by simpa [preS, execs] using hM1)
      rcases prev with _ | ⟨x, a, al⟩
      · exact app_off hq hoM ht' rest
      · have ho1 : (PI.store .w x a al).old n0 := ho _ (by simp [preS])
        simp only [preS, List.cons_append]
        rw [run_plain (by rfl), run_plain (by rfl)]
        exact app_off hq hoM (exec_off ht' ho1) rest
    by_cases hsw : i.isSW = true
    · obtain ⟨x, a, al, rfl⟩ : ∃ x a al, i = .store .w x a al := by
        cases i with
        | store w x a al => cases w <;> first | exact ⟨x, a, al, rfl⟩ | (cases hsw; done)
        | _ => cases hsw
      -- the pending instructions emitted, the store pending
      have keep : OutOff n0 (run E (preS prev mid ++ .store .w x a al :: is) s)
          (run E (preS prev mid ++ foldStore M n (some (x, a, al)) [] is) s') := by
        have rest : ∀ u', Off n0 (execs E (preS prev mid) s) u' →
            OutOff n0 (run E (.store .w x a al :: is) (execs E (preS prev mid) s)) (run E (foldStore M n (some (x, a, al)) [] is) u') := by
          intro u' hu'
          have := ih M n (some (x, a, al)) [] _ u' hn hu' (by simp) (by
            intro j hj
            simp only [preS, List.cons_append, List.nil_append, List.mem_cons] at hj
            rcases hj with rfl | hj
            · exact hoi
            · exact hoS j hj) (by simpa [preS] using hcI) hl.2 (by simpa [preS, execs, noteLa] using hM1)
          simpa [preS] using this
        rcases prev with _ | ⟨x1, a1, al1⟩
        · exact app_off hq hoM h rest
        · have ho1 : (PI.store .w x1 a1 al1).old n0 := ho _ (by simp [preS])
          simp only [preS, List.cons_append]
          rw [run_plain (by rfl), run_plain (by rfl)]
          exact app_off hq hoM (exec_off h ho1) rest
      rcases prev with _ | ⟨x1, a1, al1⟩
      · simpa only [foldStore, preS] using keep
      · simp only [foldStore]
        split
        · rename_i hcond
          have ho1 : (PI.store .w x1 a1 al1).old n0 := ho _ (by simp [preS])
          have hcl : ∀ j ∈ mid, ∀ r ∈ x1 :: a1.uses, j.dst ≠ some r := fun j hj r hr =>
            hc.1 rfl j (mem_quiet hq hj) r hr
          have hoff := two_stores (E := E) (n := n) hn (al1 := al1) (al := al) hq hoM ho1 hoi hcl hcond.2.2 h hM
          have e1 : run E (preS (some (x1, a1, al1)) mid ++ .store .w x a al :: is) s =
              run E is (execs E (.store .w x1 a1 al1 :: mid ++ [.store .w x a al]) s) := by
            simp only [preS, List.cons_append]
            rw [run_plain (by rfl), run_quiet mid hq, run_plain (by rfl)]
            simp [execs]
          have e2 : ∀ js, run E (mid ++ [.opI .sll (.v n) x 32, .op2 .addUw (.v (n + 1)) x1 (.v n), .store .d (.v (n + 1)) a1 al1]
              ++ js) s' = run E js (execs E (mid ++ [.opI .sll (.v n) x 32, .op2 .addUw (.v (n + 1)) x1 (.v n),
                .store .d (.v (n + 1)) a1 al1]) s') := by
            intro js
            rw [List.append_assoc, run_quiet mid hq]
            simp only [List.cons_append, List.nil_append]
            rw [run_plain (by rfl), run_plain (by rfl), run_plain (by rfl)]
            simp [execs]
          rw [e1, e2]
          refine ih M (n + 2) none [] _ _ (by omega) hoff (by simp) (by simpa [preS] using hoS)
            (by simpa [preS] using hcI.2) hl.2 ?_
          have : execs E (.store .w x1 a1 al1 :: mid ++ [.store .w x a al]) s =
              (PI.store .w x a al).exec E (execs E (preS (some (x1, a1, al1)) mid) s) := by simp [execs, preS]
          simpa [preS, execs, this, noteLa] using hM1
        · exact keep
    · have hsw' : i.isSW = false := by simpa using hsw
      rcases prev with _ | ⟨x1, a1, al1⟩
      · rw [foldStore_none hsw']
        exact flush s' h hsw'
      · rw [foldStore_some hsw']
        split
        · exact flush s' h hsw'
        · rename_i hside
          have e : preS (some (x1, a1, al1)) mid ++ i :: is = preS (some (x1, a1, al1)) (mid ++ [i]) ++ is := by simp [preS]
          rw [e] at ho hc ⊢
          refine ih (noteLa M i) n (some (x1, a1, al1)) (mid ++ [i]) s s' hn h ?_ ho hc hl.2 ?_
          · intro j hj
            rcases List.mem_append.1 hj with hj | hj
            · exact hq j hj
            · simp only [List.mem_singleton] at hj; subst hj; simpa using hside
          · have : execs E (preS (some (x1, a1, al1)) (mid ++ [i])) s = i.exec E (execs E (preS (some (x1, a1, al1)) mid) s) := by
              simp [execs, preS]
            rw [this]; exact hM1

/-- **C60**, stores.  A block that uses no virtual register from `n0` on, in which nothing overwrites a register that a word
store reads before the next instruction with a side effect, and in which the registers given the address of a symbol keep it,
does the same after `earlyFoldStore`: from the same state it ends the same way, with the same memory and the same registers,
except for virtual registers from `n0` on. -/
theorem earlyFoldStore_run (E : Env) {n0 n : ℕ} (hn : n0 ≤ n) (is : List PI) (ho : ∀ i ∈ is, i.old n0) (hc : NoClobberSt is) (hl : LaOnce is)
    {s s' : St} (h : Off n0 s s') : OutOff n0 (run E is s) (run E (earlyFoldStore n is) s') :=
  foldStore_run is (fun _ => none) n none [] s s' hn h (by simp) (by simpa [preS] using ho) (by simpa [preS] using hc) hl
    (fun _ _ h => by cases h)

/-! ## Loads -/

/-- The instructions not yet emitted. -/
def preL (prev : Option (R × Ad × ℕ)) (mid : List PI) : List PI :=
  match prev with
  | none => mid
  | some (x, a, al) => .load true .w x a al :: mid

theorem foldLoad_none {M : R → Option ℕ} {n : ℕ} {mid : List PI} {i : PI} {is : List PI} (h : i.isLW = false) :
    foldLoad M n none mid (i :: is) = mid ++ i :: foldLoad (noteLa M i) n none [] is := by
  cases i with
  | load sg w x a al => cases sg <;> cases w <;> first | (cases h; done) | rfl
  | _ => rfl

theorem foldLoad_some {M : R → Option ℕ} {n : ℕ} {x : R} {a : Ad} {al : ℕ} {mid : List PI} {i : PI} {is : List PI}
    (h : i.isLW = false) :
    foldLoad M n (some (x, a, al)) mid (i :: is) =
      if i.side then .load true .w x a al :: mid ++ i :: foldLoad (noteLa M i) n none [] is
      else foldLoad (noteLa M i) n (some (x, a, al)) (mid ++ [i]) is := by
  cases i with
  | load sg w x a al => cases sg <;> cases w <;> first | (cases h; done) | rfl
  | _ => rfl

/-- A double word load in place of two word loads. -/
theorem two_loads {E : Env} {n0 n : ℕ} (hn : n0 ≤ n) {M : R → Option ℕ} {x1 x : R} {a1 a : Ad} {al1 al : ℕ} {mid is : List PI}
    (hq : ∀ i ∈ mid, i.side = false) (ho : ∀ i ∈ mid, i.old n0) (ho1 : (PI.load true .w x1 a1 al1).old n0)
    (hcd : ∀ r ∈ a1.uses, r ≠ x1) (hc : ∀ j ∈ mid, ∀ r ∈ a1.uses, j.dst ≠ some r)
    (hadj : adjacent M a1 a = true) {s s' : St} (h : Off n0 s s')
    (hM : MOk E M (execs E (.load true .w x1 a1 al1 :: mid) s) is) :
    Off n0 (execs E (.load true .w x1 a1 al1 :: mid ++ [.load true .w x a al]) s)
      (execs E (.load true .d (.v n) a1 al1 :: .op1 .sextW x1 (.v n) :: mid ++ [.opI .sra x (.v n) 32]) s') := by
  have hv : (R.v n).newer n0 := hn
  have g1 : ∀ (u : St) (y : W), (u.set (.v n) y).get (.v n) = y := fun u y => by rw [get_set, if_pos ⟨rfl, by simp⟩]
  have hx1 : ¬ x1.newer n0 := ho1.2 x1 rfl
  have e1 : a1.eval E s' = a1.eval E s := eval_eq fun r hr => h.eq r (ho1.1 r (by simpa [PI.uses] using hr))
  -- after the first load
  have k1 : execs E (.load true .w x1 a1 al1 :: mid) s = execs E mid (s.set x1 (rdMem s.mem true .w (a1.eval E s))) := rfl
  have k2 : execs E (.load true .d (.v n) a1 al1 :: .op1 .sextW x1 (.v n) :: mid) s' =
      execs E mid ((s'.set (.v n) (rdMem s.mem true .d (a1.eval E s))).set x1 (rdMem s.mem true .w (a1.eval E s))) := by
    simp only [execs, List.foldl_cons, PI.exec, e1, h.mem, g1, rd_low]
  have h0 : Off n0 (s.set x1 (rdMem s.mem true .w (a1.eval E s)))
      ((s'.set (.v n) (rdMem s.mem true .d (a1.eval E s))).set x1 (rdMem s.mem true .w (a1.eval E s))) :=
    off_set (off_new h hv _) _ _
  have gn : ((s'.set (.v n) (rdMem s.mem true .d (a1.eval E s))).set x1 (rdMem s.mem true .w (a1.eval E s))).get (.v n) =
      rdMem s.mem true .d (a1.eval E s) := by
    have hne : R.v n ≠ x1 := fun e => hx1 (e ▸ hv)
    rw [get_set_ne _ _ hne, g1]
  have ha : a.eval E (execs E (.load true .w x1 a1 al1 :: mid) s) = a1.eval E s + 4 := by
    apply adj_eval hadj hM
    intro r hr
    rw [k1, execs_get mid hq (fun j hj => hc j hj r hr), get_set_ne _ _ (hcd r hr)]
  rw [execs_append, execs_append, k2]
  rw [k1] at ha ⊢
  have h1 := execs_off (E := E) mid ho h0
  have hm := execs_mem (E := E) mid hq (s.set x1 (rdMem s.mem true .w (a1.eval E s)))
  rw [set_mem] at hm
  have gn' := execs_get (E := E) mid hq (q := .v n) (fun j hj e => (ho j hj).2 _ e hv)
    ((s'.set (.v n) (rdMem s.mem true .d (a1.eval E s))).set x1 (rdMem s.mem true .w (a1.eval E s)))
  rw [gn] at gn'
  simp only [execs, List.foldl_cons, List.foldl_nil, PI.exec] at *
  rw [gn', rd_high, ha, hm]
  exact off_set h1 _ _

theorem foldLoad_run {E : Env} {n0 : ℕ} : ∀ (is : List PI) (M : R → Option ℕ) (n : ℕ) (prev : Option (R × Ad × ℕ))
    (mid : List PI) (s s' : St), n0 ≤ n → Off n0 s s' → (∀ i ∈ mid, i.side = false) →
    (∀ i ∈ preL prev mid ++ is, i.old n0) → NoClobberLd (preL prev mid ++ is) → LaOnce is →
    MOk E M (execs E (preL prev mid) s) is →
    OutOff n0 (run E (preL prev mid ++ is) s) (run E (foldLoad M n prev mid is) s') := by
  intro is
  induction is with
  | nil =>
    intro M n prev mid s s' _ h _ ho _ _ _
    have : foldLoad M n prev mid [] = preL prev mid ++ [] := by
      rcases prev with _ | ⟨x, a, al⟩ <;> simp [foldLoad, preL]
    rw [this]
    exact run_off_nil _ ho h
  | cons i is ih =>
    intro M n prev mid s s' hn h hq ho hc hl hM
    have hoM : ∀ j ∈ mid, j.old n0 := fun j hj => ho j (by rcases prev with _ | ⟨x, a, al⟩ <;> simp [preL, hj])
    have hoi : i.old n0 := ho i (by simp)
    have hoS : ∀ j ∈ is, j.old n0 := fun j hj => ho j (by simp [hj])
    have hcI : NoClobberLd (i :: is) := noClobberLd_app _ _ hc
    have hM1 : MOk E (noteLa M i) (i.exec E (execs E (preL prev mid) s)) is := mok_step hM hl
    -- the instructions not yet emitted, then the next one: nothing pending any more
    have flush : ∀ (t' : St), Off n0 s t' → i.isLW = false →
        OutOff n0 (run E (preL prev mid ++ i :: is) s) (run E (preL prev mid ++ i :: foldLoad (noteLa M i) n none [] is) t') := by
      intro t' ht' _
      have rest : ∀ u', Off n0 (execs E (preL prev mid) s) u' → OutOff n0 (run E (i :: is) (execs E (preL prev mid) s))
          (run E (i :: foldLoad (noteLa M i) n none [] is) u') := by
        intro u' hu'
        refine cons_off hoi hu' fun v v' hv hve _ => ?_
        subst hve
        exact ih (noteLa M i) n none [] _ v' hn hv (by simp) (by simpa [preL] using hoS) (by simpa [preL] using hcI.2)
          hl.2 (by simpa [preL, execs] using hM1)
      rcases prev with _ | ⟨x, a, al⟩
      · exact app_off hq hoM ht' rest
      · have ho1 : (PI.load true .w x a al).old n0 := ho _ (by simp [preL])
        simp only [preL, List.cons_append]
        rw [run_plain (by rfl), run_plain (by rfl)]
        exact app_off hq hoM (exec_off ht' ho1) rest
    by_cases hsw : i.isLW = true
    · obtain ⟨x, a, al, rfl⟩ : ∃ x a al, i = .load true .w x a al := by
        cases i with
        | load sg w x a al => cases sg <;> cases w <;> first | exact ⟨x, a, al, rfl⟩ | (cases hsw; done)
        | _ => cases hsw
      -- the pending instructions emitted, the store pending
      have keep : OutOff n0 (run E (preL prev mid ++ .load true .w x a al :: is) s)
          (run E (preL prev mid ++ foldLoad M n (some (x, a, al)) [] is) s') := by
        have rest : ∀ u', Off n0 (execs E (preL prev mid) s) u' →
            OutOff n0 (run E (.load true .w x a al :: is) (execs E (preL prev mid) s)) (run E (foldLoad M n (some (x, a, al)) [] is) u') := by
          intro u' hu'
          have := ih M n (some (x, a, al)) [] _ u' hn hu' (by simp) (by
            intro j hj
            simp only [preL, List.cons_append, List.nil_append, List.mem_cons] at hj
            rcases hj with rfl | hj
            · exact hoi
            · exact hoS j hj) (by simpa [preL] using hcI) hl.2 (by simpa [preL, execs, noteLa] using hM1)
          simpa [preL] using this
        rcases prev with _ | ⟨x1, a1, al1⟩
        · exact app_off hq hoM h rest
        · have ho1 : (PI.load true .w x1 a1 al1).old n0 := ho _ (by simp [preL])
          simp only [preL, List.cons_append]
          rw [run_plain (by rfl), run_plain (by rfl)]
          exact app_off hq hoM (exec_off h ho1) rest
      rcases prev with _ | ⟨x1, a1, al1⟩
      · simpa only [foldLoad, preL] using keep
      · simp only [foldLoad]
        split
        · rename_i hcond
          have ho1 : (PI.load true .w x1 a1 al1).old n0 := ho _ (by simp [preL])
          have hcl : ∀ j ∈ mid, ∀ r ∈ a1.uses, j.dst ≠ some r := fun j hj r hr =>
            (hc.1 rfl).2 j (mem_quiet hq hj) r hr
          have hcd : ∀ r ∈ a1.uses, r ≠ x1 := fun r hr e => (hc.1 rfl).1 r hr (by rw [e]; rfl)
          have hoff := two_loads (E := E) (n := n) (x := x) hn (al1 := al1) (al := al) hq hoM ho1 hcd hcl hcond.2.2 h hM
          have e1 : run E (preL (some (x1, a1, al1)) mid ++ .load true .w x a al :: is) s =
              run E is (execs E (.load true .w x1 a1 al1 :: mid ++ [.load true .w x a al]) s) := by
            simp only [preL, List.cons_append]
            rw [run_plain (by rfl), run_quiet mid hq, run_plain (by rfl)]
            simp [execs]
          have e2 : ∀ js, run E (.load true .d (.v n) a1 al1 :: .op1 .sextW x1 (.v n) :: mid ++ .opI .sra x (.v n) 32 :: js) s' =
              run E js (execs E (.load true .d (.v n) a1 al1 :: .op1 .sextW x1 (.v n) :: mid ++ [.opI .sra x (.v n) 32]) s') := by
            intro js
            simp only [List.cons_append]
            rw [run_plain (by rfl), run_plain (by rfl), run_quiet mid hq, run_plain (by rfl)]
            simp [execs]
          rw [e1, e2]
          refine ih M (n + 1) none [] _ _ (by omega) hoff (by simp) (by simpa [preL] using hoS)
            (by simpa [preL] using hcI.2) hl.2 ?_
          have : execs E (.load true .w x1 a1 al1 :: mid ++ [.load true .w x a al]) s =
              (PI.load true .w x a al).exec E (execs E (preL (some (x1, a1, al1)) mid) s) := by simp [execs, preL]
          simpa [preL, execs, this, noteLa] using hM1
        · exact keep
    · have hsw' : i.isLW = false := by simpa using hsw
      rcases prev with _ | ⟨x1, a1, al1⟩
      · rw [foldLoad_none hsw']
        exact flush s' h hsw'
      · rw [foldLoad_some hsw']
        split
        · exact flush s' h hsw'
        · rename_i hside
          have e : preL (some (x1, a1, al1)) mid ++ i :: is = preL (some (x1, a1, al1)) (mid ++ [i]) ++ is := by simp [preL]
          rw [e] at ho hc ⊢
          refine ih (noteLa M i) n (some (x1, a1, al1)) (mid ++ [i]) s s' hn h ?_ ho hc hl.2 ?_
          · intro j hj
            rcases List.mem_append.1 hj with hj | hj
            · exact hq j hj
            · simp only [List.mem_singleton] at hj; subst hj; simpa using hside
          · have : execs E (preL (some (x1, a1, al1)) (mid ++ [i])) s = i.exec E (execs E (preL (some (x1, a1, al1)) mid) s) := by
              simp [execs, preL]
            rw [this]; exact hM1

/-- **C60**, loads.  A block that uses no virtual register from `n0` on, in which no word load writes a register of its own
address, nothing else writes one before the next instruction with a side effect, and the registers given the address of a
symbol keep it, does the same after `earlyFoldLoad`, except for virtual registers from `n0` on. -/
theorem earlyFoldLoad_run (E : Env) {n0 n : ℕ} (hn : n0 ≤ n) (is : List PI) (ho : ∀ i ∈ is, i.old n0) (hc : NoClobberLd is) (hl : LaOnce is)
    {s s' : St} (h : Off n0 s s') : OutOff n0 (run E is s) (run E (earlyFoldLoad n is) s') :=
  foldLoad_run is (fun _ => none) n none [] s s' hn h (by simp) (by simpa [preL] using ho) (by simpa [preL] using hc) hl
    (fun _ _ h => by cases h)

/-! ## Stores of zero -/

/-- Whenever a store of zero to a stack slot at a multiple of 8 is followed, with nothing with a side effect in between, by one
to a slot at a multiple of 8 plus 4, the second slot is right after the first. -/
def StackPairs (so : ℕ → ℤ) : List PI → Prop
  | [] => True
  | i :: is => (∀ n o al n' o' al', i = .store .w .x0 (.stk n o) al →
      (is.dropWhile fun j => !j.side).head? = some (.store .w .x0 (.stk n' o') al') →
      (so n + o).tmod 8 = 0 → (so n' + o').tmod 8 = 4 → so n + o + 4 = so n' + o') ∧ StackPairs so is

theorem stackPairs_app {so : ℕ → ℤ} : ∀ (a b : List PI), StackPairs so (a ++ b) → StackPairs so b
  | [], _, h => h
  | _ :: a, b, h => stackPairs_app a b h.2

theorem foldZero_none {so : ℕ → ℤ} {mid : List PI} {i : PI} {is : List PI} (h : i.isSW = false) :
    foldZero so none mid (i :: is) = mid ++ i :: foldZero so none [] is := by
  cases i with
  | store w x a al => cases w <;> first | (cases h; done) | rfl
  | _ => rfl

theorem foldZero_some {so : ℕ → ℤ} {x : R} {a : Ad} {al : ℕ} {mid : List PI} {i : PI} {is : List PI} (h : i.isSW = false) :
    foldZero so (some (x, a, al)) mid (i :: is) =
      if i.side then .store .w x a al :: mid ++ i :: foldZero so none [] is
      else foldZero so (some (x, a, al)) (mid ++ [i]) is := by
  cases i with
  | store w x a al => cases w <;> first | (cases h; done) | rfl
  | _ => rfl

theorem run_pre_congr {E : Env} {as bs : List PI} (h : ∀ s, run E as s = run E bs s) : ∀ (p : List PI) (s : St),
    run E (p ++ as) s = run E (p ++ bs) s
  | [], s => h s
  | i :: p, s => by
    have ih := run_pre_congr h p
    cases i with
    | br c a b l => simp only [List.cons_append, run]; split <;> [rfl; exact ih s]
    | jump l => rfl
    | jr a => rfl
    | ret => rfl
    | _ => simp only [List.cons_append, run]; exact ih _

theorem store_zero {E : Env} {w : Wd} {a : Ad} {al : ℕ} (s : St) :
    (PI.store w .x0 a al).exec E s = { s with mem := wrBytes s.mem (a.eval E s) 0 w.bytes } := by
  have z : (0 : W).toNat = 0 := by simp
  simp only [PI.exec, get_x0, z]

theorem wr_zero (m : W → BitVec 8) (a : W) : wrBytes m a 0 8 = wrBytes (wrBytes m a 0 4) (a + 4) 0 4 := by
  have := wrBytes_add 4 4 m a 0
  simpa using this

theorem foldZero_run {E : Env} : ∀ (is : List PI) (prev : Option (R × Ad × ℕ)) (mid : List PI), (∀ i ∈ mid, i.side = false) →
    NoClobberSt (preS prev mid ++ is) → StackPairs E.so (preS prev mid ++ is) → ∀ s,
    run E (preS prev mid ++ is) s = run E (foldZero E.so prev mid is) s := by
  intro is
  induction is with
  | nil =>
    intro prev mid _ _ _ s
    rcases prev with _ | ⟨x, a, al⟩ <;> simp [foldZero, preS]
  | cons i is ih =>
    intro prev mid hq hc hp s
    have hcI := noClobberSt_app _ _ hc
    have hpI := stackPairs_app _ _ hp
    have flush : run E (preS prev mid ++ i :: is) s = run E (preS prev mid ++ i :: foldZero E.so none [] is) s := by
      have := run_pre_congr (E := E) (fun s => ih none [] (by simp) (by simpa [preS] using hcI.2) (by simpa [preS] using hpI.2) s)
        (preS prev mid ++ [i]) s
      simpa [preS] using this
    by_cases hsw : i.isSW = true
    · obtain ⟨x, a, al, rfl⟩ : ∃ x a al, i = .store .w x a al := by
        cases i with
        | store w x a al => cases w <;> first | exact ⟨x, a, al, rfl⟩ | (cases hsw; done)
        | _ => cases hsw
      have keep : run E (preS prev mid ++ .store .w x a al :: is) s =
          run E (preS prev mid ++ foldZero E.so (some (x, a, al)) [] is) s := by
        apply run_pre_congr
        intro u
        have := ih (some (x, a, al)) [] (by simp) (by simpa [preS] using hcI) (by simpa [preS] using hpI) u
        simpa [preS] using this
      rcases prev with _ | ⟨x1, a1, al1⟩
      · simpa only [foldZero, preS] using keep
      · simp only [foldZero]
        split
        · rename_i hcond
          obtain ⟨h1, h2, h3⟩ := hcond
          simp only [isStoreZero, Bool.and_eq_true, decide_eq_true_eq] at h1 h2
          obtain ⟨rfl, h1⟩ := h1
          obtain ⟨rfl, h2⟩ := h2
          have hcl : ∀ j ∈ mid, ∀ r ∈ R.x0 :: a1.uses, j.dst ≠ some r := fun j hj r hr =>
            hc.1 rfl j (mem_quiet hq hj) r hr
          have hu : ∀ r ∈ a1.uses, (execs E mid s).get r = s.get r := fun r hr =>
            execs_get mid hq (fun j hj => hcl j hj r (by simp [hr])) s
          have ha1 : a1.eval E (execs E mid s) = a1.eval E s := eval_eq hu
          have ha : a.eval E (execs E mid s) = a1.eval E s + 4 := by
            have imm4 : ∀ o : ℤ, immW (o + 4) = immW o + 4 := by
              intro o; simp only [immW]; rw [BitVec.ofInt_add]; rfl
            cases a1 with
            | reg r o =>
              cases a with
              | reg r' o' =>
                simp only [zeroAdjacent, Bool.and_eq_true, decide_eq_true_eq] at h3
                obtain ⟨rfl, rfl⟩ := h3
                simp only [Ad.eval, hu r (by simp [Ad.uses]), imm4]
                exact (BitVec.add_assoc _ _ _).symm
              | _ => cases h3
            | stk n o =>
              cases a with
              | stk n' o' =>
                have hd : ((mid ++ PI.store .w .x0 (.stk n' o') al :: is).dropWhile fun j => !j.side).head? =
                    some (.store .w .x0 (.stk n' o') al) := by
                  rw [List.dropWhile_append_of_pos (fun i hi => by simp [hq i hi])]
                  simp [PI.side]
                simp only [decide_eq_true_eq] at h1 h2
                have := hp.1 n o al1 n' o' al rfl hd h1 h2
                simp only [Ad.eval, hu R.sp (by simp [Ad.uses])]
                rw [← this, imm4]
                exact (BitVec.add_assoc _ _ _).symm
              | _ => cases h3
            | sym k => cases a <;> cases h3
          have e1 : run E (preS (some (.x0, a1, al1)) mid ++ .store .w .x0 a al :: is) s =
              run E is { execs E mid s with mem := wrBytes (wrBytes s.mem (a1.eval E s) 0 4) (a1.eval E s + 4) 0 4 } := by
            simp only [preS, List.cons_append]
            rw [run_plain (by rfl), run_quiet mid hq, run_plain (by rfl)]
            rw [store_zero s, execs_quiet_mem mid hq, store_zero]
            have : a.eval E { execs E mid s with mem := wrBytes s.mem (a1.eval E s) 0 4 } = a.eval E (execs E mid s) :=
              eval_eq fun r _ => by cases r <;> rfl
            simp only [Wd.bytes] at this ⊢
            rw [this, ha]
          have e2 : run E (mid ++ .store .d .x0 a1 al1 :: foldZero E.so none [] is) s =
              run E (foldZero E.so none [] is) { execs E mid s with mem := wrBytes s.mem (a1.eval E s) 0 8 } := by
            rw [run_quiet mid hq, run_plain (by rfl), store_zero, ha1, execs_mem mid hq]
            rfl
          rw [e1, e2, wr_zero]
          exact ih none [] (by simp) (by simpa [preS] using hcI.2) (by simpa [preS] using hpI.2) _
        · exact keep
    · have hsw' : i.isSW = false := by simpa using hsw
      rcases prev with _ | ⟨x1, a1, al1⟩
      · rw [foldZero_none hsw']
        simpa [preS] using flush
      · rw [foldZero_some hsw']
        split
        · simpa [preS] using flush
        · rename_i hside
          have e : preS (some (x1, a1, al1)) mid ++ i :: is = preS (some (x1, a1, al1)) (mid ++ [i]) ++ is := by simp [preS]
          rw [e] at hc hp ⊢
          refine ih (some (x1, a1, al1)) (mid ++ [i]) ?_ hc hp s
          intro j hj
          rcases List.mem_append.1 hj with hj | hj
          · exact hq j hj
          · simp only [List.mem_singleton] at hj; subst hj; simpa using hside

/-- **C60**, stores of zero.  A block in which nothing overwrites a register that a word store reads before the next
instruction with a side effect, and in which consecutive stores of zero to stack slots aligned to 0 and 4 modulo 8 are to
slots that are next to each other, does exactly the same after `foldStoreZero`. -/
theorem foldStoreZero_run (E : Env) (is : List PI) (hc : NoClobberSt is) (hp : StackPairs E.so is) (s : St) :
    run E is s = run E (foldStoreZero E.so is) s :=
  foldZero_run is none [] (by simp) (by simpa [preS] using hc) (by simpa [preS] using hp) s

/-! ## Functions -/

/-- The result of a function depends only on what its blocks do, up to new registers. -/
theorem runs_off {E : Env} {n0 : ℕ} {f f' : Fn}
    (h : List.Forall₂ (fun B C => B.1 = C.1 ∧ ∀ s s', Off n0 s s' → OutOff n0 (run E B.2 s) (run E C.2 s')) f f') (s : St) :
    (∀ t, Runs E f f s t → ∃ t', Runs E f' f' s t' ∧ Off n0 t t') ∧
    (∀ t', Runs E f' f' s t' → ∃ t, Runs E f f s t ∧ Off n0 t t') := by
  have hat : ∀ {g g' : Fn} (_ : List.Forall₂ (fun B C => B.1 = C.1 ∧ ∀ s s', Off n0 s s' →
      OutOff n0 (run E B.2 s) (run E C.2 s')) g g') (l : ℕ),
      List.Forall₂ (fun B C => B.1 = C.1 ∧ ∀ s s', Off n0 s s' → OutOff n0 (run E B.2 s) (run E C.2 s')) (g.at l) (g'.at l) := by
    intro g g' hg l
    induction hg with
    | nil => exact .nil
    | cons h0 h1 ih =>
      unfold Fn.at at ih ⊢
      simp only [List.dropWhile_cons]
      rw [h0.1]
      split
      · exact ih
      · exact .cons h0 h1
  have fwd : ∀ {g s t}, Runs E f g s t → ∀ g' s', Off n0 s s' →
      List.Forall₂ (fun B C => B.1 = C.1 ∧ ∀ s s', Off n0 s s' → OutOff n0 (run E B.2 s) (run E C.2 s')) g g' →
      ∃ t', Runs E f' g' s' t' ∧ Off n0 t t' := by
    intro g s t hr
    induction hr with
    | ret h1 =>
      rintro _ s' hs (_ | ⟨h2, h3⟩)
      rename_i C g'
      have h4 := h2.2 _ s' hs
      rw [h1] at h4
      cases hC : run E C.2 s' with
      | ret t' => rw [hC] at h4; exact ⟨t', .ret (l := C.1) hC, h4⟩
      | _ => rw [hC] at h4; exact h4.elim
    | fall h1 _ ih =>
      rintro _ s' hs (_ | ⟨h2, h3⟩)
      rename_i C g'
      have h4 := h2.2 _ s' hs
      rw [h1] at h4
      cases hC : run E C.2 s' with
      | fall t' =>
        rw [hC] at h4
        obtain ⟨u', h5, h6⟩ := ih _ t' h4 h3
        exact ⟨u', .fall (l := C.1) hC h5, h6⟩
      | _ => rw [hC] at h4; exact h4.elim
    | jump h1 _ ih =>
      rintro _ s' hs (_ | ⟨h2, h3⟩)
      rename_i C g'
      have h4 := h2.2 _ s' hs
      rw [h1] at h4
      cases hC : run E C.2 s' with
      | jump k t' =>
        rw [hC] at h4
        obtain ⟨rfl, h4⟩ := h4
        obtain ⟨u', h5, h6⟩ := ih _ t' h4 (hat h _)
        exact ⟨u', .jump (l := C.1) hC h5, h6⟩
      | _ => rw [hC] at h4; exact h4.elim
  have bwd : ∀ {g' s' t'}, Runs E f' g' s' t' → ∀ g s, Off n0 s s' →
      List.Forall₂ (fun B C => B.1 = C.1 ∧ ∀ s s', Off n0 s s' → OutOff n0 (run E B.2 s) (run E C.2 s')) g g' →
      ∃ t, Runs E f g s t ∧ Off n0 t t' := by
    intro g' s' t' hr
    induction hr with
    | ret h1 =>
      rintro _ s hs (_ | ⟨h2, h3⟩)
      rename_i B g
      have h4 := h2.2 s _ hs
      rw [h1] at h4
      cases hB : run E B.2 s with
      | ret t => rw [hB] at h4; exact ⟨t, .ret (l := B.1) hB, h4⟩
      | _ => rw [hB] at h4; exact h4.elim
    | fall h1 _ ih =>
      rintro _ s hs (_ | ⟨h2, h3⟩)
      rename_i B g
      have h4 := h2.2 s _ hs
      rw [h1] at h4
      cases hB : run E B.2 s with
      | fall t =>
        rw [hB] at h4
        obtain ⟨u, h5, h6⟩ := ih _ t h4 h3
        exact ⟨u, .fall (l := B.1) hB h5, h6⟩
      | _ => rw [hB] at h4; exact h4.elim
    | jump h1 _ ih =>
      rintro _ s hs (_ | ⟨h2, h3⟩)
      rename_i B g
      have h4 := h2.2 s _ hs
      rw [h1] at h4
      cases hB : run E B.2 s with
      | jump k t =>
        rw [hB] at h4
        obtain ⟨rfl, h4⟩ := h4
        obtain ⟨u, h5, h6⟩ := ih _ t h4 (hat h _)
        exact ⟨u, .jump (l := B.1) hB h5, h6⟩
      | _ => rw [hB] at h4; exact h4.elim
  exact ⟨fun t hr => fwd hr _ _ (off_refl _ _) h, fun t' hr => bwd hr _ _ (off_refl _ _) h⟩

theorem forall₂_mapIdx {P : ℕ × List PI → ℕ × List PI → Prop} : ∀ (f : Fn) (F : ℕ → ℕ × List PI → ℕ × List PI),
    (∀ k B, B ∈ f → P B (F k B)) → List.Forall₂ P f (f.mapIdx F)
  | [], _, _ => .nil
  | B :: f, F, h => by
    rw [List.mapIdx_cons]
    exact .cons (h 0 B (by simp)) (forall₂_mapIdx f (fun k => F (k + 1)) fun k C hC => h (k + 1) C (by simp [hC]))

/-- **C60**, stores, whole functions: `earlyFoldStore` on every block, where `ns k` is the next virtual register when block
number `k` is done. -/
theorem earlyFoldStore_runs (E : Env) (f : Fn) (n0 : ℕ) (ns : ℕ → ℕ) (hn : ∀ k, n0 ≤ ns k)
    (ho : ∀ B ∈ f, (∀ i ∈ B.2, i.old n0) ∧ NoClobberSt B.2 ∧ LaOnce B.2) (s : St) :
    (∀ t, Runs E f f s t → ∃ t', Runs E (f.mapIdx fun k B => (B.1, earlyFoldStore (ns k) B.2))
      (f.mapIdx fun k B => (B.1, earlyFoldStore (ns k) B.2)) s t' ∧ Off n0 t t') ∧
    (∀ t', Runs E (f.mapIdx fun k B => (B.1, earlyFoldStore (ns k) B.2))
      (f.mapIdx fun k B => (B.1, earlyFoldStore (ns k) B.2)) s t' → ∃ t, Runs E f f s t ∧ Off n0 t t') :=
  runs_off (forall₂_mapIdx _ (fun k B => (B.1, earlyFoldStore (ns k) B.2)) fun k B hB => ⟨rfl, fun _ _ h =>
    earlyFoldStore_run E (hn k) B.2 (ho B hB).1 (ho B hB).2.1 (ho B hB).2.2 h⟩) s

/-- **C60**, loads, whole functions. -/
theorem earlyFoldLoad_runs (E : Env) (f : Fn) (n0 : ℕ) (ns : ℕ → ℕ) (hn : ∀ k, n0 ≤ ns k)
    (ho : ∀ B ∈ f, (∀ i ∈ B.2, i.old n0) ∧ NoClobberLd B.2 ∧ LaOnce B.2) (s : St) :
    (∀ t, Runs E f f s t → ∃ t', Runs E (f.mapIdx fun k B => (B.1, earlyFoldLoad (ns k) B.2))
      (f.mapIdx fun k B => (B.1, earlyFoldLoad (ns k) B.2)) s t' ∧ Off n0 t t') ∧
    (∀ t', Runs E (f.mapIdx fun k B => (B.1, earlyFoldLoad (ns k) B.2))
      (f.mapIdx fun k B => (B.1, earlyFoldLoad (ns k) B.2)) s t' → ∃ t, Runs E f f s t ∧ Off n0 t t') :=
  runs_off (forall₂_mapIdx _ (fun k B => (B.1, earlyFoldLoad (ns k) B.2)) fun k B hB => ⟨rfl, fun _ _ h =>
    earlyFoldLoad_run E (hn k) B.2 (ho B hB).1 (ho B hB).2.1 (ho B hB).2.2 h⟩) s

end Cmmc.Rvp
