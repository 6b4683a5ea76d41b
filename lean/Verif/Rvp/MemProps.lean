import Verif.Rvp.Mem
import Verif.Rvp.RelaxSim

/-!
# Two word accesses made one double word access: the function does the same
-/

namespace Cmmc.Rvp

open Cmmc.Isel

/-! ## Bytes -/

theorem wrBytes_add : ∀ (n k : ℕ) (m : W → BitVec 8) (a : W) (x : ℕ),
    wrBytes m a x (n + k) = wrBytes (wrBytes m a x n) (a + BitVec.ofNat 64 n) (x / 256 ^ n) k := by
  intro n
  induction n with
  | zero => intro k m a x; simp [wrBytes]
  | succ n ih =>
    intro k m a x
    have e : n + 1 + k = (n + k) + 1 := by omega
    rw [e]
    simp only [wrBytes]
    rw [ih]
    have e1 : a + 1 + BitVec.ofNat 64 n = a + BitVec.ofNat 64 (n + 1) := by
      rw [show (BitVec.ofNat 64 (n + 1)) = BitVec.ofNat 64 n + 1#64 from by rw [BitVec.ofNat_add]]
      rw [BitVec.add_assoc]; congr 1; exact BitVec.add_comm _ _
    rw [e1, Nat.div_div_eq_div_mul, Nat.pow_succ, Nat.mul_comm (256 ^ n) 256]

theorem rdBytes_add : ∀ (n k : ℕ) (m : W → BitVec 8) (a : W),
    rdBytes m a (n + k) = rdBytes m a n + 256 ^ n * rdBytes m (a + BitVec.ofNat 64 n) k := by
  intro n
  induction n with
  | zero => intro k m a; simp [rdBytes]
  | succ n ih =>
    intro k m a
    have e : n + 1 + k = (n + k) + 1 := by omega
    rw [e]
    simp only [rdBytes]
    rw [ih]
    have e1 : a + 1 + BitVec.ofNat 64 n = a + BitVec.ofNat 64 (n + 1) := by
      rw [show (BitVec.ofNat 64 (n + 1)) = BitVec.ofNat 64 n + 1#64 from by rw [BitVec.ofNat_add]]
      rw [BitVec.add_assoc]; congr 1; exact BitVec.add_comm _ _
    rw [e1, Nat.pow_succ]; ring

theorem rdBytes_lt : ∀ (n : ℕ) (m : W → BitVec 8) (a : W), rdBytes m a n < 256 ^ n := by
  intro n
  induction n with
  | zero => intros; simp [rdBytes]
  | succ n ih =>
    intro m a
    simp only [rdBytes, Nat.pow_succ]
    have h1 := ih m (a + 1)
    have h2 := (m a).isLt
    nlinarith [h1, h2]

/-- A double word of two words, stored at once. -/
theorem wr_two (m : W → BitVec 8) (a x1 x2 : W) :
    wrBytes m a ((Rv2.addUw).run x1 ((Rv2.sll).run x2 (immW 32))).toNat 8 =
      wrBytes (wrBytes m a x1.toNat 4) (a + 4) x2.toNat 4 := by
  have e32 : (immW 32).toNat % 64 = 32 := by decide
  have ev : ((Rv2.addUw).run x1 ((Rv2.sll).run x2 (immW 32))).toNat =
      x1.toNat % 2 ^ 32 + x2.toNat % 2 ^ 32 * 2 ^ 32 := by
    simp only [Rv2.run, e32, lo]
    rw [BitVec.toNat_add, BitVec.toNat_setWidth, BitVec.toNat_setWidth, BitVec.toNat_shiftLeft, Nat.shiftLeft_eq]
    have h1 := x1.isLt
    have h2 := x2.isLt
    omega
  rw [ev, wrBytes_add 4 4]
  have h1 := x1.isLt
  have h2 := x2.isLt
  have c1 : wrBytes m a (x1.toNat % 2 ^ 32 + x2.toNat % 2 ^ 32 * 2 ^ 32) 4 = wrBytes m a x1.toNat 4 :=
    wrBytes_congr _ _ _ _ _ (by norm_num at h1 h2 ⊢)
  rw [c1]
  apply wrBytes_congr
  norm_num at h1 h2 ⊢
  omega

theorem rd_low (m : W → BitVec 8) (a : W) : (Rv1.sextW).run (rdMem m true .d a) = rdMem m true .w a := by
  have h1 := rdBytes_lt 4 m a
  have e : rdBytes m a Wd.d.bytes = rdBytes m a 4 + 256 ^ 4 * rdBytes m (a + BitVec.ofNat 64 4) 4 := rdBytes_add 4 4 m a
  have e' : rdBytes m a Wd.w.bytes = rdBytes m a 4 := rfl
  unfold rdMem
  rw [e, e']
  generalize rdBytes m a 4 = u at *
  generalize rdBytes m (a + BitVec.ofNat 64 4) 4 = w at *
  have hw : ∀ y : BitVec 64, (Rv1.sextW).run y = (y.setWidth 32).signExtend 64 := fun _ => rfl
  simp only [if_true, hw]
  change (((BitVec.ofNat 64 (u + 256 ^ 4 * w)).signExtend 64).setWidth 32).signExtend 64 = (BitVec.ofNat 32 u).signExtend 64
  congr 1
  apply BitVec.eq_of_toNat_eq
  simp only [BitVec.toNat_setWidth, BitVec.signExtend_eq, BitVec.toNat_ofNat]
  norm_num at h1 ⊢

theorem rd_high (m : W → BitVec 8) (a : W) :
    (Rv2.sra).run (rdMem m true .d a) (immW 32) = rdMem m true .w (a + 4) := by
  have e32 : (immW 32).toNat % 64 = 32 := by decide
  have h1 := rdBytes_lt 4 m a
  have h2 := rdBytes_lt 4 m (a + BitVec.ofNat 64 4)
  have e : rdBytes m a Wd.d.bytes = rdBytes m a 4 + 256 ^ 4 * rdBytes m (a + BitVec.ofNat 64 4) 4 := rdBytes_add 4 4 m a
  have e' : rdBytes m (a + 4) Wd.w.bytes = rdBytes m (a + BitVec.ofNat 64 4) 4 := rfl
  unfold rdMem
  rw [e, e']
  generalize rdBytes m a 4 = u at *
  generalize rdBytes m (a + BitVec.ofNat 64 4) 4 = w at *
  have hw : ∀ y : BitVec 64, (Rv2.sra).run y (immW 32) = y.sshiftRight ((immW 32).toNat % 64) := fun _ => rfl
  simp only [if_true, hw, e32]
  change ((BitVec.ofNat 64 (u + 256 ^ 4 * w)).signExtend 64).sshiftRight 32 = (BitVec.ofNat 32 w).signExtend 64
  apply BitVec.eq_of_toInt_eq
  rw [BitVec.signExtend_eq, BitVec.toInt_sshiftRight, BitVec.toInt_signExtend]
  rw [BitVec.toInt_eq_toNat_cond, BitVec.toInt_eq_toNat_cond, BitVec.toNat_ofNat, BitVec.toNat_ofNat]
  rw [Int.shiftRight_eq_div_pow]
  simp only [Int.bmod]
  norm_num at h1 h2 ⊢
  push_cast
  omega

/-! ## States that differ in new registers only -/

/-- A virtual register with a number from `n0` on. -/
def R.newer (n0 : ℕ) : R → Prop
  | .v m => n0 ≤ m
  | _ => False

/-- Same memory, same registers except for the new ones. -/
structure Off (n0 : ℕ) (s s' : St) : Prop where
  mem : s'.mem = s.mem
  eq : ∀ r, ¬ r.newer n0 → s'.get r = s.get r

/-- Two ends of a block: the same way, the same target, states that differ in new registers only. -/
def OutOff (n0 : ℕ) : Out → Out → Prop
  | .fall s, .fall s' => Off n0 s s'
  | .jump l s, .jump l' s' => l' = l ∧ Off n0 s s'
  | .ret s, .ret s' => Off n0 s s'
  | _, _ => False

/-- The instruction neither reads nor writes new registers. -/
def PI.old (n0 : ℕ) (i : PI) : Prop := (∀ r ∈ i.uses, ¬ r.newer n0) ∧ ∀ r, i.dst = some r → ¬ r.newer n0

theorem off_refl (n0 : ℕ) (s : St) : Off n0 s s := ⟨rfl, fun _ _ => rfl⟩

theorem off_trans {n0 : ℕ} {s t u : St} (h : Off n0 s t) (h' : Off n0 t u) : Off n0 s u :=
  ⟨h'.mem.trans h.mem, fun r hr => (h'.eq r hr).trans (h.eq r hr)⟩

theorem outOff_refl (n0 : ℕ) (o : Out) : OutOff n0 o o := by cases o <;> simp [OutOff, off_refl]

theorem off_set {n0 : ℕ} {s s' : St} (h : Off n0 s s') (d : R) (x : W) : Off n0 (s.set d x) (s'.set d x) := by
  refine ⟨by simp [h.mem], fun r hr => ?_⟩
  rw [get_set, get_set, h.eq r hr]

theorem off_new {n0 : ℕ} {s s' : St} (h : Off n0 s s') {d : R} (hd : d.newer n0) (x : W) : Off n0 s (s'.set d x) := by
  refine ⟨by simp [h.mem], fun r hr => ?_⟩
  have hne : r ≠ d := fun e => hr (e ▸ hd)
  rw [get_set_ne _ _ hne, h.eq r hr]

theorem off_mem {n0 : ℕ} {s s' : St} (h : Off n0 s s') (m : W → BitVec 8) :
    Off n0 { s with mem := m } { s' with mem := m } :=
  ⟨rfl, fun r hr => by have := h.eq r hr; cases r <;> exact this⟩

theorem exec_off {E : Env} {n0 : ℕ} {s s' : St} (h : Off n0 s s') {i : PI} (ho : i.old n0) :
    Off n0 (i.exec E s) (i.exec E s') := by
  have hu : ∀ r ∈ i.uses, s'.get r = s.get r := fun r hr => h.eq r (ho.1 r hr)
  cases i with
  | op2 o d a b =>
    simp only [PI.exec, hu a (by simp [PI.uses]), hu b (by simp [PI.uses])]
    exact off_set h _ _
  | opI o d a v => simp only [PI.exec, hu a (by simp [PI.uses])]; exact off_set h _ _
  | op1 o d a => simp only [PI.exec, hu a (by simp [PI.uses])]; exact off_set h _ _
  | li12 d v => exact off_set h _ _
  | liN d v => exact off_set h _ _
  | la d k => exact off_set h _ _
  | load sg w d a al =>
    have : a.eval E s' = a.eval E s := eval_eq fun r hr => hu r (by simpa [PI.uses] using hr)
    simp only [PI.exec, this, h.mem]
    exact off_set h _ _
  | store w x a al =>
    have : a.eval E s' = a.eval E s := eval_eq fun r hr => hu r (by simp [PI.uses, hr])
    simp only [PI.exec, this, h.mem, hu x (by simp [PI.uses])]
    exact off_mem h _
  | call n =>
    have e : (fun k => s'.reg (.p k)) = fun k => s.reg (.p k) := by
      funext k; exact h.eq (.p k) (by simp [R.newer])
    simp only [PI.exec, e, h.mem]
    refine ⟨rfl, fun r hr => ?_⟩
    cases r with
    | x0 => rfl
    | p k => rfl
    | v k => exact h.eq (.v k) hr
  | fcvt d a => simp only [PI.exec, hu a (by simp [PI.uses])]; exact off_set h _ _
  | other n d us =>
    have e : us.map s'.get = us.map s.get := List.map_congr_left fun r hr => hu r hr
    simp only [PI.exec, e]
    exact off_set h _ _
  | br c a b l => exact h
  | jump l => exact h
  | jr a => exact h
  | ret => exact h

/-- If two blocks both begin with the same instruction, the rest decides. -/
theorem cons_off {E : Env} {n0 : ℕ} {i : PI} (ho : i.old n0) {is js : List PI} {s s' : St} (h : Off n0 s s')
    (hr : ∀ t t', Off n0 t t' → t = i.exec E s → t' = i.exec E s' → OutOff n0 (run E is t) (run E js t')) :
    OutOff n0 (run E (i :: is) s) (run E (i :: js) s') := by
  have hu : ∀ r ∈ i.uses, s'.get r = s.get r := fun r hr => h.eq r (ho.1 r hr)
  by_cases hp : i.plain = true
  · rw [run_plain hp, run_plain hp]
    exact hr _ _ (exec_off h ho) rfl rfl
  · cases i with
    | br c a b l =>
      simp only [run, hu a (by simp [PI.uses]), hu b (by simp [PI.uses])]
      split
      · exact ⟨rfl, h⟩
      · exact hr _ _ h rfl rfl
    | jump l => exact ⟨rfl, h⟩
    | jr a => simp only [run, hu a (by simp [PI.uses])]; exact ⟨rfl, h⟩
    | ret => exact h
    | _ => exact absurd rfl hp

/-- Instructions with no side effect, one after the other. -/
def execs (E : Env) (is : List PI) (s : St) : St := is.foldl (fun s i => i.exec E s) s

theorem plain_of_quiet {i : PI} (h : i.side = false) : i.plain = true := by cases i <;> first | rfl | cases h
theorem call_of_quiet {i : PI} (h : i.side = false) : i.isCall = false := by cases i <;> first | rfl | cases h

theorem run_quiet {E : Env} : ∀ (mid : List PI), (∀ i ∈ mid, i.side = false) → ∀ (is : List PI) (s : St),
    run E (mid ++ is) s = run E is (execs E mid s)
  | [], _, _, _ => rfl
  | i :: mid, h, is, s => by
    rw [List.cons_append, run_plain (plain_of_quiet (h i (by simp))), run_quiet mid (fun j hj => h j (by simp [hj]))]
    rfl

theorem execs_off {E : Env} {n0 : ℕ} : ∀ (mid : List PI), (∀ i ∈ mid, i.old n0) → ∀ {s s' : St}, Off n0 s s' →
    Off n0 (execs E mid s) (execs E mid s')
  | [], _, _, _, h => h
  | i :: mid, ho, s, s', h => execs_off mid (fun j hj => ho j (by simp [hj])) (exec_off h (ho i (by simp)))

/-- What a quiet instruction does not depend on the memory, and it leaves the memory alone. -/
theorem exec_quiet_mem {E : Env} {i : PI} (h : i.side = false) (s : St) (m : W → BitVec 8) :
    i.exec E { s with mem := m } = { i.exec E s with mem := m } := by
  have hg : ∀ r, St.get { s with mem := m } r = s.get r := fun r => by cases r <;> rfl
  have hg' : (fun r => St.get { s with mem := m } r) = s.get := funext hg
  have hs : ∀ d x, St.set { s with mem := m } d x = { s.set d x with mem := m } := by
    intro d x; unfold St.set; split <;> rfl
  cases i <;> first | (cases h; done) | skip
  all_goals simp only [PI.exec, hg, hs]
  case other n d us =>
    have : us.map (St.get { s with mem := m }) = us.map s.get := List.map_congr_left fun r _ => hg r
    rw [this]

theorem execs_quiet_mem {E : Env} : ∀ (mid : List PI), (∀ i ∈ mid, i.side = false) → ∀ (s : St) (m : W → BitVec 8),
    execs E mid { s with mem := m } = { execs E mid s with mem := m }
  | [], _, _, _ => rfl
  | i :: mid, h, s, m => by
    have := execs_quiet_mem (E := E) mid (fun j hj => h j (by simp [hj])) (i.exec E s) m
    unfold execs at this ⊢
    simp only [List.foldl_cons]
    rw [exec_quiet_mem (h i (by simp)), this]

theorem exec_mem_quiet {E : Env} {i : PI} (h : i.side = false) (s : St) : (i.exec E s).mem = s.mem := by
  cases i <;> first | (cases h; done) | exact set_mem _ _ _

theorem execs_mem {E : Env} : ∀ (mid : List PI), (∀ i ∈ mid, i.side = false) → ∀ s : St, (execs E mid s).mem = s.mem
  | [], _, _ => rfl
  | i :: mid, h, s => (execs_mem mid (fun j hj => h j (by simp [hj])) (i.exec E s)).trans
      (exec_mem_quiet (h i (by simp)) s)

theorem execs_get {E : Env} {q : R} : ∀ (mid : List PI), (∀ i ∈ mid, i.side = false) → (∀ i ∈ mid, i.dst ≠ some q) →
    ∀ s : St, (execs E mid s).get q = s.get q
  | [], _, _, _ => rfl
  | i :: mid, h, hd, s => (execs_get mid (fun j hj => h j (by simp [hj])) (fun j hj => hd j (by simp [hj])) (i.exec E s)).trans
      (exec_get_ne (call_of_quiet (h i (by simp))) (hd i (by simp)) s)

theorem execs_append (E : Env) (a b : List PI) (s : St) : execs E (a ++ b) s = execs E b (execs E a s) := by
  simp [execs]

end Cmmc.Rvp
