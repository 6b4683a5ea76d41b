import Verif.Rvp.RelaxProps

/-!
# `relaxWInst`: the two functions in lockstep
-/

namespace Cmmc.Rvp

open Cmmc.Isel

/-- Same memory, same registers except for those in `T`, which have the same low half. -/
structure Agree (T : R → Prop) (s s' : St) : Prop where
  mem : s'.mem = s.mem
  eq : ∀ r, ¬ T r → s'.get r = s.get r
  low : ∀ r, lo (s'.get r) = lo (s.get r)

theorem agree_set {T : R → Prop} {s s' : St} (h : Agree T s s') (d : R) (x : W) : Agree T (s.set d x) (s'.set d x) := by
  refine ⟨by simp [h.mem], fun r hr => ?_, fun r => ?_⟩
  · rw [get_set, get_set, h.eq r hr]
  · rw [get_set, get_set]
    split
    · rfl
    · exact h.low r

theorem agree_setLo {T : R → Prop} {s s' : St} (h : Agree T s s') {d : R} (hd : T d) {x y : W} (hxy : lo y = lo x) :
    Agree T (s.set d x) (s'.set d y) := by
  refine ⟨by simp [h.mem], fun r hr => ?_, fun r => ?_⟩
  · have : r ≠ d := fun e => hr (e ▸ hd)
    rw [get_set_ne _ _ this, get_set_ne _ _ this, h.eq r hr]
  · rw [get_set, get_set]
    split
    · exact hxy
    · exact h.low r

theorem agree_mem {T : R → Prop} {s s' : St} (h : Agree T s s') (m : W → BitVec 8) :
    Agree T { s with mem := m } { s' with mem := m } :=
  ⟨rfl, fun r hr => by have := h.eq r hr; cases r <;> exact this, fun r => by have := h.low r; cases r <;> exact this⟩

theorem eval_eq {E : Env} {s s' : St} {a : Ad} (h : ∀ r ∈ a.uses, s'.get r = s.get r) : a.eval E s' = a.eval E s := by
  cases a with
  | reg r off => simp only [Ad.eval, h r (by simp [Ad.uses])]
  | stk n off => simp only [Ad.eval, h R.sp (by simp [Ad.uses])]
  | sym k => rfl

theorem wrBytes_congr : ∀ (n : ℕ) (m : W → BitVec 8) (a : W) (x y : ℕ), x % 256 ^ n = y % 256 ^ n →
    wrBytes m a x n = wrBytes m a y n := by
  intro n
  induction n with
  | zero => intros; rfl
  | succ n ih =>
    intro m a x y h
    have hp : 256 ^ (n + 1) = 256 * 256 ^ n := by rw [Nat.pow_succ, Nat.mul_comm]
    have h1 : x % 256 = y % 256 := by
      have := congrArg (· % 256) h
      simpa [hp, Nat.mod_mul_right_mod] using this
    have h2 : x / 256 % 256 ^ n = y / 256 % 256 ^ n := by
      have := congrArg (· / 256) h
      simpa [hp, Nat.mod_mul_right_div_self] using this
    have h3 : BitVec.ofNat 8 x = BitVec.ofNat 8 y := by
      apply BitVec.eq_of_toNat_eq; simpa using h1
    simp only [wrBytes, h3]
    exact ih _ _ _ _ h2

theorem lo_toNat {x y : W} (h : lo y = lo x) : y.toNat % 2 ^ 32 = x.toNat % 2 ^ 32 := by
  have := congrArg BitVec.toNat h
  simpa [lo] using this

theorem lo_mod32 {x y : W} (h : lo y = lo x) : y.toNat % 32 = x.toNat % 32 := by
  have := lo_toNat h
  omega

/-- An instruction that reads equal registers does the same. -/
theorem exec_eq {E : Env} {T : R → Prop} (hT : ∀ n, ¬ T (.p n)) {s s' : St} (h : Agree T s s') {i : PI}
    (hu : ∀ r ∈ i.uses, s'.get r = s.get r) : Agree T (i.exec E s) (i.exec E s') := by
  cases i with
  | op2 o d a b =>
    simp only [PI.exec, hu a (by simp [PI.uses]), hu b (by simp [PI.uses])]; exact agree_set h _ _
  | opI o d a v => simp only [PI.exec, hu a (by simp [PI.uses])]; exact agree_set h _ _
  | op1 o d a => simp only [PI.exec, hu a (by simp [PI.uses])]; exact agree_set h _ _
  | li12 d v => exact agree_set h _ _
  | liN d v => exact agree_set h _ _
  | la d k => exact agree_set h _ _
  | load sg w d a al => simp only [PI.exec, eval_eq (E := E) (a := a) hu, h.mem]; exact agree_set h _ _
  | store w x a al =>
    simp only [PI.exec, eval_eq (E := E) (a := a) (fun r hr => hu r (by simp [PI.uses, hr])), h.mem,
      hu x (by simp [PI.uses])]
    exact agree_mem h _
  | fcvt d a => simp only [PI.exec, hu a (by simp [PI.uses])]; exact agree_set h _ _
  | other n d us =>
    have : us.map s'.get = us.map s.get := List.map_congr_left hu
    simp only [PI.exec, this]; exact agree_set h _ _
  | call n =>
    have hp : (fun k => s'.reg (.p k)) = fun k => s.reg (.p k) := funext fun k => h.eq (.p k) (hT k)
    simp only [PI.exec, hp, h.mem]
    refine ⟨rfl, fun r hr => ?_, fun r => ?_⟩
    · cases r with
      | x0 => rfl
      | p k => rfl
      | v k => exact h.eq (.v k) hr
    · cases r with
      | x0 => rfl
      | p k => rfl
      | v k => exact h.low (.v k)
  | br c a b l => exact h
  | jump l => exact h
  | jr a => exact h
  | ret => exact h

/-- What `isWUser` says is true, except of the registers of `fullUses`. -/
theorem exec_low {E : Env} {T : R → Prop} {s s' : St} (h : Agree T s s') {i : PI} (hw : isWUser i = true)
    (hf : ∀ r ∈ i.fullUses, s'.get r = s.get r) : Agree T (i.exec E s) (i.exec E s') := by
  have hl := h.low
  cases i with
  | op2 o d a b =>
    have e : o.run (s'.get a) (s'.get b) = o.run (s.get a) (s.get b) := by
      cases o <;> first
        | (cases hw; done)
        | (simp only [Rv2.run, hl a, hl b]; done)
        | (simp only [Rv2.run, hl a, lo_mod32 (hl b)]; done)
        | (simp only [Rv2.run, hl a, hf b (by simp [PI.fullUses])]; done)
    simp only [PI.exec, e]; exact agree_set h _ _
  | opI o d a v =>
    have e : o.run (s'.get a) (immW v) = o.run (s.get a) (immW v) := by
      cases o <;> first
        | (cases hw; done)
        | (simp only [Rv2.run, hl a]; done)
    simp only [PI.exec, e]; exact agree_set h _ _
  | op1 o d a =>
    have e : o.run (s'.get a) = o.run (s.get a) := by
      cases o <;> first
        | (cases hw; done)
        | (simp only [Rv1.run, hl a]; done)
    simp only [PI.exec, e]; exact agree_set h _ _
  | store w x a al =>
    have hb : w.bytes ≤ 4 := by cases w <;> first | (cases hw; done) | decide
    have e : wrBytes s'.mem (a.eval E s') (s'.get x).toNat w.bytes = wrBytes s.mem (a.eval E s) (s.get x).toNat w.bytes := by
      rw [h.mem, eval_eq (E := E) (a := a) hf]
      apply wrBytes_congr
      have h1 := lo_toNat (hl x)
      have h2 : (256 : ℕ) ^ w.bytes ∣ 2 ^ 32 := by
        rw [show (256 : ℕ) = 2 ^ 8 by norm_num, ← pow_mul]
        exact pow_dvd_pow 2 (by omega)
      have h3 := congrArg (· % 256 ^ w.bytes) h1
      simpa only [Nat.mod_mod_of_dvd _ h2] using h3
    simp only [PI.exec, e]
    exact agree_mem h _
  | fcvt d a => simp only [PI.exec, hl a]; exact agree_set h _ _
  | _ => cases hw

/-! ## The set of registers that may differ -/

/-- The registers written at a relaxed place, arithmetic shifts right excepted. -/
def TSet (f : Fn) (S : List Pos) (r : R) : Prop :=
  ∃ p ∈ S, ∃ i, f.inst p = some i ∧ i.isSraiw = false ∧ i.dst = some r

theorem inst_mem {f : Fn} {p : Pos} {i : PI} (h : f.inst p = some i) : ∃ B ∈ f, i ∈ B.2 := by
  unfold Fn.inst at h
  cases hb : f[p.1]? with
  | none => rw [hb] at h; cases h
  | some B =>
    rw [hb] at h
    exact ⟨B, List.mem_of_getElem? hb, List.mem_of_getElem? h⟩

theorem tset_virt {f : Fn} (hf : RelaxOk f) {S : List Pos} (hS : SOk f S) {r : R} (h : TSet f S r) : ∃ n, r = .v n := by
  obtain ⟨p, hp, i, hi, _, hd⟩ := h
  obtain ⟨j, hj, hr⟩ := hS.int p hp
  rw [hi] at hj
  cases hj
  obtain ⟨B, hB, hiB⟩ := inst_mem hi
  obtain ⟨n, hn⟩ := hf.virt B hB i hiB hr
  rw [hd] at hn
  exact ⟨n, Option.some.inj hn⟩

theorem mem_usersOf {f : Fn} {p u : Pos} {i j : PI} {r : R} (hi : f.inst p = some i) (hd : i.dst = some r)
    (hj : f.inst u = some j) (hr : r ∈ j.uses) : u ∈ usersOf f p := by
  unfold usersOf
  rw [hi]
  simp only [Option.bind_some, hd]
  exact List.mem_filter.mpr ⟨mem_places hj, by rw [hj]; simpa using hr⟩

/-- Registers all of whose writers give sign extended values have one, once written. -/
def SInv (f : Fn) (D : R → Prop) (s : St) : Prop :=
  ∀ r, D r → r.isV = true → (∀ i ∈ defsOf f r, isWProvider i = true) → Signed (s.get r)

theorem sinv_step {E : Env} {f : Fn} (hf : RelaxOk f) {D : R → Prop} {s : St} (h : SInv f D s) {i : PI}
    {B : ℕ × List PI} (hB : B ∈ f) (hi : i ∈ B.2) : SInv f (fun r => D r ∨ i.dst = some r) (i.exec E s) := by
  intro r hr hv hp
  by_cases hd : i.dst = some r
  · have hw : isWProvider i = true := hp i (by
      unfold defsOf
      exact List.mem_flatMap.mpr ⟨B, hB, List.mem_filter.mpr ⟨hi, by simpa using hd⟩⟩)
    obtain ⟨d, hd', hs⟩ := isWProvider_signed (E := E) hw (hf.enc B hB i hi) (hf.srl B hB i hi) s
    rw [hd] at hd'
    cases hd'
    exact hs
  · have hD : D r := by rcases hr with h' | h' <;> [exact h'; exact absurd h' hd]
    obtain ⟨n, rfl⟩ : ∃ n, r = .v n := by cases r <;> first | (cases hv; done) | exact ⟨_, rfl⟩
    have : (i.exec E s).get (.v n) = s.get (.v n) := by
      cases hc : i.isCall with
      | false => exact exec_get_ne hc hd s
      | true => cases i <;> first | rfl | cases hc
    rw [this]
    exact h _ hD hv hp

theorem lo_shl (x : W) {k : ℕ} : lo (x <<< k) = lo x <<< k := by
  unfold lo
  ext i hi
  simp only [BitVec.getElem_setWidth, BitVec.getLsbD_shiftLeft, BitVec.getElem_shiftLeft]
  by_cases hk : i < k
  · simp [hk]
  · simp [hk, show i < 64 by omega]

theorem sra_signed {x : W} (h : Signed x) (k : ℕ) : x.sshiftRight k = sx ((lo x).sshiftRight k) := by
  apply BitVec.eq_of_toInt_eq
  rw [toInt_sx, BitVec.toInt_sshiftRight, BitVec.toInt_sshiftRight]
  unfold Signed at h
  conv_lhs => rw [← h, toInt_sx]

/-- One instruction of the two functions. -/
theorem step_sim {E : Env} {f : Fn} (hf : RelaxOk f) {S : List Pos} (hS : SOk f S) {D : R → Prop} {s s' : St}
    (ha : Agree (TSet f S) s s') (hi : SInv f D s) {p : Pos} {i : PI} (hp : f.inst p = some i)
    (hD : ∀ r ∈ i.uses, r.isV = true → D r) :
    Agree (TSet f S) (i.exec E s) ((if p ∈ S then (relaxI i).getD i else i).exec E s') := by
  have hT : ∀ n, ¬ TSet f S (.p n) := fun n h => by obtain ⟨m, hm⟩ := tset_virt hf hS h; cases hm
  obtain ⟨B, hB, hiB⟩ := inst_mem hp
  have henc := hf.enc B hB i hiB
  split
  · rename_i hpS
    obtain ⟨j, hj, hr⟩ := hS.int p hpS
    rw [hp] at hj
    cases hj
    have hTd : i.isSraiw = false → ∀ d, i.dst = some d → TSet f S d := fun h d hd => ⟨p, hpS, i, hp, h, hd⟩
    cases i with
    | opI o d a v =>
      cases o <;> first | (cases hr; done) | skip
      · -- ADDIW
        simp only [relaxI, Option.getD_some, PI.exec, Rv2.run]
        refine agree_setLo ha (hTd rfl d rfl) ?_
        rw [lo_add, lo_sx, ha.low a]
      · -- SLLIW
        simp only [relaxI, Option.getD_some, PI.exec, Rv2.run]
        refine agree_setLo ha (hTd rfl d rfl) ?_
        simp only [PI.enc, immOk, decide_eq_true_eq] at henc
        rw [lo_sx, immW_mod (n := 64) (by push_cast; omega) (by norm_num),
          immW_mod (n := 32) (by exact_mod_cast henc) (by norm_num), lo_shl, ha.low a]
      · -- SRAIW
        have hna : ¬ TSet f S a := by
          rintro ⟨q, hq, j, hj, hjs, hjd⟩
          have hu := mem_usersOf hj hjd hp (by simp [PI.uses])
          have := (hS.use q hq j hj hjs p hu).2 hpS
          subst this
          rw [hp] at hj
          cases hj
          cases hjs
        have hprov := hS.prov p hpS _ hp
        unfold allWOperand at hprov
        simp only [needW, Bool.not_true, Bool.false_or, PI.uses, List.all_cons, List.all_nil, Bool.and_true,
          Bool.and_eq_true] at hprov
        have hda : ∀ i ∈ defsOf f a, isWProvider i = true := List.all_eq_true.mp hprov.2
        have hsg : Signed (s.get a) := by
          cases a with
          | x0 => unfold Signed; rw [get_x0]; decide
          | v n => exact hi _ (hD _ (by simp [PI.uses]) rfl) rfl hda
          | p n => exact absurd (by simp [PI.uses]) (hf.phys B hB _ hiB rfl n)
        simp only [relaxI, Option.getD_some, PI.exec, Rv2.run]
        simp only [PI.enc, immOk, decide_eq_true_eq] at henc
        rw [immW_mod (n := 64) (by push_cast; omega) (by norm_num),
          immW_mod (n := 32) (by exact_mod_cast henc) (by norm_num), ha.eq a hna, sra_signed hsg]
        exact agree_set ha _ _
    | op1 o d a =>
      cases o <;> first | (cases hr; done) | skip
      simp only [relaxI, Option.getD_some, PI.exec, Rv1.run]
      refine agree_setLo ha (hTd rfl d rfl) ?_
      rw [lo_sx, ha.low a]
    | _ => cases hr
  · by_cases hu : ∀ r ∈ i.uses, ¬ TSet f S r
    · exact exec_eq hT ha fun r hr => ha.eq r (hu r hr)
    · push_neg at hu
      obtain ⟨r, hr, q, hq, j, hj, hjs, hjd⟩ := hu
      obtain ⟨⟨k, hk, hw⟩, _⟩ := hS.use q hq j hj hjs p (mem_usersOf hj hjd hp hr)
      rw [hp] at hk
      cases hk
      refine exec_low ha hw fun r' hr' => ha.eq r' ?_
      rintro ⟨q', hq', j', hj', _, hjd'⟩
      obtain ⟨C, hC, hjC⟩ := inst_mem hj'
      obtain ⟨j2, hj2, hrel⟩ := hS.int q' hq'
      rw [hj'] at hj2
      cases hj2
      exact hf.full C hC j' hjC hrel B hB i hiB r' hr' hjd'

/-! ## Blocks and functions -/

/-- The outcomes of two blocks correspond. -/
inductive OutRel (T : R → Prop) : Out → Out → Prop
  | fall {s s'} : Agree T s s' → OutRel T (.fall s) (.fall s')
  | jump {l s s'} : Agree T s s' → OutRel T (.jump l s) (.jump l s')
  | ret {s s'} : Agree T s s' → OutRel T (.ret s) (.ret s')

/-- Where a block leads, the registers written before the block it leads to have been written. -/
def OutInv (f : Fn) (A : ℕ → R → Prop) (nx : Option ℕ) : Out → Prop
  | .fall s => ∀ n, nx = some n → SInv f (A n) s
  | .jump l s => SInv f (A l) s
  | .ret _ => True

theorem sinv_mono {f : Fn} {D D' : R → Prop} {s : St} (h : SInv f D s) (hs : ∀ r, D' r → D r) : SInv f D' s :=
  fun r hr => h r (hs r hr)

theorem block_sim {E : Env} {f : Fn} (hf : RelaxOk f) {S : List Pos} (hS : SOk f S) {A : ℕ → R → Prop} {nx : Option ℕ}
    {b : ℕ} : ∀ (is : List PI) (k : ℕ) (D : R → Prop) (s s' : St),
    (∀ n i, is[n]? = some i → f.inst (b, k + n) = some i) → Flow A nx D is →
    Agree (TSet f S) s s' → SInv f D s →
    OutRel (TSet f S) (run E is s) (run E (relaxBlk S b k is) s') ∧ OutInv f A nx (run E is s) := by
  have hT : ∀ n, ¬ TSet f S (.p n) := fun n h => by obtain ⟨m, hm⟩ := tset_virt hf hS h; cases hm
  intro is
  induction is with
  | nil =>
    intro k D s s' _ hfl ha hi
    exact ⟨.fall ha, fun n hn => sinv_mono hi (hfl n hn)⟩
  | cons i is ih =>
    intro k D s s' hpos hfl ha hi
    have hp : f.inst (b, k) = some i := hpos 0 i rfl
    have hpos' : ∀ n j, is[n]? = some j → f.inst (b, (k + 1) + n) = some j := by
      intro n j hj
      have := hpos (n + 1) j (by simpa using hj)
      rw [show k + (n + 1) = k + 1 + n by omega] at this
      exact this
    obtain ⟨B, hB, hiB⟩ := inst_mem hp
    have hrel : i.plain = false → (if (b, k) ∈ S then (relaxI i).getD i else i) = i := by
      intro h
      have : relaxI i = none := by cases i <;> first | rfl | cases h
      rw [this]; simp
    have huse : ∀ r ∈ i.uses, i.plain = false → s'.get r = s.get r := by
      intro r hr hpl
      refine ha.eq r ?_
      rintro ⟨q, hq, j, hj, hjs, hjd⟩
      obtain ⟨⟨m, hm, hw⟩, _⟩ := hS.use q hq j hj hjs (b, k) (mem_usersOf hj hjd hp hr)
      rw [hp] at hm
      cases hm
      cases i <;> first | (cases hpl; done) | (cases hw; done)
    by_cases hpl : i.plain = true
    · have hfl' : (∀ r ∈ i.uses, r.isV = true → D r) ∧ Flow A nx (fun r => D r ∨ i.dst = some r) is := by
        cases i <;> first | exact hfl | cases hpl
      have hpl' : (if (b, k) ∈ S then (relaxI i).getD i else i).plain = true := by
        split
        · cases hr : relaxI i with
          | none => exact hpl
          | some j => unfold relaxI at hr; split at hr <;> cases hr <;> rfl
        · exact hpl
      simp only [relaxBlk]
      rw [run_plain hpl, run_plain hpl']
      exact ih (k + 1) _ _ _ hpos' hfl'.2 (step_sim hf hS ha hi hp hfl'.1) (sinv_step hf hi hB hiB)
    · have hpl' := Bool.eq_false_iff.mpr hpl
      simp only [relaxBlk]
      rw [hrel hpl']
      cases i with
      | br c a b' l =>
        simp only [run, huse a (by simp [PI.uses]) rfl, huse b' (by simp [PI.uses]) rfl]
        split
        · exact ⟨.jump ha, sinv_mono hi hfl.2.1⟩
        · exact ih (k + 1) _ _ _ hpos' hfl.2.2 ha hi
      | jump l => exact ⟨.jump ha, sinv_mono hi hfl⟩
      | jr a =>
        simp only [run, huse a (by simp [PI.uses]) rfl]
        exact ⟨.jump ha, sinv_mono hi (hfl.2 _)⟩
      | ret => exact ⟨.ret ha, trivial⟩
      | _ => exact absurd rfl hpl

theorem relaxFn_at (S : List Pos) : ∀ (f : Fn) (b l : ℕ),
    ∃ n, (relaxFn S b f).at l = relaxFn S (b + n) (f.at l) ∧ f.at l = f.drop n := by
  intro f
  induction f with
  | nil => intro b l; exact ⟨0, rfl, rfl⟩
  | cons B f ih =>
    intro b l
    unfold Fn.at at *
    simp only [relaxFn, List.dropWhile_cons]
    split
    · obtain ⟨n, h1, h2⟩ := ih (b + 1) l
      refine ⟨n + 1, ?_, ?_⟩
      · rw [h1, show b + 1 + n = b + (n + 1) by omega]
      · rw [h2]; rfl
    · exact ⟨0, rfl, rfl⟩

theorem flowFn_drop {A : ℕ → R → Prop} : ∀ {f : Fn} (_ : FlowFn A f) (n : ℕ), FlowFn A (f.drop n) := by
  intro f
  induction f with
  | nil => intro _ n; rw [List.drop_nil]; trivial
  | cons B f ih =>
    intro h n
    cases n with
    | zero => exact h
    | succ n => exact ih h.2 n

theorem at_head {f : Fn} {l : ℕ} {B : ℕ × List PI} {g : Fn} (h : f.at l = B :: g) : B.1 = l := by
  unfold Fn.at at h
  have := List.head_dropWhile_not (fun B : ℕ × List PI => decide (B.1 ≠ l)) (l := f) (by rw [h]; simp)
  simp only [h, List.head_cons] at this
  simpa using this

/-- What is known where an execution is at the beginning of the blocks from number `b` on. -/
structure Here (f : Fn) (S : List Pos) (A : ℕ → R → Prop) (b : ℕ) (g : Fn) (s s' : St) : Prop where
  drop : g = f.drop b
  inv : ∀ B, g.head? = some B → SInv f (A B.1) s
  agree : Agree (TSet f S) s s'

theorem here_block {E : Env} {f : Fn} (hf : RelaxOk f) {S : List Pos} (hS : SOk f S) {A : ℕ → R → Prop}
    (hA : FlowFn A f) {b : ℕ} {l : ℕ} {is : List PI} {g : Fn} {s s' : St} (h : Here f S A b ((l, is) :: g) s s') :
    OutRel (TSet f S) (run E is s) (run E (relaxBlk S b 0 is) s') ∧
      OutInv f A (g.head?.map Prod.fst) (run E is s) ∧ f.drop (b + 1) = g := by
  have hfl := flowFn_drop hA b
  rw [← h.drop] at hfl
  have hb : f[b]? = some (l, is) := by
    rw [← List.head?_drop, ← h.drop]; rfl
  obtain ⟨h1, h2⟩ := block_sim (E := E) hf hS (b := b) is 0 (A l) s s' (by
    intro n i hn
    unfold Fn.inst
    simp only [hb, Option.bind_some, Nat.zero_add]
    exact hn) hfl.1 h.agree (h.inv _ rfl)
  refine ⟨h1, h2, ?_⟩
  have := congrArg List.tail h.drop
  simpa using this.symm

theorem here_jump {f : Fn} {S : List Pos} {A : ℕ → R → Prop} {l : ℕ} {s s' : St} (ha : Agree (TSet f S) s s')
    (hi : SInv f (A l) s) : ∃ n, (relaxFn S 0 f).at l = relaxFn S n (f.at l) ∧ Here f S A n (f.at l) s s' := by
  obtain ⟨n, h1, h2⟩ := relaxFn_at S f 0 l
  rw [Nat.zero_add] at h1
  refine ⟨n, h1, h2, fun B hB => ?_, ha⟩
  have : B.1 = l := by
    cases hg : f.at l with
    | nil => rw [hg] at hB; cases hB
    | cons C g =>
      rw [hg] at hB
      cases hB
      exact at_head hg
  rw [this]; exact hi

theorem here_fall {f : Fn} {S : List Pos} {A : ℕ → R → Prop} {b : ℕ} {g : Fn} {s s' : St} (hd : f.drop (b + 1) = g)
    (ha : Agree (TSet f S) s s') (hi : ∀ n, g.head?.map Prod.fst = some n → SInv f (A n) s) :
    Here f S A (b + 1) g s s' :=
  ⟨hd.symm, fun B hB => hi B.1 (by rw [hB]; rfl), ha⟩

theorem relax_fwd {E : Env} {f : Fn} (hf : RelaxOk f) {S : List Pos} (hS : SOk f S) {A : ℕ → R → Prop}
    (hA : FlowFn A f) : ∀ {g s t}, Runs E f g s t → ∀ b s', Here f S A b g s s' →
    ∃ t', Runs E (relaxFn S 0 f) (relaxFn S b g) s' t' ∧ Agree (TSet f S) t t' := by
  intro g s t hr
  induction hr with
  | ret h1 =>
    intro b s' hh
    obtain ⟨h2, _, _⟩ := here_block (E := E) hf hS hA hh
    rw [h1] at h2
    cases hq : run E (relaxBlk S b 0 _) s' with
    | ret t' =>
      rw [hq] at h2
      cases h2
      exact ⟨t', .ret hq, ‹_›⟩
    | _ => rw [hq] at h2; cases h2
  | fall h1 _ ih =>
    intro b s' hh
    obtain ⟨h2, h3, h4⟩ := here_block (E := E) hf hS hA hh
    rw [h1] at h2 h3
    cases hq : run E (relaxBlk S b 0 _) s' with
    | fall t' =>
      rw [hq] at h2
      cases h2
      rename_i ha
      obtain ⟨u', hu, hag⟩ := ih (b + 1) t' (here_fall h4 ha h3)
      exact ⟨u', .fall hq hu, hag⟩
    | _ => rw [hq] at h2; cases h2
  | jump h1 _ ih =>
    intro b s' hh
    obtain ⟨h2, h3, _⟩ := here_block (E := E) hf hS hA hh
    rw [h1] at h2 h3
    cases hq : run E (relaxBlk S b 0 _) s' with
    | jump l t' =>
      rw [hq] at h2
      cases h2
      rename_i ha
      obtain ⟨n, h5, h6⟩ := here_jump ha h3
      obtain ⟨u', hu, hag⟩ := ih n t' h6
      exact ⟨u', .jump hq (by rw [h5]; exact hu), hag⟩
    | _ => rw [hq] at h2; cases h2

theorem relax_bwd {E : Env} {f : Fn} (hf : RelaxOk f) {S : List Pos} (hS : SOk f S) {A : ℕ → R → Prop}
    (hA : FlowFn A f) : ∀ {g' s' t'}, Runs E (relaxFn S 0 f) g' s' t' → ∀ b g s, g' = relaxFn S b g →
    Here f S A b g s s' → ∃ t, Runs E f g s t ∧ Agree (TSet f S) t t' := by
  intro g' s' t' hr
  induction hr with
  | ret h1 =>
    intro b g s hg hh
    cases g with
    | nil => cases hg
    | cons B g =>
      obtain ⟨l, is⟩ := B
      simp only [relaxFn, List.cons.injEq, Prod.mk.injEq] at hg
      obtain ⟨⟨rfl, rfl⟩, _⟩ := hg
      obtain ⟨h2, _, _⟩ := here_block (E := E) hf hS hA hh
      rw [h1] at h2
      cases hq : run E is s with
      | ret t =>
        rw [hq] at h2
        cases h2
        exact ⟨t, .ret hq, ‹_›⟩
      | _ => rw [hq] at h2; cases h2
  | fall h1 _ ih =>
    intro b g s hg hh
    cases g with
    | nil => cases hg
    | cons B g =>
      obtain ⟨l, is⟩ := B
      simp only [relaxFn, List.cons.injEq, Prod.mk.injEq] at hg
      obtain ⟨⟨rfl, rfl⟩, hg2⟩ := hg
      obtain ⟨h2, h3, h4⟩ := here_block (E := E) hf hS hA hh
      rw [h1] at h2
      cases hq : run E is s with
      | fall t =>
        rw [hq] at h2 h3
        cases h2
        rename_i ha
        obtain ⟨u, hu, hag⟩ := ih (b + 1) g t hg2 (here_fall h4 ha h3)
        exact ⟨u, .fall hq hu, hag⟩
      | _ => rw [hq] at h2; cases h2
  | jump h1 _ ih =>
    intro b g s hg hh
    cases g with
    | nil => cases hg
    | cons B g =>
      obtain ⟨l, is⟩ := B
      simp only [relaxFn, List.cons.injEq, Prod.mk.injEq] at hg
      obtain ⟨⟨rfl, rfl⟩, hg2⟩ := hg
      obtain ⟨h2, h3, _⟩ := here_block (E := E) hf hS hA hh
      rw [h1] at h2
      cases hq : run E is s with
      | jump l t =>
        rw [hq] at h2 h3
        cases h2
        rename_i ha
        obtain ⟨n, h5, h6⟩ := here_jump ha h3
        obtain ⟨u, hu, hag⟩ := ih n _ t h5 h6
        exact ⟨u, .jump hq hu, hag⟩
      | _ => rw [hq] at h2; cases h2

/-- Same memory and same physical registers. -/
def SameOut (t t' : St) : Prop := t'.mem = t.mem ∧ ∀ n, t'.reg (.p n) = t.reg (.p n)

/-- **C59**.  In whatever order the instructions are visited, a function that satisfies `RelaxOk` returns from the same states
after `relaxWInst`, with the same memory and the same physical registers. -/
theorem relaxWInst_runs (E : Env) (f : Fn) (hf : RelaxOk f) (ord : List Pos) (s : St) :
    (∀ t, Runs E f f s t → ∃ t', Runs E (relaxWInst f ord) (relaxWInst f ord) s t' ∧ SameOut t t') ∧
    (∀ t', Runs E (relaxWInst f ord) (relaxWInst f ord) s t' → ∃ t, Runs E f f s t ∧ SameOut t t') := by
  have hS := relaxLoop_ok f ord
  unfold relaxWInst
  generalize (ord.foldl (relaxStep f) { done := [], no := noRelax f }).done = S at hS
  obtain ⟨A, hA, h0⟩ := hf.strict
  have hh : Here f S A 0 f s s := by
    refine ⟨rfl, fun B hB r hr => absurd hr (h0 B hB r), ⟨rfl, fun _ _ => rfl, fun _ => rfl⟩⟩
  have hout : ∀ {t t'}, Agree (TSet f S) t t' → SameOut t t' := by
    intro t t' ha
    refine ⟨ha.mem, fun n => ?_⟩
    exact ha.eq (.p n) (fun h => by obtain ⟨m, hm⟩ := tset_virt hf hS h; cases hm)
  constructor
  · intro t hr
    obtain ⟨t', h1, h2⟩ := relax_fwd hf hS hA hr 0 s hh
    exact ⟨t', h1, hout h2⟩
  · intro t' hr
    obtain ⟨t, h1, h2⟩ := relax_bwd hf hS hA hr 0 f s rfl hh
    exact ⟨t, h1, hout h2⟩

end Cmmc.Rvp
