import Verif.MulConst.Spec
import Verif.MulConst.Plan
/-! # C15, C16: multiplication by a constant -/
namespace Cmmc.MulConst

theorem reach_ok {m : Memo} (h : MemoReach m) : MemoOK m := by
  induction h with
  | empty => intro u n p h; simp [Memo.empty] at h
  | query _ hn hu e ih => exact ((find_OK ih hn hu).1 _ e).1

theorem Agree.refl {N : Nat} {e : Env} : Agree N e e := fun _ _ => rfl

theorem val_agree {N w : Nat} {e e' : Env} {a : Operand} (h : Agree N e e') (ha : a.Below N) : a.val w e = a.val w e' := by
  cases a with
  | reg r => simp only [Operand.val]; rw [h r ha]
  | imm i => rfl

theorem set_agree {N d v : Nat} {e e' : Env} (h : Agree N e e') : Agree N (e.set d v) (e'.set d v) := by
  intro r hr; unfold Env.set; split
  · rfl
  · exact h r hr

theorem set_agree_ge {N d v : Nat} {e e' : Env} (h : Agree N e e') (hd : N ≤ d) : Agree N e (e'.set d v) := by
  intro r hr; unfold Env.set; rw [if_neg (by omega)]; exact h r hr

theorem exec_agree {N : Nat} {i : Inst} (hw : i.WF N) {e e' : Env} (h : Agree N e e') : AgreeO N (i.exec e) (i.exec e') := by
  cases i with
  | mul w d a b => obtain ⟨_, ha, hb, _⟩ := hw; simp only [Inst.exec]; rw [val_agree h ha, val_agree h hb]; exact set_agree h
  | add w d a b => obtain ⟨_, ha, hb⟩ := hw; simp only [Inst.exec]; rw [val_agree h ha, val_agree h hb]; exact set_agree h
  | sub w d a b => obtain ⟨_, ha, hb⟩ := hw; simp only [Inst.exec]; rw [val_agree h ha, val_agree h hb]; exact set_agree h
  | shl w d a s =>
    obtain ⟨_, ha⟩ := hw
    simp only [Inst.exec]
    rw [val_agree h ha]
    split
    · exact set_agree h
    · trivial
  | copy w d a => obtain ⟨_, ha⟩ := hw; simp only [Inst.exec]; rw [val_agree h ha]; exact set_agree h
  | other f => exact hw e e' h

theorem execCode_append (l1 l2 : List Inst) (e : Env) :
    execCode (l1 ++ l2) e = (execCode l1 e).bind (execCode l2) := by
  induction l1 generalizing e with
  | nil => rfl
  | cons i l ih =>
    simp only [List.cons_append, execCode]
    cases i.exec e with
    | none => rfl
    | some e' => exact ih e'

theorem shl_ofInt {w s : Nat} (x : BitVec w) (m : Int) :
    (x * BitVec.ofInt w m) <<< s = x * BitVec.ofInt w (m * 2 ^ s) := by
  rw [BitVec.shiftLeft_eq_mul_twoPow, BitVec.mul_assoc]
  congr 1
  rw [BitVec.ofInt_mul]
  congr 1
  apply BitVec.eq_of_toInt_eq
  rw [BitVec.toInt_ofInt]
  rw [BitVec.toInt_eq_toNat_bmod, BitVec.toNat_twoPow]
  rw [Int.natCast_mod, Int.emod_bmod]
  push_cast
  rfl

theorem Operand.Below.mono {N M : Nat} (h : N ≤ M) {a : Operand} (ha : a.Below N) : a.Below M := by
  cases a with
  | reg r => exact Nat.lt_of_lt_of_le ha h
  | imm i => trivial

/-- the code of a plan computes `lhs * mult` and changes only fresh registers -/
theorem expand_spec {w N : Nat} {lhs : Operand} (hl : lhs.Below N) {b : Int} (hb : ∀ s : Nat, (2 : Int) ^ s ≤ b → s < w) :
    ∀ (p : Plan) (next : Nat), p.ShLe b → N ≤ next → ∀ e : Env,
    ∃ e', execCode (expand w lhs p next).1 e = some e' ∧ Agree next e e' ∧
      (expand w lhs p next).2.1.val w e' = lhs.val w e * BitVec.ofInt w p.mult ∧
      next ≤ (expand w lhs p next).2.2 ∧ (expand w lhs p next).2.1.Below (expand w lhs p next).2.2 ∧
      (expand w lhs p next).1.length = p.ops := by
  intro p
  induction p with
  | root =>
    intro next _ hN e
    refine ⟨e, rfl, Agree.refl, ?_, Nat.le_refl _, Operand.Below.mono hN hl, rfl⟩
    show lhs.val w e = lhs.val w e * BitVec.ofInt w 1
    simp
  | node c s a r p ih =>
    intro next hsh hN e
    obtain ⟨hs, hsh'⟩ := hsh
    obtain ⟨e1, x1, a1, v1, n1, b1, l1⟩ := ih next hsh' hN e
    rcases hx : expand w lhs p next with ⟨code, v, nxt⟩
    rw [hx] at x1 v1 n1 b1 l1
    simp only at x1 v1 n1 b1 l1
    have hsw := hb s hs
    -- after the shift
    have hshift : ∃ code2 ret nxt2 e2, (if s > 0 then (code ++ [Inst.shl w nxt v s], Operand.reg nxt, nxt + 1) else (code, v, nxt))
          = (code2, ret, nxt2) ∧ execCode code2 e = some e2 ∧ Agree nxt e1 e2 ∧
          ret.val w e2 = lhs.val w e * BitVec.ofInt w (p.mult * 2 ^ s) ∧ nxt ≤ nxt2 ∧ ret.Below nxt2 ∧
          code2.length = p.ops + (if s > 0 then 1 else 0) := by
      by_cases h0 : s > 0
      · rw [if_pos h0]
        refine ⟨_, _, _, e1.set nxt (v.val w e1 <<< s).toNat, rfl, ?_, set_agree_ge Agree.refl (Nat.le_refl _), ?_, by omega,
          by show nxt < nxt + 1; omega, by simp [l1, h0]⟩
        · rw [execCode_append, x1]
          show execCode [_] e1 = _
          simp only [execCode, Inst.exec]
          rw [if_pos ⟨by omega, by exact_mod_cast hsw⟩]
          simp
        · show BitVec.ofNat w (Env.set _ _ _ nxt) = _
          unfold Env.set
          rw [if_pos rfl, v1, BitVec.ofNat_toNat, BitVec.setWidth_eq, shl_ofInt]
      · rw [if_neg h0]
        have : s = 0 := by omega
        subst this
        exact ⟨_, _, _, e1, rfl, x1, Agree.refl, by simpa using v1, Nat.le_refl _, b1, by simp [l1]⟩
    obtain ⟨code2, ret, nxt2, e2, hif, x2, a2, v2, n2, b2, l2⟩ := hshift
    have hexp : expand w lhs (.node c s a r p) next =
        if a = .nop then (code2, ret, nxt2)
        else (code2 ++ [if a = .add then Inst.add w nxt2 ret (if r = .chain then v else lhs)
          else Inst.sub w nxt2 ret (if r = .chain then v else lhs)], Operand.reg nxt2, nxt2 + 1) := by
      rw [expand, hx]
      dsimp only
      rw [hif]
    rw [hexp]
    have hlhs2 : lhs.val w e2 = lhs.val w e := by
      rw [← val_agree (w := w) a2 (Operand.Below.mono (by omega) hl), ← val_agree (w := w) a1 (Operand.Below.mono hN hl)]
    have hv2 : v.val w e2 = lhs.val w e * BitVec.ofInt w p.mult := by
      rw [← val_agree (w := w) a2 b1, v1]
    have hag : Agree next e e2 := fun q hq => (a1 q hq).trans (a2 q (by omega))
    by_cases hnop : a = .nop
    · subst hnop
      rw [if_pos rfl]
      refine ⟨e2, x2, hag, ?_, by dsimp only; omega, b2, ?_⟩
      · rw [v2]; rfl
      · rw [l2]; simp [Plan.ops]
    · rw [if_neg hnop]
      have hrhs : (if r = .chain then v else lhs).val w e2 =
          lhs.val w e * BitVec.ofInt w (if r = .chain then p.mult else 1) := by
        split
        · exact hv2
        · rw [hlhs2]; simp
      have hadd : ∀ x y : Int, lhs.val w e * BitVec.ofInt w x + lhs.val w e * BitVec.ofInt w y =
          lhs.val w e * BitVec.ofInt w (x + y) := by
        intro x y; rw [BitVec.ofInt_add, BitVec.mul_add]
      have hsub : ∀ x y : Int, lhs.val w e * BitVec.ofInt w x - lhs.val w e * BitVec.ofInt w y =
          lhs.val w e * BitVec.ofInt w (x - y) := by
        intro x y
        rw [Int.sub_eq_add_neg, BitVec.ofInt_add, BitVec.mul_add, BitVec.ofInt_neg, BitVec.mul_neg, BitVec.sub_eq_add_neg]
      have hlen : (code2 ++ [if a = .add then Inst.add w nxt2 ret (if r = .chain then v else lhs)
          else Inst.sub w nxt2 ret (if r = .chain then v else lhs)]).length = Plan.ops (.node c s a r p) := by
        simp only [List.length_append, List.length_cons, List.length_nil, l2, Plan.ops, if_neg hnop]; omega
      cases a with
      | nop => exact absurd rfl hnop
      | add =>
        refine ⟨e2.set nxt2 (ret.val w e2 + (if r = .chain then v else lhs).val w e2).toNat, ?_,
          set_agree_ge hag (by omega), ?_, by dsimp only; omega, by show nxt2 < nxt2 + 1; omega, hlen⟩
        · rw [execCode_append, x2]; rfl
        · show BitVec.ofNat w (Env.set _ _ _ nxt2) = _
          unfold Env.set
          rw [if_pos rfl, BitVec.ofNat_toNat, BitVec.setWidth_eq, v2, hrhs, hadd]
          rfl
      | sub =>
        refine ⟨e2.set nxt2 (ret.val w e2 - (if r = .chain then v else lhs).val w e2).toNat, ?_,
          set_agree_ge hag (by omega), ?_, by dsimp only; omega, by show nxt2 < nxt2 + 1; omega, hlen⟩
        · rw [execCode_append, x2]; rfl
        · show BitVec.ofNat w (Env.set _ _ _ nxt2) = _
          unfold Env.set
          rw [if_pos rfl, BitVec.ofNat_toNat, BitVec.setWidth_eq, v2, hrhs, hsub]
          rfl

theorem bnd_le_pow {w : Nat} {n : Int} (hw : 1 < w) (hn : n ≤ 2 ^ (w - 1)) : bnd n ≤ 2 ^ (w - 1) := by
  unfold bnd
  split
  · exact hn
  · rename_i h
    obtain ⟨k, hk⟩ : ∃ k, w - 1 = k + 1 := ⟨w - 2, by omega⟩
    rw [hk, pow_succ] at hn ⊢
    omega

theorem sh_lt {w : Nat} {n : Int} (hw : 1 < w) (hn : n ≤ 2 ^ (w - 1)) :
    ∀ s : Nat, (2 : Int) ^ s ≤ bnd n → s < w := by
  intro s hs
  have h2 : (2 : Int) ^ s ≤ 2 ^ (w - 1) := le_trans hs (bnd_le_pow hw hn)
  have := (pow_le_pow_iff_right₀ (by norm_num : (1 : Int) < 2)).mp h2
  omega

theorem ofInt_natAbs {w : Nat} (x : BitVec w) (v : Int) :
    (if v < 0 then BitVec.ofInt w 0 - x * BitVec.ofInt w v.natAbs else x * BitVec.ofInt w v.natAbs) = x * BitVec.ofInt w v := by
  split
  · rename_i h
    have : v = -(v.natAbs : Int) := by omega
    conv => rhs; rw [this]
    rw [BitVec.ofInt_neg, BitVec.mul_neg]
    simp
  · rename_i h
    have : (v.natAbs : Int) = v := by omega
    rw [this]

theorem AgreeO.bind {N : Nat} {o o' : Option Env} {f f' : Env → Option Env} (h : AgreeO N o o')
    (hf : ∀ e e', Agree N e e' → AgreeO N (f e) (f' e')) : AgreeO N (o.bind f) (o'.bind f') := by
  cases o <;> cases o'
  · trivial
  · exact h.elim
  · exact h.elim
  · exact hf _ _ h

/-- invariant of the pass state -/
structure StOK (N : Nat) (s : St) : Prop where
  memo : MemoReach s.memo
  next : N ≤ s.next

theorem expandInst_spec {N : Nat} {maxCost : Int} (hc : maxCost < 12) {s s' : St} {i : Inst} {code : List Inst} (hs : StOK N s)
    (hw : i.WF N) (e : expandInst maxCost s i = some (code, s')) :
    StOK N s' ∧ (∀ env env', Agree N env env' → AgreeO N (i.exec env) (execCode code env')) ∧
    (code.length : Int) ≤ max 1 (maxCost + 2) := by
  have trivialCase : ∀ m, MemoReach m → StOK N ⟨m, s.next⟩ ∧
      (∀ env env', Agree N env env' → AgreeO N (i.exec env) (execCode [i] env')) ∧
      (([i] : List Inst).length : Int) ≤ max 1 (maxCost + 2) := by
    intro m hm
    refine ⟨⟨hm, hs.next⟩, ?_, by simp⟩
    intro env env' ha
    have h1 : execCode [i] env' = i.exec env' := by
      simp only [execCode]; cases i.exec env' <;> rfl
    rw [h1]
    exact exec_agree hw ha
  unfold expandInst at e
  split at e
  · rename_i w dst lhs v2
    split at e
    · simp only [Option.some.injEq, Prod.mk.injEq] at e
      obtain ⟨rfl, rfl⟩ := e
      exact trivialCase s.memo hs.memo
    · rename_i hv
      rw [bind_some_iff] at e
      obtain ⟨r, er, e⟩ := e
      have hn1 : (1 : Int) ≤ v2.natAbs := by omega
      have hreach : MemoReach r.1 := .query hs.memo hn1 hc er
      obtain ⟨_, hg⟩ := (find_OK (reach_ok hs.memo) hn1 hc).1 r er
      split at e
      · simp only [Option.some.injEq, Prod.mk.injEq] at e
        obtain ⟨rfl, rfl⟩ := e
        exact trivialCase r.1 hreach
      · rename_i plan hp
        have g := hg plan hp
        obtain ⟨hd, hl, _, hw1, hcst⟩ := hw
        obtain ⟨c1, c2⟩ := hcst v2 rfl
        have hnat : (v2.natAbs : Int) ≤ 2 ^ (w - 1) := by omega
        have hspec := expand_spec hl (sh_lt hw1 hnat) plan s.next g.sh hs.next
        rcases hx : expand w lhs plan s.next with ⟨code1, ret, nxt⟩
        rw [hx] at e hspec
        simp only [Option.some.injEq, Prod.mk.injEq] at e
        obtain ⟨rfl, rfl⟩ := e
        refine ⟨⟨hreach, ?_⟩, ?_, ?_⟩
        · obtain ⟨_, _, _, _, h, _⟩ := hspec (fun _ => 0)
          exact Nat.le_trans hs.next h
        · intro env env' ha
          obtain ⟨e1, x1, a1, v1, _⟩ := hspec env'
          rw [execCode_append, x1]
          have hval : lhs.val w env = lhs.val w env' := val_agree ha hl
          have hres : (if v2 < 0 then BitVec.ofInt w 0 - ret.val w e1 else ret.val w e1) =
              lhs.val w env * BitVec.ofInt w v2 := by
            rw [show ret.val w e1 = _ from v1, g.mult, hval, ofInt_natAbs]
          have hA : Agree N env e1 := fun q hq => (ha q hq).trans (a1 q (Nat.lt_of_lt_of_le hq hs.next))
          have hfin : execCode [if v2 < 0 then Inst.sub w dst (.imm 0) ret else .copy w dst ret] e1 =
              some (e1.set dst (lhs.val w env * BitVec.ofInt w v2).toNat) := by
            rw [← hres]
            split <;> rfl
          show AgreeO N _ (execCode _ e1)
          rw [hfin]
          exact set_agree hA
        · obtain ⟨_, _, _, _, _, _, h⟩ := hspec (fun _ => 0)
          have h1 := g.le
          have h2 := g.cost
          simp only [List.length_append, List.length_cons, List.length_nil] at h ⊢
          rw [h]
          push_cast
          omega
  · simp only [Option.some.injEq, Prod.mk.injEq] at e
    obtain ⟨rfl, rfl⟩ := e
    exact trivialCase s.memo hs.memo

theorem expandBlock_spec {N : Nat} {maxCost : Int} (hc : maxCost < 12) : ∀ (is : List Inst) {s s' : St} {code : List Inst},
    StOK N s → (∀ i ∈ is, i.WF N) → expandBlock maxCost s is = some (code, s') →
    StOK N s' ∧ (∀ env env', Agree N env env' → AgreeO N (execCode is env) (execCode code env')) ∧
    (code.length : Int) ≤ is.length * max 1 (maxCost + 2) := by
  intro is
  induction is with
  | nil =>
    intro s s' code hs _ e
    simp only [expandBlock, Option.some.injEq, Prod.mk.injEq] at e
    obtain ⟨rfl, rfl⟩ := e
    exact ⟨hs, fun _ _ h => h, by simp⟩
  | cons i is ih =>
    intro s s' code hs hw e
    unfold expandBlock at e
    rw [bind_some_iff] at e
    obtain ⟨⟨c1, s1⟩, e1, e⟩ := e
    rw [bind_some_iff] at e
    obtain ⟨⟨c2, s2⟩, e2, e⟩ := e
    simp only [Option.pure_def, Option.some.injEq, Prod.mk.injEq] at e
    obtain ⟨rfl, rfl⟩ := e
    obtain ⟨o1, x1, l1⟩ := expandInst_spec hc hs (hw i (by simp)) e1
    obtain ⟨o2, x2, l2⟩ := ih o1 (fun j hj => hw j (by simp [hj])) e2
    refine ⟨o2, ?_, ?_⟩
    · intro env env' ha
      rw [execCode_append]
      exact AgreeO.bind (x1 env env' ha) x2
    · simp only [List.length_append, List.length_cons]
      push_cast
      rw [add_mul]
      linarith

theorem expandFunc_spec {N : Nat} {maxCost : Int} (hc : maxCost < 12) : ∀ (bs : List (List Inst)) {s s' : St} {bs' : List (List Inst)},
    StOK N s → (∀ b ∈ bs, ∀ i ∈ b, i.WF N) → expandFunc maxCost s bs = some (bs', s') →
    StOK N s' ∧ List.Forall₂ (fun b b' => (∀ env env', Agree N env env' → AgreeO N (execCode b env) (execCode b' env')) ∧
      (b'.length : Int) ≤ b.length * max 1 (maxCost + 2)) bs bs' := by
  intro bs
  induction bs with
  | nil =>
    intro s s' code hs _ e
    simp only [expandFunc, Option.some.injEq, Prod.mk.injEq] at e
    obtain ⟨rfl, rfl⟩ := e
    exact ⟨hs, .nil⟩
  | cons b bs ih =>
    intro s s' code hs hw e
    unfold expandFunc at e
    rw [bind_some_iff] at e
    obtain ⟨⟨c1, s1⟩, e1, e⟩ := e
    rw [bind_some_iff] at e
    obtain ⟨⟨c2, s2⟩, e2, e⟩ := e
    simp only [Option.pure_def, Option.some.injEq, Prod.mk.injEq] at e
    obtain ⟨rfl, rfl⟩ := e
    obtain ⟨o1, x1⟩ := expandBlock_spec hc b hs (hw b (by simp)) e1
    obtain ⟨o2, x2⟩ := ih o1 (fun j hj => hw j (by simp [hj])) e2
    exact ⟨o2, .cons x1 x2⟩

theorem forall₂_imp {α β : Type} {R S : α → β → Prop} (h : ∀ a b, R a b → S a b) : ∀ {l : List α} {l' : List β},
    List.Forall₂ R l l' → List.Forall₂ S l l'
  | _, _, .nil => .nil
  | _, _, .cons h1 h2 => .cons (h _ _ h1) (forall₂_imp h h2)

/-- C15: for every function (list of straight-line blocks) whose instructions use registers below the next free id and whose
multiplication constants fit their type, every cost limit the table admits, and whatever earlier queries left in the memo
table: if the pass returns, each block computes the same values in all registers of the original function, and is undefined
exactly when the original block is. -/
theorem C15_expand_correct (maxCost : Int) (hc : maxCost < 12) (s s' : St) (hm : MemoReach s.memo)
    (blocks blocks' : List (List Inst)) (hw : ∀ b ∈ blocks, ∀ i ∈ b, i.WF s.next)
    (h : expandFunc maxCost s blocks = some (blocks', s')) :
    List.Forall₂ (fun b b' => ∀ env, AgreeO s.next (execCode b env) (execCode b' env)) blocks blocks' := by
  obtain ⟨_, h2⟩ := expandFunc_spec hc blocks ⟨hm, Nat.le_refl _⟩ hw h
  exact forall₂_imp (fun _ _ hx env => hx.1 env env Agree.refl) h2

/-- C15: the single-multiplication case spelled out: the code replacing `dst = lhs * c` leaves `lhs * c` (mod 2^w) in `dst`. -/
theorem C15_single (maxCost : Int) (hc : maxCost < 12) (s s' : St) (hm : MemoReach s.memo) (w dst : Nat) (lhs : Operand) (c : Int)
    (hw : 1 < w) (hd : dst < s.next) (hl : lhs.Below s.next) (hcst : -2 ^ (w - 1) ≤ c ∧ c ≤ 2 ^ (w - 1)) (code : List Inst)
    (h : expandInst maxCost s (.mul w dst lhs (.imm c)) = some (code, s')) (env : Env) :
    ∃ env', execCode code env = some env' ∧ env' dst = (lhs.val w env * BitVec.ofInt w c).toNat ∧
      ∀ r, r < s.next → r ≠ dst → env' r = env r := by
  have hwf : (Inst.mul w dst lhs (.imm c)).WF s.next := by
    refine ⟨hd, hl, trivial, hw, ?_⟩
    intro c' hc'
    simp only [Operand.imm.injEq] at hc'
    subst hc'; exact hcst
  obtain ⟨_, hx, _⟩ := expandInst_spec hc ⟨hm, Nat.le_refl _⟩ hwf h
  have := hx env env Agree.refl
  simp only [Inst.exec] at this
  cases hcode : execCode code env with
  | none => rw [hcode] at this; exact this.elim
  | some env' =>
    rw [hcode] at this
    have this : Agree s.next _ env' := this
    refine ⟨env', rfl, ?_, ?_⟩
    · rw [← this dst hd]; simp [Env.set, Operand.val]
    · intro r hr hne
      rw [← this r hr]; simp [Env.set, hne]

/-- C15: the search is defined (no overflow, no failed assert, terminates) for all constants up to 2^62 in absolute value. -/
theorem C15_search_defined (memo : Memo) (hm : MemoReach memo) (n u : Int) (hn : 1 ≤ n) (hn' : n ≤ 2 ^ 62) (hu : u < 12) :
    ∃ r, find memo n u = some r := by
  have := (find_OK (reach_ok hm) hn hu).2 hn'
  exact Option.ne_none_iff_exists'.mp this

theorem expandInst_defined {N : Nat} {maxCost : Int} (hc : maxCost < 12) {s : St} (hs : StOK N s) {i : Inst}
    (hw : ∀ w d a c, i = .mul w d a (.imm c) → c.natAbs ≤ 2 ^ 62) : ∃ r, expandInst maxCost s i = some r := by
  unfold expandInst
  split
  · rename_i w dst lhs v2
    split
    · exact ⟨_, rfl⟩
    · have h1 := hw _ _ _ _ rfl
      obtain ⟨r, e⟩ := Option.ne_none_iff_exists'.mp ((find_OK (reach_ok hs.memo) (n := v2.natAbs) (u := maxCost) (by omega) hc).2
        (by exact_mod_cast h1))
      rw [e]
      show ∃ r', (match r.2 with | none => _ | some plan => _) = some r'
      split
      · exact ⟨_, rfl⟩
      · exact ⟨_, rfl⟩
  · exact ⟨_, rfl⟩

/-- C15: the whole pass is defined and terminates when all multiplication constants are at most 2^62 in absolute value. -/
theorem C15_pass_defined (maxCost : Int) (hc : maxCost < 12) (blocks : List (List Inst)) : ∀ (s : St), MemoReach s.memo →
    (∀ b ∈ blocks, ∀ i ∈ b, i.WF s.next) →
    (∀ b ∈ blocks, ∀ w d a c, Inst.mul w d a (.imm c) ∈ b → c.natAbs ≤ 2 ^ 62) →
    ∃ r, expandFunc maxCost s blocks = some r := by
  intro s0 hm hwf hsm
  have key : ∀ (is : List Inst) (s : St), StOK s0.next s → (∀ i ∈ is, i.WF s0.next) →
      (∀ w d a c, Inst.mul w d a (.imm c) ∈ is → c.natAbs ≤ 2 ^ 62) → ∃ r, expandBlock maxCost s is = some r := by
    intro is
    induction is with
    | nil => intro s _ _ _; exact ⟨_, rfl⟩
    | cons i is ih =>
      intro s hs hw hsmall
      obtain ⟨⟨c1, s1⟩, e1⟩ := expandInst_defined hc hs (i := i) (by rintro w d a c rfl; exact hsmall w d a c (by simp))
      obtain ⟨o1, _⟩ := expandInst_spec hc hs (hw i (by simp)) e1
      obtain ⟨r2, e2⟩ := ih s1 o1 (fun j hj => hw j (by simp [hj])) (fun w d a c h => hsmall w d a c (by simp [h]))
      unfold expandBlock
      rw [e1]
      show ∃ r, (do let r' ← expandBlock maxCost s1 is; _) = some r
      rw [e2]
      exact ⟨_, rfl⟩
  suffices ∀ (s : St), StOK s0.next s → ∃ r, expandFunc maxCost s blocks = some r from this s0 ⟨hm, Nat.le_refl _⟩
  induction blocks with
  | nil => intro s _; exact ⟨_, rfl⟩
  | cons b bs ih =>
    intro s hs
    obtain ⟨⟨c1, s1⟩, e1⟩ := key b s hs (hwf b (by simp)) (fun w d a c h => hsm b (by simp) w d a c h)
    obtain ⟨o1, _⟩ := expandBlock_spec hc b hs (hwf b (by simp)) e1
    obtain ⟨r2, e2⟩ := ih (fun b' hb => hwf b' (by simp [hb])) (fun b' hb => hsm b' (by simp [hb])) s1 o1
    unfold expandFunc
    rw [e1]
    show ∃ r, (do let r' ← expandFunc maxCost s1 bs; _) = some r
    rw [e2]
    exact ⟨_, rfl⟩

/-- C16: the code replacing one multiplication has at most `maxCost + 1` shift/add/sub instructions plus the final copy or
negation; with the limit used by the backends (2) that is 3 + 1. -/
theorem C16_cost_bound (maxCost : Int) (hc : maxCost < 12) (s s' : St) (hm : MemoReach s.memo) (w dst : Nat) (lhs : Operand) (c : Int)
    (hw : 1 < w) (hd : dst < s.next) (hl : lhs.Below s.next) (hcst : -2 ^ (w - 1) ≤ c ∧ c ≤ 2 ^ (w - 1)) (code : List Inst)
    (h : expandInst maxCost s (.mul w dst lhs (.imm c)) = some (code, s')) :
    (code.length : Int) ≤ max 1 ((maxCost + 1) + 1) := by
  have hwf : (Inst.mul w dst lhs (.imm c)).WF s.next := by
    refine ⟨hd, hl, trivial, hw, ?_⟩
    intro c' hc'
    simp only [Operand.imm.injEq] at hc'
    subst hc'; exact hcst
  have := (expandInst_spec hc ⟨hm, Nat.le_refl _⟩ hwf h).2.2
  have e : maxCost + 1 + 1 = maxCost + 2 := by omega
  rw [e]; exact this

/-- C16: the slack of one is needed: the search accepts a plan of cost 1 (a shift) under limit 0. -/
theorem C16_slack_witness : ∃ m' p, find Memo.empty 2 0 = some (m', some p) ∧ p.cost = 1 := by
  rw [find]
  simp only [Memo.empty]
  have hs : strip 2 0 = some (1, 1) := by
    rw [strip, if_pos (by decide), strip, if_neg (by decide)]
    rfl
  rw [hs]
  exact ⟨_, _, rfl, rfl⟩

/-- concrete instance: the hypotheses are met and the pass really fires -/
example : ∃ code s', expandInst 2 ⟨Memo.empty, 10⟩ (.mul 32 3 (.reg 1) (.imm (-8))) = some (code, s') ∧
    code = [.shl 32 10 (.reg 1) 3, .sub 32 3 (.imm 0) (.reg 10)] := by
  have hs : strip 8 0 = some (1, 3) := by
    rw [strip, if_pos (by decide), strip, if_pos (by decide), strip, if_pos (by decide), strip, if_neg (by decide)]
    rfl
  have hf : find Memo.empty 8 2 = some (Memo.empty.set 2 8 (mkNode 3 .nop .origin .root), some (mkNode 3 .nop .origin .root)) := by
    rw [find]
    simp only [Memo.empty]
    rw [hs]
    rfl
  refine ⟨_, ⟨Memo.empty.set 2 8 (mkNode 3 .nop .origin .root), 11⟩, ?_, rfl⟩
  simp only [expandInst]
  rw [if_neg (by decide)]
  show (do let r ← find Memo.empty 8 2; _) = _
  rw [hf]
  rfl

end Cmmc.MulConst
