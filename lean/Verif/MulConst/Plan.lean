import Verif.MulConst.Model
import Mathlib.Tactic.Linarith
import Mathlib.Tactic.Ring
/-! Plans found by the search multiply by the requested constant, and are cheap. -/
namespace Cmmc.MulConst

/-- the constant a plan multiplies by -/
def Plan.mult : Plan → Int
  | .root => 1
  | .node _ s a r p =>
    match a with
    | .nop => p.mult * 2 ^ s
    | .add => p.mult * 2 ^ s + (if r = .chain then p.mult else 1)
    | .sub => p.mult * 2 ^ s - (if r = .chain then p.mult else 1)

/-- the number of instructions a plan needs -/
def Plan.ops : Plan → Nat
  | .root => 0
  | .node _ s a _ p => p.ops + (if a = .nop then 0 else 1) + (if s > 0 then 1 else 0)

/-- all shift amounts `s` have `2^s ≤ b` -/
def Plan.ShLe (b : Int) : Plan → Prop
  | .root => True
  | .node _ s _ _ p => (2 : Int) ^ s ≤ b ∧ p.ShLe b

theorem Plan.ShLe.mono {b c : Int} (h : b ≤ c) : ∀ {p : Plan}, p.ShLe b → p.ShLe c
  | .root, _ => trivial
  | .node _ _ _ _ _, ⟨h1, h2⟩ => ⟨le_trans h1 h, Plan.ShLe.mono h h2⟩

/-- least even number ≥ n -/
def bnd (n : Int) : Int := if n % 2 = 0 then n else n + 1

structure Good (n u : Int) (p : Plan) : Prop where
  mult : p.mult = n
  cost : p.cost = p.ops
  le : p.cost ≤ u + 1
  sh : p.ShLe (bnd n)

def MemoOK (m : Memo) : Prop := ∀ u n p, m u n = some p → Good n u p

theorem mkNode_cost {s : Nat} {a : Arith} {r : Rhs} {p : Plan} (h : p.cost = p.ops) :
    (mkNode s a r p).cost = (mkNode s a r p).ops := by
  unfold mkNode
  show _ = (((_ : Nat)) : Int)
  simp only [Plan.ops]
  show p.cost + _ + _ = _
  rw [h]
  cases a <;> simp

theorem memoOK_set {m : Memo} {u n : Int} {p : Plan} (h : MemoOK m) (hu : 0 ≤ u) (g : Good n u p) : MemoOK (m.set u n p) := by
  intro u' n' p' e
  unfold Memo.set at e
  split at e
  · rename_i hc
    simp only [Option.some.injEq] at e
    subst e
    obtain ⟨h1, rfl⟩ := hc
    subst h1
    have : ((u.toNat : Nat) : Int) = u := Int.toNat_of_nonneg hu
    rw [this]; exact g
  · exact h u' n' p' e

theorem memo_hit {m : Memo} {u n : Int} {p : Plan} (h : MemoOK m) (hu : 0 ≤ u) (e : m u.toNat n = some p) : Good n u p := by
  have := h _ _ _ e
  rw [Int.toNat_of_nonneg hu] at this
  exact this

/-- optional plan is good -/
def OGood (n u : Int) (o : Option Plan) : Prop := ∀ p, o = some p → Good n u p

theorem minPlan_good {n u : Int} {a b : Option Plan} (ha : OGood n u a) (hb : OGood n u b) : OGood n u (minPlan a b) := by
  unfold minPlan
  split
  · exact hb
  · exact ha
  · split
    · exact ha
    · exact hb

theorem curUpper_le {u : Int} {o : Option Plan} : curUpper u o ≤ u := by
  cases o
  · exact le_refl _
  · exact min_le_left _ _

theorem bnd_ge {n : Int} : n ≤ bnd n := by unfold bnd; split <;> omega
theorem bnd_odd {n : Int} (h : n % 2 = 1) : bnd n = n + 1 := by unfold bnd; rw [if_neg (by omega)]
theorem bnd_even {n : Int} (h : n % 2 = 0) : bnd n = n := by unfold bnd; rw [if_pos h]

theorem try_good {n u : Int} {plan new : Option Plan} {s : Nat} {a : Arith} {r : Rhs} (hp : OGood n u plan)
    (hn : ∀ p, new = some p → Good n u (mkNode s a r p)) : OGood n u (tryUpdate plan new s a r) := by
  unfold tryUpdate
  split
  · exact hp
  · rename_i p
    apply minPlan_good hp
    intro q hq
    simp only [Option.some.injEq] at hq
    subst hq
    exact hn p rfl

theorem strip_spec : ∀ (k : Nat) (n : Int) (s : Nat), 1 ≤ n → n ≤ k → ∃ m t, strip n s = some (m, s + t) ∧ n = m * 2 ^ t ∧
    m % 2 = 1 ∧ 1 ≤ m
  | 0, n, s, h1, h2 => by omega
  | k + 1, n, s, h1, h2 => by
    rw [strip]
    split
    · obtain ⟨m, t, e, h3, h4, h5⟩ := strip_spec k (n / 2) (s + 1) (by omega) (by omega)
      refine ⟨m, t + 1, by rw [e]; congr 2; omega, ?_, h4, h5⟩
      rw [pow_succ, ← mul_assoc, ← h3]; omega
    · exact ⟨n, 0, rfl, by simp, by omega, h1⟩

theorem bind_some_iff {α β : Type} {o : Option α} {f : α → Option β} {b : β} :
    (do let a ← o; f a) = some b ↔ ∃ a, o = some a ∧ f a = some b := by
  cases o <;> simp

/-- what we show of a search call -/
def OK (defd : Prop) (n u : Int) (o : Option (Memo × Option Plan)) : Prop :=
  (∀ r, o = some r → MemoOK r.1 ∧ OGood n u r.2) ∧ (defd → o ≠ none)

theorem OK.some {defd : Prop} {n u : Int} {m : Memo} {p : Option Plan} (h1 : MemoOK m) (h2 : OGood n u p) :
    OK defd n u (some (m, p)) :=
  ⟨by rintro r h; simp only [Option.some.injEq] at h; subst h; exact ⟨h1, h2⟩, by simp⟩

theorem OK.bind {d1 d2 : Prop} {n u n' u' : Int} {o : Option (Memo × Option Plan)} {f : Memo × Option Plan → Option (Memo × Option Plan)}
    (h : OK d1 n u o) (hd : d2 → d1) (hf : ∀ r, MemoOK r.1 → OGood n u r.2 → OK d2 n' u' (f r)) :
    OK d2 n' u' (do let r ← o; f r) := by
  cases o with
  | none => exact ⟨by simp, fun hd2 => absurd rfl (h.2 (hd hd2))⟩
  | some r =>
    obtain ⟨h1, h2⟩ := h.1 r rfl
    exact hf r h1 h2

def FindOK (k : Int) : Prop :=
  ∀ (memo : Memo) (n u : Int), MemoOK memo → 1 ≤ n → u < k → u < 12 → OK (n ≤ 2 ^ 62) n u (find memo n u)

theorem mk_good {n m u u' : Int} {s : Nat} {a : Arith} {r : Rhs} {p : Plan} (g : Good m u' p)
    (h1 : (mkNode s a r p).mult = n) (h2 : u' + (if a ≠ .nop then 1 else 0) + (if s > 0 then 1 else 0) ≤ u)
    (h3 : (2 : Int) ^ s ≤ bnd n) (h4 : bnd m ≤ bnd n) : Good n u (mkNode s a r p) := by
  refine ⟨h1, mkNode_cost g.cost, ?_, h3, g.sh.mono h4⟩
  show p.cost + _ + _ ≤ _
  have := g.le
  linarith

theorem mk_add_origin {n u u' : Int} {p : Plan} (hn : n % 2 = 1) (h0 : 1 < n) (hu : u' ≤ u) (g : Good (n - 1) (u' - 1) p) :
    Good n u (mkNode 0 .add .origin p) := by
  refine mk_good g ?_ (by simp; omega) ?_ ?_
  · unfold mkNode; simp only [Plan.mult, g.mult]; simp
  · have := @bnd_ge n; simp; omega
  · rw [bnd_odd hn, bnd_even (by omega)]; omega

theorem mk_sub_origin {n u u' : Int} {p : Plan} (hn : n % 2 = 1) (h0 : 1 < n) (hu : u' ≤ u) (g : Good (n + 1) (u' - 1) p) :
    Good n u (mkNode 0 .sub .origin p) := by
  refine mk_good g ?_ (by simp; omega) ?_ ?_
  · unfold mkNode; simp only [Plan.mult, g.mult]; simp
  · have := @bnd_ge n; simp; omega
  · rw [bnd_odd hn, bnd_even (by omega)]

theorem bnd_div {n p : Int} (hn : n % 2 = 1) (h0 : 0 < n) (hp : 0 < p) : bnd (n / p) ≤ bnd n := by
  have h : n / p ≤ n := Int.ediv_le_self p (by omega)
  rw [bnd_odd hn]
  unfold bnd
  split <;> omega

theorem tryDiv_OK {k : Int} (F : FindOK k) {memo : Memo} {n u : Int} {i : Nat} {plan : Option Plan} {p : Int} {a : Arith}
    (hm : MemoOK memo) (hn : n % 2 = 1) (h0 : 1 < n) (hi : 1 ≤ i) (hin : (2 : Int) ^ i ≤ n) (hu : u < k + 1) (hu12 : u < 12)
    (hp : OGood n u plan) (hpa : (a = .add ∧ p = 2 ^ i + 1) ∨ (a = .sub ∧ p = 2 ^ i - 1)) :
    OK (n ≤ 2 ^ 62) n u (tryDiv memo n u i plan p a) := by
  have hpow : (2 : Int) ≤ 2 ^ i := by
    calc (2 : Int) = 2 ^ 1 := by norm_num
      _ ≤ 2 ^ i := pow_le_pow_right₀ (by norm_num) hi
  have hppos : 0 < p := by rcases hpa with ⟨_, rfl⟩ | ⟨_, rfl⟩ <;> omega
  rw [tryDiv]
  split
  · rename_i hd
    have hdvd : p ∣ n := Int.dvd_of_emod_eq_zero hd
    have hmul : n / p * p = n := Int.ediv_mul_cancel hdvd
    have hq : 1 ≤ n / p := by
      have : n / p ≠ 0 := by intro h; rw [h] at hmul; omega
      have : 0 ≤ n / p := Int.ediv_nonneg (by omega) (by omega)
      omega
    have hcu : curUpper u plan ≤ u := curUpper_le
    have hle : n / p ≤ n := Int.ediv_le_self p (by omega)
    refine OK.bind (F memo (n / p) (curUpper u plan - 2) hm hq (by omega) (by omega)) (fun h => by omega) ?_
    intro r hr1 hr2
    refine OK.some hr1 (try_good hp ?_)
    intro q hq'
    have g := hr2 q hq'
    refine mk_good g ?_ ?_ ?_ (bnd_div hn (by omega) hppos)
    · rcases hpa with ⟨rfl, rfl⟩ | ⟨rfl, rfl⟩
      · unfold mkNode; simp only [Plan.mult, g.mult, if_true]; linarith
      · unfold mkNode; simp only [Plan.mult, g.mult, if_true]; linarith
    · have : i > 0 := hi
      rcases hpa with ⟨rfl, rfl⟩ | ⟨rfl, rfl⟩ <;> simp [this] <;> omega
    · have := @bnd_ge n; omega
  · exact OK.some hm hp

theorem loop_OK {k : Int} (F : FindOK k) {n u : Int} (hn : n % 2 = 1) (h0 : 1 < n) (hu : u < k + 1) (hu12 : u < 12) :
    ∀ (j i : Nat) (memo : Memo) (plan : Option Plan), i + j = 63 → 1 ≤ i → MemoOK memo → OGood n u plan →
      (i = 63 → n > 2 ^ 62) → OK (n ≤ 2 ^ 62) n u (loop memo n u i plan) := by
  intro j
  induction j with
  | zero =>
    intro i memo plan hij hi hm hp hbig
    rw [loop, if_pos (by omega)]
    exact ⟨by simp, fun h => by have := hbig (by omega); omega⟩
  | succ j ih =>
    intro i memo plan hij hi hm hp hbig
    rw [loop, if_neg (by omega)]
    split
    · rename_i hin
      refine OK.bind (tryDiv_OK F hm hn h0 hi hin hu hu12 hp (Or.inl ⟨rfl, rfl⟩)) id ?_
      intro r1 hm1 hp1
      refine OK.bind (tryDiv_OK F hm1 hn h0 hi hin hu hu12 hp1 (Or.inr ⟨rfl, rfl⟩)) id ?_
      intro r2 hm2 hp2
      refine ih (i + 1) r2.1 r2.2 (by omega) (by omega) hm2 hp2 ?_
      intro h63
      have : i = 62 := by omega
      subst this
      have : (2 : Int) ^ 62 ≠ n := by
        intro h; rw [← h] at hn; norm_num at hn
      omega
    · exact OK.some hm hp

theorem odd_OK {k : Int} (F : FindOK k) {memo : Memo} {n u : Int} (hm : MemoOK memo) (hn : n % 2 = 1) (h0 : 1 < n)
    (hu : u < k + 1) (hu12 : u < 12) : OK (n ≤ 2 ^ 62) n u (odd memo n u) := by
  rw [odd]
  split
  · exact OK.some hm (by intro p h; simp at h)
  rename_i hu0
  split
  · rename_i p hp
    exact OK.some hm (by intro q h; simp only [Option.some.injEq] at h; subst h; exact memo_hit hm (by omega) hp)
  rw [if_neg (by simp; omega)]
  refine OK.bind (F memo (n - 1) (u - 1) hm (by omega) (by omega) (by omega)) (fun h => by omega) ?_
  intro r1 hm1 hp1
  split
  · exact ⟨by simp, fun h => by omega⟩
  have g1 : OGood n u (tryUpdate none r1.2 0 .add .origin) :=
    try_good (by intro p h; simp at h) (fun p hp => mk_add_origin hn h0 (le_refl u) (hp1 p hp))
  have hcu : curUpper u (tryUpdate none r1.2 0 .add .origin) ≤ u := curUpper_le
  refine OK.bind (F r1.1 (n + 1) _ hm1 (by omega) (by omega) (by omega)) (fun h => ?_) ?_
  · have : n ≠ 2 ^ 62 := by intro h; rw [h] at hn; norm_num at hn
    omega
  intro r2 hm2 hp2
  have g2 : OGood n u (tryUpdate (tryUpdate none r1.2 0 .add .origin) r2.2 0 .sub .origin) :=
    try_good g1 (fun p hp => mk_sub_origin hn h0 hcu (hp2 p hp))
  refine OK.bind (loop_OK F hn h0 hu hu12 62 1 r2.1 _ rfl (le_refl _) hm2 g2 (by omega)) id ?_
  intro r3 hm3 hp3
  split
  · exact OK.some hm3 (by intro p h; simp at h)
  · rename_i p hp
    exact OK.some (memoOK_set hm3 (by omega) (hp3 p hp)) (by intro q h; simp only [Option.some.injEq] at h; subst h; exact hp3 p hp)

theorem find_step {k : Int} (F : FindOK k) : FindOK (k + 1) := by
  intro memo n u hm hn hu hu12
  rw [find, if_neg (by omega)]
  split
  · exact OK.some hm (by intro p h; simp at h)
  rename_i hu0
  split
  · rename_i p hp
    exact OK.some hm (by intro q h; simp only [Option.some.injEq] at h; subst h; exact memo_hit hm (by omega) hp)
  obtain ⟨m, t, e, h1, h2, h3⟩ := strip_spec n.toNat n 0 hn (by omega)
  rw [Nat.zero_add] at e
  rw [e]
  show OK _ n u (if m = 1 then _ else _)
  have hpt : (0 : Int) < 2 ^ t := by positivity
  have hmn : m ≤ n := by rw [h1]; nlinarith
  have hpn : (2 : Int) ^ t ≤ n := by rw [h1]; nlinarith
  split
  · rename_i hm1
    have g : Good n u (mkNode t .nop .origin .root) := by
      refine ⟨?_, mkNode_cost rfl, ?_, ?_, trivial⟩
      · unfold mkNode; simp only [Plan.mult]; rw [h1, hm1]
      · unfold mkNode; simp only [Plan.cost]; by_cases ht : t > 0 <;> simp [ht] <;> omega
      · have := @bnd_ge n; omega
    exact OK.some (memoOK_set hm (by omega) g) (by intro q h; simp only [Option.some.injEq] at h; subst h; exact g)
  · rename_i hm1
    refine OK.bind (odd_OK F hm h2 (by omega) (u := u - (if t > 0 then 1 else 0)) (by split <;> omega) (by split <;> omega))
      (fun h => by omega) ?_
    intro r hm2 hp2
    split
    · exact OK.some hm2 (by intro p h; simp at h)
    · rename_i p hp
      have g : Good n u (if t > 0 then mkNode t .nop .origin p else p) := by
        have g := hp2 p hp
        split
        · rename_i ht
          rw [if_pos ht] at g
          refine mk_good g ?_ (by simp [ht]) ?_ ?_
          · unfold mkNode; simp only [Plan.mult, g.mult]; exact h1.symm
          · have := @bnd_ge n; omega
          · have hn2 : n % 2 = 0 := by
              obtain ⟨t', rfl⟩ : ∃ t', t = t' + 1 := ⟨t - 1, by omega⟩
              rw [h1, pow_succ, ← mul_assoc]; omega
            have h2t : (2 : Int) ≤ 2 ^ t := by
              calc (2 : Int) = 2 ^ 1 := by norm_num
                _ ≤ 2 ^ t := pow_le_pow_right₀ (by norm_num) ht
            rw [bnd_even hn2, bnd_odd h2]
            nlinarith
        · rename_i ht
          rw [if_neg ht] at g
          have : t = 0 := by omega
          subst this
          have : n = m := by rw [h1]; simp
          rw [this]
          simpa using g
      exact OK.some (memoOK_set hm2 (by omega) g) (by intro q h; simp only [Option.some.injEq] at h; subst h; exact g)

theorem find_all : ∀ k : Nat, FindOK k
  | 0 => by
    intro memo n u hm hn hu hu12
    rw [find, if_neg (by omega), if_pos (by omega)]
    exact OK.some hm (by intro p h; simp at h)
  | k + 1 => by have := find_step (find_all k); exact_mod_cast this

/-- every search query starting from a sound table: sound table and a good plan; defined up to 2^62 -/
theorem find_OK {memo : Memo} {n u : Int} (hm : MemoOK memo) (hn : 1 ≤ n) (hu : u < 12) :
    OK (n ≤ 2 ^ 62) n u (find memo n u) := find_all 12 memo n u hm hn (by omega) hu

end Cmmc.MulConst
