import Mathlib.Data.BitVec
import Mathlib.Data.List.Perm.Basic
import Mathlib.Tactic.Ring
import Mathlib.Tactic.Linarith
/-!
# C96: Reassociate (cmmc/Transforms/Combine/Reassociate.cpp)

The pass flattens trees of one associative operation inside a block into lists of operands with multiplicities, merges equal operands, and
builds the operation anew: a repeated summand becomes a product with a constant, a repeated factor is computed by repeated squaring, pairs of
repeated operands of `xor` disappear, repetitions of the other operations are dropped.

Modelled as a relation: the order of the operands (`std::sort`), the merging of equal neighbours, the limit of 512 operands and the early
combination of comparisons (`earlyCombineCmp`) all become free choices. Multiplicities are `uint32_t` and wrap around. The type is an integer
type of `w` bits; positions of the new code are not modelled (it is put in front of the instruction).
-/
namespace Cmmc.Reassoc

/-- the operations (lines 51-58) -/
inductive ROp
  | add | mul | or | xor | and | smin | smax
deriving DecidableEq

/-- values: leaves (arguments, constants, other instructions, instructions of other blocks) and instructions of the block -/
inductive RV
  | leaf (n : Nat)
  | const (c : Int)
  | node (op : ROp) (a b : RV)
deriving DecidableEq

/-- meaning of the operations -/
def ROp.val {w : Nat} : ROp → BitVec w → BitVec w → BitVec w
  | .add, x, y => x + y
  | .mul, x, y => x * y
  | .or, x, y => x ||| y
  | .xor, x, y => x ^^^ y
  | .and, x, y => x &&& y
  | .smin, x, y => if x.toInt ≤ y.toInt then x else y
  | .smax, x, y => if x.toInt ≤ y.toInt then y else x

/-- the value in a run in which the leaves have the values `ρ` -/
def RV.den {w : Nat} (ρ : Nat → BitVec w) : RV → BitVec w
  | .leaf n => ρ n
  | .const c => BitVec.ofInt w c
  | .node op a b => op.val (a.den ρ) (b.den ρ)

/-- operands with multiplicities -/
abbrev Args := List (Nat × RV)

/-- sorting and merging (lines 80-101). `safe`: no multiplicity wraps around. -/
inductive Collect (safe : Bool) : Args → Args → Prop
  | perm {s t : Args} : s.Perm t → Collect safe s t
  | merge {s t : Args} {c d : Nat} {v : RV} : (safe = true → c + d < 2 ^ 32) → Collect safe s ((c, v) :: (d, v) :: t) →
      Collect safe s (((c + d) % 2 ^ 32, v) :: t)
  | permAfter {s t u : Args} : Collect safe s t → t.Perm u → Collect safe s u

/-- `pow` (lines 114-124) -/
def powList (c : Nat) (v : RV) : List RV :=
  if h : c = 0 then [] else (if c % 2 = 1 then [v] else []) ++ powList (c / 2) (.node .mul v v)
termination_by c
decreasing_by omega

/-- the values that are passed to `reduce` for one operand (lines 126-165) -/
def expand (op : ROp) (c : Nat) (v : RV) : List RV :=
  match op with
  | .add => if c = 1 then [v] else [.node .mul v (.const c)]
  | .mul => if c = 1 then [v] else powList c v
  | .xor => if c % 2 = 1 then [v] else []
  | _ => [v]

def expandAll (op : ROp) (args : Args) : List RV := args.flatMap (fun e => expand op e.1 e.2)

/-- the values are combined with the operation, two at a time, in some order (lines 167-228); an empty `xor` is 0 (line 230) -/
inductive Comb (op : ROp) : List RV → RV → Prop
  | one {v : RV} : Comb op [v] v
  | perm {s t : List RV} {v : RV} : s.Perm t → Comb op s v → Comb op t v
  | two {a b v : RV} {l : List RV} : Comb op (.node op a b :: l) v → Comb op (a :: b :: l) v
  | zero : op = .xor → Comb op [] (.const 0)

mutual
/-- what an operand contributes (lines 64-78): itself, or the operands of an instruction with the same operation that has been rebuilt -/
inductive Flat (safe : Bool) (op : ROp) : RV → Args → Prop
  | self {v : RV} : Flat safe op v [(1, v)]
  | sub {a b v : RV} {args : Args} : Rebuilt safe op a b args v → Flat safe op v args
/-- the instruction `op a b` is replaced by `v`, and `map[v]` is `args` (lines 46-244) -/
inductive Rebuilt (safe : Bool) (op : ROp) : RV → RV → Args → RV → Prop
  | mk {a b v : RV} {s t args : Args} : Flat safe op a s → Flat safe op b t → Collect safe (s ++ t) args → Comb op (expandAll op args) v →
      Rebuilt safe op a b args v
end

/-! ## the operations are commutative monoids -/

/-- neutral elements -/
def ROp.unit (w : Nat) : ROp → BitVec w
  | .add | .or | .xor => 0#w
  | .mul => 1#w
  | .and => BitVec.allOnes w
  | .smin => BitVec.intMax w
  | .smax => BitVec.intMin w

theorem ROp.comm {w : Nat} (op : ROp) (x y : BitVec w) : op.val x y = op.val y x := by
  cases op <;> simp only [ROp.val]
  case add => exact BitVec.add_comm x y
  case mul => exact BitVec.mul_comm x y
  case or => exact BitVec.or_comm x y
  case xor => exact BitVec.xor_comm x y
  case and => exact BitVec.and_comm x y
  all_goals
    split <;> split
    · exact BitVec.eq_of_toInt_eq (by omega)
    · rfl
    · rfl
    · exact BitVec.eq_of_toInt_eq (by omega)

theorem ROp.assoc {w : Nat} (op : ROp) (x y z : BitVec w) : op.val (op.val x y) z = op.val x (op.val y z) := by
  cases op <;> simp only [ROp.val]
  case add => exact BitVec.add_assoc x y z
  case mul => exact BitVec.mul_assoc x y z
  case or => exact BitVec.or_assoc x y z
  case xor => exact BitVec.xor_assoc x y z
  case and => exact BitVec.and_assoc x y z
  all_goals
    by_cases h1 : x.toInt ≤ y.toInt <;> by_cases h2 : y.toInt ≤ z.toInt <;> by_cases h3 : x.toInt ≤ z.toInt <;> simp [h1, h2, h3] <;>
      (try exact BitVec.eq_of_toInt_eq (by omega)) <;> (exfalso; omega)

theorem ROp.unit_val {w : Nat} (op : ROp) (x : BitVec w) : op.val (op.unit w) x = x := by
  cases op <;> simp only [ROp.val, ROp.unit]
  case add => exact BitVec.zero_add x
  case mul => exact BitVec.one_mul x
  case or => exact BitVec.zero_or
  case xor => exact BitVec.zero_xor
  case and => exact BitVec.allOnes_and
  case smin =>
    have h1 : (BitVec.intMax w).toInt = 2 ^ (w - 1) - 1 := BitVec.toInt_intMax
    have h2 : x.toInt < 2 ^ (w - 1) := BitVec.toInt_lt
    by_cases h : (BitVec.intMax w).toInt ≤ x.toInt
    · exact (if_pos h).trans (BitVec.eq_of_toInt_eq (by omega))
    · exact if_neg h
  case smax =>
    rcases Nat.eq_zero_or_pos w with rfl | hw
    · exact Subsingleton.elim _ _
    · have h1 : (BitVec.intMin w).toInt = -2 ^ (w - 1) := BitVec.toInt_intMin_of_pos hw
      have h2 : -2 ^ (w - 1) ≤ x.toInt := BitVec.le_toInt x
      exact if_pos (by omega)

/-! ## multiplicities -/

/-- the value of an operand with multiplicity `c` -/
def ROp.rep {w : Nat} (op : ROp) (c : Nat) (x : BitVec w) : BitVec w :=
  match op with
  | .add => x * BitVec.ofNat w c
  | .mul => x ^ c
  | .xor => if c % 2 = 1 then x else 0#w
  | _ => x

theorem ROp.val_unit {w : Nat} (op : ROp) (x : BitVec w) : op.val x (op.unit w) = x := by
  rw [ROp.comm, ROp.unit_val]

theorem ROp.rep_one {w : Nat} (op : ROp) (x : BitVec w) : op.rep 1 x = x := by
  cases op <;> simp [ROp.rep]

/-- when a sum of multiplicities that is reduced modulo `2^32` is harmless -/
def Fine (safe : Bool) (op : ROp) (w : Nat) : Prop := safe = true ∨ (op ≠ .mul ∧ (op = .add → w ≤ 32))

theorem ROp.rep_merge {w : Nat} {safe : Bool} {op : ROp} (hf : Fine safe op w) {c d : Nat} (hs : safe = true → c + d < 2 ^ 32)
    (x : BitVec w) : op.rep ((c + d) % 2 ^ 32) x = op.val (op.rep c x) (op.rep d x) := by
  have hmod : safe = true → (c + d) % 2 ^ 32 = c + d := fun h => Nat.mod_eq_of_lt (hs h)
  cases op <;> simp only [ROp.rep, ROp.val]
  case add =>
    have e : BitVec.ofNat w ((c + d) % 2 ^ 32) = BitVec.ofNat w (c + d) := by
      rcases hf with h | ⟨_, h⟩
      · rw [hmod h]
      · apply BitVec.eq_of_toNat_eq
        simp only [BitVec.toNat_ofNat]
        exact Nat.mod_mod_of_dvd _ (pow_dvd_pow 2 (h rfl))
    rw [e, BitVec.ofNat_add, BitVec.mul_add]
  case mul =>
    rcases hf with h | ⟨h, _⟩
    · rw [hmod h, pow_add]
    · exact absurd rfl h
  case or => exact BitVec.or_self.symm
  case xor =>
    have e : (c + d) % 2 ^ 32 % 2 = (c + d) % 2 := Nat.mod_mod_of_dvd _ (by norm_num)
    rw [e]
    rcases Nat.mod_two_eq_zero_or_one c with h1 | h1 <;> rcases Nat.mod_two_eq_zero_or_one d with h2 | h2 <;>
      simp [h1, h2, Nat.add_mod]
  case and => exact BitVec.and_self.symm
  all_goals simp

/-! ## lists -/

/-- the value of a list of operands with multiplicities -/
def agg {w : Nat} (ρ : Nat → BitVec w) (op : ROp) : Args → BitVec w
  | [] => op.unit w
  | e :: l => op.val (op.rep e.1 (e.2.den ρ)) (agg ρ op l)

/-- the value of a list of values -/
def fold {w : Nat} (ρ : Nat → BitVec w) (op : ROp) : List RV → BitVec w
  | [] => op.unit w
  | v :: l => op.val (v.den ρ) (fold ρ op l)

theorem ROp.left_comm {w : Nat} (op : ROp) (x y z : BitVec w) : op.val x (op.val y z) = op.val y (op.val x z) := by
  rw [← ROp.assoc, ROp.comm op x y, ROp.assoc]

theorem agg_append {w : Nat} (ρ : Nat → BitVec w) (op : ROp) (s t : Args) :
    agg ρ op (s ++ t) = op.val (agg ρ op s) (agg ρ op t) := by
  induction s with
  | nil => simp [agg, ROp.unit_val]
  | cons e s ih => simp only [List.cons_append, agg, ih, ROp.assoc]

theorem fold_append {w : Nat} (ρ : Nat → BitVec w) (op : ROp) (s t : List RV) :
    fold ρ op (s ++ t) = op.val (fold ρ op s) (fold ρ op t) := by
  induction s with
  | nil => simp [fold, ROp.unit_val]
  | cons e s ih => simp only [List.cons_append, fold, ih, ROp.assoc]

theorem agg_perm {w : Nat} (ρ : Nat → BitVec w) (op : ROp) {s t : Args} (h : s.Perm t) : agg ρ op s = agg ρ op t := by
  induction h with
  | nil => rfl
  | cons x _ ih => simp only [agg, ih]
  | swap x y l => simp only [agg]; exact ROp.left_comm _ _ _ _
  | trans _ _ h1 h2 => exact h1.trans h2

theorem fold_perm {w : Nat} (ρ : Nat → BitVec w) (op : ROp) {s t : List RV} (h : s.Perm t) : fold ρ op s = fold ρ op t := by
  induction h with
  | nil => rfl
  | cons x _ ih => simp only [fold, ih]
  | swap x y l => simp only [fold]; exact ROp.left_comm _ _ _ _
  | trans _ _ h1 h2 => exact h1.trans h2

theorem collect_agg {w : Nat} {safe : Bool} {op : ROp} (hf : Fine safe op w) (ρ : Nat → BitVec w) {s t : Args} (h : Collect safe s t) :
    agg ρ op t = agg ρ op s := by
  induction h with
  | perm h => exact (agg_perm ρ op h).symm
  | merge hs _ ih =>
    rw [← ih]
    simp only [agg]
    rw [ROp.rep_merge hf hs, ROp.assoc]
  | permAfter _ hp ih => rw [← agg_perm ρ op hp, ih]

theorem fold_pow {w : Nat} (ρ : Nat → BitVec w) (c : Nat) (v : RV) : fold ρ .mul (powList c v) = v.den ρ ^ c := by
  induction c using Nat.strongRecOn generalizing v with
  | _ c ih =>
    rw [powList]
    split
    · rename_i h; subst h; simp [fold, ROp.unit]
    · rename_i h
      rw [fold_append, ih (c / 2) (by omega)]
      simp only [RV.den, ROp.val]
      have e : c = c % 2 + 2 * (c / 2) := by omega
      conv_rhs => rw [e, pow_add, pow_mul, pow_two]
      congr 1
      rcases Nat.mod_two_eq_zero_or_one c with h1 | h1 <;> simp [h1, fold, ROp.unit, ROp.val]

theorem fold_expand {w : Nat} (ρ : Nat → BitVec w) (op : ROp) (c : Nat) (v : RV) :
    fold ρ op (expand op c v) = op.rep c (v.den ρ) := by
  cases op <;> simp only [expand, ROp.rep]
  case add =>
    split
    · rename_i h; subst h; simp [fold, ROp.val_unit]
    · simp only [fold, ROp.val_unit]; simp [RV.den, ROp.val]
  case mul =>
    split
    · rename_i h; subst h; simp [fold, ROp.val_unit]
    · exact fold_pow ρ c v
  case xor =>
    split
    · simp [fold, ROp.val_unit]
    · rfl
  all_goals simp [fold, ROp.val_unit]

theorem fold_expandAll {w : Nat} (ρ : Nat → BitVec w) (op : ROp) (args : Args) : fold ρ op (expandAll op args) = agg ρ op args := by
  induction args with
  | nil => rfl
  | cons e l ih =>
    have : expandAll op (e :: l) = expand op e.1 e.2 ++ expandAll op l := by simp [expandAll]
    rw [this, fold_append, fold_expand, ih]; rfl

theorem comb_fold {w : Nat} (ρ : Nat → BitVec w) {op : ROp} {l : List RV} {v : RV} (h : Comb op l v) : v.den ρ = fold ρ op l := by
  induction h with
  | one => simp [fold, ROp.val_unit]
  | perm hp _ ih => rw [ih, fold_perm ρ op hp]
  | two _ ih => rw [ih]; simp only [fold, RV.den, ROp.assoc]
  | zero h => subst h; simp [RV.den, fold, ROp.unit]

theorem rebuilt_agg {w : Nat} {safe : Bool} {op : ROp} (hf : Fine safe op w) (ρ : Nat → BitVec w) {a b v : RV} {args : Args}
    (h : Rebuilt safe op a b args v) : agg ρ op args = op.val (a.den ρ) (b.den ρ) ∧ v.den ρ = op.val (a.den ρ) (b.den ρ) := by
  refine Rebuilt.rec (safe := safe) (op := op) (motive_1 := fun v args _ => agg ρ op args = v.den ρ)
    (motive_2 := fun a b args v _ => agg ρ op args = op.val (a.den ρ) (b.den ρ) ∧ v.den ρ = op.val (a.den ρ) (b.den ρ)) ?_ ?_ ?_ h
  · intro v
    simp [agg, ROp.rep_one, ROp.val_unit]
  · intro a b v args _ ih
    rw [ih.1, ih.2]
  · intro a b v s t args _ _ hc hv iha ihb
    have e : agg ρ op args = op.val (a.den ρ) (b.den ρ) := by
      rw [collect_agg hf ρ hc, agg_append, iha, ihb]
    exact ⟨e, by rw [comb_fold ρ hv, fold_expandAll, e]⟩

/-! ## the new value always exists when no multiplicity wraps around -/

theorem comb_exists (op : ROp) (l : List RV) (h : l ≠ [] ∨ op = .xor) : ∃ v, Comb op l v := by
  induction hn : l.length generalizing l with
  | zero =>
    have hl : l = [] := List.length_eq_zero_iff.mp hn
    subst hl
    rcases h with h | h
    · exact absurd rfl h
    · exact ⟨_, .zero h⟩
  | succ n ih =>
    match l, hn with
    | [v], _ => exact ⟨v, .one⟩
    | a :: b :: l, hn =>
      obtain ⟨v, hv⟩ := ih (.node op a b :: l) (.inl (by simp)) (by simpa using hn)
      exact ⟨v, .two hv⟩

theorem powList_ne (c : Nat) (v : RV) (h : c ≠ 0) : powList c v ≠ [] := by
  induction c using Nat.strongRecOn generalizing v with
  | _ c ih =>
    rw [powList, dif_neg h]
    by_cases h1 : c % 2 = 1
    · simp [h1]
    · simp only [h1, if_false, List.nil_append]
      exact ih (c / 2) (by omega) _ (by omega)

theorem expand_ne (op : ROp) (c : Nat) (v : RV) (hc : c ≠ 0) (h : op ≠ .xor) : expand op c v ≠ [] := by
  cases op <;> simp only [expand]
  case add => split <;> simp
  case mul =>
    split
    · simp
    · exact powList_ne c v hc
  case xor => exact absurd rfl h
  all_goals simp

/-- there are operands and all multiplicities are positive -/
def Pos (args : Args) : Prop := args ≠ [] ∧ ∀ e ∈ args, e.1 ≠ 0

theorem collect_pos {s t : Args} (h : Collect true s t) (hs : Pos s) : Pos t := by
  induction h with
  | perm h => exact ⟨fun e => hs.1 (by subst e; exact h.eq_nil), fun e he => hs.2 e (h.mem_iff.mpr he)⟩
  | merge hb _ ih =>
    have hi := ih
    refine ⟨by simp, ?_⟩
    intro e he
    rcases List.mem_cons.mp he with rfl | he
    · have := hi.2 _ (List.mem_cons_self ..)
      have := hb rfl
      simp only at *
      rw [Nat.mod_eq_of_lt this]; omega
    · exact hi.2 e (List.mem_cons_of_mem _ (List.mem_cons_of_mem _ he))
  | permAfter _ h ih =>
    have hi := ih
    exact ⟨fun e => hi.1 (by subst e; exact h.eq_nil), fun e he => hi.2 e (h.mem_iff.mpr he)⟩

theorem flat_pos {op : ROp} {v : RV} {args : Args} (h : Flat true op v args) : Pos args := by
  refine Flat.rec (safe := true) (op := op) (motive_1 := fun _ args _ => Pos args) (motive_2 := fun _ _ args _ _ => Pos args) ?_ ?_ ?_ h
  · intro v; exact ⟨by simp, by simp⟩
  · intro a b v args _ ih; exact ih
  · intro a b v s t args _ _ hc _ iha ihb
    exact collect_pos hc ⟨by simp [iha.1], fun e he => (List.mem_append.mp he).elim (iha.2 e) (ihb.2 e)⟩

/-! ## the theorems -/

/-- Reassociation replaces an instruction by a value that is equal to it in every run: for all expressions and every order in which
operands are sorted, merged and combined, provided that no multiplicity exceeds 32 bits, or the operation is not a multiplication and a sum
has at most 32 bits. -/
theorem C96_reassociate_partial {w : Nat} (ρ : Nat → BitVec w) (safe : Bool) (op : ROp)
    (hf : safe = true ∨ (op ≠ .mul ∧ (op = .add → w ≤ 32))) (a b v : RV) (args : Args) (h : Rebuilt safe op a b args v) :
    v.den ρ = op.val (a.den ρ) (b.den ρ) := (rebuilt_agg hf ρ h).2

/-- and there always is such a value (the assertion of line 233 holds) as long as no multiplicity exceeds 32 bits -/
theorem C96_value_exists (op : ROp) (a b : RV) (s t args : Args) (ha : Flat true op a s) (hb : Flat true op b t)
    (hc : Collect true (s ++ t) args) : ∃ v, Rebuilt true op a b args v := by
  have hp : Pos args := by
    have h1 := flat_pos ha
    have h2 := flat_pos hb
    exact collect_pos hc ⟨by simp [h1.1], fun e he => (List.mem_append.mp he).elim (h1.2 e) (h2.2 e)⟩
  have hne : expandAll op args ≠ [] ∨ op = .xor := by
    by_cases hx : op = .xor
    · exact .inr hx
    · left
      obtain ⟨hn, hpos⟩ := hp
      match args, hn, hpos with
      | e :: l, _, hpos =>
        intro h0
        simp only [expandAll, List.flatMap_cons, List.append_eq_nil_iff] at h0
        exact expand_ne op e.1 e.2 (hpos e (List.mem_cons_self ..)) hx h0.1
  obtain ⟨v, hv⟩ := comb_exists op _ hne
  exact ⟨v, .mk ha hb hc hv⟩

/-! ## Finding 95: multiplicities wrap around -/

/-- `x`, squared `k` times -/
def tower : Nat → RV → RV
  | 0, v => v
  | k + 1, v => tower k (.node .mul v v)

theorem powList_tower (k : Nat) (v : RV) : powList (2 ^ k) v = [tower k v] := by
  induction k generalizing v with
  | zero => rw [powList, dif_neg (by norm_num)]; rw [powList]; simp [tower]
  | succ k ih =>
    have h1 : 2 ^ (k + 1) ≠ 0 := by positivity
    have h2 : 2 ^ (k + 1) % 2 = 0 := by rw [pow_succ]; omega
    have h3 : 2 ^ (k + 1) / 2 = 2 ^ k := by rw [pow_succ]; omega
    rw [powList, dif_neg h1, h2, h3, ih]
    rfl

theorem expandAll_tower (k : Nat) (v : RV) : expandAll .mul [(2 ^ k, v)] = [tower k v] := by
  simp only [expandAll, List.flatMap_cons, List.flatMap_nil, List.append_nil, expand]
  split
  · rename_i h
    have : k = 0 := by
      by_contra hk
      have := Nat.one_lt_two_pow hk
      omega
    subst this; rfl
  · exact powList_tower k v

theorem flat_tower (k : Nat) (hk : k ≤ 31) (v : RV) : Flat false .mul (tower k v) [(2 ^ k, v)] := by
  induction k with
  | zero => exact .self
  | succ k ih =>
    have hi := ih (by omega)
    have hlt : 2 ^ k + 2 ^ k < 2 ^ 32 := by
      have : 2 ^ k < 2 ^ 31 := Nat.pow_lt_pow_right (by norm_num) (by omega)
      omega
    have hc : Collect false ([(2 ^ k, v)] ++ [(2 ^ k, v)]) [(2 ^ (k + 1), v)] := by
      have := Collect.merge (safe := false) (s := [(2 ^ k, v)] ++ [(2 ^ k, v)]) (t := []) (c := 2 ^ k) (d := 2 ^ k) (v := v) (by simp)
        (.perm (List.Perm.refl _))
      rwa [Nat.mod_eq_of_lt hlt, ← two_mul, ← pow_succ'] at this
    exact .sub (.mk hi hi hc (by rw [expandAll_tower]; exact .one))

theorem tower_den {w : Nat} (ρ : Nat → BitVec w) (k : Nat) (v : RV) : (tower k v).den ρ = v.den ρ ^ 2 ^ k := by
  induction k generalizing v with
  | zero => simp [tower]
  | succ k ih =>
    rw [tower, ih]
    simp only [RV.den, ROp.val]
    rw [← pow_two, ← pow_mul, ← pow_succ']

theorem two_pow_zero (n : Nat) (h : 32 ≤ n) : (2#32) ^ n = 0#32 := by
  obtain ⟨d, rfl⟩ := Nat.exists_eq_add_of_le h
  have : (2#32) ^ 32 = 0#32 := by decide
  rw [pow_add, this]; exact BitVec.zero_mul

/-- the thirty-second squaring in a row has the operand list `x` with multiplicity 0: nothing is left to combine, `reduction` is null -/
theorem reassoc_null_bad (v : RV) : Flat false .mul (tower 31 v) [(2 ^ 31, v)] ∧
    Collect false ([(2 ^ 31, v)] ++ [(2 ^ 31, v)]) [(0, v)] ∧ expandAll .mul [(0, v)] = [] ∧ ∀ r, ¬ Comb .mul [] r := by
  refine ⟨flat_tower 31 (le_refl _) v, ?_, ?_, ?_⟩
  · exact Collect.merge (safe := false) (s := [(2 ^ 31, v)] ++ [(2 ^ 31, v)]) (t := []) (c := 2 ^ 31) (d := 2 ^ 31) (v := v) (by simp)
        (.perm (List.Perm.refl _))
  · simp only [expandAll, List.flatMap_cons, List.flatMap_nil, List.append_nil, expand]
    rw [if_neg (by norm_num), powList, dif_pos rfl]
  · intro r h
    have key : ∀ {op : ROp} {l : List RV} {r : RV}, Comb op l r → op = .mul → l ≠ [] := by
      intro op l r h hop
      induction h with
      | one => simp
      | perm hp _ ih => intro e; subst e; exact ih hp.eq_nil
      | two _ _ => simp
      | zero h => rw [h] at hop; exact absurd hop (by decide)
    exact key h rfl rfl

/-- `x^(2^32+1)` becomes `x` -/
theorem reassoc_count_bad : ∃ (a b v : RV) (args : Args), Rebuilt false .mul a b args v ∧
    v.den (fun _ => 2#32) ≠ ROp.val .mul (a.den (fun _ => 2#32)) (b.den (fun _ => 2#32)) := by
  have h31 := flat_tower 31 (le_refl _) (.leaf 0)
  -- z = x^(2^31) * x
  have hz : Rebuilt false .mul (tower 31 (.leaf 0)) (.leaf 0) [(2 ^ 31, .leaf 0), (1, .leaf 0)]
      (.node .mul (tower 31 (.leaf 0)) (.leaf 0)) := by
    refine .mk h31 .self (.perm (List.Perm.refl _)) ?_
    have : expandAll .mul [(2 ^ 31, RV.leaf 0), (1, .leaf 0)] = [tower 31 (.leaf 0), .leaf 0] := by
      have h1 := expandAll_tower 31 (.leaf 0)
      simp only [expandAll, List.flatMap_cons, List.flatMap_nil, List.append_nil] at h1 ⊢
      rw [h1]; rfl
    rw [this]; exact .two .one
  refine ⟨.node .mul (tower 31 (.leaf 0)) (.leaf 0), tower 31 (.leaf 0), .leaf 0, [(1, .leaf 0)],
    .mk (.sub hz) h31 ?_ (by simpa [expandAll, expand] using Comb.one), ?_⟩
  · have m1 := Collect.merge (safe := false) (s := [(2 ^ 31, RV.leaf 0), (1, .leaf 0)] ++ [(2 ^ 31, .leaf 0)]) (t := [(2 ^ 31, .leaf 0)])
      (c := 2 ^ 31) (d := 1) (v := .leaf 0) (by simp) (.perm (List.Perm.refl _))
    exact Collect.merge (safe := false) (s := [(2 ^ 31, RV.leaf 0), (1, .leaf 0)] ++ [(2 ^ 31, .leaf 0)]) (t := [])
      (c := (2 ^ 31 + 1) % 2 ^ 32) (d := 2 ^ 31) (v := .leaf 0) (by simp) m1
  · simp only [RV.den, ROp.val, tower_den]
    rw [two_pow_zero (2 ^ 31) (by norm_num)]
    decide

/-! ## Example: `(x + y) + x` becomes `x * 2 + y` -/

theorem C96_example : Rebuilt true .add (.node .add (.leaf 0) (.leaf 1)) (.leaf 0) [(2, .leaf 0), (1, .leaf 1)]
    (.node .add (.node .mul (.leaf 0) (.const 2)) (.leaf 1)) := by
  have h1 : Rebuilt true .add (.leaf 0) (.leaf 1) [(1, .leaf 0), (1, .leaf 1)] (.node .add (.leaf 0) (.leaf 1)) :=
    .mk .self .self (.perm (List.Perm.refl _)) (.two .one)
  refine .mk (.sub h1) .self ?_ (.two .one)
  exact Collect.merge (safe := true) (s := [(1, .leaf 0), (1, .leaf 1), (1, .leaf 0)]) (t := [(1, .leaf 1)]) (c := 1) (d := 1)
    (v := .leaf 0) (by norm_num) (.perm (List.Perm.cons _ (List.Perm.swap _ _ _)))

theorem C96_example_value : (RV.node .add (.node .mul (.leaf 0) (.const 2)) (.leaf 1)).den (fun n => if n = 0 then 5#32 else 7#32) = 17#32 :=
  by decide

end Cmmc.Reassoc
