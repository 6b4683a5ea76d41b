import Verif.Range.Model
/-!
# What an `IntegerRange` means (independent of how it is computed)

`Mem v r`: the 32-bit value `v` satisfies the unsigned bounds, the signed bounds and the known bits.
`WF r`: the bounds are inside the i32/u32 limits (the limits the class asserts for its setters).
-/
namespace Cmmc.Range

/-- concretisation of a range -/
structure Mem (v : BitVec 32) (r : IRange) : Prop where
  ulo : r.umin ≤ v.toNat
  uhi : v.toNat ≤ r.umax
  slo : r.smin ≤ v.toInt
  shi : v.toInt ≤ r.smax
  z : ∀ i, r.zeros.getLsbD i = true → v.getLsbD i = false
  o : ∀ i, r.ones.getLsbD i = true → v.getLsbD i = true

/-- bounds are inside the i32 / u32 limits -/
structure WF (r : IRange) : Prop where
  u : r.umax ≤ 4294967295
  lo : -2147483648 ≤ r.smin
  hi : r.smax ≤ 2147483647

/-- `r'` is at least as precise as `r` in every component -/
structure Tighter (r' r : IRange) : Prop where
  ulo : r.umin ≤ r'.umin
  uhi : r'.umax ≤ r.umax
  slo : r.smin ≤ r'.smin
  shi : r'.smax ≤ r.smax
  z : ∀ i, r.zeros.getLsbD i = true → r'.zeros.getLsbD i = true
  o : ∀ i, r.ones.getLsbD i = true → r'.ones.getLsbD i = true

/-- Signed division on two's complement i32 is defined. -/
def SDivDefined (x y : BitVec 32) : Prop := y ≠ 0#32 ∧ ¬ (x = 0x80000000#32 ∧ y = -1#32)

/-- `op` soundly abstracts the partial 32-bit operation `f` (defined where `dom`): for all in-limit ranges `A`, `B`
that have a pair of members on which `f` is defined, `A op B` is computed without a failing assertion and without
undefined behaviour (whatever `NDEBUG` is), its bounds are again in the limits, and it contains `f x y` for *every*
`x` in `A`, `y` in `B` with `f` defined on them. -/
def Sound2 (op : Bool → IRange → IRange → Option IRange) (dom : BitVec 32 → BitVec 32 → Prop)
    (f : BitVec 32 → BitVec 32 → BitVec 32) : Prop :=
  ∀ (nd : Bool) (A B : IRange), WF A → WF B → (∃ x y, Mem x A ∧ Mem y B ∧ dom x y) →
    ∃ r, op nd A B = some r ∧ WF r ∧ ∀ x y, Mem x A → Mem y B → dom x y → Mem (f x y) r

/-- the unary version of `Sound2` -/
def Sound1 (op : Bool → IRange → Option IRange) (dom : BitVec 32 → Prop) (f : BitVec 32 → BitVec 32) : Prop :=
  ∀ (nd : Bool) (A : IRange), WF A → (∃ x, Mem x A ∧ dom x) →
    ∃ r, op nd A = some r ∧ WF r ∧ ∀ x, Mem x A → dom x → Mem (f x) r

end Cmmc.Range
