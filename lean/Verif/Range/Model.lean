/-!
# Model of `cmmc/Analysis/IntegerRange.cpp` / `.hpp` (i32 value ranges)

Conventions
* `uint32_t` masks are `BitVec 32`; `uint64_t` bounds are `Nat` (wrap-around at 2^64 is written explicitly where
  the C++ expression can wrap); `int64_t` bounds are `Int` (every `int64_t` expression below stays under 2^63 in
  absolute value when the bounds are in the i32/u32 limits, so no signed overflow is hidden by using `Int`).
* A result of `none` means: an `assert` failed (only when `nd = false`, i.e. a build without `NDEBUG`) or the C++
  expression has undefined behaviour (`__builtin_clz/ctz(0)`, a shift amount outside the type, division by zero).
* `nd` is the `NDEBUG` flag: with `nd = true` asserts are skipped, as in the default Release build.
-/
namespace Cmmc.Range

/-- `class IntegerRange` data members (IntegerRange.hpp:25-28). -/
structure IRange where
  zeros : BitVec 32   -- mKnownZeros
  ones  : BitVec 32   -- mKnownOnes
  umin  : Nat         -- mMinUnsignedValue (uint64_t)
  umax  : Nat         -- mMaxUnsignedValue (uint64_t)
  smin  : Int         -- mMinSignedValue (int64_t)
  smax  : Int         -- mMaxSignedValue (int64_t)
deriving DecidableEq, Repr

/-- `numeric_limits<int32_t>::min()` -/
def i32min : Int := -2147483648
/-- `numeric_limits<int32_t>::max()` -/
def i32max : Int := 2147483647
/-- `numeric_limits<uint32_t>::max()` -/
def u32max : Nat := 4294967295

/-- `assert(c)`: aborts only in builds without `NDEBUG`. -/
def cassert (nd : Bool) (c : Prop) [Decidable c] : Option Unit :=
  if nd = true ∨ c then some () else none

/-- `__builtin_clz` on 32 bits, undefined (`none`) on 0. -/
def clz (x : BitVec 32) : Option Nat := (List.range 32).find? (fun i => x.getMsbD i)
/-- `__builtin_ctz` on 32 bits, undefined (`none`) on 0. -/
def ctz (x : BitVec 32) : Option Nat := (List.range 32).find? (fun i => x.getLsbD i)

/-- `~((0xffffffff << L) >> L)` (used at IntegerRange.cpp:49, 80, 92, 428, 450). `L < 32` at all uses. -/
def hiMask (L : Nat) : BitVec 32 := ~~~((BitVec.allOnes 32 <<< L) >>> L)
/-- `(1U << L) - 1U`; the C++ shift is only defined for `L < 32`, which holds at all uses. -/
def loMask (L : Nat) : BitVec 32 := (1#32 <<< L) - 1#32

/-- `signedOverflow` (IntegerRange.cpp:26-28). -/
def signedOverflow (x : Int) : Bool := x < i32min || x > i32max
/-- `unsignedOverflow` (IntegerRange.cpp:30-32). -/
def unsignedOverflow (x : Nat) : Bool := x > u32max

/-- `uint64_t` subtraction, wrapping. -/
def sub64 (a b : Nat) : Nat := (a + 18446744073709551616 - b) % 18446744073709551616

/-- `inferSuffix` (IntegerRange.cpp:193-199). -/
def inferSuffix (r : IRange) : Option (BitVec 32 × Nat) :=
  let det := r.ones ||| r.zeros
  if det = BitVec.allOnes 32 then some (r.ones, 32)
  else do
    let len ← ctz (~~~det)
    some (r.ones &&& loMask len, len)

/-- First half of `bit2Unsigned` (IntegerRange.cpp:42-54): bounds from the determined prefix. -/
def bitPrefixBounds (r : IRange) : Option (Nat × Nat) :=
  let det := r.ones ||| r.zeros
  if det = BitVec.allOnes 32 then
    some (max r.umin r.ones.toNat, min r.umax r.ones.toNat)
  else do
    let L ← clz (~~~det)
    let mask := hiMask L
    let minV := r.ones &&& mask
    let maxV := minV ||| ~~~mask
    some (max r.umin minV.toNat, min r.umax maxV.toNat)

/-- `suffixLength == 32U ? 0xffffffff : ((1U << suffixLength) - 1)` (IntegerRange.cpp:57). -/
def suffixMask (len : Nat) : BitVec 32 := if len = 32 then BitVec.allOnes 32 else loMask len

/-- Round the lower bound up to the known suffix (IntegerRange.cpp:58-63). -/
def roundUp (mn : Nat) (mask suffix : BitVec 32) : Nat :=
  if mn &&& mask.toNat ≠ suffix.toNat then
    let next := (mn &&& (~~~mask).toNat) ||| suffix.toNat
    if next < mn then next + (mask + 1#32).toNat else next
  else mn

/-- Round the upper bound down to the known suffix (IntegerRange.cpp:65-70); `next -= mask + 1` may wrap. -/
def roundDown (mx : Nat) (mask suffix : BitVec 32) : Nat :=
  if mx &&& mask.toNat ≠ suffix.toNat then
    let next := (mx &&& (~~~mask).toNat) ||| suffix.toNat
    if next > mx then sub64 next (mask + 1#32).toNat else next
  else mx

/-- `IntegerRange::bit2Unsigned` (IntegerRange.cpp:41-72). -/
def bit2Unsigned (nd : Bool) (r : IRange) : Option IRange := do
  let (mn, mx) ← bitPrefixBounds r
  let (suffix, len) ← inferSuffix r
  let mask := suffixMask len
  let mn' := roundUp mn mask suffix
  let mx' := roundDown mx mask suffix
  cassert nd (mn' ≤ mx')
  some { r with umin := mn', umax := mx' }

/-- Shared body of `unsigned2Bit`/`signed2Bit` (IntegerRange.cpp:73-96): from the 32-bit images of the two bounds
to known bits. -/
def boundsToBits (r : IRange) (lo hi : BitVec 32) : Option IRange :=
  let common := lo ^^^ hi
  if common = 0#32 then
    some { r with ones := r.ones ||| lo, zeros := r.zeros ||| ~~~lo }
  else do
    let L ← clz common
    let mask := hiMask L
    some { r with ones := r.ones ||| (lo &&& mask), zeros := r.zeros ||| (~~~lo &&& mask) }

/-- `IntegerRange::unsigned2Bit` (IntegerRange.cpp:73-84). -/
def unsigned2Bit (r : IRange) : Option IRange :=
  boundsToBits r (BitVec.ofNat 32 r.umin) (BitVec.ofNat 32 r.umax)

/-- `IntegerRange::signed2Bit` (IntegerRange.cpp:85-96). -/
def signed2Bit (r : IRange) : Option IRange :=
  boundsToBits r (BitVec.ofInt 32 r.smin) (BitVec.ofInt 32 r.smax)

/-- `IntegerRange::unsigned2Signed` (IntegerRange.cpp:97-110). The two `if`s are exclusive on the unsigned
bounds unless `umin > umax`. -/
def unsigned2Signed (r : IRange) : IRange :=
  let r1 : IRange := if (r.umax : Int) ≤ i32max then
      { r with smin := max r.smin r.umin, smax := min r.smax r.umax } else r
  if (r.umin : Int) > i32max then
    { r1 with smin := max r1.smin (BitVec.ofNat 32 r.umin).toInt, smax := min r1.smax (BitVec.ofNat 32 r.umax).toInt }
  else r1

/-- `IntegerRange::signed2Unsigned` (IntegerRange.cpp:111-124). -/
def signed2Unsigned (r : IRange) : IRange :=
  let r1 : IRange := if 0 ≤ r.smin then
      { r with umin := max r.umin r.smin.toNat,
               umax := min r.umax (r.smax % 18446744073709551616).toNat } else r
  if r.smax < 0 then
    { r1 with umin := max r1.umin (BitVec.ofInt 32 r.smin).toNat, umax := min r1.umax (BitVec.ofInt 32 r.smax).toNat }
  else r1

/-- `IntegerRange::sync` (IntegerRange.cpp:143-155). -/
def sync (nd : Bool) (r : IRange) : Option IRange := do
  let r := signed2Unsigned r
  let r ← unsigned2Bit r
  let r ← bit2Unsigned nd r
  let r := unsigned2Signed r
  signed2Bit r

/-- Default constructor: the full range (IntegerRange.cpp:157-161). -/
def full : IRange := { zeros := 0#32, ones := 0#32, umin := 0, umax := u32max, smin := i32min, smax := i32max }

/-- `explicit IntegerRange(int64_t)` (IntegerRange.cpp:162-168); `sval` is truncated to 32 bits. -/
def ofConst (sval : Int) : IRange :=
  let z := BitVec.ofInt 32 sval
  { zeros := ~~~z, ones := z, umin := z.toNat, umax := z.toNat, smin := z.toInt, smax := z.toInt }

/-- `setUnsignedRange` (IntegerRange.cpp:126-130). -/
def setUnsigned (nd : Bool) (r : IRange) (mn mx : Nat) : Option IRange := do
  cassert nd (mn ≤ mx)
  some { r with umin := mn, umax := mx }

/-- `setSignedRange` (IntegerRange.cpp:131-137). -/
def setSigned (nd : Bool) (r : IRange) (mn mx : Int) : Option IRange := do
  cassert nd (mn ≤ mx)
  cassert nd (i32min ≤ mn)
  cassert nd (mx ≤ i32max)
  some { r with smin := mn, smax := mx }

/-- `setKnownBits` (IntegerRange.cpp:138-142). -/
def setKnownBits (nd : Bool) (r : IRange) (zeros ones : BitVec 32) : Option IRange := do
  cassert nd (zeros &&& ones = 0#32)
  some { r with zeros := zeros, ones := ones }

/-- The statement `if(c) ret.setSignedRange(mn, mx);` -/
def setSignedIf (nd : Bool) (c : Bool) (r : IRange) (mn mx : Int) : Option IRange :=
  if c then setSigned nd r mn mx else some r

/-- The statement `if(c) ret.setUnsignedRange(mn, mx);` -/
def setUnsignedIf (nd : Bool) (c : Bool) (r : IRange) (mn mx : Nat) : Option IRange :=
  if c then setUnsigned nd r mn mx else some r

/-- `intersectWith` (IntegerRange.cpp:179-183). -/
def intersectWith (a b : IRange) : Bool :=
  max a.smin b.smin ≤ min a.smax b.smax && max a.umin b.umin ≤ min a.umax b.umax &&
    ((a.zeros ||| b.zeros) &&& (a.ones ||| b.ones)) = 0#32

/-- `inferConstant` (IntegerRange.cpp:184-192). -/
def inferConstant (r : IRange) : Option Int :=
  if r.smin = r.smax then some r.smin
  else if r.umin = r.umax then some (BitVec.ofNat 32 r.umin).toInt
  else if r.ones ||| r.zeros = BitVec.allOnes 32 then some r.ones.toInt
  else none

/-- `intersectSet` (IntegerRange.cpp:200-207). -/
def intersectSet (nd : Bool) (a b : IRange) : Option IRange := do
  let r ← setSigned nd full (max a.smin b.smin) (min a.smax b.smax)
  let r ← setUnsigned nd r (max a.umin b.umin) (min a.umax b.umax)
  let r ← setKnownBits nd r (a.zeros ||| b.zeros) (a.ones ||| b.ones)
  sync nd r

/-- `unionSet` (IntegerRange.cpp:208-215). -/
def unionSet (nd : Bool) (a b : IRange) : Option IRange := do
  let r ← setSigned nd full (min a.smin b.smin) (max a.smax b.smax)
  let r ← setUnsigned nd r (min a.umin b.umin) (max a.umax b.umax)
  let r ← setKnownBits nd r (a.zeros &&& b.zeros) (a.ones &&& b.ones)
  sync nd r

/-- `isEmpty` (IntegerRange.cpp:217-219), including its `<` on the unsigned bounds. -/
def isEmpty (r : IRange) : Bool :=
  r.smin > r.smax || r.umin < r.umax || (r.ones &&& r.zeros) ≠ 0#32

/-- `isFull` (IntegerRange.cpp:220-222). -/
def isFull (r : IRange) : Bool := r = full

/-- `isNonNegative` (IntegerRange.hpp:52-54). -/
def isNonNegative (r : IRange) : Bool := r.smin ≥ 0
/-- `isPositive` (IntegerRange.hpp:55-57). -/
def isPositive (r : IRange) : Bool := r.smin > 0
/-- `isNoSignedOverflow` (IntegerRange.hpp:58-60). -/
def isNoSignedOverflow (r : IRange) : Bool := r.smin > i32min && r.smax < i32max

/-- `operator+` (IntegerRange.cpp:224-243). -/
def add (nd : Bool) (a b : IRange) : Option IRange :=
  if a.zeros = BitVec.allOnes 32 then some b
  else if b.zeros = BitVec.allOnes 32 then some a
  else do
    let sl := a.smin + b.smin
    let sh := a.smax + b.smax
    let r ← setSignedIf nd (!signedOverflow sl && !signedOverflow sh) full sl sh
    let ul := a.umin + b.umin
    let uh := a.umax + b.umax
    let r ← setUnsignedIf nd (!unsignedOverflow ul && !unsignedOverflow uh) r ul uh
    let la ← ctz (~~~a.zeros)
    let lb ← ctz (~~~b.zeros)
    let r ← setKnownBits nd r (loMask (min la lb)) 0#32
    sync nd r

/-- `operator-` (IntegerRange.cpp:244-254); the unsigned differences wrap at 2^64. -/
def sub (nd : Bool) (a b : IRange) : Option IRange := do
  let sl := a.smin - b.smax
  let sh := a.smax - b.smin
  let r ← setSignedIf nd (!signedOverflow sl && !signedOverflow sh) full sl sh
  let ul := sub64 a.umin b.umax
  let uh := sub64 a.umax b.umin
  let r ← setUnsignedIf nd (!unsignedOverflow ul && !unsignedOverflow uh) r ul uh
  sync nd r

/-- `length >= 32U ? 0xffffffff : ((1U << length) - 1)` (IntegerRange.cpp:270, 275, 279). -/
def mulMask (len : Nat) : BitVec 32 := if len ≥ 32 then BitVec.allOnes 32 else loMask len

/-- `min`/`max` of the four corner products/quotients. -/
def min4 (a b c d : Int) : Int := min (min a b) (min c d)
/-- see `min4` -/
def max4 (a b c d : Int) : Int := max (max a b) (max c d)

/-- `suffix ? __builtin_ctz(suffix) : suffixLength` (IntegerRange.cpp:274, 278). -/
def trailingZeros (s : BitVec 32) (l : Nat) : Option Nat := if s ≠ 0#32 then ctz s else some l

/-- known-bits part of `operator*` (IntegerRange.cpp:268-281). -/
def mulBits (nd : Bool) (r : IRange) (sa : BitVec 32) (la : Nat) (sb : BitVec 32) (lb : Nat) : Option IRange :=
  if la ≠ 0 ∧ lb ≠ 0 then
    let mask := mulMask (min la lb)
    let val := sa * sb
    setKnownBits nd r (~~~val &&& mask) (val &&& mask)
  else if la ≠ 0 then do
    let len ← trailingZeros sa la
    setKnownBits nd r (mulMask len) 0#32
  else if lb ≠ 0 then do
    let len ← trailingZeros sb lb
    setKnownBits nd r (mulMask len) 0#32
  else some r

/-- `operator*` (IntegerRange.cpp:255-285). `uint64_t` products of 32-bit bounds cannot wrap. -/
def mul (nd : Bool) (a b : IRange) : Option IRange := do
  let s1 := a.smin * b.smin
  let s2 := a.smin * b.smax
  let s3 := a.smax * b.smin
  let s4 := a.smax * b.smax
  let r ← setSignedIf nd (!signedOverflow s1 && !signedOverflow s2 && !signedOverflow s3 && !signedOverflow s4)
      full (min4 s1 s2 s3 s4) (max4 s1 s2 s3 s4)
  let ul := a.umin * b.umin
  let uh := a.umax * b.umax
  let r ← setUnsignedIf nd (!unsignedOverflow ul && !unsignedOverflow uh) r ul uh
  let (sa, la) ← inferSuffix a
  let (sb, lb) ← inferSuffix b
  let r ← mulBits nd r sa la sb lb
  sync nd r

/-- the `wrap` lambda of `sdiv` (IntegerRange.cpp:291-294). -/
def wrapMin (x : Int) : Int := if x = 2147483648 then i32min else x

/-- fold step of the general-sign loop of `sdiv` (IntegerRange.cpp:314-325). -/
def sdivStep (acc : Int × Int) (p : Int × Int) : Int × Int :=
  if p.2 = 0 then acc
  else
    let val := wrapMin (p.1.tdiv p.2)
    (min acc.1 val, max acc.2 val)

/-- `sdiv` (IntegerRange.cpp:286-329); C++ `/` on `int64_t` is truncating (`Int.tdiv`). -/
def sdiv (nd : Bool) (a b : IRange) : Option IRange :=
  if b.smin = 0 ∧ b.smax = 0 then some full
  else if b.smin ≥ 0 then do
    let s1 := a.smin.tdiv (max 1 b.smin)
    let s2 := a.smin.tdiv (max 1 b.smax)
    let s3 := a.smax.tdiv (max 1 b.smin)
    let s4 := a.smax.tdiv (max 1 b.smax)
    let r ← setSigned nd full (min4 s1 s2 s3 s4) (max4 s1 s2 s3 s4)
    sync nd r
  else if b.smax ≤ 0 then do
    let s1 := wrapMin (a.smin.tdiv (min (-1) b.smin))
    let s2 := wrapMin (a.smin.tdiv (min (-1) b.smax))
    let s3 := wrapMin (a.smax.tdiv (min (-1) b.smin))
    let s4 := wrapMin (a.smax.tdiv (min (-1) b.smax))
    let r ← setSigned nd full (min4 s1 s2 s3 s4) (max4 s1 s2 s3 s4)
    sync nd r
  else do
    let pairs := [a.smin, a.smax].flatMap (fun l => [b.smin, -1, 1, b.smax].map (fun q => (l, q)))
    let (mn, mx) := pairs.foldl sdivStep (i32max, i32min)
    let r ← setSigned nd full mn mx
    sync nd r

/-- `udiv` (IntegerRange.cpp:330-339). -/
def udiv (nd : Bool) (a b : IRange) : Option IRange :=
  if b.umin = 0 ∧ b.umax = 0 then some full
  else do
    let r ← setUnsigned nd full (a.umin / max 1 b.umax) (a.umax / max 1 b.umin)
    sync nd r

/-- Clamp to the magnitude of the dividend (IntegerRange.cpp:351-357). -/
def sremClamp (a b r : IRange) : IRange :=
  if a.smin ≠ i32min ∧ max (a.smax.natAbs : Int) a.smin.natAbs < b.smax then
    { r with smin := max r.smin (-(max (a.smax.natAbs : Int) a.smin.natAbs)),
             smax := min r.smax (max (a.smax.natAbs : Int) a.smin.natAbs) }
  else r

/-- `srem` (IntegerRange.cpp:340-367). -/
def srem (nd : Bool) (a b : IRange) : Option IRange :=
  if b.smin = 0 ∧ b.smax = 0 then some full
  else if b.smin ≥ 0 then do
    let r ← setSigned nd full (if isNonNegative a then 0 else -b.smax + 1) (b.smax - 1)
    sync nd (sremClamp a b r)
  else if b.smax ≤ 0 then do
    let r ← setSigned nd full (b.smin + 1) (-b.smin - 1)
    sync nd r
  else do
    let val := max (-b.smin) b.smax
    let r ← setSigned nd full (-val + 1) (val - 1)
    sync nd r

/-- `urem` (IntegerRange.cpp:368-375); `maxUnsigned - 1` wraps at 2^64 if it were 0. -/
def urem (nd : Bool) (_a b : IRange) : Option IRange :=
  if b.umin = 0 ∧ b.umax = 0 then some full
  else do
    let r ← setUnsigned nd full 0 (sub64 b.umax 1)
    sync nd r

/-- `operator&` (IntegerRange.cpp:377-382). -/
def and (nd : Bool) (a b : IRange) : Option IRange := do
  let r ← setKnownBits nd full (a.zeros ||| b.zeros) (a.ones &&& b.ones)
  sync nd r
/-- `operator|` (IntegerRange.cpp:383-388). -/
def or (nd : Bool) (a b : IRange) : Option IRange := do
  let r ← setKnownBits nd full (a.zeros &&& b.zeros) (a.ones ||| b.ones)
  sync nd r
/-- `operator^` (IntegerRange.cpp:389-395). -/
def xor (nd : Bool) (a b : IRange) : Option IRange := do
  let r ← setKnownBits nd full ((a.zeros &&& b.zeros) ||| (a.ones &&& b.ones))
    ((a.zeros &&& b.ones) ||| (a.ones &&& b.zeros))
  sync nd r

/-- `if(retRange.has_value()) retRange = retRange->unionSet(subRange); else retRange = subRange;` -/
def unionOpt (nd : Bool) (acc : Option IRange) (s : IRange) : Option IRange :=
  match acc with
  | some r => unionSet nd r s
  | none => some s

/-- The loop of `shl`/`lshr`/`ashr` (IntegerRange.cpp:401-410, 427-436, 449-459): for each shift amount
`beg ≤ i ≤ end`, build a sub-range from known bits and union it. `end ≤ 31`. -/
def shiftLoop (nd : Bool) (f : Nat → BitVec 32 × BitVec 32) : List Nat → Option IRange → Option (Option IRange)
  | [], acc => some acc
  | i :: is, acc => do
    let s ← setKnownBits nd full (f i).1 (f i).2
    let acc' ← unionOpt nd acc s
    shiftLoop nd f is (some acc')

/-- The shift amounts `beg..end` (IntegerRange.cpp:398-399): `max 0 smin ≤ i ≤ min 31 smax`. -/
def shiftAmounts (b : IRange) : List Nat :=
  (List.range 32).filter (fun i => decide (max 0 b.smin ≤ (i : Int)) && decide ((i : Int) ≤ min 31 b.smax))

/-- `if(retRange.has_value()) ret = ret.intersectSet(*retRange);` (IntegerRange.cpp:417-419). -/
def intersectOpt (nd : Bool) (r : IRange) (ret : Option IRange) : Option IRange :=
  match ret with
  | some s => intersectSet nd r s
  | none => some r

/-- `shl` (IntegerRange.cpp:397-422). `1ULL << beg` is undefined for `beg > 63`, `1ULL << end` for `end < 0`. -/
def shl (nd : Bool) (a b : IRange) : Option IRange := do
  let beg := max 0 b.smin
  let en := min 31 b.smax
  let ret ← shiftLoop nd (fun i => ((a.zeros <<< i) ||| loMask i, a.ones <<< i)) (shiftAmounts b) none
  if beg > 63 ∨ en < 0 then none else do
    let m ← setUnsigned nd full (2 ^ beg.toNat) (2 ^ en.toNat)
    let m ← sync nd m
    let r ← mul nd a m
    let r ← intersectOpt nd r ret
    sync nd r

/-- `lshr` (IntegerRange.cpp:423-444). -/
def lshr (nd : Bool) (a b : IRange) : Option IRange := do
  let ret ← shiftLoop nd (fun i => ((a.zeros >>> i) ||| hiMask i, a.ones >>> i)) (shiftAmounts b) none
  sync nd (ret.getD full)

/-- `ashr` (IntegerRange.cpp:445-467). -/
def ashr (nd : Bool) (a b : IRange) : Option IRange := do
  let ret ← shiftLoop nd (fun i =>
      ((a.zeros >>> i) ||| (if a.zeros &&& 0x80000000#32 ≠ 0#32 then hiMask i else 0#32),
       (a.ones >>> i) ||| (if a.ones &&& 0x80000000#32 ≠ 0#32 then hiMask i else 0#32))) (shiftAmounts b) none
  sync nd (ret.getD full)

/-- `smax` (IntegerRange.cpp:469-474). -/
def smaxOp (nd : Bool) (a b : IRange) : Option IRange := do
  let r ← setSigned nd full (max a.smin b.smin) (max a.smax b.smax)
  sync nd r
/-- `smin` (IntegerRange.cpp:475-480). -/
def sminOp (nd : Bool) (a b : IRange) : Option IRange := do
  let r ← setSigned nd full (min a.smin b.smin) (min a.smax b.smax)
  sync nd r

/-- `abs` (IntegerRange.cpp:481-494). -/
def abs (nd : Bool) (a : IRange) : Option IRange :=
  if a.smin < 0 ∧ a.smax ≥ 0 then do
    let r ← setSigned nd full 0 (max (a.smin.natAbs : Int) a.smax.natAbs)
    sync nd r
  else if a.smin ≠ i32min then do
    let s1 : Int := a.smin.natAbs
    let s2 : Int := a.smax.natAbs
    let r ← setSigned nd full (min s1 s2) (max s1 s2)
    sync nd r
  else sync nd full

/-- `neg` (IntegerRange.cpp:496-503). -/
def neg (nd : Bool) (a : IRange) : Option IRange :=
  if a.smin ≠ i32min then do
    let r ← setSigned nd full (-a.smax) (-a.smin)
    sync nd r
  else sync nd full

/-- `getNonNegative` (IntegerRange.cpp:505-510). -/
def getNonNegative (nd : Bool) : Option IRange := do
  let r ← setSigned nd full 0 i32max
  sync nd r

end Cmmc.Range
