import Verif.Isel.Tree

/-!
# The RISC-V selection rules for integer expressions

One constructor per pattern of `cmmc/Target/RISCV/RISCV.yml` (`InstSelection`) and per rewriting of
`legalizeInst` (`cmmc/Target/RISCV/RISCVISelInfo.cpp:510-757`).

The compiler tries the patterns in file order and uses some of them only if they are profitable or if
a value has one use; the relation lets any pattern whose operands and predicate match be used, so it
allows every choice the compiler makes.  Where a pattern is used by the compiler although it is not
sound, the constructor carries an extra condition, and the comment names the condition; what goes wrong
without it is in `Verif/Isel/C55.lean`.
-/

namespace Cmmc.Isel

open Tm

/-- `asIReg` (`RISCVISelInfo.cpp:413-421`) and `imm2reg` (`528-539`): an operand moved to a register. -/
inductive AsReg : Tm → Tm → Prop
  | keep {a : Tm} : a.isImm = false → AsReg a a
  | zero {s : Ty} : AsReg (imm s 0) (zero s)
  | load {s : Ty} {v : ℤ} : AsReg (imm s v) (li s v)

/-- The patterns that replace a generic operation by one instruction on the same operands:
`RISCV.yml:573-619, 680-708, 727-930, 1141-1168, 1215-1292`.  `InstSMin` and `InstSMax` have a pattern
for every type (`896-916`); it is not used here for booleans. -/
def binSel : GBin → Ty → Option Rv2
  | .add, .i32 => some .addw | .add, .i64 => some .add
  | .sub, .i32 => some .subw | .sub, .i64 => some .sub
  | .mul, .i32 => some .mulw | .mul, .i64 => some .mul
  | .shl, .i32 => some .sllw | .shl, .i64 => some .sll
  | .lshr, .i32 => some .srlw | .lshr, .i64 => some .srl
  | .ashr, .i32 => some .sraw | .ashr, .i64 => some .sra
  | .sdiv, .i32 => some .divw | .sdiv, .i64 => some .div
  | .srem, .i32 => some .remw | .srem, .i64 => some .rem
  | .udiv, .i32 => some .divuw | .udiv, .i64 => some .divu
  | .urem, .i32 => some .remuw | .urem, .i64 => some .remu
  | .and, _ => some .and | .or, _ => some .or | .xor, _ => some .xor
  | .smin, .b => none | .smin, _ => some .min
  | .smax, .b => none | .smax, _ => some .max
  | _, _ => none

/-- `SH1ADD`, `SH2ADD`, `SH3ADD`. -/
def shAdd : ℤ → Option Rv2
  | 1 => some .sh1add | 2 => some .sh2add | 3 => some .sh3add
  | _ => none

/-- The instructions `selectSFBArith` accepts (`RISCVISelInfo.cpp:445-490`). -/
def sfbOk : Rv2 → Bool
  | .add | .addw | .sub | .subw | .mul | .mulw | .and | .or | .xor | .sll | .sllw | .srl | .srlw
  | .sra | .sraw => true
  | _ => false

/-- The largest and the smallest signed value, for the types the compiler has them for
(`getMaxSignedValue`, `getMinSignedValue`, `cmmc/CodeGen/ISelInfo.cpp:474-504`). -/
def maxS : Ty → Option ℤ
  | .i32 => some (2 ^ 31 - 1) | .i64 => some (2 ^ 63 - 1)
  | _ => none
def minS : Ty → Option ℤ
  | .i32 => some (-2 ^ 31) | .i64 => some (-2 ^ 63)
  | _ => none

/-- The 64-bit value of an `intmax_t` computation. -/
def wrap64 (v : ℤ) : ℤ := v.bmod (2 ^ 64)

/-- The registers `buildMul64Imm` computes (`RISCVISelInfo.cpp:297-327`), as a tree.  Simplification:
the `InstMul` by the magic number is shown as `MUL` by a loaded constant, which is what it becomes
(`RISCVISelInfo.cpp:611-625`, `RISCV.yml:918-927`). -/
def mulTm (a : Tm) (g : Magic) : Tm :=
  let m := immW g.magic
  let prod := if isPow2 m.toNat then bin (.r .sll) .i64 a (imm .i32 (ilog2 m.toNat))
    else bin (.r .mul) .i64 a (li .i64 g.magic)
  let out := bin (.r .srl) .i64 prod (imm .i32 32)
  if g.factor = 0 then out
  else if g.factor = 1 then bin (.r .add) .i64 out a
  else bin (.r .sub) .i64 out a

/-- `selectAddImm32` (`RISCVISelInfo.cpp:492-502`): `ADDIW` of a small constant, or `ADDW` of a loaded
one. -/
def addImm32 (v : ℤ) : Tm := if imm12 v then imm .i32 v else li .i32 v

/-- One rewriting at the root of a tree. -/
inductive Rule : Tm → Tm → Prop
  /- legalizeInst -/
  /-- `RISCVISelInfo.cpp:512-527` (immediate to the right) and `546-564` (`Not` to the right). -/
  | comm {o t a b} : o.comm = true → Rule (bin (.g o) t a b) (bin (.g o) t b a)
  /-- `imm2reg` and `largeImm2reg` (`RISCVISelInfo.cpp:528-544`). -/
  | immL {o t a a' b} : AsReg a a' → (∀ r, o ≠ .r r) → Rule (bin o t a b) (bin o t a' b)
  | immR {o t a b b'} : AsReg b b' → (∀ r, o ≠ .r r) → Rule (bin o t a b) (bin o t a b')
  | immU {o t a a'} : AsReg a a' → (∀ r, o ≠ .r r) → Rule (un o t a) (un o t a')
  | immC {t c c' a b} : AsReg c c' → Rule (sel t c a b) (sel t c' a b)
  /-- `RISCVISelInfo.cpp:567-571`. -/
  | andH {t s a} : a.isImm = false → Rule (bin (.g .and) t a (imm s 0xffff)) (un (.r .zextH) t a)
  /-- `RISCVISelInfo.cpp:572-576`. -/
  | andW {t s a} : a.isImm = false → Rule (bin (.g .and) t a (imm s 0xffffffff)) (un (.r .zextW) t a)
  /-- `RISCVISelInfo.cpp:580-596`.  Restricted to the types `InstAdd` has patterns for. -/
  | subImm {t s a v} : imm12 (-v) = true → t = .i32 ∨ t = .i64 →
      Rule (bin (.g .sub) t a (imm s v)) (bin (.g .add) t a (imm s (-v)))
  /-- `RISCVISelInfo.cpp:597-604`. -/
  | neg {t a} : Rule (un .neg t a) (bin (.g .sub) t (zero a.ty) a)
  /-- `RISCVISelInfo.cpp:628-631, 662-666`. -/
  | icmpSwap {c t a b} : Rule (bin (.icmp c) t a b) (bin (.icmp c.rev) t b a)
  /-- `RISCVISelInfo.cpp:635-640`. -/
  | icmpSle {t s a v m} : maxS s = some m → v < m →
      Rule (bin (.icmp .sle) t a (imm s v)) (bin (.icmp .slt) t a (imm s (v + 1)))
  /-- `RISCVISelInfo.cpp:641-646`. -/
  | icmpSge {t s a v m} : minS s = some m → m < v →
      Rule (bin (.icmp .sge) t a (imm s v)) (bin (.icmp .sgt) t a (imm s (v - 1)))
  /-- `RISCVISelInfo.cpp:647-653`, for an immediate whose successor has the type; `getUnsignedImm` and
  `getMaxUnsignedValue` rule out `-1`. -/
  | icmpUle {t s a v m} : maxS s = some m → v < m → v ≠ -1 →
      Rule (bin (.icmp .ule) t a (imm s v)) (bin (.icmp .ult) t a (imm s (v + 1)))
  /-- The same for the largest signed value: the new immediate does not have the type, and is loaded
  with all 64 bits and compared by `SLTU` (`RISCV.yml:1328-1338`). -/
  | icmpUleMax {t s a m} : maxS s = some m → a.isImm = false →
      Rule (bin (.icmp .ule) t a (imm s m)) (bin (.r .sltu) t a (li .i64 (wrap64 (m + 1))))
  /-- `RISCVISelInfo.cpp:654-660`. -/
  | icmpUge {t s a v m} : minS s = some m → m < v → v ≠ 0 →
      Rule (bin (.icmp .uge) t a (imm s v)) (bin (.icmp .ugt) t a (imm s (v - 1)))
  | icmpUgeMin {t s a m} : minS s = some m → a.isImm = false →
      Rule (bin (.icmp .uge) t a (imm s m)) (bin (.r .sltu) t (li .i64 (wrap64 (m - 1))) a)
  /-- `RISCVISelInfo.cpp:668-674`. -/
  | icmpXor {c t a b} : c = .eq ∨ c = .ne →
      Rule (bin (.icmp c) t a b) (bin (.icmp c) t (bin (.g .xor) a.ty a b) (zero b.ty))
  /- constants -/
  /-- `RISCV.yml:429-442`. -/
  | liZero {t} : Rule (li t 0) (un (.r .mv) t (zero t))
  /- arithmetic -/
  /-- See `binSel`. -/
  | sel2 {o o' t a b} : binSel o t = some o' → a.isImm = false → b.fits o' = true →
      Rule (bin (.g o) t a b) (bin (.r o') t a b)
  /-- `RISCV.yml:485-571`.  Extra condition: the sum has type `Int64`. -/
  | shAddL {o s u k a b} : shAdd k = some o → a.isImm = false → b.isImm = false →
      Rule (bin (.g .add) .i64 (bin (.g .shl) s a (imm u k)) b) (bin (.r o) .i64 a b)
  | shAddR {o s u k a b} : shAdd k = some o → a.isImm = false → b.isImm = false →
      Rule (bin (.g .add) .i64 a (bin (.g .shl) s b (imm u k))) (bin (.r o) .i64 b a)
  /-- `RISCV.yml:621-634`.  Extra condition: the immediate is `-1` (`1` for booleans), where the code
  looks at the low 32 bits only. -/
  | andn {t s u a b v} : a.isImm = false → b.isImm = false → v = (if t = .b then 1 else -1) →
      Rule (bin (.g .and) t a (bin (.g .xor) s b (imm u v))) (bin (.r .andn) t a b)
  /-- `RISCV.yml:636-649`; same condition. -/
  | orn {t s u a b} : a.isImm = false → b.isImm = false →
      Rule (bin (.g .or) t a (bin (.g .xor) s b (imm u (-1)))) (bin (.r .orn) t a b)
  /-- `RISCV.yml:651-678`; same condition, and not for booleans. -/
  | xnorL {t s u a b} : a.isImm = false → b.isImm = false → t ≠ .b →
      Rule (bin (.g .xor) t (bin (.g .xor) s a b) (imm u (-1))) (bin (.r .xnor) t a b)
  | xnorR {t s u a b} : a.isImm = false → b.isImm = false → t ≠ .b →
      Rule (bin (.g .xor) t a (bin (.g .xor) s b (imm u (-1)))) (bin (.r .xnor) t a b)
  /-- `RISCV.yml:710-725`; `isZero` accepts the immediate and the register. -/
  | negAbs {s z a} : z = zero .i32 ∨ z = imm .i32 0 → a.isImm = false →
      Rule (bin (.g .sub) .i32 z (un .abs s a))
        (bin (.r .min) .i32 (bin (.r .subw) .i32 (zero .i32) a) a)
  /-- `RISCV.yml:1911-1925`. -/
  | abs {a} : a.isImm = false →
      Rule (un .abs .i32 a) (bin (.r .max) .i32 (bin (.r .subw) .i32 (zero .i32) a) a)
  /-- `RISCV.yml:988-1008`. -/
  | sdivPow2 {s a} {k : ℕ} : a.isImm = false → 1 ≤ k → k ≤ 30 →
      Rule (bin (.g .sdiv) .i32 a (imm s (2 ^ k)))
        (bin (.r .sraw) .i32 (selA .slt .addw .i32 a (zero .i32) a (addImm32 (2 ^ k - 1))) (imm .i32 k))
  /-- `RISCV.yml:1069-1086`.  Extra condition: the sequence has a shift. -/
  | sdivConst {s a d g} : a.isImm = false → selectSDiv32ByConstant d = some g → g.shift ≠ 0 →
      Rule (bin (.g .sdiv) .i32 a (imm s d))
        (bin (.r .add) .i32 (bin (.r .srlw) .i32 (mulTm a g) (imm .i32 31))
          (bin (.r .sraw) .i64 (mulTm a g) (imm .i32 g.shift)))
  /-- `RISCV.yml:1171-1195`. -/
  | sremConst {s a d} : a.isImm = false → isConstDivisor d = true →
      Rule (bin (.g .srem) .i32 a (imm s d))
        (bin (.r .subw) .i32 a (bin (.g .mul) .i32 (bin (.g .sdiv) .i32 a (imm s d)) (imm s d)))
  /- machine instructions -/
  /-- `RISCV.yml:1109-1123`.  Extra condition: the second shift is not zero. -/
  | srlw32 {t s u u' a k} : 0 < k →
      Rule (bin (.r .srlw) t (bin (.r .srl) s a (imm u 32)) (imm u' k))
        (bin (.r .srl) t a (imm .i32 (k + 32)))
  /-- `RISCV.yml:1125-1139`. -/
  | sraw32 {t s u u' a k} :
      Rule (bin (.r .sraw) t (bin (.r .srl) s a (imm u 32)) (imm u' k))
        (bin (.r .sra) t a (imm .i32 (k + 32)))
  /-- `RISCV.yml:1294-1311`, `selectShiftImm12Mask` (`RISCVISelInfo.cpp:366-373`).  Extra condition:
  the shifted value has type `Int32`. -/
  | shiftMask {o t s u u' a} {k : ℕ} : o = .sll ∨ o = .sllw → a.ty = .i32 → 0 < k → k < 32 →
      imm12 (-2 ^ k) = true →
      Rule (bin (.r o) t (bin (.r .sraw) s a (imm u k)) (imm u' k)) (bin (.r .and) t a (imm .i32 (-2 ^ k)))
  /-- `RISCV.yml:1927-1945`. -/
  | subSub {s a b c} :
      Rule (bin (.r .subw) .i32 a (bin (.r .subw) s b c))
        (bin (.r .subw) .i32 (bin (.r .addw) .i32 a c) b)
  /-- `RISCV.yml:1947-1960`. -/
  | negSub {s u b c} :
      Rule (bin (.r .subw) .i32 (zero u) (bin (.r .subw) s b c)) (bin (.r .subw) .i32 c b)
  /-- `RISCV.yml:2117-2142`, `getShiftedImm64` (`RISCVISelInfo.cpp:441-443`). -/
  | sllLi {t s u v k} :
      Rule (bin (.r .sll) t (li s v) (imm u k)) (li t (wrap64 (v * 2 ^ k.toNat)))
  /-- `RISCV.yml:2144-2157`; `bor` is C's bitwise or of two `intmax_t`. -/
  | orLi {t s u v k} :
      Rule (bin (.r .or) t (li s v) (imm u k)) (li t ((immW v ||| immW k).toInt))
  /-- `RISCV.yml:2159-2176`. -/
  | addUw {t s s' u v a} : 0 < v → imm12 v = true →
      Rule (bin (.r .addUw) t (li s v) (bin (.r .sll) s' a (imm u 32)))
        (bin (.r .or) t (bin (.r .sll) s' a (imm u 32)) (imm s v))
  /- comparisons -/
  /-- `RISCV.yml:1314-1326, 1363-1373`.  Extra condition on the signed ones: not for booleans. -/
  | slt {t a b} : a.ty ≠ .b → a.isImm = false → b.fits .slt = true →
      Rule (bin (.icmp .slt) t a b) (bin (.r .slt) t a b)
  /-- `RISCV.yml:1328-1338, 1376-1386`. -/
  | ult {t a b} : a.isImm = false → b.fits .sltu = true →
      Rule (bin (.icmp .ult) t a b) (bin (.r .sltu) t a b)
  /-- `RISCV.yml:1340-1350`. -/
  | sgt {t a b} : a.ty ≠ .b → a.isImm = false → b.isImm = false →
      Rule (bin (.icmp .sgt) t a b) (bin (.r .slt) t b a)
  /-- `RISCV.yml:1352-1361`. -/
  | ugt {t a b} : a.isImm = false → b.isImm = false →
      Rule (bin (.icmp .ugt) t a b) (bin (.r .sltu) t b a)
  /-- `RISCV.yml:1388-1399`. -/
  | eqZero {t a z} : (∃ s, z = zero s ∨ z = imm s 0) → a.isImm = false →
      Rule (bin (.icmp .eq) t a z) (bin (.r .sltu) t a (imm a.ty 1))
  /-- `RISCV.yml:1401-1412`. -/
  | neZero {t a z} : (∃ s, z = zero s ∨ z = imm s 0) → a.isImm = false →
      Rule (bin (.icmp .ne) t a z) (bin (.r .sltu) t (zero z.ty) a)
  /-- `RISCV.yml:1415-1431`. -/
  | sle {t a b} : a.ty ≠ .b → a.isImm = false → b.isImm = false →
      Rule (bin (.icmp .sle) t a b) (bin (.r .xor) t (bin (.r .slt) t b a) (imm t 1))
  /-- `RISCV.yml:1433-1449`. -/
  | ule {t a b} : a.isImm = false → b.isImm = false →
      Rule (bin (.icmp .ule) t a b) (bin (.r .xor) t (bin (.r .sltu) t b a) (imm t 1))
  /- conversions -/
  /-- `RISCV.yml:1453-1461`, `RISCVISelInfo.cpp:683-691`. -/
  | zextB {t a} : a.ty = .b → a.isImm = false → Rule (un .zext t a) (un (.r .mv) t a)
  /-- `RISCV.yml:1463-1472`, `getZExtMask` (`cmmc/CodeGen/ISelInfo.cpp:449-461`). -/
  | zext8 {t a} : a.ty = .i8 → a.isImm = false →
      Rule (un .zext t a) (bin (.r .and) t a (imm t 0xff))
  /-- `RISCV.yml:1474-1482`. -/
  | zext32 {t a} : a.ty = .i32 → a.isImm = false → Rule (un .zext t a) (un (.r .zextW) t a)
  /-- `RISCV.yml:1484-1492`. -/
  | zext16 {t a} : a.ty = .i16 → a.isImm = false → Rule (un .zext t a) (un (.r .zextH) t a)
  /-- `RISCV.yml:1494-1502`.  Extra condition: not from a boolean. -/
  | sext {t a} : a.ty ≠ .b → a.isImm = false → Rule (un .sext t a) (un (.r .mv) t a)
  /-- `RISCV.yml:2000-2010`, `selectSExtOpcode` (`RISCVISelInfo.cpp:375-386`). -/
  | trunc8 {a} : a.isImm = false → Rule (un .trunc .i8 a) (un (.r .sextB) .i8 a)
  | trunc16 {a} : a.isImm = false → Rule (un .trunc .i16 a) (un (.r .sextH) .i16 a)
  | trunc32 {a} : a.isImm = false → Rule (un .trunc .i32 a) (un (.r .sextW) .i32 a)
  /- select -/
  /-- `RISCV.yml:2032-2047`, `selectCompare` (`RISCVISelInfo.cpp:412-439`), comparison inlined.  Extra
  conditions: no signed comparison of booleans, and immediates of 32 bits. -/
  | selCmp {t u c l l' r r' a b} : AsReg l l' → AsReg r r' → (c.signed = true → l.ty ≠ .b) →
      a.fits32 = true → b.fits32 = true →
      Rule (sel t (bin (.icmp c) u l r) a b) (selG c t l' r' a b)
  /-- The same, any other condition. -/
  | selCond {t c a b} : c.isImm = false → a.fits32 = true → b.fits32 = true →
      Rule (sel t c a b) (selG .ne t c (zero c.ty) a b)
  /-- `RISCV.yml:2012-2030`, `selectSFBArith`. -/
  | selArith {c o t s l r x y} : sfbOk o = true →
      Rule (selG c t l r (bin (.r o) s x y) x) (selA c o t l r x y)
  /-- `RISCV.yml:2064-2086`.  Extra condition: the inverted value is a boolean. -/
  | selInv {t s u z c a b} : c.ty = .b → z = zero z.ty →
      Rule (selG .ne t (bin (.r .xor) s c (imm u 1)) z a b) (selG .ne t c z b a)

/-- Rewriting anywhere in a tree. -/
inductive Step : Tm → Tm → Prop
  | here {s t} : Rule s t → Step s t
  | un {o t a a'} : Step a a' → Step (un o t a) (un o t a')
  | binL {o t a a' b} : Step a a' → Step (bin o t a b) (bin o t a' b)
  | binR {o t a b b'} : Step b b' → Step (bin o t a b) (bin o t a b')
  | selC {t c c' a b} : Step c c' → Step (sel t c a b) (sel t c' a b)
  | selL {t c a a' b} : Step a a' → Step (sel t c a b) (sel t c a' b)
  | selR {t c a b b'} : Step b b' → Step (sel t c a b) (sel t c a b')
  | g1 {c t l l' r x y} : Step l l' → Step (selG c t l r x y) (selG c t l' r x y)
  | g2 {c t l r r' x y} : Step r r' → Step (selG c t l r x y) (selG c t l r' x y)
  | g3 {c t l r x x' y} : Step x x' → Step (selG c t l r x y) (selG c t l r x' y)
  | g4 {c t l r x y y'} : Step y y' → Step (selG c t l r x y) (selG c t l r x y')
  | a1 {c o t l l' r x y} : Step l l' → Step (selA c o t l r x y) (selA c o t l' r x y)
  | a2 {c o t l r r' x y} : Step r r' → Step (selA c o t l r x y) (selA c o t l r' x y)
  | a3 {c o t l r x x' y} : Step x x' → Step (selA c o t l r x y) (selA c o t l r x' y)
  | a4 {c o t l r x y y'} : Step y y' → Step (selA c o t l r x y) (selA c o t l r x y')

/-- Any number of rewritings. -/
inductive Steps : Tm → Tm → Prop
  | refl {s} : Steps s s
  | tail {s t u} : Steps s t → Step t u → Steps s u

end Cmmc.Isel
