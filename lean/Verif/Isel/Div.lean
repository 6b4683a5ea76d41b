import Verif.Isel.MagicProps
import Verif.Isel.Rv

/-!
# Division and remainder by a constant: the RISC-V and ARM instruction sequences

Models of the replacement sequences of `cmmc/Target/RISCV/RISCV.yml` and
`cmmc/Target/ARM/ARM.yml` for `InstSDiv` and `InstSRem`, and of the helper functions they call.
-/

namespace Cmmc.Isel

/-- `isPowerOf2` (`cmmc/Support/Bits.hpp:20-22`): exactly one bit set. -/
def isPow2 (n : ℕ) : Bool := n != 0 && n == 2 ^ Nat.log2 n
/-- `ilog2` (`cmmc/Support/Bits.hpp:23-25`), which counts trailing zeros, on a power of two. -/
def ilog2 (n : ℕ) : ℕ := Nat.log2 n

/-! ## RISC-V -/

/-- `buildMul64Imm` (`cmmc/Target/RISCV/RISCVISelInfo.cpp:297-327`): the high half of the
64-bit product (zero extended by `SRLI`), plus or minus the dividend. -/
def buildMul64Imm (x : W) (g : Magic) : W :=
  let m := immW g.magic
  let mulRes := if isPow2 m.toNat then Rv2.sll.run x (immW (ilog2 m.toNat)) else Rv2.mul.run x m
  let out := Rv2.srl.run mulRes (immW 32)
  if g.factor = 0 then out else if g.factor = 1 then Rv2.add.run out x else Rv2.sub.run out x

/-- `buildSRAIW` (`RISCVISelInfo.cpp:329-337`): no instruction for a zero shift. -/
def buildSRAIW (x : W) (shift : ℕ) : W :=
  if shift = 0 then x else Rv2.sraw.run x (immW shift)

/-- `RISCV.yml:1069-1086`: `InstSDiv` by a constant becomes `ADD (SRLIW out 31) (SRAIW out shift)`. -/
def rvSDivConst (x : W) (g : Magic) : W :=
  let out := buildMul64Imm x g
  Rv2.add.run (Rv2.srlw.run out (immW 31)) (buildSRAIW out g.shift)

/-- `RISCV.yml:988-1008`: division by `2^shift` with `Select_GPR_Arith`: if the dividend is negative
add `2^shift - 1` (`selectAddImm32`, `RISCVISelInfo.cpp:478-488`: `ADDIW` or `ADDW` of a loaded
constant), then `SRAIW`. -/
def rvSDivPow2 (x : W) (shift : ℕ) : W :=
  let t := if x.slt 0 then Rv2.addw.run x (immW (2 ^ shift - 1)) else x
  Rv2.sraw.run t (immW shift)

/-- `RISCV.yml:1041-1067`: division by a register known to be `1 << shift`: if the dividend is
negative add `(1 << shift) - 1`, then `SRAW` by the shift amount. -/
def rvSDivShl (x shift : W) : W :=
  let shlRes := Rv2.sllw.run (immW 1) shift
  let t := if x.slt 0 then Rv2.addw.run x (Rv2.addw.run shlRes (immW (-1))) else x
  Rv2.sraw.run t shift

/-- `RISCV.yml:1171-1195`: the remainder is `lhs - (lhs / rhs) * rhs`, in 32-bit arithmetic
(`SUBW`, `MULW`); `q` is the register holding the quotient. -/
def rvSRemConst (x q : W) (d : ℤ) : W := Rv2.subw.run x (Rv2.mulw.run q (immW d))

/-! ## ARM -/

/-- `SMMUL`: the high half of the signed 64-bit product. -/
def armSmmul (a b : BitVec 32) : BitVec 32 := BitVec.ofInt 32 (a.toInt * b.toInt / 2 ^ 32)
/-- `SMMLA`: the same, plus an accumulator. -/
def armSmmla (a b c : BitVec 32) : BitVec 32 := armSmmul a b + c

/-- `buildMulHiImm` (`cmmc/Target/ARM/ARMISelInfo.cpp:531-559`). -/
def buildMulHiImm (x : BitVec 32) (g : Magic) : BitVec 32 :=
  let imm := BitVec.ofInt 32 g.magic
  if g.factor = 0 then armSmmul x imm
  else if g.factor = 1 then armSmmla x imm x
  else armSmmul x imm - x

/-- `buildASR` (`ARMISelInfo.cpp:561-569`) followed by the `ADD_Fused` with `LSR #31` of
`ARM.yml:747-762`. -/
def armSDivConst (x : BitVec 32) (g : Magic) : BitVec 32 :=
  let out := buildMulHiImm x g
  let asrOut := if g.shift = 0 then out else out.sshiftRight g.shift
  asrOut + out >>> 31

/-- `ARM.yml:680-695`: division by two, `ASR (ADD x (LSR x 31)) 1`. -/
def armSDiv2 (x : BitVec 32) : BitVec 32 := (x + x >>> 31).sshiftRight 1

/-- `ARM.yml:697-717`: division by `2^shift`. -/
def armSDivPow2 (x : BitVec 32) (shift : ℕ) : BitVec 32 :=
  (x + (x.sshiftRight 31) >>> (32 - shift)).sshiftRight shift

/-- The register form of `LSR` and `ASR` on ARM uses the low byte of the shift register; a shift by
32 or more gives zero (or the sign). -/
def armLsr (x s : BitVec 32) : BitVec 32 := x >>> (s.toNat % 256)
def armAsr (x s : BitVec 32) : BitVec 32 := x.sshiftRight (s.toNat % 256)

/-- `ARM.yml:719-745`: division by a register known to be `1 << shift`. -/
def armSDivShl (x shift : BitVec 32) : BitVec 32 :=
  armAsr (x + armLsr (x.sshiftRight 31) (32 - shift)) shift

/-- `ARM.yml:817-837`: the remainder by a power of two, `SUB x (LSL (x / rhs) shift)`. -/
def armSRemPow2 (x q : BitVec 32) (shift : ℕ) : BitVec 32 := x - q <<< shift

/-- `ARM.yml:839-863`: the remainder by another constant. -/
def armSRemConst (x q : BitVec 32) (d : ℤ) : BitVec 32 := x - q * BitVec.ofInt 32 d

end Cmmc.Isel
