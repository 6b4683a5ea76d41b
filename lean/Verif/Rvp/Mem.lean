import Verif.Rvp.Peep

/-!
# Two word accesses made one double word access

Models of `foldStoreZero`, `earlyFoldStore` and `earlyFoldLoad` (`cmmc/Target/RISCV/RISCVScheduleModel.cpp:502-703`), on the
instructions of one block.  The iterator to the previous access is shown as that access and the instructions after it.
-/

namespace Cmmc.Rvp

open Cmmc.Isel

/-- `addressMap` (`RISCVScheduleModel.cpp:563, 574`): the registers that hold the address of a symbol.  `emplace` keeps an
entry that is there. -/
def noteLa (M : R → Option ℕ) : PI → R → Option ℕ
  | .la d k => fun q => if q = d then some ((M d).getD k) else M q
  | _ => M

/-- The second address is four bytes after the first (`RISCVScheduleModel.cpp:592-612`). -/
def adjacent (M : R → Option ℕ) : Ad → Ad → Bool
  | .reg r o, .reg r' o' => r = r' && o + 4 = o'
  | .stk n o, .stk n' o' => n = n' && o + 4 = o'
  | .sym k, .reg r' o' => M r' = some k && o' = 4
  | _, _ => false

/-- `earlyFoldStore` (`RISCVScheduleModel.cpp:560-630`).  `prev` is the previous word store, `mid` the instructions since; `n` is
the next virtual register. -/
def foldStore (M : R → Option ℕ) (n : ℕ) : Option (R × Ad × ℕ) → List PI → List PI → List PI
  | none, mid, [] => mid
  | some (x, a, al), mid, [] => .store .w x a al :: mid
  | none, mid, .store .w x a al :: is => mid ++ foldStore M n (some (x, a, al)) [] is
  | some (x1, a1, al1), mid, .store .w x a al :: is =>
    if 8 ≤ al1 ∧ 4 ≤ al ∧ adjacent M a1 a then
      mid ++ [.opI .sll (.v n) x 32, .op2 .addUw (.v (n + 1)) x1 (.v n), .store .d (.v (n + 1)) a1 al1] ++
        foldStore M (n + 2) none [] is
    else .store .w x1 a1 al1 :: mid ++ foldStore M n (some (x, a, al)) [] is
  | none, mid, i :: is => mid ++ i :: foldStore (noteLa M i) n none [] is
  | some (x, a, al), mid, i :: is =>
    if i.side then .store .w x a al :: mid ++ i :: foldStore (noteLa M i) n none [] is
    else foldStore (noteLa M i) n (some (x, a, al)) (mid ++ [i]) is

def earlyFoldStore (n : ℕ) (is : List PI) : List PI := foldStore (fun _ => none) n none [] is

/-- `earlyFoldLoad` (`RISCVScheduleModel.cpp:632-703`). -/
def foldLoad (M : R → Option ℕ) (n : ℕ) : Option (R × Ad × ℕ) → List PI → List PI → List PI
  | none, mid, [] => mid
  | some (d, a, al), mid, [] => .load true .w d a al :: mid
  | none, mid, .load true .w d a al :: is => mid ++ foldLoad M n (some (d, a, al)) [] is
  | some (d1, a1, al1), mid, .load true .w d a al :: is =>
    if 8 ≤ al1 ∧ 4 ≤ al ∧ adjacent M a1 a then
      .load true .d (.v n) a1 al1 :: .op1 .sextW d1 (.v n) :: mid ++ .opI .sra d (.v n) 32 ::
        foldLoad M (n + 1) none [] is
    else .load true .w d1 a1 al1 :: mid ++ foldLoad M n (some (d, a, al)) [] is
  | none, mid, i :: is => mid ++ i :: foldLoad (noteLa M i) n none [] is
  | some (d, a, al), mid, i :: is =>
    if i.side then .load true .w d a al :: mid ++ i :: foldLoad (noteLa M i) n none [] is
    else foldLoad (noteLa M i) n (some (d, a, al)) (mid ++ [i]) is

def earlyFoldLoad (n : ℕ) (is : List PI) : List PI := foldLoad (fun _ => none) n none [] is

/-- `isStoreZero` (`RISCVScheduleModel.cpp:506-517`); `so` are the offsets of the stack objects.  C++'s `%` truncates. -/
def isStoreZero (so : ℕ → ℤ) (x : R) (a : Ad) (al : ℕ) (offset : ℤ) : Bool :=
  x = .x0 && match a with
    | .stk n off => (so n + off).tmod 8 = offset
    | _ => if offset = 0 then decide (8 ≤ al) else al = 4

/-- The condition of `foldStoreZero` on the addresses (`RISCVScheduleModel.cpp:536-545`): none if both are stack objects. -/
def zeroAdjacent : Ad → Ad → Bool
  | .stk _ _, .stk _ _ => true
  | .reg r o, .reg r' o' => r = r' && o + 4 = o'
  | _, _ => false

/-- `foldStoreZero` (`RISCVScheduleModel.cpp:502-558`).  Simplification: an address relative to a symbol, whose offset is not
an immediate, is not folded. -/
def foldZero (so : ℕ → ℤ) : Option (R × Ad × ℕ) → List PI → List PI → List PI
  | none, mid, [] => mid
  | some (x, a, al), mid, [] => .store .w x a al :: mid
  | none, mid, .store .w x a al :: is => mid ++ foldZero so (some (x, a, al)) [] is
  | some (x1, a1, al1), mid, .store .w x a al :: is =>
    if isStoreZero so x1 a1 al1 0 ∧ isStoreZero so x a al 4 ∧ zeroAdjacent a1 a then
      mid ++ .store .d x a1 al1 :: foldZero so none [] is
    else .store .w x1 a1 al1 :: mid ++ foldZero so (some (x, a, al)) [] is
  | none, mid, i :: is => mid ++ i :: foldZero so none [] is
  | some (x, a, al), mid, i :: is =>
    if i.side then .store .w x a al :: mid ++ i :: foldZero so none [] is
    else foldZero so (some (x, a, al)) (mid ++ [i]) is

def foldStoreZero (so : ℕ → ℤ) (is : List PI) : List PI := foldZero so none [] is

end Cmmc.Rvp
