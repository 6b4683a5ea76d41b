/-!
# Model of type layout (cmmc/IR/Type.cpp) and of address computation by `getelementptr` (cmmc/IR/Instruction.cpp:590-631)

Sizes are natural numbers (`size_t` overflow of gigantic types is not modelled). `void`, function and invalid types have no layout
in the code (`reportUnreachable` / size 0) and are left out. Struct types are their field lists; field names only select an index.
-/
namespace Cmmc.Layout

/-- scalar types: integers by bit width (Type.cpp:95-114), floats, pointers -/
inductive Scalar
  | int (bits : Nat)
  | f32
  | f64
  | ptr
deriving DecidableEq, Repr

mutual
inductive Ty
  | scalar (s : Scalar)
  | arr (count : Nat) (elem : Ty)
  | struct (fields : Fields)
inductive Fields
  | nil
  | cons (t : Ty) (rest : Fields)
end

/-- `DataLayout` (CodeGen/DataLayout.hpp:24-33) -/
structure DL where
  ptrSize : Nat
  builtinAlign : Scalar → Nat

/-- scalar `getSize` (Type.cpp:67-69, 79-81, 115-117, 131-133, 137-139) -/
def Scalar.size (d : DL) : Scalar → Nat
  | .int b => b / 8 + (if b % 8 ≠ 0 then 1 else 0)
  | .f32 => 4
  | .f64 => 8
  | .ptr => d.ptrSize

/-- `((offset + alignment - 1) / alignment) * alignment` -/
def roundUp (x a : Nat) : Nat := (x + a - 1) / a * a

mutual
/-- `getAlignment` (Type.cpp:70-72, 118-120, 140-142, 208-213, 279-281) -/
def Ty.align (d : DL) : Ty → Nat
  | .scalar s => d.builtinAlign s
  | .arr _ t => t.align d
  | .struct fs => fs.maxAlign d 1
/-- the loop in `StructType::getAlignment` (Type.cpp:209-212) -/
def Fields.maxAlign (d : DL) : Fields → Nat → Nat
  | .nil, m => m
  | .cons t fs, m => fs.maxAlign d (max m (t.align d))
end

mutual
/-- `getSize` (Type.cpp:115-117, 137-139, 199-207, 274-278) -/
def Ty.size (d : DL) : Ty → Nat
  | .scalar s => s.size d
  | .arr n t => roundUp (t.size d) (t.align d) * n
  | .struct fs => fs.sizeFrom d 0
/-- the loop in `StructType::getSize` (Type.cpp:200-206) -/
def Fields.sizeFrom (d : DL) : Fields → Nat → Nat
  | .nil, off => off
  | .cons t fs, off => fs.sizeFrom d (roundUp off (t.align d) + t.size d)
end

/-- the loop in `StructType::getFieldOffset` (Type.cpp:243-257); `none` is `reportUnreachable` -/
def Fields.offsetFrom (d : DL) : Fields → Nat → Nat → Option Nat
  | .nil, _, _ => none
  | .cons t fs, off, i =>
    match i with
    | 0 => some (roundUp off (t.align d))
    | i + 1 => fs.offsetFrom d (roundUp off (t.align d) + t.size d) i

/-- `StructType::getFieldOffset` (Type.cpp:240-258) -/
def fieldOffset (d : DL) (fs : Fields) (i : Nat) : Option Nat := fs.offsetFrom d 0 i

/-- `StructType::getFieldType` (Type.cpp:234-239) -/
def Fields.get : Fields → Nat → Option Ty
  | .nil, _ => none
  | .cons t _, 0 => some t
  | .cons _ fs, i + 1 => fs.get i

/-- `ArrayType::getScalarCount` (Type.cpp:282-286), without the `uint32_t` wrap-around -/
def Ty.scalarCount : Ty → Nat
  | .arr n (.arr m t) => n * (Ty.arr m t).scalarCount
  | .arr n _ => n
  | _ => 1

/-- `ArrayType::getScalarType` (Type.cpp:287-291) -/
def Ty.scalarType : Ty → Ty
  | .arr _ (.arr m t) => (Ty.arr m t).scalarType
  | .arr _ t => t
  | t => t

/-! ## getelementptr -/

/-- an index operand of a `getelementptr`: a constant integer, an undefined constant, a run-time value, or a struct field -/
inductive Idx
  | const (v : Int)
  | undef
  | var (x : Nat)
  | field (i : Nat)

/-- `gatherOffsets` (Instruction.cpp:590-631) after the first step: `cur` is the current type; returns the constant offset and the
scaled variables. `none`: fatal error. -/
def gather (d : DL) (cur : Ty) : List Idx → Option (Int × List (Nat × Nat))
  | [] => some (0, [])
  | i :: is =>
    match i, cur with
    | .const v, .arr _ t => (gather d t is).map fun r => (t.size d * v + r.1, r.2)
    | .undef, .arr _ t => gather d t is
    | .var x, .arr _ t => (gather d t is).map fun r => (r.1, (t.size d, x) :: r.2)
    | .field k, .struct fs =>
      match fieldOffset d fs k, fs.get k with
      | some o, some t => (gather d t is).map fun r => (o + r.1, r.2)
      | _, _ => none
    | _, _ => none

/-- `gatherOffsets` (Instruction.cpp:590-631): the first index steps over the pointee of the base pointer -/
def gatherOffsets (d : DL) (pointee : Ty) : List Idx → Option (Int × List (Nat × Nat))
  | [] => some (0, [])
  | .const v :: is => (gather d pointee is).map fun r => (pointee.size d * v + r.1, r.2)
  | .undef :: is => gather d pointee is
  | .var x :: is => (gather d pointee is).map fun r => (r.1, (pointee.size d, x) :: r.2)
  | .field _ :: _ => none

end Cmmc.Layout
