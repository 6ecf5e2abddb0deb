/-!
# Model of the integer types and their reductions (`src/type.c`)

Values of the integer types are bit vectors (two's complement).  Overflow of
`+` and `*` on `int32_t` and `int64_t` is undefined behaviour (`none`); on
`signed char` both operands are promoted to `int`, and the conversion back wraps
around (implementation defined; all supported compilers).
-/

namespace Laik.Ty

/-- The reduction operations with a meaning for integer types,
include/laik/space.h 101-109. -/
inductive Op where
  | sum | prod | min | max | and | or
  deriving DecidableEq, Repr

/-- The integer types, src/type.c 45-50. -/
inductive IType where
  | char | uchar | int32 | uint32 | int64 | uint64
  deriving DecidableEq, Repr

/-- Size in bytes, src/type.c 680-696. -/
def IType.bytes : IType → Nat
  | .char => 1 | .uchar => 1 | .int32 => 4 | .uint32 => 4 | .int64 => 8 | .uint64 => 8

def IType.width (t : IType) : Nat := 8 * t.bytes

def IType.signed : IType → Bool
  | .char => true | .int32 => true | .int64 => true | _ => false

/-- Is overflow undefined? -/
def IType.ub : IType → Bool
  | .int32 => true | .int64 => true | _ => false

abbrev Val (t : IType) := BitVec t.width

/-- The value written by `laik_char_init` (src/type.c 57-73), `laik_uchar_init`
(133-149), `laik_int32_init` (208-224), `laik_uint32_init` (283-299),
`laik_int64_init` (358-374), `laik_uint64_init` (433-449). -/
def initVal (t : IType) : Op → Val t
  | .sum => 0
  | .or => 0
  | .prod => 1
  | .and => BitVec.allOnes t.width
  | .min => if t.signed then BitVec.intMin t.width else 0
  | .max => if t.signed then BitVec.intMax t.width else BitVec.allOnes t.width

/-- `x < y` in the type. -/
def lt (t : IType) (x y : Val t) : Bool := if t.signed then x.slt y else x.ult y

/-- One element of `laik_char_reduce` (src/type.c 94-128), `laik_uchar_reduce`
(169-203), `laik_int32_reduce` (244-278), `laik_uint32_reduce` (319-353),
`laik_int64_reduce` (394-428), `laik_uint64_reduce` (469-503). -/
def red1 (t : IType) (o : Op) (x y : Val t) : Option (Val t) :=
  match o with
  | .sum => if t.ub && BitVec.saddOverflow x y then none else some (x + y)
  | .prod => if t.ub && BitVec.smulOverflow x y then none else some (x * y)
  | .or => some (x ||| y)
  | .and => some (x &&& y)
  | .min => some (if lt t x y then x else y)
  | .max => some (if lt t y x then x else y)

/-- The element loop of the reduce functions with both inputs present, on
memory in units of elements: `pout[i] = pin1[i] op pin2[i]` for `i, i+1, …`
(`n` elements left). -/
def redLoop (t : IType) (o : Op) (out in1 in2 : Int) :
    Nat → Int → (Int → Val t) → Option (Int → Val t)
  | 0, _, mem => some mem
  | n + 1, i, mem =>
    match red1 t o (mem (in1 + i)) (mem (in2 + i)) with
    | none => none
    | some v => redLoop t o out in1 in2 n (i + 1) (fun a => if a = out + i then v else mem a)

/-- The loop of the init functions. -/
def initLoop (t : IType) (o : Op) (base : Int) : Nat → Int → (Int → Val t) → (Int → Val t)
  | 0, _, mem => mem
  | n + 1, i, mem => initLoop t o base n (i + 1) (fun a => if a = base + i then initVal t o else mem a)

/-- Byte `j` of a value in memory (little endian). -/
def byteOf (t : IType) (v : Val t) (j : Nat) : BitVec 8 := v.extractLsb' (8 * j) 8

/-- The byte written by `laik_char_init`. -/
def initByte (o : Op) : BitVec 8 := initVal .char o

/-- The reduce functions without any input, on memory in bytes: all of them
call `laik_char_init(out, count, o)` (src/type.c 87, 162, 237, 312, 387, 462),
which writes `count` bytes. -/
def redNoInput (o : Op) (count : Nat) (out : Int) (mem : Int → BitVec 8) : Int → BitVec 8 :=
  fun a => if out ≤ a ∧ a < out + count then initByte o else mem a

/-- The reduce functions with one input: `memcpy` of `count` elements, in
units of elements (disjoint or identical source and destination). -/
def redOneInput {V : Type} (out inp : Int) (count : Nat) (mem : Int → V) : Int → V :=
  fun a => if out ≤ a ∧ a < out + count then mem (inp + (a - out)) else mem a

/-- Result of the MPI operation chosen by `getMPIOp`, src/backend-mpi.c 456-470,
on one element of an integer type: `MPI_SUM`, `MPI_PROD`, `MPI_MIN`, `MPI_MAX`,
and the logical `MPI_LAND`, `MPI_LOR` (MPI standard; overflow as in C). -/
def mpiRed1 (t : IType) (o : Op) (x y : Val t) : Option (Val t) :=
  match o with
  | .and => some (if x ≠ 0 ∧ y ≠ 0 then 1 else 0)
  | .or => some (if x ≠ 0 ∨ y ≠ 0 then 1 else 0)
  | o => red1 t o x y

/-! ### Floating point: law-free -/

/-- Doubles / floats as a type with arbitrary operations; `maxv` is
`DBL_MAX`/`FLT_MAX`. -/
structure FloatOps (F : Type) where
  add : F → F → F
  mul : F → F → F
  neg : F → F
  lt : F → F → Bool
  zero : F
  one : F
  maxv : F

/-- `laik_double_init`, src/type.c 508-522, `laik_float_init`, 571-585; `none`:
failed assert. -/
def fInit {F : Type} (f : FloatOps F) : Op → Option F
  | .sum => some f.zero
  | .prod => some f.one
  | .min => some (f.neg f.maxv)
  | .max => some f.maxv
  | _ => none

/-- One element of `laik_double_reduce`, src/type.c 542-566, and
`laik_float_reduce`, 605-629. -/
def fRed1 {F : Type} (f : FloatOps F) (o : Op) (x y : F) : Option F :=
  match o with
  | .sum => some (f.add x y)
  | .prod => some (f.mul x y)
  | .min => some (if f.lt x y then x else y)
  | .max => some (if f.lt y x then x else y)
  | _ => none

end Laik.Ty
