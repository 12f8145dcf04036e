/-!
# Elements as numpy arrays

`algebra_to_array` (`roughpy/src/args/numpy.h:64-94`), which `__array__` of Lie elements, free tensors and
shuffle tensors calls (`roughpy/src/algebra/setup_algebra_type.h:229-233`), with the functions of
`roughpy/src/args/numpy.cpp` that it uses.

The coefficients are of any type `K`.  Copying coefficients of the same type is exact (C119).
-/

namespace RoughPy.Numpy

/-- `devices::TypeCode` (`platform/include/roughpy/platform/devices/core.h:214-237`) -/
inductive Code where
  | int | uint | float | opaqueHandle | bFloat | complex | bool | rational
  | apInt | apUInt | apFloat | apComplex | apRational | apRationalPolynomial
  deriving DecidableEq, Repr

/-- `devices::TypeInfo` (`core.h:251-256`) without alignment and lanes -/
structure Info where
  code : Code
  bytes : Nat
  deriving DecidableEq, Repr

/-- the types of numpy arrays that are made -/
inductive Npy where
  | int (bits : Nat)
  | uint (bits : Nat)
  | float (bits : Nat)
  | object
  deriving DecidableEq, Repr

/-- `info_to_typenum` (`numpy.cpp:94-140`); `none` is the exception. -/
def typenum (i : Info) : Option Npy :=
  match i.code with
  | .int =>
    match i.bytes with
    | 1 => some (.int 8)
    | 2 => some (.int 16)
    | 4 => some (.int 32)
    | 8 => some (.int 64)
    | _ => none
  | .uint =>
    match i.bytes with
    | 1 => some (.uint 8)
    | 2 => some (.uint 16)
    | 4 => some (.uint 32)
    | 8 => some (.uint 64)
    | _ => none
  | .float =>
    match i.bytes with
    | 2 => some (.float 16)
    | 4 => some (.float 32)
    | 8 => some (.float 64)
    | _ => none
  | .opaqueHandle | .bFloat | .complex | .bool => none
  | .rational | .apInt | .apUInt | .apFloat | .apComplex | .apRational | .apRationalPolynomial => some .object

/-- `traits::is_fundamental` (`scalars/include/roughpy/scalars/traits.h:47-66`) -/
def isFundamental (i : Info) : Bool :=
  match i.code with
  | .int | .uint | .float | .bFloat | .bool => true
  | _ => false

/-- An entry of an array: a number in the array, or a Python object, which is `None` or holds a coefficient. -/
inductive Cell (K : Type) where
  | num (k : K)
  | pyNone
  | obj (k : K)
  deriving DecidableEq, Repr

/-- an array with one axis -/
structure NpArray (K : Type) where
  type : Npy
  cells : List (Cell K)
  deriving DecidableEq, Repr

/-- How a call ends.  Undefined behaviour is a result of its own. -/
inductive Res (α : Type) where
  | ok (a : α)
  | throws
  | undefined
  deriving DecidableEq, Repr

variable {K : Type} [Zero K]

/-- `new_zero_array_for_stype` (`numpy.cpp:293-312`) -/
def newZeroArray (i : Info) (dim : Nat) : Res (NpArray K) :=
  match typenum i with
  | none => .throws
  | some .object => .ok ⟨.object, List.replicate dim .pyNone⟩
  | some t => .ok ⟨t, List.replicate dim (.num 0)⟩

/-- entries written from the start of an array: `scalar_convert_copy` (`numpy.cpp:242-248`) and the loops of
`write_type_as_py_object` (`numpy.cpp:203-225`); beyond the end is undefined. -/
def writeCells (cells : List (Cell K)) (new : List (Cell K)) : Option (List (Cell K)) :=
  if new.length ≤ cells.length then some (new ++ cells.drop new.length) else none

/-- `dense_data_to_array` (`numpy.cpp:229-291`).  The assertion that the data fits is for debug builds only. -/
def denseToArray (i : Info) (data : List K) (dim : Nat) : Res (NpArray K) :=
  match newZeroArray (K := K) i dim with
  | .throws => .throws
  | .undefined => .undefined
  | .ok a =>
    if isFundamental i then
      match writeCells a.cells (data.map .num) with
      | some c => .ok ⟨a.type, c⟩
      | none => .undefined
    else
      match i.code with
      | .apRational | .apRationalPolynomial =>
        match writeCells (a.cells.map fun _ => .pyNone) (data.map .obj) with
        | some c => .ok ⟨a.type, c⟩
        | none => .undefined
      | _ => .throws

/-- `write_entry_to_array` (`numpy.cpp:314-319`): the body is empty. -/
def writeEntry (a : NpArray K) (_index : Nat) (_value : K) : NpArray K := a

/-- An element: a handle that is not set, coefficients from the first key on, or coefficients with the
positions of their keys in the basis (`key_to_index`, C124). -/
inductive Element (K : Type) where
  | unset
  | dense (i : Info) (data : List K)
  | sparse (i : Info) (items : List (Nat × K))

/-- `algebra_to_array` (`numpy.h:64-94`); `dim` is the dimension of the basis.  A null type is dereferenced for
a handle that is not set (`:76`, `ctype_to_npy_dtype`).  `py::array` with a pointer and no base object copies. -/
def toArray (e : Element K) (dim : Nat) (copy : Bool) : Res (NpArray K) :=
  match e with
  | .unset => .undefined
  | .dense i data =>
    match typenum i with
    | none => .throws
    | some t =>
      if !(copy || decide (t = .object)) && data.length == dim then .ok ⟨t, data.map .num⟩
      else denseToArray i data dim
  | .sparse i items =>
    match typenum i with
    | none => .throws
    | some _ =>
      match newZeroArray (K := K) i dim with
      | .ok a => .ok (items.foldl (fun a x => writeEntry a x.1 x.2) a)
      | .throws => .throws
      | .undefined => .undefined

end RoughPy.Numpy
