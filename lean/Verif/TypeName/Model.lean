import Mathlib.Data.Nat.Notation

/-!
# Finding a scalar type by its name

Models `get_type`, `parse_id_to_type_info` and `parse_byted_type` (`scalars/src/scalar_type.cpp:152-207`),
`next_power_2` on bytes (`core/include/roughpy/core/helpers.hpp:105-112`), `scalar_type_of` of a type info
(`scalars/src/scalar_type_of.cpp:24-31`, `scalars/src/scalar/do_macro.h:35-74`,
`scalars/include/roughpy/scalars/scalars_fwd.h:59-100`) and the `dtype` argument of signatures given as a
string (`roughpy/src/streams/signature_arguments.cpp:192-208`).

Names are lists of characters. All their characters are ASCII.
-/

namespace RoughPy.TypeName

/-- The scalar types -/
inductive Kind | half | single | double | bfloat | rational | poly
deriving DecidableEq, Repr

/-- What `get_type` does: it gives a type or an empty `optional`, throws, or has undefined behaviour. -/
inductive Res
  | found (t : Kind)
  | absent
  | error
  | undefined
deriving DecidableEq, Repr

/-- The ids of the types with their own name (`scalars/src/types/aprational/ap_rational_type.cpp:20-22`,
`scalars/src/types/apratpoly/ap_rat_poly_type.cpp:32-33`) -/
def idOfRational : List Char := ['R', 'a', 't', 'i', 'o', 'n', 'a', 'l']
def idOfPoly : List Char := ['R', 'a', 't', 'i', 'o', 'n', 'a', 'l', 'P', 'o', 'l', 'y']

def isDigit (c : Char) : Bool := 48 ≤ c.toNat && c.toNat ≤ 57

/-- The number read so far and the characters to come -/
def digitsValue : ℕ → List Char → ℕ
  | acc, [] => acc
  | acc, c :: cs => if isDigit c then digitsValue (10 * acc + (c.toNat - 48)) cs else acc

/-- `std::from_chars` into a 64-bit number: reads the digits at the front and ignores the rest; fails without
a digit and if the number is too large. -/
def fromChars : List Char → Option ℕ
  | [] => none
  | c :: cs =>
    if isDigit c then
      let n := digitsValue 0 (c :: cs)
      if n < 2 ^ 64 then some n else none
    else none

/-- `devices::TypeCode`, the ones this code makes -/
inductive Code | int | uint | float | complex | bfloat
deriving DecidableEq, Repr

/-- A type info, none at all, or undefined behaviour -/
inductive Parsed
  | info (code : Code) (bytes : ℕ)
  | nothing
  | undefined
deriving DecidableEq, Repr

/-- `parse_byted_type` (`scalar_type.cpp:153-167`). The number of bytes is cut to 8 bits. `next_power_2` on
8-bit numbers never ends for more than 128: the power goes from 128 to 0. The alignment it gives is left
out, nothing reads it here. -/
def parseByted (cs : List Char) (code : Code) : Parsed :=
  match fromChars cs with
  | none => .nothing
  | some bits =>
    let bytes := bits / 8 % 256
    if 128 < bytes then .undefined else .info code bytes

/-- `parse_id_to_type_info` (`scalar_type.cpp:169-188`). For a name that begins with `b` the code looks at
the third character, which a name of two characters does not have. -/
def parseId : List Char → Parsed
  | 'i' :: cs => parseByted cs .int
  | 'u' :: cs => parseByted cs .uint
  | 'f' :: cs => parseByted cs .float
  | 'c' :: cs => parseByted cs .complex
  | ['b', _] => .undefined
  | 'b' :: _ :: 'f' :: cs => parseByted ('f' :: cs) .bfloat
  | _ => .nothing

/-- `scalar_type_of` (`scalar_type_of.cpp:24-31`): there is no scalar type for integers, and other sizes and
codes throw. -/
def scalarTypeOf : Code → ℕ → Res
  | .int, n => if n = 1 ∨ n = 2 ∨ n = 4 ∨ n = 8 then .absent else .error
  | .uint, n => if n = 1 ∨ n = 2 ∨ n = 4 ∨ n = 8 then .absent else .error
  | .float, n =>
    if n = 2 then .found .half else if n = 4 then .found .single else if n = 8 then .found .double
    else .error
  | .bfloat, n => if n = 2 then .found .bfloat else .error
  | .complex, _ => .error

/-- `get_type` (`scalar_type.cpp:191-207`) -/
def getType (id : List Char) : Res :=
  if id = [] then .absent
  else
    match parseId id with
    | .info code bytes => scalarTypeOf code bytes
    | .undefined => .undefined
    | .nothing =>
      if id = idOfRational then .found .rational
      else if id = idOfPoly then .found .poly
      else .absent

/-- A string given as the `dtype` of a signature (`signature_arguments.cpp:197-208`): raises if the type was
found, else dereferences the empty `optional`. -/
def signatureDtype (id : List Char) : Res :=
  match getType id with
  | .found _ => .error
  | .absent => .undefined
  | r => r

end RoughPy.TypeName
