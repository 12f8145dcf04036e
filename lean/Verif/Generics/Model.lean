import Mathlib.Data.Rat.Floor
import Mathlib.Data.Nat.Bitwise

/-!
# Generic values of the built-in number types

`/repo/platform/src/generics`: conversions between the built-in types (`builtin_types/conversion_helpers.h`),
the tables that find them (`conversion_impl.h`, `builtin_types/builtin_type_methods.h`), values
(`value.cpp`), their arithmetic (`value_arithmetic.cpp`) and comparison (`value_compare.cpp`).

Simplifications: the object representation is little-endian and two's complement; conversions to signed
types wrap around, as all compilers do; the two zeros of a floating-point type are one; reading an object
through a pointer to another type has the effect of reading its bytes, although the language leaves it
undefined.  The hashes of the ten type names are assumed to differ.
-/

namespace RoughPy.Generics

/-! ## Types and numbers -/

/-- `BuiltinTypesList` (`platform/include/roughpy/generics/type_ptr.h:25-36`) -/
inductive Ty where
  | i8 | u8 | i16 | u16 | i32 | u32 | i64 | u64 | f32 | f64
  deriving DecidableEq, Repr

namespace Ty

/-- `is_integral_v` -/
def isInt : Ty → Bool
  | f32 | f64 => false
  | _ => true

/-- `is_signed_v` -/
def isSigned : Ty → Bool
  | u8 | u16 | u32 | u64 => false
  | _ => true

/-- `sizeof` -/
def size : Ty → ℕ
  | i8 | u8 => 1
  | i16 | u16 => 2
  | i32 | u32 | f32 => 4
  | i64 | u64 | f64 => 8

/-- `std::numeric_limits<T>::digits` -/
def digits : Ty → ℕ
  | f32 => 24
  | f64 => 53
  | t => if t.isSigned then 8 * t.size - 1 else 8 * t.size

/-- `std::numeric_limits<T>::min()` of an integer type -/
def lo (t : Ty) : ℤ := if t.isSigned then -2 ^ t.digits else 0

/-- `std::numeric_limits<T>::max()` of an integer type -/
def hi (t : Ty) : ℤ := 2 ^ t.digits - 1

/-- the order of `BuiltinTypesList` -/
def list : List Ty := [i8, u8, i16, u16, i32, u32, i64, u64, f32, f64]

end Ty

/-- floating-point numbers -/
inductive Flt where
  | fin (q : ℚ)
  | inf (neg : Bool)
  | nan
  deriving DecidableEq

/-- an object of one of the types -/
inductive Num where
  | int (n : ℤ)
  | flt (x : Flt)
  deriving DecidableEq

/-- The arithmetic operations (`ArithmeticOperation`). -/
inductive Op where
  | add | sub | mul | div
  deriving DecidableEq

/-- The parts that the machine or the compiler decides: rounding of a number to a floating-point type,
operations on floating-point numbers, their representation, and what comes out of the conversion of the
largest floating-point number to an integer type, which the language leaves undefined. -/
structure Env where
  round : Ty → ℚ → Flt
  op : Op → Ty → Flt → Flt → Flt
  enc : Ty → Flt → ℕ
  dec : Ty → ℕ → Flt
  maxTo : Ty → Ty → ℤ

/-! ## Conversion -/

/-- what a conversion helper reports (`conversion_trait.h:125-130`); with `Inexact` the destination may
have been written already; the last case is a cast that the language leaves undefined -/
inductive Conv where
  | success (v : Num)
  | inexact (written : Option Num)
  | failed
  | undefined
  deriving DecidableEq

/-- `static_cast` of an integer to an integer type -/
def wrap (t : Ty) (n : ℤ) : ℤ :=
  let u := n % 2 ^ (8 * t.size)
  if t.isSigned && decide (2 ^ t.digits ≤ u) then u - 2 ^ (8 * t.size) else u

/-- `compare_less_equal` of integers of the two types
(`core/include/roughpy/core/check_helpers.hpp:49-60`) -/
def compareLessEqual (t u : Ty) (x y : ℤ) : Bool :=
  if t.isSigned = u.isSigned then decide (x ≤ y)
  else if t.isSigned then decide (x < 0) || decide (x % 2 ^ (8 * t.size) ≤ y)
  else decide (0 ≤ y) && decide (x ≤ y % 2 ^ (8 * u.size))

/-- `check_fits_in_to_type` (`conversion_helpers.h:33-37`) -/
def checkFits (src dst : Ty) (n : ℤ) : Bool :=
  compareLessEqual dst src dst.lo n && compareLessEqual src dst n dst.hi

/-- `is_always_exact` of the four helpers (`conversion_helpers.h:30-31, 61, 83-84, 114`) -/
def isAlwaysExact (src dst : Ty) : Bool :=
  match src.isInt, dst.isInt with
  | true, true => src.isSigned == dst.isSigned && decide (dst.size ≤ src.size)
  | false, false => decide (src.size ≤ dst.size)
  | true, false => decide (src.digits ≤ dst.digits)
  | false, true => false

/-- integer to integer (`conversion_helpers.h:39-48`) -/
def intToInt (src dst : Ty) (n : ℤ) (exact : Bool) : Conv :=
  if !isAlwaysExact src dst && exact && !checkFits src dst n then .inexact none
  else .success (.int (wrap dst n))

/-- `static_cast` to a floating-point type -/
def Env.toFlt (E : Env) (t : Ty) : Flt → Flt
  | .fin q => E.round t q
  | x => x

/-- `!=` of floating-point numbers: a NaN differs from everything -/
def fltNe (x y : Flt) : Bool := decide (x = .nan) || decide (x ≠ y)

/-- floating-point to floating-point (`conversion_helpers.h:63-72`) -/
def fltToFlt (E : Env) (src dst : Ty) (x : Flt) (exact : Bool) : Conv :=
  let y := E.toFlt dst x
  if !isAlwaysExact src dst && exact && fltNe (E.toFlt src y) x then .inexact (some (.flt y))
  else .success (.flt y)

/-- integer to floating-point (`conversion_helpers.h:86-101`) -/
def intToFlt (E : Env) (src dst : Ty) (n : ℤ) (exact : Bool) : Conv :=
  if decide (dst.digits < src.digits) && exact &&
      (decide (2 ^ dst.digits < n) || (src.isSigned && decide (n < -2 ^ dst.digits))) then .inexact none
  else .success (.flt (E.round dst n))

/-- truncation towards zero, as `std::modf` and `static_cast` do -/
def trunc (q : ℚ) : ℤ := if 0 ≤ q then ⌊q⌋ else ⌈q⌉

/-- `static_cast` of a floating-point number to an integer type: undefined if the integral part does not
fit -/
def castToInt (dst : Ty) : Flt → Conv
  | .fin q => if dst.lo ≤ trunc q ∧ trunc q ≤ dst.hi then .success (.int (trunc q)) else .undefined
  | _ => .undefined

/-- The range check of the conversion from floating-point to integer (`conversion_helpers.h:121-129`).
`to_min` is the smallest positive number, converted: zero.  A NaN compares as false.  Comparisons are exact here, while
the code converts the bounds to floating-point first. -/
def rangeFails (E : Env) (src dst : Ty) : Flt → Bool
  | .fin q => decide (0 < trunc q) || decide (E.maxTo src dst < trunc q)
  | .inf neg => !neg
  | .nan => false

/-- the fractional part differs from zero (`std::modf`); that of a NaN is a NaN -/
def hasFraction : Flt → Bool
  | .fin q => decide (q ≠ trunc q)
  | .inf _ => false
  | .nan => true

/-- floating-point to integer (`conversion_helpers.h:116-137`) -/
def fltToInt (E : Env) (src dst : Ty) (x : Flt) (exact : Bool) : Conv :=
  if decide (src.digits < dst.digits) && rangeFails E src dst x then .failed
  else if exact && hasFraction x then .inexact none
  else castToInt dst x

/-- `ConversionHelper<From, To>::convert` -/
def convert (E : Env) (src dst : Ty) (v : Num) (exact : Bool) : Conv :=
  match v, src.isInt, dst.isInt with
  | .int n, true, true => intToInt src dst n exact
  | .int n, true, false => intToFlt E src dst n exact
  | .flt x, false, false => fltToFlt E src dst x exact
  | .flt x, false, true => fltToInt E src dst x exact
  | _, _, _ => .undefined

/-! ## Finding a conversion -/

/-- A `ConversionTraitImpl<From, To>` and the types it was made with. -/
structure Trait where
  src : Ty
  dst : Ty
  srcType : Ty
  dstType : Ty
  deriving DecidableEq

/-- `build_conversion_from_table` (`conversion_impl.h:64-79`): the entries with their template arguments,
by the type they are found under -/
def buildFromTable (t : Ty) : List Ty → List (Ty × Ty × Ty)
  | [] => []
  | u :: us => if t ≠ u then (u, t, u) :: buildFromTable t us else buildFromTable t us

/-- `build_conversion_to_table` (`conversion_impl.h:83-98`): after the first type it goes on with the
other function -/
def buildToTable (t : Ty) : List Ty → List (Ty × Ty × Ty)
  | [] => []
  | u :: us => if u ≠ t then (u, u, t) :: buildFromTable t us else buildFromTable t us

/-- `BuiltinTypeBase<T>::convert_to` (`builtin_type_methods.h:152-169`) -/
def convertTo (this type : Ty) : Option Trait :=
  if type = this then some ⟨this, this, this, type⟩
  else ((buildToTable this Ty.list).lookup type).map fun p => ⟨p.1, p.2, type, this⟩

/-- `BuiltinTypeBase<T>::convert_from` (`builtin_type_methods.h:171-188`) -/
def convertFrom (this type : Ty) : Option Trait :=
  if type = this then some ⟨this, this, type, this⟩
  else ((buildFromTable this Ty.list).lookup type).map fun p => ⟨p.1, p.2, this, type⟩

/-- `is_exact` (`conversion_trait.h:180-183`) -/
def Trait.isExact (c : Trait) : Bool := isAlwaysExact c.src c.dst

/-- `compute_promotion` (`type_promotion.cpp:14-49`) -/
def promotion (l r : Ty) : Option Ty :=
  if l = r then some l
  else if (convertTo l r).any Trait.isExact then some r
  else if (convertTo r l).any Trait.isExact then some l
  else none

/-! ## Values -/

/-- how a call ends -/
inductive Res (α : Type) where
  | ok (a : α)
  | throws
  | undefined
  deriving DecidableEq

/-- what comes after a call that may fail -/
def Res.bind {α β : Type} : Res α → (α → Res β) → Res β
  | .ok a, f => f a
  | .throws, _ => .throws
  | .undefined, _ => .undefined

/-- the object of a type that starts at the first byte of a word -/
def readAs (E : Env) (t : Ty) (w : ℕ) : Num :=
  if t.isInt then .int (wrap t w) else .flt (E.dec t (w % 2 ^ (8 * t.size)))

/-- the representation of an object -/
def bytesOf (E : Env) (t : Ty) : Num → ℕ
  | .int n => (n % 2 ^ (8 * t.size)).toNat
  | .flt x => E.enc t x

/-- an object written to the first bytes of a word, the others stay -/
def putAs (E : Env) (t : Ty) (w : ℕ) (v : Num) : ℕ :=
  w / 2 ^ (8 * t.size) * 2 ^ (8 * t.size) + bytesOf E t v

/-- What a `ConstRef` refers to: an object of a type at the start of some bytes, of which `len` may be
read. -/
structure Src where
  ty : Ty
  word : ℕ
  len : ℕ

/-- A `Value` of one of the types (`values.h:210-268, 270-400`): they are all stored inline, in the eight
bytes of a pointer. -/
structure Val where
  ty : Ty
  word : ℕ
  deriving DecidableEq

/-- a value as the operand of something else: its data is the inline storage -/
def Val.src (v : Val) : Src := ⟨v.ty, v.word, 8⟩

/-- `Value(TypePtr)` (`value.cpp:129-137`) without data: the storage is zero -/
def Val.zero (t : Ty) : Val := ⟨t, 0⟩

/-- `Value(T&&)` (`values.h:402-420`) -/
def Val.of (E : Env) (t : Ty) (v : Num) : Val := ⟨t, putAs E t 0 v⟩

/-- the number in a value, `*value.data<T>()` -/
def Val.num (E : Env) (v : Val) : Num := readAs E v.ty v.word

/-- `unsafe_convert` (`conversion_trait.h:185-205`) into eight bytes -/
def unsafeConvert (E : Env) (c : Trait) (dst : ℕ) (s : Src) (exact : Bool) : Res ℕ :=
  if s.len < c.src.size then .undefined
  else
    match convert E c.src c.dst (readAs E c.src s.word) exact with
    | .success v => .ok (putAs E c.dst dst v)
    | .inexact w => if exact then .throws else .ok (w.elim dst (putAs E c.dst dst))
    | .failed => .throws
    | .undefined => .undefined

/-- `copy_assign_value` (`value.cpp:31-57`) to a value that has a type -/
def assign (E : Env) (v : Val) (s : Src) : Res Val :=
  if v.ty = s.ty then
    if s.len < s.ty.size then .undefined
    else .ok ⟨v.ty, v.word / 2 ^ (8 * v.ty.size) * 2 ^ (8 * v.ty.size) + s.word % 2 ^ (8 * v.ty.size)⟩
  else
    match convertFrom v.ty s.ty with
    | none => .throws
    | some c => (unsafeConvert E c v.word s false).bind fun w => .ok ⟨v.ty, w⟩

/-- `operator=(Value&&)` (`value.cpp:188-223`) of values that have types: if they differ the conversion is
looked up and then not used. -/
def moveAssign (v o : Val) : Res Val :=
  if v.ty = o.ty then .ok ⟨v.ty, o.word⟩
  else
    match convertFrom v.ty o.ty with
    | none => .throws
    | some _ => .ok v

/-! ## Arithmetic -/

/-- the type in which the operations on an integer type are done (integral promotion) -/
def promoted (t : Ty) : Ty := if t.size < 4 then .i32 else t

/-- the exact result of an operation on integers -/
def exactOp : Op → ℤ → ℤ → Option ℤ
  | .add, x, y => some (x + y)
  | .sub, x, y => some (x - y)
  | .mul, x, y => some (x * y)
  | .div, x, y => if y = 0 then none else some (x.tdiv y)

/-- `*lhs op= *rhs` of integers: overflow of a signed type is undefined -/
def intOp (t : Ty) (o : Op) (x y : ℤ) : Option ℤ :=
  (exactOp o x y).bind fun r =>
    if (promoted t).isSigned = true ∧ ¬ ((promoted t).lo ≤ r ∧ r ≤ (promoted t).hi) then none
    else some (wrap t r)

/-- `unsafe_add_inplace` and so on (`arithmetic_trait.h:322-356`) -/
def arith (E : Env) (t : Ty) (o : Op) (x y : Num) : Res Num :=
  match x, y with
  | .int m, .int n => (intOp t o m n).elim .undefined fun r => .ok (.int r)
  | .flt a, .flt b => .ok (.flt (E.op o t a b))
  | _, _ => .undefined

/-- the operation of the trait of `t` on two places -/
def arithAt (E : Env) (t : Ty) (o : Op) (l : ℕ) (r : Src) : Res ℕ :=
  if r.len < t.size then .undefined
  else (arith E t o (readAs E t l) (readAs E t r.word)).bind fun v => .ok (putAs E t l v)

/-- `value_arithmetic_divide` (`value_arithmetic.cpp:107-126`): the divisor is divided by itself -/
def divideInplace (E : Env) (t : Ty) (l : ℕ) (r : Src) : Res ℕ :=
  if r.ty = t then arithAt E t .div l r
  else
    (assign E (Val.zero t) r).bind fun tmp =>
      (arithAt E t .div tmp.word tmp.src).bind fun _ => .ok l

/-- `value_arithmetic_impl` (`value_arithmetic.cpp:26-45`) -/
def arithInplace (E : Env) (t : Ty) (o : Op) (l : ℕ) (r : Src) : Res ℕ :=
  if t = r.ty then arithAt E t o l r
  else (assign E (Val.zero t) r).bind fun tmp => arithAt E t o l tmp.src

/-- `value_inplace_arithmetic` (`value_arithmetic.cpp:130-157`), which is `Ref::operator+=` and so on -/
def inplace (E : Env) (o : Op) (l : Val) (r : Src) : Res Val :=
  (if o = .div then divideInplace E l.ty l.word r else arithInplace E l.ty o l.word r).bind
    fun w => .ok ⟨l.ty, w⟩

/-- `Value::operator+=` and so on (`values.h:594-655`): `ensure_constructed` (`value.cpp:107-122`)
refuses another type -/
def opAssign (E : Env) (o : Op) (l : Val) (r : Src) : Res Val :=
  if l.ty = r.ty then inplace E o l r else .throws

/-- `value_arithmetic` (`value_arithmetic.cpp:159-217`), which is `operator+` and so on -/
def binary (E : Env) (o : Op) (l r : Src) : Res Val :=
  match promotion l.ty r.ty with
  | none => .throws
  | some t => (assign E (Val.zero t) l).bind fun result => inplace E o result r

/-! ## Comparison -/

/-- `ComparisonType` -/
inductive Cmp where
  | eq | lt | le | gt | ge
  deriving DecidableEq

/-- the comparison of integers -/
def cmpInt : Cmp → ℤ → ℤ → Bool
  | .eq, x, y => decide (x = y)
  | .lt, x, y => decide (x < y)
  | .le, x, y => decide (x ≤ y)
  | .gt, x, y => decide (y < x)
  | .ge, x, y => decide (y ≤ x)

/-- the position of a floating-point number that is no NaN: below, among or above the rationals -/
def Flt.rank : Flt → ℤ × ℚ
  | .fin q => (0, q)
  | .inf neg => (if neg then -1 else 1, 0)
  | .nan => (0, 0)

/-- `<` for floating-point numbers that are no NaN -/
def fltLt (x y : Flt) : Bool :=
  decide (x.rank.1 < y.rank.1) || (decide (x.rank.1 = y.rank.1) && decide (x.rank.2 < y.rank.2))

/-- the comparison of floating-point numbers: false with a NaN -/
def cmpFlt (c : Cmp) (x y : Flt) : Bool :=
  if x = .nan ∨ y = .nan then false
  else
    match c with
    | .eq => decide (x = y)
    | .lt => fltLt x y
    | .le => fltLt x y || decide (x = y)
    | .gt => fltLt y x
    | .ge => fltLt y x || decide (x = y)

/-- the comparison of objects of one type -/
def cmpNum (c : Cmp) : Num → Num → Res Bool
  | .int m, .int n => .ok (cmpInt c m n)
  | .flt x, .flt y => .ok (cmpFlt c x y)
  | _, _ => .undefined

/-- `unsafe_compare_equal` and so on of the trait of a type (`comparison_trait.h:340-410`) -/
def compareAt (E : Env) (t : Ty) (c : Cmp) (l r : Src) : Res Bool :=
  if l.len < t.size ∨ r.len < t.size then .undefined
  else cmpNum c (readAs E t l.word) (readAs E t r.word)

/-- `value_compare_converting` (`value_compare.cpp:17-43`): the trait is always the one of the left
operand -/
def compare (E : Env) (c : Cmp) (l r : Src) : Res Bool :=
  if l.ty = r.ty then compareAt E l.ty c l r
  else
    match promotion l.ty r.ty with
    | none => .throws
    | some t =>
      if l.ty = t then
        (assign E (Val.zero t) r).bind fun tmp => compareAt E l.ty c l tmp.src
      else
        (assign E (Val.zero t) l).bind fun tmp => compareAt E l.ty c tmp.src r

end RoughPy.Generics
