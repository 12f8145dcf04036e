import Mathlib.Data.Int.GCD
import Mathlib.Algebra.Order.Ring.Int

/-!
# Model of the integers and fractions of arbitrary precision among the generic values

`IntegerType` and `RationalType` of platform/src/generics/multiprecision_types with their arithmetic,
comparison and number traits, as they are reached by the operators and functions on generic values
(platform/include/roughpy/generics/values.h) and by the traits themselves.

Simplifications.  Both operands have the same type: no conversion between these types and the
built-in ones exists, as the files that fill their tables (integer_conversion.cpp,
rational_conversion.cpp) do not include the helpers.  The functions of GMP are modelled by what
their manual says of operands in canonical form; where it says nothing, and where GMP aborts, the
outcome is `undefined`.  Memory is unlimited but for the largest number GMP can hold.
-/

namespace RoughPy.BigNum

/-- What a call comes to: a result, an exception, or behaviour that is undefined (including an abort
inside GMP). -/
inductive Out (α : Type)
  | ok (a : α)
  | raised
  | undefined
  deriving DecidableEq, Repr

/-- Calls in sequence. -/
def Out.bind {α β : Type} : Out α → (α → Out β) → Out β
  | .ok a, f => f a
  | .raised, _ => .raised
  | .undefined, _ => .undefined

/-! ### GMP -/

/-- `mpq_t`: numerator and denominator as they are stored. -/
structure Mpq where
  num : ℤ
  den : ℤ
  deriving DecidableEq, Repr

/-- Canonical form in the sense of the manual of GMP: the denominator is positive and there is no
common factor. -/
def Mpq.canonical (a : Mpq) : Bool := decide (0 < a.den) && decide (Int.gcd a.num a.den = 1)

/-- `mpq_canonicalize`: aborts for the denominator 0. -/
def mpqCanonicalize (a : Mpq) : Out Mpq :=
  if a.den = 0 then .undefined
  else
    let g : ℤ := Int.gcd a.num a.den
    if a.den < 0 then .ok ⟨-a.num / g, -a.den / g⟩ else .ok ⟨a.num / g, a.den / g⟩

/-- The functions of GMP assume operands in canonical form. -/
def mpqArgs (a b : Mpq) (r : Out Mpq) : Out Mpq :=
  if a.canonical && b.canonical then r else .undefined

/-- `mpq_add`. -/
def mpqAdd (a b : Mpq) : Out Mpq :=
  mpqArgs a b (mpqCanonicalize ⟨a.num * b.den + b.num * a.den, a.den * b.den⟩)

/-- `mpq_sub`. -/
def mpqSub (a b : Mpq) : Out Mpq :=
  mpqArgs a b (mpqCanonicalize ⟨a.num * b.den - b.num * a.den, a.den * b.den⟩)

/-- `mpq_mul`. -/
def mpqMul (a b : Mpq) : Out Mpq := mpqArgs a b (mpqCanonicalize ⟨a.num * b.num, a.den * b.den⟩)

/-- `mpq_div`: aborts for the divisor 0. -/
def mpqDiv (a b : Mpq) : Out Mpq := mpqArgs a b (mpqCanonicalize ⟨a.num * b.den, a.den * b.num⟩)

/-- `mpq_inv`: aborts for 0; exchanges numerator and denominator, the sign goes to the numerator. -/
def mpqInv (a : Mpq) : Out Mpq :=
  if a.num = 0 then .undefined
  else if a.num < 0 then .ok ⟨-a.den, -a.num⟩ else .ok ⟨a.den, a.num⟩

/-- `mpq_abs`. -/
def mpqAbs (a : Mpq) : Mpq := ⟨|a.num|, a.den⟩

/-- `mpq_equal`: compares numerators and denominators. -/
def mpqEqual (a b : Mpq) : Bool := decide (a.num = b.num) && decide (a.den = b.den)

/-- `mpq_cmp` as its sign: the comparison of the cross products (the denominators are positive). -/
def mpqCmp (a b : Mpq) : ℤ := (a.num * b.den - b.num * a.den).sign

/-- `mpz_cmp` as its sign. -/
def mpzCmp (a b : ℤ) : ℤ := (a - b).sign

/-- `mpz_pow_ui`: the power, or an abort if it has `2 ^ 37` bits or more. -/
def mpzPow (b : ℤ) (e : ℕ) : Out ℤ :=
  if 1 < |b| ∧ 2 ^ 37 ≤ e then .undefined else .ok (b ^ e)

/-! ### Arithmetic -/

/-- `ArithmeticOperation` — arithmetic_trait.h:19-27. -/
inductive Op
  | add
  | sub
  | mul
  | div
  deriving DecidableEq, Repr

/-- `IntegerArithmetic::has_operation` — integer_arithmetic.cpp:12-18. -/
def intHas : Op → Bool
  | .div => false
  | _ => true

/-- `IntegerArithmetic::unsafe_…_inplace` — integer_arithmetic.cpp:19-52. -/
def intInplace : Op → ℤ → ℤ → ℤ
  | .add, l, r => l + r
  | .sub, l, r => l - r
  | .mul, l, r => l * r
  | .div, l, _ => l

/-- `RationalArithmetic::has_operation` — rational_arithmetic.cpp:13-16. -/
def ratHas : Op → Bool := fun _ => true

/-- `RationalArithmetic::unsafe_…_inplace` — rational_arithmetic.cpp:17-59; in line 25 the source is
`lhs`. -/
def ratInplace : Op → Mpq → Mpq → Out Mpq
  | .add, l, _ => mpqAdd l l
  | .sub, l, r => mpqSub l r
  | .mul, l, r => mpqMul l r
  | .div, l, r => mpqDiv l r

/-- `a op= b` for integers — value_arithmetic.cpp:125-157 (`value_inplace_arithmetic`, equal types;
`rational_type` is null, but division is refused before). -/
def intOp (op : Op) (l r : ℤ) : Out ℤ := if intHas op then .ok (intInplace op l r) else .raised

/-- `a op= b` for fractions — value_arithmetic.cpp:125-157; `rational_type` is the type itself
(rational_arithmetic.h:17-19), so that division is that of lines 112-115. -/
def ratOp (op : Op) (l r : Mpq) : Out Mpq := if ratHas op then ratInplace op l r else .raised

/-- `-a` — values.h:658-671: a new value, 0, from which the operand is subtracted. -/
def intNeg (a : ℤ) : Out ℤ := intOp .sub 0 a

def ratNeg (a : Mpq) : Out Mpq := ratOp .sub ⟨0, 1⟩ a

/-! ### Comparison -/

/-- `ComparisonType` — comparison_trait.h. -/
inductive Cmp
  | eq
  | lt
  | le
  | gt
  | ge
  deriving DecidableEq, Repr

/-- `IntegerComparison::unsafe_compare_…` — integer_comparison.cpp:18-82, which the operators on
values call for equal types (value_compare.cpp:17-26). -/
def intCompare : Cmp → ℤ → ℤ → Bool
  | .eq, l, r => decide (mpzCmp l r ≠ 0)
  | .lt, l, r => decide (mpzCmp l r < 0)
  | .le, l, r => decide (mpzCmp l r ≤ 0)
  | .gt, l, r => decide (mpzCmp l r > 0)
  | .ge, l, r => decide (mpzCmp l r ≥ 0)

/-- `RationalComparison::unsafe_compare_…` — rational_comparison.cpp:17-81. -/
def ratCompare : Cmp → Mpq → Mpq → Bool
  | .eq, l, r => mpqEqual l r
  | .lt, l, r => decide (mpqCmp l r < 0)
  | .le, l, r => decide (mpqCmp l r ≤ 0)
  | .gt, l, r => decide (mpqCmp l r > 0)
  | .ge, l, r => decide (mpqCmp l r ≥ 0)

/-- `ComparisonTrait::compare_equal` — comparison_trait.cpp:15-30, with `none` for a reference that is
not valid and `eq` for `unsafe_compare_equal`. -/
def traitEqual {α : Type} (eq : α → α → Bool) (l r : Option α) : Bool :=
  if l.isNone && r.isNone then true
  else if l.isSome || r.isSome then false
  else
    match l, r with
    | some a, some b => eq a b
    | _, _ => false

/-! ### Functions -/

/-- `NumberFunction` — number_trait.h / builtin_trait.h. -/
inductive Fn
  | abs
  | real
  | imaginary
  | sqrt
  | exp
  | log
  deriving DecidableEq, Repr

/-- `IntegerNumber::has_function` and `RationalNumber::has_function` — integer_number.cpp:18-31,
rational_number.cpp:17-30 (which agree). -/
def hasFn : Fn → Bool
  | .abs => true
  | .real => true
  | .imaginary => true
  | .sqrt => false
  | .exp => false
  | .log => false

/-- `math::abs`, `math::real`, … of an integer — value_math.cpp:78-106, integer_number.cpp:32-60. -/
def intFn (f : Fn) (a : ℤ) : Out ℤ :=
  if hasFn f then
    match f with
    | .abs => .ok |a|
    | .real => .ok a
    | .imaginary => .ok 0
    | _ => .raised
  else .raised

/-- The same for fractions — rational_number.cpp:31-59. -/
def ratFn (f : Fn) (a : Mpq) : Out Mpq :=
  if hasFn f then
    match f with
    | .abs => .ok (mpqAbs a)
    | .real => .ok a
    | .imaginary => .ok ⟨0, 1⟩
    | _ => .raised
  else .raised

/-- `NumberTrait::imaginary(ConstRef)` — number_trait.cpp:125-134: calls `unsafe_real`. -/
def traitImaginary {α : Type} (a : α) : Out α := .ok a

/-- `math::pow` of an integer — value_math.cpp:33-44, 97: `has_function` says there is one
(integer_number.cpp:22), but it is that of the base class, which throws (number_trait.cpp:33-38). -/
def intPow (_a : ℤ) (_n : ℤ) : Out ℤ := .raised

/-- `NumberTrait::pow` of an integer — number_trait.cpp:155-168: exponent 1 is a copy. -/
def traitIntPow (a : ℤ) (n : ℤ) : Out ℤ := if n ≠ 1 then intPow a n else .ok a

/-- `static_cast<uint64_t>` of a 32 bit number. -/
def toU64 (n : ℤ) : ℕ := (n % 2 ^ 64).toNat

/-- `RationalNumber::unsafe_pow` — rational_number.cpp:60-87; the exponent is an `int`. -/
def ratPow (a : Mpq) (n : ℤ) : Out Mpq :=
  if n = 0 then .ok ⟨1, 1⟩
  else if n = 1 then .ok a
  else if n = -1 then mpqInv a
  else if n > 0 then
    (mpzPow a.num (toU64 n)).bind fun p => (mpzPow a.den (toU64 n)).bind fun q => .ok ⟨p, q⟩
  else
    (mpzPow a.den (toU64 n)).bind fun p => (mpzPow a.num (toU64 n)).bind fun q => .ok ⟨p, q⟩

/-- Negation of an `int64_t`: undefined for the smallest one. -/
def neg64 (a : ℤ) : Out ℤ := if a = -2 ^ 63 then .undefined else .ok (-a)

/-- `math::from_rational` for integers — value_math.cpp:109-130, integer_number.cpp:62-81. -/
def intFromRational (n d : ℤ) : Out ℤ :=
  if d = 0 then .raised
  else
    (if n < 0 then (neg64 n).bind fun n' => (neg64 d).bind fun d' => Out.ok (n', d')
      else .ok (n, d)).bind fun p => if p.2 ≠ 1 then .raised else .ok p.1

/-- `math::from_rational` for fractions — value_math.cpp:109-130, rational_number.cpp:88-109;
`mpq_set_si` stores what it is given.  (The debug assertion of line 97, which tests the numerator, is
not modelled.) -/
def ratFromRational (n d : ℤ) : Out Mpq :=
  if d = 0 then .raised
  else
    (if d < 0 then (neg64 n).bind fun n' => (neg64 d).bind fun d' => Out.ok (n', d')
      else .ok (n, d)).bind fun p => .ok ⟨p.1, p.2⟩

/-- `RationalType::parse_from_string` — rational_type.cpp:80-93, for a string from which `mpq_set_str`
reads the numerator `n` and the denominator `d`. -/
def ratParse (n d : ℤ) : Out Mpq := mpqCanonicalize ⟨n, d⟩

end RoughPy.BigNum
