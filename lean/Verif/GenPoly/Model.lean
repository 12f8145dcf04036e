import Mathlib.Algebra.Order.Ring.Rat
import Mathlib.Algebra.BigOperators.Group.List.Basic

/-!
# Model of the polynomials of the generic value types

`Indeterminate`, `Monomial` and `Polynomial` of platform/src/generics/polynomial_type.

Monomials and polynomials are `boost::container::flat_map`s: sorted vectors.  Iterators are pointers
into the vector; the code keeps the iterator `end()` over insertions and erasures, so the model
keeps track of the block a vector lives in and of its capacity.  `none` is undefined behaviour:
access to the place one past the last element.  Comparing an iterator with one that has been
invalidated is modelled as comparing addresses (as compiled code does), with blocks never reused.

Simplifications.  Powers (`deg_t`, 32 bit) are natural numbers.  Coefficients (`mpq_t`) are
rational numbers; the only place where they are not in lowest terms is `fromRational`.
-/

namespace RoughPy.GenPoly

/-! ### Flat maps -/

/-- `boost::container::flat_map`: the elements, the capacity of the vector, and the block it
occupies. -/
structure FlatMap (K V : Type) where
  block : ℕ
  cap : ℕ
  data : List (K × V)
  deriving DecidableEq, Repr

namespace FlatMap

variable {K V : Type} (lt : K → K → Bool)

/-- An iterator: a pointer. -/
def ptr (m : FlatMap K V) (i : ℕ) : ℕ × ℕ := (m.block, i)

/-- `end()`. -/
def endPtr (m : FlatMap K V) : ℕ × ℕ := m.ptr m.data.length

/-- `std::lower_bound` of a key: the first element that is not smaller.  (The binary search of the
library finds it in a sorted vector.) -/
def lowerBound (m : FlatMap K V) (k : K) : ℕ := m.data.findIdx fun e => !lt e.1 k

/-- `find(k)`: index of the element, or of `end()`. -/
def find (m : FlatMap K V) (k : K) : ℕ :=
  match m.data[m.lowerBound lt k]? with
  | some e => if lt k e.1 then m.data.length else m.lowerBound lt k
  | none => m.data.length

/-- Insertion in the vector: in place, or into a new block (growth by 60 percent). -/
def insertAt (m : FlatMap K V) (i : ℕ) (e : K × V) : FlatMap K V :=
  if m.data.length < m.cap then { m with data := m.data.insertIdx i e }
  else ⟨m.block + 1, max (m.cap * 8 / 5) (m.data.length + 1), m.data.insertIdx i e⟩

/-- `emplace(k, v)`: nothing happens if the key is there.  The index is that of the element. -/
def emplace (m : FlatMap K V) (k : K) (v : V) : FlatMap K V × ℕ :=
  let i := m.lowerBound lt k
  match m.data[i]? with
  | some e => if lt k e.1 then (m.insertAt i (k, v), i) else (m, i)
  | none => (m.insertAt i (k, v), i)

/-- `erase(it)`. -/
def eraseAt (m : FlatMap K V) (i : ℕ) : FlatMap K V := { m with data := m.data.eraseIdx i }

/-- `it->second = v`; `none` for an iterator that points to no element. -/
def setAt (m : FlatMap K V) (i : ℕ) (v : V) : Option (FlatMap K V) :=
  match m.data[i]? with
  | some e => some { m with data := m.data.set i (e.1, v) }
  | none => none

/-- `it->second`; `none` for an iterator that points to no element. -/
def valueAt (m : FlatMap K V) (i : ℕ) : Option V := (m.data[i]?).map fun e => e.2

end FlatMap

/-! ### Monomials -/

/-- `Indeterminate` — indeterminate.h:21-150: a 64 bit number, the character above 56 bits of index. -/
abbrev Ind := ℕ

/-- `Indeterminate(prefix, index)` — indeterminate.h:57-64 (the index is masked). -/
def mkInd (pre : Char) (index : ℕ) : Ind := pre.toNat * 2 ^ 56 + index % 2 ^ 56

/-- The contents of a monomial: indeterminates and powers. -/
abbrev Mono := List (Ind × ℕ)

/-- `operator<` of indeterminates — indeterminate.h:103-107. -/
def indLt (a b : Ind) : Bool := decide (a < b)

/-- One round of `Monomial::operator*=` — monomial.cpp:38-42; `lend` is the `end()` of before the
loop (line 37). -/
def mulStep (lend : ℕ × ℕ) (m : FlatMap Ind ℕ) (e : Ind × ℕ) : Option (FlatMap Ind ℕ) :=
  let it := m.find indLt e.1
  if m.ptr it ≠ lend then
    match m.valueAt it with
    | none => none
    | some p => m.setAt it (p + e.2)
  else some (m.emplace indLt e.1 e.2).1

/-- `Monomial::operator*=` — monomial.cpp:35-44. -/
def mulInplace (m : FlatMap Ind ℕ) (rhs : Mono) : Option (FlatMap Ind ℕ) :=
  rhs.foldlM (mulStep m.endPtr) m

/-- `operator*(Monomial, Monomial)` — monomial.cpp:46-51: a copy (a `small_vector` with room for
one element) is multiplied. -/
def monoMul (a b : Mono) : Option Mono :=
  (mulInplace ⟨0, max 1 a.length, a⟩ b).map fun m => m.data

/-- `degree` — monomial.cpp:19-27. -/
def degree (m : Mono) : ℕ := m.foldl (fun acc e => acc + e.2) 0

/-- `std::lexicographical_compare` with the comparison `lt` of elements. -/
def lexCompare (lt : Ind × ℕ → Ind × ℕ → Bool) : Mono → Mono → Bool
  | _, [] => false
  | [], _ :: _ => true
  | a :: as, b :: bs => if lt a b then true else if lt b a then false else lexCompare lt as bs

/-- `operator<` of `std::pair`. -/
def pairLt (a b : Ind × ℕ) : Bool := decide (a.1 < b.1) || (!decide (b.1 < a.1) && decide (a.2 < b.2))

/-- `operator<=` of `std::pair`. -/
def pairLe (a b : Ind × ℕ) : Bool := !pairLt b a

/-- `operator<` of monomials — monomial.cpp:74-89. -/
def monoLt (a b : Mono) : Bool :=
  if degree a < degree b then true
  else if degree a = degree b then lexCompare pairLt a b
  else false

/-- `operator<=` of monomials — monomial.cpp:91-107. -/
def monoLe (a b : Mono) : Bool :=
  if degree a < degree b then true
  else if degree a = degree b then lexCompare pairLe a b
  else false

/-- `operator==` of monomials — monomial.cpp:67-72. -/
def monoEq (a b : Mono) : Bool := a.length == b.length && a == b

/-! ### Polynomials -/

/-- `Polynomial` — polynomial.h:66-125. -/
abbrev Poly := FlatMap Mono ℚ

/-- `Polynomial()`. -/
def emptyPoly : Poly := ⟨0, 0, []⟩

/-- One round of `poly_add_inplace` — polynomial.cpp:31-41. -/
def addStep (lend : ℕ × ℕ) (p : Poly) (t : Mono × ℚ) : Option Poly :=
  let it := p.find monoLt t.1
  if p.ptr it ≠ lend then
    match p.valueAt it with
    | none => none
    | some c => if c + t.2 = 0 then some (p.eraseAt it) else p.setAt it (c + t.2)
  else some (p.emplace monoLt t.1 t.2).1

/-- `poly_add_inplace` — polynomial.cpp:27-42. -/
def polyAdd (p : Poly) (rhs : List (Mono × ℚ)) : Option Poly := rhs.foldlM (addStep p.endPtr) p

/-- One round of `poly_sub_inplace` — polynomial.cpp:48-60. -/
def subStep (lend : ℕ × ℕ) (p : Poly) (t : Mono × ℚ) : Option Poly :=
  let it := p.find monoLt t.1
  if p.ptr it ≠ lend then
    match p.valueAt it with
    | none => none
    | some c => if c - t.2 = 0 then some (p.eraseAt it) else p.setAt it (c - t.2)
  else
    let r := p.emplace monoLt t.1 t.2
    r.1.setAt r.2 (-t.2)

/-- `poly_sub_inplace` — polynomial.cpp:44-61. -/
def polySub (p : Poly) (rhs : List (Mono × ℚ)) : Option Poly := rhs.foldlM (subStep p.endPtr) p

/-- `poly_sub_inplace(p, p)` — polynomial.cpp:44-61 with both arguments the same object: the loop
runs over the elements from the first place to the last one there was, while elements are erased. -/
def polySubSelfLoop (lend : ℕ × ℕ) : ℕ → ℕ → Poly → Option Poly
  | 0, _, p => some p
  | n + 1, i, p =>
    match p.data[i]? with
    | none => none
    | some t =>
      match subStep lend p t with
      | none => none
      | some p' => polySubSelfLoop lend n (i + 1) p'

def polySubSelf (p : Poly) : Option Poly := polySubSelfLoop p.endPtr p.data.length 0 p

/-- The body of the loops of `poly_mul_inplace` — polynomial.cpp:70-88. -/
def mulTerm (result : Poly) (key : Mono) (coeff : ℚ) : Option Poly :=
  let it := result.find monoLt key
  if result.ptr it ≠ result.endPtr then
    match result.valueAt it with
    | none => none
    | some c => if c + coeff = 0 then some (result.eraseAt it) else result.setAt it (c + coeff)
  else some (result.emplace monoLt key coeff).1

/-- The inner loop of `poly_mul_inplace`. -/
def mulRow (s : Mono × ℚ) (rhs : List (Mono × ℚ)) (result : Poly) : Option Poly :=
  rhs.foldlM (fun r t =>
    match monoMul s.1 t.1 with
    | none => none
    | some key => mulTerm r key (s.2 * t.2)) result

/-- `poly_mul_inplace` — polynomial.cpp:63-92. -/
def polyMul (p : Poly) (rhs : List (Mono × ℚ)) : Option Poly :=
  p.data.foldlM (fun r s => mulRow s rhs r) emptyPoly

/-- `poly_div_inplace` — polynomial.cpp:94-105; `none`: `std::domain_error`. -/
def polyDiv (p : Poly) (r : ℚ) : Option Poly :=
  if r = 0 then none else some { p with data := p.data.map fun t => (t.1, t.2 / r) }

/-- `poly_cmp_equal` — polynomial.cpp:106-127 (monomials with `==`, numbers with `mpq_equal`). -/
def polyEq (p q : Poly) : Bool :=
  if p.data.length ≠ q.data.length then false
  else (p.data.zip q.data).all fun e => monoEq e.1.1 e.2.1 && decide (e.1.2 = e.2.2)

/-- `poly_cmp_is_zero` — polynomial.h:138. -/
def isZero (p : Poly) : Bool := p.data.isEmpty

/-- `Polynomial::is_constant` — polynomial.cpp:158-167. -/
def isConstant (p : Poly) : Bool :=
  match p.data with
  | [] => true
  | [t] => t.1.isEmpty
  | _ => false

/-- Conversion to a number — conversion_helpers.h:56-70: `none` is `ConversionResult::Failed`. -/
def toNumber (p : Poly) : Option ℚ :=
  match p.data with
  | [] => some 0
  | t :: _ => if isConstant p then some t.2 else none

/-- Conversion from a number — conversion_helpers.h:24-41, `Polynomial(RationalCoeff)` —
polynomial.h:88-90. -/
def ofNumber (c : ℚ) : Poly := ⟨0, 1, [([], c)]⟩

/-- The numerator and denominator in an `mpq_t`. -/
structure Mpq where
  num : ℤ
  den : ℕ
  deriving DecidableEq, Repr

/-- `unsafe_from_rational(dst, num, den)` — polynomial_number.cpp:25-31, `RationalCoeff(num, den)` —
polynomial.h:40-44: `mpq_set_si` stores what it is given (a positive denominator here). -/
def fromRational (num : ℤ) (den : ℕ) : Mpq := ⟨num, den⟩

/-- `mpq_equal`: numerators and denominators are compared. -/
def mpqEqual (a b : Mpq) : Bool := decide (a.num = b.num) && decide (a.den = b.den)

end RoughPy.GenPoly
