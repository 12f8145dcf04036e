import Verif.Args.Model
import Verif.Lite.Map
import Mathlib.Data.Prod.Lex
import Mathlib.Data.List.Lex
import Mathlib.Data.Rat.Defs
import Mathlib.Algebra.Field.Rat

/-!
# Model of monomials and polynomials

`lal::monomial` and `lal::polynomial<rational_field>` (`/repo/vendored/libalgebra_lite`), and the
Python types `Monomial` and `PolynomialScalar` made from them
(`/repo/roughpy/src/scalars/r_py_polynomial.cpp`).  Using an invalidated iterator, reading freed
memory and returning from a C function with a stray error indicator give the outcome `ub`.

Simplifications: exponents (`deg_t`, 32 bits) are unbounded; rational numbers are exact;
assertions are off, as in a release build.
-/

namespace RoughPy.Polys

open RoughPy.Lite

/-! ## Indeterminates -/

/-- `packed_integer<dimn_t, char>` (`packed_integer.h:21-97`): the member `m_data`, a symbol in
the top byte of a 64 bit word and an index in the other 56 bits. -/
abbrev Letter := ℕ

/-- `remaining_bits = 56` (`packed_integer.h:29-31`): one more than the largest index. -/
def indexRange : ℕ := 2 ^ 56

/-- the constructor from a symbol and an index (`packed_integer.h:59-61`); the symbol is a
`char`, of which the eight bits end up in the top byte, the index is masked -/
def mkLetter (symbol index : ℕ) : Letter := symbol % 256 * indexRange + index % indexRange

/-- `operator Packed` (`packed_integer.h:67-70`), as an unsigned byte -/
def Letter.symbol (l : Letter) : ℕ := l / indexRange

/-- `operator Int` (`packed_integer.h:63-66`) -/
def Letter.index (l : Letter) : ℕ := l % indexRange

/-- What `indeterminate_from_string` uses of the Unicode database: `Py_UNICODE_ISALPHA` and
`Py_UNICODE_TODIGIT`. -/
structure Unicode where
  isAlpha : ℕ → Bool
  digit : ℕ → Option ℕ

/-- the loop over the digits (`r_py_polynomial.cpp:1102-1110`); `index` is a 64 bit word -/
def parseIndex (U : Unicode) : List ℕ → ℕ → Option ℕ
  | [], index => some index
  | c :: cs, index =>
    match U.digit c with
    | none => none
    | some d => parseIndex U cs ((index * 10 % 2 ^ 64 + d) % 2 ^ 64)

/-- `indeterminate_from_string` (`r_py_polynomial.cpp:1075-1114`) on the code points of the
string; `none` is a `ValueError`. -/
def parseLetter (U : Unicode) : List ℕ → Option Letter
  | [] => none
  | c :: cs =>
    if !U.isAlpha c then none
    else
      match parseIndex U cs 0 with
      | none => none
      | some index => some (mkLetter c index)

/-- decimal digits of a number, as code points -/
def digitsOf (n : ℕ) : List ℕ :=
  if n < 10 then [48 + n] else digitsOf (n / 10) ++ [48 + n % 10]

/-- `operator<<` of an indeterminate (`packed_integer.h:103-107`) -/
def showLetter (l : Letter) : List ℕ := l.symbol :: digitsOf l.index

/-! ## Monomials -/

/-- `monomial` (`polynomial_basis.h:25-116`): a `flat_map` from indeterminates to exponents. -/
structure Mono where
  entries : SMap Letter ℤ
deriving DecidableEq

namespace Mono

/-- the empty monomial (`polynomial_basis.h:57`) -/
def one : Mono := ⟨[]⟩

/-- a power of an indeterminate (`polynomial_basis.h:59-63`) -/
def ofLetter (l : Letter) (power : ℤ) : Mono := ⟨[(l, power)]⟩

/-- `degree` (`basis/monomial.cpp:20-26`) -/
def degree (m : Mono) : ℤ := m.entries.foldl (fun curr e => curr + e.2) 0

/-- `operator[] const` (`basis/monomial.cpp:13-19`) -/
def get (m : Mono) (l : Letter) : ℤ :=
  match SMap.find m.entries l with
  | some d => d
  | none => 0

/-- assignment through `operator[]` (`polynomial_basis.h:77`) -/
def set (m : Mono) (l : Letter) (d : ℤ) : Mono := ⟨SMap.set m.entries l d⟩

/-- `operator==` (`polynomial_basis.h:96-99`) -/
def beq (m n : Mono) : Bool := decide (m.degree = n.degree) && decide (m.entries = n.entries)

/-- `operator<` of the maps: lexicographic comparison of the entries, as pairs -/
def entriesLt : List (Letter × ℤ) → List (Letter × ℤ) → Bool
  | _, [] => false
  | [], _ :: _ => true
  | a :: m, b :: n =>
    if a.1 < b.1 ∨ (a.1 = b.1 ∧ a.2 < b.2) then true
    else if b.1 < a.1 ∨ (b.1 = a.1 ∧ b.2 < a.2) then false
    else entriesLt m n

/-- `operator<` (`polynomial_basis.h:101-106`) -/
def lt (m n : Mono) : Bool :=
  decide (m.degree < n.degree) || (decide (m.degree = n.degree) && entriesLt m.entries n.entries)

/-- position of a monomial in the order: by degree, then by entries -/
def rank (m : Mono) : ℤ ×ₗ List (ℕ ×ₗ ℤ) := toLex (m.degree, m.entries.map toLex)

theorem rank_injective : Function.Injective rank := by
  rintro ⟨m⟩ ⟨n⟩ h
  have h := toLex.injective h
  simp only [Prod.mk.injEq] at h
  congr 1
  exact (List.map_injective_iff.2 toLex.injective) h.2

/-- The order used by `std::map<monomial, …>`; `lt_iff` of the lemma file shows that it is
`lt`. -/
instance : LinearOrder Mono := LinearOrder.lift' rank rank_injective

/-- state of the loop of `operator*=`: the entries, and whether the iterator `lend` taken before
the loop is still valid -/
structure MulState where
  entries : SMap Letter ℤ
  lendValid : Bool

/-- one step of `operator*=` (`basis/polynomial_basis.cpp:38-45`).  Inserting into a `flat_map`
invalidates its end iterator, so a later comparison with `lend` is undefined (`none`). -/
def mulStep (s : MulState) (item : Letter × ℤ) : Option MulState :=
  if !s.lendValid then none
  else
    match SMap.find s.entries item.1 with
    | none => some ⟨SMap.set s.entries item.1 item.2, false⟩
    | some d => some ⟨SMap.set s.entries item.1 (d + item.2), true⟩

/-- the loop over the entries of the right hand side -/
def mulLoop : List (Letter × ℤ) → MulState → Option MulState
  | [], s => some s
  | e :: es, s =>
    match mulStep s e with
    | none => none
    | some s => mulLoop es s

/-- `operator*=` and `operator*` of monomials (`basis/polynomial_basis.cpp:35-55`). -/
def mul (lhs rhs : Mono) : Option Mono :=
  match mulLoop rhs.entries ⟨lhs.entries, true⟩ with
  | none => none
  | some s => some ⟨s.entries⟩

/-- `polynomial_multiplier::operator()` (`algebra/polynomial_multiplier.cpp:14-28`): the product
of two keys of a polynomial, through a `std::map`; the coefficient is `1`. -/
def keyProduct (lhs rhs : Mono) : List (Mono × ℤ) :=
  [(⟨rhs.entries.foldl (fun tmp e =>
    SMap.set tmp e.1 ((match SMap.find tmp e.1 with | some d => d | none => 0) + e.2))
    lhs.entries⟩, 1)]

/-- `power` (`polynomial_basis.h:37-50`) for a nonnegative exponent: repeated squaring. -/
def power (arg : ℚ) (exponent : ℕ) : ℚ :=
  if exponent = 0 then 1
  else if exponent = 1 then arg
  else
    let result1 := power arg (exponent / 2)
    let result2 := result1 * result1
    if exponent % 2 = 0 then result2 else arg * result2
termination_by exponent
decreasing_by omega

/-- `eval` (`polynomial_basis.h:84-94`) at values for the indeterminates, for nonnegative
exponents (with a negative exponent `power` does not return). -/
def eval (m : Mono) (arg : Letter → ℚ) : ℚ :=
  m.entries.foldl (fun result e => result + power (arg e.1) e.2.toNat) 0

end Mono

/-! ## Polynomials -/

/-- `polynomial<rational_field>` (`polynomial.h:53-97`): a `sparse_vector`, that is a `std::map`
from monomials to coefficients. -/
abbrev Poly := SMap Mono ℚ

namespace Poly

/-- `operator[] const` (`sparse_vector.h:379-384`) -/
def coeff (p : Poly) (m : Mono) : ℚ :=
  match SMap.find p m with
  | some c => c
  | none => 0

/-- mutable `operator[]` followed by an assignment (`sparse_vector.h:386-389`, `:87-104`) -/
def modify (p : Poly) (m : Mono) (f : ℚ → ℚ) : Poly :=
  match SMap.find p m with
  | some c => if f c ≠ 0 then SMap.set p m (f c) else SMap.erase p m
  | none => if f 0 ≠ 0 then SMap.set p m (f 0) else p

/-- `polynomial()` (`polynomial.h:68`) -/
def zero : Poly := []

/-- `polynomial(Scalar)` (`polynomial.h:70-75`, `sparse_vector.h:333-342`) -/
def ofScalar (s : ℚ) : Poly := if s ≠ 0 then [(Mono.one, s)] else []

/-- `polynomial(Key, Scalar)` (`polynomial.h:77-83`) -/
def ofMono (m : Mono) (s : ℚ) : Poly := modify zero m fun _ => s

/-- `unary_op` (`sparse_vector.h:418-429`) -/
def unary (op : ℚ → ℚ) (p : Poly) : Poly :=
  p.filterMap fun e => if op e.2 ≠ 0 then some (e.1, op e.2) else none

/-- one step of `inplace_binary_op` (`sparse_vector.h:465-480`) -/
def combine (op : ℚ → ℚ → ℚ) (p : Poly) (e : Mono × ℚ) : Poly :=
  match SMap.find p e.1 with
  | some v => if op v e.2 = 0 then SMap.erase p e.1 else SMap.set p e.1 (op v e.2)
  | none => SMap.set p e.1 (op 0 e.2)

/-- `inplace_binary_op` (`sparse_vector.h:456-483`) with another vector; `binary_op`
(`:443-454`) is the same on a copy -/
def binary (op : ℚ → ℚ → ℚ) (p rhs : Poly) : Poly := rhs.foldl (combine op) p

/-- `inplace_binary_op` (`sparse_vector.h:456-483`) of a vector with itself: every key is found,
and erasing an entry invalidates the iterator of the loop -/
def binarySelf (op : ℚ → ℚ → ℚ) : Poly → Option Poly
  | [] => some []
  | (k, v) :: p =>
    if op v v = 0 then none
    else
      match binarySelf op p with
      | none => none
      | some p' => some ((k, op v v) :: p')

/-- `operator-` (`vector.h:500-506`) -/
def neg (p : Poly) : Poly := unary (fun s => -s) p
/-- `a + b`, `a += b` (`vector.h:543-553`, `:596-602`) -/
def add (p q : Poly) : Poly := binary (fun l r => l + r) p q
/-- `a - b`, `a -= b` (`vector.h:555-562`, `:604-610`) -/
def sub (p q : Poly) : Poly := binary (fun l r => l - r) p q
/-- `v / s`, `v /= s` for a nonzero scalar (`vector.h:534-541`, `:588-594`) -/
def sdiv (p : Poly) (c : ℚ) : Poly := unary (fun s => s / c) p

/-- `asp_helper` (`algebra.h:476-485`) -/
def aspHelper (out : Poly) (keyProd : List (Mono × ℤ)) (s : ℚ) : Poly :=
  keyProd.foldl (fun out e => modify out e.1 fun x => x + (e.2 : ℚ) * s) out

/-- `base_multiplication::fma` without degrees (`algebra.h:517-538`; `polynomial_basis` has no
`degree_tag`) -/
def fma (out lhs rhs : Poly) : Poly :=
  lhs.foldl (fun out l =>
    rhs.foldl (fun out r => aspHelper out (Mono.keyProduct l.1 r.1) (l.2 * r.2)) out) out

/-- `lhs * rhs` (`algebra.h:894-911`) -/
def mul (lhs rhs : Poly) : Poly :=
  if !lhs.isEmpty && !rhs.isEmpty then fma zero lhs rhs else zero

/-- `lhs *= rhs` (`algebra.h:913-932`, `multiply_inplace` `:577-589`) -/
def mulInplace (lhs rhs : Poly) : Poly :=
  if rhs.isEmpty then zero
  else if !lhs.isEmpty then
    if !lhs.isEmpty && !rhs.isEmpty then fma zero lhs rhs else zero
  else lhs

/-- `operator==` (`sparse_vector.h:485-498`) -/
def beq (p q : Poly) : Bool :=
  decide (p.length = q.length) && q.all fun e => decide (SMap.find p e.1 = some e.2)

/-- `degree()` (`sparse_vector.h:355-363`) -/
def degree (p : Poly) : ℤ :=
  p.foldl (fun result e => if e.1.degree > result then e.1.degree else result) 0

/-- the loop of `polynomial_pow` (`r_py_polynomial.cpp:1412-1414`): `n` further factors -/
def powLoop (poly : Poly) : ℕ → Poly → Poly
  | 0, result => result
  | n + 1, result => powLoop poly n (mulInplace result poly)

end Poly

/-! ## Python values -/

/-- Python objects that can meet a monomial or polynomial in an operation. -/
inductive PyVal where
  /-- `int` -/
  | int (n : ℤ)
  /-- a finite `float`, by its value -/
  | float (x : ℚ)
  /-- an infinite `float` or `nan` -/
  | nonfinite
  /-- `fractions.Fraction`, with numerator and denominator -/
  | frac (num den : ℤ)
  | mono (m : Mono)
  | poly (p : Poly)
  /-- anything else -/
  | foreign
deriving DecidableEq

/-- Outcome of a slot function. -/
inductive Res where
  | ok (v : PyVal)
  | raise
  | notImpl
  | ub
deriving DecidableEq

/-- outcome of `py_scalar_to_rat`: not a scalar, a scalar, or undefined -/
inductive ToRat where
  | no
  | yes (q : ℚ)
  | bad

/-- the range of `PyLong_AsLongLong`, which otherwise sets the error indicator -/
def inLong (n : ℤ) : Bool := decide (-9223372036854775808 ≤ n) && decide (n < 9223372036854775808)

/-- `py_scalar_to_rat` (`r_py_polynomial.cpp:704-735`). -/
def toRat : PyVal → ToRat
  | .int n => if inLong n then .yes n else .bad
  | .float x => .yes x
  | .nonfinite => .bad
  | .frac n d => if inLong n && inLong d then .yes (n / d : ℚ) else .bad
  | _ => .no

/-- `if (py_scalar_to_rat(scalar, v)) return f(scalar);`, otherwise `Py_RETURN_NOTIMPLEMENTED` -/
def withRat (v : PyVal) (f : ℚ → Res) : Res :=
  match toRat v with
  | .no => .notImpl
  | .yes q => f q
  | .bad => .ub

/-! ## Slots of `Monomial` -/

/-- `monomial_mul` (`r_py_polynomial.cpp:737-762`) -/
def monomialMul (self other : PyVal) : Res :=
  match self, other with
  | .mono m, .mono n =>
    match Mono.mul m n with
    | some r => .ok (.mono r)
    | none => .ub
  | .mono m, other => withRat other fun s => .ok (.poly (Poly.ofMono m s))
  | self, .mono n => withRat self fun s => .ok (.poly (Poly.ofMono n s))
  | _, _ => .notImpl

/-- `monomial_pow` (`r_py_polynomial.cpp:787-804`): the result is dropped -/
def monomialPow (self other : PyVal) : Res :=
  match self, other with
  | .mono _, .int n => if n < 0 then .raise else .notImpl
  | _, _ => .notImpl

/-- `monomial_add` (`r_py_polynomial.cpp:847-879`) -/
def monomialAdd (self other : PyVal) : Res :=
  match self, other with
  | .mono m, .mono n => .ok (.poly (Poly.modify (Poly.ofMono m 1) n fun x => x + 1))
  | .mono m, other =>
    withRat other fun s => .ok (.poly (Poly.add (Poly.ofMono m 1) (Poly.ofScalar s)))
  | self, .mono n =>
    withRat self fun s => .ok (.poly (Poly.add (Poly.ofScalar s) (Poly.ofMono n 1)))
  | _, _ => .notImpl

/-- `monomial_sub` (`r_py_polynomial.cpp:880-911`) -/
def monomialSub (self other : PyVal) : Res :=
  match self, other with
  | .mono m, .mono n => .ok (.poly (Poly.modify (Poly.ofMono m 1) n fun x => x - 1))
  | .mono m, other =>
    withRat other fun s => .ok (.poly (Poly.sub (Poly.ofMono m 1) (Poly.ofScalar s)))
  | self, .mono n =>
    withRat self fun s => .ok (.poly (Poly.sub (Poly.ofScalar s) (Poly.ofMono n 1)))
  | _, _ => .notImpl

/-- `monomial_div` (`r_py_polynomial.cpp:912-932`) -/
def monomialDiv (self other : PyVal) : Res :=
  match self, other with
  | .mono _, .mono _ => .notImpl
  | .mono m, other =>
    withRat other fun s => if s = 0 then .raise else .ok (.poly (Poly.ofMono m (1 / s)))
  | _, _ => .notImpl

/-- `monomial_neg` (`r_py_polynomial.cpp:838-841`) -/
def monomialNeg (m : Mono) : PyVal := .poly (Poly.ofMono m (-1))

/-- `monomial_pos` (`r_py_polynomial.cpp:842-845`) -/
def monomialPos (m : Mono) : PyVal := .poly (Poly.ofMono m 1)

/-! ## Slots of `PolynomialScalar` -/

/-- the common shape of `polynomial_mul`, `polynomial_add`, `polynomial_sub`: scalars and
monomials are made into polynomials -/
def polynomialOp (op : Poly → Poly → Poly) (self other : PyVal) : Res :=
  match self, other with
  | .poly p, .poly q => .ok (.poly (op p q))
  | .poly p, .mono n => .ok (.poly (op p (Poly.ofMono n 1)))
  | .poly p, other => withRat other fun s => .ok (.poly (op p (Poly.ofScalar s)))
  | .mono m, .poly q => .ok (.poly (op (Poly.ofMono m 1) q))
  | self, .poly q => withRat self fun s => .ok (.poly (op (Poly.ofScalar s) q))
  | _, _ => .notImpl

/-- `polynomial_mul` (`r_py_polynomial.cpp:1317-1354`) -/
def polynomialMul : PyVal → PyVal → Res := polynomialOp Poly.mul

/-- `polynomial_add` (`r_py_polynomial.cpp:1449-1485`) -/
def polynomialAdd : PyVal → PyVal → Res := polynomialOp Poly.add

/-- `polynomial_sub` (`r_py_polynomial.cpp:1486-1523`) -/
def polynomialSub : PyVal → PyVal → Res := polynomialOp Poly.sub

/-- `polynomial_pow` (`r_py_polynomial.cpp:1398-1418`).  `PyLong_AsLong` fails outside the range
of `long`. -/
def polynomialPow (self other : PyVal) : Res :=
  match self, other with
  | .poly p, .int n =>
    if !inLong n then .raise
    else if n < 0 then .raise
    else if n = 0 then .ok (.poly (Poly.ofScalar 1))
    else .ok (.poly (Poly.powLoop p (n.toNat - 1) p))
  | _, _ => .notImpl

/-- `polynomial_div` (`r_py_polynomial.cpp:1524-1542`) -/
def polynomialDiv (self other : PyVal) : Res :=
  match self, other with
  | .poly _, .poly _ => .notImpl
  | .poly _, .mono _ => .notImpl
  | .poly p, other =>
    withRat other fun s => if s = 0 then .raise else .ok (.poly (Poly.sdiv p s))
  | _, _ => .notImpl

/-- `polynomial_neg` (`r_py_polynomial.cpp:1440-1443`) -/
def polynomialNeg (p : Poly) : PyVal := .poly (Poly.neg p)

/-- `polynomial_pos` (`r_py_polynomial.cpp:1444-1447`) -/
def polynomialPos (p : Poly) : PyVal := .poly p

/-! ## Dispatch of binary operators -/

/-- the operators -/
inductive Op where
  | add | sub | mul | div | pow
deriving DecidableEq

/-- the slots of the two types (`r_py_polynomial.cpp:202-238`, `:393-430`) -/
def monoSlot : Op → PyVal → PyVal → Res
  | .add => monomialAdd
  | .sub => monomialSub
  | .mul => monomialMul
  | .div => monomialDiv
  | .pow => monomialPow

@[inherit_doc monoSlot]
def polySlot : Op → PyVal → PyVal → Res
  | .add => polynomialAdd
  | .sub => polynomialSub
  | .mul => polynomialMul
  | .div => polynomialDiv
  | .pow => polynomialPow

/-- the slot of the type of an object, for the two types modelled here; the other types return
`NotImplemented` for these operands -/
def slotOf : PyVal → Option (Op → PyVal → PyVal → Res)
  | .mono _ => some monoSlot
  | .poly _ => some polySlot
  | _ => none

/-- whether two objects have the same of the two types -/
def sameType : PyVal → PyVal → Bool
  | .mono _, .mono _ => true
  | .poly _, .poly _ => true
  | _, _ => false

/-- second try of a binary operator: the slot of the right operand; nothing left is a
`TypeError` -/
def binaryRight (op : Op) (a b : PyVal) : Res :=
  match slotOf b with
  | none => .raise
  | some f =>
    if sameType a b then .raise
    else
      match f op a b with
      | .notImpl => .raise
      | r => r

/-- A binary operator of Python with a monomial or polynomial among the operands: the slot of
the left operand, then, if that is not implemented, the slot of the right operand. -/
def binaryOp (op : Op) (a b : PyVal) : Res :=
  match slotOf a with
  | none => binaryRight op a b
  | some f =>
    match f op a b with
    | .notImpl => binaryRight op a b
    | r => r

/-! ## Comparison -/

/-- the comparisons of Python -/
inductive Cmp where
  | eq | ne | lt | le | gt | ge
deriving DecidableEq

/-- `monomial_rich_compare` (`r_py_polynomial.cpp:639-664`) for two monomials -/
def monomialCompare (c : Cmp) (m n : Mono) : Bool :=
  match c with
  | .eq => Mono.beq m n
  | .ne => !Mono.beq m n
  | .lt => Mono.lt m n
  | .le => Mono.lt m n || Mono.beq m n
  | .gt => Mono.lt n m
  | .ge => Mono.lt n m || Mono.beq m n

/-- `==` of two distinct objects of which one is a monomial or a polynomial
(`r_py_polynomial.cpp:639-664`, `:1237-1255`): if neither slot is implemented Python compares
identities. -/
def pyEq (a b : PyVal) : Bool :=
  match a, b with
  | .mono m, .mono n => monomialCompare .eq m n
  | .poly p, .poly q => Poly.beq p q
  | _, _ => false

/-! ## In-place operators -/

/-- what an in-place slot returns -/
inductive IOut where
  /-- the left operand itself -/
  | self
  /-- a new object -/
  | new (v : PyVal)
  | raise
  | notImpl
  | ub
deriving DecidableEq

/-- outcome of an in-place slot: the contents of the left operand afterwards, and the return
value -/
structure IRes where
  selfAfter : PyVal
  out : IOut
deriving DecidableEq

/-- a slot that leaves the left operand alone and returns a new object -/
def IRes.ofRes (self : PyVal) : Res → IRes
  | .ok v => ⟨self, .new v⟩
  | .raise => ⟨self, .raise⟩
  | .notImpl => ⟨self, .notImpl⟩
  | .ub => ⟨self, .ub⟩

/-- `monomial_inplace_mul` (`r_py_polynomial.cpp:763-786`) -/
def monomialIMul (m : Mono) (other : PyVal) : IRes :=
  match other with
  | .mono n =>
    match Mono.mul m n with
    | some r => ⟨.mono r, .self⟩
    | none => ⟨.mono m, .ub⟩
  | other => IRes.ofRes (.mono m) (withRat other fun s => .ok (.poly (Poly.ofMono m s)))

/-- `monomial_inplace_pow` (`r_py_polynomial.cpp:817-832`) -/
def monomialIPow (m : Mono) (other : PyVal) : IRes :=
  match other with
  | .int n =>
    if n < 0 then ⟨.mono m, .raise⟩
    else ⟨.mono ⟨m.entries.map fun e => (e.1, e.2 + n)⟩, .notImpl⟩
  | _ => ⟨.mono m, .notImpl⟩

/-- `monomial_inplace_add` (`r_py_polynomial.cpp:933-965`) -/
def monomialIAdd (m : Mono) (other : PyVal) : IRes :=
  match other with
  | .mono n =>
    ⟨.mono m, .new (.poly (Poly.modify (Poly.ofMono m 1) n fun x => x + 1))⟩
  | other =>
    IRes.ofRes (.mono m)
      (withRat other fun s => .ok (.poly (Poly.add (Poly.ofMono m 1) (Poly.ofScalar s))))

/-- `monomial_inplace_sub` (`r_py_polynomial.cpp:966-1000`) -/
def monomialISub (m : Mono) (other : PyVal) : IRes :=
  match other with
  | .mono n =>
    ⟨.mono m, .new (.poly (Poly.modify (Poly.ofMono m 1) n fun x => x - 1))⟩
  | other =>
    IRes.ofRes (.mono m)
      (withRat other fun s => .ok (.poly (Poly.sub (Poly.ofMono m 1) (Poly.ofScalar s))))

/-- `monomial_inplace_div` (`r_py_polynomial.cpp:1001-1024`): the reciprocal is computed and not
used -/
def monomialIDiv (m : Mono) (other : PyVal) : IRes :=
  match other with
  | .mono _ => ⟨.mono m, .notImpl⟩
  | other =>
    IRes.ofRes (.mono m)
      (withRat other fun s => if s = 0 then .raise else .ok (.poly (Poly.ofMono m s)))

/-- the common shape of `polynomial_inplace_mul`, `_add` and `_sub` with a polynomial on the
left; `selfOp` is the operation of a vector with itself, when both operands are one object -/
def polynomialIOp (op : Poly → Poly → Poly) (selfOp : Poly → Option Poly) (same : Bool)
    (p : Poly) (other : PyVal) : IRes :=
  match other with
  | .poly q =>
    if same then
      match selfOp p with
      | some r => ⟨.poly r, .self⟩
      | none => ⟨.poly p, .ub⟩
    else ⟨.poly (op p q), .self⟩
  | .mono n => ⟨.poly (op p (Poly.ofMono n 1)), .self⟩
  | other =>
    match toRat other with
    | .no => ⟨.poly p, .notImpl⟩
    | .yes s => ⟨.poly (op p (Poly.ofScalar s)), .self⟩
    | .bad => ⟨.poly p, .ub⟩

/-- `polynomial_inplace_div` (`r_py_polynomial.cpp:1629-1651`) -/
def polynomialIDiv (p : Poly) (other : PyVal) : IRes :=
  match other with
  | .poly _ => ⟨.poly p, .raise⟩
  | .mono _ => ⟨.poly p, .raise⟩
  | other =>
    match toRat other with
    | .no => ⟨.poly p, .notImpl⟩
    | .yes s => if s = 0 then ⟨.poly p, .raise⟩ else ⟨.poly (Poly.sdiv p s), .self⟩
    | .bad => ⟨.poly p, .ub⟩

/-- the in-place slot of the left operand (`r_py_polynomial.cpp:222-235`; for polynomials
`:1355-1397`, `:1431-1434`, `:1543-1628`, `:1629-1651`); `same` says whether the operands are
one object.  `p *= p` goes through a temporary. -/
def inplaceSlot (op : Op) (same : Bool) (a b : PyVal) : IRes :=
  match a with
  | .mono m =>
    match op with
    | .add => monomialIAdd m b
    | .sub => monomialISub m b
    | .mul => monomialIMul m b
    | .div => monomialIDiv m b
    | .pow => monomialIPow m b
  | .poly p =>
    match op with
    | .add => polynomialIOp Poly.add (Poly.binarySelf fun l r => l + r) same p b
    | .sub => polynomialIOp Poly.sub (Poly.binarySelf fun l r => l - r) same p b
    | .mul => polynomialIOp Poly.mulInplace (fun p => some (Poly.mulInplace p p)) same p b
    | .div => polynomialIDiv p b
    | .pow => ⟨.poly p, .notImpl⟩
  | a => ⟨a, .notImpl⟩

/-! ## Objects and their reference counts -/

/-- an object with its reference count -/
structure Obj where
  val : PyVal
  rc : ℤ
deriving DecidableEq

/-- a Python namespace: the objects by address (`none` once freed) and the address each variable
refers to -/
structure Store where
  objs : List (Option Obj)
  vars : List ℕ
deriving DecidableEq

namespace Store

/-- the object at an address, if it is alive -/
def obj (st : Store) (a : ℕ) : Option Obj :=
  match st.objs[a]? with
  | some (some o) => some o
  | _ => none

/-- change the reference count of an object; at zero it is freed -/
def addRef (st : Store) (a : ℕ) (d : ℤ) : Option Store :=
  match st.obj a with
  | none => none
  | some o =>
    some { st with objs := st.objs.set a (if o.rc + d ≤ 0 then none else some ⟨o.val, o.rc + d⟩) }

/-- replace the contents of an object -/
def setVal (st : Store) (a : ℕ) (v : PyVal) : Option Store :=
  match st.obj a with
  | none => none
  | some o => some { st with objs := st.objs.set a (some ⟨v, o.rc⟩) }

/-- a new object with one reference, and its address -/
def alloc (st : Store) (v : PyVal) : Store × ℕ :=
  ({ st with objs := st.objs ++ [some ⟨v, 1⟩] }, st.objs.length)

/-- outcome of a statement: the next store, an exception (with the store it leaves), or
undefined -/
inductive Step where
  | next (st : Store)
  | raised (st : Store)
  | ub
deriving DecidableEq

/-- drop the two references held by the evaluation stack -/
def dropOperands (st : Store) (a b : ℕ) : Option Store :=
  match st.addRef a (-1) with
  | none => none
  | some st => st.addRef b (-1)

/-- the end of an augmented assignment: the operands are dropped, the variable is made to refer
to the address `r`, and the reference it held is dropped -/
def finish (st : Store) (x a b r : ℕ) : Step :=
  match st.dropOperands a b with
  | none => .ub
  | some st =>
    match ({ st with vars := st.vars.set x r } : Store).addRef a (-1) with
    | none => .ub
    | some st => .next st

/-- the end of an augmented assignment that raised -/
def fail (st : Store) (a b : ℕ) : Step :=
  match st.dropOperands a b with
  | none => .ub
  | some st => .raised st

/-- the ordinary operator as fallback of the in-place operator -/
def fallback (st : Store) (op : Op) (x a b : ℕ) (va vb : PyVal) : Step :=
  match binaryOp op va vb with
  | .ok v => let (st, r) := st.alloc v; finish st x a b r
  | .ub => .ub
  | _ => fail st a b

/-- The statement `x op= y` of CPython: both operands are pushed on the evaluation stack, the
in-place slot of the left operand is called, then if need be the ordinary operator.  A slot that
returns `self` does so without a new reference (`r_py_polynomial.cpp:771`, `:1364`, `:1372`,
`:1378`, `:1552`, `:1560`, `:1566`, `:1595`, `:1603`, `:1609`, `:1646`). -/
def augAssign (st : Store) (op : Op) (x y : ℕ) : Step :=
  match st.vars[x]?, st.vars[y]? with
  | some a, some b =>
    match st.obj a, st.obj b with
    | some oa, some ob =>
      match st.addRef a 1 with
      | none => .ub
      | some st =>
        match st.addRef b 1 with
        | none => .ub
        | some st =>
          let r := inplaceSlot op (decide (a = b)) oa.val ob.val
          match st.setVal a r.selfAfter with
          | none => .ub
          | some st =>
            match r.out with
            | .self => finish st x a b a
            | .new v => let (st, n) := st.alloc v; finish st x a b n
            | .raise => fail st a b
            | .ub => .ub
            | .notImpl =>
              fallback st op x a b r.selfAfter (if a = b then r.selfAfter else ob.val)
    | _, _ => .ub
  | _, _ => .ub

end Store

/-! ## Construction -/

/-- `construct_new_monomial` (`r_py_polynomial.cpp:515-602`) for a sequence or dictionary of
names with powers: the powers are multiplied together one at a time; `none` in the list is an
item of a wrong type. -/
def newMonomial (U : Unicode) (items : List (Option (List ℕ × ℤ))) : Mono → Option (Option Mono)
  | m =>
    match items with
    | [] => some (some m)
    | none :: _ => some none
    | some (name, pow) :: rest =>
      match parseLetter U name with
      | none => some none
      | some l =>
        match Mono.mul m (Mono.ofLetter l pow) with
        | none => none
        | some m => newMonomial U rest m

/-- `fill_poly_from_dict` (`r_py_polynomial.cpp:1134-1156`) -/
def fillPoly : List (PyVal × PyVal) → Poly → Res
  | [], p => .ok (.poly p)
  | (key, value) :: rest, p =>
    match key, toRat value with
    | _, .bad => .ub
    | .mono m, .yes s => fillPoly rest (Poly.add p (Poly.ofMono m s))
    | _, _ => .raise

/-- `polynomial_new` (`r_py_polynomial.cpp:1158-1233`) with a dictionary -/
def newPolynomial (dict : List (PyVal × PyVal)) : Res := fillPoly dict Poly.zero

/-! ## Items of polynomials -/

/-- Outcome of an item lookup: `terminate` stands for a C++ exception that leaves a slot function and
meets the C code of the interpreter. -/
inductive GetRes where
  | ok (q : ℚ)
  | raise
  | terminate
deriving DecidableEq

/-- The type codes for which the dispatch on a type description
(`scalars/src/scalar/do_macro.h:35-77`) ends with a type; sizes are left out. -/
def dispatches (code : ℕ) : Bool := code ∈ [0, 1, 2, 4, 15, 16]

/-- `Scalar(const rational_scalar_type&)` (`scalars/include/roughpy/scalars/scalar.h:243-259`) followed
by `allocate_data` (`scalars/src/scalar.cpp:47-61`): the type description is packed and read back before
a type is looked up for it; if there is none, an exception is thrown. -/
def scalarOfRational (q : ℚ) : GetRes :=
  if dispatches (Args.readBack ⟨Args.cRational, 32, 8, 1⟩).code then .ok q else .terminate

/-- `polynomial_subscript` (`r_py_polynomial.cpp:1265-1278`) -/
def getItem (p : Poly) (index : PyVal) : GetRes :=
  match index with
  | .mono m => scalarOfRational (Poly.coeff p m)
  | _ => .raise

/-- outcome of an item assignment -/
inductive SetRes where
  | ok (p : Poly)
  | raise
  | ub
deriving DecidableEq

/-- `polynomial_ass_subscript` (`r_py_polynomial.cpp:1279-1316`), for an index that is a monomial
(`some`) or something else (`none`). -/
def setItem (p : Poly) (index : Option Mono) (arg : PyVal) : SetRes :=
  let m := match index with | some m => m | none => Mono.one
  match toRat arg with
  | .bad => .ub
  | .yes _ => .raise
  | .no =>
    let newarg : ℚ := 0
    if newarg ≠ 0 then .ok (Poly.modify p m fun _ => newarg) else .raise

/-! ## Archives -/

/-- `save` of a monomial (`scalar_serialization.h:292-306`) as the sequence of numbers written:
the number of entries, then symbol, index and exponent of each -/
def saveMono (m : Mono) : List ℤ :=
  (m.entries.length : ℤ) ::
    m.entries.flatMap fun e => [(Letter.symbol e.1 : ℤ), (Letter.index e.1 : ℤ), e.2]

/-- the loop of `load` of a monomial (`scalar_serialization.h:318-323`) -/
def loadEntries : ℕ → Mono → List ℤ → Option (Mono × List ℤ)
  | 0, m, ts => some (m, ts)
  | n + 1, m, s :: i :: d :: ts =>
    loadEntries n (m.set (mkLetter s.toNat i.toNat) d) ts
  | _ + 1, _, _ => none

/-- `load` of a monomial into an existing object (`scalar_serialization.h:308-324`) -/
def loadMono (m : Mono) : List ℤ → Option (Mono × List ℤ)
  | [] => none
  | n :: ts => loadEntries n.toNat m ts

/-- `save` of a polynomial (`scalar_serialization.h:345-356`): numerators and denominators are
single numbers here -/
def savePoly (p : Poly) : List ℤ :=
  (p.length : ℤ) :: p.flatMap fun e => saveMono e.1 ++ [e.2.num, (e.2.den : ℤ)]

/-- the loop of `load` of a polynomial (`scalar_serialization.h:338-342`): one monomial object
`m` serves for all terms -/
def loadTerms : ℕ → Mono → Poly → List ℤ → Option (Poly × List ℤ)
  | 0, _, p, ts => some (p, ts)
  | n + 1, m, p, ts =>
    match loadMono m ts with
    | some (m, a :: b :: ts) => loadTerms n m (Poly.modify p m fun _ => (a / b : ℚ)) ts
    | _ => none

/-- `load` of a polynomial into a new object (`scalar_serialization.h:327-343`) -/
def loadPoly : List ℤ → Option (Poly × List ℤ)
  | [] => none
  | n :: ts => loadTerms n.toNat Mono.one Poly.zero ts

end RoughPy.Polys
