import Verif.Poly.Model
import Mathlib.Algebra.MonoidAlgebra.Defs

/-!
# What monomials and polynomials stand for

A monomial stands for the exponents of its indeterminates, a polynomial for an element of the
algebra of (Laurent) polynomials over the rational numbers in indeterminates numbered by their
64 bit words.
-/

namespace RoughPy.Polys

open RoughPy.Lite

/-- exponents of the indeterminates -/
abbrev Exps := ℕ →₀ ℤ

/-- polynomials in infinitely many commuting indeterminates; negative exponents are allowed -/
abbrev Laurent := AddMonoidAlgebra ℚ Exps

/-- the monomial with given exponents, times a number -/
noncomputable def term (e : Exps) (c : ℚ) : Laurent := AddMonoidAlgebra.single e c

/-- a number as a polynomial -/
noncomputable def const (c : ℚ) : Laurent := term 0 c

/-- what a monomial stands for -/
noncomputable def Mono.exps (m : Mono) : Exps :=
  (m.entries.map fun e => Finsupp.single e.1 e.2).sum

/-- what a polynomial stands for -/
noncomputable def Poly.val (p : Poly) : Laurent :=
  (p.map fun e => term e.1.exps e.2).sum

/-- Invariant of `flat_map`: keys increase.  -/
def Mono.WF (m : Mono) : Prop := SMap.Sorted m.entries

/-- Every listed indeterminate occurs. -/
def Mono.Proper (m : Mono) : Prop := ∀ e ∈ m.entries, e.2 ≠ 0

/-- Invariant of `sparse_vector`: keys increase and no coefficient is zero. -/
def Poly.WF (p : Poly) : Prop := SMap.Sorted p ∧ ∀ e ∈ p, e.1.WF ∧ e.2 ≠ 0

/-- every listed indeterminate of every term occurs -/
def Poly.Proper (p : Poly) : Prop := ∀ e ∈ p, e.1.Proper

/-- invariants of a Python value; a `Fraction` has a positive denominator -/
def PyVal.WF : PyVal → Prop
  | .mono m => m.WF
  | .poly p => p.WF
  | .frac _ d => 0 < d
  | _ => True

/-- numbers that fit in 64 bits: at least `-2^63` and below `2^63` -/
def fits (n : ℤ) : Prop := -9223372036854775808 ≤ n ∧ n < 9223372036854775808

/-- `IsNum v q`: the object `v` is a number of Python that the library can read, with value
`q` -/
inductive IsNum : PyVal → ℚ → Prop where
  | int {n : ℤ} : fits n → IsNum (.int n) n
  | float {x : ℚ} : IsNum (.float x) x
  | frac {n d : ℤ} : fits n → fits d → IsNum (.frac n d) (n / d)

/-- `Means v x`: the object `v` stands for the polynomial `x` -/
inductive Means : PyVal → Laurent → Prop where
  | num {v : PyVal} {q : ℚ} : IsNum v q → Means v (const q)
  | mono {m : Mono} : Means (.mono m) (term m.exps 1)
  | poly {p : Poly} : Means (.poly p) p.val

/-- the object is a monomial or a polynomial -/
def PyVal.symbolic : PyVal → Prop
  | .mono _ => True
  | .poly _ => True
  | _ => False

/-- Every indeterminate listed in `rhs`, except the last one, is listed in `lhs`. -/
def Mono.SafeMul (lhs rhs : Mono) : Prop :=
  ∀ e ∈ rhs.entries.dropLast, ∃ d, (e.1, d) ∈ lhs.entries

/-- The value bound to a variable by `x op= y` (the reference counts apart): the left operand as
the in-place operator leaves it, or the object it returns, or else the value of the ordinary
operator. -/
def rebind (op : Op) (same : Bool) (a b : PyVal) : Res :=
  match (inplaceSlot op same a b).out with
  | .self => .ok (inplaceSlot op same a b).selfAfter
  | .new v => .ok v
  | .raise => .raise
  | .ub => .ub
  | .notImpl => binaryOp op (inplaceSlot op same a b).selfAfter b

/-- an indeterminate occurs in a monomial -/
def Mono.Has (m : Mono) (l : Letter) : Prop := ∃ d, (l, d) ∈ m.entries

/-- code points of the letters `A` to `Z` and `a` to `z` -/
def asciiLetter (c : ℕ) : Prop := (65 ≤ c ∧ c ≤ 90) ∨ (97 ≤ c ∧ c ≤ 122)

/-- what is known of the Unicode database: the letters and digits of ASCII -/
structure Unicode.Ascii (U : Unicode) : Prop where
  alpha : ∀ c, asciiLetter c → U.isAlpha c = true
  digit : ∀ d, d < 10 → U.digit (48 + d) = some d

/-- the number written by decimal digits -/
def decimal (ds : List ℕ) : ℕ := ds.foldl (fun n d => n * 10 + d) 0

/-- a name: a letter followed by digits -/
def name (c : ℕ) (ds : List ℕ) : List ℕ := c :: ds.map (48 + ·)

end RoughPy.Polys
