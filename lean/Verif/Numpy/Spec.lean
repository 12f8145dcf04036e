import Verif.Numpy.Model
import Mathlib.Algebra.BigOperators.Group.List.Basic

/-!
# The array of coefficients
-/

namespace RoughPy.Numpy

variable {K : Type}

/-- the coefficient of the key at a position of the basis -/
def Element.coeff [AddMonoid K] : Element K → ℕ → K
  | .unset, _ => 0
  | .dense _ data, n => (data[n]?).elim 0 id
  | .sparse _ items, n => ((items.filter fun x => x.1 == n).map fun x => x.2).sum

/-- the type of the coefficients, if there is one -/
def Element.info : Element K → Option Info
  | .unset => none
  | .dense i _ => some i
  | .sparse i _ => some i

/-- what numpy shows is this coefficient -/
def Cell.Shows (c : Cell K) (k : K) : Prop := c = .num k ∨ c = .obj k

/-- An array has one entry for each of the `dim` keys: its coefficient. -/
def NpArray.Holds [AddMonoid K] (a : NpArray K) (e : Element K) (dim : ℕ) : Prop :=
  a.cells.length = dim ∧ ∀ n, n < dim → ∃ c, a.cells[n]? = some c ∧ c.Shows (e.coeff n)

/-- numbers that numpy has: integers of 1, 2, 4, 8 bytes and floating point numbers of 2, 4, 8 bytes -/
inductive Native : Info → Npy → Prop where
  | int (b : ℕ) (h : b = 1 ∨ b = 2 ∨ b = 4 ∨ b = 8) : Native ⟨.int, b⟩ (.int (8 * b))
  | uint (b : ℕ) (h : b = 1 ∨ b = 2 ∨ b = 4 ∨ b = 8) : Native ⟨.uint, b⟩ (.uint (8 * b))
  | float (b : ℕ) (h : b = 2 ∨ b = 4 ∨ b = 8) : Native ⟨.float, b⟩ (.float (8 * b))

/-- the coefficient types that are Python objects: fractions and polynomials -/
def Objects (i : Info) : Prop := i.code = .apRational ∨ i.code = .apRationalPolynomial

end RoughPy.Numpy
