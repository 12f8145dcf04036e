import Verif.GenPoly.Model

/-!
# Specification vocabulary for the generic polynomials

Monomials and polynomials as functions of the values of their indeterminates.
-/

namespace RoughPy.GenPoly

/-- The value of a monomial where the indeterminates have the values `x`. -/
def monoVal (x : Ind → ℚ) (m : Mono) : ℚ := (m.map fun e => x e.1 ^ e.2).prod

/-- The value of a polynomial. -/
def polyVal (x : Ind → ℚ) (p : List (Mono × ℚ)) : ℚ := (p.map fun t => t.2 * monoVal x t.1).sum

/-- A monomial in normal form: the indeterminates are in increasing order, the powers positive. -/
structure MonoOk (m : Mono) : Prop where
  sorted : m.Pairwise fun a b => a.1 < b.1
  powers : ∀ e ∈ m, 0 < e.2

/-- A polynomial in normal form: monomials in normal form and in increasing order, no coefficient
zero. -/
structure PolyOk (p : List (Mono × ℚ)) : Prop where
  sorted : p.Pairwise fun s t => monoLt s.1 t.1 = true
  monos : ∀ t ∈ p, MonoOk t.1
  coeffs : ∀ t ∈ p, t.2 ≠ 0

/-- The indeterminates of a monomial; the monomials of a polynomial. -/
def keys {K V : Type} (l : List (K × V)) : List K := l.map fun e => e.1

end RoughPy.GenPoly
