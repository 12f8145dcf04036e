import Verif.BigNum.Model
import Mathlib.Data.Rat.Lemmas
import Mathlib.Algebra.Order.Field.Rat

/-!
# What is expected of numbers of arbitrary precision
-/

namespace RoughPy.BigNum

/-- The number that a fraction stands for. -/
def val (a : Mpq) : ℚ := (a.num : ℚ) / (a.den : ℚ)

/-- Fractions in lowest terms. -/
structure Lowest (a : Mpq) : Prop where
  pos : 0 < a.den
  coprime : a.num.natAbs.Coprime a.den.natAbs

/-- A call returns a fraction in lowest terms that stands for `q`. -/
def Gives (r : Out Mpq) (q : ℚ) : Prop := ∃ a, r = .ok a ∧ Lowest a ∧ val a = q

/-- The operations as functions of numbers. -/
def Op.exact : Op → ℚ → ℚ → ℚ
  | .add, x, y => x + y
  | .sub, x, y => x - y
  | .mul, x, y => x * y
  | .div, x, y => x / y

/-- The comparisons as relations of numbers. -/
def Cmp.holds {α : Type} [LinearOrder α] : Cmp → α → α → Prop
  | .eq, x, y => x = y
  | .lt, x, y => x < y
  | .le, x, y => x ≤ y
  | .gt, x, y => y < x
  | .ge, x, y => y ≤ x

end RoughPy.BigNum
