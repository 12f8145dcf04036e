import Verif.Intervals.Model
import Mathlib.Order.Interval.Set.Basic
import Mathlib.Data.Set.Pairwise.Basic

/-!
# Specification vocabulary for intervals

Everything here is about rational numbers and sets of rational numbers; only the raw data
fields of the model structures are used, none of the model's functions.
-/

namespace RoughPy.Intervals

/-- The number `k / 2^n` (with `n` possibly negative). -/
def dyadicValue (k n : ℤ) : ℚ := (k : ℚ) / (2 : ℚ) ^ n

/-- Points of a half-open interval with end points `a`, `b`. -/
def span (t : IType) (a b : ℚ) : Set ℚ :=
  match t with
  | .clopen => Set.Ico a b
  | .opencl => Set.Ioc a b

/-- The dyadic interval with data `(k, n, type)` as a set:
`[k/2^n, (k+1)/2^n)` for clopen and `((k-1)/2^n, k/2^n]` for opencl. -/
def DyadicInterval.points (d : DyadicInterval) : Set ℚ :=
  match d.type with
  | .clopen => Set.Ico (dyadicValue d.k d.n) (dyadicValue (d.k + 1) d.n)
  | .opencl => Set.Ioc (dyadicValue (d.k - 1) d.n) (dyadicValue d.k d.n)

/-- The left end of a dyadic interval. -/
def DyadicInterval.left (d : DyadicInterval) : ℚ :=
  match d.type with
  | .clopen => dyadicValue d.k d.n
  | .opencl => dyadicValue (d.k - 1) d.n

/-- The right end of a dyadic interval. -/
def DyadicInterval.right (d : DyadicInterval) : ℚ :=
  match d.type with
  | .clopen => dyadicValue (d.k + 1) d.n
  | .opencl => dyadicValue d.k d.n

/-- The points of a real interval. -/
def RealInterval.points (i : RealInterval) : Set ℚ := span i.type i.inf i.sup

/-- `l` is a list of consecutive intervals leading from `a` to `b`: the first starts at `a`,
each starts where its predecessor ends, the last ends at `b` (and `a = b` if `l` is empty). -/
def TilesFrom : List DyadicInterval → ℚ → ℚ → Prop
  | [], a, b => a = b
  | d :: l, a, b => d.left = a ∧ TilesFrom l d.right b

end RoughPy.Intervals
