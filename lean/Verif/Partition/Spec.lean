import Verif.Partition.Model
import Verif.Intervals.Spec

/-! # Specification vocabulary for partitions -/

namespace RoughPy.Partition

open RoughPy.Intervals

/-- Consecutive intervals leading from `a` to `b`. -/
def Tiles : List RealInterval → ℚ → ℚ → Prop
  | [], a, b => a = b
  | d :: l, a, b => d.inf = a ∧ d.inf ≤ d.sup ∧ Tiles l d.sup b

/-- Partitions a user can get hold of: constructed from a valid interval and arbitrary
points, then modified by the public operations (the argument of `merge` being any other such
partition). -/
inductive Reachable : Partition → Prop
  | base (b : RealInterval) : b.inf ≤ b.sup → Reachable (.ofBase b)
  | points (b : RealInterval) (mids : List ℚ) : b.inf ≤ b.sup → Reachable (.ofPoints b mids)
  | refine (p) : Reachable p → Reachable p.refineMidpoints
  | insert (p x q) : Reachable p → p.insert x = some q → Reachable q
  | merge (p q m) : Reachable p → Reachable q → p.merge q = some m → Reachable m

/-- A proper partition: `inf < p₁ < p₂ < … < sup`. -/
def Proper (p : Partition) : Prop :=
  p.base.inf < p.base.sup ∧ p.pts.Pairwise (· < ·) ∧
    ∀ x ∈ p.pts, p.base.inf < x ∧ x < p.base.sup

end RoughPy.Partition
