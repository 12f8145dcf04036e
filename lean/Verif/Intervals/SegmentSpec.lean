import Verif.Intervals.Segment
import Verif.Intervals.Spec

/-!
# Vocabulary for the theorems about `segment`
-/

namespace RoughPy.Intervals

/-- The `k`-th of the points that divide the interval into `2^n` equal parts (`k = 0` is the
left end, `k = 2^n` the right end; other `k` continue the grid outside). -/
def gridPoint (I : RealInterval) (n : ℕ) (k : ℤ) : ℚ :=
  I.inf + (I.sup - I.inf) * k / 2 ^ n

/-- The `k`-th of the `2^n` equal parts of the interval. -/
def gridCell (I : RealInterval) (n : ℕ) (k : ℤ) : RealInterval :=
  ⟨gridPoint I n k, gridPoint I n (k + 1), .clopen⟩

/-- The predicate tells, for intervals closed on the left, whether they lie inside `G`. -/
def Decides (pred : Pred) (G : Set ℚ) : Prop :=
  ∀ x y, x < y → (pred ⟨x, y, .clopen⟩ = true ↔ Set.Ico x y ⊆ G)

/-- The intervals in `l` follow each other without gap from `a` to `b`. -/
def Follow : List RealInterval → ℚ → ℚ → Prop
  | [], a, b => a = b
  | J :: l, a, b => J.inf = a ∧ Follow l J.sup b

end RoughPy.Intervals
