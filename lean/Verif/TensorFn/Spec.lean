import Verif.TensorFn.Model
import Verif.Tensor.Spec

/-!
# What `Log` is documented to be

Stated with the series of `Tensor.Spec`: the logarithm series, group-like series, and the pairing with shuffles
of words.
-/

namespace RoughPy.TensorFn

open Tensor

variable {α K : Type} [DecidableEq α] [Field K] [DecidableEq K]

/-- The items of an element of the algebra: each key once, no word longer than the depth. -/
structure Element (D : ℕ) (x : Items α K) : Prop where
  keyed : (x.map Prod.fst).Nodup
  short : ∀ e ∈ x, e.1.length ≤ D

/-- The coefficients. -/
def series (x : Items α K) : Series α K := fun u => Dict.val x u

/-- Group-like in the tensor algebra truncated at degree `D`. -/
def GroupLikeUpTo (D : ℕ) (f : Series α K) : Prop :=
  f [] = 1 ∧ ∀ u v : List α, u.length + v.length ≤ D → f.onShuffle u v = f u * f v

/-- The documentation: "Linear function on tensors that agrees with log on the group-like elements." -/
def AgreesWithLog (D : ℕ) (F : Items α K → Option (Items α K)) : Prop :=
  ∀ x, Element D x → GroupLikeUpTo D (series x) →
    ∃ y, F x = some y ∧ series y = Series.trunc D (Series.tlog (series x))

end RoughPy.TensorFn
