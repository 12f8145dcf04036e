import Verif.Lie.Spec
import Verif.Tensor.Spec
import Verif.Tensor.Series

/-!
# Vocabulary for the maps between Lie elements and tensors
-/

namespace RoughPy.Lie

open RoughPy.Tensor (Buf Series)
open RoughPy.Tensor.Series (letter)

/-- The keys of a basis as tensors: the first keys are the letters, every key of higher degree is the commutator of its
parents. -/
structure HallTensors {K : Type*} [CommRing K] {w : ℕ} (b : Basis) (e : ℕ → Series (Fin w) K) : Prop where
  letter : ∀ i : Fin w, e (i.val + 1) = letter K i
  bracket : ∀ n k i j, 2 ≤ n → HasDegree b k n → b.data[k]? = some (i, j) → e k = e i * e j - e j * e i

/-- The Lie element with coordinates `x` (the coordinate of key `k` is at `k - 1`), as a tensor. -/
def lieValue {K : Type} [CommRing K] {w : ℕ} (b : Basis) (e : ℕ → Series (Fin w) K) (x : Buf K) : Series (Fin w) K :=
  ∑ k ∈ Finset.range (b.data.length - 1), x.get k • e (k + 1)

/-- The optional scale factor. -/
def factor {K : Type} [One K] : Option K → K
  | none => 1
  | some s => s

end RoughPy.Lie
