import Verif.Tensor.Model
import Verif.Tensor.Spec

/-!
# What the arrays of the kernels mean

The bridge between the memory model and the specification: which tensor an array holds, and
when a view may be used with an array.
-/

namespace RoughPy.Tensor

variable {K : Type}

/-- the coefficients stored in an array, indexed by words -/
def Buf.ser (w : ℕ) (b : Buf K) : Series (Fin w) K := fun u => b.get (wordIndex u)

section
variable [CommRing K]

/-- The tensor over `w` letters held by an array through a view: the coefficient of a word is
the entry at its index, zero for words outside the degree range of the view. -/
def View.series (v : View) (w : ℕ) (b : Buf K) : Series (Fin w) K := fun u =>
  if v.minDeg ≤ u.length ∧ u.length ≤ v.maxDeg then b.get (wordIndex u) else 0

/-- the same without the scalar part -/
def View.positive (v : View) (w : ℕ) (b : Buf K) : Series (Fin w) K :=
  fun u => if u = [] then 0 else v.series w b u

end

/-- the view lies inside its basis and inside the array -/
structure View.Valid (v : View) (size : ℕ) : Prop where
  maxDeg_le : v.maxDeg ≤ v.depth
  fits : wordsBelow v.width (v.maxDeg + 1) ≤ size

/-- a freshly allocated array (`np.zeros`) with room for all words of length at most `D` -/
def Buf.zeros [Zero K] (w D : ℕ) : Buf K := ⟨wordsBelow w (D + 1), fun _ => 0⟩

end RoughPy.Tensor
