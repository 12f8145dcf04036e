import Mathlib.Data.List.Basic

/-!
# The words of a tensor basis in order
-/

namespace RoughPy.Tensor

/-- words with `n` letters from `1, …, w`, in the order of a dictionary -/
def wordsOfLength (w : ℕ) : ℕ → List (List ℕ)
  | 0 => [[]]
  | n + 1 => (List.range w).flatMap fun a => (wordsOfLength w n).map fun u => (a + 1) :: u

/-- words with at most `d` letters, shorter words first -/
def wordsUpTo (w d : ℕ) : List (List ℕ) := (List.range (d + 1)).flatMap (wordsOfLength w)

end RoughPy.Tensor
