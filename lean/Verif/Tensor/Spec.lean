import Mathlib.Algebra.BigOperators.Ring.Finset
import Mathlib.Algebra.BigOperators.Intervals
import Mathlib.Algebra.BigOperators.Fin
import Mathlib.Algebra.Algebra.Basic
import Mathlib.Algebra.Module.Pi
import Mathlib.Algebra.Field.Basic
import Mathlib.Data.Nat.Factorial.Basic
import Mathlib.Tactic.NoncommRing
import Mathlib.Tactic.Ring
import Mathlib.Tactic.Abel

/-!
# Specification vocabulary for tensors

A tensor is, mathematically, a family of coefficients indexed by words.  Nothing in this
file refers to the code: words are lists of letters, the product is the concatenation
(Cauchy) product, truncation is equality on words of bounded length.
-/

open Finset

namespace RoughPy.Tensor

/-- A (formal) tensor series: one coefficient per word. -/
def Series (α K : Type*) : Type _ := List α → K

namespace Series

variable {α K : Type*} [CommRing K]

instance : AddCommGroup (Series α K) := inferInstanceAs (AddCommGroup (List α → K))
instance : Module K (Series α K) := inferInstanceAs (Module K (List α → K))

omit [CommRing K] in
@[ext] theorem ext {f g : Series α K} (h : ∀ u, f u = g u) : f = g := funext h

/-- Concatenation product: `(f*g)(u) = Σ over factorisations u = v w of f(v) g(w)`. -/
instance : Mul (Series α K) :=
  ⟨fun f g u => ∑ k ∈ range (u.length + 1), f (u.take k) * g (u.drop k)⟩

/-- The unit: coefficient one on the empty word. -/
instance : One (Series α K) := ⟨fun u => match u with | [] => 1 | _ => 0⟩

/-- Two series have the same truncation at degree `D`. -/
def EqUpTo (D : ℕ) (f g : Series α K) : Prop := ∀ u : List α, u.length ≤ D → f u = g u

/-- Drop all words longer than `D`. -/
def trunc (D : ℕ) (f : Series α K) : Series α K := fun u => if u.length ≤ D then f u else 0

/-- Drop the scalar part. -/
def noScalar (f : Series α K) : Series α K := fun u => if u = [] then 0 else f u

/-- The antipode: reverse every word, with sign `(-1)^length`. -/
def antipode (f : Series α K) : Series α K := fun u => (-1) ^ u.length * f u.reverse

end Series

/-- The concatenation product makes series a ring; proved in `Series.lean`.  Powers below are
iterated products. -/
def Series.power {α K : Type*} [CommRing K] (x : Series α K) : ℕ → Series α K
  | 0 => 1
  | n + 1 => Series.power x n * x

/-- The exponential series `Σ xⁿ/n!`.  For `x` without scalar part the powers beyond the length
of the word do not contribute, so that the sum can be stopped there. -/
def Series.texp {α K : Type*} [Field K] (x : Series α K) : Series α K :=
  fun u => ∑ n ∈ range (u.length + 1), ((n.factorial : K))⁻¹ * x.power n u

/-- The logarithm series `Σ_{n ≥ 1} (-1)^{n+1} (g-1)ⁿ/n`, likewise. -/
def Series.tlog {α K : Type*} [Field K] (g : Series α K) : Series α K :=
  fun u => ∑ n ∈ range (u.length + 1),
    (if n = 0 then 0 else (-1) ^ (n + 1) / (n : K)) * (g - 1).power n u

/-- All ways to distribute the letters of a word over two sub-words, keeping the order in
each; one entry for each of the `2^length` choices. -/
def splittings {α : Type*} : List α → List (List α × List α)
  | [] => [([], [])]
  | a :: u => (splittings u).map (fun p => (a :: p.1, p.2)) ++
      (splittings u).map (fun p => (p.1, a :: p.2))

/-- The shuffle product of two series: `(f ⧢ g)(u)` is the sum of `f(v) g(w)` over all ways to
split the positions of `u` into two complementary sub-words `v` and `w`. -/
def Series.shuffle {α K : Type*} [CommRing K] (f g : Series α K) : Series α K :=
  fun u => ((splittings u).map fun p => f p.1 * g p.2).sum

/-- All interleavings of two words, with multiplicity. -/
def shuffles {α : Type*} : List α → List α → List (List α)
  | [], v => [v]
  | a :: u, [] => [a :: u]
  | a :: u, b :: v =>
    (shuffles u (b :: v)).map (fun z => a :: z) ++ (shuffles (a :: u) v).map (fun z => b :: z)
termination_by u v => u.length + v.length

/-- The pairing of a series with the shuffle product of two words. -/
def Series.onShuffle {α K : Type*} [CommRing K] (f : Series α K) (u v : List α) : K :=
  ((shuffles u v).map fun z => f z).sum

/-- The shuffle identity: pairing with a shuffle product is multiplicative. -/
def Series.GroupLike {α K : Type*} [CommRing K] (f : Series α K) : Prop :=
  f [] = 1 ∧ ∀ u v, f.onShuffle u v = f u * f v

/-- A single letter, as a tensor. -/
def Series.letter {α : Type*} (K : Type*) [CommRing K] [DecidableEq α] (a : α) : Series α K :=
  fun u => if u = [a] then 1 else 0

/-- The tensor with coefficient one on one word. -/
def Series.word {α : Type*} (K : Type*) [CommRing K] [DecidableEq α] (u : List α) : Series α K :=
  fun z => if z = u then 1 else 0

/-- Lie elements: generated from the letters by linear combinations and commutators. -/
inductive Series.IsLie {α K : Type*} [CommRing K] [DecidableEq α] : Series α K → Prop
  | letter (a : α) : IsLie (Series.letter K a)
  | zero : IsLie 0
  | add {x y : Series α K} : IsLie x → IsLie y → IsLie (x + y)
  | smul (c : K) {x : Series α K} : IsLie x → IsLie (c • x)
  | bracket {x y : Series α K} : IsLie x → IsLie y → IsLie (x * y - y * x)

/-- Sum over all words of length `n`. -/
def sumWords {α M : Type*} [Fintype α] [AddCommMonoid M] : ℕ → (List α → M) → M
  | 0, F => F []
  | n + 1, F => ∑ a : α, sumWords n fun u => F (a :: u)

/-- The word pairing, restricted to words of length at most `D`. -/
def pairing {α K : Type*} [Fintype α] [CommRing K] (D : ℕ) (f g : Series α K) : K :=
  ∑ n ∈ range (D + 1), sumWords n fun u => f u * g u

/-- Position of a word among the words of the same length, in lexicographic order:
the word read as a number in base `w`, first letter most significant. -/
def wordOffset {w : ℕ} : List (Fin w) → ℕ
  | [] => 0
  | a :: u => a.val * w ^ u.length + wordOffset u

/-- Number of words of length less than `d` over `w` letters. -/
def wordsBelow (w d : ℕ) : ℕ := ∑ i ∈ range d, w ^ i

/-- Position of a word among all words, shorter words first, then lexicographically. -/
def wordIndex {w : ℕ} (u : List (Fin w)) : ℕ := wordsBelow w u.length + wordOffset u

end RoughPy.Tensor
