import Verif.Lite.TensorLemmas

/-!
# Tensor expressions

An expression built from words by the operations of the tensor algebra, its value in the tensor
algebra (`value`, which mentions no vectors), and its evaluation by the modelled code (`eval`).
-/

namespace RoughPy.Lite

open RoughPy.Tensor RoughPy.Tensor.Series Finset

/-- The entry of a dense vector at the index of a word is the coefficient of the word in `f`;
entries beyond the end of the storage count as zero, and there are none beyond `depth`. -/
def DenseValue {K : Type} [Zero K] (w depth : ℕ) (v : Dense K) (f : Series (Fin w) K) : Prop :=
  (∀ u : List (Fin w), u.length ≤ depth →
    (∀ x, v.storage[wordIndex u]? = some x → x = f u) ∧
    (v.storage[wordIndex u]? = none → f u = 0)) ∧
  v.storage.length ≤ wordsBelow w (depth + 1)

/-- The entries of a sparse vector are the non-zero coefficients of `f` at the words of at most
`depth` letters, and nothing else. -/
def SparseValue {K : Type} [Zero K] (w depth : ℕ) (v : Sparse K) (f : Series (Fin w) K) : Prop :=
  v.Pairwise (fun a b => a.1 < b.1) ∧
  (∀ p ∈ v, ∃ u : List (Fin w), u.length ≤ depth ∧ p = (wordKey u, f u) ∧ f u ≠ 0) ∧
  ∀ u : List (Fin w), u.length ≤ depth → f u ≠ 0 → (wordKey u, f u) ∈ v

/-- Expressions over tensors on `w` letters. -/
inductive TExpr (w : ℕ) (K : Type) : Type
  /-- `c` times a word -/
  | word (u : List (Fin w)) (c : K)
  /-- `e` with `c` added to the coefficient of a word: `e[key] += c` -/
  | addCoef (e : TExpr w K) (u : List (Fin w)) (c : K)
  | neg (e : TExpr w K)
  | smul (e : TExpr w K) (c : K)
  | sdiv (e : TExpr w K) (c : K)
  | add (a b : TExpr w K)
  | sub (a b : TExpr w K)
  /-- `a += b` -/
  | addIn (a b : TExpr w K)
  /-- `a -= b` -/
  | subIn (a b : TExpr w K)
  | mul (a b : TExpr w K)
  | comm (a b : TExpr w K)
  | exp (e : TExpr w K)
  | log (e : TExpr w K)
  /-- `a.fmexp(x)` -/
  | fmexp (a x : TExpr w K)

namespace TExpr
variable {w : ℕ} {K T : Type} [Field K]

/-- The words have at most `D` letters and no division by zero occurs. -/
def Ok (D : ℕ) : TExpr w K → Prop
  | word u _ => u.length ≤ D
  | addCoef e u _ => e.Ok D ∧ u.length ≤ D
  | neg e | smul e _ | exp e | log e => e.Ok D
  | sdiv e c => e.Ok D ∧ c ≠ 0
  | add a b | sub a b | addIn a b | subIn a b | mul a b | comm a b | fmexp a b => a.Ok D ∧ b.Ok D

/-- The value in the tensor algebra; only words of at most `D` letters matter. -/
def value (D : ℕ) : TExpr w K → Series (Fin w) K
  | word u c => fun v => if v = u then c else 0
  | addCoef e u c => fun v => e.value D v + if v = u then c else 0
  | neg e => -e.value D
  | smul e c => c • e.value D
  | sdiv e c => c⁻¹ • e.value D
  | add a b | addIn a b => a.value D + b.value D
  | sub a b | subIn a b => a.value D - b.value D
  | mul a b => a.value D * b.value D
  | comm a b => a.value D * b.value D - b.value D * a.value D
  | exp e => fun u => ∑ n ∈ range (D + 1), ((n.factorial : K))⁻¹ * (e.value D).power n u
  | log e => tlog (1 + noScalar (e.value D))
  | fmexp a x => a.value D * texp (noScalar (x.value D))

/-- Evaluation by the modelled code. -/
def eval [DecidableEq K] (A : AlgOps K T) : TExpr w K → Option T
  | word u c => A.single (wordKey u) c
  | addCoef e u c => do A.modify (← e.eval A) (wordKey u) fun x => x + c
  | neg e => do some (A.neg (← e.eval A))
  | smul e c => do some (A.smul (← e.eval A) c)
  | sdiv e c => do A.sdiv (← e.eval A) c
  | add a b => do some (A.add (← a.eval A) (← b.eval A))
  | sub a b => do some (A.sub (← a.eval A) (← b.eval A))
  | addIn a b => do some (A.addInplace (← a.eval A) (← b.eval A))
  | subIn a b => do some (A.subInplace (← a.eval A) (← b.eval A))
  | mul a b => do A.mul (← a.eval A) (← b.eval A)
  | comm a b => do A.commutator (← a.eval A) (← b.eval A)
  | exp e => do A.exp (← e.eval A)
  | log e => do A.log (← e.eval A)
  | fmexp a x => do A.fmexp (← a.eval A) (← x.eval A)

end TExpr

end RoughPy.Lite
