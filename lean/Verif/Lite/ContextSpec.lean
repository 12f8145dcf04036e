import Verif.Lite.ContextModel
import Verif.Lite.MapsSpec
import Verif.Lite.TensorSpec
import Verif.Tensor.Dynkin
import Mathlib.Algebra.Polynomial.Eval.Defs

/-!
# Vocabulary for the context

`IsTensor` and `IsLieElem` say which tensor an element stands for, whatever its storage type; they
include what the library keeps true of its vectors (order and non-zero coefficients of sparse
vectors; recorded degree and size of dense ones).
-/

namespace RoughPy.Lite

open RoughPy.Tensor RoughPy.Tensor.Series

variable {K : Type}

/-- A tensor of a context stands for `f`, up to the depth: its entries are the coefficients of `f`
at the words.  The storage of a dense tensor is empty or ends with its recorded degree. -/
def IsTensor [CommRing K] (w depth : ℕ) : Stored K → Series (Fin w) K → Prop
  | .sparse v, f => SparseValue w depth v f
  | .dense v, f => DenseValue w depth v f ∧
    (v.storage = [] ∨ v.degree ≤ depth ∧ v.storage.length = wordsBelow w (v.degree + 1))

/-- A Lie element of a context stands for `f`, up to the depth: `f` is the sum of its keys with
their coefficients, where `e` gives the meaning of the keys.  The storage of a dense element does
not go beyond its recorded degree. -/
def IsLieElem [CommRing K] [DecidableEq K] {w : ℕ} (c : LiteCtx) (e : Key → Series (Fin w) K) :
    Stored K → Series (Fin w) K → Prop
  | .sparse v, f => v.Pairwise (fun a b => a.1 < b.1) ∧ (∀ t ∈ v, c.hs.HasKey t.1 ∧ t.2 ≠ 0) ∧
    EqUpTo c.depth (itemsValue e v) f
  | .dense v, f => v.degree ≤ c.depth ∧ (∃ n, c.hs.size v.degree = some n ∧ v.storage.length ≤ n) ∧
    ∃ l, Dense.items c.lieBasis v = some l ∧ EqUpTo c.depth (itemsValue e l) f

/-- Two elements of the same kind compare equal. -/
def Stored.Same [Field K] [DecidableEq K] (B : Basis) : Stored K → Stored K → Prop
  | .sparse v, .sparse v' => (Sparse.ops : VecOps K (Sparse K)).beq v v' = true
  | .dense v, .dense v' => (Dense.ops B : VecOps K (Dense K)).beq v v' = true
  | _, _ => False

/-- The Dynkin operator with its normalisation, up to a degree: `∑_u f(u) / |u| · [u₁, [u₂, … ]]`.
The bracketing of the empty word is zero. -/
def dynkinUpTo (K : Type) [Field K] {w : ℕ} (D : ℕ) (f : Series (Fin w) K) : Series (Fin w) K :=
  ∑ n ∈ Finset.range (D + 1), sumWords n fun u : List (Fin w) => (f u / (n : K)) • rb K u

/-- A computation with the maps of a context succeeds, whatever they remember, with a result of
which `P` holds, and they then remember what they can remember.  `fuel` bounds recursions; every
large enough bound will do. -/
def LiteCtx.Computes (c : LiteCtx) {T : Type} (run : ℕ → MapsState → Option (T × MapsState))
    (P : T → Prop) : Prop :=
  ∃ n₀, ∀ fuel ≥ n₀, ∀ st, MapsHistory c.width c.depth c.hs st →
    ∃ r st', run fuel st = some (r, st') ∧ MapsHistory c.width c.depth c.hs st' ∧ P r

/-- A computation gives elements that compare equal, whatever the maps of the context remember. -/
def LiteCtx.SameResult [Field K] [DecidableEq K] (c : LiteCtx) (B : Basis)
    (run : ℕ → MapsState → Option (Stored K × MapsState)) : Prop :=
  ∃ n₀, ∀ fuel ≥ n₀, ∀ fuel' ≥ n₀, ∀ st st', MapsHistory c.width c.depth c.hs st →
    MapsHistory c.width c.depth c.hs st' → ∃ r s r' s', run fuel st = some (r, s) ∧
      run fuel' st' = some (r', s') ∧ Stored.Same B r r'

/-! ## Arrays of scalars -/

/-- The index-value pairs of an array; without keys, the index is the position. -/
def KeyScalars.entries (data : KeyScalars K) : List (ℕ × K) :=
  match data.keys with
  | some keys => keys.zip data.vals
  | none => (List.range data.vals.length).zip data.vals

/-- The value at an index after storing all pairs in order, starting from zero. -/
def lastValue [Zero K] (l : List (ℕ × K)) (i : ℕ) : K :=
  l.foldl (fun x t => if t.1 = i then t.2 else x) 0

/-- Keys, if there are any, and values are equally many. -/
def KeyScalars.Matched (data : KeyScalars K) : Prop :=
  ∀ keys, data.keys = some keys → keys.length = data.vals.length

/-- An array stands for the tensor `f`: indices number the words by length and then
alphabetically, from the empty word at 0.  Only as many entries count as there are words. -/
def IsTensorData [CommRing K] (w depth : ℕ) (data : KeyScalars K) (f : Series (Fin w) K) : Prop :=
  data.Matched ∧ (∀ t ∈ data.entries.take (wordsBelow w (depth + 1)), t.1 < wordsBelow w (depth + 1)) ∧
  ∀ u : List (Fin w), u.length ≤ depth →
    f u = lastValue (data.entries.take (wordsBelow w (depth + 1))) (wordIndex u)

/-- An array stands for the Lie element `f`: indices number the keys of the basis in increasing
order, from 0.  Only as many entries count as there are keys. -/
def IsLieData [CommRing K] {w : ℕ} (c : LiteCtx) (e : Key → Series (Fin w) K) (data : KeyScalars K)
    (f : Series (Fin w) K) : Prop :=
  data.Matched ∧ ∃ ks : List Key, ks.Pairwise (· < ·) ∧ (∀ k, k ∈ ks ↔ c.hs.HasKey k) ∧
    (∀ t ∈ data.entries.take ks.length, t.1 < ks.length) ∧
    EqUpTo c.depth (ks.zipIdx.map fun t => lastValue (data.entries.take ks.length) t.2 • e t.1).sum f

/-! ## Derivatives -/

/-- `D` is the derivative at zero of the family `F`: every coefficient of `F t` is a polynomial in
`t`, and `D` has its linear coefficient. -/
def HasDerivative [CommRing K] {α : Type*} (F : K → Series α K) (D : Series α K) : Prop :=
  ∀ u, ∃ p : Polynomial K, (∀ t, F t u = p.eval t) ∧ p.coeff 1 = D u

end RoughPy.Lite
