import Verif.Lite.ShuffleModel
import Verif.Lite.ContextSpec

/-!
# Vocabulary for shuffle products

On words, `shuffles u v` (`Tensor/Spec.lean`) lists all interleavings of `u` and `v`.  On tensors,
`Series.shuffle` is the shuffle product and `Series.leftHalf`, `Series.rightHalf` its two halves.
-/

namespace RoughPy.Tensor

/-- The left half shuffle of tensors: the first letter comes from the left factor. -/
def Series.leftHalf {α K : Type*} [CommRing K] (f g : Series α K) : Series α K
  | [] => 0
  | a :: u => Series.shuffle (fun v => f (a :: v)) g u

/-- The right half shuffle of tensors: the last letter comes from the right factor. -/
def Series.rightHalf {α K : Type*} [CommRing K] (f g : Series α K) : Series α K := fun u =>
  match u.getLast? with
  | none => 0
  | some a => Series.shuffle f (fun v => g (v ++ [a])) u.dropLast

end RoughPy.Tensor

namespace RoughPy.Lite

open RoughPy.Tensor

/-- The coefficient of a key in a product of keys. -/
def Product.coefficient (p : Product) (k : Key) : ℤ :=
  (p.map fun t => if t.1 = k then t.2 else 0).sum

/-- A product of keys is the sum of the words in a list, with multiplicity. -/
def Product.IsWords {w : ℕ} (p : Product) (l : List (List (Fin w))) : Prop :=
  (∀ t ∈ p, ∃ z : List (Fin w), t.1 = wordKey z) ∧
    ∀ z : List (Fin w), p.coefficient (wordKey z) = l.count z

/-- The caches that can arise for the width `w`: from the empty cache by products of words, in
bases of any depth.  `op depth fuel` multiplies two keys; the depth bounds the recursion. -/
inductive ShuffleHistory (w : ℕ) (op : ℕ → ℕ → CachedKeyOp ShuffleCache) : ShuffleCache → Prop
  | fresh : ShuffleHistory w op ShuffleCache.fresh
  | lookup {depth fuel : ℕ} {cache cache' : ShuffleCache} {p : Product} (u v : List (Fin w)) :
      depth < fuel → ShuffleHistory w op cache →
      op depth fuel cache (wordKey u) (wordKey v) = some (p, cache') → ShuffleHistory w op cache'

/-- A product of two words, in a basis of some depth, succeeds with a result of which `P` holds,
whatever the cache remembers. -/
def KeyGives (w : ℕ) (op : ℕ → ℕ → CachedKeyOp ShuffleCache) (depth : ℕ) (u v : List (Fin w))
    (P : Product → Prop) : Prop :=
  ∀ fuel, depth < fuel → ∀ cache, ShuffleHistory w op cache →
    ∃ p cache', op depth fuel cache (wordKey u) (wordKey v) = some (p, cache') ∧
      ShuffleHistory w op cache' ∧ P p

/-- A product of tensors succeeds with a result of which `P` holds, whatever the cache remembers.
`op` is the product of keys that the cache belongs to. -/
def VecGives {K : Type} (w : ℕ) (op : ℕ → ℕ → CachedKeyOp ShuffleCache) (depth : ℕ)
    (run : ℕ → ShuffleCache → Option (Stored K × ShuffleCache)) (P : Stored K → Prop) : Prop :=
  ∀ fuel, depth < fuel → ∀ cache, ShuffleHistory w op cache →
    ∃ r cache', run fuel cache = some (r, cache') ∧ ShuffleHistory w op cache' ∧ P r

/-- Two elements stand for the same tensor; if they have the same storage type, they compare
equal. -/
def Stored.Agree {K : Type} [Field K] [DecidableEq K] (w depth : ℕ) (x y : Stored K) : Prop :=
  (∃ f : Series (Fin w) K, IsTensor w depth x f ∧ IsTensor w depth y f) ∧
    (x.vecType = y.vecType → Stored.Same (tensorBasis w depth) x y)

/-- A tensor that records degree 0 if it has no entries: a sparse tensor computes its degree from
its entries, a dense tensor records it. -/
def Stored.Settled {K : Type} : Stored K → Prop
  | .sparse _ => True
  | .dense v => v.storage = [] → v.degree = 0

end RoughPy.Lite
