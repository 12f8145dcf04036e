import Verif.Lite.LieModel
import Verif.Tensor.Series
import Mathlib.Algebra.Lie.Basic

/-!
# Vocabulary for Lie elements

Key `⟨d, i⟩` is the `i`-th key of degree `d` of the Hall set.  `HallElems` gives the keys their
meaning as tensors; `LExpr.value` the meaning of an expression, without mentioning vectors.
-/

namespace RoughPy.Lite

open RoughPy.Tensor RoughPy.Tensor.Series

/-- The value of a list of keys with integer coefficients. -/
def Product.value {L : Type*} [LieRing L] (e : Key → L) (p : Product) : L :=
  (p.map fun t => t.2 • e t.1).sum

/-- The Hall set has a key of positive degree `k`. -/
def HallSet.HasKey (hs : HallSet) (k : Key) : Prop :=
  0 < k.deg ∧ ∃ n, hs.sizeOfDegree k.deg = some n ∧ k.idx < n

/-- The keys of a Hall set as tensors: the keys of degree one are the letters, every other key is
the commutator of its parents. -/
structure HallElems {K : Type*} [CommRing K] {w : ℕ} (hs : HallSet) (e : Key → Series (Fin w) K) :
    Prop where
  letter : ∀ i : Fin w, e ⟨1, i⟩ = letter K i
  bracket : ∀ k p q, hs.HasKey k → 2 ≤ k.deg → hs.parents k = some (p, q) →
    e k = e p * e q - e q * e p

/-- The caches of products of keys that can arise for the width `w`: from the empty cache by
products, of any keys, in Hall sets of that width of any depth. -/
inductive LieHistory (w : ℕ) : LieCache → Prop
  | fresh : LieHistory w LieCache.fresh
  | lookup {depth fuel : ℕ} {hs : HallSet} {cache cache' : LieCache} {l r : Key} {p : Product} :
      HallSet.new w depth = some hs → LieHistory w cache →
      lieProd hs depth fuel cache l r = some (p, cache') → LieHistory w cache'

/-- The value of a list of keys with coefficients, the entries of a vector. -/
def itemsValue {K : Type} [CommRing K] {w : ℕ} (e : Key → Series (Fin w) K)
    (l : List (Key × K)) : Series (Fin w) K := (l.map fun t => t.2 • e t.1).sum

/-- Expressions over Lie elements. -/
inductive LExpr (K : Type) : Type
  /-- `c` times a key -/
  | key (k : Key) (c : K)
  /-- `e[k] += c` -/
  | addCoef (e : LExpr K) (k : Key) (c : K)
  | neg (e : LExpr K)
  | smul (e : LExpr K) (c : K)
  | sdiv (e : LExpr K) (c : K)
  | add (a b : LExpr K)
  | sub (a b : LExpr K)
  /-- `a += b` -/
  | addIn (a b : LExpr K)
  /-- `a -= b` -/
  | subIn (a b : LExpr K)
  /-- `a * b`, the Lie bracket -/
  | mul (a b : LExpr K)
  /-- `a *= b` -/
  | mulIn (a b : LExpr K)
  /-- `commutator(a, b)` -/
  | comm (a b : LExpr K)
  /-- `a.mul_scal_prod(b, c)` -/
  | mulScal (a b : LExpr K) (c : K)
  /-- `a.mul_scal_div(b, c)` -/
  | mulDiv (a b : LExpr K) (c : K)

namespace LExpr
variable {K T : Type} [Field K]

/-- The keys are keys of the Hall set and no division by zero occurs. -/
def Ok (hs : HallSet) : LExpr K → Prop
  | key k _ => hs.HasKey k
  | addCoef e k _ => e.Ok hs ∧ hs.HasKey k
  | neg e | smul e _ => e.Ok hs
  | sdiv e c => e.Ok hs ∧ c ≠ 0
  | add a b | sub a b | addIn a b | subIn a b | mul a b | mulIn a b | comm a b | mulScal a b _ => a.Ok hs ∧ b.Ok hs
  | mulDiv a b c => (a.Ok hs ∧ b.Ok hs) ∧ c ≠ 0

/-- The value in the tensor algebra, with the keys standing for `e`.  The code's `commutator` of
Lie elements takes the difference of the two brackets, which is twice the bracket. -/
def value {w : ℕ} (e : Key → Series (Fin w) K) : LExpr K → Series (Fin w) K
  | key k c => c • e k
  | addCoef a k c => a.value e + c • e k
  | neg a => -a.value e
  | smul a c => c • a.value e
  | sdiv a c => c⁻¹ • a.value e
  | add a b | addIn a b => a.value e + b.value e
  | sub a b | subIn a b => a.value e - b.value e
  | mul a b | mulIn a b => a.value e * b.value e - b.value e * a.value e
  | comm a b => (2 : K) • (a.value e * b.value e - b.value e * a.value e)
  | mulScal a b c => c • (a.value e * b.value e - b.value e * a.value e)
  | mulDiv a b c => c⁻¹ • (a.value e * b.value e - b.value e * a.value e)

/-- Evaluation by the modelled code, starting with a given cache. -/
def eval [DecidableEq K] (A : LieOps K T) : LExpr K → LieCache → Option (T × LieCache)
  | key k c, cache => do some (← A.single k c, cache)
  | addCoef a k c, cache => do
    let x ← a.eval A cache
    some (← A.modify x.1 k fun y => y + c, x.2)
  | neg a, cache => do
    let x ← a.eval A cache
    some (A.neg x.1, x.2)
  | smul a c, cache => do
    let x ← a.eval A cache
    some (A.toVecOps.smul x.1 c, x.2)
  | sdiv a c, cache => do
    let x ← a.eval A cache
    some (← A.sdiv x.1 c, x.2)
  | add a b, cache => do
    let x ← a.eval A cache
    let y ← b.eval A x.2
    some (A.add x.1 y.1, y.2)
  | sub a b, cache => do
    let x ← a.eval A cache
    let y ← b.eval A x.2
    some (A.sub x.1 y.1, y.2)
  | addIn a b, cache => do
    let x ← a.eval A cache
    let y ← b.eval A x.2
    some (A.addInplace x.1 y.1, y.2)
  | subIn a b, cache => do
    let x ← a.eval A cache
    let y ← b.eval A x.2
    some (A.subInplace x.1 y.1, y.2)
  | mul a b, cache => do
    let x ← a.eval A cache
    let y ← b.eval A x.2
    A.mul y.2 x.1 y.1
  | mulIn a b, cache => do
    let x ← a.eval A cache
    let y ← b.eval A x.2
    A.mulInplace y.2 x.1 y.1
  | comm a b, cache => do
    let x ← a.eval A cache
    let y ← b.eval A x.2
    A.commutator y.2 x.1 y.1
  | mulScal a b c, cache => do
    let x ← a.eval A cache
    let y ← b.eval A x.2
    A.mulScalProd y.2 x.1 y.1 c
  | mulDiv a b c, cache => do
    let x ← a.eval A cache
    let y ← b.eval A x.2
    A.mulScalDiv y.2 x.1 y.1 c

end LExpr

end RoughPy.Lite
