import Verif.Lie.Model
import Mathlib.Algebra.Lie.Basic

/-!
# Vocabulary for Hall tables

`IsHallTable b` says, without reference to the code that builds it, that the arrays of a basis list
a Hall set in the sense of Bourbaki (lie_basis.h:1-60): letters first, then by degree, all pairs
`(i, j)` with `i < j` and left parent of `j` at most `i`.
-/

namespace RoughPy.Lie

/-- Key `k` lies in the block of degree `d`. -/
def HasDegree (b : Basis) (k d : ℕ) : Prop :=
  d ≤ b.depth ∧ ∃ lo hi, b.db[d]? = some lo ∧ b.db[d + 1]? = some hi ∧ lo ≤ k ∧ k < hi

/-- The arrays list a Hall set up to the depth of the basis. -/
structure IsHallTable (b : Basis) : Prop where
  depth_pos : 0 < b.depth
  db_length : b.db.length = b.depth + 2
  db_zero : b.db[0]? = some 0
  db_one : b.db[1]? = some 1
  db_two : b.db[2]? = some (1 + b.width)
  db_last : b.db[b.depth + 1]? = some b.data.length
  db_sorted : b.db.Pairwise (· ≤ ·)
  root : b.data[0]? = some (0, 0)
  letters : ∀ l, 1 ≤ l → l ≤ b.width → b.data[l]? = some (0, l)
  /-- every row of degree at least two is an admissible pair of earlier keys -/
  rows : ∀ d k, 2 ≤ d → HasDegree b k d → ∃ i j p q c,
    b.data[k]? = some (i, j) ∧ 1 ≤ p ∧ 1 ≤ q ∧ p + q = d ∧ HasDegree b i p ∧ HasDegree b j q ∧
    i < j ∧ b.data[j]? = some c ∧ c.1 ≤ i
  /-- every admissible pair is listed -/
  complete : ∀ i j p q c, 1 ≤ p → 1 ≤ q → p + q ≤ b.depth → HasDegree b i p → HasDegree b j q →
    i < j → b.data[j]? = some c → c.1 ≤ i → ∃ k, HasDegree b k (p + q) ∧ b.data[k]? = some (i, j)
  /-- the rows of one degree are sorted (so none occurs twice) -/
  sorted : ∀ d k k' r r', 2 ≤ d → HasDegree b k d → HasDegree b k' d → k < k' →
    b.data[k]? = some r → b.data[k']? = some r' → r.1 < r'.1 ∨ (r.1 = r'.1 ∧ r.2 < r'.2)

/-- A map from the keys of a Hall table to a Lie ring that sends every key to the bracket of the
images of its parents. -/
def IsHallMap {L : Type*} [LieRing L] (b : Basis) (e : ℕ → L) : Prop :=
  ∀ d k i j, 2 ≤ d → HasDegree b k d → b.data[k]? = some (i, j) → e k = ⁅e i, e j⁆

/-- The value of a list of keys with integer coefficients. -/
def Entry.value {L : Type*} [LieRing L] (e : ℕ → L) (c : Entry) : L :=
  (c.map fun t => t.2 • e t.1).sum

/-- The lookup of a pair of keys in a cache returns `out`: some finite recursion depth suffices. -/
def Looks (b : Basis) (cache : Cache) (word : ℕ × ℕ) (out : Entry × Cache) : Prop :=
  ∃ n₀, ∀ fuel, n₀ ≤ fuel → get b fuel cache word = some out

/-- The caches that can arise: starting from a fresh one, lookups through bases from a set `S`. -/
inductive History (S : Basis → Prop) : Cache → Prop
  | fresh : History S emptyCache
  | lookup {b : Basis} {cache cache' : Cache} {word : ℕ × ℕ} {r : Entry} : S b → History S cache →
      Looks b cache word (r, cache') → History S cache'

/-- The default bases of one width. -/
def Standard (w : ℕ) (b : Basis) : Prop := ∃ d, 0 < d ∧ construct w d = some b

/-- Number of rows of degree `d`. -/
def Basis.count (b : Basis) (d : ℕ) : ℕ := (b.db.getD (d + 1) 0) - (b.db.getD d 0)

end RoughPy.Lie
