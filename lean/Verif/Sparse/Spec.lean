import Verif.Sparse.Model
import Mathlib.Algebra.BigOperators.Group.List.Basic
import Mathlib.Algebra.BigOperators.Group.Finset.Basic

/-!
# Specification of the sparse matrix builder

What a sequence of calls asks for, without reference to the arrays.
-/

namespace RoughPy.Sparse

variable {K : Type}

/-- A call on the builder. -/
inductive Op (K : Type) where
  /-- start the next frame -/
  | frame
  /-- add a value to an entry of the current frame -/
  | add (index : ℕ) (value : K)
  deriving DecidableEq, Repr

/-- The number of frames started. -/
def frames (ops : List (Op K)) : ℕ := ops.countP fun o => match o with | .frame => true | .add _ _ => false

/-- What was added to the entry `index` of the frame `f` (`now` is the number of frames started before): the
values, in order. -/
def added (f index : ℕ) : ℕ → List (Op K) → List K
  | _, [] => []
  | now, .frame :: ops => added f index (now + 1) ops
  | now, .add i v :: ops => if now = f + 1 ∧ i = index then v :: added f index now ops else added f index now ops

/-- The entry that the calls ask for. -/
def total [AddMonoid K] (ops : List (Op K)) (f index : ℕ) : K := (added f index 0 ops).sum

/-- Run the calls. -/
def run [Zero K] [Add K] [DecidableEq K] (h : Helper K) : List (Op K) → Option (Helper K)
  | [] => some h
  | .frame :: ops => (insertFrame h).bind fun h => run h ops
  | .add i v :: ops => (insertValue h i v).bind fun h => run h ops

/-- The stored entries of frame `f` of a compressed matrix. -/
def Matrix.frame (m : Matrix K) (f : ℕ) : Option (List (ℕ × K)) := do
  let lo ← m.indptr[f]?
  let hi ← m.indptr[f + 1]?
  if lo ≤ hi ∧ hi ≤ m.entries.length then some ((m.entries.drop lo).take (hi - lo)) else none

/-- The compressed matrix `m` is well formed and has, in frame `f` at index `i`, the entry `M f i`. -/
structure Stores [Zero K] (m : Matrix K) (n : ℕ) (M : ℕ → ℕ → K) : Prop where
  offsets : m.indptr.length = n + 1
  first : m.indptr[0]? = some 0
  last : m.indptr[n]? = some m.entries.length
  frames : ∀ f, f < n → ∃ l, m.frame f = some l ∧ l.Pairwise (fun a b => a.1 < b.1) ∧
    ∀ i v, (i, v) ∈ l ↔ v ≠ 0 ∧ M f i = v

end RoughPy.Sparse
