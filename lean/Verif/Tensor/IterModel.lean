import Verif.Tensor.Keys

/-!
# Iterating over tensor keys

`PyTensorKeyIterator` (`roughpy/src/algebra/tensor_key_iterator.cpp:41-86`, `tensor_key_iterator.h:42-56`) and
`__iter__` of `TensorBasis` (`roughpy/src/algebra/basis.cpp:100`).  Keys of tensor bases are indices of words
(C12, C55); the dimension is `basis->size(-1)` (`tensor_basis_info.h:100-103`).
-/

namespace RoughPy.Tensor

/-- the members of `PyTensorKeyIterator`; the basis is its width and depth -/
structure KeyIter where
  current : ℕ
  stop : ℕ
  width : ℕ
  depth : ℕ
  deriving DecidableEq, Repr

/-- `dimension()` (`tensor_basis_info.h:100-103`, `tensor_basis.h:96-103`): the entry `depth` of `m_sizes`, which
has `depth + 2` entries -/
def basisDimension (w depth : ℕ) : Option ℕ := (tbSizes w depth)[depth]?

/-- the constructor (`tensor_key_iterator.cpp:41-50`) -/
def mkKeyIter (w depth current stop : ℕ) : Option KeyIter :=
  (basisDimension w depth).map fun dim => ⟨current, if stop ≥ dim then dim else stop, w, depth⟩

/-- the default for the end: the largest `key_type` (`tensor_key_iterator.h:51`) -/
def noEnd : ℕ := 2 ^ 64 - 1

/-- `next` (`tensor_key_iterator.cpp:51-57`); `none` is `StopIteration` -/
def KeyIter.next (it : KeyIter) : Option (ℕ × KeyIter) :=
  if it.current ≥ it.stop then none else some (it.current, { it with current := it.current + 1 })

/-- `next` until `StopIteration` -/
def KeyIter.drain (it : KeyIter) : List ℕ :=
  match h : it.next with
  | none => []
  | some (k, it') => k :: it'.drain
termination_by it.stop - it.current
decreasing_by
  unfold KeyIter.next at h
  split at h
  · cases h
  · cases h
    dsimp only
    omega

/-- `__iter__` (`tensor_key_iterator.cpp:85`): the lambda returns by value, so the result is a copy.  The second
component is the iterator itself afterwards. -/
def KeyIter.iter (it : KeyIter) : KeyIter × KeyIter := (it, it)

/-- a `for` loop over an iterator: the keys, and the iterator after the loop -/
def KeyIter.forLoop (it : KeyIter) : List ℕ × KeyIter := (it.iter.1.drain, it.iter.2)

/-- `TensorBasis.__iter__` (`basis.cpp:100`) -/
def basisIter (w depth : ℕ) : Option KeyIter := mkKeyIter w depth 0 noEnd

end RoughPy.Tensor
