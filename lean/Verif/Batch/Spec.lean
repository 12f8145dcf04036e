import Verif.Batch.Model
import Verif.Tensor.Spec

/-!
# What it means that an array holds a batch

An array of shape `n₁ × … × nₖ × L` holds a family of rows, one for every index `(i₁, …, iₖ)` with
`iⱼ < nⱼ`; where an element is in memory is numpy's business.
-/

namespace RoughPy.Batch

open RoughPy.Tensor

variable {K : Type}

/-- the indices of a batch of the given shape -/
def InShape (idx lead : List ℕ) : Prop := List.Forall₂ (· < ·) idx lead

/-- Where numpy keeps the element at an index: the start of the data plus the sum of index times stride. -/
def elementAddr (a : Arr) (idx : List ℕ) : ℤ :=
  a.data + (List.zipWith (fun (i : ℕ) (s : ℤ) => (i : ℤ) * s) idx a.strides).sum

/-- An array of the given shape and scalars: it has a stride for every dimension. -/
structure IsBatch (a : Arr) (dtype : DType) (lead : List ℕ) (L : ℕ) : Prop where
  shape_eq : a.shape = lead ++ [L]
  strides_eq : a.strides.length = a.shape.length
  dtype_eq : a.dtype = dtype

/-- The number types the functions work with, and how many bytes one number takes. -/
inductive ElementSize : DType → ℕ → Prop where
  | single : ElementSize .float32 4
  | double : ElementSize .float64 8

/-- The coefficients of one tensor lie next to each other: the last stride is the size of a scalar.  The
other strides are arbitrary. -/
def ContiguousRows (a : Arr) (size : ℕ) : Prop := a.strides.getLast? = some (size : ℤ)

/-- The array holds these rows. -/
def HoldsRows (m : Mem K) (a : Arr) (lead : List ℕ) (L : ℕ) (v : List ℕ → ℕ → K) : Prop :=
  ∀ idx, InShape idx lead → ∀ i < L, m (elementAddr a (idx ++ [i])) = some (v idx i)

/-- The address is one of an element of the array. -/
def Inside (a : Arr) (lead : List ℕ) (L : ℕ) (x : ℤ) : Prop :=
  ∃ idx i, InShape idx lead ∧ i < L ∧ x = elementAddr a (idx ++ [i])

/-- Different elements of the array are in different places. -/
def NoOverlap (a : Arr) (lead : List ℕ) (L : ℕ) : Prop :=
  ∀ idx idx' i i', InShape idx lead → InShape idx' lead → i < L → i' < L →
    elementAddr a (idx ++ [i]) = elementAddr a (idx' ++ [i']) → idx = idx' ∧ i = i'

/-- The arrays have no element in common. -/
def Apart (a b : Arr) (lead : List ℕ) (La Lb : ℕ) : Prop :=
  ∀ x, Inside a lead La x → ¬ Inside b lead Lb x

/-- The array holds a batch of tensors over `w` letters of depth `D`: the coefficient of a word is at the
place of the word in the order by length and then by letters. -/
structure HoldsTensors [CommRing K] (m : Mem K) (a : Arr) (dtype : DType) (lead : List ℕ) (w D : ℕ)
    (f : List ℕ → Series (Fin w) K) : Prop where
  isBatch : IsBatch a dtype lead (wordsBelow w (D + 1))
  coeff : ∀ idx, InShape idx lead → ∀ u : List (Fin w), u.length ≤ D →
    m (elementAddr a (idx ++ [wordIndex u])) = some (f idx u)

/-- Nothing but the elements of the array has changed. -/
def OnlyChanges (m m' : Mem K) (a : Arr) (lead : List ℕ) (L : ℕ) : Prop :=
  ∀ x, ¬ Inside a lead L x → m' x = m x

/-- The call returned and the array holds these tensors now, nothing else has changed. -/
def Returns [CommRing K] (r : Res K) (m : Mem K) (a : Arr) (dtype : DType) (lead : List ℕ) (w D : ℕ)
    (f : List ℕ → Series (Fin w) K) : Prop :=
  ∃ m', r = .ok m' ∧ HoldsTensors m' a dtype lead w D f ∧
    OnlyChanges m m' a lead (wordsBelow w (D + 1))

end RoughPy.Batch
