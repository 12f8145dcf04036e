import Verif.Tensor.Model

/-!
# Model of the sparse matrix builder and of sparse linear maps

`roughpy/compute/_src/sparse_matrix.c` and `roughpy_compute/dense/basic/apply_sparse_linear_map.hpp`.
Pointers into the arrays are positions; the two arrays `indices` and `data`, which always have the same
length, are one array of pairs.  `none` is an access outside an array, or the `RuntimeError` of
`smh_insert_frame`/`smh_finalize` (the comments say which).  Failing allocations are not modelled.
-/

namespace RoughPy.Sparse

open RoughPy.Tensor (loop Buf)

/-- `SMHFrame` — sparse_matrix.h:29-33: where the frame starts in the arrays, and its length. -/
structure Frame where
  start : ℕ
  size : ℕ
  deriving DecidableEq, Repr

/-- `SMHelper` — sparse_matrix.h:37-48.  `entries` is the part of the arrays `indices`, `data` up to the end of
the last frame: what is beyond is never read.  `cap` is the length of the arrays.  `indptr` is the written part of
an array of length `alloc + 1`. -/
structure Helper (K : Type) where
  frames : List Frame
  entries : List (ℕ × K)
  cap : ℕ
  indptr : List ℕ
  alloc : ℕ
  nnz : ℕ
  rows : ℕ
  cols : ℕ
  csc : Bool
  deriving DecidableEq, Repr

variable {K : Type} [Zero K] [Add K] [DecidableEq K]

/-- `smh_init` — sparse_matrix.c:249-315.  The frames are columns for CSC and rows for CSR. -/
def init (rows cols : ℕ) (nnzEst : ℤ) (csc : Bool) : Helper K :=
  let alloc := if csc then cols else rows
  { frames := [], entries := [], cap := if nnzEst < 0 then alloc else nnzEst.toNat, indptr := [0], alloc := alloc,
    nnz := 0, rows := rows, cols := cols, csc := csc }

/-- `set_indptr` — sparse_matrix.c:243-247: the entry is overwritten or is the next one. -/
def setIndptr (h : Helper K) (i v : ℕ) : Option (Helper K) :=
  if h.alloc + 1 ≤ i then none
  else if i < h.indptr.length then some { h with indptr := h.indptr.set i v }
  else if i = h.indptr.length then some { h with indptr := h.indptr ++ [v] }
  else none

/-- The loop of `remove_zeros_from_frame` — sparse_matrix.c:369-383, for `i` from `n - 1` down to 0. -/
def zeroLoop (start : ℕ) : ℕ → List (ℕ × K) × ℕ → Option (List (ℕ × K) × ℕ)
  | 0, s => some s
  | i + 1, s =>
    match s.1[start + i]? with
    | none => none
    | some e => zeroLoop start i (if e.2 = 0 then (s.1.eraseIdx (start + i), s.2 - 1) else s)

/-- `remove_zeros_from_frame` of the last frame — sparse_matrix.c:364-390.  After the loop the entry before the
end is read once more, also when the frame is empty now: then it is the last entry of an earlier frame, or lies
before the array (`none`).  A size of -1 is `none` as well. -/
def removeZeros (entries : List (ℕ × K)) (f : Frame) : Option (List (ℕ × K) × Frame) :=
  if f.size ≤ 0 then some (entries, f)
  else
    match zeroLoop f.start f.size (entries, f.size) with
    | none => none
    | some s =>
      if f.start + s.2 = 0 then none
      else
        match s.1[f.start + s.2 - 1]? with
        | none => none
        | some last =>
          if last.2 = 0 then (if s.2 = 0 then none else some (s.1.dropLast, { f with size := s.2 - 1 }))
          else some (s.1, { f with size := s.2 })

/-- `smh_insert_frame` — sparse_matrix.c:392-434; `none` if there is no room for a frame (`RuntimeError`). -/
def insertFrame (h : Helper K) : Option (Helper K) :=
  if h.frames.length = h.alloc then none
  else
    match h.frames.getLast? with
    | none =>
      match setIndptr h h.frames.length h.nnz with
      | none => none
      | some h => some { h with frames := h.frames ++ [⟨0, 0⟩] }
    | some f =>
      match removeZeros h.entries f with
      | none => none
      | some (entries, f) =>
        let h := { h with frames := h.frames.dropLast ++ [f], entries := entries, nnz := h.nnz + f.size }
        match setIndptr h h.frames.length h.nnz with
        | none => none
        | some h => some { h with frames := h.frames ++ [⟨f.start + f.size, 0⟩] }

/-- The loop over the frames in `smh_resize` — sparse_matrix.c:456-464. -/
def relocate : ℕ → List Frame → List Frame
  | _, [] => []
  | pos, f :: fs => ⟨pos, f.size⟩ :: relocate (pos + f.size) fs

/-- `smh_resize` — sparse_matrix.c:436-468. -/
def resize (h : Helper K) (n : ℕ) : Helper K := { h with cap := n, frames := relocate 0 h.frames }

/-- The search in `smh_get_scalar_for_index` — sparse_matrix.c:493-507: the position found, or the position where the
loop ends (relative to the frame). -/
def searchLoop (entries : List (ℕ × K)) (start index : ℕ) : ℕ → ℕ → ℕ → Option (ℕ ⊕ ℕ)
  | 0, _, _ => none
  | fuel + 1, pos, diff =>
    if 0 < diff then
      let half := diff / 2
      let mid := pos + half
      match entries[start + mid]? with
      | none => none
      | some e =>
        if index = e.1 then some (.inl mid)
        else if e.1 < index then searchLoop entries start index fuel (mid + 1) (diff - (half + 1))
        else searchLoop entries start index fuel pos half
    else some (.inr pos)

/-- The insertion in `smh_get_scalar_for_index` — sparse_matrix.c:513-541: new helper and position in the array. -/
def newScalar (h : Helper K) (index pos : ℕ) : Option (Helper K × ℕ) :=
  match h.frames.getLast? with
  | none => none
  | some f =>
    let h := if h.nnz + f.size = h.cap then resize h (h.cap * 2) else h
    match h.frames.getLast? with
    | none => none
    | some f =>
      if f.start + f.size < h.cap then
        some ({ h with
          entries := h.entries.take (f.start + pos) ++ (index, 0) :: h.entries.drop (f.start + pos)
          frames := h.frames.dropLast ++ [{ f with size := f.size + 1 }] }, f.start + pos)
      else none

/-- `smh_get_scalar_for_index` — sparse_matrix.c:487-541; without frames it reads before the array of frames. -/
def getScalar (h : Helper K) (index : ℕ) : Option (Helper K × ℕ) :=
  match h.frames.getLast? with
  | none => none
  | some f =>
    match searchLoop h.entries f.start index (f.size + 1) 0 f.size with
    | none => none
    | some (.inl pos) => some (h, f.start + pos)
    | some (.inr pos) =>
      if pos < f.size ∧ (h.entries[f.start + pos]?).map Prod.fst = some index then some (h, f.start + pos)
      else newScalar h index pos

/-- `smh_insert_value_at_index` — sparse_matrix.c:470-485. -/
def insertValue (h : Helper K) (index : ℕ) (value : K) : Option (Helper K) :=
  if value = 0 then some h
  else
    match getScalar h index with
    | none => none
    | some (h, pos) =>
      match h.entries[pos]? with
      | none => none
      | some e => some { h with entries := h.entries.set pos (e.1, e.2 + value) }

/-- `frame->indices[i]`, `frame->data[i]`. -/
def Helper.entry (h : Helper K) (f : Frame) (i : ℕ) : Option (ℕ × K) := h.entries[f.start + i]?

/-- Multiply the values of a frame — lie_basis.c:1086-1089. -/
def scaleFrame [Mul K] (h : Helper K) (c : K) (f : Frame) : Option (Helper K) :=
  loop (List.range f.size) h fun h j =>
    match h.entries[f.start + j]? with
    | none => none
    | some e => some { h with entries := h.entries.set (f.start + j) (e.1, e.2 * c) }

/-- The arrays of a `SparseMatrix` — sparse_matrix.h:18-26. -/
structure Matrix (K : Type) where
  entries : List (ℕ × K)
  indptr : List ℕ
  rows : ℕ
  cols : ℕ
  csc : Bool
  deriving DecidableEq, Repr

/-- `smh_build_matrix` with `smh_finalize` — sparse_matrix.c:543-606; `none` if the number of frames is wrong
(`RuntimeError`) or zero (reads before the array of frames). -/
def build (h : Helper K) : Option (Matrix K) :=
  if h.frames.length ≠ h.alloc then none
  else
    match h.frames.getLast? with
    | none => none
    | some f =>
      match removeZeros h.entries f with
      | none => none
      | some (entries, f) =>
        match setIndptr { h with entries := entries } h.frames.length (h.nnz + f.size) with
        | none => none
        | some h' => some ⟨entries, h'.indptr, h.rows, h.cols, h.csc⟩

/-! ## Application -/

/-- The values of `p` in `for (p = lo; p < hi; ++p)`. -/
def upTo (lo hi : ℕ) : List ℕ := (List.range (hi - lo)).map fun i => lo + i

/-- `apply_sparse_linear_map` — apply_sparse_linear_map.hpp:12-43 with `CompressedMatrix::in_dim` —
sparse_matrix.hpp:190-195.  `op` is `ops::Identity` or `ops::MultiplyBy`.  (In the C++ the reference `out[i]` of a
CSR row is formed before the loop over the row.) -/
def apply [Mul K] (m : Matrix K) (op : K → K) (out arg : Buf K) : Option (Buf K) :=
  if m.csc then
    loop (List.range m.cols) out fun out j => do
      let lo ← m.indptr[j]?
      let hi ← m.indptr[j + 1]?
      loop (upTo lo hi) out fun out p => do
        let e ← m.entries[p]?
        let x ← arg.read j
        out.addAt e.1 (op (e.2 * x))
  else
    loop (List.range m.rows) out fun out i => do
      let lo ← m.indptr[i]?
      let hi ← m.indptr[i + 1]?
      loop (upTo lo hi) out fun out p => do
        let e ← m.entries[p]?
        let x ← arg.read e.1
        out.addAt i (op (e.2 * x))

/-- `get_sparse_matrix` — dense_basic.cpp:667-815: the format used by the kernels, from the shapes; `none` is a
`ValueError` (always, for a square matrix: there the object itself is compared with the names of the formats). -/
def chooseFormat (m : Matrix K) (outDim argDim : ℕ) : Option Bool :=
  if m.rows ≠ outDim then none
  else if m.cols ≠ argDim then none
  else if m.rows = m.cols then none
  else if m.indptr.length = m.rows + 1 then some false
  else if m.indptr.length = m.cols + 1 then some true
  else none

/-- `py_dense_lie_to_tensor`, `py_dense_tensor_to_lie` from `get_sparse_matrix` on — dense_basic.cpp:993-1046,
1245-1298, for one pair of vectors. -/
def applyChecked [Mul K] (m : Matrix K) (op : K → K) (out arg : Buf K) : Option (Buf K) := do
  let csc ← chooseFormat m out.size arg.size
  apply { m with csc := csc } op out arg

end RoughPy.Sparse
