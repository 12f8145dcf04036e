import Verif.Lie.Model

/-!
# Model of basis objects: construction, hash and comparison

`/repo/roughpy/compute/_src/tensor_basis.c`, `/repo/roughpy/compute/_src/lie_basis.c` and
`/repo/core/src/fnv1a_hash.c`.

A world holds the one-dimensional NumPy arrays and the basis objects of a Python program, by number.
Arrays are shared: objects refer to them by number.  `none` stands for undefined behaviour (reads
and writes outside an array, reads of `None` as an array, signed overflow) and for numbers that
belong to no object.

Simplifications: arrays are contiguous and have elements of type `npy_intp` (the constructor of
`TensorBasis` does not check the first); the two-dimensional array `data` of a `LieBasis` is given
row by row as a one-dimensional array; memory is never exhausted; widths and depths given to
constructors are not negative; machine words are little endian with 64 bits.
-/

namespace RoughPy.Bases

open RoughPy.Tensor (loop degreesUp)

/-! ## The hash function -/

/-- `FNV1A_MIX_OCTET_64` (`fnv1a_hash.c:11-12`, `:21-25`). -/
def mixOctet (h : BitVec 64) (octet : BitVec 8) : BitVec 64 :=
  let h := h ^^^ octet.setWidth 64
  h + ((h <<< 1) + (h <<< 4) + (h <<< 5) + (h <<< 7) + (h <<< 8) + (h <<< 40))

/-- `fnv1a_hash_bytes64` (`fnv1a_hash.c:54-63`). -/
def hashBytes (state : BitVec 64) (bytes : List (BitVec 8)) : BitVec 64 := bytes.foldl mixOctet state

/-- the first `n` bytes of a number in memory -/
def bytesOf (n : ℕ) (x : ℤ) : List (BitVec 8) :=
  (List.range n).map fun i => BitVec.ofInt 8 (x / 2 ^ (8 * i))

/-- `FNV1A_OFFSET_BASIS_64` (`fnv1a_hash.h:14`) -/
def offsetBasis : BitVec 64 := 0xCBF29CE484222325

/-- `fnv1a_finalize_hash` (`pycore/fnv1a_hash.h`): the hash of Python objects is never `-1`. -/
def finalize (state : BitVec 64) : ℤ := if state.toInt = -1 then -2 else state.toInt

/-- the bytes of a string -/
def nameBytes (s : List Char) : List (BitVec 8) := s.map fun c => BitVec.ofNat 8 c.toNat

/-! ## Objects -/

/-- `_PyTensorBasis` (`tensor_basis.c:12-19`).  `constructed` is not in the code: it records whether
the object was made by calling the type `TensorBasis`. -/
structure TensorObj where
  width : ℕ
  depth : ℕ
  /-- `degree_begin`: an array -/
  db : ℕ
  /-- `cached_hash` -/
  cached : ℤ
  constructed : Bool
deriving DecidableEq, Repr

/-- `_PyLieBasis` (`lie_basis.c:19-29`), without the maps and the multiplication cache. -/
structure LieObj where
  width : ℕ
  depth : ℕ
  db : ℕ
  data : ℕ
  cached : ℤ
deriving DecidableEq, Repr

structure World where
  arrays : List (List ℤ)
  tensors : List TensorObj
  lies : List LieObj
deriving DecidableEq, Repr

def World.empty : World := ⟨[], [], []⟩

/-- The outcome of a Python operation that returns. -/
inductive Result where
  /-- `None`, or the number of a new object or array -/
  | obj (id : Option ℕ)
  | num (h : ℤ)
  | bool (b : Bool)
  /-- an exception -/
  | error
deriving DecidableEq, Repr

/-- reading the first `n` elements of an array -/
def readPrefix (arrays : List (List ℤ)) (a n : ℕ) : Option (List ℤ) := do
  let vals ← arrays[a]?
  if n ≤ vals.length then some (vals.take n) else none

/-- reading the first `n` rows of length 2 of an array -/
def readRows (arrays : List (List ℤ)) (a : ℕ) (n : ℤ) : Option (List ℤ) :=
  if 0 ≤ n then readPrefix arrays a (2 * n).toNat else none

/-- arithmetic of `npy_intp`: overflow is undefined -/
def intp (x : ℤ) : Option ℤ := if -2 ^ 63 ≤ x ∧ x < 2 ^ 63 then some x else none

/-- an argument for the format `i` of `PyArg_ParseTupleAndKeywords`: others raise an exception -/
def isInt (n : ℕ) : Bool := n < 2 ^ 31

/-- `depth + 2` in 32-bit arithmetic -/
def dbSize (depth : ℕ) : Option ℕ := if depth + 2 < 2 ^ 31 then some (depth + 2) else none

/-- `construct_tensor_db` (`tensor_basis.c:42-58`). -/
def tensorDb (width depth : ℕ) : Option (List ℤ) := do
  let n ← dbSize depth
  loop (degreesUp 1 (n - 1)) [0] fun data i => do
    let x ← data[i - 1]?
    let y ← intp (x * width)
    let z ← intp (1 + y)
    some (data ++ [z])

/-- The checks of a given `degree_begin` (`tensor_basis.c:78-118`): whether it is accepted.  The last
of them compares `data[1]` with 1 again. -/
def tensorDbOk (depth : ℕ) (vals : List ℤ) : Option Bool := do
  let n ← dbSize depth
  if 2 ≤ vals.length ∧ vals.length < n then some false
  else do
    let x ← vals[0]?
    let bad ← if x ≠ 0 then some true else (vals[1]?).map fun y => decide (y ≠ 1)
    some (!bad)

/-- The arrays and the number of the array that `tensor_basis_init` stores, or `none` inside if it
raises an exception (`tensor_basis.c:60-130`). -/
def tensorInitDb (arrays : List (List ℤ)) (width depth : ℕ) (db : Option ℕ) :
    Option (Option (List (List ℤ) × ℕ)) :=
  match db with
  | some a => do
    let vals ← arrays[a]?
    let ok ← tensorDbOk depth vals
    some (if ok then some (arrays, a) else none)
  | none => do
    let vals ← tensorDb width depth
    some (some (arrays ++ [vals], arrays.length))

/-- The hash that `tensor_basis_hash` computes (`tensor_basis.c:152-165`). -/
def tensorDigest (arrays : List (List ℤ)) (b : TensorObj) : Option ℤ := do
  let n ← dbSize b.depth
  let db ← readPrefix arrays b.db n
  let state := hashBytes offsetBasis (nameBytes "TensorBasis".toList)
  let state := hashBytes state (bytesOf 4 b.width)
  let state := hashBytes state (bytesOf 4 b.depth)
  some (finalize (hashBytes state (db.flatMap (bytesOf 8))))

/-- `tensor_basis_hash` (`tensor_basis.c:144-171`): the object after the call and the value. -/
def tensorHash (arrays : List (List ℤ)) (b : TensorObj) : Option (TensorObj × ℤ) :=
  if b.cached ≠ -1 then some (b, b.cached)
  else do
    let h ← tensorDigest arrays b
    some ({ b with cached := h }, h)

/-- Comparing the first `n` elements of two arrays from element `i` on, up to the first
difference. -/
def samePrefix (a b : List ℤ) : ℕ → ℕ → Option Bool
  | 0, _ => some true
  | n + 1, i => do
    let x ← a[i]?
    let y ← b[i]?
    if x ≠ y then some false else samePrefix a b n (i + 1)

/-- `tensor_basis_test_equal` (`tensor_basis.c:228-245`), for `==`. -/
def tensorEq (arrays : List (List ℤ)) (l r : TensorObj) : Option Bool :=
  if l.width ≠ r.width then some false
  else if l.depth ≠ r.depth then some false
  else do
    let n ← dbSize l.depth
    let a ← arrays[l.db]?
    let b ← arrays[r.db]?
    samePrefix a b n 0

/-- The hash that `lie_basis_hash` computes (`lie_basis.c:528-554`). -/
def lieDigest (arrays : List (List ℤ)) (b : LieObj) : Option ℤ := do
  let n ← dbSize b.depth
  let db ← readPrefix arrays b.db n
  let size ← db[b.depth + 1]?
  let data ← readRows arrays b.data size
  let state := hashBytes offsetBasis (nameBytes "LieBasis".toList)
  let state := hashBytes state (bytesOf 4 b.width)
  let state := hashBytes state (bytesOf 4 b.depth)
  let state := hashBytes state (data.flatMap (bytesOf 8))
  some (finalize (hashBytes state (db.flatMap (bytesOf 8))))

/-- `lie_basis_hash` (`lie_basis.c:520-560`). -/
def lieHash (arrays : List (List ℤ)) (b : LieObj) : Option (LieObj × ℤ) :=
  if b.cached ≠ -1 then some (b, b.cached)
  else do
    let h ← lieDigest arrays b
    some ({ b with cached := h }, h)

/-- The first part of `lie_basis_test_equal` (`lie_basis.c:565-576`), which does not call the hash. -/
def lieSameOffsets (arrays : List (List ℤ)) (l r : LieObj) : Option Bool :=
  if l.width ≠ r.width then some false
  else if l.depth ≠ r.depth then some false
  else do
    let n ← dbSize l.depth
    let a ← arrays[l.db]?
    let b ← arrays[r.db]?
    samePrefix a b n 0

/-- `check_data_arrays_basics` (`lie_basis.c:342-415`): whether the arrays are accepted, where
`data` has rows of length 2. -/
def lieArraysOk (width depth : ℕ) (db data : List ℤ) : Option Bool := do
  let n ← dbSize depth
  if db.length < n then some false
  else do
    let x ← db[0]?
    if x ≠ 0 then some false
    else do
      let letters ← if 1 ≤ depth then do some (decide ((← db[2]?) - (← db[1]?) = (width : ℤ)))
        else some true
      if ¬letters then some false
      else do
        let increasing ← loop (degreesUp 2 depth) true fun ok i => do
          some (ok && decide ((← db[i - 1]?) < (← db[i]?)))
        if ¬increasing then some false
        else do
          let size ← db[depth + 1]?
          some (decide ((data.length : ℤ) = 2 * size))

/-- The arrays, the numbers of the arrays `degree_begin` and `data` that `lie_basis_init` stores, or
`none` inside if it raises an exception (`lie_basis.c:452-500`, `construct_lie_basis`).  If only one
of the two arrays is given it is ignored. -/
def lieInitArrays (arrays : List (List ℤ)) (width depth : ℕ) (db data : Option ℕ) :
    Option (Option (List (List ℤ) × ℕ × ℕ)) :=
  match db, data with
  | some a, some c => do
    let dbv ← arrays[a]?
    let datav ← arrays[c]?
    let ok ← lieArraysOk width depth dbv datav
    some (if ok then some (arrays, a, c) else none)
  | _, _ => do
    let b ← Lie.construct width depth
    some (some (arrays ++ [b.db.map Int.ofNat, b.data.flatMap fun r => [(r.1 : ℤ), (r.2 : ℤ)]],
      arrays.length, arrays.length + 1))

/-! ## Operations -/

/-- What a Python program can do with basis objects and arrays. -/
inductive Op where
  /-- `numpy.array(vals, dtype=numpy.intp)` -/
  | array (vals : List ℤ)
  /-- `arr[i] = x` -/
  | write (arr i : ℕ) (x : ℤ)
  /-- `TensorBasis(width, depth, db)` -/
  | tensor (width depth : ℕ) (db : Option ℕ)
  /-- `b.__init__(width, depth, db)` -/
  | tensorInit (b : ℕ) (width depth : ℕ) (db : Option ℕ)
  /-- the basis made by functions that are not given one: `PyTensorBasis_get` -/
  | tensorGet (width depth : ℕ)
  /-- `b.truncate(depth)` -/
  | truncate (b : ℕ) (depth : ℤ)
  /-- `b.degree_begin = arr` -/
  | setDb (b arr : ℕ)
  /-- `hash(b)` -/
  | tensorHash (b : ℕ)
  /-- `l == r` -/
  | tensorEq (l r : ℕ)
  /-- `LieBasis(width, depth, db, data)` -/
  | lie (width depth : ℕ) (db data : Option ℕ)
  /-- `b.__init__(width, depth, db, data)` -/
  | lieInit (b : ℕ) (width depth : ℕ) (db data : Option ℕ)
  /-- `b.data = arr` -/
  | setData (b arr : ℕ)
  /-- `hash(b)` -/
  | lieHash (b : ℕ)
  /-- `l == r` -/
  | lieEq (l r : ℕ)
deriving DecidableEq, Repr

/-- `TensorBasis(…)`: `tensor_basis_new` and `tensor_basis_init` (`tensor_basis.c:23-130`). -/
def newTensor (w : World) (width depth : ℕ) (db : Option ℕ) : Option (World × Result) :=
  if !(isInt width && isInt depth) then some (w, .error)
  else do
    match ← tensorInitDb w.arrays width depth db with
    | none => some (w, .error)
    | some (arrays, a) =>
      some ({ w with arrays := arrays, tensors := w.tensors ++ [⟨width, depth, a, -1, true⟩] },
        .obj (some w.tensors.length))

/-- `tensor_basis_init` on an existing object (`tensor_basis.c:60-130`): width and depth are stored
before the array is checked, and the cached hash stays. -/
def reinitTensor (w : World) (i width depth : ℕ) (db : Option ℕ) : Option (World × Result) := do
  let b ← w.tensors[i]?
  if !isInt width then some (w, .error)
  else if !isInt depth then some ({ w with tensors := w.tensors.set i { b with width := width } }, .error)
  else do
    let b := { b with width := width, depth := depth }
    match ← tensorInitDb w.arrays width depth db with
    | none => some ({ w with tensors := w.tensors.set i b }, .error)
    | some (arrays, a) =>
      some ({ w with arrays := arrays, tensors := w.tensors.set i { b with db := a } }, .obj none)

/-- `PyTensorBasis_get` (`tensor_basis.c:339-363`).  The memory of the new object is filled with
zeros, and the field of the cached hash is not set. -/
def getTensor (w : World) (width depth : ℕ) : Option (World × Result) :=
  if width = 0 ∨ depth = 0 ∨ !(isInt width && isInt depth) then some (w, .error)
  else do
    let vals ← tensorDb width depth
    some ({ w with
        arrays := w.arrays ++ [vals]
        tensors := w.tensors ++ [⟨width, depth, w.arrays.length, 0, false⟩] },
      .obj (some w.tensors.length))

/-- `tensor_basis_truncate` (`tensor_basis.c:173-210`).  The field of the cached hash is not set. -/
def truncateTensor (w : World) (i : ℕ) (depth : ℤ) : Option (World × Result) := do
  let b ← w.tensors[i]?
  if depth < -2 ^ 31 ∨ 2 ^ 31 ≤ depth then some (w, .error)
  else if depth < 0 then some (w, .error)
  else if depth ≥ b.depth then some (w, .error)
  else some ({ w with tensors := w.tensors ++ [⟨b.width, depth.toNat, b.db, 0, false⟩] },
    .obj (some w.tensors.length))

/-- `LieBasis(…)`: `lie_basis_new` and `lie_basis_init` (`lie_basis.c:149-171`, `:452-500`). -/
def newLie (w : World) (width depth : ℕ) (db data : Option ℕ) : Option (World × Result) :=
  if !(isInt width && isInt depth) then some (w, .error)
  else do
    match ← lieInitArrays w.arrays width depth db data with
    | none => some (w, .error)
    | some (arrays, a, c) =>
      some ({ w with arrays := arrays, lies := w.lies ++ [⟨width, depth, a, c, -1⟩] },
        .obj (some w.lies.length))

/-- `lie_basis_init` on an existing object (`lie_basis.c:452-500`). -/
def reinitLie (w : World) (i width depth : ℕ) (db data : Option ℕ) : Option (World × Result) := do
  let b ← w.lies[i]?
  if !isInt width then some (w, .error)
  else if !isInt depth then some ({ w with lies := w.lies.set i { b with width := width } }, .error)
  else do
    let b := { b with width := width, depth := depth }
    match ← lieInitArrays w.arrays width depth db data with
    | none => some ({ w with lies := w.lies.set i b }, .error)
    | some (arrays, a, c) =>
      some ({ w with arrays := arrays, lies := w.lies.set i { b with db := a, data := c } }, .obj none)

/-- `hash(b)` of a Lie basis -/
def hashLie (w : World) (i : ℕ) : Option (World × ℤ) := do
  let b ← w.lies[i]?
  let (b, h) ← lieHash w.arrays b
  some ({ w with lies := w.lies.set i b }, h)

/-- `lie_basis_test_equal` (`lie_basis.c:562-588`), for `==`: it calls the hash of both objects. -/
def eqLie (w : World) (l r : ℕ) : Option (World × Result) := do
  let a ← w.lies[l]?
  let b ← w.lies[r]?
  let same ← lieSameOffsets w.arrays a b
  if ¬same then some (w, .bool false)
  else do
    let (w, h) ← hashLie w l
    let (w, h') ← hashLie w r
    some (w, .bool (h = h'))

/-- One operation. -/
def step (w : World) : Op → Option (World × Result)
  | .array vals => some ({ w with arrays := w.arrays ++ [vals] }, .obj (some w.arrays.length))
  | .write arr i x => do
    let vals ← w.arrays[arr]?
    if i < vals.length then some ({ w with arrays := w.arrays.set arr (vals.set i x) }, .obj none)
    else some (w, .error)
  | .tensor width depth db => newTensor w width depth db
  | .tensorInit b width depth db => reinitTensor w b width depth db
  | .tensorGet width depth => getTensor w width depth
  | .truncate b depth => truncateTensor w b depth
  | .setDb i arr => do
    let b ← w.tensors[i]?
    let _ ← w.arrays[arr]?
    some ({ w with tensors := w.tensors.set i { b with db := arr } }, .obj none)
  | .tensorHash i => do
    let b ← w.tensors[i]?
    let (b, h) ← tensorHash w.arrays b
    some ({ w with tensors := w.tensors.set i b }, .num h)
  | .tensorEq l r => do
    let a ← w.tensors[l]?
    let b ← w.tensors[r]?
    let e ← tensorEq w.arrays a b
    some (w, .bool e)
  | .lie width depth db data => newLie w width depth db data
  | .lieInit b width depth db data => reinitLie w b width depth db data
  | .setData i arr => do
    let b ← w.lies[i]?
    let _ ← w.arrays[arr]?
    some ({ w with lies := w.lies.set i { b with data := arr } }, .obj none)
  | .lieHash i => do
    let (w, h) ← hashLie w i
    some (w, .num h)
  | .lieEq l r => eqLie w l r

/-- A history of operations. -/
def run (w : World) : List Op → Option World
  | [] => some w
  | op :: ops => do
    let (w, _) ← step w op
    run w ops

end RoughPy.Bases
