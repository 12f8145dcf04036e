import Verif.Lie.Model
import Verif.Sparse.Model
import Mathlib.Algebra.Field.Defs

/-!
# Model of the matrices between Lie elements and tensors

`construct_new_l2t`, `construct_new_t2l` (`roughpy/compute/_src/lie_basis.c`) and the Python functions `lie_to_tensor`,
`tensor_to_lie` (`roughpy/compute/__init__.py`).  The scalar types are a field `K`.  A pointer to a frame is its
position in `frames`; it is looked up again whenever the C code follows the pointer.
-/

namespace RoughPy.Lie

open RoughPy.Tensor (loop degreesUp Buf)
open RoughPy.Sparse (Helper Matrix insertFrame insertValue build init scaleFrame applyChecked)

variable {K : Type} [Field K] [DecidableEq K]

/-- `lie_basis_size_to_degree` — lie_basis.c:739-749 (the offsets of degree at least one are positive). -/
def Basis.sizeToDegree (b : Basis) (degree : ℕ) : Option ℕ :=
  if degree ≤ 0 then some 0
  else
    let degree := if b.depth + 1 ≤ degree then b.depth + 1 else degree
    (b.db[degree + 1]?).map (· - 1)

/-- `size_of_degree` — lie_basis.c:751-763. -/
def Basis.sizeOfDegree (b : Basis) (degree : ℕ) : Option ℕ :=
  if degree < 1 then some 0
  else
    let degree := if b.depth < degree then b.depth else degree
    do
      let lo ← b.db[degree]?
      let hi ← b.db[degree + 1]?
      some (hi - lo)

/-- `get_tensor_size` — lie_basis.c:765-772. -/
def Basis.tensorSize (b : Basis) : ℕ := (degreesUp 1 b.depth).foldl (fun size _ => 1 + b.width * size) 1

/-- `get_l2t_nnz_max` — lie_basis.c:774-784. -/
def Basis.l2tNnz (b : Basis) : Option ℕ :=
  loop (List.range b.depth) 0 fun est degree => do
    let count ← b.sizeOfDegree (degree + 1)
    some (est + 2 ^ degree * count)

/-- `l2t_insert_letters` — lie_basis.c:806-821. -/
def l2tLetters (h : Helper K) (width : ℕ) : Option (Helper K) :=
  loop (List.range width) h fun h i => do
    let h ← insertFrame h
    insertValue h (i + 1) 1

/-- `tensor_size_of_degree` — lie_basis.c:823-829. -/
def Basis.tensorSizeOfDegree (b : Basis) (degree : ℕ) : ℕ := (List.range degree).foldl (fun size _ => size * b.width) 1

/-- `insert_l2t_commutator` — lie_basis.c:831-900 with `add_product` — lie_basis.c:787-804.  A parent 0 would be the
frame -1.  (`left_idx` is read before the inner loop, `right_idx` before the first of the two insertions; the
insertions do not change them.) -/
def l2tCommutator (b : Basis) (h : Helper K) (key : ℕ) : Option (Helper K) := do
  let row ← b.data[key]?
  if row.1 = 0 ∨ row.2 = 0 then none
  else
    let h ← insertFrame h
    let ld ← b.degree row.1
    let rd ← b.degree row.2
    let lo := b.tensorSizeOfDegree ld.toNat
    let ro := b.tensorSizeOfDegree rd.toNat
    let lf ← h.frames[row.1 - 1]?
    loop (List.range lf.size) h fun h i => do
      let rf ← h.frames[row.2 - 1]?
      loop (List.range rf.size) h fun h j => do
        let lf ← h.frames[row.1 - 1]?
        let rf ← h.frames[row.2 - 1]?
        let le ← h.entry lf i
        let re ← h.entry rf j
        let h ← insertValue h (le.1 * ro + re.1) (le.2 * re.2)
        let lf ← h.frames[row.1 - 1]?
        let rf ← h.frames[row.2 - 1]?
        let le ← h.entry lf i
        let re ← h.entry rf j
        insertValue h (re.1 * lo + le.1) (-(re.2 * le.2))

/-- `construct_new_l2t` — lie_basis.c:902-950. -/
def l2tMatrix (b : Basis) : Option (Matrix K) := do
  let lieDim ← b.sizeToDegree b.depth
  let nnz ← b.l2tNnz
  let h ← l2tLetters (init b.tensorSize lieDim nnz true) b.width
  let h ← loop (degreesUp 2 b.depth) h fun h degree => do
    let lo ← b.db[degree]?
    let hi ← b.db[degree + 1]?
    loop (upTo lo hi) h (l2tCommutator b)
  build h

/-- `t2l_insert_letters` — lie_basis.c:996-1012. -/
def t2lLetters (h : Helper K) (width : ℕ) : Option (Helper K) :=
  loop (List.range width) h fun h i => do
    let h ← insertFrame h
    insertValue h i 1

/-- `t2l_rbracket` — lie_basis.c:1098-1148.  `get` is `PyLieMultiplicationCache_get`; `l`, `r` are the positions of
the two frames, `l` is also the letter.  The cache is part of the state. -/
def t2lRbracket (get : Cache → ℕ × ℕ → Option (Entry × Cache)) (s : Helper K × Cache) (l r : ℕ) :
    Option (Helper K × Cache) := do
  let rf ← s.1.frames[r]?
  loop (List.range rf.size) s fun s i => do
    let rf ← s.1.frames[r]?
    let re ← s.1.entry rf i
    let p ← get s.2 (l, 1 + re.1)
    let h ← loop p.1 s.1 fun h t => do
      let lf ← h.frames[l]?
      let rf ← h.frames[r]?
      let le ← h.entry lf 0
      let re ← h.entry rf i
      if t.1 = 0 then none else insertValue h (t.1 - 1) ((t.2 : K) * (le.2 * re.2))
    some (h, p.2)

/-- The loop over the words of one degree in `construct_new_t2l` — lie_basis.c:1192-1236. -/
def t2lDegree (get : Cache → ℕ × ℕ → Option (Entry × Cache)) (width degm1 prev : ℕ) (s : Helper K × Cache) :
    Option (Helper K × Cache) :=
  loop (List.range (prev * width)) s fun s idx => do
    let h ← insertFrame s.1
    let l := 1 + idx / prev
    let r := degm1 + idx % prev
    if l = r then some (h, s.2) else t2lRbracket get (h, s.2) l r

/-- `t2l_normalize_cols` with `one_over_degree`, `multiply_inplace` — lie_basis.c:1028-1096. -/
def t2lNormalize (width depth : ℕ) (h : Helper K) : Option (Helper K) := do
  let s ← loop (degreesUp 1 depth) (h, 1) fun s degree => do
    let stop := 1 + s.2 * width
    let h ← loop (upTo s.2 stop) s.1 fun h i => do
      let f ← h.frames[i]?
      scaleFrame h (1 / (degree : K)) f
    some (h, stop)
  some s.1

/-- `construct_new_t2l` — lie_basis.c:1150-1250; the matrix and the changed multiplication cache. -/
def t2lMatrix (b : Basis) (fuel : ℕ) (cache : Cache) : Option (Matrix K × Cache) := do
  let lieDim ← b.sizeToDegree b.depth
  let h ← insertFrame (init lieDim b.tensorSize b.tensorSize true)
  let h ← t2lLetters h b.width
  let s ← loop (degreesUp 2 b.depth) ((h, cache), 1, b.width) fun s _ => do
    let s' ← t2lDegree (get b fuel) b.width s.2.1 s.2.2 s.1
    some (s', 1 + s.2.1 * b.width, s.2.2 * b.width)
  let h ← t2lNormalize b.width b.depth s.1.1
  let m ← build h
  some (m, s.1.2)

/-- `lie_to_tensor` — roughpy/compute/__init__.py:341-359, for one vector and a tensor basis of dimension
`tensorSize`; `scale` is the optional scale factor. -/
def lieToTensor (b : Basis) (tensorSize : ℕ) (scale : Option K) (x : Buf K) : Option (Buf K) := do
  let m ← l2tMatrix b
  applyChecked m (fun v => match scale with | none => v | some s => s * v) ⟨tensorSize, fun _ => 0⟩ x

/-- `tensor_to_lie` — roughpy/compute/__init__.py:361-377, for one vector. -/
def tensorToLie (b : Basis) (fuel : ℕ) (cache : Cache) (scale : Option K) (t : Buf K) : Option (Buf K × Cache) := do
  let p ← t2lMatrix b fuel cache
  let n ← b.size
  let r ← applyChecked p.1 (fun v => match scale with | none => v | some s => s * v) ⟨n.toNat, fun _ => 0⟩ t
  some (r, p.2)

end RoughPy.Lie
