import Verif.Tensor.Spec
import Mathlib.Data.List.Basic

/-!
# Model of tensor keys and word indices

`lal::tensor_basis`, `lal::index_key`, `lal::unpacked_tensor_word`
(`/repo/vendored/libalgebra_lite`) and `PyTensorKey` (`/repo/roughpy/src/algebra/tensor_key.cpp`).
Simplification: `dimn_t` / `key_type` arithmetic is on natural numbers, except for `index_key`,
whose 64-bit packing is modelled.
-/

namespace RoughPy.Tensor

/-! ## `index_key<8, dimn_t>` -/

/-- `index_key::index_key(degree, index)` (`index_key.h:46-53`): `(degree << 56) + index`, modulo
`2^64`. -/
def packKey (degree index : ℕ) : ℕ := (degree * 2 ^ 56 % 2 ^ 64 + index) % 2 ^ 64

/-- `index_key::index` (`index_key.h:55-58`). -/
def keyIndex (raw : ℕ) : ℕ := raw % 2 ^ 56

/-- `index_key::degree` (`index_key.h:60-63`). -/
def keyDegree (raw : ℕ) : ℕ := raw / 2 ^ 56

/-! ## `tensor_basis` -/

/-- An unpacked `tensor_basis::key_type`: degree and index. -/
structure Key where
  degree : ℕ
  index : ℕ
deriving DecidableEq, Repr

/-- `m_powers` (`basis/tensor_basis.cpp:12-25`), `depth + 1` entries. -/
def tbPowers (w depth : ℕ) : List ℕ :=
  (List.range depth).foldl (fun l _ => l ++ [l.getLastD 0 * w]) [1]

/-- `m_sizes` (`basis/tensor_basis.cpp:12-25`), `depth + 2` entries. -/
def tbSizes (w depth : ℕ) : List ℕ :=
  let l := (List.range depth).foldl (fun l _ => l ++ [1 + w * l.getLastD 0]) [1]
  l ++ [1 + w * l.getLastD 0]

/-- `tensor_basis::start_of_degree` (`tensor_basis.h:87-94`). -/
def startOfDegree (w depth deg : ℕ) : Option ℕ :=
  if deg = 0 then some 0 else (tbSizes w depth)[deg - 1]?

/-- `tensor_basis::key_to_index` (`basis/tensor_basis.cpp:27-30`). -/
def keyToIndex (w depth : ℕ) (k : Key) : Option ℕ :=
  (startOfDegree w depth k.degree).map (· + k.index)

/-- `tensor_basis::index_to_key` (`basis/tensor_basis.cpp:31-46`).  `std::lower_bound` with
`less_equal` on the increasing array `m_sizes` returns the first entry that is not `≤ arg`. -/
def indexToKey (w depth : ℕ) (arg : ℕ) : Key :=
  if arg = 0 then ⟨0, 0⟩
  else match (tbSizes w depth).findIdx? (fun s => !decide (s ≤ arg)) with
    | none => ⟨0, 0⟩
    | some i => ⟨i, arg - (tbSizes w depth).getD (i - 1) 0⟩

/-- `tensor_basis::lparent` (`tensor_basis.h:44-49`); `none` if `m_powers` is accessed outside. -/
def lparent (w depth : ℕ) (k : Key) : Option Key :=
  if k.degree = 0 then some ⟨0, 0⟩
  else (tbPowers w depth)[k.degree - 1]?.map fun p => ⟨1, k.index / p⟩

/-- `tensor_basis::rparent` (`tensor_basis.h:50-55`). -/
def rparent (w depth : ℕ) (k : Key) : Option Key :=
  if k.degree = 0 then some ⟨0, 0⟩
  else (tbPowers w depth)[k.degree - 1]?.map fun p => ⟨k.degree - 1, k.index % p⟩

/-- `tensor_basis::parents` (`tensor_basis.h:57-65`).  `tmp - letter * m_width` is computed in
unsigned 64-bit arithmetic; it never wraps, as `letter ≤ tmp / m_width` for degree at least two
and the result for degree one is modelled on the integers. -/
def parents (w depth : ℕ) (k : Key) : Option (Key × ℕ × ℤ) :=
  if k.degree = 0 then some (⟨0, 0⟩, 0, 0)
  else (tbPowers w depth)[k.degree - 1]?.map fun p =>
    (⟨1, k.index / p⟩, k.degree - 1, (k.index : ℤ) - (k.index / p * w : ℕ))

/-- `tensor_basis::reverse_idx` (`tensor_basis.h:114-124`). -/
def reverseIdx (w degree idx : ℕ) : ℕ :=
  ((List.range degree).foldl (fun (st : ℕ × ℕ) _ =>
    (st.1 * w + (st.2 - st.2 / w * w), st.2 / w)) (0, idx)).1

/-- `tensor_basis::reverse_key` (`tensor_basis.h:126-132`). -/
def reverseKey (w : ℕ) (k : Key) : Key := ⟨k.degree, reverseIdx w k.degree k.index⟩

/-- `tensor_basis::advance_key` (`basis/tensor_basis.cpp:82-88`). -/
def advanceKey (w depth : ℕ) (k : Key) : Option Key :=
  (tbPowers w depth)[k.degree]?.map fun p =>
    if k.index + 1 ≥ p then ⟨k.degree + 1, 0⟩ else ⟨k.degree, k.index + 1⟩

/-! ## `unpacked_tensor_word` -/

/-- `unpacked_tensor_word(width, key)` (`basis/unpacked_tensor_word.cpp:11-22`): letters from 0,
last letter of the word first. -/
def unpackWord (w : ℕ) : ℕ → ℕ → List ℕ
  | 0, _ => []
  | d + 1, index => (index - index / w * w) :: unpackWord w d (index / w)

/-- `pack_with_base(m_width)` / `to_index` (`basis/unpacked_tensor_word.cpp:86-101`). -/
def packWord (w : ℕ) (data : List ℕ) : ℕ := data.reverse.foldl (fun r l => r * w + l) 0

/-- `unpacked_tensor_word::operator*` (`basis/unpacked_tensor_word.cpp:146-152`). -/
def mulWord (a b : List ℕ) : List ℕ := b ++ a

/-- `unpacked_tensor_word::split` / `split_left` (`basis/unpacked_tensor_word.cpp:124-144`):
the left part and the rest. -/
def splitWord (data : List ℕ) (leftDegree : ℕ) : List ℕ × List ℕ :=
  if leftDegree ≥ data.length then (data, [])
  else (data.drop (data.length - leftDegree), data.take (data.length - leftDegree))

/-- `unpacked_tensor_word::operator<` (`basis/unpacked_tensor_word.cpp:162-176`):
`std::lexicographical_compare` on the stored letters, which start with the *last* letter. -/
def lexLess : List ℕ → List ℕ → Bool
  | [], [] => false
  | [], _ :: _ => true
  | _ :: _, [] => false
  | a :: u, b :: v => if a < b then true else if b < a then false else lexLess u v

def wordLess (a b : List ℕ) : Bool :=
  if a.length > b.length then false else if a.length < b.length then true else lexLess a b

/-! ## `PyTensorKey` -/

/-- `PyTensorKey(basis, letters)` (`tensor_key.cpp:50-58`). -/
def pyKeyOfLetters (w : ℕ) (letters : List ℕ) : ℕ := letters.foldl (fun k l => k * w + l) 0

/-- `PyTensorKey::to_letters` (`tensor_key.cpp:114-128`): the loop before the final reversal. -/
def pyLettersRev (w : ℕ) (key : ℕ) : List ℕ :=
  if h : key = 0 ∨ w = 0 then [] else
    (1 + (key - 1) % w) :: pyLettersRev w ((key - 1) / w)
termination_by key
decreasing_by
  have : (key - 1) / w ≤ key - 1 := Nat.div_le_self _ _
  omega

/-- `PyTensorKey::to_letters` (`tensor_key.cpp:114-128`). -/
def pyToLetters (w key : ℕ) : List ℕ := (pyLettersRev w key).reverse

/-- `PyTensorKey::reverse` (`tensor_key.cpp:138-143`). -/
def pyReverse (w key : ℕ) : ℕ := pyKeyOfLetters w (pyToLetters w key).reverse

/-- `operator*` (`tensor_key.cpp:207-223`): `it` points at the first of the left letters, the
right letters are inserted in front of it. -/
def pyMul (w lhs rhs : ℕ) : ℕ := pyKeyOfLetters w (pyToLetters w rhs ++ pyToLetters w lhs)

/-- `PyTensorKey::split_n` (`tensor_key.cpp:82-106`). -/
def pySplitN (w depth key : ℕ) (n : ℤ) : ℕ × ℕ :=
  if key = 0 then (0, 0)
  else if n ≤ 0 then (key, 0)
  else if n ≥ depth then (0, key)
  else
    let shift := w ^ n.toNat
    ((key - 1) / shift, 1 + (key - 1) % shift)

/-- `PyTensorKey::is_letter` (`tensor_key.cpp:107-110`). -/
def pyIsLetter (w key : ℕ) : Bool := 1 ≤ key && key ≤ w

/-- How `TensorKey(...)` ends: a key with its basis, a `ValueError`, or an integer division by
zero. -/
inductive KeyResult where
  | ok (width depth key : ℕ)
  | valueError
  | divisionByZero
deriving DecidableEq, Repr

/-- `construct_key` with `index=`, `width=`, `depth=` (`tensor_key.cpp:150-164`). -/
def pyKeyOfIndex (width depth index : ℕ) : KeyResult :=
  if width = 1 then .divisionByZero
  else if index ≥ (width ^ (depth + 1) - 1) / (width - 1) then .valueError
  else .ok width depth index

/-- `construct_key` from letters (`tensor_key.cpp:166-204`); `width` and `depth` default to the
largest letter and the number of letters. -/
def pyKeyConstruct (letters : List ℕ) (width? depth? : Option ℕ) : KeyResult :=
  let width := match width? with
    | some w => w
    | none => letters.foldl max 0
  let depth := match depth? with
    | some d => d
    | none => letters.length
  if letters.length > depth then .valueError
  else if letters.any (fun l => l > width) then .valueError
  else .ok width depth (pyKeyOfLetters width letters)

/-- A `PyTensorKey` object: the address of its (shared) basis, the width and depth of that basis,
and the index (`tensor_key.h`, members `m_key`, `m_basis`). -/
structure KeyObj where
  basisAddr : ℕ
  width : ℕ
  depth : ℕ
  key : ℕ
deriving DecidableEq, Repr

/-- `PyTensorKey::equals` (`tensor_key.cpp:129-133`), bound as `__eq__`. -/
def KeyObj.equals (a b : KeyObj) : Bool := a.width == b.width && a.key == b.key

/-- `hash_value(PyTensorKey)` (`tensor_key.cpp:225-229`), bound as `__hash__`.  The hash of a basis
is the hash of its address (`algebra/basis.h:224-227`).  `hashPtr` and `combine` stand for
`boost::hash_value` of a pointer and `boost::hash_combine`. -/
def KeyObj.hash (hashPtr : ℕ → ℕ) (combine : ℕ → ℕ → ℕ) (a : KeyObj) : ℕ :=
  combine (hashPtr a.basisAddr) a.key

end RoughPy.Tensor
