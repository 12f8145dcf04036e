import Verif.Lie.Model

/-!
# Model of the checks on user-supplied Hall data (`/repo/roughpy/compute/_src/lie_basis.c`)

Arrays are lists of integers (`npy_intp`, unbounded here) and of rows; the checks of dtype, rank and
contiguity are not modelled.  The result of a check is `some true`/`some false` for the C values 1/0;
`none` is an access outside an array.
-/

namespace RoughPy.Lie

open RoughPy.Tensor (loop)

/-- `array[i]` for a signed index; `none` outside the array. -/
def at' {α : Type} (l : List α) (i : ℤ) : Option α := if i < 0 then none else l[i.toNat]?

/-- The values of `i` in `for (i = lo; i < hi; ++i)`. -/
def intsUpTo (lo hi : ℤ) : List ℤ := (List.range (hi - lo).toNat).map fun i => lo + (i : ℕ)

/-- A loop whose body may `return 0`. -/
def forAll {α : Type} (l : List α) (body : α → Option Bool) : Option Bool :=
  loop l true fun acc a => if acc then body a else some false

/-- `check_data_arrays_basics` — lie_basis.c:341-410 (`data` has two columns). -/
def checkBasics (data : List (ℤ × ℤ)) (db : List ℤ) (width depth : ℤ) : Option Bool :=
  if (db.length : ℤ) < depth + 2 then some false
  else do
    let d0 ← at' db 0
    if d0 ≠ 0 then some false
    else
      let level1 ← if 1 ≤ depth then do
          let d2 ← at' db 2
          let d1 ← at' db 1
          some (decide (d2 - d1 = width))
        else some true
      if level1 = false then some false
      else
        let increasing ← forAll (intsUpTo 2 (depth + 1)) fun i => do
          let x ← at' db i
          let y ← at' db (i - 1)
          some (decide (¬ x ≤ y))
        if increasing = false then some false
        else
          let n ← at' db (depth + 1)
          some (decide ((data.length : ℤ) = n))

/-- `PyLieBasis_Major` — lie_basis.h:59-65. -/
inductive Major where
  | bourbaki
  | reutenauer
  deriving DecidableEq, Repr

/-- `PyLIeBasis_Major_converter` — lie_basis.c:50-72; `none` is the `ValueError`.  The flag `check`, not
the argument, is stored: it is 1, the value of `PLB_Major_Reutenauer`. -/
def majorConverter (arg : ℤ) : Option Major :=
  let check := (arg = 0) ∨ (arg = 1)
  if ¬ check then none else some .reutenauer

/-- The letters — lie_basis.c:1362-1369. -/
def checkLetters (data : List (ℤ × ℤ)) (d1 d2 : ℤ) : Option Bool :=
  forAll (intsUpTo d1 d2) fun l => do
    let row ← at' data l
    some (decide (¬ (row.1 ≠ 0 ∧ row.2 ≠ l)))

/-- One row of degree at least two — lie_basis.c:1376-1414. -/
def checkRow (data : List (ℤ × ℤ)) (major : Major) (idx : ℤ) : Option Bool := do
  let row ← at' data idx
  match major with
  | .bourbaki =>
    let a := row.1
    let bc := row.2
    if bc ≤ a then some false
    else
      let right ← at' data bc
      some (decide (¬ (right.1 ≠ 0 ∧ a < right.1)))
  | .reutenauer =>
    let xy := row.1
    let c := row.2
    if c ≤ idx then some false
    else
      let left ← at' data xy
      some (decide (¬ (left.1 ≠ 0 ∧ (left.2 ≤ left.1 ∨ left.2 < c))))

/-- The skeleton shared by the two checks — lie_basis.c:1342-1419, 1474-1606: the row zero is read, but
nothing follows from its value. -/
def checkWith (rowCheck : ℤ → Option Bool) (data : List (ℤ × ℤ)) (db : List ℤ) (width depth : ℤ) :
    Option Bool := do
  if ← checkBasics data db width depth then
    let d1 ← at' db 1
    let _ ← if 0 < d1 then (at' data 0).map fun _ => () else some ()
    if depth < 1 then some true
    else
      let d2 ← at' db 2
      if ← checkLetters data d1 d2 then
        forAll (intsUpTo 2 (depth + 1)) fun degree => do
          let lo ← at' db degree
          let hi ← at' db (degree + 1)
          forAll (intsUpTo lo hi) rowCheck
      else some false
  else some false

/-- `check_lie_data_standard_ordering` — lie_basis.c:1333-1419. -/
def checkStandard (data : List (ℤ × ℤ)) (db : List ℤ) (width depth : ℤ) (major : Major) : Option Bool :=
  checkWith (checkRow data major) data db width depth

/-- One row of degree at least two with a user-supplied order — lie_basis.c:1507-1601.  `order` returns
1, 0, or -1 for an exception; `none` is the C result -1 (an access outside an array is `none` too).  In the
Reutenauer branch the exception is not noticed. -/
def checkRowCustom (data : List (ℤ × ℤ)) (order : ℤ → ℤ → ℤ) (major : Major) (idx : ℤ) : Option Bool := do
  let row ← at' data idx
  match major with
  | .bourbaki =>
    let a := row.1
    let bc := row.2
    if order a bc < 0 then none
    else if order a bc = 0 ∨ a = bc then some false
    else
      let right ← at' data bc
      if right.1 ≠ 0 then
        if order right.1 a < 0 then none else some (decide (order right.1 a ≠ 0))
      else some true
  | .reutenauer =>
    let xy := row.1
    let z := row.2
    if order idx z = 0 ∨ idx = z then some false
    else
      let left ← at' data xy
      if left.1 ≠ 0 then
        if order left.1 left.2 = 0 ∨ left.1 = left.2 then some false
        else some (decide (order z left.2 ≠ 0))
      else some true

/-- `check_lie_data_custom_ordering` — lie_basis.c:1463-1606. -/
def checkCustom (data : List (ℤ × ℤ)) (db : List ℤ) (width depth : ℤ) (order : ℤ → ℤ → ℤ) (major : Major) :
    Option Bool :=
  checkWith (checkRowCustom data order major) data db width depth

/-- Rows as signed integers. -/
def intRows (data : List (ℕ × ℕ)) : List (ℤ × ℤ) := data.map fun r : ℕ × ℕ => ((r.1 : ℤ), (r.2 : ℤ))

/-- Offsets as signed integers. -/
def intOffsets (db : List ℕ) : List ℤ := db.map fun n : ℕ => (n : ℤ)

/-- `LieBasis(width, depth, degree_begin, data)` — lie_basis.c:451-501: only the basic checks are made. -/
def customBasis (data : List (ℕ × ℕ)) (db : List ℕ) (width depth : ℕ) : Option Basis := do
  if ← checkBasics (intRows data) (intOffsets db) width depth then
    some ⟨width, depth, data, db⟩
  else none

end RoughPy.Lie
