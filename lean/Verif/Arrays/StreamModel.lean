import Verif.Arrays.KeyModel

/-!
# Streams of rows of scalars

The classes `ScalarStream` (`/repo/scalars/include/roughpy/scalars/scalar_stream.h`,
`/repo/scalars/src/scalar_stream.cpp`) and `KeyScalarStream`
(`/repo/scalars/include/roughpy/scalars/key_scalar_stream.h`,
`/repo/scalars/src/key_scalar_stream.cpp`).  The scalar type kept beside the rows is left out.  `ub`
stands for undefined behaviour and for `std::terminate`, which an exception in a function that is
`noexcept` comes to.
-/

namespace RoughPy.Arrays

open RoughPy.Args (Out)
open RoughPy.Scalars (Ty Val FP TRef conv)

/-- A stream of rows with keys (`scalar_stream.h:41-42`, `key_scalar_stream.h:39`); a pointer to keys is
null for a row without keys. -/
structure RowStream where
  rows : List Arr
  keys : List (Option KPtr)
  deriving DecidableEq

/-- `KeyScalarStream()` (`key_scalar_stream.cpp:39`) -/
def RowStream.empty : RowStream := ⟨[], []⟩

/-- `push_back(row, keys)` (`key_scalar_stream.cpp:83-108`, `scalar_stream.cpp:129-137`): nothing is noted
for a row without keys. -/
def RowStream.push (s : RowStream) (row : Arr) (k : Option KPtr) : RowStream :=
  match k with
  | none => ⟨s.rows ++ [row], s.keys⟩
  | some p =>
    ⟨s.rows ++ [row], (if s.keys = [] then List.replicate s.rows.length none else s.keys) ++ [some p]⟩

/-- `stream[row]` (`key_scalar_stream.cpp:70-77`), which is `noexcept`. -/
def RowStream.row (s : RowStream) (i : ℕ) : Out (Arr × Option KPtr) :=
  match s.rows[i]? with
  | none => .ub
  | some a =>
    if s.keys = [] then .ok (a, none)
    else
      match s.keys[i]? with
      | some k => .ok (a, k)
      | none => .ub

/-- `row_count()` (`scalar_stream.h:67`) -/
def RowStream.rowCount (s : RowStream) : ℕ := s.rows.length

/-- `col_count(i)` (`scalar_stream.cpp:95-99`), which is `noexcept`. -/
def RowStream.colCount (s : RowStream) (i : ℕ) : Out ℕ :=
  match s.rows[i]? with
  | some a => .ok a.size
  | none => .ub

/-- `max_row_size()` (`scalar_stream.cpp:100-112`): the first largest of the sizes
(`std::max_element`). -/
def RowStream.maxRowSize (s : RowStream) : ℕ :=
  match s.rows.map Arr.size with
  | [] => 0
  | n :: ns => ns.foldl (fun best x => if best < x then x else best) n

/-- The loop of the constructor (`scalar_stream.cpp:71-73`) over the rows from `i` on: the array is not
constant, so its slices are not, either. -/
def cutRows (w : World) (base : Arr) (cols : ℕ) : ℕ → ℕ → Out (List Arr)
  | 0, _ => .ok []
  | n + 1, i =>
    (slice false w base (i * cols) ((i + 1) * cols)).bind fun r =>
      (cutRows w base cols n (i + 1)).map fun rs => r :: rs

/-- The rows and columns of a shape (`scalar_stream.cpp:61-66`): what comes after the second number is
not looked at. -/
def rowsCols : List ℕ → Option (ℕ × ℕ)
  | [] => none
  | [r] => some (r, 1)
  | r :: c :: _ => some (r, c)

/-- The second half of the constructor (`scalar_stream.cpp:61-73`), and the destructor of the array. -/
def cutStream (w : World) (base : Arr) (shape : List ℕ) : Out (World × RowStream) :=
  match rowsCols shape with
  | none => .err
  | some (r, c) =>
    (cutRows w base c r 0).bind fun rs => (dtor w base).map fun w' => (w', ⟨rs, []⟩)

/-- `ScalarStream(ScalarArray base, std::vector shape)` (`scalar_stream.cpp:54-75`).  The array belongs to
the constructor: it is destroyed when the rows have been cut.  (If the constructor throws, what it
leaves of the memory is not modelled.) -/
def scalarStream (w : World) (base : Arr) (shape : List ℕ) : Out (World × RowStream) :=
  if base.isNull then (dtor w base).map fun w' => (w', RowStream.empty)
  else
    match base.scalarType with
    | .ok none => .err
    | .ok (some _) => cutStream w base shape
    | _ => if base.ty = .null then cutStream w base shape else .ub

end RoughPy.Arrays
