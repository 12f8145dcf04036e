import Verif.Args.Model
import Mathlib.Data.Rat.Floor
import Mathlib.Data.Int.Log

/-!
# Time stamps, support and resolution of `LieIncrementStream.from_increments`

The Python front end of the stream (roughpy/src/streams/lie_increment_stream.cpp:73-245), after the
data has been turned into rows. Time stamps are rational numbers; the rounding of the sums of a time
column is not modelled. Rows never carry keys (see `streamRows`), so the branch for sparse rows of the
column lookup (143-160) cannot be reached and is left out.
-/

namespace RoughPy.Args

/-- The argument `indices`: absent, a column of the data, or a sequence or buffer of time stamps. -/
inductive Stamps where
  | absent
  | column (i : ℕ)
  | given (l : List ℚ)

/-- `add_index` (lie_increment_stream.cpp:132-138) over the entries of the column: the first entry is
the first time stamp, every other one is added to the time stamp before it. -/
def runningFrom : ℚ → List ℚ → List ℚ
  | _, [] => []
  | last, v :: vs => (last + v) :: runningFrom (last + v) vs

/-- The loop over the rows (lie_increment_stream.cpp:140-165): a row that is too short raises. -/
def columnOf (i : ℕ) : List (List ℚ) → Out (List ℚ)
  | [] => .ok []
  | row :: rows =>
    match row[i]? with
    | none => .err
    | some v => (columnOf i rows).bind fun vs => .ok (v :: vs)

/-- The time stamps read from the argument `indices` (lie_increment_stream.cpp:119-175); an empty list
stands for no time stamps. -/
def readStamps (rows : List (List ℚ)) : Stamps → Out (List ℚ)
  | .absent => .ok []
  | .given l => .ok l
  | .column i => (columnOf i rows).map fun vs =>
    match vs with
    | [] => []
    | v :: vs => v :: runningFrom v vs

/-- `python::param_to_resolution` (roughpy/src/args/kwargs_to_path_metadata.cpp:224-229): `frexp`
returns the exponent `e` with `2^(e-1) ≤ |x| < 2^e`, and zero for zero. -/
def resolutionOf (x : ℚ) : ℤ :=
  -min 5 ((if x = 0 then 0 else Int.log 2 |x| + 1) - 1)

/-- The loop that chooses the resolution (lie_increment_stream.cpp:193-206). `previous` stays zero:
the differences are the time stamps themselves. The first argument is the smallest one so far. -/
def chooseFrom : Option ℚ → List ℚ → Option ℚ
  | m, [] => m
  | m, idx :: rest =>
    let diff := idx - 0
    match m with
    | none => chooseFrom (some diff) rest
    | some d => chooseFrom (some (if diff < d then diff else d)) rest

/-- What the front end hands to the stream. -/
structure Front where
  stamps : List ℚ
  resolution : ℤ
  lo : ℚ
  hi : ℚ
  width : ℕ
  deriving DecidableEq, Repr

/-- `lie_increment_stream_from_increments` (lie_increment_stream.cpp:99-245) without schema, support
and context: `width` is zero when it is not given. -/
def fromIncrements (rows : List (List ℚ)) (arg : Stamps) (resolution : Option ℤ) (width : ℕ) :
    Out Front :=
  let width := if width = 0 then (rows.map List.length).foldl max 0 else width
  if width = 0 then .err
  else
    (readStamps rows arg).bind fun read =>
      if read ≠ [] ∧ read.length ≠ rows.length then .err
      else
        let stamps := if read = [] then (List.range rows.length).map fun (i : ℕ) => (i : ℚ) else read
        let resolution := if read = [] then some 0 else resolution
        let res : ℤ :=
          match resolution with
          | some r => r
          | none =>
            match chooseFrom none stamps with
            | none => 0
            | some d => resolutionOf d + 1
        match stamps with
        | [] => .ok ⟨[], res, 0, 1, width⟩
        | s :: rest =>
          .ok ⟨s :: rest, res, rest.foldl min s, rest.foldl max s + 2 ^ (-res), width⟩

end RoughPy.Args
