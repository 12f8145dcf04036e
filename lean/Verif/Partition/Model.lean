import Verif.Intervals.Model
import Mathlib.Data.List.Sort

/-!
# Model of `Partition` (intervals/src/partition.cpp, intervals/include/.../partition.h)

`param_t` is `ℚ`; `std::numeric_limits::infinity()` in `mesh` is `none`.
-/

namespace RoughPy.Partition

open RoughPy.Intervals

/-- `class Partition : RealInterval` — partition.h:46-51. -/
structure Partition where
  base : RealInterval
  pts : List ℚ
deriving DecidableEq, Repr

namespace Partition

/-- `Partition(RealInterval)` — partition.cpp:44. -/
def ofBase (b : RealInterval) : Partition := ⟨b, []⟩

/-- `Partition(RealInterval, Slice<param_t>)` — partition.cpp:46-56; the Python constructor
(roughpy/src/intervals/partition.cpp:50-66) filters and sorts in the same way.
`std::sort` is modelled by `List.insertionSort`. -/
def ofPoints (b : RealInterval) (mids : List ℚ) : Partition :=
  ⟨b, (mids.filter fun m => b.containsPoint m && decide (m ≠ b.inf) && decide (m ≠ b.sup)).insertionSort
    (· ≤ ·)⟩

/-- loop of `refine_midpoints` — partition.cpp:63-69. -/
def refineLoop (sup : ℚ) : ℚ → List ℚ → List ℚ
  | prev, [] => [(sup + prev) / 2]
  | prev, x :: xs => (x + prev) / 2 :: x :: refineLoop sup x xs

/-- `refine_midpoints` — partition.cpp:57-73. -/
def refineMidpoints (p : Partition) : Partition :=
  ⟨p.base, refineLoop p.base.sup p.base.inf p.pts⟩

/-- `if (new_diff < diff) diff = new_diff` with `diff = +∞` modelled by `none`. -/
def updMin (diff : Option ℚ) (x : ℚ) : Option ℚ :=
  match diff with
  | none => some x
  | some d => if x < d then some x else some d

/-- loop of `mesh` — partition.cpp:80-88. -/
def meshLoop (sup : ℚ) : ℚ → Option ℚ → List ℚ → Option ℚ
  | prev, diff, [] => updMin diff |sup - prev|
  | prev, diff, x :: xs => meshLoop sup x (updMin diff |x - prev|) xs

/-- `mesh` — partition.cpp:75-91. -/
def mesh (p : Partition) : Option ℚ := meshLoop p.base.sup p.base.inf none p.pts

/-- `size` — partition.h:66. -/
def size (p : Partition) : ℕ := 1 + p.pts.length

/-- `operator[]` — partition.cpp:93-118; `none` is the exception of the failing
`RPY_CHECK(i <= num_midpoints)`. -/
def get (p : Partition) (i : ℕ) : Option RealInterval :=
  if i ≤ p.pts.length then
    if p.pts.length = 0 then some p.base
    else if i = 0 then (p.pts.head?).map fun x => RealInterval.mk' p.base.inf x p.base.type
    else if i = p.pts.length then
      (p.pts.getLast?).map fun x => RealInterval.mk' x p.base.sup p.base.type
    else do
      let a ← p.pts[i - 1]?
      let b ← p.pts[i]?
      pure (RealInterval.mk' a b p.base.type)
  else none

/-- `insert_intermediate` — partition.cpp:120-133; `none` is the exception. -/
def insert (p : Partition) (x : ℚ) : Option Partition :=
  if p.base.containsPoint x then
    some ⟨p.base, p.pts.takeWhile (· < x) ++ x :: p.pts.dropWhile (· < x)⟩
  else none

/-- `if (it != end && *it == v) ++it` — partition.cpp:186-187, 229-230. -/
def skipEq (v : ℚ) : List ℚ → List ℚ
  | [] => []
  | x :: xs => if x = v then xs else x :: xs

/-- the interleaving loop — partition.cpp:198-210. Returns what it pushes and the rests. -/
def mergeLoop : List ℚ → List ℚ → List ℚ × List ℚ × List ℚ
  | [], r => ([], [], r)
  | l, [] => ([], l, [])
  | x :: l, y :: r =>
    if x = y then
      let (o, a, b) := mergeLoop l r
      (x :: o, a, b)
    else if x < y then
      let (o, a, b) := mergeLoop l (y :: r)
      (x :: o, a, b)
    else
      let (o, a, b) := mergeLoop (x :: l) r
      (y :: o, a, b)
  termination_by l r => l.length + r.length

/-- the overlapping branch of `merge` — partition.cpp:159-242. -/
def mergeOverlap (linf lsup rinf rsup : ℚ) (L R : List ℚ) : List ℚ :=
  let maxInf := max linf rinf
  let minSup := min lsup rsup
  let o₁ := L.takeWhile (· < rinf) ++ R.takeWhile (· < linf)
  let L₁ := L.dropWhile (· < rinf)
  let R₁ := R.dropWhile (· < linf)
  let o₂ := if linf ≠ rinf then [maxInf] else []
  let R₂ := if linf ≠ rinf then skipEq maxInf R₁ else R₁
  let L₂ := if linf ≠ rinf then skipEq maxInf L₁ else L₁
  let (o₃, L₃, R₃) := mergeLoop L₂ R₂
  let o₄ := L₃.takeWhile (· < rsup) ++ R₃.takeWhile (· < lsup)
  let L₄ := L₃.dropWhile (· < rsup)
  let R₄ := R₃.dropWhile (· < lsup)
  let c := lsup ≠ rsup ∧ minSup ≠ maxInf
  let o₅ := if c then [minSup] else []
  let L₅ := if c then skipEq minSup L₄ else L₄
  let R₅ := if c then skipEq minSup R₄ else R₄
  o₁ ++ o₂ ++ o₃ ++ o₄ ++ o₅ ++ L₅ ++ R₅

/-- `merge` — partition.cpp:135-246; `none` is the exception of `RPY_CHECK(type() == ...)`. -/
def merge (p q : Partition) : Option Partition :=
  if p.base.type = q.base.type then
    let linf := p.base.inf
    let lsup := p.base.sup
    let rinf := q.base.inf
    let rsup := q.base.sup
    let b := RealInterval.mk' (min linf rinf) (max lsup rsup) p.base.type
    if lsup < rinf then
      some ⟨b, (if lsup ≠ linf then [lsup] else []) ++ (if rinf ≠ rsup then [rinf] else [])⟩
    else if rsup < linf then
      some ⟨b, (if rinf ≠ rsup then [rsup] else []) ++ (if lsup ≠ linf then [linf] else [])⟩
    else some ⟨b, mergeOverlap linf lsup rinf rsup p.pts q.pts⟩
  else none

/-- Python `==` (`py::self == py::self`, roughpy/src/intervals/partition.cpp:119).
`Partition` declares no `operator==` (partition.h:82-99 declares `operator=` with that body),
so the inherited `Interval::operator==` (interval.cpp:104-108) is selected. -/
def eq (p q : Partition) : Bool := p.base.eq q.base

/-- The operations a user can apply to a partition. -/
inductive Op where
  | refine
  | insert (x : ℚ)
  | merge (q : Partition)

/-- Effect of one operation; a throwing operation leaves the object unchanged. -/
def step (p : Partition) : Op → Partition
  | .refine => p.refineMidpoints
  | .insert x => (p.insert x).getD p
  | .merge q => (p.merge q).getD p

end Partition

end RoughPy.Partition
