import Verif.Intervals.Model

/-!
# Model of `segment` : `intervals/src/{segmentation,dyadic_searcher,scaled_predicate}`

The predicate is a pure total function of the interval it is given.  As in
`Verif/Intervals/Model.lean`, `param_t` is `ℚ` and integers are unbounded; the one place where
the width of `int` decides what happens, `1 << current_depth`, is modelled literally.
Shifting a negative `int` to the left, formally undefined in C++17, is multiplication here, as
it is with the compilers the project supports.
-/

namespace RoughPy.Intervals

/-- `predicate_t = std::function<bool(const Interval&)>` — segmentation.h:44. -/
abbrev Pred := RealInterval → Bool

/-- What a call of `segment` does: return, throw, or run into undefined behaviour. -/
inductive SegmentResult where
  | ok (l : List RealInterval)
  | throws
  | ub
deriving DecidableEq, Repr

/-- `class ScaledPredicate` — scaled_predicate.h:40-56. -/
structure ScaledPredicate where
  func : Pred
  shift : ℚ
  scale : ℚ

namespace ScaledPredicate

/-- `ScaledPredicate::unscale` — scaled_predicate.cpp:34-38, for an interval with the given
ends and type. -/
def unscale (p : ScaledPredicate) (inf sup : ℚ) (t : IType) : RealInterval :=
  RealInterval.mk' (inf * p.scale + p.shift) (sup * p.scale + p.shift) t

/-- `ScaledPredicate::operator()` — scaled_predicate.cpp:39-42, for a dyadic interval. -/
def call (p : ScaledPredicate) (d : DyadicInterval) : Bool :=
  p.func (p.unscale d.inf d.sup d.type)

end ScaledPredicate

namespace Searcher

/-- `DyadicRealStrictLess` — dyadic_searcher.h:46-53. -/
def less (l r : Dyadic) : Bool :=
  let m := max l.n r.n
  decide (Dyadic.shift l.k (m - l.n) < Dyadic.shift r.k (m - r.n))

/-- `DyadicRealStrictGreater` — dyadic_searcher.h:55-62. -/
def greater (l r : Dyadic) : Bool :=
  let m := max l.n r.n
  decide (Dyadic.shift l.k (m - l.n) > Dyadic.shift r.k (m - r.n))

/-- `m_seen` — dyadic_searcher.h:67: a `std::map` from the supremum to the infimum of what has
been found, ordered by `DyadicRealStrictGreater`; here the list of its entries in that order. -/
abbrev Seen := List (Dyadic × Dyadic)

/-- `m_seen[key] = value` of the `std::map`. -/
def assign (key value : Dyadic) : Seen → Seen
  | [] => [(key, value)]
  | (s, i) :: rest =>
    if greater key s then (key, value) :: (s, i) :: rest
    else if greater s key then (s, i) :: assign key value rest
    else (s, value) :: rest

/-- The loop of `expand_left` — dyadic_searcher.cpp:61-80.  `fuel` is the number of
iterations left; the caller gives `m_max_depth - di.power()`. -/
def leftLoop (p : ScaledPredicate) (maxDepth : ℤ) :
    ℕ → DyadicInterval → List DyadicInterval → Option (List DyadicInterval)
  | fuel, di, current =>
    if di.n < maxDepth then
      match fuel with
      | 0 => none
      | fuel + 1 => do
        let left ← di.shrinkLeft 1
        let di ← di.shrinkRight
        if p.call di then leftLoop p maxDepth fuel left (di :: current)
        else leftLoop p maxDepth fuel di current
    else some current

/-- `DyadicSearcher::expand_left` — dyadic_searcher.cpp:40-81; `front` is `current.front()`,
`--di` lowers the multiplier (dyadic.cpp:64-68). -/
def expandLeft (p : ScaledPredicate) (maxDepth : ℤ) (front : DyadicInterval)
    (current : List DyadicInterval) : Option (List DyadicInterval) := do
  let isAligned ← front.aligned
  let di : DyadicInterval := { front with k := front.k - 1 }
  let (di, current) :=
    if isAligned && p.call di then (({ di with k := di.k - 1 } : DyadicInterval), di :: current)
    else (di, current)
  leftLoop p maxDepth (maxDepth - di.n).toNat di current

/-- The loop of `expand_right` — dyadic_searcher.cpp:94-114. -/
def rightLoop (p : ScaledPredicate) (maxDepth : ℤ) :
    ℕ → DyadicInterval → List DyadicInterval → Option (List DyadicInterval)
  | fuel, di, current =>
    if di.n < maxDepth then
      match fuel with
      | 0 => none
      | fuel + 1 => do
        let right ← di.shrinkRight
        let di ← di.shrinkLeft 1
        if p.call di then rightLoop p maxDepth fuel right (current ++ [di])
        else rightLoop p maxDepth fuel di current
    else some current

/-- `DyadicSearcher::expand_right` — dyadic_searcher.cpp:82-115; `back` is `current.back()`. -/
def expandRight (p : ScaledPredicate) (maxDepth : ℤ) (back : DyadicInterval)
    (current : List DyadicInterval) : Option (List DyadicInterval) :=
  let di : DyadicInterval := { back with k := back.k + 1 }
  rightLoop p maxDepth (maxDepth - di.n).toNat di current

/-- The deque `found` of `DyadicSearcher::expand` after both expansions —
dyadic_searcher.cpp:119-121.  `expand_left` only adds at the front, so `found_interval` still is
the last element when `expand_right` looks at it. -/
def expandFound (p : ScaledPredicate) (maxDepth : ℤ) (d : DyadicInterval) :
    Option (List DyadicInterval) := do
  let found ← expandLeft p maxDepth d [d]
  let back ← found.getLast?
  expandRight p maxDepth back found

/-- `DyadicSearcher::expand` — dyadic_searcher.cpp:116-124. -/
def expand (p : ScaledPredicate) (maxDepth : ℤ) (seen : Seen) (d : DyadicInterval) :
    Option Seen := do
  let found ← expandFound p maxDepth d
  let back ← found.getLast?
  let front ← found.head?
  pure (assign back.dsup front.dinf seen)

/-- The multiplier `k` in `get_next_dyadic` when the entry of `m_seen` overlaps —
dyadic_searcher.cpp:169-194. -/
def skipTo (n : ℤ) (inf : Dyadic) : ℤ :=
  if n < inf.n then inf.k / 2 ^ (inf.n - n).toNat
  else if n > inf.n then inf.k * 2 ^ (n - inf.n).toNat
  else inf.k

/-- The loop of `get_next_dyadic` — dyadic_searcher.cpp:155-203. -/
def nextLoop (n : ℤ) : Seen → ℤ → ℤ
  | [], k => k
  | (s, i) :: rest, k =>
    if !less ⟨k, n⟩ i then
      if !greater ⟨k, n⟩ s then nextLoop n rest (skipTo n i) else k
    else nextLoop n rest k

/-- `DyadicSearcher::get_next_dyadic` — dyadic_searcher.cpp:145-212. -/
def getNext (seen : Seen) (current : DyadicInterval) : DyadicInterval :=
  ⟨nextLoop current.n seen current.k - 1, current.n, current.type⟩

/-- The `while` loop of `find_in_unit_interval` — dyadic_searcher.cpp:226-240.  `none`: the
loop did not stop within `fuel` iterations. -/
def scan (p : ScaledPredicate) (maxDepth : ℤ) :
    ℕ → Seen → DyadicInterval → Option Seen
  | fuel, seen, current =>
    if current.k ≥ 0 then
      match fuel with
      | 0 => none
      | fuel + 1 =>
        (if p.call current then expand p maxDepth seen current else some seen).bind fun seen =>
          scan p maxDepth fuel seen (getNext seen current)
    else some seen

/-- The `for` loop of `find_in_unit_interval` — dyadic_searcher.cpp:220-241, for the given
depths.  `DyadicInterval{(1 << d), d}` is the constructor inherited from `Dyadic`
(dyadic_interval.h:57), the type is `Clopen` (interval.h:62). -/
def depths (p : ScaledPredicate) (maxDepth : ℤ) : List ℤ → Seen → Option Seen
  | [], seen => some seen
  | d :: rest, seen => do
    let seen ← scan p maxDepth (2 ^ d.toNat) seen (getNext seen ⟨2 ^ d.toNat, d, .clopen⟩)
    depths p maxDepth rest seen

/-- The values `1, ..., m_max_depth` of `current_depth` — dyadic_searcher.cpp:220-221. -/
def depthList (maxDepth : ℤ) : List ℤ :=
  (List.range maxDepth.toNat).map fun i : ℕ => (i : ℤ) + 1

/-- `DyadicSearcher::find_in_unit_interval` — dyadic_searcher.cpp:213-249.  The result is the
list of pairs (inf, sup). -/
def findInUnit (p : ScaledPredicate) (maxDepth : ℤ) : Option (List (ℚ × ℚ)) := do
  let seen ← depths p maxDepth (depthList maxDepth) []
  pure (seen.map fun e => (e.2.toParam, e.1.toParam)).reverse

end Searcher

open Searcher in
/-- `segment(interval, predicate, max_depth)` — segmentation.cpp:45-51, which is
`DyadicSearcher::operator()` — dyadic_searcher.cpp:250-267, with `rescale_to_unit_interval`
(lines 125-144).  `1 << current_depth` followed by `--k` is not defined on `int` from depth 31
on (dyadic_searcher.cpp:223-224, 209).  Running out of fuel is reported as `ub`; it never
happens (`segment_total`). -/
def segment (original : RealInterval) (pred : Pred) (maxDepth : ℤ) : SegmentResult :=
  if pred original then .ok [original]
  else if ¬ original.sup > original.inf then .throws
  else if maxDepth ≥ 31 then .ub
  else
    let p : ScaledPredicate := ⟨pred, original.inf, original.sup - original.inf⟩
    match findInUnit p maxDepth with
    | none => .ub
    | some found =>
      .ok (found.map fun e =>
        let r := RealInterval.mk' e.1 e.2
        p.unscale r.inf r.sup r.type)

end RoughPy.Intervals
