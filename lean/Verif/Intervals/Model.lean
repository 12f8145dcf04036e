import Mathlib.Algebra.Order.Floor.Ring
import Mathlib.Data.Rat.Floor
import Mathlib.Data.Int.Init

/-!
# Model of `intervals/` : `Dyadic`, `DyadicInterval`, `to_dyadic_intervals`

Machine integers (`dyadic_multiplier_t`, `dyadic_depth_t`, both 32-bit `int`) are modelled
by `ℤ`; wrap-around is not modelled.  The only place where the code itself looks at the
width of the type, the guard in `Dyadic::rebase`, is modelled literally (`intDigits = 31`).
`param_t` (`double`) is modelled by `ℚ`; `ldexp`, `floor`, `ceil` are exact.
-/

namespace RoughPy.Intervals

/-- `std::numeric_limits<int>::digits`; used by `Dyadic::rebase`
(intervals/src/dyadic.cpp:85-86).  `multiplier_t` and `power_t` are both `int`
(core/include/roughpy/core/types.hpp). -/
def intDigits : ℤ := 31

/-- `enum class IntervalType` — intervals/include/roughpy/intervals/interval.h (`Clopen`, `Opencl`). -/
inductive IType where
  | clopen
  | opencl
deriving DecidableEq, Repr

/-- `class Dyadic` data members — intervals/include/roughpy/intervals/dyadic.h:45-53. -/
structure Dyadic where
  k : ℤ
  n : ℤ
deriving DecidableEq, Repr

namespace Dyadic

/-- `Dyadic::mod` — dyadic.h:56-61. C++ `%` truncates towards zero (`Int.tmod`). -/
def mod (a b : ℤ) : ℤ :=
  let r := Int.tmod a b
  if r < 0 then r + |b| else r

/-- `Dyadic::int_two_to_int_power` — dyadic.h:62-67.  The code asserts `exponent >= 0`;
all modelled call sites establish that, so `toNat` is never applied to a negative number
there. -/
def pow2 (e : ℤ) : ℤ := 2 ^ e.toNat

/-- `Dyadic::shift` — dyadic.h:68-72. -/
def shift (k n : ℤ) : ℤ := k * pow2 n

/-- `Dyadic::operator param_t` — dyadic.cpp:43-46 (`ldexp(k, -n)`). -/
def toParam (d : Dyadic) : ℚ := (d.k : ℚ) * (2 : ℚ) ^ (-d.n)

/-- The loop `for (; (m_multiplier % 2^r) != 0; --r) {}` — dyadic.cpp:93-94.
The counter is a natural number because the caller starts it at a positive value and the
loop stops at `r = 0` at the latest. -/
def findR (k : ℤ) : ℕ → ℕ
  | 0 => 0
  | r + 1 => if Int.tmod k (2 ^ (r + 1)) ≠ 0 then findR k r else r + 1

/-- `Dyadic::rebase` — dyadic.cpp:74-101. Returns the new dyadic and the boolean result. -/
def rebase (d : Dyadic) (resolution : ℤ) : Dyadic × Bool :=
  if d.k = 0 then (⟨0, resolution⟩, true)
  else if resolution ≥ d.n then (⟨shift d.k (resolution - d.n), resolution⟩, true)
  else
    let resolution' :=
      if d.n ≥ intDigits + resolution then (d.n - intDigits) + 1 else resolution
    let r := findR d.k (d.n - resolution').toNat
    let d' : Dyadic := ⟨Int.tdiv d.k (2 ^ r), d.n - r⟩
    (d', decide (resolution' = d'.n))

/-- `operator<(Dyadic, Dyadic)` — dyadic.cpp:103-112. -/
def lt (l r : Dyadic) : Bool :=
  if l.n ≤ r.n then decide (l.k < shift r.k (r.n - l.n))
  else decide (shift l.k (l.n - r.n) < r.k)

/-- `operator<=(Dyadic, Dyadic)` — dyadic.cpp:113-122. -/
def le (l r : Dyadic) : Bool :=
  if l.n ≤ r.n then decide (l.k ≤ shift r.k (r.n - l.n))
  else decide (shift l.k (l.n - r.n) ≤ r.k)

/-- `operator>(Dyadic, Dyadic)` — dyadic.cpp:123-132. -/
def gt (l r : Dyadic) : Bool :=
  if l.n ≤ r.n then decide (l.k > shift r.k (r.n - l.n))
  else decide (shift l.k (l.n - r.n) > r.k)

/-- `operator>=(Dyadic, Dyadic)` — dyadic.cpp:133-142. -/
def ge (l r : Dyadic) : Bool :=
  if l.n ≤ r.n then decide (l.k ≥ shift r.k (r.n - l.n))
  else decide (shift l.k (l.n - r.n) ≥ r.k)

/-- `dyadic_equals` — dyadic.cpp:147-150. -/
def dyadicEquals (l r : Dyadic) : Bool := decide (l.n = r.n) && decide (l.k = r.k)

/-- `rational_equals` — dyadic.cpp:151-174. -/
def rationalEquals (l r : Dyadic) : Bool :=
  if l.k = 0 ∧ r.k = 0 then true
  else if l.k = 0 ∨ r.k = 0 then false
  else if Int.tmod l.k r.k = 0 ∧ Int.tdiv l.k r.k ≥ 1 then
    let rel := l.n - r.n
    if rel < 0 then false else decide (Int.tdiv l.k r.k = pow2 rel)
  else if Int.tmod r.k l.k = 0 ∧ Int.tdiv r.k l.k ≥ 1 then
    let rel := r.n - l.n
    if rel < 0 then false else decide (Int.tdiv r.k l.k = pow2 rel)
  else false

end Dyadic

/-- `class DyadicInterval : Dyadic, Interval` — dyadic_interval.h:45-60. -/
structure DyadicInterval where
  k : ℤ
  n : ℤ
  type : IType
deriving DecidableEq, Repr

namespace DyadicInterval

/-- the `Dyadic` base subobject (`static_cast<const Dyadic&>(*this)`). -/
def toDyadic (d : DyadicInterval) : Dyadic := ⟨d.k, d.n⟩

/-- sign of a type; `DyadicInterval::unit` — dyadic_interval.h:81-85. -/
def unitOf : IType → ℤ
  | .clopen => 1
  | .opencl => -1

/-- `DyadicInterval::unit` — dyadic_interval.h:81-85. -/
def unit (d : DyadicInterval) : ℤ := unitOf d.type

/-- `DyadicInterval(Dyadic, power_t resolution, IntervalType)` — dyadic_interval.cpp:47-59.
`none` stands for the exception thrown by the failing `RPY_CHECK(is_int)`. -/
def ofDyadic (d : Dyadic) (resolution : ℤ) (t : IType) : Option DyadicInterval :=
  let (d₁, ok) := d.rebase resolution
  if ok then some ⟨d₁.k, d₁.n, t⟩
  else
    let k1 := d₁.k
    let one := unitOf t
    let pow := Dyadic.pow2 (d₁.n - resolution)
    let d₂ : Dyadic := ⟨one * (k1 * one - Dyadic.mod (k1 * one) pow), d₁.n⟩
    let (d₃, isInt) := d₂.rebase resolution
    if isInt then some ⟨d₃.k, d₃.n, t⟩ else none

/-- `DyadicInterval(param_t val, power_t resolution, IntervalType)` —
dyadic_interval.cpp:60-71. -/
def ofParam (val : ℚ) (resolution : ℤ) (t : IType) : DyadicInterval :=
  let rescaled := val * (2 : ℚ) ^ resolution
  match t with
  | .opencl => ⟨⌈rescaled⌉, resolution, t⟩
  | .clopen => ⟨⌊rescaled⌋, resolution, t⟩

/-- `dincluded_end` — dyadic_interval.cpp:72-75. -/
def dincludedEnd (d : DyadicInterval) : Dyadic := d.toDyadic

/-- `dexcluded_end` — dyadic_interval.cpp:76-79. -/
def dexcludedEnd (d : DyadicInterval) : Dyadic := ⟨d.k + d.unit, d.n⟩

/-- `dinf` — dyadic_interval.cpp:80-84. -/
def dinf (d : DyadicInterval) : Dyadic :=
  match d.type with
  | .clopen => d.dincludedEnd
  | .opencl => d.dexcludedEnd

/-- `dsup` — dyadic_interval.cpp:85-89. -/
def dsup (d : DyadicInterval) : Dyadic :=
  match d.type with
  | .clopen => d.dexcludedEnd
  | .opencl => d.dincludedEnd

/-- `inf` — dyadic_interval.cpp:90. -/
def inf (d : DyadicInterval) : ℚ := d.dinf.toParam
/-- `sup` — dyadic_interval.cpp:91. -/
def sup (d : DyadicInterval) : ℚ := d.dsup.toParam

/-- `included_end` — dyadic_interval.cpp:92-95. -/
def includedEnd (d : DyadicInterval) : ℚ := d.dincludedEnd.toParam
/-- `excluded_end` — dyadic_interval.cpp:96-99. -/
def excludedEnd (d : DyadicInterval) : ℚ := d.dexcludedEnd.toParam

/-- `flip_interval` — dyadic_interval.cpp:158-166. -/
def flip (d : DyadicInterval) : DyadicInterval :=
  if Int.tmod d.k 2 = 0 then { d with k := d.k + d.unit } else { d with k := d.k - d.unit }

/-- `shrink_to_contained_end(arg)` — dyadic_interval.cpp:101-105. -/
def shrinkToContainedEnd (d : DyadicInterval) (arg : ℤ := 1) : Option DyadicInterval :=
  ofDyadic d.toDyadic (arg + d.n) d.type

/-- `shrink_to_omitted_end` — dyadic_interval.cpp:106-109. -/
def shrinkToOmittedEnd (d : DyadicInterval) : Option DyadicInterval :=
  (d.shrinkToContainedEnd).map flip

/-- `shrink_interval_right` — dyadic_interval.cpp:110-118. -/
def shrinkRight (d : DyadicInterval) : Option DyadicInterval :=
  match d.type with
  | .opencl => d.shrinkToContainedEnd
  | .clopen => d.shrinkToOmittedEnd

/-- one iteration of `shrink_interval_left` — dyadic_interval.cpp:122-128. -/
def shrinkLeft1 (d : DyadicInterval) : Option DyadicInterval :=
  match d.type with
  | .clopen => d.shrinkToContainedEnd
  | .opencl => d.shrinkToOmittedEnd

/-- `shrink_interval_left(arg)` — dyadic_interval.cpp:119-130
(`arg ≥ 0` is asserted by the code, hence `ℕ`). -/
def shrinkLeft (d : DyadicInterval) : (arg : ℕ) → Option DyadicInterval
  | 0 => some d
  | arg + 1 => do (← d.shrinkLeft1).shrinkLeft arg

/-- `expand_interval(arg)` — dyadic_interval.cpp:131-135.  Note: the constructor is called
without an interval type, so its default `Clopen` applies. -/
def expand (d : DyadicInterval) (arg : ℤ := 1) : Option DyadicInterval :=
  ofDyadic d.dincludedEnd (d.n - arg) .clopen

/-- `contains_dyadic` — dyadic_interval.cpp:136-150. -/
def containsDyadic (d other : DyadicInterval) : Bool :=
  if other.type ≠ d.type then false
  else if other.n ≥ d.n then
    let one := d.unit
    let pow := Dyadic.pow2 (other.n - d.n)
    let shifted := Dyadic.shift d.k (other.n - d.n)
    let aligned := one * (other.k * one - Dyadic.mod (other.k * one) pow)
    decide (shifted = aligned)
  else false

/-- `Interval::operator==` on dyadic intervals — interval.cpp:104-108. -/
def intervalEq (a b : DyadicInterval) : Bool :=
  decide (a.type = b.type) && decide (a.inf = b.inf) && decide (a.sup = b.sup)

/-- `aligned` — dyadic_interval.cpp:151-157. The second constructor call uses the default
type `Clopen`. -/
def aligned (d : DyadicInterval) : Option Bool := do
  let parent ← ofDyadic d.toDyadic (d.n - 1) d.type
  let p ← ofDyadic parent.toDyadic d.n .clopen
  pure (d.intervalEq p)

/-- `shift_forward(arg)` — dyadic_interval.cpp:167-172. -/
def shiftForward (d : DyadicInterval) (arg : ℤ := 1) : DyadicInterval :=
  { d with k := d.k - d.unit * arg }

/-- `shift_back(arg)` — dyadic_interval.cpp:173-178. -/
def shiftBack (d : DyadicInterval) (arg : ℤ := 1) : DyadicInterval :=
  { d with k := d.k + d.unit * arg }

/-- `advance` — dyadic_interval.cpp:179-183. -/
def advance (d : DyadicInterval) : DyadicInterval := { d with k := d.k + d.unit }

/-- `operator<(DyadicInterval, DyadicInterval)` — dyadic_interval.cpp:230-251. -/
def lt (l r : DyadicInterval) : Bool :=
  if l.type ≠ r.type then false
  else if l.n = r.n then decide (l.unit * (r.k - l.k) > 0)
  else if l.n > r.n then
    decide (l.unit * (Dyadic.shift r.k (l.n - r.n) - l.k) > 0)
  else
    decide (l.unit * (r.k - Dyadic.shift l.k (r.n - l.n)) ≥ 0)

end DyadicInterval

/-- First loop of `to_dyadic_intervals` (dyadic_interval.cpp:212-217, with the lambda
`store_move`, lines 198-201).  Result: list pushed so far and final `begin`.
`none`: the fuel ran out (the loop did not stop within `fuel` iterations) or a constructor
threw. -/
def dissectLoop1 : ℕ → List DyadicInterval → DyadicInterval → DyadicInterval →
    Option (List DyadicInterval × DyadicInterval)
  | fuel, acc, begin, e =>
    if begin.containsDyadic e then some (acc, begin)
    else match fuel with
      | 0 => none
      | fuel + 1 => do
        let next ← begin.expand
        let al ← begin.aligned
        if !al then
          let s ← next.shrinkToOmittedEnd
          dissectLoop1 fuel (acc ++ [s]) next.advance e
        else
          dissectLoop1 fuel acc next e

/-- Second loop of `to_dyadic_intervals` (dyadic_interval.cpp:219-223, with the lambda
`store_`, lines 203-205).  `tail` is the part of the list from iterator `p` on: inserting
before `p` and re-assigning `p` means prepending to `tail`. `next` and `end` agree at the
start of each iteration, so a single variable `e` is kept. -/
def dissectLoop2 : ℕ → List DyadicInterval → DyadicInterval → DyadicInterval →
    Option (List DyadicInterval)
  | fuel, tail, begin, e => do
    let next ← e.expand
    if begin.containsDyadic next then
      match fuel with
      | 0 => none
      | fuel + 1 => do
        let al ← e.aligned
        if !al then
          let s ← next.shrinkToContainedEnd
          dissectLoop2 fuel (s :: tail) begin next
        else dissectLoop2 fuel tail begin next
    else some tail

/-- `to_dyadic_intervals(interval, tol, itype)` — dyadic_interval.cpp:191-228, for an
interval with end points `inf`, `sup`.  `fuel` bounds the number of iterations of each
loop; `none` means "not finished within the fuel". -/
def toDyadicIntervals (fuel : ℕ) (inf sup : ℚ) (tol : ℤ) (itype : IType) :
    Option (List DyadicInterval) := do
  let inc := match itype with | .clopen => inf | .opencl => sup
  let exc := match itype with | .clopen => sup | .opencl => inf
  let begin := DyadicInterval.ofParam inc tol itype
  let e := DyadicInterval.ofParam exc tol itype
  let (acc, begin') ← dissectLoop1 fuel [] begin e
  let tail ← dissectLoop2 fuel [] begin' e
  let l := acc ++ tail
  pure (match itype with | .opencl => l.reverse | .clopen => l)

/-- `Stream`-facing default: `RealInterval` — real_interval.h:41-70: a pair of end points
and a type.  The three-argument constructor swaps the end points when `inf > sup`. -/
structure RealInterval where
  inf : ℚ
  sup : ℚ
  type : IType := .clopen
deriving DecidableEq, Repr

namespace RealInterval

/-- `RealInterval()` — real_interval.h:44-48: `[0,1)`. -/
def default : RealInterval := ⟨0, 1, .clopen⟩

/-- `RealInterval(inf, sup, itype)` — real_interval.h:55-61. -/
def mk' (inf sup : ℚ) (t : IType := .clopen) : RealInterval :=
  if inf > sup then ⟨sup, inf, t⟩ else ⟨inf, sup, t⟩

/-- `Interval::contains_point` — interval.cpp:61-71. -/
def containsPoint (i : RealInterval) (x : ℚ) : Bool :=
  match i.type with
  | .clopen => decide (i.inf ≤ x) && decide (x < i.sup)
  | .opencl => decide (i.inf < x) && decide (x ≤ i.sup)

/-- `Interval::included_end` — interval.cpp:47-53. -/
def includedEnd (i : RealInterval) : ℚ :=
  match i.type with | .clopen => i.inf | .opencl => i.sup

/-- `Interval::excluded_end` — interval.cpp:54-60. -/
def excludedEnd (i : RealInterval) : ℚ :=
  match i.type with | .clopen => i.sup | .opencl => i.inf

/-- `Interval::is_associated` — interval.cpp:72-75. -/
def isAssociated (i arg : RealInterval) : Bool := i.containsPoint arg.includedEnd

/-- `Interval::contains` — interval.cpp:76-79. -/
def contains (i arg : RealInterval) : Bool :=
  decide (i.inf ≤ arg.inf) && decide (arg.sup ≤ i.sup)

/-- `Interval::intersects_with` — interval.cpp:80-103. -/
def intersectsWith (l r : RealInterval) : Bool :=
  if (l.inf ≤ r.inf ∧ l.sup > r.inf) ∨ (r.inf ≤ l.inf ∧ r.sup > l.inf) then true
  else if r.inf = l.sup then decide (l.type = .opencl) && decide (r.type = .clopen)
  else if l.inf = r.sup then decide (l.type = .clopen) && decide (r.type = .opencl)
  else false

/-- `Interval::operator==` — interval.cpp:104-108. -/
def eq (a b : RealInterval) : Bool :=
  decide (a.type = b.type) && decide (a.inf = b.inf) && decide (a.sup = b.sup)

/-- `intersection` — intersection_and_union.cpp:16-30. -/
def intersection (l r : RealInterval) : RealInterval :=
  if l.inf ≥ r.sup ∨ l.sup ≤ r.inf then default
  else mk' (max l.inf r.inf) (min l.sup r.sup)

/-- `interval_union` — intersection_and_union.cpp:33-38. -/
def union (l r : RealInterval) : RealInterval :=
  mk' (min l.inf r.inf) (max l.sup r.sup)

end RealInterval

end RoughPy.Intervals
