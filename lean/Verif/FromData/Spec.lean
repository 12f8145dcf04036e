import Verif.FromData.Model
import Verif.Ticks.Spec
import Verif.Parse.Spec
import Verif.Streams.Spec

/-!
# What a stream made from tick data should be
-/

namespace RoughPy.FromData

open RoughPy.Schema (Str Vec PlainLabel)

/-- A tick as the user thinks of it: a new value of a channel, or a change. -/
structure Event where
  label : Str
  isValue : Bool
  time : ℚ
  amount : ℚ
deriving DecidableEq

/-- The arguments say this; all times are of one kind (numbers, or dates with a time). -/
def Says (k : Ticks.TimeKind) (e : Ticks.Entry) (v : Event) : Prop :=
  e.label = v.label ∧ e.type = (if v.isValue then .value else .increment) ∧ Ticks.IsTime k e.time v.time ∧
    e.data = .num v.amount

/-- The events in order of time; those at the same time in the order given. -/
structure InTimeOrder (given ordered : List Event) : Prop where
  perm : ordered.Perm given
  sorted : ordered.Pairwise fun a b => a.time ≤ b.time
  ties : ∀ x, ordered.filter (fun v => decide (v.time = x)) = given.filter fun v => decide (v.time = x)

/-- The value of a channel after these events: 0 before the first. -/
def valueAfter (l : Str) (vs : List Event) : ℚ :=
  vs.foldl (fun x v => if v.isValue = true ∧ v.label = l then v.amount else x) 0

/-- The number of the channel, counted from 1 in the order in which labels are given first. -/
def channelOf (given : List Event) (l : Str) : ℕ := (Ticks.firsts (given.map (·.label))).idxOf l + 1

/-- The change of the path at an event, after the events `before`: in the channel of the event, and in the
channel for time if there is one, where time starts at `t0`. -/
def change (channel : Str → ℕ) (timeChannel : Option ℕ) (t0 : ℚ) (before : List Event) (v : Event) : Vec := fun c =>
  if some c = timeChannel then v.time - (match before.getLast? with
    | some u => u.time
    | none => t0)
  else if c = channel v.label then (if v.isValue then v.amount - valueAfter v.label before else v.amount)
  else 0

/-- The times, counted from `t0`, and changes of these events, after the events `before`. -/
def changes (channel : Str → ℕ) (timeChannel : Option ℕ) (t0 : ℚ) : List Event → List Event → List (ℚ × Vec)
  | _, [] => []
  | before, v :: vs =>
    (v.time - t0, change channel timeChannel t0 before v) :: changes channel timeChannel t0 (before ++ [v]) vs

/-- What `std::sort` promises: a permutation in which no element is less than an earlier one. -/
def Sorts (sort : List Ticks.Tick → List Ticks.Tick) : Prop :=
  ∀ l, (sort l).Perm l ∧
    (sort l).Pairwise fun a b => ¬ (b.time < a.time ∨ b.time = a.time ∧ b.precedence < a.precedence)

/-- A multiple of `2^-R`. -/
def OnGrid (R : ℤ) (x : ℚ) : Prop := ∃ i : ℤ, x = i / 2 ^ R

end RoughPy.FromData
