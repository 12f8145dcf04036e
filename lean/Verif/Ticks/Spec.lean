import Verif.Ticks.Model
import Verif.Schema.LabelLemmas

/-!
# What a list of ticks says
-/

namespace RoughPy.Ticks

open RoughPy.Schema (Str Channel PlainLabel)

/-- Kinds of times that can be subtracted from each other. -/
inductive TimeKind
  | float
  | datetime (aware : Bool)

/-- The time is of this kind; `q` is the number, or the seconds. -/
def IsTime : TimeKind → Time → ℚ → Prop
  | .float, t, q => t = .float q
  | .datetime a, t, q => t = .datetime a q

/-- The elements in order of first appearance. -/
def firsts {α : Type} [DecidableEq α] : List α → List α
  | [] => []
  | a :: l => a :: (firsts l).filter (· ≠ a)

/-- the variant that a tick of this label has -/
def variantOf (l : Str) (e : Entry) : Option Str :=
  if e.label = l ∧ e.type = .categorical then
    match e.data with
    | .str v => some v
    | _ => none
  else none

/-- The channel for this label: the type of the first tick with the label; if it is categorical, the variants
that occur with the label, in order of first appearance. -/
def channelFor (es : List Entry) (l : Str) : Channel :=
  match (es.find? fun e => e.label = l).map Entry.type with
  | some .value => .value false
  | some .categorical => .categorical (firsts (es.filterMap (variantOf l)))
  | _ => .increment false

/-- The channels that the ticks ask for: one for each label. -/
def inferred (es : List Entry) : List (Str × Channel) :=
  (firsts (es.map (·.label))).map fun l => (l, channelFor es l)

/-- Labels without `:` and NUL, not empty; variants are given names. -/
structure GoodEntries (es : List Entry) : Prop where
  nonempty : ∀ e ∈ es, e.label ≠ []
  plain : ∀ e ∈ es, PlainLabel e.label
  variants : ∀ e ∈ es, e.data ≠ .str []

/-- the data of a tick can be recorded: variants are strings -/
def DataOk (e : Entry) : Prop := e.data ≠ .none ∧ (e.type = .categorical → ∃ v, e.data = .str v)

end RoughPy.Ticks
