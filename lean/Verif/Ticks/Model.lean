import Verif.Schema.Model

/-!
# Model of `TickStreamConstructionHelper` and of the conversion of time stamps

`roughpy/src/streams/r_py_tick_construction_helper.cpp` and
`roughpy/src/args/convert_timestamp.cpp`.  `none` is an exception; which one is left out.
Floating point numbers are rational numbers, so differences are exact.
-/

namespace RoughPy.Ticks

open RoughPy.Schema (Str Channel)

/-- Python objects given as a time. -/
inductive Time
  | none
  | float (q : ℚ)
  /-- `int` (and `bool`) -/
  | int (n : ℤ)
  /-- `datetime.datetime`: whether it has a time zone, and the seconds since a fixed date (in UTC if
  it has one) -/
  | datetime (aware : Bool) (s : ℚ)
  /-- `datetime.time` -/
  | timeOfDay (s : ℚ)
  /-- strings, `datetime.date` and all others -/
  | other
deriving DecidableEq

/-- `PyDateTimeResolution` (`convert_timestamp.h:48-56`). -/
inductive Resolution
  | microseconds
  | milliseconds
  | seconds
  | minutes
  | hours
  | days
deriving DecidableEq

/-- `get_py_reference_delta` (`convert_timestamp.cpp:33-53`), in seconds. -/
def Resolution.delta : Resolution → ℚ
  | microseconds => 1 / 1000000
  | milliseconds => 1000 / 1000000
  | seconds => 1
  | minutes => 60
  | hours => 3600
  | days => 86400

/-- `generic_to_timestamp` (`convert_timestamp.cpp:79-102`).  `PyDateTime_FromTimestamp` takes the tuple
of the arguments; it is given the `int` itself and always raises `SystemError`. -/
def genericToTimestamp : Time → Option Time
  | .datetime a s => some (.datetime a s)
  | .timeOfDay s => some (.timeOfDay s)
  | .int _ => Option.none
  | .none => Option.none
  | .float _ => Option.none
  | .other => Option.none

/-- `dt_current - dt_previous` in Python, in seconds: `datetime.time` cannot be subtracted, and neither
can times with and without a zone. -/
def subtract : Time → Time → Option ℚ
  | .datetime a s, .datetime b t => if a = b then some (s - t) else Option.none
  | _, _ => Option.none

/-- `convert_delta_from_datetimes` (`convert_timestamp.cpp:106-122`) with `pytimedelta_to_param`
(`:55-77`). -/
def convertDelta (r : Resolution) (current previous : Time) : Option ℚ :=
  match current, previous with
  | .float q, .float p => some (q - p)
  | current, previous => do
    let c ← genericToTimestamp current
    let p ← genericToTimestamp previous
    let d ← subtract c p
    some (d / r.delta)

/-- Python objects given as data. -/
inductive Data
  | none
  | num (q : ℚ)
  | str (s : Str)
  | other (n : ℕ)
deriving DecidableEq

/-- `RPy_Tick` (`r_py_tick_construction_helper.h:44-50`). -/
structure Tick where
  label : Str
  time : ℚ
  data : Data
  type : Schema.TickType
  precedence : ℕ
deriving DecidableEq

/-- `RPyTickConstructionHelper` (`r_py_tick_construction_helper.h:52-60`); the resolution is always
seconds (`.cpp:51-68`). -/
structure Helper where
  ticks : List Tick
  schema : Schema.Schema
  schemaOnly : Bool
  reference : Time
  precedence : ℚ → ℕ

/-- The constructors (`r_py_tick_construction_helper.cpp:51-73`): a schema only, or ticks with a schema
that may be final. -/
def Helper.new (schema : Schema.Schema) (schemaOnly : Bool) : Option Helper :=
  if schemaOnly && schema.isFinal then Option.none
  else some ⟨[], schema, schemaOnly, .none, fun _ => 0⟩

/-- An argument list of `add_increment`, `add_value` or `add_categorical`.  Labels other than strings are
refused by the bindings. -/
structure Entry where
  label : Str
  type : Schema.TickType
  time : Time
  data : Data

/-- `add_increment_to_schema`, `add_value_to_schema`, `add_categorical_to_schema`
(`r_py_tick_construction_helper.cpp:75-94`). -/
def addToSchema (s : Schema.Schema) (e : Entry) : Option Schema.Schema :=
  match e.type with
  | .increment => (s.insert e.label (.increment false)).map (·.1)
  | .value => (s.insert e.label (.value false)).map (·.1)
  | .categorical =>
    match s.insert e.label (.categorical []) with
    | Option.none => Option.none
    | some (s', i) =>
      match e.data with
      | .none => some s'
      | .str v => s'.modify i fun ch => some (ch.insertVariant v)
      | _ => Option.none

/-- `add_tick` (`r_py_tick_construction_helper.cpp:121-143`). -/
def addTick (h : Helper) (e : Entry) : Option Helper :=
  if h.schemaOnly then some h
  else if e.time = .none then Option.none
  else if e.data = .none then Option.none
  else
    let ref := if h.reference = .none then e.time else h.reference
    match convertDelta .seconds e.time ref with
    | Option.none => Option.none
    | some t => some
        { h with
          ticks := h.ticks ++ [⟨e.label, t, e.data, e.type, h.precedence t⟩]
          reference := ref
          precedence := fun x => if x = t then h.precedence x + 1 else h.precedence x }

/-- `add_increment`, `add_value` and `add_categorical` (`r_py_tick_construction_helper.cpp:145-185`). -/
def add (h : Helper) (e : Entry) : Option Helper :=
  if h.schema.isFinal then addTick h e
  else
    match addToSchema h.schema e with
    | Option.none => Option.none
    | some s => addTick { h with schema := s } e

/-- calls one after the other -/
def addAll (h : Helper) : List Entry → Option Helper
  | [] => some h
  | e :: es => (add h e).bind fun h' => addAll h' es

/-- a new helper and these calls -/
def build (schema : Schema.Schema) (schemaOnly : Bool) (es : List Entry) : Option Helper :=
  (Helper.new schema schemaOnly).bind fun h => addAll h es

end RoughPy.Ticks
