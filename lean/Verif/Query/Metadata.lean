import Verif.Query.Model
import Verif.Schema.Model

/-!
# Model of the metadata of a new stream

`roughpy/src/args/kwargs_to_path_metadata.cpp`, `roughpy/src/args/parse_algebra_configuration.cpp`,
`roughpy/src/streams/schema_finalization.cpp` and their use by the constructors of streams.  Keyword
arguments are given already converted; errors of the conversions (`TypeError`) are not modelled.
`deg_t` is `ℤ`.  Exceptions reach Python through pybind11 (`std::invalid_argument` is a
`ValueError`).
-/

namespace RoughPy.Query

open RoughPy.Intervals RoughPy.Schema

/-- `streams::ChannelType` — streams/include/roughpy/streams/channels/stream_channel.h:51-57. -/
inductive ChanKind where
  | increment | value | categorical | lie
deriving DecidableEq, Repr

/-- The channels made by `insert_increment`, `insert_value`, `insert_categorical`, `insert_lie` —
streams/src/schema.cpp:262-277. -/
def ChanKind.channel : ChanKind → Channel
  | increment => .increment false
  | value => .value false
  | categorical => .categorical []
  | lie => .lie

/-- The keyword argument `channel_types`: one type for all channels (an enum or a string), a
dictionary, a sequence, or anything else. -/
inductive ChanArg where
  | one (k : ChanKind)
  | labelled (l : List (Str × ChanKind))
  | listed (l : List ChanKind)
  | other
deriving DecidableEq, Repr

/-- The keyword arguments `dtype`, `ctype`, `coeffs` — parse_algebra_configuration.cpp:99-108,
roughpy/src/scalars/scalar_type.cpp:457-466: a RoughPy scalar type; a string; a numpy dtype with the
type `npy_dtype_to_ctype` finds; anything else. -/
inductive KDType where
  | scalar (t : CType)
  | str (id : Str)
  | npy (known : Option CType)
  | other
deriving DecidableEq, Repr

/-- `py_arg_to_ctype` and `npy_dtype_to_ctype`; `none` is the null pointer.  `ScalarType::for_id`
returns the type of doubles whatever the name (scalars/src/scalar_type.cpp). -/
def KDType.toCType : KDType → Option CType
  | scalar t => some t
  | str _ => some .f64
  | npy t => t
  | other => none

/-- The keyword arguments of the constructors of streams. `support := some none` is an object that
is not an interval. -/
structure KW where
  schema : Option Schema := none
  channelTypes : Option ChanArg := none
  includeTime : Bool := false
  ctx : Option Ctx := none
  context : Option Ctx := none
  width : Option ℤ := none
  depth : Option ℤ := none
  dtype : Option KDType := none
  ctype : Option KDType := none
  coeffs : Option KDType := none
  resolution : Option ℤ := none
  support : Option (Option RealInterval) := none
deriving DecidableEq, Repr

/-- `struct AlgebraConfiguration` — roughpy/src/args/parse_algebra_configuration.h. -/
structure AlgConfig where
  ctx : Option Ctx
  width : Option ℤ
  depth : Option ℤ
  ctype : Option CType
deriving DecidableEq, Repr

/-- Lines 95-117: a further name is ignored once a scalar type was found. -/
def firstType : List (Option KDType) → Option CType
  | [] => none
  | none :: l => firstType l
  | some d :: l =>
    match d.toCType with
    | some t => some t
    | none => firstType l

/-- `parse_algebra_configuration` — parse_algebra_configuration.cpp:17-146 (warnings left out). -/
def algebraConfig (k : KW) : AlgConfig where
  ctx := match k.ctx with
    | some c => some c
    | none => k.context
  width := k.width
  depth := k.depth
  ctype := firstType [k.dtype, k.ctype, k.coeffs]

/-- `struct PyStreamMetaData` — roughpy/src/args/kwargs_to_path_metadata.h:38-52 (the vector type and
the interval type are left out). -/
structure PyMeta where
  width : ℤ
  depth : ℤ
  support : Option RealInterval
  ctx : Option Ctx
  ctype : Option CType
  resolution : Option ℤ
  schema : Schema
  channel : ChanKind
  includeTime : Bool
deriving DecidableEq, Repr

/-- The loops over `channel_types` — kwargs_to_path_metadata.cpp:100-121, 129-148. -/
def insertAll : List (Str × ChanKind) → Schema → Option Schema
  | [], s => some s
  | (l, k) :: rest, s =>
    match s.insert l k.channel with
    | none => none
    | some (s', _) => insertAll rest s'

/-- Lines 64-72: the schema given is made final.  (In the code this changes the object given.) -/
def givenSchema : Option Schema → Option (Option Schema)
  | none => some none
  | some s => if s.isFinal then some (some s) else (s.finalize 0).map some

/-- Lines 74-160: the schema and the default type of channels. -/
def applyTypes (s : Option Schema) : Option ChanArg → Option (Schema × ChanKind)
  | none => some (s.getD {}, .increment)
  | some (.one k) => some (s.getD {}, k)
  | some (.labelled l) => (insertAll l {}).map fun s' => (s', .increment)
  | some (.listed l) => (insertAll (l.map fun k => ([], k)) {}).map fun s' => (s', .increment)
  | some .other => some (s.getD {}, .increment)

/-- Lines 162-175: `include_time`. -/
def applyTime (s : Schema) (includeTime : Bool) : Out Schema :=
  if includeTime then
    if s.isFinal then .raised .value else .ok { s with needsAdding := true }
  else .ok s

/-- Lines 180-204: width, depth and scalar type of the metadata; a final schema is compared with the
keyword `width` only. -/
def applyAlgebra (s : Schema) (c : AlgConfig) : Out (ℤ × ℤ × Option CType) :=
  let w0 : ℤ := match c.ctx with
    | some x => x.width
    | none => c.width.getD 0
  let d : ℤ := match c.ctx with
    | some x => x.depth
    | none => c.depth.getD 0
  let t : Option CType := match c.ctx with
    | some x => some x.ctype
    | none => c.ctype
  if s.isFinal then
    match c.width with
    | none => .ok (s.width, d, t)
    | some w => if (s.width : ℤ) ≠ w then .raised .value else .ok (w0, d, t)
  else .ok (w0, d, t)

/-- `kwargs_to_metadata` — kwargs_to_path_metadata.cpp:46-238. -/
def kwargsToMetadata (k : KW) : Out PyMeta :=
  match givenSchema k.schema with
  | none => .raised .value
  | some s0 =>
    match applyTypes s0 k.channelTypes with
    | none => .raised .value
    | some (s1, kind) =>
      (applyTime s1 k.includeTime).bind fun s =>
        (applyAlgebra s (algebraConfig k)).bind fun wdt =>
          match k.support with
          | some none => .raised .type
          | some (some i) =>
            .ok ⟨wdt.1, wdt.2.1, some i, (algebraConfig k).ctx, wdt.2.2, k.resolution, s, kind, k.includeTime⟩
          | none =>
            .ok ⟨wdt.1, wdt.2.1, none, (algebraConfig k).ctx, wdt.2.2, k.resolution, s, kind, k.includeTime⟩

/-- The loop of `last_minute_setup` — schema_finalization.cpp:60-75. -/
def insertMany (k : ChanKind) : ℕ → Schema → Option Schema
  | 0, s => some s
  | n + 1, s =>
    match s.insert [] k.channel with
    | none => none
    | some (s', _) => insertMany k n s'

/-- `last_minute_setup` — schema_finalization.cpp:52-81. -/
def lastMinuteSetup (m : PyMeta) : Option Schema :=
  if m.schema.isFinal then some m.schema
  else
    match insertMany m.channel (m.width - m.schema.width).toNat m.schema with
    | none => none
    | some s => (if m.includeTime then { s with needsAdding := true } else s).finalize 0

/-- Lines 105-126: the width. -/
def settleWidth (m : PyMeta) (schemaWidth : ℤ) : Out ℤ :=
  if m.width = 0 then .ok schemaWidth
  else if m.width < schemaWidth then
    if m.includeTime = false ∨ m.width + 1 < schemaWidth then .raised .value else .ok schemaWidth
  else .ok m.width

/-- `finalize_schema` — schema_finalization.cpp:83-164.
`get_most_appropriate_scalar_type` is always the type of doubles (streams/src/schema.cpp:141-146). -/
def finalizeSchema (m : PyMeta) : Out PyMeta :=
  match lastMinuteSetup m with
  | none => .raised .value
  | some s =>
    if s.width = 0 then .raised .value
    else if m.includeTime = true ∧ s.width = 1 then .raised .value
    else
      (settleWidth m s.width).bind fun w =>
        let t : CType := m.ctype.getD .f64
        let d : ℤ := if m.depth = 0 then 2 else m.depth
        match m.ctx with
        | some c =>
          if w ≠ c.width ∨ d ≠ c.depth ∨ t ≠ c.ctype then
            match getContext w d (some t) with
            | none => .raised .value
            | some c' => .ok { m with width := w, depth := d, ctype := some t, ctx := some c', schema := s }
          else .ok { m with width := w, depth := d, ctype := some t, ctx := some c, schema := s }
        | none =>
          match getContext w d (some t) with
          | none => .raised .value
          | some c' => .ok { m with width := w, depth := d, ctype := some t, ctx := some c', schema := s }

/-- `TickStream.from_data` up to the metadata — roughpy/src/streams/tick_stream.cpp:63-96: `parse` is
the tick data parser, which adds the channels of the data to the schema. -/
def tickMeta (k : KW) (parse : Schema → Out Schema) : Out PyMeta :=
  (kwargsToMetadata k).bind fun m =>
    (parse m.schema).bind fun s => finalizeSchema { m with schema := s }

/-- `LieIncrementStream.from_increments` up to the metadata — lie_increment_stream.cpp:73-112, 221:
`dataType` is the scalar type found for the data (of use only if none is asked for), `columns` the
length of its longest row. -/
def incrementMeta (k : KW) (dataType : Option CType) (columns : ℤ) : Out PyMeta :=
  (kwargsToMetadata k).bind fun m =>
    match m.ctype.or dataType with
    | none => .raised .type
    | some t =>
      match m.ctx with
      | some _ => finalizeSchema { m with ctype := some t }
      | none =>
        let w := if m.width = 0 then columns else m.width
        if w = 0 ∨ m.depth = 0 then .raised .value
        else
          match getContext w m.depth (some t) with
          | none => .raised .value
          | some c => finalizeSchema { m with ctype := some t, width := w, ctx := some c }

/-- `BrownianStream.with_generator` — brownian_stream.cpp:51-93: `finalize_schema` is not called. -/
def brownianMeta (k : KW) : Out Meta :=
  (kwargsToMetadata k).bind fun m =>
    let t : CType := m.ctype.getD .f64
    let d : ℤ := if m.depth = 0 then 2 else m.depth
    match m.ctx with
    | some c => .ok ⟨m.width, some c, some t, m.resolution.getD 0⟩
    | none =>
      if m.width = 0 then .raised .value
      else
        match getContext m.width d (some t) with
        | none => .raised .value
        | some c => .ok ⟨m.width, some c, some t, m.resolution.getD 0⟩

/-- `FunctionStream.from_function` — function_stream.cpp:87-127: `finalize_schema` is not called, and
the context stays null unless width, depth and scalar type are given. -/
def functionMeta (k : KW) : Out Meta :=
  (kwargsToMetadata k).bind fun m =>
    match m.ctx with
    | some c => .ok ⟨m.width, some c, m.ctype, m.resolution.getD 0⟩
    | none =>
      if m.width ≠ 0 ∧ m.depth ≠ 0 ∧ m.ctype ≠ none then
        match getContext m.width m.depth m.ctype with
        | none => .raised .value
        | some c => .ok ⟨m.width, some c, m.ctype, m.resolution.getD 0⟩
      else .ok ⟨m.width, none, m.ctype, m.resolution.getD 0⟩

/-- `PiecewiseAbelianStream.construct` — piecewise_abelian_stream.cpp:55-94: `finalize_schema` is not
called. -/
def piecewiseMeta (k : KW) : Out Meta :=
  (kwargsToMetadata k).bind fun m =>
    match m.ctx with
    | some c => .ok ⟨m.width, some c, m.ctype, m.resolution.getD 0⟩
    | none =>
      if m.width = 0 ∨ m.depth = 0 ∨ m.ctype = none then .raised .value
      else
        match getContext m.width m.depth m.ctype with
        | none => .raised .value
        | some c => .ok ⟨m.width, some c, m.ctype, m.resolution.getD 0⟩

/-- The metadata a stream is made with after `finalize_schema` — tick_stream.cpp:131-142,
lie_increment_stream.cpp:223-233 (`resolution`: the one of the metadata or the one chosen for the
data). -/
def PyMeta.toMeta (m : PyMeta) (resolution : ℤ) : Meta := ⟨m.width, m.ctx, m.ctype, resolution⟩

end RoughPy.Query
