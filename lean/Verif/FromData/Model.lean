import Verif.Ticks.Model
import Verif.Parse.Model
import Verif.Query.Metadata
import Verif.Streams.Tick

/-!
# Model of `TickStream.from_data` from the Python object to the answers of queries

`roughpy/src/streams/tick_stream.cpp`, on top of the models of the parser (`Verif/Parse`), of the
construction helper (`Verif/Ticks`), of the keyword arguments (`Verif/Query/Metadata`) and of the
tick stream itself (`Verif/Streams/Tick`).

Lie elements are given by the coefficient of every key.  `none` is an exception, except in `make` and
`logSignature`, where it is a loop that has not finished within the fuel.
-/

namespace RoughPy.FromData

open RoughPy.Intervals RoughPy.Schema RoughPy.Streams RoughPy.Query

/-- How objects that stand for times and data are seen by the helper: the parser does not tell `int`
and `float` apart, nor the classes of other objects. -/
structure Reading where
  time : Parse.Obj → Ticks.Time
  data : Parse.Obj → Ticks.Data

/-- The arguments of a call of the helper by the parser — tick_stream.py:71-83,
r_py_tick_construction_helper.cpp:199-210: labels that are not strings are refused. -/
def entry (r : Reading) : Parse.Call → Option Ticks.Entry
  | .addIncrement (.str l) t d => some ⟨l, .increment, r.time t, r.data d⟩
  | .addValue (.str l) t d => some ⟨l, .value, r.time t, r.data d⟩
  | .addCategorical (.str l) t d => some ⟨l, .categorical, r.time t, r.data d⟩
  | _ => none

/-- `py_to_scalar` — scalars/scalars.cpp:60-83, 822-828: numbers; polynomials and objects of class
`Scalar` are left out.  The scalar type of the stream holds all numbers. -/
def toScalar : Ticks.Data → Option ℚ
  | .num q => some q
  | _ => none

/-- The switch over the type of a tick — tick_stream.cpp:163-214: the Lie element recorded and the new
`previous_values`.  (A label that is not in the schema: the end iterator is not read before
`label_to_stream_dim` throws.) -/
def increment (ops : LieOps Vec) (s : Schema) (prev : ℕ → Vec) (t : Ticks.Tick) : Option (Vec × (ℕ → Vec)) :=
  match s.find t.label, s.labelToStreamDim t.label with
  | some i, some idx =>
    match s.channels[i]? with
    | none => none
    | some c =>
      let key := idx + 1
      match t.type with
      | .increment => (toScalar t.data).map fun x => (single key x, prev)
      | .value =>
        (toScalar t.data).map fun x =>
          if c.2.isLeadLag then
            (ops.cbh [fun k => single key x k - prev idx k, fun k => single (key + 1) x k - prev (idx + 1) k],
              Function.update (Function.update prev idx (single key x)) (idx + 1) (single (key + 1) x))
          else (fun k => single key x k - prev idx k, Function.update prev idx (single key x))
      | .categorical => some (single key 1, prev)
  | _, _ => none

/-- The loop over the ticks — tick_stream.cpp:157-236: the times and Lie elements, in order.  The map
`raw_data` and the set `index` are filled as in `Streams.tickInsert`. -/
def loop (ops : LieOps Vec) (s : Schema) : (ℕ → Vec) → ℚ → List Ticks.Tick → Option (List (ℚ × Vec))
  | _, _, [] => some []
  | prev, last, t :: ts =>
    match increment ops s prev t with
    | none => none
    | some (v, prev') =>
      (loop ops s prev' t.time ts).map fun r =>
        (t.time, if s.needsAdding then Function.update v s.timeKey (t.time - last) else v) :: r

/-- The metadata and the increments that the stream is made from. -/
structure Made where
  info : PyMeta
  items : List (ℚ × Vec)

/-- `construct` — tick_stream.cpp:63-236, for these calls of the helper.  `sort` is `std::sort` with the
comparison of r_py_tick_construction_helper.cpp:110-117; `ops` are the operations of the context. -/
def prepare (sort : List Ticks.Tick → List Ticks.Tick) (ops : LieOps Vec) (k : KW) (es : List Ticks.Entry) :
    Option Made :=
  match kwargsToMetadata k with
  | .ok m =>
    match Ticks.build m.schema false es with
    | none => none
    | some h =>
      if h.ticks = [] then none
      else
        match finalizeSchema { m with schema := h.schema } with
        | .ok m' => (loop ops m'.schema (fun _ _ => 0) 0 (sort h.ticks)).map fun items => ⟨m', items⟩
        | _ => none
  | _ => none

/-- `TickStream.from_data(data, **kwargs)` up to the stream itself. -/
def fromObject (sort : List Ticks.Tick → List Ticks.Tick) (ops : LieOps Vec) (r : Reading) (k : KW) (o : Parse.Obj) :
    Option Made :=
  (Parse.parseTicks o).bind fun cs => (cs.mapM (entry r)).bind (prepare sort ops k)

/-- `class Stream` over `class TickStream`. -/
structure TickStream where
  stream : Streams.Tick Vec
  support : RealInterval
  resolution : ℤ

/-- The constructors — tick_stream.cpp:127-142, 238-241, tick_stream.h:66-83, stream.h:84-93: resolution 0
and support `[0, 1)` unless given. -/
def make (ops : LieOps Vec) (m : Made) (fuel : ℕ) : Option TickStream :=
  (tickBuild ops (m.info.resolution.getD 0) m.items fuel).map fun s =>
    ⟨s, m.info.support.getD RealInterval.default, m.info.resolution.getD 0⟩

/-- The resolution of a query — stream.cpp:54-71, 128-158: the one given, or enough for an interval of this length. -/
def usedResolution (stored : ℤ) (res : Option ℤ) (length : ℚ) : ℤ :=
  match res with
  | some r => r
  | none => max stored (paramToResolution length + 2)

/-- `Stream::log_signature` over `[a, b)` — stream.cpp:37-71, 107-155, in the stream's own context, with or
without a resolution. -/
def logSignature (ops : LieOps Vec) (s : TickStream) (fuel : ℕ) (a b : ℚ) (res : Option ℤ) : Option Vec :=
  match checkSupportAndTrim s.support (RealInterval.mk' a b .clopen) with
  | none => some ops.zero
  | some q =>
    if q.sup - q.inf = 0 then some ops.zero
    else tickQuery ops s.stream fuel q.inf q.sup
      (usedResolution s.resolution res (q.sup - q.inf))

end RoughPy.FromData
