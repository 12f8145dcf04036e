import Mathlib.Data.List.Basic
import Mathlib.Algebra.Order.Ring.Rat

/-!
# Model of stream schemas and the tick construction helpers

Strings (`std::string`) are lists of characters.  `none` is a C++ exception (`RPY_CHECK`,
`RPY_THROW`).  Channels are held by `shared_ptr` in the schema: a reference to a channel is its
position.
-/

namespace RoughPy.Schema

/-- `std::string`. -/
abbrev Str := List Char

/-- `std::to_string` of an unsigned number. -/
def toStr (n : ℕ) : Str := Nat.toDigits 10 n

/-- `ChannelType` — streams/include/roughpy/streams/channels/stream_channel.h:51-57 — together with
the members of the subclass: `LeadLaggableChannel::m_use_leadlag` (`IncrementChannel`,
`ValueChannel`), `CategoricalChannel::m_variants`; `LieChannel` has none. -/
inductive Channel where
  | increment (leadLag : Bool)
  | value (leadLag : Bool)
  | categorical (variants : List Str)
  | lie
  deriving DecidableEq, Repr

namespace Channel

/-- `num_variants` — stream_channel.cpp:44-47, lead_laggable_channel.cpp:10-13,
categorical_channel.cpp:44-47. -/
def numVariants : Channel → ℕ
  | increment ll => if ll then 2 else 1
  | value ll => if ll then 2 else 1
  | categorical vs => vs.length
  | lie => 1

/-- `LeadLaggableChannel::label_suffix` — lead_laggable_channel.cpp:14-25. -/
def leadLagSuffix (ll : Bool) (v : ℕ) : Option Str :=
  if ll then
    if v = 0 then some ":lead".toList
    else if v = 1 then some ":lag".toList
    else none
  else some []

/-- `label_suffix` — stream_channel.cpp:49-52, lead_laggable_channel.cpp:14-25,
categorical_channel.cpp:48-52. -/
def labelSuffix : Channel → ℕ → Option Str
  | increment ll, v => leadLagSuffix ll v
  | value ll, v => leadLagSuffix ll v
  | categorical vs, v => (vs[v]?).map fun s => ':' :: s
  | lie, _ => some []

/-- `LeadLaggableChannel::variant_id_of_label` — lead_laggable_channel.cpp:26-36. -/
def leadLagId (ll : Bool) (s : Str) : ℕ :=
  if ll then
    if s = "lead".toList then 0 else if s = "lag".toList then 1 else 0
  else 0

/-- `variant_id_of_label` — stream_channel.cpp:54, lead_laggable_channel.cpp:26-36,
categorical_channel.cpp:53-63. -/
def variantIdOfLabel : Channel → Str → Option ℕ
  | increment ll, s => some (leadLagId ll s)
  | value ll, s => some (leadLagId ll s)
  | categorical vs, s => vs.findIdx? fun v => decide (v = s)
  | lie, _ => some 0

/-- `get_variants` — stream_channel.cpp:67-71, lead_laggable_channel.cpp:37-41,
categorical_channel.cpp:64-67. -/
def getVariants : Channel → List Str
  | increment ll => if ll then ["lead".toList, "lag".toList] else []
  | value ll => if ll then ["lead".toList, "lag".toList] else []
  | categorical vs => vs
  | lie => []

/-- `add_variant` — stream_channel.cpp:59-62, categorical_channel.cpp:68-88: an empty label is
replaced by the number of variants; an existing label throws. -/
def addVariant : Channel → Str → Option Channel
  | categorical vs, s =>
    let label := if s = [] then toStr vs.length else s
    if label ∈ vs then none else some (categorical (vs ++ [label]))
  | c, _ => some c

/-- `insert_variant` — stream_channel.cpp:63-66, categorical_channel.cpp:89-106. -/
def insertVariant : Channel → Str → Channel
  | categorical vs, s =>
    let label := if s = [] then toStr vs.length else s
    if label ∈ vs then categorical vs else categorical (vs ++ [label])
  | c, _ => c

/-- `set_lead_lag` — stream_channel.cpp:73, lead_laggable_channel.cpp:42-45. -/
def setLeadLag : Channel → Bool → Channel
  | increment _, b => increment b
  | value _, b => value b
  | c, _ => c

/-- `is_lead_lag` — stream_channel.cpp:74, lead_laggable_channel.cpp:46-49. -/
def isLeadLag : Channel → Bool
  | increment b => b
  | value b => b
  | _ => false

end Channel

/-- The loop of `compare_labels` and its `return` — schema.cpp:69-78.  The loop runs to the end of
`item` (where the terminator `'\0'` is read); running off `ref` is excluded by the length test. -/
def compareLoop : Str → Str → Bool
  | [], [] => true
  | [], r :: _ => r = '\x00' || r = ':'
  | c :: item, r :: ref => if r = c then compareLoop item ref else false
  | _ :: _, [] => false

/-- `StreamSchema::compare_labels(item_label, ref_label)` — schema.cpp:53-78. -/
def compareLabels (item ref : Str) : Bool :=
  if ref.length < item.length then false
  else if ref = [] then false
  else if item = [] then false
  else compareLoop item ref

/-- `StreamSchema` — streams/include/roughpy/streams/schema.h:77-84; `needsAdding` is
`p_parameterization->needs_adding()` (parametrization.h:65-68; `m_is_channel` is never set). -/
structure Schema where
  channels : List (Str × Channel) := []
  isFinal : Bool := false
  needsAdding : Bool := false
  deriving DecidableEq, Repr

namespace Schema

/-- `find` (const) — schema.cpp:104-115: position of the first channel that matches; `none` is
`end()`. -/
def find (s : Schema) (label : Str) : Option ℕ :=
  s.channels.findIdx? fun c => compareLabels c.1 label

/-- `find` (non-const) — schema.cpp:117-128: throws if the schema is final. -/
def findMut (s : Schema) (label : Str) : Option (Option ℕ) :=
  if s.isFinal then none else some (s.find label)

/-- `width_to_iterator(begin() + i)` — schema.cpp:85-92. -/
def widthTo (s : Schema) (i : ℕ) : ℕ :=
  (s.channels.take i).foldl (fun n c => n + c.2.numVariants) 0

/-- `width_without_param` — schema.cpp:136-139. -/
def widthWithoutParam (s : Schema) : ℕ := s.widthTo s.channels.length

/-- `width` — schema.cpp:130-135. -/
def width (s : Schema) : ℕ :=
  if s.needsAdding then s.widthWithoutParam + 1 else s.widthWithoutParam

/-- Loop of `stream_dim_to_channel_it` — schema.cpp:93-102: position of the channel and the
remaining dimension (the variant). -/
def dimLoop : List (Str × Channel) → ℕ → ℕ → Option (ℕ × ℕ)
  | [], _, _ => none
  | c :: cs, i, dim =>
    if dim < c.2.numVariants then some (i, dim) else dimLoop cs (i + 1) (dim - c.2.numVariants)

/-- `stream_dim_to_channel` — schema.cpp:166-173. -/
def streamDimToChannel (s : Schema) (dim : ℕ) : Option (ℕ × ℕ) := dimLoop s.channels 0 dim

/-- `channel_to_stream_dim` — schema.cpp:148-152. -/
def channelToStreamDim (s : Schema) (i : ℕ) : Option ℕ :=
  if i < s.channels.length then some (s.widthTo i) else none

/-- `channel_variant_to_stream_dim` — schema.cpp:153-164. -/
def channelVariantToStreamDim (s : Schema) (i v : ℕ) : Option ℕ :=
  match s.channels[i]? with
  | none => none
  | some c => if v < c.2.numVariants then some (s.widthTo i + v) else none

/-- `label_of_stream_dim` — schema.cpp:175-188. -/
def labelOfStreamDim (s : Schema) (dim : ℕ) : Option Str :=
  match s.streamDimToChannel dim with
  | none => none
  | some (i, v) =>
    match s.channels[i]? with
    | none => none
    | some c => (c.2.labelSuffix v).map fun suffix => c.1 ++ suffix

/-- `label_to_stream_dim` — schema.cpp:203-236. -/
def labelToStreamDim (s : Schema) (label : Str) : Option ℕ :=
  match s.find label with
  | none => none
  | some i =>
    match s.channels[i]? with
    | none => none
    | some c =>
      match label.drop c.1.length with
      | [] => some (s.widthTo i)
      | ch :: variant =>
        if ch = '\x00' then some (s.widthTo i)
        else if ch = ':' then (c.2.variantIdOfLabel variant).map fun v => s.widthTo i + v
        else none

/-- `label_to_lie_key` — schema.cpp:279-284. -/
def labelToLieKey (s : Schema) (label : Str) : Option ℕ := (s.labelToStreamDim label).map (· + 1)

/-- `time_channel_to_lie_key` — schema.cpp:285-291. -/
def timeKey (s : Schema) : ℕ := if s.needsAdding then s.widthWithoutParam + 1 else 0

/-- `insert` — schema.cpp:238-253: the new schema and the position of the channel returned. -/
def insert (s : Schema) (label : Str) (c : Channel) : Option (Schema × ℕ) :=
  if s.isFinal then none
  else
    let label := if label = [] then toStr s.channels.length else label
    match s.find label with
    | some i => some (s, i)
    | none => some ({ s with channels := s.channels ++ [(label, c)] }, s.channels.length)

/-- `insert_increment("")` repeated — the loop of `finalize`, schema.cpp:304. -/
def pad : ℕ → Schema → Option Schema
  | 0, s => some s
  | n + 1, s =>
    match s.insert [] (.increment false) with
    | none => none
    | some (s', _) => pad n s'

/-- `finalize(n_channels)` — schema.cpp:293-307 (`n_channels` is a signed `deg_t`, default -1). -/
def finalize (s : Schema) (n : ℤ) : Option Schema :=
  if 0 < n ∧ n < s.width then none
  else
    match pad (n - s.width).toNat s with
    | none => none
    | some s' => some { s' with isFinal := true }

/-- Loop of `StreamSchema(width)` — schema.cpp:46-51. -/
def ofWidthLoop : ℕ → ℕ → Schema → Option Schema
  | 0, _, s => some s
  | n + 1, i, s =>
    match s.insert (toStr i) (.increment false) with
    | none => none
    | some (s', _) => ofWidthLoop n (i + 1) s'

/-- `StreamSchema(width)` — schema.cpp:46-51. -/
def ofWidth (w : ℕ) : Option Schema := ofWidthLoop w 0 {}

/-- A change of the channel at position `i`, through a reference returned by `insert`. -/
def modify (s : Schema) (i : ℕ) (f : Channel → Option Channel) : Option Schema :=
  match s.channels[i]? with
  | none => none
  | some c =>
    match f c.2 with
    | none => none
    | some c' => some { s with channels := s.channels.set i (c.1, c') }

end Schema

/-- The public operations that change a schema. -/
inductive Op where
  | insert (label : Str) (c : Channel)
  | setLeadLag (i : ℕ) (b : Bool)
  | addVariant (i : ℕ) (s : Str)
  | insertVariant (i : ℕ) (s : Str)
  | addTimeChannel
  | finalize (n : ℤ)

/-- The channel objects made by `insert_increment`, `insert_value`, `insert_categorical` and
`insert_lie` — schema.cpp:262-277. -/
def IsFresh (c : Channel) : Prop :=
  c = .increment false ∨ c = .value false ∨ c = .categorical [] ∨ c = .lie

/-- One operation; an exception leaves the schema as it was. -/
def Schema.step (s : Schema) : Op → Schema
  | .insert l c => ((s.insert l c).map Prod.fst).getD s
  | .setLeadLag i b => (s.modify i fun c => some (c.setLeadLag b)).getD s
  | .addVariant i v => (s.modify i fun c => c.addVariant v).getD s
  | .insertVariant i v => (s.modify i fun c => some (c.insertVariant v)).getD s
  | .addTimeChannel => { s with needsAdding := true }
  | .finalize n => (s.finalize n).getD s

/-- The schemas that can be reached from the empty one. -/
inductive Reachable : Schema → Prop
  | empty : Reachable {}
  | insert {s : Schema} (l : Str) (c : Channel) (h : IsFresh c) : Reachable s → Reachable (s.step (.insert l c))
  | setLeadLag {s : Schema} (i : ℕ) (b : Bool) : Reachable s → Reachable (s.step (.setLeadLag i b))
  | addVariant {s : Schema} (i : ℕ) (v : Str) : Reachable s → Reachable (s.step (.addVariant i v))
  | insertVariant {s : Schema} (i : ℕ) (v : Str) : Reachable s → Reachable (s.step (.insertVariant i v))
  | addTimeChannel {s : Schema} : Reachable s → Reachable (s.step .addTimeChannel)
  | finalize {s : Schema} (n : ℤ) : Reachable s → Reachable (s.step (.finalize n))

/-- The labels of one channel in `get_labels` — roughpy/src/streams/schema.cpp:262-306. -/
def channelLabels (c : Str × Channel) : Option (List Str) :=
  match c.2 with
  | .increment _ => some [c.1]
  | .value ll =>
    if ll then
      match c.2.labelSuffix 0, c.2.labelSuffix 1 with
      | some a, some b => some [c.1 ++ a, c.1 ++ b]
      | _, _ => none
    else some [c.1]
  | .categorical vs => ((List.range vs.length).mapM fun i => c.2.labelSuffix i).map (·.map fun x => c.1 ++ x)
  | .lie => some []

/-- `StreamSchema.get_labels` — roughpy/src/streams/schema.cpp:257-310.  The final check
`i == width` throws. (Writing past the end of the list is also counted as `none`.) -/
def getLabels (s : Schema) : Option (List Str) :=
  match s.channels.mapM channelLabels with
  | none => none
  | some ls => if ls.flatten.length = s.width then some ls.flatten else none

/-! ## `StreamConstructionHelper`

The keys that the overloads write to. -/

namespace Helper

/-- `add_increment(timestamp, channel, value)` — stream_construction_helper.h:83-89. -/
def incrementKey (s : Schema) (channel : ℕ) : Option ℕ := (s.channelToStreamDim channel).map (· + 1)

/-- `add_increment(timestamp, label, value)` — stream_construction_helper.h:91-98. -/
def incrementKeyLabel (s : Schema) (label : Str) : Option ℕ := (s.labelToStreamDim label).map (· + 1)

/-- `add_categorical(timestamp, channel, variant)` — stream_construction_helper.cpp:56-62. -/
def categoricalKey (s : Schema) (channel variant : ℕ) : Option ℕ :=
  (s.channelVariantToStreamDim channel variant).map (· + 1)

/-- `add_categorical(timestamp, "channel", variant)` — stream_construction_helper.cpp:63-73.  The
schema is not const here: `find` is the one that throws on a final schema. -/
def categoricalKeyLabelIdx (s : Schema) (channel : Str) (variant : ℕ) : Option ℕ :=
  match s.findMut channel with
  | some (some i) =>
    match s.channels[i]? with
    | none => none
    | some c => if variant < c.2.numVariants then some (i + variant + 1) else none
  | _ => none

/-- `add_categorical(timestamp, channel, "variant")` — stream_construction_helper.cpp:74-88. -/
def categoricalKeyIdxLabel (s : Schema) (channel : ℕ) (variant : Str) : Option ℕ :=
  match s.channels[channel]? with
  | none => none
  | some c =>
    match c.2.getVariants.findIdx? (fun v => decide (v = variant)) with
    | none => none
    | some v => s.channelVariantToStreamDim channel v

/-- `add_categorical(timestamp, "channel", "variant")` — stream_construction_helper.cpp:89-97. -/
def categoricalKeyLabels (s : Schema) (channel variant : Str) : Option ℕ :=
  (s.labelToStreamDim (channel ++ ':' :: variant)).map (· + 1)

/-- `add_value(timestamp, channel, value)`: lead and lag keys — stream_construction_helper.h:100-115. -/
def valueKeys (s : Schema) (channel : ℕ) : Option (ℕ × ℕ) :=
  match s.channelVariantToStreamDim channel 0, s.channelVariantToStreamDim channel 1 with
  | some a, some b => some (a + 1, b + 1)
  | _, _ => none

/-- `add_value(timestamp, "label", value)`: lead and lag keys — stream_construction_helper.h:117-136. -/
def valueKeysLabel (s : Schema) (label : Str) : Option (ℕ × ℕ) :=
  match s.findMut label with
  | some (some i) =>
    match s.channels[i]? with
    | none => none
    | some c =>
      match c.2.variantIdOfLabel "lead".toList, c.2.variantIdOfLabel "lag".toList with
      | some a, some b => some (a + 1, b + 1)
      | _, _ => none
  | _ => none

end Helper

/-! ## `TickStream.from_data` -/

/-- The type given with a tick. -/
inductive TickType where
  | increment | value | categorical
  deriving DecidableEq, Repr

/-- `RPy_Tick` — roughpy/src/streams/r_py_tick_construction_helper.h: label, time, data (a number,
or the name of the variant), type. -/
structure Tick where
  label : Str
  time : ℚ
  data : ℚ
  variant : Str
  type : TickType
  deriving DecidableEq, Repr

/-- The degree-one part of a Lie element: coefficient of every key. -/
abbrev Vec := ℕ → ℚ

/-- The element with one coordinate. -/
def single (key : ℕ) (x : ℚ) : Vec := fun k => if k = key then x else 0

/-- One tick in `construct` — roughpy/src/streams/tick_stream.cpp:157-228 — up to degree one: the
coefficients recorded and the new `previous_values` (the coordinate that each of them has).
`cbh` adds in degree one. -/
def tickStep (s : Schema) (prev : ℕ → ℚ) (prevTime : ℚ) (t : Tick) : Option (Vec × (ℕ → ℚ)) :=
  match s.find t.label, s.labelToStreamDim t.label with
  | some i, some idx =>
    match s.channels[i]? with
    | none => none
    | some c =>
      let key := idx + 1
      let withTime := fun v : Vec =>
        if s.needsAdding then fun k => if k = s.timeKey then t.time - prevTime else v k else v
      match t.type with
      | .increment => some (withTime (single key t.data), prev)
      | .categorical => some (withTime (single key 1), prev)
      | .value =>
        if c.2.isLeadLag then
          some (withTime (fun k => single key (t.data - prev idx) k + single (key + 1) (t.data - prev (idx + 1)) k),
            fun j => if j = idx ∨ j = idx + 1 then t.data else prev j)
        else some (withTime (single key (t.data - prev idx)), fun j => if j = idx then t.data else prev j)
  | _, _ => none

/-- The loop over the ticks: the degree-one parts recorded, in order. -/
def tickLoop (s : Schema) : List Tick → (ℕ → ℚ) → ℚ → Option (List Vec)
  | [], _, _ => some []
  | t :: ts, prev, prevTime =>
    match tickStep s prev prevTime t with
    | none => none
    | some (v, prev') => (tickLoop s ts prev' t.time).map fun vs => v :: vs

/-- The recorded degree-one increments of `TickStream.from_data`, one per tick, in time order. -/
def fromData (s : Schema) (ts : List Tick) : Option (List Vec) := tickLoop s ts (fun _ => 0) 0

/-! ## `RPyTickConstructionHelper` -/

/-- The ticks recorded so far (time, precedence, tick) and `m_precedence` —
roughpy/src/streams/r_py_tick_construction_helper.h:45-59. -/
structure TickBuffer where
  ticks : List (ℚ × ℕ × Tick)
  precedence : ℚ → ℕ

/-- `add_tick` — r_py_tick_construction_helper.cpp:117-140 (time stamps already converted). -/
def TickBuffer.push (b : TickBuffer) (t : Tick) : TickBuffer where
  ticks := b.ticks ++ [(t.time, b.precedence t.time, t)]
  precedence := fun x => if x = t.time then b.precedence x + 1 else b.precedence x

/-- The comparison in `ticks()` — r_py_tick_construction_helper.cpp:105-112. -/
def tickLt (a b : ℚ × ℕ × Tick) : Prop := a.1 < b.1 ∨ a.1 = b.1 ∧ a.2.1 < b.2.1

/-- What `std::sort` guarantees: a permutation in which no element is less than an earlier one. -/
def SortedPerm (l l' : List (ℚ × ℕ × Tick)) : Prop := l.Perm l' ∧ l'.Pairwise fun a b => ¬ tickLt b a

/-- A history of `add_*` calls (the ticks added, in order) and calls of `ticks()`, which sort the
buffer in place. -/
inductive Recorded : List Tick → TickBuffer → Prop
  | empty : Recorded [] ⟨[], fun _ => 0⟩
  | push {ps b} (t : Tick) : Recorded ps b → Recorded (ps ++ [t]) (b.push t)
  | sort {ps b} (l : List (ℚ × ℕ × Tick)) : Recorded ps b → SortedPerm b.ticks l →
      Recorded ps { b with ticks := l }

end RoughPy.Schema
