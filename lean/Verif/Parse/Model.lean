import Verif.Schema.Model
import Mathlib.Data.Rat.Defs

/-!
# Model of reading schemas and tick data from Python objects

`roughpy/src/args/parse_schema.cpp` (`StreamSchema.parse`, the argument `schema` of the stream
constructors) and `roughpy/streams/tick_stream.py` (`StandardTickDataParser`, used by
`TickStream.from_data` and `StreamSchema.from_data`).

A result `none` is an exception.  Which exception is thrown is left out.
-/

namespace RoughPy.Parse

open RoughPy.Schema (Str)

/-- `ChannelType` (`roughpy/src/streams/schema.cpp:185-190`). -/
inductive ChannelType
  | increment
  | value
  | categorical
  | lie
deriving DecidableEq, Repr

mutual
/-- Python objects, as far as the two parsers tell them apart. -/
inductive Obj
  /-- `bool` -/
  | bool (b : Bool)
  /-- `int` and `float` -/
  | num (q : ℚ)
  | str (s : Str)
  | chan (t : ChannelType)
  /-- an object of another class that is no sequence and has no truth value of its own -/
  | other (n : ℕ)
  | list (l : Objs)
  | tuple (l : Objs)
  /-- in the order of insertion; the keys differ -/
  | dict (d : Fields)
/-- the elements of a list or tuple -/
inductive Objs
  | nil
  | cons (a : Obj) (l : Objs)
/-- the entries of a dict -/
inductive Fields
  | nil
  | cons (k v : Obj) (d : Fields)
end

/-- the elements -/
def Objs.toList : Objs → List Obj
  | .nil => []
  | .cons a l => a :: l.toList

def Objs.ofList : List Obj → Objs
  | [] => .nil
  | a :: l => .cons a (Objs.ofList l)

/-- the entries -/
def Fields.toList : Fields → List (Obj × Obj)
  | .nil => []
  | .cons k v d => (k, v) :: d.toList

def Fields.ofList : List (Obj × Obj) → Fields
  | [] => .nil
  | (k, v) :: d => .cons k v (Fields.ofList d)

/-- `data[name]` for a string; `none` if `name not in data` -/
def Fields.get (name : Str) : Fields → Option Obj
  | .nil => none
  | .cons (.str s) v d => if s = name then some v else d.get name
  | .cons _ _ d => d.get name

/-- a copy of the dict without the entry `name` (`PyDict_DelItemString`) -/
def Fields.del (name : Str) : Fields → Fields
  | .nil => .nil
  | .cons (.str s) v d => if s = name then d else .cons (.str s) v (d.del name)
  | .cons k v d => .cons k v (d.del name)

/-! ## `parse_schema` -/

/-- `string_to_channel_type` (`parse_schema.cpp:18-37`): `tolower` of each byte first. -/
def channelTypeOfStr (name : Str) : Option ChannelType :=
  let s := name.map Char.toLower
  if s = "increment".toList then some .increment
  else if s = "value".toList then some .value
  else if s = "categorical".toList then some .categorical
  else if s = "lie".toList then some .lie
  else none

/-- `py_to_channel_type` (`parse_schema.cpp:39-54`). -/
def channelTypeOf : Obj → Option ChannelType
  | .chan t => some t
  | .str s => channelTypeOfStr s
  | _ => none

/-- `.cast<string>()` -/
def castStr : Obj → Option Str
  | .str s => some s
  | _ => none

/-- `.cast<bool>()`: `True`, `False` and what has a truth value as a number; `None` would give
`false` and is left out. -/
def castBool : Obj → Option Bool
  | .bool b => some b
  | .num q => some (decide (q ≠ 0))
  | _ => none

/-- what a `for` loop over the object goes through -/
def iterate : Obj → Option (List Obj)
  | .list l => some l.toList
  | .tuple l => some l.toList
  | .dict d => some (d.toList.map (·.1))
  | .str s => some (s.map fun c => .str [c])
  | _ => none

/-- the loop over the categories (`parse_schema.cpp:80-84`), on the channel at this position -/
def insertVariants (s : Schema.Schema) (i : ℕ) : List Obj → Option Schema.Schema
  | [] => some s
  | c :: cs => do
    let v ← castStr c
    let s' ← s.modify i fun ch => some (ch.insertVariant v)
    insertVariants s' i cs

/-- `insert_item_to_schema` (`parse_schema.cpp:58-117`). -/
def insertItem (s : Schema.Schema) (label : Str) (t : ChannelType) (options : Fields) : Option Schema.Schema :=
  match t with
  | .increment => (s.insert label (.increment false)).map (·.1)
  | .value => do
    let (s', i) ← s.insert label (.value false)
    match options.get "lead_lag".toList with
    | some o => do
      let b ← castBool o
      s'.modify i fun ch => some (ch.setLeadLag b)
    | none => some s'
  | .categorical => do
    let (s', i) ← s.insert label (.categorical [])
    match options.get "categories".toList with
    | some o => do
      let cats ← iterate o
      insertVariants s' i cats
    | none => some s'
  | .lie => (s.insert label .lie).map (·.1)

/-- `handle_seq_item` (`parse_schema.cpp:119-140`) on the elements of a sequence: `RPY_CHECK(len > 1)`
comes before the branch for one element. -/
def handleSeqItem (s : Schema.Schema) (label : Str) (data : List Obj) : Option Schema.Schema :=
  if ¬ data.length > 1 then none
  else
    match data with
    | [] => none
    | first :: rest => do
      let t ← channelTypeOf first
      match rest with
      | [] => insertItem s label t .nil
      | [.dict options] => insertItem s label t options
      | _ => none

/-- `handle_dict_item` (`parse_schema.cpp:142-158`). -/
def handleDictItem (s : Schema.Schema) (label : Str) (data : Fields) : Option Schema.Schema := do
  let o ← data.get "type".toList
  let t ← channelTypeOf o
  insertItem s label t (data.del "type".toList)

/-- `handle_dict_item_no_label` (`parse_schema.cpp:159-170`). -/
def handleDictItemNoLabel (s : Schema.Schema) (data : Fields) : Option Schema.Schema := do
  let o ← data.get "label".toList
  let label ← castStr o
  handleDictItem s label (data.del "label".toList)

/-- `handle_seq_item_no_label` (`parse_schema.cpp:172-176`). -/
def handleSeqItemNoLabel (s : Schema.Schema) (data : List Obj) : Option Schema.Schema :=
  if ¬ data.length > 1 then none
  else
    match data with
    | [] => none
    | first :: rest => do
      let label ← castStr first
      handleSeqItem s label rest

/-- the elements of a sequence (`py::isinstance<py::sequence>`): lists, tuples and strings -/
def sequence : Obj → Option (List Obj)
  | .list l => some l.toList
  | .tuple l => some l.toList
  | .str s => some (s.map fun c => .str [c])
  | _ => none

/-- one turn of the loop of `handle_dict_schema` (`parse_schema.cpp:181-193`) -/
def dictStep (s : Schema.Schema) (kv : Obj × Obj) : Option Schema.Schema :=
  match kv.2 with
  | .dict f => do handleDictItem s (← castStr kv.1) f
  | item => do
    let l ← sequence item
    handleSeqItem s (← castStr kv.1) l

/-- `handle_dict_schema` (`parse_schema.cpp:178-195`). -/
def handleDictSchema (s : Schema.Schema) : List (Obj × Obj) → Option Schema.Schema
  | [] => some s
  | kv :: d => (dictStep s kv).bind fun s' => handleDictSchema s' d

/-- one turn of the loop of `handle_seq_schema` (`parse_schema.cpp:201-211`) -/
def listStep (s : Schema.Schema) (item : Obj) : Option Schema.Schema :=
  match item with
  | .dict f => handleDictItemNoLabel s f
  | item => do handleSeqItemNoLabel s (← sequence item)

/-- `handle_seq_schema` (`parse_schema.cpp:197-213`). -/
def handleSeqSchema (s : Schema.Schema) : List Obj → Option Schema.Schema
  | [] => some s
  | item :: l => (listStep s item).bind fun s' => handleSeqSchema s' l

/-- `parse_schema` (`parse_schema.cpp:422-428`) with `parse_into_schema` (`:387-403`). -/
def parseSchema (data : Obj) : Option Schema.Schema :=
  match data with
  | .dict d => handleDictSchema {} d.toList
  | data => do handleSeqSchema {} (← sequence data)

/-! ## `StandardTickDataParser` -/

/-- The fields of `TickItem`. -/
inductive Field
  | timestamp
  | label
  | type
  | data
deriving DecidableEq, Repr

/-- the name of a field -/
def Field.name : Field → Str
  | .timestamp => "timestamp".toList
  | .label => "label".toList
  | .type => "type".toList
  | .data => "data".toList

/-- `TickItem` (`tick_stream.py:38-42`). -/
structure Item where
  timestamp : Obj
  label : Obj
  type : Obj
  data : Obj

/-- the keyword arguments collected so far: the dict `current` -/
abbrev Cur := List (Field × Obj)

/-- `TickItem(**kwargs)`: every field must be given, and none twice -/
def makeItem (c : Cur) : Option Item := do
  if (c.map (·.1)).Nodup then
    let ts ← c.lookup .timestamp
    let lb ← c.lookup .label
    let ty ← c.lookup .type
    let da ← c.lookup .data
    some ⟨ts, lb, ty, da⟩
  else none

/-- `{label: data[label] for label in labels_remaining}` if all are in `data` -/
def allFields (d : Fields) : List Field → Option Cur
  | [] => some []
  | f :: fs => do
    let v ← d.get f.name
    let rest ← allFields d fs
    some ((f, v) :: rest)

/-- `handle_any` (`tick_stream.py:142-158`) -/
def handleAny (data : Obj) (labels : List Field) (cur : Cur) : Option (List Item) :=
  if labels.length = 1 then (makeItem (cur ++ [(.data, data)])).map fun i => [i]
  else if .label ∈ labels ∨ .timestamp ∈ labels then none
  else
    match data with
    | .bool _ => (makeItem (cur ++ [(.type, .str "increment".toList), (.data, data)])).map fun i => [i]
    | .num _ => (makeItem (cur ++ [(.type, .str "increment".toList), (.data, data)])).map fun i => [i]
    | .str _ => (makeItem (cur ++ [(.type, .str "categorical".toList), (.data, data)])).map fun i => [i]
    | _ => none

mutual
/-- `visit` (`tick_stream.py:88-94`), `handle_dict` (`:96-112`), `handle_list` (`:114-124`): the method named after the class of the object, or
`handle_any`.  Generators are run to their end: the items they yield. -/
def visit : Obj → List Field → Cur → Option (List Item)
  | .dict d, labels, cur =>
    match allFields d labels with
    | some fs => (makeItem (cur ++ fs)).map fun i => [i]
    | none =>
      match labels with
      | [] => none
      | .data :: _ => (makeItem (cur ++ [(.data, .dict d)])).map fun i => [i]
      | f :: rest => visitFields d f rest cur
  | .list l, labels, cur =>
    match labels with
    | [] => none
    | .data :: _ => (makeItem (cur ++ [(.data, .list l)])).map fun i => [i]
    | _ => visitAll l labels cur
  | .tuple l, labels, cur => visitTuple l labels cur
  | .bool b, labels, cur => handleAny (.bool b) labels cur
  | .num q, labels, cur => handleAny (.num q) labels cur
  | .str s, labels, cur => handleAny (.str s) labels cur
  | .chan t, labels, cur => handleAny (.chan t) labels cur
  | .other n, labels, cur => handleAny (.other n) labels cur

/-- the loop of `handle_dict` over the entries (`tick_stream.py:111-112`) -/
def visitFields : Fields → Field → List Field → Cur → Option (List Item)
  | .nil, _, _, _ => some []
  | .cons k v d, f, rest, cur => do
    let a ← visit v rest ((f, k) :: cur)
    let b ← visitFields d f rest cur
    some (a ++ b)

/-- the loop of `handle_list` (`tick_stream.py:123-124`) -/
def visitAll : Objs → List Field → Cur → Option (List Item)
  | .nil, _, _ => some []
  | .cons a l, labels, cur => do
    let x ← visit a labels cur
    let y ← visitAll l labels cur
    some (x ++ y)

/-- `handle_tuple` (`tick_stream.py:126-140`) on the elements; `data[1:]` is again a tuple. -/
def visitTuple : Objs → List Field → Cur → Option (List Item)
  | .nil, labels, cur => if labels.length = 0 then (makeItem cur).map fun i => [i] else none
  | .cons a l, labels, cur =>
    if l.toList.length + 1 = labels.length then
      (makeItem (cur ++ labels.zip (a :: l.toList))).map fun i => [i]
    else
      match labels with
      | [] => none
      | f :: others =>
        match l with
        | .cons b .nil => visit b others (cur ++ [(f, a)])
        | l => visitTuple l others (cur ++ [(f, a)])
end

/-- the items `parse_data` goes through (`tick_stream.py:84-86`) -/
def items (data : Obj) : Option (List Item) := visit data [.timestamp, .label, .type, .data] []

/-- What is recorded: `add_increment`, `add_value` and `add_categorical` of the construction
helper. -/
inductive Call
  | addIncrement (label timestamp data : Obj)
  | addValue (label timestamp data : Obj)
  | addCategorical (label timestamp data : Obj)

/-- `convert_channel_type` (`tick_stream.py:54-69`): there is no `else` after the last test, so other
strings give `None`; objects of other classes raise. -/
def convertChannelType : Obj → Option (Option ChannelType)
  | .chan t => some (some t)
  | .str s =>
    if s = "increment".toList then some (some .increment)
    else if s = "value".toList then some (some .value)
    else if s = "categorical".toList then some (some .categorical)
    else some none
  | _ => none

/-- `insert` (`tick_stream.py:71-79`): at most one call.  What the helper does is not part of
this model. -/
def insertTick (i : Item) : Option (List Call) := do
  match ← convertChannelType i.type with
  | some .increment => some [.addIncrement i.label i.timestamp i.data]
  | some .value => some [.addValue i.label i.timestamp i.data]
  | some .categorical => some [.addCategorical i.label i.timestamp i.data]
  | _ => some []

/-- the loop of `parse_data` -/
def insertAll : List Item → Option (List Call)
  | [] => some []
  | i :: is => do
    let a ← insertTick i
    let b ← insertAll is
    some (a ++ b)

/-- `parse_data` (`tick_stream.py:84-86`): the calls made to the helper. -/
def parseTicks (data : Obj) : Option (List Call) := do insertAll (← items data)

end RoughPy.Parse
