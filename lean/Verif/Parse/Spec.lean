import Verif.Parse.Model
import Verif.Schema.Lemmas

/-!
# What schemas and tick data written as Python objects mean
-/

namespace RoughPy.Parse

open RoughPy.Schema (Str Channel PlainLabel)

def py (l : List Obj) : Objs := Objs.ofList l

/-! ## Schemas -/

/-- A channel as the user thinks of it: its type with the options of that type. -/
inductive Kind
  | increment
  | value (leadLag : Option Bool)
  | categorical (categories : Option (List Str))
  | lie

/-- Its name in Python. -/
def Kind.type : Kind → ChannelType
  | increment => .increment
  | value _ => .value
  | categorical _ => .categorical
  | lie => .lie

def ChannelType.name : ChannelType → String
  | .increment => "increment"
  | .value => "value"
  | .categorical => "categorical"
  | .lie => "lie"

/-- The channel that should be in the schema. -/
def Kind.channel : Kind → Channel
  | increment => .increment false
  | value b => .value (b.getD false)
  | categorical c => .categorical (c.getD [])
  | lie => .lie

/-- categories are given names, all different -/
def Kind.Ok : Kind → Prop
  | categorical (some c) => c.Nodup ∧ [] ∉ c
  | _ => True

/-- An object that names a type: a member of `ChannelType`, or its name as a string, in capitals
or not. -/
def NamesType (t : ChannelType) (o : Obj) : Prop :=
  o = .chan t ∨ ∃ s : Str, o = .str s ∧ s.map Char.toLower = t.name.toList

/-- A dict that has the options of a channel, and perhaps entries under other names. -/
def HasOptions (f : Fields) : Kind → Prop
  | .value b => f.get "lead_lag".toList = b.map .bool
  | .categorical none => f.get "categories".toList = none
  | .categorical (some c) => ∃ l, l.toList = c.map .str ∧
      (f.get "categories".toList = some (.list l) ∨ f.get "categories".toList = some (.tuple l))
  | _ => True

/-- `(type, options)`: a list or tuple. -/
def IsPair (o a b : Obj) : Prop := o = .list (py [a, b]) ∨ o = .tuple (py [a, b])

def IsTriple (o a b c : Obj) : Prop := o = .list (py [a, b, c]) ∨ o = .tuple (py [a, b, c])

/-- One entry `label: …` of a schema that is a dict:
`label: {"type": …, **options}` or `label: (type, options)`. -/
def DictEntry (e : Str × Kind) (kv : Obj × Obj) : Prop :=
  kv.1 = .str e.1 ∧
    ((∃ f o, kv.2 = .dict f ∧ f.get "type".toList = some o ∧ NamesType e.2.type o ∧ HasOptions f e.2) ∨
      ∃ f o, IsPair kv.2 o (.dict f) ∧ NamesType e.2.type o ∧ HasOptions f e.2)

/-- One element of a schema that is a list:
`{"label": …, "type": …, **options}` or `(label, type, options)`. -/
def ListEntry (e : Str × Kind) (item : Obj) : Prop :=
  (∃ f o, item = .dict f ∧ f.get "label".toList = some (.str e.1) ∧ f.get "type".toList = some o ∧
      NamesType e.2.type o ∧ HasOptions f e.2) ∨
    ∃ f o, IsTriple item (.str e.1) o (.dict f) ∧ NamesType e.2.type o ∧ HasOptions f e.2

/-- A Python object that describes these channels. -/
def Describes (es : List (Str × Kind)) (data : Obj) : Prop :=
  (∃ d, data = .dict d ∧ List.Forall₂ DictEntry es d.toList) ∨
    ∃ l, (data = .list l ∨ data = .tuple l) ∧ List.Forall₂ ListEntry es l.toList

/-- Labels that differ, are not empty and have neither `:` nor NUL in them. -/
structure GoodLabels (es : List (Str × Kind)) : Prop where
  distinct : (es.map (·.1)).Nodup
  nonempty : ∀ e ∈ es, e.1 ≠ []
  plain : ∀ e ∈ es, PlainLabel e.1

/-! ## Tick data -/

/-- all of these names are keys of the dict -/
def HasKeys (f : Fields) (names : List String) : Prop := ∀ n ∈ names, f.get n.toList ≠ none

/-- `o` stands for the data `d` when time, label and type are known. -/
inductive IsData : Obj → Obj → Prop
  | bool (b : Bool) : IsData (.bool b) (.bool b)
  | num (q : ℚ) : IsData (.num q) (.num q)
  | str (s : Str) : IsData (.str s) (.str s)
  | chan (t : ChannelType) : IsData (.chan t) (.chan t)
  | other (n : ℕ) : IsData (.other n) (.other n)
  /-- lists are data -/
  | list (l : Objs) : IsData (.list l) (.list l)
  /-- so are dicts, if `"data"` is no key -/
  | dict (f : Fields) (h : f.get "data".toList = none) : IsData (.dict f) (.dict f)
  | record (f : Fields) (d : Obj) (h : f.get "data".toList = some d) : IsData (.dict f) d
  | tuple (d : Obj) : IsData (.tuple (py [d])) d

/-- `o` stands for these pairs of a type and data, when time and label are known. -/
inductive TypeData : Obj → List (Obj × Obj) → Prop
  /-- the type of numbers and strings can be left out -/
  | bool (b : Bool) : TypeData (.bool b) [(.str "increment".toList, .bool b)]
  | num (q : ℚ) : TypeData (.num q) [(.str "increment".toList, .num q)]
  | str (s : Str) : TypeData (.str s) [(.str "categorical".toList, .str s)]
  | tuple (t d : Obj) : TypeData (.tuple (py [t, d])) [(t, d)]
  | record (f : Fields) (t d : Obj) (ht : f.get "type".toList = some t) (hd : f.get "data".toList = some d) :
      TypeData (.dict f) [(t, d)]
  /-- `{type: data, …}` -/
  | dict (f : Fields) (ds : List Obj) (hf : ¬ HasKeys f ["type", "data"])
      (h : List.Forall₂ (fun kv d => IsData kv.2 d) f.toList ds) :
      TypeData (.dict f) (List.zipWith (fun kv d => (kv.1, d)) f.toList ds)
  /-- lists: one after the other -/
  | nil : TypeData (.list .nil) []
  | cons (a : Obj) (l : Objs) (xs ys : List (Obj × Obj)) (ha : TypeData a xs) (hl : TypeData (.list l) ys) :
      TypeData (.list (.cons a l)) (xs ++ ys)

/-- `o` stands for these triples of a label, a type and data, when the time is known. -/
inductive LabelData : Obj → List (Obj × Obj × Obj) → Prop
  | tuple (l t d : Obj) : LabelData (.tuple (py [l, t, d])) [(l, t, d)]
  | record (f : Fields) (l t d : Obj) (hl : f.get "label".toList = some l) (ht : f.get "type".toList = some t)
      (hd : f.get "data".toList = some d) : LabelData (.dict f) [(l, t, d)]
  /-- `(label, …)` -/
  | pair (l o : Obj) (xs : List (Obj × Obj)) (h : TypeData o xs) :
      LabelData (.tuple (py [l, o])) (xs.map fun x => (l, x))
  /-- `{label: …, …}` -/
  | dict (f : Fields) (xss : List (List (Obj × Obj))) (hf : ¬ HasKeys f ["label", "type", "data"])
      (h : List.Forall₂ (fun kv xs => TypeData kv.2 xs) f.toList xss) :
      LabelData (.dict f) (List.zipWith (fun kv xs => xs.map fun x => (kv.1, x)) f.toList xss).flatten
  /-- lists: one after the other -/
  | nil : LabelData (.list .nil) []
  | cons (a : Obj) (l : Objs) (xs ys : List (Obj × Obj × Obj)) (ha : LabelData a xs) (hl : LabelData (.list l) ys) :
      LabelData (.list (.cons a l)) (xs ++ ys)

/-- `o` stands for these ticks: time, label, type, data. -/
inductive Ticks : Obj → List (Obj × Obj × Obj × Obj) → Prop
  | tuple (ts l t d : Obj) : Ticks (.tuple (py [ts, l, t, d])) [(ts, l, t, d)]
  | record (f : Fields) (ts l t d : Obj) (hts : f.get "timestamp".toList = some ts)
      (hl : f.get "label".toList = some l) (ht : f.get "type".toList = some t)
      (hd : f.get "data".toList = some d) : Ticks (.dict f) [(ts, l, t, d)]
  /-- `(time, …)` -/
  | pair (ts o : Obj) (xs : List (Obj × Obj × Obj)) (h : LabelData o xs) :
      Ticks (.tuple (py [ts, o])) (xs.map fun x => (ts, x))
  /-- `(time, label, …)` -/
  | triple (ts l o : Obj) (xs : List (Obj × Obj)) (h : TypeData o xs) :
      Ticks (.tuple (py [ts, l, o])) (xs.map fun x => (ts, l, x))
  /-- `{time: …, …}` -/
  | dict (f : Fields) (xss : List (List (Obj × Obj × Obj))) (hf : ¬ HasKeys f ["timestamp", "label", "type", "data"])
      (h : List.Forall₂ (fun kv xs => LabelData kv.2 xs) f.toList xss) :
      Ticks (.dict f) (List.zipWith (fun kv xs => xs.map fun x => (kv.1, x)) f.toList xss).flatten
  /-- lists: one after the other -/
  | nil : Ticks (.list .nil) []
  | cons (a : Obj) (l : Objs) (xs ys : List (Obj × Obj × Obj × Obj)) (ha : Ticks a xs) (hl : Ticks (.list l) ys) :
      Ticks (.list (.cons a l)) (xs ++ ys)

/-- The call that records a tick of this type. -/
def Records (x : Obj × Obj × Obj × Obj) (c : Call) : Prop :=
  (NamesExactly .increment x.2.2.1 ∧ c = .addIncrement x.2.1 x.1 x.2.2.2) ∨
    (NamesExactly .value x.2.2.1 ∧ c = .addValue x.2.1 x.1 x.2.2.2) ∨
    (NamesExactly .categorical x.2.2.1 ∧ c = .addCategorical x.2.1 x.1 x.2.2.2)
where
  /-- a member of `ChannelType` or its name -/
  NamesExactly (t : ChannelType) (o : Obj) : Prop := o = .chan t ∨ o = .str t.name.toList

end RoughPy.Parse
