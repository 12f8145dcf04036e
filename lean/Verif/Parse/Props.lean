import Verif.Parse.Lemmas2

/-!
# C135 to C137: schemas and tick data written as Python objects

Each theorem is followed by a case that meets its hypotheses.
-/

namespace RoughPy.Parse

open RoughPy.Schema (Str Channel PlainLabel)

/-- A Python string. -/
abbrev st (s : String) : Obj := .str s.toList

/-- A Python dict. -/
abbrev dc (l : List (Obj × Obj)) : Fields := Fields.ofList l

/-! ## C135 -/

/-- C135 (what holds).  An object that describes channels with good labels gives the schema with these
channels, in this order, with their types and options.  All the ways to write them give the same
schema.  Missing: options left out, see `C135_options_refuted`, and options of increments. -/
theorem C135_schema_partial (es : List (Str × Kind)) (data : Obj) (hg : GoodLabels es) (hk : ∀ e ∈ es, e.2.Ok)
    (h : Describes es data) :
    ∃ s, parseSchema data = some s ∧ s.isFinal = false ∧ s.channels = es.map fun e => (e.1, e.2.channel) :=
  ⟨_, parse_describes hg hk h, rfl, rfl⟩

theorem C135_same (es : List (Str × Kind)) (data data' : Obj) (hg : GoodLabels es) (hk : ∀ e ∈ es, e.2.Ok)
    (h : Describes es data) (h' : Describes es data') : parseSchema data = parseSchema data' := by
  rw [parse_describes hg hk h, parse_describes hg hk h']

/-- `[("a", "Value", {"lead_lag": True}), {"label": "b", "type": "categorical", "categories": ["x", "y"]}]` -/
example : Describes [("a".toList, .value (some true)), ("b".toList, .categorical (some ["x".toList, "y".toList]))]
    (.list (py [.tuple (py [st "a", st "Value", .dict (dc [(st "lead_lag", .bool true)])]),
      .dict (dc [(st "label", st "b"), (st "type", st "categorical"),
        (st "categories", .list (py [st "x", st "y"]))])])) := by
  refine .inr ⟨_, .inl rfl, ?_⟩
  refine .cons (.inr ⟨_, _, .inr rfl, .inr ⟨_, rfl, by decide⟩, ?_⟩) (.cons (.inl ⟨_, st "categorical", rfl, ?_, ?_, .inr ⟨_, rfl, by decide⟩, ?_⟩) .nil)
  · rfl
  · rfl
  · rfl
  · exact ⟨_, rfl, .inl rfl⟩

example : GoodLabels [("a".toList, .value (some true)), ("b".toList, .categorical (some ["x".toList, "y".toList]))] :=
  ⟨by decide, by decide, by
    intro e he
    simp only [List.mem_cons, List.not_mem_nil, or_false] at he
    rcases he with rfl | rfl
    · exact ⟨by decide, by decide⟩
    · exact ⟨by decide, by decide⟩⟩

/-- C135: a dict is read only if each of its keys is a string and each entry names its type. -/
theorem C135_refused (d : Fields) (s : Schema.Schema) (h : parseSchema (.dict d) = some s) (kv : Obj × Obj)
    (hkv : kv ∈ d.toList) :
    ∃ l t, kv.1 = .str l ∧ ((∃ f o, kv.2 = .dict f ∧ f.get "type".toList = some o ∧ NamesType t o) ∨
      ∃ o f, IsPair kv.2 o (.dict f) ∧ NamesType t o) :=
  handleDictSchema_types d.toList {} s h kv hkv

/-- C135: an entry of a dict is found under its name whatever the other keys are, strings or not, and
removing it leaves the others in place. -/
theorem C135_lookup (name : Str) (v : Obj) (d : Fields) (hv : (Obj.str name, v) ∈ d.toList)
    (hd : (d.toList.map Prod.fst).Nodup) :
    d.get name = some v ∧
      ∀ kv, kv ∈ (d.del name).toList ↔ kv ∈ d.toList ∧ kv.1 ≠ Obj.str name := by
  have absent : ∀ (d : Fields), Obj.str name ∉ d.toList.map Prod.fst →
      ∀ kv ∈ d.toList, kv.1 ≠ Obj.str name := fun d h kv hkv he =>
    h (he ▸ List.mem_map_of_mem hkv)
  suffices ∀ (l : List (Obj × Obj)) (d : Fields), d.toList = l → (Obj.str name, v) ∈ l →
      (l.map Prod.fst).Nodup → d.get name = some v ∧
      ∀ kv, kv ∈ (d.del name).toList ↔ kv ∈ l ∧ kv.1 ≠ Obj.str name from this _ d rfl hv hd
  intro l
  induction l with
  | nil => intro d _ h; cases h
  | cons e l ih =>
    intro d hdl hm hnd
    cases d with
    | nil => cases hdl
    | cons k x d =>
      simp only [Fields.toList, List.cons.injEq] at hdl
      obtain ⟨rfl, hdl⟩ := hdl
      simp only [List.map_cons, List.nodup_cons] at hnd
      by_cases hk : k = Obj.str name
      · subst hk
        have hx : x = v := by
          rcases List.mem_cons.1 hm with h | h
          · simpa using h.symm
          · exact absurd (List.mem_map_of_mem h) hnd.1
        subst hx
        have ha := absent d (hdl ▸ hnd.1)
        simp only [Fields.get, Fields.del, if_true]
        refine ⟨trivial, fun kv => ⟨fun h => ⟨List.mem_cons_of_mem _ (hdl ▸ h), ha kv h⟩, fun h => ?_⟩⟩
        rcases List.mem_cons.1 h.1 with rfl | h'
        · exact absurd rfl h.2
        · exact hdl ▸ h'
      · have hm' : (Obj.str name, v) ∈ l := by
          rcases List.mem_cons.1 hm with h | h
          · exact absurd (congrArg Prod.fst h).symm hk
          · exact h
        obtain ⟨i1, i2⟩ := ih d hdl hm' hnd.2
        have e1 : (Fields.cons k x d).get name = d.get name ∧
            (Fields.cons k x d).del name = Fields.cons k x (d.del name) := by
          cases k with
          | str s =>
            have : s ≠ name := fun h => hk (h ▸ rfl)
            exact ⟨by rw [Fields.get, if_neg this], by rw [Fields.del, if_neg this]⟩
          | _ => exact ⟨rfl, rfl⟩
        rw [e1.1, e1.2]
        refine ⟨i1, fun kv => ?_⟩
        simp only [Fields.toList, List.mem_cons, i2]
        constructor
        · rintro (rfl | h)
          · exact ⟨.inl rfl, hk⟩
          · exact ⟨.inr h.1, h.2⟩
        · rintro ⟨rfl | h, h2⟩
          · exact .inl rfl
          · exact .inr ⟨h, h2⟩

example : (dc [(.num 1, st "x"), (st "type", st "value"), (.bool true, st "y")]).get "type".toList =
    some (st "value") := by
  simp [dc, st, Fields.ofList, Fields.get]

/-- `{"a": {"type": "value"}}` -/
example : (parseSchema (.dict (dc [(st "a", .dict (dc [(st "type", st "value")]))]))).isSome = true := by
  decide +kernel

/-- `{"a": {"type": "values"}}` -/
example : parseSchema (.dict (dc [(st "a", .dict (dc [(st "type", st "values")]))])) = none := by
  decide +kernel

/-- C135 fails in general: the options cannot be left out of a tuple although there may be none.
`[(label, type)]`, `{label: (type,)}` and `{label: type}` are refused, for every label and type. -/
theorem C135_options_refuted (label : Str) (t : ChannelType) :
    parseSchema (.list (py [.tuple (py [.str label, .chan t])])) = none ∧
      parseSchema (.list (py [.tuple (py [.str label, .str t.name.toList])])) = none ∧
      parseSchema (.dict (dc [(.str label, .tuple (py [.chan t]))])) = none ∧
      parseSchema (.dict (dc [(.str label, .tuple (py [.str t.name.toList]))])) = none ∧
      parseSchema (.dict (dc [(.str label, .str t.name.toList)])) = none ∧
      parseSchema (.dict (dc [(.str label, .chan t)])) = none := by
  cases t <;> refine ⟨rfl, rfl, rfl, rfl, ?_, rfl⟩ <;> rfl

/-- C135 fails in general: `{"a": {"type": "increment", "lead_lag": True}}` is read and the option has no
effect, although increment channels can be lead-lag. -/
theorem C135_increment_refuted :
    (parseSchema (.dict (dc [(st "a", .dict (dc [(st "type", st "increment"), (st "lead_lag", .bool true)]))]))).map
        (·.channels) = some [("a".toList, .increment false)] ∧
      (Channel.increment false).setLeadLag true = .increment true := by
  decide +kernel

/-- C135 fails in general: of two entries with one label the second is dropped without an exception, and
its options go to the first. -/
theorem C135_duplicate_refuted :
    (parseSchema (.list (py [.tuple (py [st "a", st "increment", .dict .nil]),
      .tuple (py [st "a", st "value", .dict (dc [(st "lead_lag", .bool true)])])]))).map (·.channels) =
        some [("a".toList, .increment true)] := by
  decide +kernel

/-! ## C136 -/

/-- C136 (what holds).  Tick data in any of the layouts gives the ticks it stands for, in order.
Missing: malformed data is not always refused, see `C136_extra_refuted`. -/
theorem C136_ticks_partial (o : Obj) (xs : List (Obj × Obj × Obj × Obj)) (h : Ticks o xs) :
    items o = some (xs.map fun x => ⟨x.1, x.2.1, x.2.2.1, x.2.2.2⟩) :=
  items_of_ticks h

/-- C136: the layouts cannot be confused. -/
theorem C136_unambiguous (o : Obj) (xs ys : List (Obj × Obj × Obj × Obj)) (h : Ticks o xs) (h' : Ticks o ys) :
    xs = ys := by
  have e := (items_of_ticks h).symm.trans (items_of_ticks h')
  rw [Option.some.injEq] at e
  refine (List.map_injective_iff.2 ?_) e
  rintro ⟨a, b, c, d⟩ ⟨a', b', c', d'⟩ e
  simpa using e

/-- `{1.0: [("a", 2.0), {"b": ("value", 3.0)}, ("c", "x")]}`,
the same as `[(1.0, "a", "increment", 2.0), (1.0, "b", "value", 3.0), (1.0, "c", "categorical", "x")]` -/
example : Ticks (.dict (dc [(.num 1, .list (py [.tuple (py [st "a", .num 2]),
      .dict (dc [(st "b", .tuple (py [st "value", .num 3]))]), .tuple (py [st "c", st "x"])]))]))
    [(.num 1, st "a", st "increment", .num 2), (.num 1, st "b", st "value", .num 3),
      (.num 1, st "c", st "categorical", st "x")] := by
  refine Ticks.dict (dc [(.num 1, _)]) [[(st "a", st "increment", .num 2), (st "b", st "value", .num 3),
    (st "c", st "categorical", st "x")]] (fun h => h "timestamp" (by simp) rfl) (.cons ?_ .nil)
  refine LabelData.cons _ _ [_] _ (.pair _ _ [_] (.num 2)) (LabelData.cons _ _ [_] _
    (LabelData.dict (dc [(st "b", _)]) [[_]] (fun h => h "label" (by simp) rfl) (.cons (.tuple _ _) .nil))
    (LabelData.cons _ _ [_] _ (.pair _ _ [_] (.str _)) .nil))

example (a b c d a' b' c' d' : Obj) : Ticks (.list (py [.tuple (py [a, b, c, d]), .tuple (py [a', b', c', d'])]))
    [(a, b, c, d), (a', b', c', d')] :=
  Ticks.cons _ _ [_] _ (.tuple a b c d) (Ticks.cons _ _ [_] _ (.tuple a' b' c' d') .nil)

/-- C136: without a time or a label, or without a type that can be found out, there is an exception. -/
theorem C136_refused (ts l o : Obj)
    (ho : (∃ b, o = .bool b) ∨ (∃ q, o = .num q) ∨ (∃ s, o = .str s) ∨ (∃ t, o = .chan t) ∨ ∃ n, o = .other n) :
    items o = none ∧ items (.tuple (py [ts, o])) = none ∧
      (((∃ t, o = .chan t) ∨ ∃ n, o = .other n) → items (.tuple (py [ts, l, o])) = none) := by
  rcases ho with ⟨b, rfl⟩ | ⟨b, rfl⟩ | ⟨b, rfl⟩ | ⟨b, rfl⟩ | ⟨b, rfl⟩
  all_goals
    refine ⟨?_, ?_, ?_⟩
    · simp [items, visit, handleAny]
    · simp [items, visit, handleAny, py, Objs.ofList, visitTuple, Objs.toList]
    · intro h
      first
      | (simp at h; done)
      | simp [items, visit, handleAny, py, Objs.ofList, visitTuple, Objs.toList]

example : ∃ q, (Obj.num 2) = .num q := ⟨2, rfl⟩

/-- C136 fails in general: a fifth component is accepted, and ignored, if it is a dict; it is refused if
it is a number. -/
theorem C136_extra_refuted (ts l t d : Obj) (f : Fields) (q : ℚ) :
    items (.tuple (py [ts, l, t, d, .dict f])) = some [⟨ts, l, t, d⟩] ∧
      items (.tuple (py [ts, l, t, d, .num q])) = none := by
  constructor
  · have h : makeItem ([] ++ [(Field.timestamp, ts)] ++ [(Field.label, l)] ++ [(Field.type, t)] ++ [(Field.data, d)]) =
        some ⟨ts, l, t, d⟩ := rfl
    simp only [List.nil_append, List.cons_append] at h
    simp [items, visit, py, Objs.ofList, visitTuple, Objs.toList, allFields_nil f, h]
  · have h : ∀ x y : Obj, makeItem [(Field.timestamp, ts), (Field.label, l), (Field.type, t), (Field.data, d),
        (.type, x), (.data, y)] = none := by
      intro x y
      unfold makeItem
      rw [if_neg (by simp)]
    simp [items, visit, py, Objs.ofList, visitTuple, Objs.toList, handleAny, h]

/-- C136 fails in general for labels: `{1.0: {"label": 2, "type": 3, "data": 4}}` is one tick, whereas
`{1.0: {"label": 2, "type": 3, "datum": 4}}` are three. -/
theorem C136_names_refuted :
    (items (.dict (dc [(.num 1, .dict (dc [(st "label", .num 2), (st "type", .num 3), (st "data", .num 4)]))]))).map
        List.length = some 1 ∧
      (items (.dict (dc [(.num 1, .dict (dc [(st "label", .num 2), (st "type", .num 3), (st "datum", .num 4)]))]))).map
        List.length = some 3 := by
  decide +kernel

/-! ## C137 -/

theorem insertTick_records {x : Obj × Obj × Obj × Obj} {c : Call} (h : Records x c) :
    insertTick ⟨x.1, x.2.1, x.2.2.1, x.2.2.2⟩ = some [c] := by
  obtain ⟨ts, l, t, d⟩ := x
  rcases h with ⟨h | h, rfl⟩ | ⟨h | h, rfl⟩ | ⟨h | h, rfl⟩
  all_goals
    dsimp only at h ⊢
    subst h
    rfl

/-- C137 (what holds).  If the types are increment, value or categorical, every tick is recorded once, in
order, under its label with its time and its data.  Missing: other types, see `C137_lie_refuted` and
`C137_unknown_refuted`. -/
theorem C137_recorded_partial (o : Obj) (xs : List (Obj × Obj × Obj × Obj)) (cs : List Call) (h : Ticks o xs)
    (hr : List.Forall₂ Records xs cs) : parseTicks o = some cs := by
  unfold parseTicks
  rw [items_of_ticks h, Option.bind_eq_bind, Option.bind_some]
  exact insertAll_records hr
where
  insertAll_records {xs : List (Obj × Obj × Obj × Obj)} {cs : List Call} (hr : List.Forall₂ Records xs cs) :
      insertAll (xs.map fun x => ⟨x.1, x.2.1, x.2.2.1, x.2.2.2⟩) = some cs := by
    induction hr with
    | nil => rfl
    | cons h1 _ ih => rw [List.map_cons, insertAll, insertTick_records h1, ih]; rfl

example : List.Forall₂ Records [(.num 1, st "a", st "increment", .num 2), (.num 1, st "b", .chan .value, .num 3)]
    [.addIncrement (st "a") (.num 1) (.num 2), .addValue (st "b") (.num 1) (.num 3)] :=
  .cons (.inl ⟨.inr rfl, rfl⟩) (.cons (.inr (.inl ⟨.inl rfl, rfl⟩)) .nil)

/-- C137: a type that is neither a string nor a `ChannelType` is an exception. -/
theorem C137_type (ts l t d : Obj) (h1 : ∀ s, t ≠ .str s) (h2 : ∀ c, t ≠ .chan c) :
    parseTicks (.tuple (py [ts, l, t, d])) = none := by
  unfold parseTicks
  rw [items_of_ticks (.tuple ts l t d)]
  cases t with
  | str s => exact absurd rfl (h1 s)
  | chan s => exact absurd rfl (h2 s)
  | _ => rfl

example : (∀ s, (Obj.num 1) ≠ .str s) ∧ ∀ c, (Obj.num 1) ≠ .chan c := ⟨fun _ h => (by cases h), fun _ h => (by cases h)⟩

/-- C137 fails for Lie increments: a tick of type `"lie"` or `ChannelType.LieChannel` is dropped without an
exception, whatever its time, label and data; a schema accepts such a channel. -/
theorem C137_lie_refuted (ts l d : Obj) :
    parseTicks (.tuple (py [ts, l, st "lie", d])) = some [] ∧
      parseTicks (.tuple (py [ts, l, .chan .lie, d])) = some [] ∧
      channelTypeOf (st "lie") = some .lie := by
  refine ⟨?_, ?_, by decide⟩
  · unfold parseTicks; rw [items_of_ticks (.tuple ts l _ d)]; rfl
  · unfold parseTicks; rw [items_of_ticks (.tuple ts l _ d)]; rfl

/-- C137 fails for misspelt types: the tick is dropped without an exception.  Capitals count, other than in a
schema. -/
theorem C137_unknown_refuted (ts l d : Obj) (s : Str) (h : ∀ t : ChannelType, s ≠ t.name.toList) :
    parseTicks (.tuple (py [ts, l, .str s, d])) = some [] := by
  unfold parseTicks
  rw [items_of_ticks (.tuple ts l _ d)]
  have : convertChannelType (.str s) = some none := by
    unfold convertChannelType
    have h1 : s ≠ "increment".toList := h .increment
    have h2 : s ≠ "value".toList := h .value
    have h3 : s ≠ "categorical".toList := h .categorical
    simp only [if_neg h1, if_neg h2, if_neg h3]
  simp only [Option.bind_eq_bind, Option.bind_some, List.map_cons, List.map_nil, insertAll, insertTick, this]
  rfl

/-- `(1.0, "a", "Value", 2.0)` -/
example : (∀ t : ChannelType, "Value".toList ≠ t.name.toList) ∧ channelTypeOf (st "Value") = some .value := by
  refine ⟨fun t => ?_, by decide⟩
  cases t <;> decide

end RoughPy.Parse
