import Verif.Parse.Lemmas

/-!
# Lemmas about reading schemas
-/

namespace RoughPy.Parse

open RoughPy.Schema (Str Channel PlainLabel Matches)

theorem get_del {n m : Str} (h : n ≠ m) : ∀ f : Fields, (f.del m).get n = f.get n
  | .nil => by simp [Fields.del]
  | .cons (.str s) v d => by
    by_cases hs : s = m
    · subst hs
      simp only [Fields.del, if_true, Fields.get]
      rw [if_neg (fun e => h e.symm)]
    · simp only [Fields.del, if_neg hs, Fields.get, get_del h d]
  | .cons (.bool _) v d => by simp only [Fields.del, Fields.get, get_del h d]
  | .cons (.num _) v d => by simp only [Fields.del, Fields.get, get_del h d]
  | .cons (.chan _) v d => by simp only [Fields.del, Fields.get, get_del h d]
  | .cons (.other _) v d => by simp only [Fields.del, Fields.get, get_del h d]
  | .cons (.list _) v d => by simp only [Fields.del, Fields.get, get_del h d]
  | .cons (.tuple _) v d => by simp only [Fields.del, Fields.get, get_del h d]
  | .cons (.dict _) v d => by simp only [Fields.del, Fields.get, get_del h d]

theorem hasOptions_del {f : Fields} {k : Kind} {m : Str} (h : HasOptions f k) (h1 : "lead_lag".toList ≠ m)
    (h2 : "categories".toList ≠ m) : HasOptions (f.del m) k := by
  cases k with
  | increment => trivial
  | lie => trivial
  | value b => exact (get_del h1 f).trans h
  | categorical c =>
    cases c with
    | none => exact (get_del h2 f).trans h
    | some c =>
      obtain ⟨l, hl, h⟩ := h
      refine ⟨l, hl, ?_⟩
      rw [get_del h2]
      exact h

theorem channelTypeOf_names {t : ChannelType} {o : Obj} (h : NamesType t o) : channelTypeOf o = some t := by
  rcases h with rfl | ⟨s, rfl, hs⟩
  · rfl
  · simp only [channelTypeOf, channelTypeOfStr, hs]
    cases t <;> decide

theorem names_of_channelTypeOf {t : ChannelType} {o : Obj} (h : channelTypeOf o = some t) : NamesType t o := by
  cases o with
  | chan t' => simp only [channelTypeOf, Option.some.injEq] at h; subst h; exact .inl rfl
  | str s =>
    refine .inr ⟨s, rfl, ?_⟩
    simp only [channelTypeOf, channelTypeOfStr] at h
    by_cases h1 : s.map Char.toLower = "increment".toList
    · rw [if_pos h1] at h; cases h; exact h1
    · rw [if_neg h1] at h
      by_cases h2 : s.map Char.toLower = "value".toList
      · rw [if_pos h2] at h; cases h; exact h2
      · rw [if_neg h2] at h
        by_cases h3 : s.map Char.toLower = "categorical".toList
        · rw [if_pos h3] at h; cases h; exact h3
        · rw [if_neg h3] at h
          by_cases h4 : s.map Char.toLower = "lie".toList
          · rw [if_pos h4] at h; cases h; exact h4
          · rw [if_neg h4] at h; cases h
  | _ => simp [channelTypeOf] at h

/-- the schema with one more channel -/
abbrev addChannel (s : Schema.Schema) (l : Str) (c : Channel) : Schema.Schema := { s with channels := s.channels ++ [(l, c)] }

theorem insert_new {s : Schema.Schema} {l : Str} (c : Channel) (hf : s.isFinal = false) (hl : l ≠ [])
    (hm : ∀ x ∈ s.channels, ¬ Matches x.1 l) : s.insert l c = some (addChannel s l c, s.channels.length) := by
  unfold Schema.Schema.insert
  rw [hf, if_neg (by simp), if_neg hl]
  dsimp only
  rw [(Schema.find_none s l).2 hm]
  dsimp only
  rw [← hf]

theorem modify_last {s : Schema.Schema} {l : Str} {c c' : Channel} {f : Channel → Option Channel} (h : f c = some c') :
    (addChannel s l c).modify s.channels.length f = some (addChannel s l c') := by
  unfold Schema.Schema.modify
  simp [addChannel, h]

theorem insertVariants_last {s : Schema.Schema} {l : Str} : ∀ (cats vs : List Str), (vs ++ cats).Nodup → [] ∉ cats →
    insertVariants (addChannel s l (.categorical vs)) s.channels.length (cats.map .str) =
      some (addChannel s l (.categorical (vs ++ cats))) := by
  intro cats
  induction cats with
  | nil => intro vs _ _; simp [insertVariants]
  | cons c cats ih =>
    intro vs hd hn
    have hc : c ≠ [] := fun e => hn (by simp [e])
    have hv : c ∉ vs := fun e => (List.nodup_append.1 hd).2.2 c e c (by simp) rfl
    have h1 : (addChannel s l (.categorical vs)).modify s.channels.length (fun ch => some (ch.insertVariant c)) =
        some (addChannel s l (.categorical (vs ++ [c]))) :=
      modify_last (by simp [Channel.insertVariant, hc, hv])
    simp only [List.map_cons, insertVariants, castStr]
    rw [Option.bind_eq_bind, Option.bind_some, h1, Option.bind_eq_bind, Option.bind_some,
      ih (vs ++ [c]) (by simpa using hd) (fun e => hn (by simp [e]))]
    simp

theorem insertItem_ok {s : Schema.Schema} {l : Str} {k : Kind} {f : Fields} (hf : s.isFinal = false) (hl : l ≠ [])
    (hm : ∀ x ∈ s.channels, ¬ Matches x.1 l) (hk : k.Ok) (ho : HasOptions f k) :
    insertItem s l k.type f = some (addChannel s l k.channel) := by
  cases k with
  | increment => simp [Kind.type, insertItem, insert_new _ hf hl hm, Kind.channel]
  | lie => simp [Kind.type, insertItem, insert_new _ hf hl hm, Kind.channel]
  | value b =>
    simp only [Kind.type, insertItem, insert_new _ hf hl hm, Option.bind_eq_bind, Option.bind_some, Kind.channel]
    have ho' : f.get "lead_lag".toList = b.map .bool := ho
    rw [ho']
    cases b with
    | none => rfl
    | some b =>
      simp only [Option.map_some, castBool, Option.bind_some, Option.getD_some]
      exact modify_last rfl
  | categorical c =>
    simp only [Kind.type, insertItem, insert_new _ hf hl hm, Option.bind_eq_bind, Option.bind_some, Kind.channel]
    cases c with
    | none =>
      have ho' : f.get "categories".toList = none := ho
      rw [ho']; rfl
    | some c =>
      obtain ⟨x, hx, ho⟩ := ho
      have h := insertVariants_last (s := s) (l := l) c [] (by simpa using hk.1) hk.2
      rcases ho with ho | ho
      all_goals
        rw [ho]
        simp only [iterate, Option.bind_some, hx, h, Option.getD_some, List.nil_append]

theorem handleDictItem_ok {s : Schema.Schema} {l : Str} {k : Kind} {f : Fields} {o : Obj} (hf : s.isFinal = false) (hl : l ≠ [])
    (hm : ∀ x ∈ s.channels, ¬ Matches x.1 l) (hk : k.Ok) (ht : f.get "type".toList = some o) (hn : NamesType k.type o)
    (ho : HasOptions f k) : handleDictItem s l f = some (addChannel s l k.channel) := by
  unfold handleDictItem
  rw [ht]
  simp only [Option.bind_eq_bind, Option.bind_some, channelTypeOf_names hn]
  exact insertItem_ok hf hl hm hk (hasOptions_del ho (by decide) (by decide))

theorem handleSeqItem_ok {s : Schema.Schema} {l : Str} {k : Kind} {f : Fields} {o : Obj} (hf : s.isFinal = false) (hl : l ≠ [])
    (hm : ∀ x ∈ s.channels, ¬ Matches x.1 l) (hk : k.Ok) (hn : NamesType k.type o)
    (ho : HasOptions f k) : handleSeqItem s l [o, .dict f] = some (addChannel s l k.channel) := by
  unfold handleSeqItem
  simp only [List.length_cons, List.length_nil]
  rw [if_neg (by omega)]
  simp only [Option.bind_eq_bind, Option.bind_some, channelTypeOf_names hn]
  exact insertItem_ok hf hl hm hk ho

theorem handleDictSchema_cons (s : Schema.Schema) (kv : Obj × Obj) (d : List (Obj × Obj)) :
    handleDictSchema s (kv :: d) = (dictStep s kv).bind fun s' => handleDictSchema s' d := rfl

theorem handleSeqSchema_cons (s : Schema.Schema) (a : Obj) (d : List Obj) :
    handleSeqSchema s (a :: d) = (listStep s a).bind fun s' => handleSeqSchema s' d := rfl

theorem dictStep_ok {s : Schema.Schema} {e : Str × Kind} {kv : Obj × Obj} (hf : s.isFinal = false) (hl : e.1 ≠ [])
    (hm : ∀ x ∈ s.channels, ¬ Matches x.1 e.1) (hk : e.2.Ok) (h : DictEntry e kv) :
    dictStep s kv = some (addChannel s e.1 e.2.channel) := by
  obtain ⟨k, v⟩ := kv
  obtain ⟨h1, h | h⟩ := h
  · obtain ⟨f, o, h2, h3, h4, h5⟩ := h
    dsimp only at h1 h2
    subst h1 h2
    unfold dictStep
    simp only [castStr, Option.bind_eq_bind, Option.bind_some]
    exact handleDictItem_ok hf hl hm hk h3 h4 h5
  · obtain ⟨f, o, h2, h4, h5⟩ := h
    dsimp only at h1 h2
    subst h1
    rcases h2 with h2 | h2
    all_goals
      subst h2
      unfold dictStep
      simp only [castStr, Option.bind_eq_bind, Option.bind_some, sequence, py, toList_ofList]
      exact handleSeqItem_ok hf hl hm hk h4 h5

theorem listStep_ok {s : Schema.Schema} {e : Str × Kind} {a : Obj} (hf : s.isFinal = false) (hl : e.1 ≠ [])
    (hm : ∀ x ∈ s.channels, ¬ Matches x.1 e.1) (hk : e.2.Ok) (h : ListEntry e a) :
    listStep s a = some (addChannel s e.1 e.2.channel) := by
  rcases h with h | h
  · obtain ⟨f, o, h1, h2, h3, h4, h5⟩ := h
    subst h1
    unfold listStep
    simp only [handleDictItemNoLabel]
    rw [h2]
    simp only [Option.bind_eq_bind, Option.bind_some, castStr]
    exact handleDictItem_ok hf hl hm hk ((get_del (by decide) f).trans h3) h4 (hasOptions_del h5 (by decide) (by decide))
  · obtain ⟨f, o, h2, h4, h5⟩ := h
    rcases h2 with h2 | h2
    all_goals
      subst h2
      unfold listStep
      simp only [Option.bind_eq_bind, Option.bind_some, sequence, py, toList_ofList]
      unfold handleSeqItemNoLabel
      simp only [List.length_cons, List.length_nil]
      rw [if_neg (by omega)]
      simp only [castStr, Option.bind_eq_bind, Option.bind_some]
      exact handleSeqItem_ok hf hl hm hk h4 h5

theorem not_matches {item l : Str} (hp : PlainLabel l) (h : item ≠ l) : ¬ Matches item l := by
  rintro ⟨_, h1 | ⟨r, h1 | h1⟩⟩
  · exact h h1.symm
  · exact hp.1 (by rw [h1]; simp)
  · exact hp.2 (by rw [h1]; simp)

theorem good_head {e : Str × Kind} {es : List (Str × Kind)} (h : GoodLabels (e :: es)) :
    e.1 ≠ [] ∧ PlainLabel e.1 ∧ GoodLabels es ∧ ∀ x ∈ es, e.1 ≠ x.1 := by
  obtain ⟨h1, h2, h3⟩ := h
  rw [List.map_cons, List.nodup_cons] at h1
  refine ⟨h2 e (by simp), h3 e (by simp), ⟨h1.2, fun x hx => h2 x (by simp [hx]), fun x hx => h3 x (by simp [hx])⟩, ?_⟩
  intro x hx e'
  exact h1.1 (by rw [e']; exact List.mem_map_of_mem hx)

/-- going through entries one after the other -/
theorem go_ok {α : Type} {R : Str × Kind → α → Prop} {step : Schema.Schema → α → Option Schema.Schema}
    {go : Schema.Schema → List α → Option Schema.Schema} (hnil : ∀ s, go s [] = some s)
    (hcons : ∀ s a l, go s (a :: l) = (step s a).bind fun s' => go s' l)
    (hstep : ∀ s e a, s.isFinal = false → e.1 ≠ [] → (∀ x ∈ s.channels, ¬ Matches x.1 e.1) → e.2.Ok → R e a →
      step s a = some (addChannel s e.1 e.2.channel)) :
    ∀ (es : List (Str × Kind)) (l : List α) (s : Schema.Schema), List.Forall₂ R es l → s.isFinal = false →
      GoodLabels es → (∀ e ∈ es, e.2.Ok) → (∀ x ∈ s.channels, ∀ e ∈ es, x.1 ≠ e.1) →
      go s l = some { s with channels := s.channels ++ es.map fun e => (e.1, e.2.channel) } := by
  intro es l s h
  induction h generalizing s with
  | nil => intro _ _ _ _; simp [hnil]
  | @cons e a es l h1 _ ih =>
    intro hf hg hk hm
    obtain ⟨g1, g2, g3, g4⟩ := good_head hg
    rw [hcons, hstep s e a hf g1 (fun x hx => not_matches g2 (hm x hx e (by simp))) (hk e (by simp)) h1, Option.bind_some]
    rw [ih (addChannel s e.1 e.2.channel) hf g3 (fun x hx => hk x (by simp [hx])) (by
      intro x hx y hy
      rcases List.mem_append.1 hx with hx | hx
      · exact hm x hx y (by simp [hy])
      · rw [List.mem_singleton] at hx; subst hx
        exact g4 y hy)]
    simp

theorem parse_describes {es : List (Str × Kind)} {data : Obj} (hg : GoodLabels es) (hk : ∀ e ∈ es, e.2.Ok)
    (h : Describes es data) :
    parseSchema data = some { channels := es.map fun e => (e.1, e.2.channel) } := by
  rcases h with ⟨d, rfl, h⟩ | ⟨l, hd, h⟩
  · rw [parseSchema, go_ok (fun _ => rfl) handleDictSchema_cons
      (fun s e a h1 h2 h3 h4 h5 => dictStep_ok h1 h2 h3 h4 h5) es d.toList {} h rfl hg hk (by simp)]
    simp
  · have := go_ok (go := handleSeqSchema) (fun _ => rfl) handleSeqSchema_cons
      (fun s e a h1 h2 h3 h4 h5 => listStep_ok h1 h2 h3 h4 h5) es l.toList {} h rfl hg hk (by simp)
    rcases hd with rfl | rfl
    all_goals
      simp only [parseSchema, sequence, Option.bind_eq_bind, Option.bind_some]
      rw [this]
      simp

/-! ## What is refused -/

theorem dictStep_type {s s' : Schema.Schema} {kv : Obj × Obj} (h : dictStep s kv = some s') :
    ∃ l t, kv.1 = .str l ∧ ((∃ f o, kv.2 = .dict f ∧ f.get "type".toList = some o ∧ NamesType t o) ∨
      ∃ o f, IsPair kv.2 o (.dict f) ∧ NamesType t o) := by
  obtain ⟨k, v⟩ := kv
  have seq : ∀ (x : List Obj) (l : Str), handleSeqItem s l x = some s' →
      ∃ o f t, x = [o, .dict f] ∧ NamesType t o := by
    intro x l h
    unfold handleSeqItem at h
    by_cases hl : x.length > 1
    · rw [if_neg (not_not.2 hl)] at h
      cases x with
      | nil => cases h
      | cons a x =>
        dsimp only at h
        cases ht : channelTypeOf a with
        | none => rw [ht] at h; cases h
        | some t =>
          rw [ht, Option.bind_eq_bind, Option.bind_some] at h
          cases x with
          | nil => simp at hl
          | cons b y =>
            cases y with
            | cons _ _ => cases b <;> cases h
            | nil =>
              cases b with
              | dict f => exact ⟨a, f, t, rfl, names_of_channelTypeOf ht⟩
              | _ => cases h
    · rw [if_pos hl] at h; cases h
  have str_none : ∀ x : Str, ∀ o : Obj, ∀ f : Fields, (x.map fun c => Obj.str [c]) ≠ [o, .dict f] := by
    intro x o f e
    match x, e with
    | [_, _], e => simp at e
    | [], e => simp at e
    | [_], e => simp at e
    | _ :: _ :: _ :: _, e => simp at e
  have label : ∀ {l : Str}, castStr k = some l → k = .str l := by
    intro l hl
    cases k <;> first | (simp only [castStr, Option.some.injEq] at hl; rw [hl]) | cases hl
  cases v with
  | dict f =>
    simp only [dictStep, Option.bind_eq_bind, Option.bind_eq_some_iff] at h
    obtain ⟨l, hl, h⟩ := h
    unfold handleDictItem at h
    simp only [Option.bind_eq_bind, Option.bind_eq_some_iff] at h
    obtain ⟨o, ho, t, ht, _⟩ := h
    exact ⟨l, t, label hl, .inl ⟨f, o, rfl, ho, names_of_channelTypeOf ht⟩⟩
  | list x =>
    simp only [dictStep, sequence, Option.bind_eq_bind, Option.bind_some, Option.bind_eq_some_iff] at h
    obtain ⟨l, hl, h⟩ := h
    obtain ⟨o, f, t, hx, ht⟩ := seq _ l h
    refine ⟨l, t, label hl, .inr ⟨o, f, .inl ?_, ht⟩⟩
    rw [py, ← hx, ofList_toList]
  | tuple x =>
    simp only [dictStep, sequence, Option.bind_eq_bind, Option.bind_some, Option.bind_eq_some_iff] at h
    obtain ⟨l, hl, h⟩ := h
    obtain ⟨o, f, t, hx, ht⟩ := seq _ l h
    refine ⟨l, t, label hl, .inr ⟨o, f, .inr ?_, ht⟩⟩
    rw [py, ← hx, ofList_toList]
  | str x =>
    simp only [dictStep, sequence, Option.bind_eq_bind, Option.bind_some, Option.bind_eq_some_iff] at h
    obtain ⟨l, hl, h⟩ := h
    obtain ⟨o, f, t, hx, ht⟩ := seq _ l h
    exact absurd hx (str_none x o f)
  | _ => simp [dictStep, sequence] at h
where
  ofList_toList : ∀ l : Objs, Objs.ofList l.toList = l
    | .nil => rfl
    | .cons a l => by rw [Objs.toList, Objs.ofList, ofList_toList l]

theorem handleDictSchema_types : ∀ (d : List (Obj × Obj)) (s s' : Schema.Schema), handleDictSchema s d = some s' →
    ∀ kv ∈ d, ∃ l t, kv.1 = .str l ∧ ((∃ f o, kv.2 = .dict f ∧ f.get "type".toList = some o ∧ NamesType t o) ∨
      ∃ o f, IsPair kv.2 o (.dict f) ∧ NamesType t o) := by
  intro d
  induction d with
  | nil => intro s s' _ kv hkv; simp at hkv
  | cons x d ih =>
    intro s s' h kv hkv
    rw [handleDictSchema_cons] at h
    obtain ⟨s1, h1, h2⟩ := Option.bind_eq_some_iff.1 h
    rcases List.mem_cons.1 hkv with rfl | hkv
    · exact dictStep_type h1
    · exact ih s1 s' h2 kv hkv

end RoughPy.Parse
