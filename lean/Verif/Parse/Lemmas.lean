import Verif.Parse.Spec

/-!
# Lemmas about reading tick data
-/

namespace RoughPy.Parse

open RoughPy.Schema (Str)

theorem toList_ofList (l : List Obj) : (Objs.ofList l).toList = l := by
  induction l with
  | nil => rfl
  | cons a l ih => simp [Objs.ofList, Objs.toList, ih]

theorem fields_toList_ofList (l : List (Obj × Obj)) : (Fields.ofList l).toList = l := by
  induction l with
  | nil => rfl
  | cons a l ih => obtain ⟨k, v⟩ := a; simp [Fields.ofList, Fields.toList, ih]

/-- the fields known when only the data is missing -/
abbrev cur3 (ts l t : Obj) : Cur → Prop := fun c =>
  c.lookup .timestamp = some ts ∧ c.lookup .label = some l ∧ c.lookup .type = some t ∧
    c.lookup .data = none ∧ (c.map (·.1)).Nodup

abbrev cur2 (ts l : Obj) : Cur → Prop := fun c =>
  c.lookup .timestamp = some ts ∧ c.lookup .label = some l ∧ c.lookup .type = none ∧
    c.lookup .data = none ∧ (c.map (·.1)).Nodup

abbrev cur1 (ts : Obj) : Cur → Prop := fun c =>
  c.lookup .timestamp = some ts ∧ c.lookup .label = none ∧ c.lookup .type = none ∧
    c.lookup .data = none ∧ (c.map (·.1)).Nodup

theorem lookup_none_iff (c : Cur) (f : Field) : c.lookup f = none ↔ f ∉ c.map (·.1) := by
  rw [List.lookup_eq_none_iff]
  simp only [List.mem_map, not_exists, not_and, beq_eq_false_iff_ne, ne_eq]
  constructor
  · intro h x hx e
    have := h x hx
    simp_all
  · intro h x hx
    have := h x hx
    rw [bne_iff_ne]
    exact fun e => this e.symm

theorem lookup_append (c : Cur) (f g : Field) (v : Obj) :
    (c ++ [(g, v)]).lookup f = (c.lookup f).or (if f = g then some v else none) := by
  rw [List.lookup_append]
  by_cases h : f = g
  · subst h; simp
  · simp [List.lookup, h]
    have : (f == g) = false := by simpa using h
    simp [this]

theorem nodup_append {c : Cur} {f : Field} {v : Obj} (h : (c.map (·.1)).Nodup) (hf : c.lookup f = none) :
    ((c ++ [(f, v)]).map (·.1)).Nodup := by
  rw [lookup_none_iff] at hf
  rw [List.map_append, List.nodup_append]
  refine ⟨h, by simp, ?_⟩
  intro a ha b hb e
  simp at hb
  rw [e, hb] at ha
  exact hf ha

theorem nodup_cons {c : Cur} {f : Field} {v : Obj} (h : (c.map (·.1)).Nodup) (hf : c.lookup f = none) :
    (((f, v) :: c).map (·.1)).Nodup := by
  rw [lookup_none_iff] at hf
  exact List.nodup_cons.2 ⟨hf, h⟩

theorem cur1_cons (ts : Obj) : cur1 ts [(.timestamp, ts)] := by
  refine ⟨rfl, rfl, rfl, rfl, ?_⟩; simp

theorem cur2_append {ts l : Obj} {c : Cur} (h : cur1 ts c) : cur2 ts l (c ++ [(.label, l)]) := by
  obtain ⟨h1, h2, h3, h4, h5⟩ := h
  refine ⟨?_, ?_, ?_, ?_, nodup_append h5 h2⟩ <;> rw [lookup_append] <;> simp [*]

theorem cur2_cons {ts l : Obj} {c : Cur} (h : cur1 ts c) : cur2 ts l ((.label, l) :: c) := by
  obtain ⟨h1, h2, h3, h4, h5⟩ := h
  exact ⟨h1, rfl, h3, h4, nodup_cons h5 h2⟩

theorem cur3_append {ts l t : Obj} {c : Cur} (h : cur2 ts l c) : cur3 ts l t (c ++ [(.type, t)]) := by
  obtain ⟨h1, h2, h3, h4, h5⟩ := h
  refine ⟨?_, ?_, ?_, ?_, nodup_append h5 h3⟩ <;> rw [lookup_append] <;> simp [*]

theorem cur3_cons {ts l t : Obj} {c : Cur} (h : cur2 ts l c) : cur3 ts l t ((.type, t) :: c) := by
  obtain ⟨h1, h2, h3, h4, h5⟩ := h
  exact ⟨h1, h2, rfl, h4, nodup_cons h5 h3⟩

theorem makeItem_data {ts l t d : Obj} {c : Cur} (h : cur3 ts l t c) :
    makeItem (c ++ [(.data, d)]) = some ⟨ts, l, t, d⟩ := by
  obtain ⟨h1, h2, h3, h4, h5⟩ := h
  unfold makeItem
  rw [if_pos (nodup_append h5 h4)]
  simp only [lookup_append, h1, h2, h3, h4]
  rfl

theorem append_two (c : Cur) (x y : Field × Obj) : c ++ [x, y] = (c ++ [x]) ++ [y] := by simp
theorem append_three (c : Cur) (x y z : Field × Obj) : c ++ [x, y, z] = ((c ++ [x]) ++ [y]) ++ [z] := by simp

theorem makeItem_type {ts l t d : Obj} {c : Cur} (h : cur2 ts l c) :
    makeItem (c ++ [(.type, t), (.data, d)]) = some ⟨ts, l, t, d⟩ := by
  rw [append_two]; exact makeItem_data (cur3_append h)

theorem makeItem_label {ts l t d : Obj} {c : Cur} (h : cur1 ts c) :
    makeItem (c ++ [(.label, l), (.type, t), (.data, d)]) = some ⟨ts, l, t, d⟩ := by
  rw [append_three]; exact makeItem_data (cur3_append (cur2_append h))

/-! ## dicts with all names -/

theorem allFields_none {f : Fields} : ∀ {fs : List Field}, allFields f fs = none ↔ ∃ x ∈ fs, f.get x.name = none := by
  intro fs
  induction fs with
  | nil => simp [allFields]
  | cons x fs ih =>
    rw [allFields]
    cases h : f.get x.name with
    | none => simp [h]
    | some v =>
      cases h2 : allFields f fs with
      | none => simpa [h, h2] using ih.1 h2
      | some w =>
        have : ¬ ∃ x ∈ fs, f.get x.name = none := by rw [← ih, h2]; simp
        simpa [h, h2] using this

theorem allFields_cons {f : Fields} {x : Field} {v : Obj} {fs : List Field} {w : Cur} (h : f.get x.name = some v)
    (h2 : allFields f fs = some w) : allFields f (x :: fs) = some ((x, v) :: w) := by
  rw [allFields, h, h2]; rfl

theorem allFields_nil (f : Fields) : allFields f [] = some [] := by rw [allFields]

theorem visit_dict_some {d : Fields} {labels : List Field} {cur fs : Cur} (h : allFields d labels = some fs) :
    visit (.dict d) labels cur = (makeItem (cur ++ fs)).map fun i => [i] := by
  cases labels with
  | nil => rw [visit, h]
  | cons f labels => cases f <;> (rw [visit, h]; try simp)

theorem visit_dict_none {d : Fields} {f : Field} {labels : List Field} {cur : Cur}
    (h : allFields d (f :: labels) = none) (hf : f ≠ .data) :
    visit (.dict d) (f :: labels) cur = visitFields d f labels cur := by
  cases f <;> first | exact absurd rfl hf | (rw [visit, h]; try simp)

theorem visit_data {ts l t o d : Obj} {c : Cur} (hc : cur3 ts l t c) (h : IsData o d) :
    visit o [.data] c = some [⟨ts, l, t, d⟩] := by
  have any : ∀ x, handleAny x [.data] c = some [⟨ts, l, t, x⟩] := by
    intro x
    simp [handleAny, makeItem_data hc]
  cases h with
  | bool => rw [visit]; exact any _
  | num => rw [visit]; exact any _
  | str => rw [visit]; exact any _
  | chan => rw [visit]; exact any _
  | other => rw [visit]; exact any _
  | list x => rw [visit, makeItem_data hc]; rfl
  | dict f hf =>
    have : allFields f [.data] = none := allFields_none.2 ⟨.data, by simp, hf⟩
    rw [visit, this]
    simp only [makeItem_data hc]; rfl
  | record f _ hf =>
    rw [visit_dict_some (allFields_cons (x := .data) hf (allFields_nil f)), makeItem_data hc]; rfl
  | tuple =>
    rw [visit]
    simp only [py, Objs.ofList, visitTuple, Objs.toList, List.length_nil, List.length_cons, if_true, List.zip_cons_cons, List.zip_nil_right, makeItem_data hc]
    rfl

theorem not_hasKeys {f : Fields} {fs : List Field} {names : List String} (h : ¬ HasKeys f names)
    (hn : names.map String.toList = fs.map Field.name) : allFields f fs = none := by
  rw [allFields_none]
  unfold HasKeys at h
  push Not at h
  obtain ⟨n, hn1, hn2⟩ := h
  have : n.toList ∈ fs.map Field.name := by rw [← hn]; exact List.mem_map_of_mem hn1
  obtain ⟨x, hx, he⟩ := List.mem_map.1 this
  exact ⟨x, hx, by rw [he]; exact hn2⟩

theorem visit_list {l : Objs} {f : Field} {fs : List Field} {c : Cur} (hf : f ≠ .data) :
    visit (.list l) (f :: fs) c = visitAll l (f :: fs) c := by
  cases f with
  | data => exact absurd rfl hf
  | timestamp => rw [visit] <;> (intros; simp_all)
  | label => rw [visit] <;> (intros; simp_all)
  | type => rw [visit] <;> (intros; simp_all)

theorem visitFields_data {ts l : Obj} {c : Cur} (hc : cur2 ts l c) : ∀ (f : Fields) (ds : List Obj),
    List.Forall₂ (fun kv d => IsData kv.2 d) f.toList ds →
    visitFields f .type [.data] c =
      some ((List.zipWith (fun kv d => (kv.1, d)) f.toList ds).map fun x => ⟨ts, l, x.1, x.2⟩) := by
  intro f ds
  induction ds generalizing f with
  | nil =>
    intro h
    cases f with
    | nil => rfl
    | cons k v f => rw [Fields.toList] at h; cases h
  | cons d ds ih =>
    intro h
    cases f with
    | nil => rw [Fields.toList] at h; cases h
    | cons k v f =>
      rw [Fields.toList] at h
      cases h with
      | cons h1 h2 =>
        rw [visitFields, visit_data (cur3_cons hc) h1, ih f h2]
        rfl

theorem visit_type {ts l o : Obj} {xs : List (Obj × Obj)} {c : Cur} (hc : cur2 ts l c) (h : TypeData o xs) :
    visit o [.type, .data] c = some (xs.map fun x => ⟨ts, l, x.1, x.2⟩) := by
  induction h with
  | bool => rw [visit]; simp [handleAny, makeItem_type hc]
  | num => rw [visit]; simp [handleAny, makeItem_type hc]
  | str => rw [visit]; simp [handleAny, makeItem_type hc]
  | tuple t d => rw [visit]; simp [py, Objs.ofList, visitTuple, Objs.toList, makeItem_type hc]
  | record f t d ht hd =>
    rw [visit_dict_some (allFields_cons (x := .type) ht (allFields_cons (x := .data) hd (allFields_nil f)))]
    simp [makeItem_type hc]
  | dict f ds hf h =>
    rw [visit_dict_none (not_hasKeys (fs := [.type, .data]) hf rfl) (by simp)]
    exact visitFields_data hc f ds h
  | nil => rfl
  | cons a l xs ys _ _ ih1 ih2 =>
    rw [visit_list (by simp)] at ih2 ⊢
    rw [visitAll, ih1, ih2]
    simp

theorem visitFields_type {ts : Obj} {c : Cur} (hc : cur1 ts c) : ∀ (f : Fields) (xss : List (List (Obj × Obj))),
    List.Forall₂ (fun kv xs => TypeData kv.2 xs) f.toList xss →
    visitFields f .label [.type, .data] c =
      some ((List.zipWith (fun kv xs => xs.map fun x => (kv.1, x)) f.toList xss).flatten.map
        fun x => ⟨ts, x.1, x.2.1, x.2.2⟩) := by
  intro f ds
  induction ds generalizing f with
  | nil =>
    intro h
    cases f with
    | nil => rfl
    | cons k v f => rw [Fields.toList] at h; cases h
  | cons d ds ih =>
    intro h
    cases f with
    | nil => rw [Fields.toList] at h; cases h
    | cons k v f =>
      rw [Fields.toList] at h
      cases h with
      | cons h1 h2 =>
        rw [visitFields, visit_type (cur2_cons hc) h1, ih f h2]
        simp [Fields.toList, Function.comp_def]

theorem visit_label {ts o : Obj} {xs : List (Obj × Obj × Obj)} {c : Cur} (hc : cur1 ts c) (h : LabelData o xs) :
    visit o [.label, .type, .data] c = some (xs.map fun x => ⟨ts, x.1, x.2.1, x.2.2⟩) := by
  induction h with
  | tuple l t d => rw [visit]; simp [py, Objs.ofList, visitTuple, Objs.toList, makeItem_label hc]
  | record f l t d hl ht hd =>
    rw [visit_dict_some (allFields_cons (x := .label) hl (allFields_cons (x := .type) ht (allFields_cons (x := .data) hd (allFields_nil f))))]
    simp [makeItem_label hc]
  | pair l o xs h =>
    rw [visit]
    simp [py, Objs.ofList, visitTuple, Objs.toList, visit_type (cur2_append hc) h]
  | dict f ds hf h =>
    rw [visit_dict_none (not_hasKeys (fs := [.label, .type, .data]) hf rfl) (by simp)]
    exact visitFields_type hc f ds h
  | nil => rfl
  | cons a l xs ys _ _ ih1 ih2 =>
    rw [visit_list (by simp)] at ih2 ⊢
    rw [visitAll, ih1, ih2]
    simp

theorem visitFields_label : ∀ (f : Fields) (xss : List (List (Obj × Obj × Obj))),
    List.Forall₂ (fun kv xs => LabelData kv.2 xs) f.toList xss →
    visitFields f .timestamp [.label, .type, .data] [] =
      some ((List.zipWith (fun kv xs => xs.map fun x => (kv.1, x)) f.toList xss).flatten.map
        fun x => ⟨x.1, x.2.1, x.2.2.1, x.2.2.2⟩) := by
  intro f ds
  induction ds generalizing f with
  | nil =>
    intro h
    cases f with
    | nil => rfl
    | cons k v f => rw [Fields.toList] at h; cases h
  | cons d ds ih =>
    intro h
    cases f with
    | nil => rw [Fields.toList] at h; cases h
    | cons k v f =>
      rw [Fields.toList] at h
      cases h with
      | cons h1 h2 =>
        rw [visitFields, visit_label (cur1_cons k) h1, ih f h2]
        simp [Fields.toList, Function.comp_def]

theorem items_of_ticks {o : Obj} {xs : List (Obj × Obj × Obj × Obj)} (h : Ticks o xs) :
    items o = some (xs.map fun x => ⟨x.1, x.2.1, x.2.2.1, x.2.2.2⟩) := by
  unfold items
  induction h with
  | tuple ts l t d =>
    rw [visit]
    simp only [py, Objs.ofList, visitTuple, Objs.toList]
    rfl
  | record f ts l t d hts hl ht hd =>
    rw [visit_dict_some (allFields_cons (x := .timestamp) hts (allFields_cons (x := .label) hl (allFields_cons (x := .type) ht (allFields_cons (x := .data) hd (allFields_nil f)))))]
    rfl
  | pair ts o xs h =>
    rw [visit]
    simp [py, Objs.ofList, visitTuple, Objs.toList, visit_label (cur1_cons ts) h]
  | triple ts l o xs h =>
    rw [visit]
    have := visit_type (cur2_append (l := l) (cur1_cons ts)) h
    simp only [List.cons_append, List.nil_append] at this
    simp [py, Objs.ofList, visitTuple, Objs.toList, this]
  | dict f ds hf h =>
    rw [visit_dict_none (not_hasKeys (fs := [.timestamp, .label, .type, .data]) hf rfl) (by simp)]
    exact visitFields_label f ds h
  | nil => rfl
  | cons a l xs ys _ _ ih1 ih2 =>
    rw [visit_list (by simp)] at ih2 ⊢
    rw [visitAll, ih1, ih2]
    simp

end RoughPy.Parse
