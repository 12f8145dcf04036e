import Verif.Ticks.Spec
import Mathlib.Data.List.Nodup

/-!
# Lemmas about recording ticks
-/

namespace RoughPy.Ticks

open RoughPy.Schema (Str Channel PlainLabel Matches)

/-! ## order of first appearance -/

theorem mem_firsts {α : Type} [DecidableEq α] {l : List α} {a : α} : a ∈ firsts l ↔ a ∈ l := by
  induction l with
  | nil => simp [firsts]
  | cons b l ih =>
    simp only [firsts, List.mem_cons, List.mem_filter, ih, ne_eq, decide_not, Bool.not_eq_true', decide_eq_false_iff_not]
    by_cases h : a = b <;> simp [h]

theorem nodup_firsts {α : Type} [DecidableEq α] (l : List α) : (firsts l).Nodup := by
  induction l with
  | nil => simp [firsts]
  | cons b l ih => simp only [firsts, List.nodup_cons, List.mem_filter]; exact ⟨by simp, ih.filter _⟩

theorem firsts_snoc {α : Type} [DecidableEq α] (l : List α) (a : α) :
    firsts (l ++ [a]) = if a ∈ l then firsts l else firsts l ++ [a] := by
  induction l with
  | nil => simp [firsts]
  | cons b l ih =>
    simp only [List.cons_append, firsts, ih, List.mem_cons]
    by_cases h : a ∈ l
    · simp [h]
    · simp only [h, if_false, or_false]
      by_cases hab : a = b
      · subst hab; simp
      · simp [hab]

/-! ## channels -/

theorem set_map {α β : Type} [DecidableEq α] {L : List α} (hL : L.Nodup) {f : α → β} {i : ℕ} {l : α}
    (hi : L[i]? = some l) (b : β) : (L.map f).set i b = L.map fun x => if x = l then b else f x := by
  apply List.ext_getElem?
  intro j
  rw [List.getElem?_set, List.getElem?_map]
  by_cases hij : i = j
  · subst hij
    have hlt : i < L.length := by
      by_contra h
      rw [List.getElem?_eq_none (by omega)] at hi
      cases hi
    rw [if_pos rfl, if_pos (by simpa using hlt), List.getElem?_map, hi]
    simp
  · rw [if_neg hij, List.getElem?_map]
    cases hj : L[j]? with
    | none => rfl
    | some x =>
      have : x ≠ l := by
        intro e
        subst e
        obtain ⟨h1, h1'⟩ := List.getElem?_eq_some_iff.1 hi
        obtain ⟨h2, h2'⟩ := List.getElem?_eq_some_iff.1 hj
        exact hij ((List.Nodup.getElem_inj_iff hL).1 (h1'.trans h2'.symm))
      simp [this]

theorem matches_plain {item l : Str} (hp : PlainLabel l) : Matches item l → item = l := by
  rintro ⟨_, h1 | ⟨r, h1 | h1⟩⟩
  · exact h1.symm
  · exact absurd (by rw [h1]; simp) hp.1
  · exact absurd (by rw [h1]; simp) hp.2

theorem find_mem {s : Schema.Schema} {L : List Str} {f : Str → Channel} (hc : s.channels = L.map fun x => (x, f x))
    (hL : L.Nodup) {l : Str} (hl : l ≠ []) (hp : PlainLabel l) (hm : l ∈ L) :
    ∃ i, s.find l = some i ∧ L[i]? = some l ∧ s.channels[i]? = some (l, f l) := by
  obtain ⟨i, hi, he⟩ := List.getElem_of_mem hm
  have hi' : L[i]? = some l := by rw [List.getElem?_eq_getElem hi, he]
  refine ⟨i, ?_, hi', by rw [hc, List.getElem?_map, hi']; rfl⟩
  rw [Schema.find_iff]
  refine ⟨(l, f l), by rw [hc, List.getElem?_map, hi']; rfl, Schema.Matches.refl hl, ?_⟩
  intro j hj c' hc' hm'
  rw [hc, List.getElem?_map] at hc'
  cases hx : L[j]? with
  | none => rw [hx] at hc'; cases hc'
  | some x =>
    rw [hx] at hc'
    simp only [Option.map_some, Option.some.injEq] at hc'
    subst hc'
    have := matches_plain hp hm'
    dsimp only at this
    subst this
    obtain ⟨h1, h1'⟩ := List.getElem?_eq_some_iff.1 hx
    have := (List.Nodup.getElem_inj_iff hL).1 (h1'.trans he.symm)
    omega

theorem find_not_mem {s : Schema.Schema} {L : List Str} {f : Str → Channel} (hc : s.channels = L.map fun x => (x, f x))
    {l : Str} (hp : PlainLabel l) (hm : l ∉ L) : s.find l = none := by
  rw [Schema.find_none]
  intro c hcm hmt
  rw [hc, List.mem_map] at hcm
  obtain ⟨x, hx, rfl⟩ := hcm
  have := matches_plain hp hmt
  dsimp only at this
  subst this
  exact hm hx

theorem insert_mem {s : Schema.Schema} {L : List Str} {f : Str → Channel} (hc : s.channels = L.map fun x => (x, f x))
    (hf : s.isFinal = false) (hL : L.Nodup) {l : Str} (hl : l ≠ []) (hp : PlainLabel l) (hm : l ∈ L) (c : Channel) :
    ∃ i, s.insert l c = some (s, i) ∧ L[i]? = some l ∧ s.channels[i]? = some (l, f l) := by
  obtain ⟨i, h1, h2, h3⟩ := find_mem hc hL hl hp hm
  refine ⟨i, ?_, h2, h3⟩
  unfold Schema.Schema.insert
  rw [hf, if_neg (by simp), if_neg hl]
  dsimp only
  rw [h1]

theorem insert_not_mem {s : Schema.Schema} {L : List Str} {f : Str → Channel} (hc : s.channels = L.map fun x => (x, f x))
    (hf : s.isFinal = false) {l : Str} (hl : l ≠ []) (hp : PlainLabel l) (hm : l ∉ L) (c : Channel) :
    s.insert l c = some ({ s with channels := s.channels ++ [(l, c)] }, s.channels.length) := by
  unfold Schema.Schema.insert
  rw [hf, if_neg (by simp), if_neg hl]
  dsimp only
  rw [find_not_mem hc hp hm]

/-! ## what the spec says about one more tick -/

theorem channelFor_snoc_ne {es : List Entry} {e : Entry} {l : Str} (h : e.label ≠ l) :
    channelFor (es ++ [e]) l = channelFor es l := by
  unfold channelFor
  have h1 : (es ++ [e]).find? (fun e => e.label = l) = es.find? (fun e => e.label = l) := by
    rw [List.find?_append]
    simp [h]
  have h2 : (es ++ [e]).filterMap (variantOf l) = es.filterMap (variantOf l) := by
    rw [List.filterMap_append]
    simp [variantOf, h]
  rw [h1, h2]

theorem find_label {es : List Entry} {l : Str} (h : l ∈ es.map (·.label)) : ∃ e', es.find? (fun e => e.label = l) = some e' := by
  rw [← Option.isSome_iff_exists, List.find?_isSome]
  obtain ⟨x, hx, he⟩ := List.mem_map.1 h
  exact ⟨x, hx, by simpa using he⟩

/-- the channel of a label that is known already -/
theorem channelFor_snoc_eq {es : List Entry} {e : Entry} (h : e.label ∈ es.map (·.label)) (hv : e.data ≠ .str []) :
    channelFor (es ++ [e]) e.label = match variantOf e.label e with
      | some v => (channelFor es e.label).insertVariant v
      | none => channelFor es e.label := by
  obtain ⟨e', he'⟩ := find_label h
  have h1 : (es ++ [e]).find? (fun x => x.label = e.label) = some e' := by
    rw [List.find?_append, he']; rfl
  unfold channelFor
  rw [h1, he', List.filterMap_append]
  cases hv' : variantOf e.label e with
  | none =>
    rw [List.filterMap_cons_none hv', List.filterMap_nil, List.append_nil]
  | some v =>
    have hne : v ≠ [] := by
      rintro rfl
      unfold variantOf at hv'
      split at hv'
      · split at hv'
        · rename_i hd
          simp only [Option.some.injEq] at hv'
          rw [hv'] at hd
          exact hv hd
        · cases hv'
      · cases hv'
    rw [List.filterMap_cons_some hv', List.filterMap_nil, firsts_snoc]
    rw [Option.map_some]
    cases e'.type with
    | increment => rfl
    | value => rfl
    | categorical =>
      simp only [Channel.insertVariant, if_neg hne]
      by_cases hm : v ∈ es.filterMap (variantOf e.label)
      · rw [if_pos hm, if_pos (mem_firsts.2 hm)]
      · rw [if_neg hm, if_neg (fun x => hm (mem_firsts.1 x))]

/-- the channel of a new label -/
theorem channelFor_snoc_new {es : List Entry} {e : Entry} (h : e.label ∉ es.map (·.label)) :
    channelFor (es ++ [e]) e.label = match e.type with
      | .increment => .increment false
      | .value => .value false
      | .categorical => .categorical (match variantOf e.label e with | some v => [v] | none => []) := by
  have h0 : es.find? (fun x => x.label = e.label) = none := by
    rw [List.find?_eq_none]
    intro x hx hd
    exact h (List.mem_map.2 ⟨x, hx, by simpa using hd⟩)
  have h1 : (es ++ [e]).find? (fun x => x.label = e.label) = some e := by
    rw [List.find?_append, h0]; simp
  have h2 : es.filterMap (variantOf e.label) = [] := by
    rw [List.filterMap_eq_nil_iff]
    intro x hx
    unfold variantOf
    rw [if_neg]
    rintro ⟨hl, _⟩
    exact h (List.mem_map.2 ⟨x, hx, hl⟩)
  unfold channelFor
  rw [h1, List.filterMap_append, h2]
  cases ht : e.type with
  | increment => simp [ht]
  | value => simp [ht]
  | categorical =>
    simp only [Option.map_some, ht, List.nil_append]
    cases hv : variantOf e.label e with
    | none => rw [List.filterMap_cons_none hv]; rfl
    | some v => rw [List.filterMap_cons_some hv]; rfl

/-- one more tick -/
theorem inferred_snoc (es : List Entry) (e : Entry) :
    inferred (es ++ [e]) = if e.label ∈ es.map (·.label) then
      (firsts (es.map (·.label))).map fun l => (l, if l = e.label then channelFor (es ++ [e]) e.label else channelFor es l)
      else inferred es ++ [(e.label, channelFor (es ++ [e]) e.label)] := by
  unfold inferred
  rw [List.map_append, List.map_cons, List.map_nil, firsts_snoc]
  by_cases h : e.label ∈ es.map (·.label)
  · rw [if_pos h, if_pos h]
    apply List.map_congr_left
    intro l hl
    by_cases hle : l = e.label
    · rw [if_pos hle, hle]
    · rw [if_neg hle, channelFor_snoc_ne (fun x => hle x.symm)]
  · rw [if_neg h, if_neg h, List.map_append]
    congr 1
    apply List.map_congr_left
    intro l hl
    rw [channelFor_snoc_ne]
    rintro rfl
    exact h (mem_firsts.1 hl)

theorem addToSchema_inferred {s s' : Schema.Schema} {es : List Entry} {e : Entry} (hs : s.channels = inferred es)
    (hf : s.isFinal = false) (hl : e.label ≠ []) (hp : PlainLabel e.label) (hv : e.data ≠ .str [])
    (h : addToSchema s e = some s') : s'.channels = inferred (es ++ [e]) ∧ s'.isFinal = false := by
  rw [inferred_snoc]
  have hL := nodup_firsts (es.map (·.label))
  by_cases hm : e.label ∈ es.map (·.label)
  · rw [if_pos hm, channelFor_snoc_eq hm hv]
    have hm' := mem_firsts.2 hm
    have same : (firsts (es.map (·.label))).map (fun l => (l, if l = e.label then channelFor es e.label else channelFor es l)) =
        inferred es := by
      apply List.map_congr_left
      intro l _
      by_cases hle : l = e.label
      · simp [hle]
      · simp [hle]
    cases ht : e.type with
    | increment =>
      obtain ⟨i, h1, _, _⟩ := insert_mem hs hf hL hl hp hm' (.increment false)
      simp only [addToSchema, ht, h1, Option.map_some, Option.some.injEq] at h
      subst h
      have : variantOf e.label e = none := by simp [variantOf, ht]
      rw [this]
      exact ⟨hs.trans same.symm, hf⟩
    | value =>
      obtain ⟨i, h1, _, _⟩ := insert_mem hs hf hL hl hp hm' (.value false)
      simp only [addToSchema, ht, h1, Option.map_some, Option.some.injEq] at h
      subst h
      have : variantOf e.label e = none := by simp [variantOf, ht]
      rw [this]
      exact ⟨hs.trans same.symm, hf⟩
    | categorical =>
      obtain ⟨i, h1, h2, h3⟩ := insert_mem hs hf hL hl hp hm' (.categorical [])
      simp only [addToSchema, ht, h1] at h
      cases hd : e.data with
      | none =>
        rw [hd] at h
        simp only [Option.some.injEq] at h
        subst h
        have : variantOf e.label e = none := by simp [variantOf, ht, hd]
        rw [this]
        exact ⟨hs.trans same.symm, hf⟩
      | num q => rw [hd] at h; cases h
      | other q => rw [hd] at h; cases h
      | str v =>
        rw [hd] at h
        unfold Schema.Schema.modify at h
        rw [h3] at h
        simp only [Option.some.injEq] at h
        subst h
        have : variantOf e.label e = some v := by simp [variantOf, ht, hd]
        rw [this]
        refine ⟨?_, hf⟩
        dsimp only
        rw [hs, inferred, set_map hL h2]
        apply List.map_congr_left
        intro l _
        by_cases hle : l = e.label
        · simp [hle]
        · simp [hle]
  · rw [if_neg hm, channelFor_snoc_new hm]
    have hm' : e.label ∉ firsts (es.map (·.label)) := fun x => hm (mem_firsts.1 x)
    cases ht : e.type with
    | increment =>
      simp only [addToSchema, ht, insert_not_mem hs hf hl hp hm', Option.map_some, Option.some.injEq] at h
      subst h
      exact ⟨by dsimp only; rw [hs], hf⟩
    | value =>
      simp only [addToSchema, ht, insert_not_mem hs hf hl hp hm', Option.map_some, Option.some.injEq] at h
      subst h
      exact ⟨by dsimp only; rw [hs], hf⟩
    | categorical =>
      simp only [addToSchema, ht, insert_not_mem hs hf hl hp hm'] at h
      cases hd : e.data with
      | none =>
        rw [hd] at h
        simp only [Option.some.injEq] at h
        subst h
        have : variantOf e.label e = none := by simp [variantOf, ht, hd]
        rw [this]
        exact ⟨by dsimp only; rw [hs], hf⟩
      | num q => rw [hd] at h; cases h
      | other q => rw [hd] at h; cases h
      | str v =>
        rw [hd] at h
        unfold Schema.Schema.modify at h
        have hne : v ≠ [] := by rintro rfl; exact hv hd
        simp only [List.getElem?_concat_length, Option.some.injEq, Channel.insertVariant, if_neg hne, List.not_mem_nil,
          if_false, List.nil_append] at h
        subst h
        have : variantOf e.label e = some v := by simp [variantOf, ht, hd]
        rw [this]
        refine ⟨?_, hf⟩
        dsimp only
        rw [hs]
        simp

end RoughPy.Ticks
