import Verif.Schema.LabelLemmas

set_option linter.unusedSectionVars false

/-!
# Properties of schemas and tick data (C43, C44, C45, C60–C64)

The vocabulary (`Matches`, `PlainLabel`, `PlainLabels`) and `before`, the number of stream
dimensions taken by the channels before a given one, are defined in `Verif.Schema.Lemmas` and
`Verif.Schema.LabelLemmas`.
-/

namespace RoughPy.Schema

/-- An example schema: an increment channel `x`, a lead-lag value channel `y`, a categorical
channel `z` with variants `p`, `q`. -/
def exampleSchema : Schema where
  channels := [("x".toList, .increment false), ("y".toList, .value true),
    ("z".toList, .categorical ["p".toList, "q".toList])]

theorem exampleSchema_reachable : Reachable exampleSchema := by
  have h := Reachable.insertVariant 2 "q".toList (Reachable.insertVariant 2 "p".toList
    (Reachable.insert "z".toList (.categorical []) (Or.inr (Or.inr (Or.inl rfl)))
    (Reachable.setLeadLag 1 true (Reachable.insert "y".toList (.value false) (Or.inr (Or.inl rfl))
    (Reachable.insert "x".toList (.increment false) (Or.inl rfl) Reachable.empty)))))
  have e : exampleSchema = ((((((({} : Schema).step (.insert "x".toList (.increment false))).step
      (.insert "y".toList (.value false))).step (.setLeadLag 1 true)).step
      (.insert "z".toList (.categorical []))).step (.insertVariant 2 "p".toList)).step
      (.insertVariant 2 "q".toList)) := by decide +kernel
  rw [e]
  exact h

/-! ## C43 -/

/-- C43: the width is the total number of variants, plus one if the time is a channel. -/
theorem C43_width (s : Schema) :
    s.width = (s.channels.map fun c => c.2.numVariants).sum + if s.needsAdding then 1 else 0 := by
  unfold Schema.width
  rw [widthWithoutParam_eq]
  split <;> rfl

/-- C43: for every schema the two maps are inverse to each other (an exception of one corresponds
to no value of the other). -/
theorem C43_bijection (s : Schema) (dim i v : ℕ) :
    s.streamDimToChannel dim = some (i, v) ↔ s.channelVariantToStreamDim i v = some dim := by
  rw [channelVariant_iff]
  unfold Schema.streamDimToChannel
  rw [dimLoop_iff]
  constructor
  · rintro ⟨j, c, h1, h2, h3, h4⟩
    obtain rfl : i = j := by omega
    exact ⟨c, h2, h3, h4⟩
  · rintro ⟨c, h2, h3, h4⟩
    exact ⟨i, c, by omega, h2, h3, h4⟩

/-- C43: the domains: every dimension below the total number of variants has a channel, and no
other; every variant of every channel has a dimension, and nothing else. -/
theorem C43_domains (s : Schema) :
    (∀ dim, (s.streamDimToChannel dim).isSome ↔ dim < (s.channels.map fun c => c.2.numVariants).sum) ∧
    ∀ i v, (s.channelVariantToStreamDim i v).isSome ↔ ∃ c, s.channels[i]? = some c ∧ v < c.2.numVariants := by
  constructor
  · intro dim
    constructor
    · intro h
      obtain ⟨⟨i, v⟩, h⟩ := Option.isSome_iff_exists.1 h
      rw [C43_bijection, channelVariant_iff] at h
      obtain ⟨c, h1, h2, h3⟩ := h
      have h4 := before_succ h1
      have h5 := before_le_total s.channels (i + 1)
      omega
    · intro h
      obtain ⟨p, hp⟩ := dimLoop_isSome s.channels 0 dim h
      unfold Schema.streamDimToChannel
      rw [hp]
      rfl
  · intro i v
    rw [Option.isSome_iff_exists]
    constructor
    · rintro ⟨d, h⟩
      rw [channelVariant_iff] at h
      obtain ⟨c, h1, h2, _⟩ := h
      exact ⟨c, h1, h2⟩
    · rintro ⟨c, h1, h2⟩
      exact ⟨_, (channelVariant_iff _ _ _ _).2 ⟨c, h1, h2, rfl⟩⟩

/-- C43: the dimensions are laid out channel after channel, variant after variant. -/
theorem C43_layout (s : Schema) (i v : ℕ) (c : Str × Channel) (hc : s.channels[i]? = some c)
    (hv : v < c.2.numVariants) : s.channelVariantToStreamDim i v =
      some (((s.channels.take i).map fun c => c.2.numVariants).sum + v) :=
  (channelVariant_iff _ _ _ _).2 ⟨c, hc, hv, rfl⟩

example : (List.range 6).map exampleSchema.streamDimToChannel =
    [some (0, 0), some (1, 0), some (1, 1), some (2, 0), some (2, 1), none] := by decide +kernel

/-! ## C44 -/

/-- C44: `find` returns the first channel whose label is the argument, or is followed in it by `:`
(or NUL). -/
theorem C44_find (s : Schema) (l : Str) (i : ℕ) : s.find l = some i ↔
    ∃ c, s.channels[i]? = some c ∧ Matches c.1 l ∧
      ∀ j < i, ∀ c', s.channels[j]? = some c' → ¬ Matches c'.1 l := find_iff s l i

/-- C44: no operation on a schema changes a successful lookup. -/
theorem C44_lookup_stable (s : Schema) (op : Op) (l : Str) (i : ℕ) (h : s.find l = some i) :
    (s.step op).find l = some i := (step_extends s op).find h

/-- C44: in every schema that can be reached, labels are not empty and no label occurs twice; more
strongly, no label matches a later one. -/
theorem C44_no_duplicates (s : Schema) (h : Reachable s) :
    (s.channels.map Prod.fst).Nodup ∧ (∀ c ∈ s.channels, c.1 ≠ []) ∧
    ∀ (i j : ℕ) (c d : Str × Channel), i < j → s.channels[i]? = some c → s.channels[j]? = some d →
      ¬ Matches c.1 d.1 := by
  have hs := h.inv
  refine ⟨?_, hs.nonempty, fun i j c d hij hc hd => ?_⟩
  · unfold List.Nodup
    rw [List.pairwise_map]
    refine hs.noMatch.imp_of_mem fun {a b} ha _ hab he => hab ?_
    rw [← he]
    exact Matches.refl (hs.nonempty a ha)
  · rw [List.getElem?_eq_some_iff] at hc hd
    obtain ⟨h1, rfl⟩ := hc
    obtain ⟨h2, rfl⟩ := hd
    exact (List.pairwise_iff_getElem.1 hs.noMatch) i j h1 h2 hij

/-- C44, the part that holds: inserting a label without `:` and NUL gives a channel with this
label, found by it; if the label was there already nothing changes, otherwise the new channel is
the last.
Missing: labels with a colon (`C44_insert_refuted`). -/
theorem C44_insert_partial (s s' : Schema) (l : Str) (c : Channel) (i : ℕ) (hl : l ≠ []) (hp : PlainLabel l)
    (h : s.insert l c = some (s', i)) :
    s'.find l = some i ∧ (∃ d, s'.channels[i]? = some (l, d)) ∧
    ((∃ x ∈ s.channels, x.1 = l) → s' = s) ∧
    ((∀ x ∈ s.channels, x.1 ≠ l) → s'.channels = s.channels ++ [(l, c)]) := by
  obtain ⟨_, l', hl', h'⟩ := insert_cases h
  rw [if_neg hl] at hl'
  subst hl'
  rcases h' with ⟨h1, rfl⟩ | ⟨h1, rfl, rfl⟩
  · obtain ⟨d, h2, h3, _⟩ := (find_iff _ _ _).1 h1
    have he := h3.eq_of_plain hp
    refine ⟨h1, ⟨d.2, ?_⟩, fun _ => rfl, fun h => absurd he (h d (List.mem_of_getElem? h2))⟩
    rw [h2, ← he]
  · rw [find_none] at h1
    refine ⟨?_, ⟨c, ?_⟩, fun ⟨x, hx, he⟩ => absurd (he ▸ Matches.refl (he ▸ hl)) (h1 x hx), fun _ => rfl⟩
    · rw [find_iff]
      refine ⟨(l', c), by simp, Matches.refl hl, fun j hj d hd => ?_⟩
      rw [show ({ s with channels := s.channels ++ [(l', c)] } : Schema).channels = s.channels ++ [(l', c)] from rfl,
        List.getElem?_append_left hj] at hd
      exact h1 d (List.mem_of_getElem? hd)
    · simp

example : exampleSchema.insert "w".toList .lie = some
    ({ channels := exampleSchema.channels ++ [("w".toList, .lie)] }, 3) := by decide +kernel

/-- C44 fails for labels with a colon: with a channel `a` present, inserting the channel `a:b`
inserts nothing and returns the channel `a`. -/
theorem C44_insert_refuted :
    (((({} : Schema).insert "a".toList (.increment false)).bind fun p =>
      p.1.insert "a:b".toList (.value false)).map fun p => (p.1.channels, p.2)) =
    some ([("a".toList, .increment false)], 0) := by decide +kernel

/-! ## C60 — labels of dimensions -/

/-- C60, the part that holds: in every schema that can be reached and whose channel labels have no
`:` and no NUL, every dimension of a channel has a label and the label leads back to it, and to the
Lie key one more than the dimension.
Missing: labels with colons (`C60_refuted`), the dimension of the time channel
(`C60_time_refuted`). -/
theorem C60_label_round_trip_partial (s : Schema) (h : Reachable s) (hp : PlainLabels s) (dim : ℕ)
    (hd : dim < (s.channels.map fun c => c.2.numVariants).sum) :
    ∃ l, s.labelOfStreamDim dim = some l ∧ s.labelToStreamDim l = some dim ∧ s.labelToLieKey l = some (dim + 1) := by
  suffices H : ∃ l, s.labelOfStreamDim dim = some l ∧ s.labelToStreamDim l = some dim by
    obtain ⟨l, h1, h2⟩ := H
    exact ⟨l, h1, h2, by unfold Schema.labelToLieKey; rw [h2]; rfl⟩
  have hs := h.inv
  have h1 := ((C43_domains s).1 dim).2 hd
  obtain ⟨⟨i, v⟩, h1⟩ := Option.isSome_iff_exists.1 h1
  have h2 := h1
  rw [C43_bijection, channelVariant_iff] at h2
  obtain ⟨c, h3, h4, h5⟩ := h2
  obtain ⟨suf, h6, h7⟩ := suffix_variant (hs.variants c (List.mem_of_getElem? h3)) h4
  refine ⟨c.1 ++ suf, ?_, ?_⟩
  · unfold Schema.labelOfStreamDim
    rw [h1]
    simp only [h3, h6, Option.map_some]
  · rcases h7 with ⟨rfl, rfl⟩ | ⟨w, rfl, h8⟩
    · rw [List.append_nil, labelToStreamDim_exact hs hp h3, h5, Nat.add_zero]
    · rw [labelToStreamDim_variant hs hp h3, h8, h5]
      rfl

example : PlainLabels exampleSchema ∧ (List.range 5).map exampleSchema.labelOfStreamDim =
    [some "x".toList, some "y:lead".toList, some "y:lag".toList, some "z:p".toList, some "z:q".toList] := by
  refine ⟨?_, by decide +kernel⟩
  intro c hc
  simp only [exampleSchema, List.mem_cons, List.not_mem_nil, or_false] at hc
  rcases hc with rfl | rfl | rfl <;> exact ⟨by decide, by decide⟩

/-- C60 fails with colons: after inserting `a:b`, then the categorical channel `a` with the
variant `b`, both dimensions have the same label. -/
theorem C60_refuted :
    let s := ((({} : Schema).step (.insert "a:b".toList (.increment false))).step
      (.insert "a".toList (.categorical []))).step (.insertVariant 1 "b".toList)
    s.width = 2 ∧ s.labelOfStreamDim 0 = some "a:b".toList ∧ s.labelOfStreamDim 1 = some "a:b".toList ∧
      s.labelToStreamDim "a:b".toList = some 0 := by decide +kernel

/-- C60 fails for the time channel: it counts in the width but its dimension has no label. -/
theorem C60_time_refuted :
    let s := (({} : Schema).step (.insert "a".toList (.increment false))).step .addTimeChannel
    s.width = 2 ∧ s.labelOfStreamDim 1 = none := by decide +kernel

/-- C60: a lookup by label can leave the channel: the label of a categorical channel without
variants leads to the first dimension of the next channel. -/
theorem C60_empty_categorical_refuted :
    let s := (({} : Schema).step (.insert "a".toList (.categorical []))).step
      (.insert "b".toList (.increment false))
    s.labelToStreamDim "a".toList = some 0 ∧ s.labelToStreamDim "b".toList = some 0 := by decide +kernel

/-! ## C61 — finalize -/

/-- C61, the part that holds: if no channel label matches a decimal number at least as large as the
number of channels, `finalize(n)` succeeds unless `0 < n < width`, gives a schema of width
`max n width`, and leaves the existing channels in place.
Missing: labels that are such numbers (`C61_refuted`). -/
theorem C61_finalize_partial (s : Schema) (n : ℤ) (hf : s.isFinal = false)
    (hfree : ∀ c ∈ s.channels, ∀ k, s.channels.length ≤ k → ¬ Matches c.1 (toStr k)) :
    (0 < n ∧ n < s.width → s.finalize n = none) ∧
    (¬ (0 < n ∧ n < s.width) → ∃ s', s.finalize n = some s' ∧ (s'.width : ℤ) = max n s.width ∧
      s'.isFinal = true ∧ s.channels <+: s'.channels) := by
  refine ⟨fun h => by unfold Schema.finalize; rw [if_pos h], fun h => ?_⟩
  obtain ⟨s', h1, h2, h3, h4⟩ := pad_free (n - s.width).toNat s hf hfree
  refine ⟨{ s' with isFinal := true }, ?_, ?_, rfl, ?_⟩
  · unfold Schema.finalize
    rw [if_neg h, h1]
  · have : ({ s' with isFinal := true } : Schema).width = s.width + (n - s.width).toNat := by
      show s'.width = _
      generalize (n - s.width).toNat = m at h2
      unfold Schema.width
      rw [h2, h3]
      split
      · omega
      · rfl
    rw [this]
    push_cast
    omega
  · show s.channels <+: s'.channels
    rw [h4]
    exact List.prefix_append _ _

example : (exampleSchema.finalize 7).map (fun s => s.channels.drop 3) =
    some [("3".toList, .increment false), ("4".toList, .increment false)] := by decide +kernel

/-- C61: `StreamSchema(w)` has width `w`. -/
theorem C61_of_width (w : ℕ) : ∃ s, Schema.ofWidth w = some s ∧ s.width = w := by
  have key : ∀ n i (s : Schema), s.isFinal = false → s.channels.length = i → Free s →
      ∃ s', Schema.ofWidthLoop n i s = some s' ∧ s'.widthWithoutParam = s.widthWithoutParam + n ∧
        s'.needsAdding = s.needsAdding := by
    intro n
    induction n with
    | zero => intro i s _ _ _; exact ⟨s, rfl, rfl, rfl⟩
    | succ n ih =>
      intro i s hf hl hs
      have h1 : s.insert (toStr i) (.increment false) =
          some ({ s with channels := s.channels ++ [(toStr s.channels.length, .increment false)] },
            s.channels.length) := by
        rw [← insert_default hf (fun c hc => hs c hc _ le_rfl) (.increment false)]
        unfold Schema.insert
        rw [if_neg (toStr_ne_nil i), if_pos rfl, hl]
      obtain ⟨s', h2, h3, h4⟩ := ih (i + 1)
        { s with channels := s.channels ++ [(toStr s.channels.length, .increment false)] } hf
        (by simp [hl]) (hs.push _)
      refine ⟨s', ?_, ?_, h4⟩
      · unfold Schema.ofWidthLoop
        rw [h1]
        exact h2
      · rw [h3, widthWithoutParam_eq, widthWithoutParam_eq]
        simp [Channel.numVariants]
        omega
  obtain ⟨s, h1, h2, h3⟩ := key w 0 {} rfl rfl (fun c hc => by cases hc)
  refine ⟨s, h1, ?_⟩
  unfold Schema.width
  rw [h2, h3]
  simp [widthWithoutParam_eq]

example : (Schema.ofWidth 11).map (fun s => s.find "10".toList) = some (some 10) := by decide +kernel

/-- C61 fails: with one channel labelled `1`, `finalize(3)` succeeds and the width is 1. -/
theorem C61_refuted :
    let s := ({} : Schema).step (.insert "1".toList (.increment false))
    (s.finalize 3).map Schema.width = some 1 := by decide +kernel

/-! ## C62 — get_labels -/

theorem mapM_some {α β : Type} (f : α → Option β) (g : α → β) (l : List α) (h : ∀ x ∈ l, f x = some (g x)) :
    l.mapM f = some (l.map g) := by
  induction l with
  | nil => rfl
  | cons x l ih =>
    rw [List.mapM_cons, h x List.mem_cons_self, ih fun y hy => h y (List.mem_cons_of_mem _ hy)]
    rfl

theorem channelLabels_ok (c : Str × Channel) (h1 : c.2 ≠ .lie) (h2 : c.2 ≠ .increment true) :
    ∃ ls, channelLabels c = some ls ∧ ls.length = c.2.numVariants ∧
      ∀ v < c.2.numVariants, ls[v]? = (c.2.labelSuffix v).map fun suf => c.1 ++ suf := by
  obtain ⟨l, c⟩ := c
  cases c with
  | lie => exact absurd rfl h1
  | increment b =>
    cases b with
    | true => exact absurd rfl h2
    | false =>
      refine ⟨[l], rfl, rfl, fun v hv => ?_⟩
      simp only [Channel.numVariants, Bool.false_eq_true, if_false] at hv
      obtain rfl : v = 0 := by omega
      simp [Channel.labelSuffix, Channel.leadLagSuffix]
  | value b =>
    cases b with
    | false =>
      refine ⟨[l], rfl, rfl, fun v hv => ?_⟩
      simp only [Channel.numVariants, Bool.false_eq_true, if_false] at hv
      obtain rfl : v = 0 := by omega
      simp [Channel.labelSuffix, Channel.leadLagSuffix]
    | true =>
      refine ⟨[l ++ ":lead".toList, l ++ ":lag".toList], rfl, rfl, fun v hv => ?_⟩
      simp only [Channel.numVariants, if_true] at hv
      obtain rfl | rfl : v = 0 ∨ v = 1 := by omega
      · rfl
      · rfl
  | categorical vs =>
    have hm : (List.range vs.length).mapM (fun i => (Channel.categorical vs).labelSuffix i) =
        some ((List.range vs.length).map fun i => ':' :: (vs[i]?).getD []) := by
      refine mapM_some _ _ _ fun i hi => ?_
      rw [List.mem_range] at hi
      simp only [Channel.labelSuffix, List.getElem?_eq_getElem hi, Option.map_some, Option.getD_some]
    refine ⟨((List.range vs.length).map fun i => ':' :: (vs[i]?).getD []).map fun x => l ++ x, ?_, ?_, ?_⟩
    · simp only [channelLabels]
      rw [hm]
      rfl
    · simp [Channel.numVariants]
    · intro v hv
      simp only [Channel.numVariants] at hv
      simp [Channel.labelSuffix, List.getElem?_eq_getElem hv, List.getElem?_range hv]

theorem labels_flatten (cs : List (Str × Channel)) (h : ∀ c ∈ cs, c.2 ≠ .lie ∧ c.2 ≠ .increment true) :
    ∃ lss, cs.mapM channelLabels = some lss ∧
      lss.flatten.length = (cs.map fun c => c.2.numVariants).sum ∧
      ∀ i v c, cs[i]? = some c → v < c.2.numVariants →
        lss.flatten[before cs i + v]? = (c.2.labelSuffix v).map fun suf => c.1 ++ suf := by
  induction cs with
  | nil => exact ⟨[], rfl, rfl, fun i v c h => by simp at h⟩
  | cons c cs ih =>
    obtain ⟨lss, h1, h2, h3⟩ := ih fun x hx => h x (List.mem_cons_of_mem _ hx)
    obtain ⟨ls, h4, h5, h6⟩ := channelLabels_ok c (h c List.mem_cons_self).1 (h c List.mem_cons_self).2
    refine ⟨ls :: lss, ?_, ?_, ?_⟩
    · rw [List.mapM_cons, h4, h1]
      rfl
    · rw [List.flatten_cons, List.length_append, h2, h5, List.map_cons, List.sum_cons]
    · intro i v d hd hv
      rw [List.flatten_cons]
      cases i with
      | zero =>
        simp only [List.getElem?_cons_zero, Option.some.injEq] at hd
        subst hd
        have : before (c :: cs) 0 = 0 := by simp [before]
        rw [this, Nat.zero_add, List.getElem?_append_left (by omega)]
        exact h6 v hv
      | succ i =>
        simp only [List.getElem?_cons_succ] at hd
        have : before (c :: cs) (i + 1) = c.2.numVariants + before cs i := by
          unfold before
          rw [List.take_succ_cons, List.map_cons, List.sum_cons]
        rw [this, List.getElem?_append_right (by omega), h5,
          show c.2.numVariants + before cs i + v - c.2.numVariants = before cs i + v by omega]
        exact h3 i v d hd hv

/-- C62, the part that holds: for a schema without time channel, Lie channels and lead-lag
increment channels, `get_labels` returns one label per stream dimension, the one that
`label_of_stream_dim` gives.
Missing: the other schemas (`C62_refuted`). -/
theorem C62_get_labels_partial (s : Schema) (hn : s.needsAdding = false)
    (h : ∀ c ∈ s.channels, c.2 ≠ .lie ∧ c.2 ≠ .increment true) :
    ∃ ls, getLabels s = some ls ∧ ls.length = s.width ∧ ∀ dim < s.width, ls[dim]? = s.labelOfStreamDim dim := by
  obtain ⟨lss, h1, h2, h3⟩ := labels_flatten s.channels h
  have hw : s.width = (s.channels.map fun c => c.2.numVariants).sum := by
    rw [C43_width, hn]
    rfl
  refine ⟨lss.flatten, ?_, by rw [hw, h2], fun dim hd => ?_⟩
  · unfold getLabels
    rw [h1]
    simp only
    rw [if_pos (by rw [hw, h2])]
  · rw [hw] at hd
    obtain ⟨⟨i, v⟩, h4⟩ := Option.isSome_iff_exists.1 (((C43_domains s).1 dim).2 hd)
    have h5 := h4
    rw [C43_bijection, channelVariant_iff] at h5
    obtain ⟨c, h6, h7, h8⟩ := h5
    rw [h8, h3 i v c h6 h7, ← h8]
    unfold Schema.labelOfStreamDim
    rw [h4]
    simp only [h6]

example : getLabels exampleSchema =
    some ["x".toList, "y:lead".toList, "y:lag".toList, "z:p".toList, "z:q".toList] := by decide +kernel

/-- C62 fails: `get_labels` throws for a schema with a time channel, with a Lie channel, or with a
lead-lag increment channel. -/
theorem C62_refuted :
    getLabels ((({} : Schema).step (.insert "a".toList (.increment false))).step .addTimeChannel) = none ∧
    getLabels (({} : Schema).step (.insert "a".toList .lie)) = none ∧
    getLabels ((({} : Schema).step (.insert "a".toList (.increment false))).step (.setLeadLag 0 true)) = none := by
  decide +kernel

/-! ## C45 — the tick helper -/

/-- C45, the part that holds: in a reachable schema with plain labels, `add_categorical` by numbers
and by labels record the same key, one more than the stream dimension of the channel and variant;
so do both forms of `add_increment` for channels with at least one variant.
Missing: the mixed overloads of `add_categorical` (`C45_index_label_refuted`,
`C45_label_index_refuted`), `add_value` by label (`C45_value_refuted`), ticks from Python
(`C45_from_data_refuted`). -/
theorem C45_routing_partial (s : Schema) (h : Reachable s) (hp : PlainLabels s) (i : ℕ) (l : Str) :
    (∀ vs v w, s.channels[i]? = some (l, .categorical vs) → vs[v]? = some w →
      Helper.categoricalKey s i v = some (((s.channels.take i).map fun c => c.2.numVariants).sum + v + 1) ∧
      Helper.categoricalKeyLabels s l w =
        some (((s.channels.take i).map fun c => c.2.numVariants).sum + v + 1)) ∧
    (∀ c, s.channels[i]? = some (l, c) → 0 < c.numVariants →
      Helper.incrementKey s i = some (((s.channels.take i).map fun c => c.2.numVariants).sum + 1) ∧
      Helper.incrementKeyLabel s l = some (((s.channels.take i).map fun c => c.2.numVariants).sum + 1)) ∧
    (∀ c, s.channels[i]? = some (l, c) → c.isLeadLag = true →
      Helper.valueKeys s i = some (((s.channels.take i).map fun c => c.2.numVariants).sum + 1,
        ((s.channels.take i).map fun c => c.2.numVariants).sum + 2)) := by
  have hs := h.inv
  refine ⟨fun vs v w hc hv => ?_, fun c hc h0 => ?_, fun c hc hll => ?_⟩
  · have hv' : v < vs.length := (List.getElem?_eq_some_iff.1 hv).1
    refine ⟨?_, ?_⟩
    · unfold Helper.categoricalKey
      rw [C43_layout s i v _ hc hv']
      rfl
    · unfold Helper.categoricalKeyLabels
      have := labelToStreamDim_variant hs hp hc w
      simp only at this
      rw [this]
      simp only [Channel.variantIdOfLabel]
      rw [findIdx_nodup (hs.variants _ (List.mem_of_getElem? hc) vs rfl) hv]
      rfl
  · refine ⟨?_, ?_⟩
    · unfold Helper.incrementKey Schema.channelToStreamDim
      rw [if_pos (List.getElem?_eq_some_iff.1 hc).1, widthTo_eq]
      rfl
    · unfold Helper.incrementKeyLabel
      have := labelToStreamDim_exact hs hp hc
      simp only at this
      rw [this]
      rfl
  · have h2 := leadLag_variants hll
    unfold Helper.valueKeys
    rw [C43_layout s i 0 _ hc (by simp only; omega), C43_layout s i 1 _ hc (by simp only; omega)]

example : Helper.categoricalKey exampleSchema 2 1 = some 5 ∧
    Helper.categoricalKeyLabels exampleSchema "z".toList "q".toList = some 5 := by decide +kernel

/-- C45 fails for `add_categorical(time, channel number, variant label)`: in *every* schema with
distinct variant labels the key is one too small — it is the coordinate of the previous dimension
(and 0, no key at all, for the first). -/
theorem C45_index_label_refuted (s : Schema) (i v : ℕ) (l w : Str) (vs : List Str)
    (hc : s.channels[i]? = some (l, .categorical vs)) (hn : vs.Nodup) (hv : vs[v]? = some w) :
    Helper.categoricalKeyIdxLabel s i w = some (((s.channels.take i).map fun c => c.2.numVariants).sum + v) := by
  have hv' : v < vs.length := (List.getElem?_eq_some_iff.1 hv).1
  unfold Helper.categoricalKeyIdxLabel
  rw [hc]
  simp only [Channel.getVariants]
  rw [findIdx_nodup hn hv]
  exact C43_layout s i v _ hc hv'

/-- C45 fails for `add_categorical(time, channel label, variant number)`: the key counts channels
instead of dimensions.  For the last variant in the example it is 4, not 5.  On a schema that is
final the call throws. -/
theorem C45_label_index_refuted :
    Helper.categoricalKeyLabelIdx exampleSchema "z".toList 1 = some 4 ∧
    Helper.categoricalKey exampleSchema 2 1 = some 5 ∧
    (∀ s : Schema, s.isFinal = true → ∀ l v, Helper.categoricalKeyLabelIdx s l v = none) := by
  refine ⟨by decide +kernel, by decide +kernel, fun s hf l v => ?_⟩
  unfold Helper.categoricalKeyLabelIdx Schema.findMut
  rw [if_pos hf]

/-- C45 fails for `add_value(time, label, value)`: the keys are always 1 and 2 (or 1 and 1),
whatever the position of the channel. -/
theorem C45_value_refuted :
    Helper.valueKeys exampleSchema 1 = some (2, 3) ∧
    Helper.valueKeysLabel exampleSchema "y".toList = some (1, 2) := by decide +kernel

/-- C45 fails for `TickStream.from_data`: two ticks with the variants `p` and `q` of the same
channel are recorded in the same coordinate, that of `p`. -/
theorem C45_from_data_refuted :
    (fromData exampleSchema [⟨"z".toList, 0, 0, "p".toList, .categorical⟩,
      ⟨"z".toList, 1, 0, "q".toList, .categorical⟩]).map (fun vs => vs.map fun v => (v 4, v 5)) =
    some [(1, 0), (1, 0)] := by decide +kernel

/-! ## C63 — values of value channels -/

/-- C63: for every reachable schema with plain labels, every value channel (lead-lag or not), and
every list of ticks whose labels are those of channels with at least one variant, and in which the
ticks of this channel are values: the recorded increments in each coordinate of the channel add up
to the value of its last tick. -/
theorem C63_values (s : Schema) (h : Reachable s) (hp : PlainLabels s) (i v : ℕ) (l : Str) (b : Bool)
    (hc : s.channels[i]? = some (l, .value b)) (hv : v < if b then 2 else 1) (ts : List Tick)
    (hok : ∀ t ∈ ts, ∃ (j : ℕ) (c : Str × Channel), s.channels[j]? = some c ∧ t.label = c.1 ∧ 0 < c.2.numVariants)
    (hty : ∀ t ∈ ts, t.label = l → t.type = .value) (vs : List Vec) (hvs : fromData s ts = some vs)
    (pre post : List Tick) (last : Tick) (hts : ts = pre ++ last :: post) (hl : last.label = l)
    (hpost : ∀ t ∈ post, t.label ≠ l) :
    (vs.map fun u => u (((s.channels.take i).map fun c => c.2.numVariants).sum + v + 1)).sum = last.data := by
  have h1 := tickLoop_sum h.inv hp hc (v := v) hv ts (fun _ => 0) 0 vs hok hty hvs
  have h2 : ∀ (l : Str) (post : List Tick) (x : ℚ), (∀ t ∈ post, t.label ≠ l) → lastValue l x post = x := by
    intro l post
    induction post with
    | nil => intro x _; rfl
    | cons t post ih =>
      intro x hx
      unfold lastValue
      rw [if_neg (hx t List.mem_cons_self)]
      exact ih x fun y hy => hx y (List.mem_cons_of_mem _ hy)
  have h3 : ∀ (pre : List Tick) (x : ℚ), lastValue l x (pre ++ last :: post) = last.data := by
    intro pre
    induction pre with
    | nil =>
      intro x
      rw [List.nil_append]
      unfold lastValue
      rw [if_pos hl]
      exact h2 l post _ hpost
    | cons t pre ih =>
      intro x
      rw [List.cons_append]
      unfold lastValue
      exact ih _
  rw [hts, h3, zero_add] at h1
  exact h1

example : (fromData exampleSchema [⟨"y".toList, 0, 3, [], .value⟩, ⟨"x".toList, 1, 7, [], .increment⟩,
    ⟨"y".toList, 2, 5, [], .value⟩]).map (fun vs => vs.map fun v => (v 1, v 2, v 3)) =
    some [(0, 3, 3), (7, 0, 0), (0, 2, 2)] := by decide +kernel

/-! ## C64 — order of the ticks -/

/-- C64: whatever calls of `add_*` and `ticks()` were made, and whichever sorting algorithm is
used, `ticks()` returns all ticks added, in order of time, and ticks with the same time in the
order in which they were added. -/
theorem C64_tick_order (ps : List Tick) (b : TickBuffer) (h : Recorded ps b) (l : List (ℚ × ℕ × Tick))
    (hl : SortedPerm b.ticks l) :
    (l.map fun e => e.2.2).Perm ps ∧
    (l.map fun e => e.2.2).Pairwise (fun a b => a.time ≤ b.time) ∧
    ∀ x, (l.map fun e => e.2.2).filter (fun t => decide (t.time = x)) =
      ps.filter fun t => decide (t.time = x) := by
  obtain ⟨h1, h2, h3, h4⟩ := Recorded.inv (Recorded.sort l h hl)
  simp only at h2 h3 h4
  refine ⟨h3, ?_, fun x => ?_⟩
  · rw [List.pairwise_map]
    refine hl.2.imp_of_mem fun {a b} ha hb hab => ?_
    rw [← h2 a ha, ← h2 b hb]
    by_contra hc
    exact hab (Or.inl (not_le.1 hc))
  · have h5 := h4 x
    have h6 : l.filter (fun e => decide (e.1 = x)) = numbered 0 (ps.filter fun t => decide (t.time = x)) := by
      refine List.Perm.eq_of_pairwise (le := fun a b => a.2.1 ≤ b.2.1) ?_ ?_ ?_ h5
      · intro a b ha hb hab hba
        have ha' := h5.mem_iff.1 ha
        have hlt := numbered_sorted 0 (ps.filter fun t => decide (t.time = x))
        by_contra hne
        rcases (List.pairwise_iff_getElem.1 hlt) with hlt
        obtain ⟨i, hi, rfl⟩ := List.getElem_of_mem ha'
        obtain ⟨j, hj, rfl⟩ := List.getElem_of_mem hb
        rcases Nat.lt_trichotomy i j with hij | hij | hij
        · have := hlt i j hi hj hij; omega
        · subst hij; exact hne rfl
        · have := hlt j i hj hi hij; omega
      · refine ((hl.2.filter _).imp_of_mem fun {a b} ha hb hab => ?_)
        have ha1 : a.1 = x := by simpa using (List.mem_filter.1 ha).2
        have hb1 : b.1 = x := by simpa using (List.mem_filter.1 hb).2
        by_contra hc
        exact hab (Or.inr ⟨by rw [ha1, hb1], not_le.1 hc⟩)
      · exact (numbered_sorted 0 _).imp fun h => le_of_lt h
    have h7 : (l.map fun e => e.2.2).filter (fun t => decide (t.time = x)) =
        (l.filter fun e => decide (e.1 = x)).map fun e => e.2.2 := by
      rw [List.filter_map]
      congr 1
      refine List.filter_congr fun e he => ?_
      simp only [Function.comp]
      rw [h2 e he]
    rw [h7, h6, numbered_map]

example : Recorded [⟨"a".toList, 1, 0, [], .value⟩, ⟨"b".toList, 0, 0, [], .value⟩]
    (((⟨[], fun _ => 0⟩ : TickBuffer).push ⟨"a".toList, 1, 0, [], .value⟩).push
      ⟨"b".toList, 0, 0, [], .value⟩) :=
  Recorded.push _ (Recorded.push (ps := []) _ Recorded.empty)

end RoughPy.Schema
