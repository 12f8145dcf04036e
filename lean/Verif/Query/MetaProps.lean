import Verif.Query.MetaLemmas
import Verif.Streams.Model

/-!
# C129 to C131 — the metadata of a new stream
-/

namespace RoughPy.Query

open RoughPy.Intervals RoughPy.Schema RoughPy.Streams

/-! ## C129 — metadata, context and schema agree -/

/-- C129 for `TickStream.from_data`: whatever the keyword arguments and whatever the data, the metadata
of a stream that is made agree with its context; the schema is final, has a channel, and has no more
channels than the width. -/
theorem C129_tick (k : KW) (parse : Schema → Out Schema) (m : PyMeta) (h : tickMeta k parse = .ok m) :
    m.Consistent ∧ m.schema.isFinal = true ∧ 0 < m.schema.width ∧ (m.schema.width : ℤ) ≤ m.width := by
  obtain ⟨m0, _, h1⟩ := Out.bind_ok h
  obtain ⟨s, _, h2⟩ := Out.bind_ok h1
  obtain ⟨s', w, a1, a2, a3, _, a5⟩ := finalizeSchema_ok h2
  rw [a5]
  exact ⟨⟨_, rfl, rfl⟩, (lastMinute_ok a1).1, Nat.pos_of_ne_zero a2, (settleWidth_ok a3).1⟩

/-- The last step of `incrementMeta`. -/
theorem incrementMeta_ok {k : KW} {dataType : Option CType} {columns : ℤ} {m : PyMeta}
    (h : incrementMeta k dataType columns = .ok m) :
    ∃ m0 m1, kwargsToMetadata k = .ok m0 ∧ finalizeSchema m1 = .ok m ∧ m1.schema = m0.schema ∧
      m1.includeTime = m0.includeTime ∧ m1.depth = m0.depth ∧ m1.channel = m0.channel ∧
      (∀ t, m0.ctype = some t → m1.ctype = some t) ∧ (m0.width ≠ 0 → m1.width = m0.width) ∧
      (m0.ctx = none → m0.width = 0 → m1.width = columns) ∧ (m0.ctx ≠ none → m1.width = m0.width) := by
  obtain ⟨m0, h0, h1⟩ := Out.bind_ok h
  cases ht : m0.ctype.or dataType with
  | none => rw [ht] at h1; cases h1
  | some t =>
    rw [ht] at h1
    dsimp only at h1
    have htt : ∀ t', m0.ctype = some t' → t = t' := by
      intro t' e
      rw [e] at ht
      exact (Option.some.inj ht).symm
    cases hx : m0.ctx with
    | some c =>
      rw [hx] at h1
      exact ⟨m0, _, h0, h1, rfl, rfl, rfl, rfl, fun t' e => by rw [htt t' e], fun _ => rfl,
        fun e => (by rw [hx] at e; cases e), fun _ => rfl⟩
    | none =>
      rw [hx] at h1
      dsimp only at h1
      generalize hw : (if m0.width = 0 then columns else m0.width) = w at h1
      by_cases hz : w = 0 ∨ m0.depth = 0
      · rw [if_pos hz] at h1; cases h1
      · rw [if_neg hz] at h1
        cases hg : getContext w m0.depth (some t) with
        | none => rw [hg] at h1; cases h1
        | some c =>
          rw [hg] at h1
          dsimp only at h1
          refine ⟨m0, _, h0, h1, rfl, rfl, rfl, rfl, fun t' e => by rw [htt t' e], fun hne => ?_,
            fun _ e => ?_, fun e => absurd hx e⟩
          · rw [← hw]; exact if_neg hne
          · rw [← hw]; exact if_pos e

/-- C129 for `LieIncrementStream.from_increments`. -/
theorem C129_increments (k : KW) (dataType : Option CType) (columns : ℤ) (m : PyMeta)
    (h : incrementMeta k dataType columns = .ok m) :
    m.Consistent ∧ m.schema.isFinal = true ∧ 0 < m.schema.width ∧ (m.schema.width : ℤ) ≤ m.width := by
  obtain ⟨m0, m1, _, h2, _⟩ := incrementMeta_ok h
  obtain ⟨s', w, a1, a2, a3, _, a5⟩ := finalizeSchema_ok h2
  rw [a5]
  exact ⟨⟨_, rfl, rfl⟩, (lastMinute_ok a1).1, Nat.pos_of_ne_zero a2, (settleWidth_ok a3).1⟩

/-- The width of the schema after `finalize_schema`. -/
theorem finalize_widths {m m' : PyMeta} (h : finalizeSchema m = .ok m')
    (ht : m.includeTime = true → m.schema.needsAdding = true) (hl : NoDefaultLabels m.schema)
    (hc : m.channel ≠ .categorical)
    (hf : m.schema.isFinal = true → m.schema.width ≠ 0 → m.width = m.schema.width) :
    (m'.schema.width : ℤ) = m'.width := by
  obtain ⟨s, w, a1, a2, a3, _, a5⟩ := finalizeSchema_ok h
  obtain ⟨b1, b2, b3, b4, b5⟩ := settleWidth_ok a3
  rw [a5]
  show (s.width : ℤ) = w
  cases hfin : m.schema.isFinal with
  | true =>
    have e := (lastMinute_ok a1).2.2.1 hfin
    rw [e] at a2 ⊢
    have := hf hfin a2
    rw [e] at b2 b3
    rcases b2 with b2 | b2
    · exact b2.symm
    · rw [b2, this]
  | false =>
    obtain ⟨s', e1, e2, e3, e4⟩ := insertMany_free m.channel hc (m.width - m.schema.width).toNat m.schema hfin hl
    unfold lastMinuteSetup at a1
    rw [hfin, if_neg (by simp), e1] at a1
    dsimp only at a1
    rw [finalize_zero] at a1
    have hs : s.width = s'.width := by
      have := Option.some.inj a1
      cases hb : m.includeTime with
      | false => rw [hb, if_neg (by simp)] at this; rw [← this]; rfl
      | true =>
        rw [hb, if_pos rfl] at this
        rw [← this]
        have e : s'.needsAdding = true := by rw [e4, ht hb]
        show (if true = true then s'.widthWithoutParam + 1 else s'.widthWithoutParam) = _
        unfold Schema.width
        rw [e]
    rw [hs, e2] at b1 b2 b3 ⊢
    rcases b2 with b2 | b2
    · exact b2.symm
    · rw [b2] at b1 ⊢
      push_cast at b1 ⊢
      omega

/-- C129, widths, the part that holds for `LieIncrementStream.from_increments`: the schema has as many
channels as the width, if there is no context that contradicts the schema and the width given, no
label is the default label of a channel to come, and the channels to be added are not categorical.
Missing: `C129_context_refuted`, `C129_labels_refuted`. -/
theorem C129_increment_widths_partial (k : KW) (dataType : Option CType) (columns : ℤ) (m m0 : PyMeta)
    (h : incrementMeta k dataType columns = .ok m) (h0 : kwargsToMetadata k = .ok m0)
    (hk : k.schema = none ∨ k.width = none ∨ (k.ctx = none ∧ k.context = none))
    (hl : NoDefaultLabels m0.schema) (hc : m0.channel ≠ .categorical) :
    (m.schema.width : ℤ) = m.width := by
  obtain ⟨m0', m1, e0, h2, e1, e2, _, e4, _, e6, _⟩ := incrementMeta_ok h
  rw [h0] at e0
  have := Out.ok.inj e0
  subst this
  obtain ⟨g1, _, _, _, _, _, g7, g8, _, g10, _⟩ := kwargs_ok h0
  refine finalize_widths h2 ?_ (by rw [e1]; exact hl) (by rw [e4]; exact hc) ?_
  · rw [e1, e2, g1]
    exact fun hb => (g7 hb).2
  · rw [e1]
    intro hf hne
    have hm : m0.width = m0.schema.width := by
      obtain ⟨g, q1, q2, q3⟩ := g10 hf
      rcases q3 with ⟨_, q⟩ | ⟨q4, q5⟩
      · exact q
      · rcases hk with hk | hk | ⟨hk1, hk2⟩
        · rw [hk] at q1; cases q1
        · rw [hk] at q4; cases q4
        · have : (algebraConfig k).ctx = none := by
            show (match k.ctx with | some c => some c | none => k.context) = none
            rw [hk1, hk2]
          rw [q5, this]
    rw [e6 (by rw [hm]; exact_mod_cast hne), hm]

/-- C129, widths, the part that holds for `TickStream.from_data`: the parser of the data leaves a final
schema alone and does not drop the time channel. -/
theorem C129_tick_widths_partial (k : KW) (parse : Schema → Out Schema) (m m0 : PyMeta) (s : Schema)
    (h : tickMeta k parse = .ok m) (h0 : kwargsToMetadata k = .ok m0) (hs : parse m0.schema = .ok s)
    (hfin : s.isFinal = true → s = m0.schema) (hadd : s.needsAdding = m0.schema.needsAdding)
    (hk : k.schema = none ∨ k.width = none ∨ (k.ctx = none ∧ k.context = none))
    (hl : NoDefaultLabels s) (hc : m0.channel ≠ .categorical) :
    (m.schema.width : ℤ) = m.width := by
  obtain ⟨m0', e0, h1⟩ := Out.bind_ok h
  rw [h0] at e0
  have := Out.ok.inj e0
  subst this
  obtain ⟨s', e1, h2⟩ := Out.bind_ok h1
  rw [hs] at e1
  have := Out.ok.inj e1
  subst this
  obtain ⟨g1, _, _, _, _, _, g7, g8, _, g10, _⟩ := kwargs_ok h0
  refine finalize_widths h2 ?_ hl hc ?_
  · show m0.includeTime = true → s.needsAdding = true
    rw [hadd, g1]
    exact fun hb => (g7 hb).2
  · show s.isFinal = true → s.width ≠ 0 → m0.width = s.width
    intro hf hne
    have e := hfin hf
    rw [e] at hf ⊢
    obtain ⟨g, q1, q2, q3⟩ := g10 hf
    rcases q3 with ⟨_, q⟩ | ⟨q4, q5⟩
    · exact q
    · rcases hk with hk | hk | ⟨hk1, hk2⟩
      · rw [hk] at q1; cases q1
      · rw [hk] at q4; cases q4
      · have : (algebraConfig k).ctx = none := by
          show (match k.ctx with | some c => some c | none => k.context) = none
          rw [hk1, hk2]
        rw [q5, this]

/-- C129 for Brownian, function and piecewise streams, the part that holds: without a schema, the width
and the scalar type of the metadata are those of the context.
Missing: with a schema (`C129_others_refuted`). -/
theorem C129_others_partial (k : KW) (hk : k.schema = none) (md : Meta)
    (h : brownianMeta k = .ok md ∨ functionMeta k = .ok md ∨ piecewiseMeta k = .ok md) (c : Ctx)
    (hc : md.ctx = some c) : md.width = c.width ∧ md.dataType = some c.ctype := by
  have key : ∀ m0, kwargsToMetadata k = .ok m0 → ∀ c, m0.ctx = some c →
      m0.width = c.width ∧ m0.ctype = some c.ctype := by
    intro m0 h0 c hc
    obtain ⟨_, _, g3, _, g5, _, _, g8, _, _, g11, _⟩ := kwargs_ok h0
    rw [hc] at g3
    rw [← g3] at g5 g11
    exact ⟨g11 (g8 hk), g5⟩
  have gc : ∀ (w d : ℤ) (t : Option CType) (c' : Ctx), getContext w d t = some c' →
      w = c'.width ∧ t = some c'.ctype := by
    intro w d t c' e
    obtain ⟨f1, _, f3, _⟩ := getContext_some e
    exact ⟨f1.symm, f3⟩
  rcases h with h | h | h
  · obtain ⟨m0, h0, h1⟩ := Out.bind_ok h
    dsimp only at h1
    cases hx : m0.ctx with
    | some x =>
      rw [hx] at h1
      have := Out.ok.inj h1
      subst this
      have := Option.some.inj hc
      subst this
      obtain ⟨q1, q2⟩ := key m0 h0 x hx
      exact ⟨q1, by show some (m0.ctype.getD .f64) = _; rw [q2]; rfl⟩
    | none =>
      rw [hx] at h1
      dsimp only at h1
      split at h1
      · cases h1
      · split at h1
        · cases h1
        · rename_i x hg
          have := Out.ok.inj h1
          subst this
          have := Option.some.inj hc
          subst this
          exact gc _ _ _ _ hg
  · obtain ⟨m0, h0, h1⟩ := Out.bind_ok h
    cases hx : m0.ctx with
    | some x =>
      rw [hx] at h1
      have := Out.ok.inj h1
      subst this
      have := Option.some.inj hc
      subst this
      exact key m0 h0 x hx
    | none =>
      rw [hx] at h1
      dsimp only at h1
      split at h1
      · split at h1
        · cases h1
        · rename_i x hg
          have := Out.ok.inj h1
          subst this
          have := Option.some.inj hc
          subst this
          exact gc _ _ _ _ hg
      · have := Out.ok.inj h1
        subst this
        cases hc
  · obtain ⟨m0, h0, h1⟩ := Out.bind_ok h
    cases hx : m0.ctx with
    | some x =>
      rw [hx] at h1
      have := Out.ok.inj h1
      subst this
      have := Option.some.inj hc
      subst this
      exact key m0 h0 x hx
    | none =>
      rw [hx] at h1
      dsimp only at h1
      split at h1
      · cases h1
      · split at h1
        · cases h1
        · rename_i x hg
          have := Out.ok.inj h1
          subst this
          have := Option.some.inj hc
          subst this
          exact gc _ _ _ _ hg

/-- Three increment channels, final. -/
def threeChannels : Schema :=
  ⟨[("a".toList, .increment false), ("b".toList, .increment false), ("c".toList, .increment false)], true, false⟩

example : (tickMeta { depth := some 3, dtype := some (.scalar .f32) } (fun _ => .ok
      ⟨[("x".toList, .increment false), ("y".toList, .value true)], false, false⟩)).bind
      (fun m => .ok (m.width, m.ctx, m.schema.width)) = .ok (3, some ⟨3, 3, .f32⟩, 3) := by decide +kernel

example : (incrementMeta { width := some 4, depth := some 3, schema := none } (some .f64) 2).bind
      (fun m => .ok (m.width, m.ctx, m.schema.width)) = .ok (4, some ⟨4, 3, .f64⟩, 4) := by decide +kernel

/-- C129 fails for the number of channels: a schema with three channels, `width=3` and a context of
width 5 are accepted, with width 5. -/
theorem C129_context_refuted :
    (incrementMeta { schema := some threeChannels, width := some 3, ctx := some ⟨5, 2, .f64⟩ } (some .f64) 3).bind
      (fun m => .ok (m.width, m.ctx, m.schema.width)) = .ok (5, some ⟨5, 2, .f64⟩, 3) := by decide +kernel

/-- C129 fails for the number of channels: with one channel labelled "1" and `width=3` no channel is
added, as the default label of the second channel is taken. -/
theorem C129_labels_refuted :
    (incrementMeta { channelTypes := some (.labelled [("1".toList, .increment)]), width := some 3, depth := some 2 }
        (some .f64) 3).bind
      (fun m => .ok (m.width, m.schema.width)) = .ok (3, 1) := by decide +kernel

/-- C129 fails for the other streams when a schema is given: the width of the metadata is that of the
schema, whatever the context. -/
theorem C129_others_refuted :
    let k : KW := { schema := some threeChannels, ctx := some ⟨2, 2, .f64⟩ }
    brownianMeta k = .ok ⟨3, some ⟨2, 2, .f64⟩, some .f64, 0⟩ ∧
    functionMeta k = .ok ⟨3, some ⟨2, 2, .f64⟩, some .f64, 0⟩ ∧
    piecewiseMeta k = .ok ⟨3, some ⟨2, 2, .f64⟩, some .f64, 0⟩ := by
  refine ⟨?_, ?_, ?_⟩ <;> decide +kernel

/-! ## C130 — the keyword arguments are honoured -/

/-- What is asked for by the keyword arguments, in the cases where it is given. -/
structure KW.Plain (k : KW) : Prop where
  noTime : k.includeTime = false
  oneContext : k.context = none
  width : k.width ≠ some 0
  depth : k.depth ≠ some 0
  ctx : ∀ c, k.ctx = some c → c.width ≠ 0 ∧ c.depth ≠ 0 ∧ ∀ g, k.schema = some g → (g.width : ℤ) = c.width
  name : ∀ id, k.dtype = some (.str id) → id = "f64".toList

theorem wants_core {k : KW} {m m1 m' : PyMeta} (hk : k.Plain) (h0 : kwargsToMetadata k = .ok m)
    (h : finalizeSchema m1 = .ok m') (h1 : m1.includeTime = m.includeTime)
    (hw : m.width ≠ 0 → m1.width = m.width) (hd : m1.depth = m.depth)
    (ht : ∀ t, m.ctype = some t → m1.ctype = some t) : ∃ c, m'.ctx = some c ∧ k.Wants c := by
  obtain ⟨s, w, _, _, a3, _, a5⟩ := finalizeSchema_ok h
  obtain ⟨_, _, _, b4, _⟩ := settleWidth_ok a3
  obtain ⟨g1, _, _, g4, g5, _, _, _, _, g10, g11, _⟩ := kwargs_ok h0
  rw [h1, g1, hk.noTime] at b4
  have b4 := b4 rfl
  refine ⟨_, by rw [a5], ?_⟩
  unfold KW.Wants
  cases hx : k.ctx with
  | some c =>
    have hcfg : (algebraConfig k).ctx = some c := by
      show (match k.ctx with | some c => some c | none => k.context) = _
      rw [hx]
    rw [hcfg] at g4 g5 g10 g11
    obtain ⟨c1, c2, c3⟩ := hk.ctx c hx
    have hmw : m.width = c.width := by
      cases hf : m.schema.isFinal with
      | false => exact g11 hf
      | true =>
        obtain ⟨g, q1, q2, q3⟩ := g10 hf
        rcases q3 with ⟨_, q⟩ | ⟨_, q⟩
        · rw [q, q2]; exact c3 g q1
        · exact q
    have e := hw (by rw [hmw]; exact c1)
    rw [hmw] at e
    rw [b4 (by rw [e]; exact c1), e, hd, g4, if_neg c2, ht _ g5]
    rfl
  | none =>
    have hcfg : (algebraConfig k).ctx = none := by
      show (match k.ctx with | some c => some c | none => k.context) = _
      rw [hx, hk.oneContext]
    rw [hcfg] at g4 g5 g10 g11
    dsimp only at g4 g5 g10 g11 ⊢
    refine ⟨fun w' hw' => ?_, fun d hd' => ?_, fun d t hd' hm => ?_⟩
    · have hne : w' ≠ 0 := fun e => hk.width (by rw [hw', e])
      have hmw : m.width = w' := by
        cases hf : m.schema.isFinal with
        | false => rw [g11 hf, hw']; rfl
        | true =>
          obtain ⟨g, _, _, q3⟩ := g10 hf
          rcases q3 with ⟨q, _⟩ | ⟨q1, q2⟩
          · rw [hw'] at q; cases q
          · rw [q2, ← Option.some.inj (hw'.symm.trans q1)]
      have e := hw (by rw [hmw]; exact hne)
      rw [b4 (by rw [e, hmw]; exact hne), e, hmw]
    · have hne : d ≠ 0 := fun e => hk.depth (by rw [hd', e])
      rw [hd, g4, hd']
      exact if_neg hne
    · have : (algebraConfig k).ctype = some t := by
        show firstType [k.dtype, k.ctype, k.coeffs] = _
        rw [hd']
        unfold firstType
        cases d with
        | scalar t' =>
          have : t' = t := hm
          subst this
          rfl
        | str id =>
          have e := hk.name id hd'
          have hm' : t.name = some id := hm
          rw [e] at hm'
          cases t with
          | f64 => rfl
          | f32 => exact absurd hm' (by decide)
          | rational => exact absurd hm' (by decide)
          | poly => cases hm'
          | other n => cases hm'
        | npy t' =>
          cases t' with
          | none => exact absurd hm id
          | some t' =>
            have : t' = t := hm
            subst this
            rfl
        | other => exact absurd hm id
      rw [this] at g5
      rw [ht t g5]
      rfl

/-- C130, the part that holds: a `TickStream` or `LieIncrementStream` that is made has the context
given, or a context with the width, the depth and the scalar type given — for arguments of the kind
`KW.Plain`, whatever the data.
Missing: the requests that are replaced (`C130_replaced_refuted`), refused (`C130_time_refuted`) or
ignored (`C130_type_refuted`), function streams (`C130_function_refuted`). -/
theorem C130_honoured_partial (k : KW) (hk : k.Plain) (parse : Schema → Out Schema)
    (dataType : Option CType) (columns : ℤ) (m : PyMeta)
    (h : tickMeta k parse = .ok m ∨ incrementMeta k dataType columns = .ok m) :
    ∃ c, m.ctx = some c ∧ k.Wants c := by
  rcases h with h | h
  · obtain ⟨m0, h0, h1⟩ := Out.bind_ok h
    obtain ⟨s, _, h2⟩ := Out.bind_ok h1
    exact wants_core hk h0 h2 rfl (fun _ => rfl) rfl (fun _ e => e)
  · obtain ⟨m0, m1, h0, h2, _, e2, e3, _, e5, e6, _⟩ := incrementMeta_ok h
    exact wants_core hk h0 h2 e2 e6 e3 e5

/-- C130: the resolution and the support asked for are those of the metadata. -/
theorem C130_resolution (k : KW) (parse : Schema → Out Schema) (m : PyMeta) (h : tickMeta k parse = .ok m) :
    m.resolution = k.resolution ∧ (∀ i, k.support = some (some i) → m.support = some i) := by
  obtain ⟨m0, h0, h1⟩ := Out.bind_ok h
  obtain ⟨s, _, h2⟩ := Out.bind_ok h1
  obtain ⟨_, _, _, _, _, _, a5⟩ := finalizeSchema_ok h2
  obtain ⟨_, g2, _, _, _, g6, _⟩ := kwargs_ok h0
  rw [a5]
  refine ⟨g2, fun i hi => ?_⟩
  rcases g6 with ⟨q, _⟩ | ⟨j, q1, q2⟩
  · rw [hi] at q; cases q
  · rw [hi] at q1
    rw [Option.some.inj (Option.some.inj q1)]
    exact q2

example : (⟨some threeChannels, none, false, some ⟨3, 4, .f32⟩, none, none, none, none, none, none, none, none⟩ :
      KW).Plain ∧
    (incrementMeta ⟨some threeChannels, none, false, some ⟨3, 4, .f32⟩, none, none, none, none, none, none, none,
      none⟩ (some .f64) 3).bind (fun m => .ok m.ctx) = .ok (some ⟨3, 4, .f32⟩) := by
  refine ⟨⟨rfl, rfl, by decide, by decide, ?_, fun _ h => (by cases h)⟩, by decide +kernel⟩
  intro c hc
  rw [← Option.some.inj hc]
  refine ⟨by decide, by decide, fun g hg => ?_⟩
  rw [← Option.some.inj hg]
  decide +kernel

/-- C130 fails: a context is replaced without a word if a schema of another width is given; a schema is
replaced by channels given as a list. -/
theorem C130_replaced_refuted :
    (incrementMeta { schema := some threeChannels, ctx := some ⟨2, 2, .f64⟩ } (some .f64) 3).bind
      (fun m => .ok m.ctx) = .ok (some ⟨3, 2, .f64⟩) ∧
    (incrementMeta
        { schema := some threeChannels, channelTypes := some (.listed [.value, .value]), depth := some 2 }
        (some .f64) 2).bind
      (fun m => .ok m.schema.channels) = .ok [("0".toList, .value false), ("1".toList, .value false)] := by
  refine ⟨?_, ?_⟩ <;> decide +kernel

/-- C130 fails: `include_time=True` together with a schema always raises, whatever else is given (but
channels as a list or dictionary, which replace the schema). -/
theorem C130_time_refuted (k : KW) (g : Schema) (h : k.schema = some g) (ht : k.includeTime = true)
    (hc : k.channelTypes = none) : kwargsToMetadata k = .raised .value := by
  have hg : givenSchema (some g) = some (some { g with isFinal := true }) := by
    unfold givenSchema
    dsimp only
    cases hf : g.isFinal with
    | true => rw [if_pos rfl]; congr 2; rw [← hf]
    | false => rw [if_neg (by simp), finalize_zero]; rfl
  unfold kwargsToMetadata
  rw [h, hg, hc, ht]
  rfl

/-- C130 fails for scalar types: every name is taken for the name of doubles, and an object that is not
a scalar type is ignored. -/
theorem C130_type_refuted :
    (incrementMeta { dtype := some (.str "f32".toList), width := some 2, depth := some 2 } (some .f64) 2).bind
      (fun m => .ok m.ctx) = .ok (some ⟨2, 2, .f64⟩) ∧
    ¬ KW.Wants { dtype := some (.str "f32".toList), width := some 2, depth := some 2 } ⟨2, 2, .f64⟩ ∧
    (incrementMeta { dtype := some .other, width := some 2, depth := some 2 } (some .f64) 2).bind
      (fun m => .ok m.ctx) = .ok (some ⟨2, 2, .f64⟩) := by
  refine ⟨by decide +kernel, fun h => ?_, by decide +kernel⟩
  exact absurd (h.2.2 _ .f32 rfl rfl) (by decide)

/-- C130 fails for function streams: with a width and a depth but without a scalar type the stream is
made without a context, and its first query is undefined behaviour. -/
theorem C130_function_refuted :
    functionMeta { width := some 2, depth := some 2 } = .ok ⟨2, none, none, 0⟩ ∧
    signatureCall ⟨2, none, none, 0⟩ ⟨0, 1, .clopen⟩ {} = .undefined := by
  refine ⟨?_, ?_⟩ <;> decide +kernel

/-! ## C131 — the time channel -/

/-- C131 for `TickStream.from_data` with `include_time=True`: if the data have `n` dimensions, and the
width given (if any) is `n` or `n + 1`, the stream has width `n + 1`, and time is the last channel. -/
theorem C131_tick (k : KW) (parse : Schema → Out Schema) (m m0 : PyMeta) (s : Schema)
    (ht : k.includeTime = true) (h0 : kwargsToMetadata k = .ok m0) (hs : parse m0.schema = .ok s)
    (hfin : s.isFinal = false) (hadd : s.needsAdding = true) (h : tickMeta k parse = .ok m)
    (hx : k.ctx = none) (hx' : k.context = none)
    (hw : ∀ w, k.width = some w → w = s.widthWithoutParam ∨ w = s.widthWithoutParam + 1) :
    m.width = s.widthWithoutParam + 1 ∧ (m.schema.timeKey : ℤ) = m.width := by
  obtain ⟨m0', e0, h1⟩ := Out.bind_ok h
  rw [h0] at e0
  have := Out.ok.inj e0
  subst this
  obtain ⟨s', e1, h2⟩ := Out.bind_ok h1
  rw [hs] at e1
  have := Out.ok.inj e1
  subst this
  obtain ⟨g1, _, _, _, _, _, g7, _, _, _, g11, _⟩ := kwargs_ok h0
  have hcfg : (algebraConfig k).ctx = none := by
    show (match k.ctx with | some c => some c | none => k.context) = _
    rw [hx, hx']
  have hmw := g11 (g7 ht).1
  rw [hcfg] at hmw
  dsimp only at hmw
  have hsw : s.width = s.widthWithoutParam + 1 := by
    unfold Schema.width
    rw [hadd]
    rfl
  have hle : m0.width ≤ s.widthWithoutParam + 1 := by
    cases hk : k.width with
    | none => rw [hk] at hmw; rw [hmw]; show (0 : ℤ) ≤ _; omega
    | some w =>
      rw [hk] at hmw
      have : m0.width = w := hmw
      rcases hw w hk with e | e <;> omega
  obtain ⟨f, w, a1, a2, a3, _, a5⟩ := finalizeSchema_ok h2
  obtain ⟨b1, b2, b3, b4, b5⟩ := settleWidth_ok a3
  have hfs : f = { s with isFinal := true } := by
    unfold lastMinuteSetup at a1
    dsimp only at a1
    rw [hfin, if_neg (by simp), show (m0.width - (s.width : ℤ)).toNat = 0 from by omega] at a1
    have e : (if m0.includeTime = true then { s with needsAdding := true } else s) = s := by
      rw [g1, ht, if_pos rfl, ← hadd]
    have a1' : (if m0.includeTime = true then { s with needsAdding := true } else s).finalize 0 = some f := a1
    rw [e, finalize_zero] at a1'
    exact (Option.some.inj a1').symm
  have hfw : f.width = s.widthWithoutParam + 1 := by rw [hfs, ← hsw]; rfl
  rw [hfw] at b1 b2 b3
  dsimp only at b2 b3
  have hw' : w = s.widthWithoutParam + 1 := by
    push_cast at b1 b2 b3
    rcases b2 with b2 | b2 <;> omega
  rw [a5]
  refine ⟨hw', ?_⟩
  show (f.timeKey : ℤ) = w
  have : f.timeKey = s.widthWithoutParam + 1 := by
    rw [hfs]
    show (if s.needsAdding = true then s.widthWithoutParam + 1 else 0) = _
    rw [hadd]
    rfl
  rw [this, hw']
  push_cast
  rfl

/-- What `from_increments(include_time=True)` makes of a width. -/
theorem increment_time {w d : ℤ} (hw : 2 ≤ w) (hd : d ≠ 0) (t : CType) (hs : Supported t) (columns : ℤ) (k : KW)
    (hk : kwargsToMetadata k = .ok ⟨w, d, none, none, some t, none, { needsAdding := true }, .increment, true⟩ ∨
      (w = columns ∧
        kwargsToMetadata k = .ok ⟨0, d, none, none, some t, none, { needsAdding := true }, .increment, true⟩)) :
    ∃ m, incrementMeta k none columns = .ok m ∧ m.width = w ∧ (m.schema.timeKey : ℤ) = w := by
  obtain ⟨s, e1, e2, e3, e4⟩ := insertMany_free .increment (by decide) (w - 1).toNat { needsAdding := true } rfl
    (fun c hc => by cases hc)
  have hsw : (s.width : ℤ) = w := by
    rw [e2, show ({ needsAdding := true } : Schema).width = 1 from rfl]
    push_cast
    omega
  have hgc : getContext w d (some t) = some ⟨w, d, t⟩ := getContext_supported hs w d
  have hfinal : ∀ c : Ctx, c = ⟨w, d, t⟩ → finalizeSchema
      ⟨w, d, none, some c, some t, none, { needsAdding := true }, .increment, true⟩ =
      .ok ⟨w, d, none, some c, some t, none, { s with isFinal := true }, .increment, true⟩ := by
    intro c hc
    have hl : lastMinuteSetup ⟨w, d, none, some c, some t, none, { needsAdding := true }, .increment, true⟩ =
        some { s with isFinal := true } := by
      unfold lastMinuteSetup
      dsimp only
      rw [if_neg (by simp), show ((({ needsAdding := true } : Schema).width : ℕ) : ℤ) = 1 from rfl, e1]
      dsimp only
      rw [if_pos rfl, finalize_zero]
      have hna : s.needsAdding = true := e4
      cases s
      dsimp only at hna ⊢
      rw [hna]
    have hfw : (({ s with isFinal := true } : Schema).width : ℤ) = w := hsw
    unfold finalizeSchema
    rw [hl]
    dsimp only
    rw [if_neg (by omega), if_neg (fun h => by have := h.2; omega)]
    have hset : settleWidth ⟨w, d, none, some c, some t, none, { needsAdding := true }, .increment, true⟩
        (({ s with isFinal := true } : Schema).width : ℤ) = .ok w := by
      unfold settleWidth
      dsimp only
      rw [if_neg (by omega), hfw, if_neg (by omega)]
    rw [hset]
    show (if w ≠ c.width ∨ (if d = 0 then 2 else d) ≠ c.depth ∨ t ≠ c.ctype then _ else _) = _
    rw [if_neg hd, hc, if_neg (by simp)]
    rfl
  have htk : ((({ s with isFinal := true } : Schema).timeKey : ℕ) : ℤ) = w := by
    rw [← hsw]
    have : s.needsAdding = true := e4
    show (((if s.needsAdding = true then s.widthWithoutParam + 1 else 0) : ℕ) : ℤ) =
      ((if s.needsAdding = true then s.widthWithoutParam + 1 else s.widthWithoutParam : ℕ) : ℤ)
    rw [this]
    rfl
  refine ⟨⟨w, d, none, some ⟨w, d, t⟩, some t, none, { s with isFinal := true }, .increment, true⟩, ?_, rfl, htk⟩
  · unfold incrementMeta
    rcases hk with hk | ⟨hc, hk⟩
    · rw [hk]
      show (if (if w = 0 then columns else w) = 0 ∨ d = 0 then _ else _) = _
      rw [if_neg (show ¬ w = 0 by omega), if_neg (by omega)]
      show (match getContext w d (some t) with | none => _ | some c => _) = _
      rw [hgc]
      exact hfinal _ rfl
    · rw [hk]
      show (if (if (0 : ℤ) = 0 then columns else 0) = 0 ∨ d = 0 then _ else _) = _
      rw [if_pos rfl, ← hc, if_neg (by omega)]
      show (match getContext w d (some t) with | none => _ | some c => _) = _
      rw [hgc]
      exact hfinal _ rfl

/-- C131, the part that holds for `LieIncrementStream.from_increments(data, include_time=True)`: if the
width asked for is one more than the number of columns of the data, time has a channel of its own, the
last one.
Missing: without a width (`C131_time_refuted`). -/
theorem C131_increment_partial (columns d : ℤ) (hc : 1 ≤ columns) (hd : d ≠ 0) (t : CType) (hs : Supported t) :
    ∃ m, incrementMeta
        { includeTime := true, width := some (columns + 1), depth := some d, dtype := some (.scalar t) }
        none columns = .ok m ∧
      m.width = columns + 1 ∧ (m.schema.timeKey : ℤ) = columns + 1 :=
  increment_time (by omega) hd t hs columns _ (Or.inl rfl)

/-- C131 fails for `from_increments(data, include_time=True)` without a width: the stream has as many
channels as the data, and time takes the place of the last column. -/
theorem C131_time_refuted (columns d : ℤ) (hc : 2 ≤ columns) (hd : d ≠ 0) (t : CType) (hs : Supported t) :
    ∃ m, incrementMeta { includeTime := true, depth := some d, dtype := some (.scalar t) } none columns = .ok m ∧
      m.width = columns ∧ (m.schema.timeKey : ℤ) = columns :=
  increment_time (by omega) hd t hs columns _ (Or.inr ⟨rfl, rfl⟩)

/-- Two rows agree but for the last of `n + 1` columns. -/
def SameButLast (n : ℕ) (a b : ℚ × List ℚ) : Prop :=
  a.1 = b.1 ∧ a.2.length = n + 1 ∧ b.2.length = n + 1 ∧ a.2.take n = b.2.take n

/-- C131 fails: the last column of the data is not used.  Data that agree but for their last column (of
`n + 1`) give the same stream, as time is written to the coordinate of this column. -/
theorem C131_column_lost_refuted (n : ℕ) (rows rows' : List (ℚ × List ℚ))
    (h : List.Forall₂ (SameButLast n) rows rows') :
    incrementDataTime (fun x v => x.set n v) rows = incrementDataTime (fun x v => x.set n v) rows' := by
  have hset : ∀ (x y : List ℚ) (v : ℚ), x.length = n + 1 → y.length = n + 1 → x.take n = y.take n →
      x.set n v = y.set n v := by
    intro x y v hx hy hxy
    rw [List.set_eq_take_append_cons_drop, List.set_eq_take_append_cons_drop, if_pos (by omega),
      if_pos (by omega), hxy, List.drop_of_length_le (by omega), List.drop_of_length_le (by omega)]
  have key : ∀ st : List (ℚ × List ℚ) × ℚ,
      rows.foldl (fun st r => (emplace r.1 (r.2.set n (r.1 - st.2)) st.1, r.1)) st =
      rows'.foldl (fun st r => (emplace r.1 (r.2.set n (r.1 - st.2)) st.1, r.1)) st := by
    induction h with
    | nil => intro st; rfl
    | @cons a b rows rows' hab _ ih =>
      intro st
      rw [List.foldl_cons, List.foldl_cons, hset a.2 b.2 (a.1 - st.2) hab.2.1 hab.2.2.1 hab.2.2.2, hab.1]
      exact ih _
  unfold incrementDataTime
  rw [key]

example : incrementDataTime (fun x v => x.set 1 v) [(1/2, [5, 7]), (2, [6, 8])] =
    [(1/2, [5, 1/2]), (2, [6, 3/2])] := by decide +kernel

/-- With one column, time would be the only channel: `include_time=True` raises. -/
theorem C131_one_column_refuted :
    incrementMeta { includeTime := true, depth := some 2 } (some .f64) 1 = .raised .value := by decide +kernel

end RoughPy.Query
