import Verif.Query.Spec
import Verif.Query.Lemmas

/-!
# Lemmas about the metadata of a new stream
-/

namespace RoughPy.Query

open RoughPy.Intervals RoughPy.Schema

/-! ## Schemas -/

theorem Schema_width_push (s : Schema) (l : Str) (k : ChanKind) (hk : k ≠ .categorical) :
    ({ s with channels := s.channels ++ [(l, k.channel)] } : Schema).width = s.width + 1 := by
  unfold Schema.width
  rw [widthWithoutParam_eq, widthWithoutParam_eq]
  have h1 : k.channel.numVariants = 1 := by
    cases k with
    | increment => rfl
    | value => rfl
    | categorical => exact absurd rfl hk
    | lie => rfl
  show (if s.needsAdding = true then _ else _) = _
  simp only [List.map_append, List.sum_append, List.map_cons, List.map_nil, List.sum_cons, List.sum_nil]
  rw [h1]
  split <;> omega

theorem insertMany_free (k : ChanKind) (hk : k ≠ .categorical) : ∀ (n : ℕ) (s : Schema),
    s.isFinal = false → NoDefaultLabels s →
    ∃ s', insertMany k n s = some s' ∧ s'.width = s.width + n ∧ s'.isFinal = false ∧
      s'.needsAdding = s.needsAdding := by
  intro n
  induction n with
  | zero => intro s h1 _; exact ⟨s, rfl, rfl, h1, rfl⟩
  | succ n ih =>
    intro s h1 h2
    obtain ⟨s', e1, e2, e3, e4⟩ := ih { s with channels := s.channels ++ [(toStr s.channels.length, k.channel)] }
      h1 (Free.push (s := s) h2 k.channel)
    refine ⟨s', ?_, ?_, e3, e4⟩
    · unfold insertMany
      rw [insert_default h1 (fun c hc => h2 c hc _ (le_refl _))]
      exact e1
    · rw [e2, Schema_width_push s _ k hk]
      omega

theorem insert_width {s s' : Schema} {l : Str} {k : ChanKind} {i : ℕ}
    (h : s.insert l k.channel = some (s', i)) :
    s.isFinal = false ∧ s'.isFinal = false ∧ s'.needsAdding = s.needsAdding ∧ s'.width ≤ s.width + 1 ∧
      s.width ≤ s'.width := by
  obtain ⟨h0, l', _, h | ⟨_, _, rfl⟩⟩ := insert_cases h
  · rw [h.2]; exact ⟨h0, h0, rfl, by omega, le_refl _⟩
  · refine ⟨h0, h0, rfl, ?_, ?_⟩
    · unfold Schema.width
      rw [widthWithoutParam_eq, widthWithoutParam_eq]
      have h1 : k.channel.numVariants ≤ 1 := by cases k <;> decide
      show (if s.needsAdding = true then _ else _) ≤ _
      simp only [List.map_append, List.sum_append, List.map_cons, List.map_nil, List.sum_cons, List.sum_nil]
      split <;> omega
    · unfold Schema.width
      rw [widthWithoutParam_eq, widthWithoutParam_eq]
      show _ ≤ (if s.needsAdding = true then _ else _)
      simp only [List.map_append, List.sum_append, List.map_cons, List.map_nil, List.sum_cons, List.sum_nil]
      split <;> omega

theorem insertMany_width {k : ChanKind} : ∀ {n : ℕ} {s s' : Schema}, insertMany k n s = some s' →
    s'.width ≤ s.width + n ∧ s.width ≤ s'.width ∧ s'.isFinal = s.isFinal ∧
      s'.needsAdding = s.needsAdding := by
  intro n
  induction n with
  | zero =>
    intro s s' h
    have := Option.some.inj h
    subst this
    exact ⟨by omega, le_refl _, rfl, rfl⟩
  | succ n ih =>
    intro s s' h
    unfold insertMany at h
    cases hi : s.insert [] k.channel with
    | none => rw [hi] at h; cases h
    | some p =>
      rw [hi] at h
      obtain ⟨a1, a2, a3, a4, a5⟩ := insert_width (i := p.2) hi
      obtain ⟨b1, b2, b3, b4⟩ := ih h
      exact ⟨by omega, by omega, by rw [b3, a1, a2], by rw [b4, a3]⟩

theorem finalize_zero (s : Schema) : s.finalize 0 = some { s with isFinal := true } := by
  unfold Schema.finalize
  rw [if_neg (by omega), show (0 - (s.width : ℤ)).toNat = 0 from by omega]
  rfl

theorem insertAll_notFinal : ∀ {l : List (Str × ChanKind)} {s s' : Schema}, insertAll l s = some s' →
    s.isFinal = false → s'.isFinal = false ∧ s'.needsAdding = s.needsAdding := by
  intro l
  induction l with
  | nil =>
    intro s s' h hf
    have := Option.some.inj h
    subst this
    exact ⟨hf, rfl⟩
  | cons p l ih =>
    intro s s' h hf
    unfold insertAll at h
    cases hi : s.insert p.1 p.2.channel with
    | none => rw [hi] at h; cases h
    | some q =>
      rw [hi] at h
      obtain ⟨_, a2, a3, _⟩ := insert_width (i := q.2) hi
      obtain ⟨b1, b2⟩ := ih h a2
      exact ⟨b1, by rw [b2, a3]⟩

/-! ## `finalize_schema` -/

/-- What `last_minute_setup` does. -/
theorem lastMinute_ok {m : PyMeta} {s : Schema} (h : lastMinuteSetup m = some s) :
    s.isFinal = true ∧ m.schema.width ≤ s.width ∧
      (m.schema.isFinal = true → s = m.schema) ∧
      (m.includeTime = true → m.schema.isFinal = false → s.needsAdding = true) ∧
      ((m.includeTime = true → m.schema.needsAdding = true) →
        (s.width : ℤ) ≤ max (m.schema.width : ℤ) m.width ∧ s.needsAdding = m.schema.needsAdding) := by
  unfold lastMinuteSetup at h
  cases hf : m.schema.isFinal with
  | true =>
    rw [hf, if_pos rfl] at h
    have := Option.some.inj h
    subst this
    exact ⟨hf, le_refl _, fun _ => rfl, fun _ h => (by cases h), fun _ => ⟨le_max_left _ _, rfl⟩⟩
  | false =>
    rw [hf, if_neg (by simp)] at h
    cases hi : insertMany m.channel (m.width - m.schema.width).toNat m.schema with
    | none => rw [hi] at h; cases h
    | some s1 =>
      rw [hi] at h
      dsimp only at h
      rw [finalize_zero] at h
      have := Option.some.inj h
      subst this
      obtain ⟨a1, a2, a3, a4⟩ := insertMany_width hi
      have hw : ∀ x : Schema, ({ x with isFinal := true } : Schema).width = x.width := fun _ => rfl
      cases ht : m.includeTime with
      | false =>
        rw [if_neg (by simp)]
        refine ⟨rfl, a2, fun h => (by cases h), fun h => (by cases h), fun _ => ⟨?_, a4⟩⟩
        rw [hw]
        omega
      | true =>
        rw [if_pos rfl]
        refine ⟨rfl, ?_, fun h => (by cases h), fun _ _ => rfl, fun hx => ?_⟩
        · rw [hw]
          refine le_trans a2 ?_
          unfold Schema.width
          show _ ≤ s1.widthWithoutParam + 1
          split <;> omega
        · have hn := hx rfl
          have : ({ s1 with needsAdding := true } : Schema) = s1 := by
            rw [show true = s1.needsAdding from by rw [a4, hn]]
          rw [this]
          refine ⟨?_, a4⟩
          rw [hw]
          omega

/-- What `finalize_schema` does. -/
theorem finalizeSchema_ok {m m' : PyMeta} (h : finalizeSchema m = .ok m') :
    ∃ s w, lastMinuteSetup m = some s ∧ s.width ≠ 0 ∧ settleWidth m s.width = .ok w ∧
      ¬ (m.includeTime = true ∧ s.width = 1) ∧
      m' = { m with
        width := w, depth := (if m.depth = 0 then 2 else m.depth), ctype := some (m.ctype.getD .f64),
        ctx := some ⟨w, (if m.depth = 0 then 2 else m.depth), m.ctype.getD .f64⟩, schema := s } := by
  unfold finalizeSchema at h
  cases hl : lastMinuteSetup m with
  | none => rw [hl] at h; cases h
  | some s =>
    rw [hl] at h
    dsimp only at h
    by_cases h0 : s.width = 0
    · rw [if_pos h0] at h; cases h
    · rw [if_neg h0] at h
      by_cases h1 : m.includeTime = true ∧ s.width = 1
      · rw [if_pos h1] at h; cases h
      · rw [if_neg h1] at h
        obtain ⟨w, hw, h2⟩ := Out.bind_ok h
        refine ⟨s, w, rfl, h0, hw, h1, ?_⟩
        have key : ∀ c', getContext w (if m.depth = 0 then 2 else m.depth) (some (m.ctype.getD .f64)) = some c' →
            c' = ⟨w, (if m.depth = 0 then 2 else m.depth), m.ctype.getD .f64⟩ := by
          intro c' hc
          obtain ⟨f1, f2, f3, _⟩ := getContext_some hc
          obtain ⟨a, b, c⟩ := c'
          dsimp only at f1 f2 f3
          rw [f1, f2, Option.some.inj f3]
        cases hx : m.ctx with
        | none =>
          rw [hx] at h2
          dsimp only at h2
          split at h2
          · cases h2
          · rename_i c' hc
            rw [← Out.ok.inj h2, key c' hc]
        | some c =>
          rw [hx] at h2
          dsimp only at h2
          by_cases hne : w ≠ c.width ∨ (if m.depth = 0 then 2 else m.depth) ≠ c.depth ∨ m.ctype.getD .f64 ≠ c.ctype
          · rw [if_pos hne] at h2
            split at h2
            · cases h2
            · rename_i c' hc
              rw [← Out.ok.inj h2, key c' hc]
          · rw [if_neg hne] at h2
            push_neg at hne
            rw [← Out.ok.inj h2]
            obtain ⟨a, b, e⟩ := c
            dsimp only at hne
            rw [hne.1, hne.2.1, hne.2.2]

theorem settleWidth_ok {m : PyMeta} {sw w : ℤ} (h : settleWidth m sw = .ok w) :
    sw ≤ w ∧ (w = sw ∨ w = m.width) ∧ (m.width = 0 → w = sw) ∧
      (m.includeTime = false → m.width ≠ 0 → w = m.width) ∧
      (m.width ≠ 0 → m.width ≤ w ∧ w ≤ m.width + 1) := by
  unfold settleWidth at h
  by_cases h0 : m.width = 0
  · rw [if_pos h0] at h
    have := Out.ok.inj h
    subst this
    exact ⟨le_refl _, Or.inl rfl, fun _ => rfl, fun _ h => absurd h0 h, fun h => absurd h0 h⟩
  · rw [if_neg h0] at h
    by_cases h1 : m.width < sw
    · rw [if_pos h1] at h
      by_cases h2 : m.includeTime = false ∨ m.width + 1 < sw
      · rw [if_pos h2] at h; cases h
      · rw [if_neg h2] at h
        have := Out.ok.inj h
        subst this
        push_neg at h2
        exact ⟨le_refl _, Or.inl rfl, fun _ => rfl, fun h => absurd h h2.1, fun _ => ⟨by omega, h2.2⟩⟩
    · rw [if_neg h1] at h
      have := Out.ok.inj h
      subst this
      exact ⟨by omega, Or.inr rfl, fun h => absurd h h0, fun _ _ => rfl, fun _ => ⟨le_refl _, by omega⟩⟩

/-! ## `kwargs_to_metadata` -/

theorem givenSchema_ok {k : Option Schema} {s : Option Schema} (h : givenSchema k = some s) :
    (k = none ∧ s = none) ∨ ∃ g, k = some g ∧ s = some { g with isFinal := true } := by
  unfold givenSchema at h
  cases k with
  | none => exact Or.inl ⟨rfl, (Option.some.inj h).symm⟩
  | some g =>
    right
    dsimp only at h
    cases hf : g.isFinal with
    | true =>
      rw [hf, if_pos rfl] at h
      refine ⟨g, rfl, ?_⟩
      rw [← Option.some.inj h]
      congr 1
      rw [← hf]
    | false =>
      rw [hf, if_neg (by simp), finalize_zero] at h
      exact ⟨g, rfl, (Option.some.inj h).symm⟩

/-- What `kwargs_to_metadata` does. -/
theorem kwargs_ok {k : KW} {m : PyMeta} (h : kwargsToMetadata k = .ok m) :
    m.includeTime = k.includeTime ∧ m.resolution = k.resolution ∧
    m.ctx = (algebraConfig k).ctx ∧
    m.depth = (match (algebraConfig k).ctx with | some x => x.depth | none => k.depth.getD 0) ∧
    m.ctype = (match (algebraConfig k).ctx with | some x => some x.ctype | none => (algebraConfig k).ctype) ∧
    (k.support = none ∧ m.support = none ∨ ∃ i, k.support = some (some i) ∧ m.support = some i) ∧
    (k.includeTime = true → m.schema.isFinal = false ∧ m.schema.needsAdding = true) ∧
    (k.schema = none → m.schema.isFinal = false) ∧
    (k.includeTime = false → m.schema.isFinal = false → m.schema.needsAdding = false) ∧
    (m.schema.isFinal = true → ∃ g, k.schema = some g ∧ m.schema = { g with isFinal := true } ∧
      ((k.width = none ∧ m.width = m.schema.width) ∨
        (k.width = some (m.schema.width : ℤ) ∧
          m.width = (match (algebraConfig k).ctx with | some x => x.width | none => (m.schema.width : ℤ))))) ∧
    (m.schema.isFinal = false →
      m.width = (match (algebraConfig k).ctx with | some x => x.width | none => k.width.getD 0)) ∧
    (k.schema = none → k.channelTypes = none → m.schema.channels = [] ∧ m.channel = .increment) := by
  unfold kwargsToMetadata at h
  cases hg : givenSchema k.schema with
  | none => rw [hg] at h; cases h
  | some s0 =>
    rw [hg] at h
    dsimp only at h
    cases ht : applyTypes s0 k.channelTypes with
    | none => rw [ht] at h; cases h
    | some p =>
      obtain ⟨s1, kind⟩ := p
      rw [ht] at h
      dsimp only at h
      obtain ⟨s, hs, h2⟩ := Out.bind_ok h
      obtain ⟨wdt, hw, h3⟩ := Out.bind_ok h2
      -- the schema before `include_time`
      have hs1 : (s1.isFinal = false ∧ s1.needsAdding = false) ∨
          ∃ g, k.schema = some g ∧ s1 = { g with isFinal := true } := by
        have hgd : (s0.getD {}).isFinal = false ∧ (s0.getD {}).needsAdding = false ∨
            ∃ g, k.schema = some g ∧ s0.getD {} = { g with isFinal := true } := by
          rcases givenSchema_ok hg with ⟨_, e⟩ | ⟨g, e1, e2⟩
          · rw [e]; exact Or.inl ⟨rfl, rfl⟩
          · rw [e2]; exact Or.inr ⟨g, e1, rfl⟩
        unfold applyTypes at ht
        split at ht
        · rw [← (Prod.mk.inj (Option.some.inj ht)).1]; exact hgd
        · rw [← (Prod.mk.inj (Option.some.inj ht)).1]; exact hgd
        · rename_i l _
          cases hi : insertAll l {} with
          | none => rw [hi] at ht; cases ht
          | some s' =>
            rw [hi] at ht
            obtain ⟨a, b⟩ := insertAll_notFinal hi rfl
            rw [← (Prod.mk.inj (Option.some.inj ht)).1]
            exact Or.inl ⟨a, b⟩
        · rename_i l _
          cases hi : insertAll (l.map fun k => (([] : Str), k)) {} with
          | none => rw [hi] at ht; cases ht
          | some s' =>
            rw [hi] at ht
            obtain ⟨a, b⟩ := insertAll_notFinal hi rfl
            rw [← (Prod.mk.inj (Option.some.inj ht)).1]
            exact Or.inl ⟨a, b⟩
        · rw [← (Prod.mk.inj (Option.some.inj ht)).1]; exact hgd
      have hs2 : (k.includeTime = true → s.isFinal = false ∧ s.needsAdding = true ∧ s.channels = s1.channels ∧
          s1.isFinal = false) ∧
          (k.includeTime = false → s = s1) := by
        unfold applyTime at hs
        cases hb : k.includeTime with
        | false =>
          rw [hb] at hs
          exact ⟨fun h => (by cases h), fun _ => (Out.ok.inj hs).symm⟩
        | true =>
          rw [hb, if_pos rfl] at hs
          cases hf : s1.isFinal with
          | true => rw [hf, if_pos rfl] at hs; cases hs
          | false =>
            rw [hf, if_neg (by simp)] at hs
            rw [← Out.ok.inj hs]
            exact ⟨fun _ => ⟨by first | rfl | exact hf, rfl, rfl, by first | rfl | exact hf⟩, fun h => (by cases h)⟩
      have hfin : s.isFinal = true → s = s1 ∧ ∃ g, k.schema = some g ∧ s1 = { g with isFinal := true } := by
        intro hf
        have hb : k.includeTime = false := by
          cases hb : k.includeTime with
          | false => rfl
          | true => rw [(hs2.1 hb).1] at hf; cases hf
        refine ⟨hs2.2 hb, ?_⟩
        rcases hs1 with ⟨a, _⟩ | a
        · rw [hs2.2 hb, a] at hf; cases hf
        · exact a
      have hm : m = ⟨wdt.1, wdt.2.1, m.support, (algebraConfig k).ctx, wdt.2.2, k.resolution, s, kind,
          k.includeTime⟩ ∧ (k.support = none ∧ m.support = none ∨ ∃ i, k.support = some (some i) ∧ m.support = some i) := by
        rcases hsup : k.support with _ | _ | i
        · rw [hsup] at h3
          have := Out.ok.inj h3
          subst this
          exact ⟨rfl, Or.inl ⟨rfl, rfl⟩⟩
        · rw [hsup] at h3; cases h3
        · rw [hsup] at h3
          have := Out.ok.inj h3
          subst this
          exact ⟨rfl, Or.inr ⟨i, rfl, rfl⟩⟩
      have halg : wdt.2.1 = (match (algebraConfig k).ctx with | some x => x.depth | none => k.depth.getD 0) ∧
          wdt.2.2 = (match (algebraConfig k).ctx with | some x => some x.ctype | none => (algebraConfig k).ctype) ∧
          (s.isFinal = true → ((k.width = none ∧ wdt.1 = s.width) ∨
            (k.width = some (s.width : ℤ) ∧
              wdt.1 = (match (algebraConfig k).ctx with | some x => x.width | none => (s.width : ℤ))))) ∧
          (s.isFinal = false →
            wdt.1 = (match (algebraConfig k).ctx with | some x => x.width | none => k.width.getD 0)) := by
        unfold applyAlgebra at hw
        dsimp only at hw
        have hwid : (algebraConfig k).width = k.width := rfl
        have hdep : (algebraConfig k).depth = k.depth := rfl
        rw [hwid, hdep] at hw
        cases hf : s.isFinal with
        | false =>
          rw [hf, if_neg (by simp)] at hw
          rw [← Out.ok.inj hw]
          exact ⟨rfl, rfl, fun h => (by cases h), fun _ => rfl⟩
        | true =>
          rw [hf, if_pos rfl] at hw
          cases hkw : k.width with
          | none =>
            rw [hkw] at hw
            dsimp only at hw
            rw [← Out.ok.inj hw]
            exact ⟨rfl, rfl, fun _ => Or.inl ⟨rfl, rfl⟩, fun h => (by cases h)⟩
          | some w =>
            rw [hkw] at hw
            dsimp only at hw
            by_cases hne : (s.width : ℤ) ≠ w
            · rw [if_pos hne] at hw; cases hw
            · rw [if_neg hne] at hw
              have hne' := not_not.1 hne
              rw [← Out.ok.inj hw]
              refine ⟨rfl, rfl, fun _ => Or.inr ⟨by rw [hne'], ?_⟩, fun h => (by cases h)⟩
              rw [hne']
              rfl
      rw [hm.1]
      refine ⟨rfl, rfl, rfl, halg.1, halg.2.1, hm.2, ?_, ?_, ?_, ?_, halg.2.2.2, ?_⟩
      · intro hb
        exact ⟨(hs2.1 hb).1, (hs2.1 hb).2.1⟩
      · intro hn
        cases hf : s.isFinal with
        | false => rfl
        | true =>
          obtain ⟨_, g, e, _⟩ := hfin hf
          rw [hn] at e; cases e
      · intro hb hf
        dsimp only at hf ⊢
        rw [hs2.2 hb] at hf ⊢
        rcases hs1 with ⟨_, a⟩ | ⟨g, _, e⟩
        · exact a
        · rw [e] at hf; cases hf
      · intro hf
        obtain ⟨e1, g, e2, e3⟩ := hfin hf
        refine ⟨g, e2, by dsimp only; rw [e1, e3], halg.2.2.1 hf⟩
      · intro hn hc
        dsimp only
        rw [hn] at hg
        rw [← Option.some.inj hg, hc] at ht
        have := Prod.mk.inj (Option.some.inj ht)
        have hch : s1.channels = [] := by rw [← this.1]; rfl
        refine ⟨?_, this.2.symm⟩
        cases hb : k.includeTime with
        | false => rw [hs2.2 hb]; exact hch
        | true => rw [(hs2.1 hb).2.2.1]; exact hch

end RoughPy.Query
