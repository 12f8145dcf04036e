import Verif.Ticks.Lemmas

/-!
# C138 and C139: recording ticks

Each theorem is followed by a case that meets its hypotheses.
-/

namespace RoughPy.Ticks

open RoughPy.Schema (Str Channel PlainLabel TickType)

/-! ## C138 -/

theorem convertDelta_isTime {k : TimeKind} {t u : Time} {q p : ℚ} (ht : IsTime k t q) (hu : IsTime k u p) :
    convertDelta .seconds t u = some (q - p) := by
  cases k with
  | float => rw [IsTime] at ht hu; subst ht hu; rfl
  | datetime a =>
    rw [IsTime] at ht hu; subst ht hu
    simp [convertDelta, genericToTimestamp, subtract, Resolution.delta]

theorem isTime_ne_none {k : TimeKind} {t : Time} {q : ℚ} (h : IsTime k t q) : t ≠ .none := by
  cases k with
  | float => rw [IsTime] at h; subst h; exact fun h => (by cases h)
  | datetime a => rw [IsTime] at h; subst h; exact fun h => (by cases h)

/-- the ticks recorded, with times relative to `r` -/
theorem addAll_ticks {k : TimeKind} {r : ℚ} : ∀ (es : List Entry) (qs : List ℚ) (h h' : Helper),
    List.Forall₂ (fun e q => IsTime k e.time q) es qs → h.schemaOnly = false → IsTime k h.reference r →
    addAll h es = some h' →
    h'.ticks.map (fun t => (t.label, t.type, t.data, t.time)) =
      h.ticks.map (fun t => (t.label, t.type, t.data, t.time)) ++
        List.zipWith (fun e q => (e.label, e.type, e.data, q - r)) es qs := by
  intro es
  induction es with
  | nil =>
    intro qs h h' hq _ _ ha
    cases hq
    simp only [addAll, Option.some.injEq] at ha
    subst ha
    simp
  | cons e es ih =>
    intro qs h h' hq ho hr ha
    cases hq with
    | @cons _ q _ qs h1 h2 =>
      rw [addAll] at ha
      obtain ⟨h1', ha1, ha2⟩ := Option.bind_eq_some_iff.1 ha
      have key : ∀ g : Helper, g.schemaOnly = false → IsTime k g.reference r → g.ticks = h.ticks →
          addTick g e = some h1' → h1'.schemaOnly = false ∧ IsTime k h1'.reference r ∧
            h1'.ticks.map (fun t => (t.label, t.type, t.data, t.time)) =
              h.ticks.map (fun t => (t.label, t.type, t.data, t.time)) ++ [(e.label, e.type, e.data, q - r)] := by
        intro g g1 g2 g3 g4
        unfold addTick at g4
        rw [g1, if_neg (by simp), if_neg (isTime_ne_none h1)] at g4
        by_cases hd : e.data = .none
        · rw [if_pos hd] at g4; cases g4
        · rw [if_neg hd, if_neg (isTime_ne_none g2)] at g4
          simp only [convertDelta_isTime h1 g2, Option.some.injEq] at g4
          subst g4
          refine ⟨rfl, g2, ?_⟩
          dsimp only
          rw [g3]
          simp
      have step : h1'.schemaOnly = false ∧ IsTime k h1'.reference r ∧
            h1'.ticks.map (fun t => (t.label, t.type, t.data, t.time)) =
              h.ticks.map (fun t => (t.label, t.type, t.data, t.time)) ++ [(e.label, e.type, e.data, q - r)] := by
        unfold add at ha1
        by_cases hf : h.schema.isFinal = true
        · rw [if_pos hf] at ha1
          exact key h ho hr rfl ha1
        · rw [if_neg hf] at ha1
          cases hs : addToSchema h.schema e with
          | none => rw [hs] at ha1; cases ha1
          | some s => rw [hs] at ha1; exact key { h with schema := s } ho hr rfl ha1
      rw [ih qs h1' h' h2 step.1 step.2.1 ha2, step.2.2]
      simp

theorem new_some {s : Schema.Schema} {only : Bool} {h : Helper} (hn : Helper.new s only = some h) :
    h = ⟨[], s, only, .none, fun _ => 0⟩ := by
  unfold Helper.new at hn
  split at hn
  · cases hn
  · exact (Option.some.inj hn).symm

/-- C138 (what holds).  Ticks at times of one kind are recorded with their labels, types and data, in the order
given, and the differences of their times are kept: the time of a tick is counted from the tick given first.
Missing: the times themselves, see `C138_time_refuted`, and integers, see `C138_integers_refuted`. -/
theorem C138_differences_partial (s : Schema.Schema) (k : TimeKind) (e : Entry) (es : List Entry) (q : ℚ) (qs : List ℚ)
    (hq : IsTime k e.time q) (hqs : List.Forall₂ (fun e q => IsTime k e.time q) es qs) (h : Helper)
    (hb : build s false (e :: es) = some h) :
    h.ticks.map (fun t => (t.label, t.type, t.data, t.time)) =
      (e.label, e.type, e.data, 0) :: List.zipWith (fun e' p => (e'.label, e'.type, e'.data, p - q)) es qs := by
  unfold build at hb
  obtain ⟨h0, hn, ha⟩ := Option.bind_eq_some_iff.1 hb
  have := new_some hn
  subst this
  rw [addAll] at ha
  obtain ⟨h1, ha1, ha2⟩ := Option.bind_eq_some_iff.1 ha
  have key : ∀ g : Helper, g.schemaOnly = false → g.reference = .none → g.ticks = [] → addTick g e = some h1 →
      h1.schemaOnly = false ∧ IsTime k h1.reference q ∧
        h1.ticks.map (fun t => (t.label, t.type, t.data, t.time)) = [(e.label, e.type, e.data, 0)] := by
    intro g g1 g2 g3 g4
    unfold addTick at g4
    rw [g1, if_neg (by simp), if_neg (isTime_ne_none hq)] at g4
    by_cases hd : e.data = .none
    · rw [if_pos hd] at g4; cases g4
    · rw [if_neg hd, if_pos g2] at g4
      simp only [convertDelta_isTime hq hq, Option.some.injEq] at g4
      subst g4
      refine ⟨rfl, hq, ?_⟩
      dsimp only
      rw [g3]
      simp
  have step : h1.schemaOnly = false ∧ IsTime k h1.reference q ∧
        h1.ticks.map (fun t => (t.label, t.type, t.data, t.time)) = [(e.label, e.type, e.data, 0)] := by
    unfold add at ha1
    by_cases hf : s.isFinal = true
    · rw [if_pos hf] at ha1
      exact key _ rfl rfl rfl ha1
    · rw [if_neg hf] at ha1
      dsimp only at ha1
      cases hs : addToSchema s e with
      | none => rw [hs] at ha1; cases ha1
      | some s' => rw [hs] at ha1; exact key _ rfl rfl rfl ha1
  rw [addAll_ticks es qs h1 h hqs step.1 step.2.1 ha2, step.2.2]
  rfl

/-- an increment of `x` at time `q` -/
abbrev tick (l : String) (q x : ℚ) : Entry := ⟨l.toList, .increment, .float q, .num x⟩

example : ((build {} false [tick "a" 1 5, tick "b" 3 6]).map fun h =>
    h.ticks.map fun t => (t.time, t.precedence)) = some [(0, 0), (2, 0)] := by decide +kernel

example : List.Forall₂ (fun e q => IsTime .float e.time q) [tick "b" 3 6, tick "a" 2 7] [3, 2] :=
  .cons rfl (.cons rfl .nil)

/-! ### Ticks are accepted -/

theorem insert_isSome {s : Schema.Schema} (hf : s.isFinal = false) (l : Str) (c : Channel) :
    ∃ s' i, s.insert l c = some (s', i) ∧ s'.isFinal = false ∧ ∃ x, s'.channels[i]? = some x := by
  unfold Schema.Schema.insert
  rw [hf, if_neg (by simp)]
  dsimp only
  cases h : s.find (if l = [] then Schema.toStr s.channels.length else l) with
  | some i =>
    obtain ⟨x, hx, _⟩ := (Schema.find_iff _ _ _).1 h
    exact ⟨s, i, rfl, hf, x, hx⟩
  | none => exact ⟨_, _, rfl, rfl, _, List.getElem?_concat_length⟩

theorem addToSchema_isSome {s : Schema.Schema} (hf : s.isFinal = false) {e : Entry}
    (hd : e.type = .categorical → e.data = .none ∨ ∃ v, e.data = .str v) :
    ∃ s', addToSchema s e = some s' ∧ s'.isFinal = false := by
  unfold addToSchema
  cases ht : e.type with
  | increment => obtain ⟨s', i, h1, h2, _⟩ := insert_isSome hf e.label (.increment false); exact ⟨s', by simp [h1], h2⟩
  | value => obtain ⟨s', i, h1, h2, _⟩ := insert_isSome hf e.label (.value false); exact ⟨s', by simp [h1], h2⟩
  | categorical =>
    obtain ⟨s', i, h1, h2, x, hx⟩ := insert_isSome hf e.label (.categorical [])
    simp only [h1]
    rcases hd ht with h | ⟨v, h⟩
    · rw [h]; exact ⟨s', rfl, h2⟩
    · rw [h]
      refine ⟨{ s' with channels := s'.channels.set i (x.1, x.2.insertVariant v) }, ?_, h2⟩
      simp only [Schema.Schema.modify, hx]

theorem addTick_isSome {k : TimeKind} {h : Helper} {e : Entry} {q : ℚ} (hq : IsTime k e.time q)
    (hr : h.reference = .none ∨ ∃ r, IsTime k h.reference r) (hd : e.data ≠ .none) :
    ∃ h', addTick h e = some h' ∧ h'.schema = h.schema ∧ (h'.reference = .none ∨ ∃ r, IsTime k h'.reference r) := by
  unfold addTick
  by_cases ho : h.schemaOnly = true
  · rw [if_pos ho]; exact ⟨h, rfl, rfl, hr⟩
  · rw [if_neg ho, if_neg (isTime_ne_none hq), if_neg hd]
    dsimp only
    rcases hr with hr | ⟨r, hr⟩
    · rw [if_pos hr, convertDelta_isTime hq hq]
      exact ⟨_, rfl, rfl, .inr ⟨q, hq⟩⟩
    · rw [if_neg (isTime_ne_none hr), convertDelta_isTime hq hr]
      exact ⟨_, rfl, rfl, .inr ⟨r, hr⟩⟩

/-- C138: ticks at times of one kind whose data is given, and is a string for categories, are accepted, with any
schema and for all labels. -/
theorem C138_accepted (s : Schema.Schema) (k : TimeKind) (es : List Entry)
    (hes : ∀ e ∈ es, DataOk e ∧ ∃ q, IsTime k e.time q) : ∃ h, build s false es = some h := by
  have go : ∀ (es : List Entry) (h : Helper), (∀ e ∈ es, DataOk e ∧ ∃ q, IsTime k e.time q) →
      (h.reference = .none ∨ ∃ r, IsTime k h.reference r) → ∃ h', addAll h es = some h' := by
    intro es
    induction es with
    | nil => intro h _ _; exact ⟨h, rfl⟩
    | cons e es ih =>
      intro h hes hr
      obtain ⟨hd, q, hq⟩ := hes e (by simp)
      have : ∃ h1, add h e = some h1 ∧ (h1.reference = .none ∨ ∃ r, IsTime k h1.reference r) := by
        unfold add
        by_cases hf : h.schema.isFinal = true
        · rw [if_pos hf]
          obtain ⟨h1, k1, _, k3⟩ := addTick_isSome hq hr hd.1
          exact ⟨h1, k1, k3⟩
        · rw [if_neg hf]
          obtain ⟨s', hs, _⟩ := addToSchema_isSome (by simpa using hf) (fun ht => .inr (hd.2 ht))
          obtain ⟨h1, k1, _, k3⟩ := addTick_isSome (h := { h with schema := s' }) hq hr hd.1
          exact ⟨h1, by rw [hs]; exact k1, k3⟩
      obtain ⟨h1, k1, k2⟩ := this
      obtain ⟨h', k3⟩ := ih h1 (fun x hx => hes x (by simp [hx])) k2
      exact ⟨h', by rw [addAll, k1]; exact k3⟩
  unfold build Helper.new
  exact go es _ hes (.inl rfl)

/-- C138: the precedence of a tick, by which ties are ordered, is the number of ticks given before it at the
same time. -/
theorem C138_precedence (s : Schema.Schema) (es : List Entry) (h : Helper) (hb : build s false es = some h) (i : ℕ)
    (t : Tick) (ht : h.ticks[i]? = some t) : t.precedence = ((h.ticks.take i).map (·.time)).count t.time := by
  have go : ∀ (es : List Entry) (g g' : Helper),
      ((∀ x, g.precedence x = (g.ticks.map (·.time)).count x) ∧
        ∀ (i : ℕ) (t : Tick), g.ticks[i]? = some t → t.precedence = ((g.ticks.take i).map (·.time)).count t.time) →
      addAll g es = some g' →
      ((∀ x, g'.precedence x = (g'.ticks.map (·.time)).count x) ∧
        ∀ (i : ℕ) (t : Tick), g'.ticks[i]? = some t → t.precedence = ((g'.ticks.take i).map (·.time)).count t.time) := by
    intro es
    induction es with
    | nil => intro g g' hg ha; simp only [addAll, Option.some.injEq] at ha; subst ha; exact hg
    | cons e es ih =>
      intro g g' hg ha
      rw [addAll] at ha
      obtain ⟨g1, ha1, ha2⟩ := Option.bind_eq_some_iff.1 ha
      refine ih g1 g' ?_ ha2
      have key : ∀ f : Helper, f.ticks = g.ticks → f.precedence = g.precedence → addTick f e = some g1 →
          ((∀ x, g1.precedence x = (g1.ticks.map (·.time)).count x) ∧
            ∀ (i : ℕ) (t : Tick), g1.ticks[i]? = some t → t.precedence = ((g1.ticks.take i).map (·.time)).count t.time) := by
        intro f f1 f2 f3
        unfold addTick at f3
        split at f3
        · have := Option.some.inj f3
          subst this
          rw [f1, f2]
          exact hg
        · split at f3
          · cases f3
          · split at f3
            · cases f3
            · dsimp only at f3
              split at f3
              · cases f3
              · rename_i tm _
                have := Option.some.inj f3
                subst this
                dsimp only
                rw [f1, f2]
                constructor
                · intro x
                  rw [List.map_append, List.count_append, ← hg.1 x]
                  by_cases hx : x = tm
                  · simp [hx]
                  · rw [if_neg hx]
                    simp [List.count_cons, Ne.symm hx]
                · intro j t' hj
                  by_cases hlt : j < g.ticks.length
                  · rw [List.getElem?_append_left hlt] at hj
                    rw [List.take_append_of_le_length (by omega)]
                    exact hg.2 j t' hj
                  · have hlen : j = g.ticks.length := by
                      have := (List.getElem?_eq_some_iff.1 hj).1
                      simp at this
                      omega
                    subst hlen
                    simp only [List.getElem?_concat_length, Option.some.injEq] at hj
                    subst hj
                    simp only [List.take_left']
                    exact hg.1 tm
      unfold add at ha1
      by_cases hf : g.schema.isFinal = true
      · rw [if_pos hf] at ha1; exact key g rfl rfl ha1
      · rw [if_neg hf] at ha1
        cases hs : addToSchema g.schema e with
        | none => rw [hs] at ha1; cases ha1
        | some s' => rw [hs] at ha1; exact key { g with schema := s' } rfl rfl ha1
  unfold build at hb
  obtain ⟨h0, hn, ha⟩ := Option.bind_eq_some_iff.1 hb
  have := new_some hn
  subst this
  exact (go es _ h ⟨fun x => by simp, fun i t hi => by simp at hi⟩ ha).2 i t ht

example : ((build {} false [tick "a" 1 5, tick "b" 3 6, tick "c" 1 6]).map fun h =>
    h.ticks.map fun t => (t.time, t.precedence)) = some [(0, 0), (2, 0), (0, 1)] := by decide +kernel

/-- C138: times of different kinds cannot be mixed, and strings, dates and times of day are refused. -/
theorem C138_refused (s : Schema.Schema) (e e' : Entry) (es : List Entry) (h1 : e.time ≠ .none)
    (h : ∀ k q p, ¬ (IsTime k e.time q ∧ IsTime k e'.time p)) : build s false (e :: e' :: es) = none := by
  have conv : convertDelta .seconds e'.time e.time = none := by
    cases ht : e.time with
    | none => exact absurd ht h1
    | float q =>
      cases ht' : e'.time with
      | float p => exact absurd ⟨ht, ht'⟩ (h .float q p)
      | _ => simp [convertDelta, genericToTimestamp]
    | datetime a q =>
      cases ht' : e'.time with
      | datetime b p =>
        by_cases hab : b = a
        · subst hab; exact absurd ⟨ht, ht'⟩ (h (.datetime b) q p)
        · simp [convertDelta, genericToTimestamp, subtract, hab]
      | _ => simp [convertDelta, genericToTimestamp, subtract]
    | int n => cases e'.time <;> simp [convertDelta, genericToTimestamp]
    | timeOfDay q => cases e'.time <;> simp [convertDelta, genericToTimestamp, subtract]
    | other => cases e'.time <;> simp [convertDelta, genericToTimestamp]
  by_contra hne
  obtain ⟨h', hb⟩ := Option.ne_none_iff_exists'.1 hne
  unfold build at hb
  obtain ⟨h0, hn, ha⟩ := Option.bind_eq_some_iff.1 hb
  have := new_some hn
  subst this
  rw [addAll] at ha
  obtain ⟨g1, ha1, ha2⟩ := Option.bind_eq_some_iff.1 ha
  rw [addAll] at ha2
  obtain ⟨g2, ha2, _⟩ := Option.bind_eq_some_iff.1 ha2
  have ref : g1.reference = e.time ∧ g1.schemaOnly = false := by
    have key : ∀ g : Helper, g.schemaOnly = false → g.reference = .none → addTick g e = some g1 →
        g1.reference = e.time ∧ g1.schemaOnly = false := by
      intro g k1 k2 k3
      unfold addTick at k3
      rw [k1, if_neg (by simp), if_neg h1] at k3
      by_cases hd : e.data = .none
      · rw [if_pos hd] at k3; cases k3
      · rw [if_neg hd, if_pos k2] at k3
        cases hc : convertDelta .seconds e.time e.time with
        | none => simp only [hc] at k3; cases k3
        | some t =>
          simp only [hc, Option.some.injEq] at k3
          subst k3
          exact ⟨rfl, rfl⟩
    unfold add at ha1
    by_cases hf : s.isFinal = true
    · rw [if_pos hf] at ha1; exact key _ rfl rfl ha1
    · rw [if_neg hf] at ha1
      dsimp only at ha1
      cases hs : addToSchema s e with
      | none => rw [hs] at ha1; cases ha1
      | some s' => rw [hs] at ha1; exact key _ rfl rfl ha1
  have bad : ∀ g : Helper, g.schemaOnly = false → g.reference = e.time → addTick g e' = none := by
    intro g k1 k2
    unfold addTick
    rw [k1, if_neg (by simp)]
    by_cases ht : e'.time = .none
    · rw [if_pos ht]
    · rw [if_neg ht]
      by_cases hd : e'.data = .none
      · rw [if_pos hd]
      · rw [if_neg hd, if_neg (by rw [k2]; exact h1)]
        simp only [k2, conv]
  unfold add at ha2
  by_cases hf : g1.schema.isFinal = true
  · rw [if_pos hf, bad g1 ref.2 ref.1] at ha2; cases ha2
  · rw [if_neg hf] at ha2
    cases hs : addToSchema g1.schema e' with
    | none => rw [hs] at ha2; cases ha2
    | some s' =>
      rw [hs] at ha2
      have := (bad { g1 with schema := s' } ref.2 ref.1).symm.trans ha2
      cases this

/-- a float and a date with a time -/
example (k : TimeKind) (q p : ℚ) : ¬ (IsTime k (.float 1) q ∧ IsTime k (.datetime true 5) p) := by
  rintro ⟨h1, h2⟩
  cases k with
  | float => cases h2
  | datetime a => cases h1

/-- C138 fails in general: the time of the first tick given is 0 whatever it is, and with the ticks in another
order all times differ. -/
theorem C138_time_refuted :
    (∀ (l : String) (q x : ℚ), l ≠ "" → ∀ h, build {} false [tick l q x] = some h → h.ticks.map (·.time) = [0]) ∧
      ((build {} false [tick "a" 1 5, tick "b" 3 6]).map fun h => h.ticks.map fun t => (t.label, t.time)) =
        some [("a".toList, 0), ("b".toList, 2)] ∧
      ((build {} false [tick "b" 3 6, tick "a" 1 5]).map fun h => h.ticks.map fun t => (t.label, t.time)) =
        some [("b".toList, 0), ("a".toList, -2)] := by
  refine ⟨fun l q x _ h hb => ?_, by decide +kernel, by decide +kernel⟩
  have := C138_differences_partial {} .float (tick l q x) [] q [] rfl .nil h hb
  have := congrArg (List.map fun x => x.2.2.2) this
  simpa [Function.comp_def] using this

example : (build {} false [tick "a" 1 5]).isSome = true := by decide +kernel

/-- C138 fails in general: ticks at integer times are always refused, whatever else is given. -/
theorem C138_integers_refuted (s : Schema.Schema) (e : Entry) (es : List Entry) (n : ℤ) (he : e.time = .int n) :
    build s false (e :: es) = none := by
  by_contra hne
  obtain ⟨h', hb⟩ := Option.ne_none_iff_exists'.1 hne
  unfold build at hb
  obtain ⟨h0, hn, ha⟩ := Option.bind_eq_some_iff.1 hb
  have := new_some hn
  subst this
  rw [addAll] at ha
  obtain ⟨g1, ha1, _⟩ := Option.bind_eq_some_iff.1 ha
  have bad : ∀ g : Helper, g.schemaOnly = false → g.reference = .none → addTick g e = none := by
    intro g k1 k2
    unfold addTick
    rw [k1, if_neg (by simp), he, if_neg (by simp)]
    by_cases hd : e.data = .none
    · rw [if_pos hd]
    · rw [if_neg hd, if_pos k2]
      simp [convertDelta, genericToTimestamp]
  unfold add at ha1
  by_cases hf : s.isFinal = true
  · rw [if_pos hf, bad _ rfl rfl] at ha1; cases ha1
  · rw [if_neg hf] at ha1
    dsimp only at ha1
    cases hs : addToSchema s e with
    | none => rw [hs] at ha1; cases ha1
    | some s' =>
      rw [hs] at ha1
      have := (bad ⟨[], s', false, .none, fun _ => 0⟩ rfl rfl).symm.trans ha1
      cases this

/-! ## C139 -/

theorem addTick_schema {h h' : Helper} {e : Entry} (ha : addTick h e = some h') : h'.schema = h.schema := by
  unfold addTick at ha
  split at ha
  · exact congrArg Helper.schema (Option.some.inj ha).symm
  · split at ha
    · cases ha
    · split at ha
      · cases ha
      · dsimp only at ha
        split at ha
        · cases ha
        · have := Option.some.inj ha
          rw [← this]

theorem addAll_schema : ∀ (es done : List Entry) (h h' : Helper), GoodEntries es → h.schema.isFinal = false →
    h.schema.channels = inferred done → addAll h es = some h' →
    h'.schema.channels = inferred (done ++ es) ∧ h'.schema.isFinal = false := by
  intro es
  induction es with
  | nil =>
    intro done h h' _ hf hc ha
    simp only [addAll, Option.some.injEq] at ha
    subst ha
    simpa using ⟨hc, hf⟩
  | cons e es ih =>
    intro done h h' hg hf hc ha
    rw [addAll] at ha
    obtain ⟨h1, ha1, ha2⟩ := Option.bind_eq_some_iff.1 ha
    unfold add at ha1
    rw [if_neg (by rw [hf]; simp)] at ha1
    cases hs : addToSchema h.schema e with
    | none => rw [hs] at ha1; cases ha1
    | some s =>
      rw [hs] at ha1
      have h1s := addTick_schema ha1
      dsimp only at h1s
      obtain ⟨k1, k2⟩ := addToSchema_inferred hc hf (hg.nonempty e (by simp)) (hg.plain e (by simp))
        (hg.variants e (by simp)) hs
      have := ih (done ++ [e]) h1 h' ⟨fun x hx => hg.nonempty x (by simp [hx]), fun x hx => hg.plain x (by simp [hx]),
        fun x hx => hg.variants x (by simp [hx])⟩ (by rw [h1s]; exact k2) (by rw [h1s]; exact k1) ha2
      simpa using this

/-- C139 (what holds).  The schema found from ticks has one channel for every label, in the order in which the
labels appear first; its type is that of the first tick with the label, and the variants of a categorical
channel are those that occur, in order of appearance.  `only`: whether only the schema is wanted.
Missing: labels that are empty or have `:` or NUL in them. -/
theorem C139_inferred_partial (only : Bool) (es : List Entry) (hg : GoodEntries es) (h : Helper)
    (hb : build {} only es = some h) : h.schema.channels = inferred es ∧ h.schema.isFinal = false := by
  unfold build at hb
  obtain ⟨h0, hn, ha⟩ := Option.bind_eq_some_iff.1 hb
  have := new_some hn
  subst this
  simpa using addAll_schema es [] _ h hg rfl rfl ha

/-- a category -/
abbrev cat (l v : String) (q : ℚ) : Entry := ⟨l.toList, .categorical, .float q, .str v.toList⟩

example : ((build {} true [cat "c" "x" 0, tick "a" 1 5, cat "c" "y" 2, cat "c" "x" 3]).map fun h => h.schema.channels) =
    some [("c".toList, .categorical ["x".toList, "y".toList]), ("a".toList, .increment false)] := by decide +kernel

example : GoodEntries [cat "c" "x" 0, tick "a" 1 5] := by
  refine ⟨?_, ?_, ?_⟩ <;> intro e he <;> simp only [List.mem_cons, List.not_mem_nil, or_false] at he <;>
    rcases he with rfl | rfl
  · decide
  · decide
  · exact ⟨by decide, by decide⟩
  · exact ⟨by decide, by decide⟩
  · exact fun h => (by simp at h)
  · exact fun h => (by simp at h)

/-- C139: the schema alone is found if variants are strings or left out; times and data need not be given. -/
theorem C139_accepted (es : List Entry) (hes : ∀ e ∈ es, e.type = .categorical → e.data = .none ∨ ∃ v, e.data = .str v) :
    ∃ h, build {} true es = some h ∧ h.ticks = [] := by
  have go : ∀ (es : List Entry) (h : Helper), (∀ e ∈ es, e.type = .categorical → e.data = .none ∨ ∃ v, e.data = .str v) →
      h.schemaOnly = true → h.schema.isFinal = false → ∃ h', addAll h es = some h' ∧ h'.ticks = h.ticks := by
    intro es
    induction es with
    | nil => intro h _ _ _; exact ⟨h, rfl, rfl⟩
    | cons e es ih =>
      intro h hes ho hf
      obtain ⟨s', hs, hf'⟩ := addToSchema_isSome hf (hes e (by simp))
      obtain ⟨h', k1, k2⟩ := ih { h with schema := s' } (fun x hx => hes x (by simp [hx])) ho hf'
      refine ⟨h', ?_, k2⟩
      rw [addAll]
      have : add h e = some { h with schema := s' } := by
        unfold add
        rw [if_neg (by rw [hf]; simp), hs]
        dsimp only
        unfold addTick
        dsimp only
        rw [if_pos ho]
      rw [this]
      exact k1
  unfold build Helper.new
  obtain ⟨h, k1, k2⟩ := go es ⟨[], {}, true, .none, fun _ => 0⟩ hes rfl rfl
  exact ⟨h, k1, k2⟩

example : (build {} true [⟨"c".toList, .categorical, .none, .none⟩, tick "a" 1 5]).isSome = true := by decide +kernel

/-- C139: with a final schema no tick changes it. -/
theorem C139_final (s : Schema.Schema) (hs : s.isFinal = true) (es : List Entry) (h : Helper)
    (hb : build s false es = some h) : h.schema = s := by
  unfold build at hb
  obtain ⟨h0, hn, ha⟩ := Option.bind_eq_some_iff.1 hb
  have := new_some hn
  subst this
  have : ∀ (es : List Entry) (g : Helper), g.schema = s → addAll g es = some h → h.schema = s := by
    intro es
    induction es with
    | nil => intro g k1 k2; simp only [addAll, Option.some.injEq] at k2; subst k2; exact k1
    | cons e es ih =>
      intro g k1 k2
      rw [addAll] at k2
      obtain ⟨g1, k3, k4⟩ := Option.bind_eq_some_iff.1 k2
      unfold add at k3
      rw [k1, if_pos hs] at k3
      exact ih g1 ((addTick_schema k3).trans k1) k4
  exact this es _ rfl ha

example : (build { channels := [("a".toList, .value false)], isFinal := true } false [tick "b" 1 5]).isSome = true := by
  decide +kernel

/-- C139: a schema that is final cannot be extended: parsing for the schema only is refused from the
start. -/
theorem C139_final_only (s : Schema.Schema) (hs : s.isFinal = true) (es : List Entry) :
    build s true es = none := by
  simp [build, Helper.new, hs]

/-- C139 fails in general: a later tick of another type under the same label is accepted, and the channel keeps
the type of the first. -/
theorem C139_types_refuted :
    ((build {} false [tick "a" 0 5, cat "a" "x" 1]).map fun h => (h.schema.channels, h.ticks.map (·.type))) =
      some ([("a".toList, .increment false)], [.increment, .categorical]) := by decide +kernel

/-- C139 fails in general: a label with a `:` is taken for a part of the channel before the `:`. -/
theorem C139_labels_refuted :
    ((build {} true [tick "a" 0 5, tick "a:b" 1 5]).map fun h => h.schema.channels) =
      some [("a".toList, .increment false)] := by decide +kernel

end RoughPy.Ticks
