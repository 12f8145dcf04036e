import Verif.Schema.Lemmas

set_option linter.unusedSectionVars false

/-! # Lemmas about labels of dimensions and about ticks -/

namespace RoughPy.Schema

/-- Every channel label is free of `:` and NUL. -/
def PlainLabels (s : Schema) : Prop := ∀ c ∈ s.channels, PlainLabel c.1

theorem find_exact {s : Schema} (hs : Inv s) (hp : PlainLabels s) {i : ℕ} {c : Str × Channel}
    (hc : s.channels[i]? = some c) : s.find c.1 = some i := by
  rw [find_iff]
  have hmem := List.mem_of_getElem? hc
  refine ⟨c, hc, Matches.refl (hs.nonempty c hmem), fun j hj c' hc' hm => ?_⟩
  rw [List.getElem?_eq_some_iff] at hc hc'
  obtain ⟨h1, rfl⟩ := hc
  obtain ⟨h2, rfl⟩ := hc'
  exact (List.pairwise_iff_getElem.1 hs.noMatch) j i h2 h1 hj hm

theorem find_variant {s : Schema} (hs : Inv s) (hp : PlainLabels s) {i : ℕ} {c : Str × Channel}
    (hc : s.channels[i]? = some c) (v : Str) : s.find (c.1 ++ ':' :: v) = some i := by
  rw [find_iff]
  have hmem := List.mem_of_getElem? hc
  refine ⟨c, hc, ⟨hs.nonempty c hmem, Or.inr ⟨v, Or.inl rfl⟩⟩, fun j hj c' hc' hm => ?_⟩
  have hmem' := List.mem_of_getElem? hc'
  have he := hm.eq_of_plain_append (hp c' hmem') (hp c hmem)
  rw [List.getElem?_eq_some_iff] at hc hc'
  obtain ⟨h1, rfl⟩ := hc
  obtain ⟨h2, rfl⟩ := hc'
  refine (List.pairwise_iff_getElem.1 hs.noMatch) j i h2 h1 hj ?_
  rw [he]
  exact Matches.refl (hs.nonempty _ (List.getElem_mem _))

theorem labelToStreamDim_exact {s : Schema} (hs : Inv s) (hp : PlainLabels s) {i : ℕ} {c : Str × Channel}
    (hc : s.channels[i]? = some c) : s.labelToStreamDim c.1 = some (before s.channels i) := by
  unfold Schema.labelToStreamDim
  rw [find_exact hs hp hc]
  simp only [hc, List.drop_length, widthTo_eq]

theorem labelToStreamDim_variant {s : Schema} (hs : Inv s) (hp : PlainLabels s) {i : ℕ} {c : Str × Channel}
    (hc : s.channels[i]? = some c) (v : Str) : s.labelToStreamDim (c.1 ++ ':' :: v) =
      (c.2.variantIdOfLabel v).map fun n => before s.channels i + n := by
  unfold Schema.labelToStreamDim
  rw [find_variant hs hp hc]
  simp only [hc, widthTo_eq]
  have : List.drop c.1.length (c.1 ++ ':' :: v) = ':' :: v := by
    rw [List.drop_append]
    simp
  rw [this]
  simp only
  rw [if_neg (by decide), if_pos trivial]

theorem findIdx_nodup {vs : List Str} (h : vs.Nodup) {v : ℕ} {w : Str} (hv : vs[v]? = some w) :
    vs.findIdx? (fun x => decide (x = w)) = some v := by
  rw [List.findIdx?_eq_some_iff_getElem]
  rw [List.getElem?_eq_some_iff] at hv
  obtain ⟨h1, rfl⟩ := hv
  refine ⟨h1, by simp, fun j hj => ?_⟩
  simp only [decide_eq_true_eq]
  intro he
  have := (List.pairwise_iff_getElem.1 h) j v (by omega) h1 hj
  exact this he

/-- Suffix and variant number determine each other. -/
theorem suffix_variant {c : Channel} (hc : ∀ vs, c = .categorical vs → vs.Nodup) {v : ℕ}
    (hv : v < c.numVariants) : ∃ suf, c.labelSuffix v = some suf ∧
      (suf = [] ∧ v = 0 ∨ ∃ w, suf = ':' :: w ∧ c.variantIdOfLabel w = some v) := by
  have ll : ∀ b : Bool, v < (if b then 2 else 1) → ∃ suf, Channel.leadLagSuffix b v = some suf ∧
      (suf = [] ∧ v = 0 ∨ ∃ w, suf = ':' :: w ∧ some (Channel.leadLagId b w) = some v) := by
    intro b hb
    cases b with
    | false =>
      simp only [Bool.false_eq_true, if_false] at hb
      exact ⟨[], rfl, Or.inl ⟨rfl, by omega⟩⟩
    | true =>
      simp only [if_true] at hb
      obtain rfl | rfl : v = 0 ∨ v = 1 := by omega
      · exact ⟨_, rfl, Or.inr ⟨"lead".toList, rfl, rfl⟩⟩
      · exact ⟨_, rfl, Or.inr ⟨"lag".toList, rfl, rfl⟩⟩
  cases c with
  | increment b => exact ll b hv
  | value b => exact ll b hv
  | categorical vs =>
    simp only [Channel.numVariants] at hv
    refine ⟨':' :: vs[v], ?_, Or.inr ⟨vs[v], rfl, ?_⟩⟩
    · simp only [Channel.labelSuffix]
      rw [List.getElem?_eq_getElem hv]
      rfl
    · exact findIdx_nodup (hc vs rfl) (List.getElem?_eq_getElem hv)
  | lie =>
    simp only [Channel.numVariants] at hv
    exact ⟨[], rfl, Or.inl ⟨rfl, by omega⟩⟩

/-! ## Ticks -/

/-- The value of the last tick with label `l` (`x` if there is none). -/
def lastValue (l : Str) : ℚ → List Tick → ℚ
  | x, [] => x
  | x, t :: ts => lastValue l (if t.label = l then t.data else x) ts

/-- The recorded coordinates `k` of the ticks, added up. -/
def coordSum (vs : List Vec) (k : ℕ) : ℚ := (vs.map fun v => v k).sum

/-- Every tick has the exact label of a channel with at least one variant. -/
def TicksOk (s : Schema) (ts : List Tick) : Prop :=
  ∀ t ∈ ts, ∃ (i : ℕ) (c : Str × Channel), s.channels[i]? = some c ∧ t.label = c.1 ∧ 0 < c.2.numVariants

theorem tickStep_eq {s : Schema} (hs : Inv s) (hp : PlainLabels s) {i : ℕ} {c : Str × Channel}
    (hc : s.channels[i]? = some c) (prev : ℕ → ℚ) (prevTime : ℚ) (t : Tick) (ht : t.label = c.1) :
    tickStep s prev prevTime t =
      (let idx := before s.channels i
      let withTime := fun v : Vec =>
        if s.needsAdding then fun k => if k = s.timeKey then t.time - prevTime else v k else v
      match t.type with
      | .increment => some (withTime (single (idx + 1) t.data), prev)
      | .categorical => some (withTime (single (idx + 1) 1), prev)
      | .value =>
        if c.2.isLeadLag then
          some (withTime (fun k => single (idx + 1) (t.data - prev idx) k +
            single (idx + 1 + 1) (t.data - prev (idx + 1)) k),
            fun j => if j = idx ∨ j = idx + 1 then t.data else prev j)
        else some (withTime (single (idx + 1) (t.data - prev idx)), fun j => if j = idx then t.data else prev j)) := by
  unfold tickStep
  rw [ht, find_exact hs hp hc, labelToStreamDim_exact hs hp hc]
  simp only [hc]
  cases t.type <;> rfl

theorem leadLag_variants {c : Channel} (h : c.isLeadLag = true) : c.numVariants = 2 := by
  cases c <;> simp_all [Channel.isLeadLag, Channel.numVariants]

theorem before_add_le {cs : List (Str × Channel)} {i j : ℕ} {c : Str × Channel} (h : cs[i]? = some c)
    (hij : i < j) : before cs i + c.2.numVariants ≤ before cs j := by
  rw [← before_succ h]
  exact before_mono cs hij

/-- Coordinates of different channels are different. -/
theorem coord_ne {cs : List (Str × Channel)} {i j v w : ℕ} {c d : Str × Channel} (hc : cs[i]? = some c)
    (hd : cs[j]? = some d) (hv : v < c.2.numVariants) (hw : w < d.2.numVariants) (hij : i ≠ j) :
    before cs i + v ≠ before cs j + w := by
  rcases Nat.lt_or_gt_of_ne hij with h | h
  · have := before_add_le hc h; omega
  · have := before_add_le hd h; omega

theorem coord_lt_time (s : Schema) {i v : ℕ} {c : Str × Channel} (hc : s.channels[i]? = some c)
    (hv : v < c.2.numVariants) (hn : s.needsAdding = true) : before s.channels i + v + 1 ≠ s.timeKey := by
  unfold Schema.timeKey
  rw [if_pos hn, widthWithoutParam_eq]
  have h1 := before_succ hc
  have h2 := before_le_total s.channels (i + 1)
  omega

theorem tickLoop_sum {s : Schema} (hs : Inv s) (hp : PlainLabels s) {i : ℕ} {l : Str} {b : Bool}
    (hc : s.channels[i]? = some (l, .value b)) {v : ℕ} (hv : v < (Channel.value b).numVariants) :
    ∀ (ts : List Tick) (prev : ℕ → ℚ) (prevTime : ℚ) (vs : List Vec), TicksOk s ts →
      (∀ t ∈ ts, t.label = l → t.type = .value) → tickLoop s ts prev prevTime = some vs →
      prev (before s.channels i + v) + coordSum vs (before s.channels i + v + 1) =
        lastValue l (prev (before s.channels i + v)) ts := by
  intro ts
  induction ts with
  | nil =>
    intro prev prevTime vs _ _ h
    simp only [tickLoop, Option.some.injEq] at h
    rw [← h]
    simp [coordSum, lastValue]
  | cons t ts ih =>
    intro prev prevTime vs hok hty h
    obtain ⟨j, d, hd, htl, hd0⟩ := hok t List.mem_cons_self
    unfold tickLoop at h
    have hstep := tickStep_eq hs hp hd prev prevTime t htl
    have hlab : j = i ↔ t.label = l := by
      constructor
      · intro h; rw [h, hc] at hd; rw [htl, ← Option.some.inj hd]
      · intro h
        have h1 := find_exact hs hp hd
        have h2 := find_exact hs hp hc
        rw [← htl, h] at h1
        exact Option.some.inj (h1.symm.trans h2)
    -- the recorded coordinate and the new previous value
    have key : ∃ u prev', tickStep s prev prevTime t = some (u, prev') ∧
        (t.label = l → u (before s.channels i + v + 1) = t.data - prev (before s.channels i + v) ∧
          prev' (before s.channels i + v) = t.data) ∧
        (t.label ≠ l → u (before s.channels i + v + 1) = 0 ∧
          prev' (before s.channels i + v) = prev (before s.channels i + v)) := by
      have htime : ∀ (f : Vec), (if s.needsAdding then fun k => if k = s.timeKey then t.time - prevTime else f k
          else f) (before s.channels i + v + 1) = f (before s.channels i + v + 1) := by
        intro f
        by_cases hn : s.needsAdding = true
        · rw [if_pos hn, if_neg (coord_lt_time s hc hv hn)]
        · rw [if_neg hn]
      by_cases hl : t.label = l
      · have hji := hlab.2 hl
        subst hji
        rw [hc] at hd
        have hd' := (Option.some.inj hd).symm
        subst hd'
        have htt := hty t List.mem_cons_self hl
        rw [hstep]
        simp only [htt]
        cases b with
        | true =>
          simp only [Channel.isLeadLag, if_true]
          refine ⟨_, _, rfl, fun _ => ?_, fun h => absurd hl h⟩
          rw [htime]
          simp only [Channel.numVariants, if_true] at hv
          obtain rfl | rfl : v = 0 ∨ v = 1 := by omega
          · simp [single]
          · simp [single]
        | false =>
          simp only [Channel.isLeadLag, Bool.false_eq_true, if_false]
          refine ⟨_, _, rfl, fun _ => ?_, fun h => absurd hl h⟩
          rw [htime]
          simp only [Channel.numVariants, Bool.false_eq_true, if_false] at hv
          obtain rfl : v = 0 := by omega
          simp [single]
      · have hji : i ≠ j := fun h => hl (hlab.1 h.symm)
        have hne : ∀ w, w < d.2.numVariants → before s.channels i + v ≠ before s.channels j + w :=
          fun w hw => coord_ne hc hd hv hw hji
        have hne0 := hne 0 hd0
        rw [hstep]
        cases htt : t.type with
        | increment =>
          simp only
          refine ⟨_, _, rfl, fun h => absurd h hl, fun _ => ⟨?_, rfl⟩⟩
          rw [htime]
          simp only [single]
          rw [if_neg (by omega)]
        | categorical =>
          simp only
          refine ⟨_, _, rfl, fun h => absurd h hl, fun _ => ⟨?_, rfl⟩⟩
          rw [htime]
          simp only [single]
          rw [if_neg (by omega)]
        | value =>
          simp only
          by_cases hll : d.2.isLeadLag = true
          · rw [if_pos hll]
            have hne1 := hne 1 (by rw [leadLag_variants hll]; omega)
            refine ⟨_, _, rfl, fun h => absurd h hl, fun _ => ⟨?_, ?_⟩⟩
            · rw [htime]
              simp only [single]
              rw [if_neg (by omega), if_neg (by omega), add_zero]
            · rw [if_neg (by omega)]
          · rw [if_neg hll]
            refine ⟨_, _, rfl, fun h => absurd h hl, fun _ => ⟨?_, ?_⟩⟩
            · rw [htime]
              simp only [single]
              rw [if_neg (by omega)]
            · rw [if_neg (by omega)]
    obtain ⟨u, prev', h1, h2, h3⟩ := key
    rw [h1] at h
    simp only [Option.map_eq_some_iff] at h
    obtain ⟨vs', h4, rfl⟩ := h
    have h5 := ih prev' t.time vs' (fun x hx => hok x (List.mem_cons_of_mem _ hx))
      (fun x hx => hty x (List.mem_cons_of_mem _ hx)) h4
    unfold coordSum at h5 ⊢
    rw [List.map_cons, List.sum_cons]
    unfold lastValue
    by_cases hl : t.label = l
    · rw [if_pos hl, (h2 hl).1]
      rw [(h2 hl).2] at h5
      rw [← h5]
      ring
    · rw [if_neg hl, (h3 hl).1]
      rw [(h3 hl).2] at h5
      rw [← h5]
      ring

/-! ## Sorting the ticks -/

/-- The ticks numbered from `n`. -/
def numbered : ℕ → List Tick → List (ℚ × ℕ × Tick)
  | _, [] => []
  | n, t :: ts => (t.time, n, t) :: numbered (n + 1) ts

theorem numbered_append (n : ℕ) (ts : List Tick) (t : Tick) :
    numbered n (ts ++ [t]) = numbered n ts ++ [(t.time, n + ts.length, t)] := by
  induction ts generalizing n with
  | nil => rfl
  | cons x ts ih =>
    simp only [List.cons_append, numbered, ih, List.length_cons]
    rw [show n + 1 + ts.length = n + (ts.length + 1) by omega]

theorem numbered_map (n : ℕ) (ts : List Tick) : (numbered n ts).map (fun e => e.2.2) = ts := by
  induction ts generalizing n with
  | nil => rfl
  | cons x ts ih => simp only [numbered, List.map_cons, ih]

theorem mem_numbered {n : ℕ} {ts : List Tick} {e : ℚ × ℕ × Tick} (h : e ∈ numbered n ts) :
    n ≤ e.2.1 ∧ e.1 = e.2.2.time := by
  induction ts generalizing n with
  | nil => cases h
  | cons x ts ih =>
    rcases List.mem_cons.1 h with rfl | h
    · exact ⟨le_rfl, rfl⟩
    · have := ih h
      exact ⟨by omega, this.2⟩

theorem numbered_sorted (n : ℕ) (ts : List Tick) :
    (numbered n ts).Pairwise fun a b => a.2.1 < b.2.1 := by
  induction ts generalizing n with
  | nil => exact List.Pairwise.nil
  | cons x ts ih =>
    refine List.Pairwise.cons (fun e he => ?_) (ih (n + 1))
    have := (mem_numbered he).1
    show n < e.2.1
    omega

/-- What the buffer holds, for every time. -/
theorem Recorded.inv {ps : List Tick} {b : TickBuffer} (h : Recorded ps b) :
    (∀ x, b.precedence x = (ps.filter fun t => decide (t.time = x)).length) ∧
    (∀ e ∈ b.ticks, e.1 = e.2.2.time) ∧
    (b.ticks.map fun e => e.2.2).Perm ps ∧
    ∀ x, (b.ticks.filter fun e => decide (e.1 = x)).Perm
      (numbered 0 (ps.filter fun t => decide (t.time = x))) := by
  induction h with
  | empty => exact ⟨fun _ => rfl, fun e he => (by cases he), List.Perm.nil, fun _ => List.Perm.nil⟩
  | @push ps b t _ ih =>
    obtain ⟨h1, h2, h3, h4⟩ := ih
    refine ⟨fun x => ?_, fun e he => ?_, ?_, fun x => ?_⟩
    · show (if x = t.time then b.precedence x + 1 else b.precedence x) = _
      rw [List.filter_append, List.length_append, ← h1 x]
      by_cases hx : x = t.time
      · rw [if_pos hx, List.filter_cons_of_pos (by simp [hx])]
        rfl
      · rw [if_neg hx, List.filter_cons_of_neg (by simpa using fun h => hx h.symm)]
        rfl
    · rcases List.mem_append.1 he with he | he
      · exact h2 e he
      · rw [List.mem_singleton] at he
        rw [he]
    · show ((b.ticks ++ [(t.time, b.precedence t.time, t)]).map _).Perm _
      rw [List.map_append]
      exact h3.append (List.Perm.refl _)
    · show ((b.ticks ++ [(t.time, b.precedence t.time, t)]).filter _).Perm _
      rw [List.filter_append, List.filter_append]
      by_cases hx : t.time = x
      · rw [List.filter_cons_of_pos (by simp [hx]), List.filter_cons_of_pos (by simp [hx]), List.filter_nil,
          List.filter_nil, numbered_append]
        refine (h4 x).append ?_
        rw [h1, hx]
        simp
      · rw [List.filter_cons_of_neg (by simp [hx]), List.filter_cons_of_neg (by simp [hx]), List.filter_nil,
          List.filter_nil, List.append_nil, List.append_nil]
        exact h4 x
  | @sort ps b l _ hl ih =>
    obtain ⟨h1, h2, h3, h4⟩ := ih
    refine ⟨h1, fun e he => h2 e (hl.1.mem_iff.2 he), (hl.1.map _).symm.trans h3, fun x => ?_⟩
    exact (hl.1.filter _).symm.trans (h4 x)

end RoughPy.Schema
