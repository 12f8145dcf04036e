import Verif.Streams.TickLemmas
import Verif.Streams.Example

set_option linter.unusedSectionVars false

/-!
# Properties of tick streams (C40)
-/

namespace RoughPy.Streams

open RoughPy.Intervals

variable {L : Type} {G : Type} [Monoid G]

/-- The data a tick stream can be built from: no event before time 0, or no event in the first
resolution cell `[0, 2^-R)` after time 0. -/
def Buildable (R : ℤ) (items : List (ℚ × L)) : Prop :=
  (∀ r ∈ items, 0 ≤ r.1) ∨ ∀ r ∈ items, ¬ (0 ≤ r.1 ∧ r.1 < 1 / 2 ^ R)

theorem cellOf_neg (R : ℤ) (t : ℚ) : cellOf R t < 0 ↔ t < 0 := by
  have h2 := two_zpow_pos R
  unfold cellOf
  rw [Int.floor_lt, Int.cast_zero, mul_neg_iff]
  constructor
  · rintro (⟨h, h'⟩ | ⟨h, -⟩)
    · linarith
    · exact h
  · intro h; exact Or.inr ⟨h, h2⟩

theorem cellOf_zero (R : ℤ) (t : ℚ) : cellOf R t = 0 ↔ 0 ≤ t ∧ t < 1 / 2 ^ R := by
  have h2 := two_zpow_pos R
  unfold cellOf
  rw [Int.floor_eq_iff, Int.cast_zero, zero_add, lt_div_iff₀ h2]
  refine and_congr ?_ Iff.rfl
  constructor
  · intro h; by_contra hn; nlinarith
  · intro h; positivity

theorem buildable_cells {R : ℤ} {items : List (ℚ × L)} (h : Buildable R items) :
    (∀ r ∈ items, 0 ≤ cellOf R r.1) ∨ ∀ r ∈ items, cellOf R r.1 ≠ 0 := by
  rcases h with h | h
  · left; intro r hr
    by_contra hn
    have := (cellOf_neg R r.1).1 (not_le.1 hn)
    linarith [h r hr]
  · right; intro r hr he
    exact h r hr ((cellOf_zero R r.1).1 he)

/-- C40, the part that holds: the constructor finishes and the value returned for *every* dyadic
interval `[k/2^n, (k+1)/2^n)` is, as a signature, the product in time order of the increments
whose time, rounded down to the resolution grid, lies in the interval.
Missing: data with events before 0 and in the first cell after 0 (`C40_construction_refuted`). -/
theorem C40_rounded_partial (ops : LieOps L) (sig : L → G) (hI : Interprets ops sig)
    (hz : ops.isZero ops.zero = true) (R : ℤ) (items : List (ℚ × L))
    (hi : items.Pairwise fun r s => r.1 ≤ s.1) (hb : Buildable R items) :
    ∃ s, Returns (tickBuild ops R items) s ∧
      ∀ k n : ℤ, ∃ x, Returns (fun fuel => tickLogSig ops s fuel ⟨k, n, .clopen⟩) x ∧
        sig x = eventsSig sig (items.filter fun r =>
          decide (k / 2 ^ n ≤ gridFloor R r.1) && decide (gridFloor R r.1 < (k + 1) / 2 ^ n)) := by
  obtain ⟨s, ks, h1, h2⟩ := tickBuild_spec ops sig hI hz R items (buildable_cells hb)
  refine ⟨s, h1, fun k n => ?_⟩
  obtain ⟨x, hx, sx⟩ := tickLogSig_spec hI hi h2 ⟨k, n, .clopen⟩ rfl
  refine ⟨x, hx, ?_⟩
  rw [sx]
  congr 1
  refine List.filter_congr fun r _ => ?_
  have hr : (⟨k, n, .clopen⟩ : DyadicInterval).right = ((k : ℚ) + 1) / 2 ^ n := by
    show dyadicValue (k + 1) n = _
    unfold dyadicValue
    push_cast
    rfl
  rw [hr]
  rfl

/-- C40, exact form: for dyadic intervals not finer than the stream's resolution the value is, as
a signature, the product in time order of exactly the increments inside the interval. -/
theorem C40_exact_partial (ops : LieOps L) (sig : L → G) (hI : Interprets ops sig)
    (hz : ops.isZero ops.zero = true) (R : ℤ) (items : List (ℚ × L))
    (hi : items.Pairwise fun r s => r.1 ≤ s.1) (hb : Buildable R items) :
    ∃ s, Returns (tickBuild ops R items) s ∧
      ∀ k n : ℤ, n ≤ R → ∃ x, Returns (fun fuel => tickLogSig ops s fuel ⟨k, n, .clopen⟩) x ∧
        sig x = eventsSig sig (eventsIn items (Set.Ico (k / 2 ^ n) ((k + 1) / 2 ^ n))) := by
  obtain ⟨s, h1, h2⟩ := C40_rounded_partial ops sig hI hz R items hi hb
  refine ⟨s, h1, fun k n hn => ?_⟩
  obtain ⟨x, hx, sx⟩ := h2 k n
  refine ⟨x, hx, ?_⟩
  rw [sx]
  unfold eventsIn
  congr 1
  refine List.filter_congr fun r _ => ?_
  have h2R := two_zpow_pos R
  -- multiples of the coarse grid are multiples of the fine grid
  have key : ∀ q : ℤ, (q : ℚ) / 2 ^ n ≤ gridFloor R r.1 ↔ (q : ℚ) / 2 ^ n ≤ r.1 := by
    intro q
    have e : (q : ℚ) / 2 ^ n = ((q * Dyadic.pow2 (R - n) : ℤ) : ℚ) / 2 ^ R :=
      (dyadicValue_shift q n R hn).symm
    rw [e]
    unfold gridFloor
    rw [div_le_div_iff_of_pos_right h2R, Int.cast_le, Int.le_floor, div_le_iff₀ h2R]
  have k1 := key k
  have k2 := key (k + 1)
  push_cast at k2
  rw [Bool.eq_iff_iff]
  simp only [Bool.and_eq_true, decide_eq_true_eq, Set.mem_Ico, ← not_le, k1, k2]

theorem rounded_append (R : ℤ) (items : List (ℚ × L)) (hi : items.Pairwise fun r s => r.1 ≤ s.1)
    (u v w : ℚ) (huv : u ≤ v) (hvw : v ≤ w) :
    (items.filter fun r => decide (u ≤ gridFloor R r.1) && decide (gridFloor R r.1 < v)) ++
      (items.filter fun r => decide (v ≤ gridFloor R r.1) && decide (gridFloor R r.1 < w)) =
      items.filter fun r => decide (u ≤ gridFloor R r.1) && decide (gridFloor R r.1 < w) := by
  induction items with
  | nil => rfl
  | cons r items ih =>
    have h' := List.pairwise_cons.1 hi
    have IH := ih h'.2
    rw [List.filter_cons, List.filter_cons, List.filter_cons]
    by_cases c1 : u ≤ gridFloor R r.1 <;> by_cases c2 : gridFloor R r.1 < v <;>
      by_cases c3 : gridFloor R r.1 < w
    · have c4 : ¬ v ≤ gridFloor R r.1 := not_le.2 c2
      simp only [c1, c2, c3, c4, decide_true, decide_false, Bool.and_self, Bool.false_and, if_true,
        Bool.false_eq_true, if_false, List.cons_append]
      rw [IH]
    · exact absurd (lt_of_lt_of_le c2 hvw) c3
    · have c4 : v ≤ gridFloor R r.1 := not_lt.1 c2
      have hnil : (items.filter fun r => decide (u ≤ gridFloor R r.1) &&
          decide (gridFloor R r.1 < v)) = [] := by
        rw [List.filter_eq_nil_iff]
        intro q hq
        have := gridFloor_mono R (h'.1 q hq)
        simp only [Bool.and_eq_true, decide_eq_true_eq, not_and, not_lt]
        intro _; linarith
      rw [hnil] at IH ⊢
      simp only [c1, c2, c3, c4, decide_true, decide_false, Bool.and_self, Bool.and_false, if_true,
        Bool.false_eq_true, if_false, List.nil_append]
      rw [← IH]
      rfl
    · simp only [c1, c2, c3, decide_true, decide_false, Bool.and_false, Bool.false_eq_true, if_false]
      exact IH
    · have c4 : ¬ v ≤ gridFloor R r.1 := not_le.2 c2
      simp only [c1, c4, decide_false, Bool.false_and, Bool.false_eq_true, if_false]
      exact IH
    · exact absurd (lt_of_lt_of_le c2 hvw) c3
    · exact absurd (huv.trans (not_lt.1 c2)) c1
    · exact absurd (huv.trans (not_lt.1 c2)) c1

/-- C40, interval form: a query over any `[a, b)` at any resolution returns, as a signature, the
product in time order of the increments whose rounded time lies between the two end points
rounded to the query's resolution. -/
theorem C40_interval_partial (ops : LieOps L) (sig : L → G) (hI : Interprets ops sig)
    (hz : ops.isZero ops.zero = true) (R : ℤ) (items : List (ℚ × L))
    (hi : items.Pairwise fun r s => r.1 ≤ s.1) (hb : Buildable R items) :
    ∃ s, Returns (tickBuild ops R items) s ∧
      ∀ (a b : ℚ) (res : ℤ), a ≤ b → ∃ x, Returns (fun fuel => tickQuery ops s fuel a b res) x ∧
        sig x = eventsSig sig (items.filter fun r =>
          decide (gridFloor res a ≤ gridFloor R r.1) && decide (gridFloor R r.1 < gridFloor res b)) := by
  obtain ⟨s, h1, h2⟩ := C40_rounded_partial ops sig hI hz R items hi hb
  refine ⟨s, h1, fun a b res hab => ?_⟩
  obtain ⟨n₀, ds, hds, htile, hdt⟩ := C05_dissection a b res hab
  set P : ℚ → ℚ → G := fun u v => eventsSig sig (items.filter fun r =>
    decide (u ≤ gridFloor R r.1) && decide (gridFloor R r.1 < v)) with hP
  have chen : ∀ u v w, u ≤ v → v ≤ w → P u v * P v w = P u w := by
    intro u v w huv hvw
    rw [hP]
    simp only
    rw [← eventsSig_append]
    congr 1
    exact rounded_append R items hi u v w huv hvw
  have hone : ∀ u, P u u = 1 := by
    intro u
    have : (items.filter fun r => decide (u ≤ gridFloor R r.1) && decide (gridFloor R r.1 < u)) = [] := by
      rw [List.filter_eq_nil_iff]
      intro r _
      simp only [Bool.and_eq_true, decide_eq_true_eq, not_and, not_lt]
      exact fun h => h
    rw [hP]
    simp only
    rw [this]
    rfl
  -- one bound for the fuel of all pieces
  have hall : ∃ n₁, ∀ d ∈ ds, ∃ x, (∀ fuel ≥ n₁, tickLogSig ops s fuel d = some x) ∧
      sig x = P d.left d.right := by
    clear htile hds
    induction ds with
    | nil => exact ⟨0, by simp⟩
    | cons d ds ih =>
      obtain ⟨n₁, h⟩ := ih fun e he => hdt e (by simp [he])
      obtain ⟨k, n, ty⟩ := d
      have hty := (hdt _ (List.mem_cons_self ..)).1
      simp only at hty
      subst hty
      obtain ⟨x, ⟨n₂, hx⟩, sx⟩ := h2 k n
      refine ⟨max n₁ n₂, fun e he => ?_⟩
      rcases List.mem_cons.1 he with rfl | he
      · refine ⟨x, fun fuel hf => hx fuel (le_trans (le_max_right _ _) hf), ?_⟩
        have hr : (⟨k, n, .clopen⟩ : DyadicInterval).right = ((k : ℚ) + 1) / 2 ^ n := by
          show dyadicValue (k + 1) n = _
          unfold dyadicValue
          push_cast
          rfl
        rw [sx, hP]
        simp only [hr]
        rfl
      · obtain ⟨y, hy, sy⟩ := h e he
        exact ⟨y, fun fuel hf => hy fuel (le_trans (le_max_left _ _) hf), sy⟩
  obtain ⟨n₁, hall⟩ := hall
  obtain ⟨xs, hxs, sxs, -⟩ := tiles_prod (tickLogSig ops s n₁) sig P chen hone ds _ _ htile
    fun d hd => by obtain ⟨x, hx, sx⟩ := hall d hd; exact ⟨x, hx n₁ le_rfl, sx⟩
  refine ⟨ops.cbh (xs.filter fun x => !ops.isZero x), ⟨max n₀ n₁, fun fuel hf => ?_⟩, ?_⟩
  · show tickQuery ops s fuel a b res = _
    unfold tickQuery
    simp only [hds fuel (le_trans (le_max_left _ _) hf)]
    have hsame : ds.mapM (tickLogSig ops s fuel) = ds.mapM (tickLogSig ops s n₁) := by
      have hfa : ∀ d ∈ ds, tickLogSig ops s fuel d = tickLogSig ops s n₁ d := by
        intro d hd
        obtain ⟨x, hx, -⟩ := hall d hd
        rw [hx fuel (le_trans (le_max_right _ _) hf), hx n₁ le_rfl]
      clear hxs htile hds hall hdt
      induction ds with
      | nil => rfl
      | cons d ds ih =>
        rw [List.mapM_cons, List.mapM_cons, hfa d (by simp), ih fun e he => hfa e (by simp [he])]
    rw [hsame, hxs]
  · rw [sig_cbh_filter _ _ hI, sxs]
    rfl

/-- The data of the examples: three increments, two of them in one cell. -/
def someTicks : List (ℚ × Heis) := [(1/4, ⟨1, 0, 0⟩), (1/3, ⟨0, 1, 0⟩), (5/2, ⟨0, 0, 1⟩)]

example : someTicks.Pairwise (fun r s => r.1 ≤ s.1) ∧ Buildable 1 someTicks ∧
    (Heis.ops 2).isZero (Heis.ops 2).zero = true := by
  refine ⟨?_, Or.inl ?_, by decide +kernel⟩
  · simp [someTicks]; norm_num
  · simp [someTicks]; norm_num

example : ((tickBuild (Heis.ops 2) 1 someTicks 10).bind fun s =>
    tickLogSig (Heis.ops 2) s 10 ⟨0, -1, .clopen⟩) = some ⟨1, 1, 1/2⟩ := by decide +kernel

example : ((tickBuild (Heis.ops 2) 1 someTicks 10).bind fun s =>
    tickQuery (Heis.ops 2) s 10 0 3 1) = some ⟨1, 1, 3/2⟩ := by decide +kernel

/-- Data with an event before 0 and none in the first cell after it can be built too. -/
example : Buildable 1 [(-1/4, (⟨1, 0, 0⟩ : Heis)), (3/4, ⟨0, 1, 0⟩)] := by
  right
  simp
  norm_num

/-- C40 fails otherwise: whenever the data has an event before time 0 and an event in the first
resolution cell after it, the constructor never finishes — the interval around the "negative"
events is expanded for ever, because no dyadic interval contains both. -/
theorem C40_construction_refuted (ops : LieOps L) (sig : L → G) (hI : Interprets ops sig) (R : ℤ)
    (items : List (ℚ × L)) (hn : ∃ r ∈ items, r.1 < 0)
    (hp : ∃ r ∈ items, 0 ≤ r.1 ∧ r.1 < 1 / 2 ^ R) (fuel : ℕ) : tickBuild ops R items fuel = none := by
  obtain ⟨ks, h1, h2, -, -⟩ := insert_loop ops sig hI R items
  set st := items.foldl (tickInsert ops R) ([], fun _ => none) with hst
  obtain ⟨r, hr, hrn⟩ := hn
  obtain ⟨q, hq, hqz⟩ := hp
  have m0 : (0 : ℤ) ∈ ks := (h2 0).2 ⟨q, hq, (cellOf_zero R q.1).2 hqz⟩
  have mr : cellOf R r.1 ∈ ks := (h2 _).2 ⟨r, hr, rfl⟩
  have hrneg := (cellOf_neg R r.1).2 hrn
  have hsm : smallestNegative st.1 R fuel = none := by
    rcases smallestNegative_eq h1 fuel with ⟨h, -⟩ | ⟨a, b, ha, hb, h⟩
    · rw [List.filter_eq_nil_iff] at h
      exact absurd (by simp) (h 0 m0)
    · rw [h]
      have hs := h1.sorted.filter fun c => decide (c ≤ 0)
      have ha' := (sorted_mem_between hs ha hb
        (List.mem_filter.2 ⟨mr, by simp only [decide_eq_true_eq]; omega⟩)).1
      have hb' := (sorted_mem_between hs ha hb (List.mem_filter.2 ⟨m0, by simp⟩)).2
      have := expandUntil_never R a b (mixed_never (by omega) hb') fuel 0
      rw [pow_zero, Int.ediv_one] at this
      rw [this]
      rfl
  unfold tickBuild
  rw [← hst]
  simp only [hsm]

example : ∀ fuel, tickBuild (Heis.ops 2) 0 [(-1, ⟨1, 0, 0⟩), (0, ⟨0, 1, 0⟩)] fuel = none :=
  C40_construction_refuted _ _ Heis.interprets 0 _ ⟨(-1, ⟨1, 0, 0⟩), by simp, by norm_num⟩
    ⟨(0, ⟨0, 1, 0⟩), by simp, by norm_num, by norm_num⟩

/-- C40 fails for intervals finer than the resolution: the increment at time 1/3 is reported for
`[0, 1/4)`, which does not contain it. -/
theorem C40_finer_refuted :
    ((tickBuild (Heis.ops 2) 0 [(1/3, ⟨1, 0, 0⟩)] 10).bind fun s =>
      tickLogSig (Heis.ops 2) s 10 ⟨0, 2, .clopen⟩) = some ⟨1, 0, 0⟩ ∧
    (1/3 : ℚ) ∉ Set.Ico (0 : ℚ) (1/4) := by
  refine ⟨by decide +kernel, ?_⟩
  rw [Set.mem_Ico]
  norm_num

end RoughPy.Streams
