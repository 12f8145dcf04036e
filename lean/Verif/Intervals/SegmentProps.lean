import Verif.Intervals.SegmentSpec
import Verif.Intervals.SegmentInv

/-!
# Theorems about `segment`
-/

namespace RoughPy.Intervals

open Searcher

/-! ## From the unit interval to the given one -/

/-- the predicate the search evaluates -/
def scaledOf (I : RealInterval) (pred : Pred) : ScaledPredicate := ⟨pred, I.inf, I.sup - I.inf⟩

theorem unscale_eq {I : RealInterval} (hI : I.inf < I.sup) {pred : Pred} {x y : ℚ} (h : x ≤ y)
    (t : IType) :
    (scaledOf I pred).unscale x y t =
      ⟨I.inf + (I.sup - I.inf) * x, I.inf + (I.sup - I.inf) * y, t⟩ := by
  unfold ScaledPredicate.unscale RealInterval.mk' scaledOf
  have : x * (I.sup - I.inf) ≤ y * (I.sup - I.inf) :=
    mul_le_mul_of_nonneg_right h (by linarith)
  simp only
  rw [if_neg (by linarith), mul_comm x, mul_comm y, add_comm _ I.inf, add_comm _ I.inf]

theorem blk_inf (n : ℕ) (k : ℤ) : (blk n k).inf = (k : ℚ) / 2 ^ n := by
  rw [inf_eq_left]
  simp [DyadicInterval.left, dyadicValue]

theorem blk_sup (n : ℕ) (k : ℤ) : (blk n k).sup = ((k + 1 : ℤ) : ℚ) / 2 ^ n := by
  rw [sup_eq_right]
  simp [DyadicInterval.right, dyadicValue]

theorem call_blk {I : RealInterval} (hI : I.inf < I.sup) (pred : Pred) (n : ℕ) (k : ℤ) :
    (scaledOf I pred).call (blk n k) = pred (gridCell I n k) := by
  unfold ScaledPredicate.call
  rw [unscale_eq hI, blk_inf, blk_sup]
  · simp [scaledOf, gridCell, gridPoint, mul_div_assoc]
  · rw [blk_inf, blk_sup]
    have : (0 : ℚ) < 2 ^ n := by positivity
    gcongr
    linarith

theorem gridPoint_lt {I : RealInterval} (hI : I.inf < I.sup) {n : ℕ} {k k' : ℤ} :
    gridPoint I n k < gridPoint I n k' ↔ k < k' := by
  unfold gridPoint
  have h1 : (0 : ℚ) < 2 ^ n := by positivity
  have h2 : 0 < I.sup - I.inf := by linarith
  rw [add_lt_add_iff_left, div_lt_div_iff_of_pos_right h1, mul_lt_mul_iff_right₀ h2]
  exact_mod_cast Iff.rfl

theorem gridPoint_le {I : RealInterval} (hI : I.inf < I.sup) {n : ℕ} {k k' : ℤ} :
    gridPoint I n k ≤ gridPoint I n k' ↔ k ≤ k' := by
  rw [← not_lt, gridPoint_lt hI, not_lt]

theorem gridPoint_two (I : RealInterval) (n : ℕ) (k : ℤ) :
    gridPoint I (n + 1) (2 * k) = gridPoint I n k := by
  unfold gridPoint
  push_cast
  rw [pow_succ]
  field_simp

/-- position `v` of the finest grid, as a number -/
theorem gridPoint_val (I : RealInterval) {D : ℕ} {d : Dyadic} (hd : Wf D d) :
    gridPoint I D (val D d) = I.inf + (I.sup - I.inf) * d.toParam := by
  obtain ⟨h0, h1⟩ := hd
  unfold gridPoint val e Dyadic.toParam
  have h2 : (2 : ℚ) ^ D = 2 ^ (D - d.n.toNat) * 2 ^ d.n.toNat := by
    rw [← pow_add]; congr 1; omega
  have h3 : (2 : ℚ) ^ (-d.n) = (2 ^ d.n.toNat)⁻¹ := by
    rw [zpow_neg, ← zpow_natCast, Int.toNat_of_nonneg h0]
  rw [h2, h3]
  push_cast
  field_simp

theorem gridPoint_block (I : RealInterval) {n D : ℕ} (hn : n ≤ D) (k : ℤ) :
    gridPoint I D (k * e D n) = gridPoint I n k := by
  unfold gridPoint e
  have h2 : (2 : ℚ) ^ D = 2 ^ (D - n) * 2 ^ n := by
    rw [← pow_add]; congr 1; omega
  rw [h2]
  push_cast
  field_simp

theorem additive_of_decides {I : RealInterval} (hI : I.inf < I.sup) {pred : Pred} {G : Set ℚ}
    (h : Decides pred G) : Additive (scaledOf I pred) := by
  intro n k
  rw [call_blk hI, call_blk hI, call_blk hI]
  unfold gridCell
  rw [h _ _ ((gridPoint_lt hI).2 (by omega)), h _ _ ((gridPoint_lt hI).2 (by omega)),
    h _ _ ((gridPoint_lt hI).2 (by omega)), gridPoint_two,
    show 2 * k + 1 + 1 = 2 * (k + 1) by ring, gridPoint_two]
  have h1 : gridPoint I n k ≤ gridPoint I (n + 1) (2 * k + 1) := by
    rw [← gridPoint_two, gridPoint_le hI]; omega
  have h2 : gridPoint I (n + 1) (2 * k + 1) ≤ gridPoint I n (k + 1) := by
    rw [← gridPoint_two I n, gridPoint_le hI]; omega
  rw [← Set.union_subset_iff, Set.Ico_union_Ico_eq_Ico h1 h2]

/-- the interval `segment` returns for an entry -/
def segmentOf (I : RealInterval) (D : ℕ) (x : Dyadic × Dyadic) : RealInterval :=
  ⟨gridPoint I D (val D x.2), gridPoint I D (val D x.1), .clopen⟩

theorem segment_unfold {I : RealInterval} (hI : I.inf < I.sup) {pred : Pred}
    (hb : pred I = false) {D : ℕ} (hD : D ≤ 30) {seen : Seen}
    (hs : depths (scaledOf I pred) D (depthList D) [] = some seen)
    (hw : ∀ x ∈ seen, Wf D x.1 ∧ Wf D x.2 ∧ val D x.2 ≤ val D x.1) :
    segment I pred D = .ok (seen.map (segmentOf I D)).reverse := by
  unfold segment
  rw [if_neg (by simp [hb]), if_neg (by simpa using hI), if_neg (by omega)]
  simp only
  unfold findInUnit
  rw [show (⟨pred, I.inf, I.sup - I.inf⟩ : ScaledPredicate) = scaledOf I pred from rfl, hs]
  simp only [Option.bind_eq_bind, Option.bind_some, Option.pure_def]
  congr 1
  rw [List.map_reverse, List.map_map]
  congr 1
  apply List.map_congr_left
  intro x hx
  obtain ⟨h1, h2, h3⟩ := hw x hx
  have h4 : x.2.toParam ≤ x.1.toParam := by
    have := (gridPoint_le hI (n := D)).2 h3
    rw [gridPoint_val I h1, gridPoint_val I h2] at this
    have h5 : 0 < I.sup - I.inf := by linarith
    have h6 : (I.sup - I.inf) * x.2.toParam ≤ (I.sup - I.inf) * x.1.toParam := by linarith
    exact le_of_mul_le_mul_left h6 h5
  simp only [Function.comp_apply]
  unfold RealInterval.mk'
  rw [if_neg (by linarith)]
  simp only
  rw [unscale_eq hI h4, segmentOf, gridPoint_val I h1, gridPoint_val I h2]

/-! ## C105 : what `segment` returns -/

/-- If the predicate holds for the whole interval, that interval is the result; an interval
without points is rejected; apart from that, every depth up to 30 gives a result. -/
theorem C105_outcome (I : RealInterval) (pred : Pred) (D : ℕ) :
    (pred I = true → segment I pred D = .ok [I]) ∧
    (pred I = false → I.sup ≤ I.inf → segment I pred D = .throws) ∧
    (pred I = false → I.inf < I.sup → D ≤ 30 → ∃ l, segment I pred D = .ok l) := by
  refine ⟨fun h => ?_, fun h h1 => ?_, fun h h1 h2 => ?_⟩
  · unfold segment; rw [if_pos h]
  · unfold segment; rw [if_neg (by simp [h]), if_pos (by simpa using h1)]
  · obtain ⟨seen, hs, hf⟩ := depths_found (scaledOf I pred) D
    exact ⟨_, segment_unfold h1 h h2 hs fun x hx =>
      ⟨(hf x hx).1, (hf x hx).2.1, by obtain ⟨l, -, hl⟩ := (hf x hx).2.2.1; exact hl.le⟩⟩

theorem follow_of_chain {I : RealInterval} (hI : I.inf < I.sup) {pred : Pred} {D : ℕ}
    {l : List DyadicInterval} {i s : ℤ} (h : Chain (scaledOf I pred) D l i s) (hl : l ≠ []) :
    ∃ q : List RealInterval, q ≠ [] ∧ Follow q (gridPoint I D i) (gridPoint I D s) ∧
      ∀ K ∈ q, pred K = true ∧ ∃ n k, 1 ≤ n ∧ n ≤ D ∧ K = gridCell I n k := by
  induction l generalizing i with
  | nil => exact absurd rfl hl
  | cons d l ih =>
    obtain ⟨n, k, rfl, h1, h2, h3, h4, h5⟩ := h
    rw [call_blk hI] at h3
    have ha : (gridCell I n k).inf = gridPoint I D i := by
      rw [← h4, gridPoint_block I h2]; rfl
    have hb : (gridCell I n k).sup = gridPoint I D ((k + 1) * e D n) := by
      rw [gridPoint_block I h2]; rfl
    cases l with
    | nil =>
      cases h5
      refine ⟨[gridCell I n k], by simp, ⟨ha, hb⟩, ?_⟩
      intro K hK
      rw [List.mem_singleton.1 hK]
      exact ⟨h3, n, k, h1, h2, rfl⟩
    | cons d' l' =>
      obtain ⟨q, hq, hf, hK⟩ := ih h5 (by simp)
      refine ⟨gridCell I n k :: q, by simp, ⟨ha, hb ▸ hf⟩, ?_⟩
      intro K hK'
      rcases List.mem_cons.1 hK' with rfl | hK'
      · exact ⟨h3, n, k, h1, h2, rfl⟩
      · exact hK K hK'

/-- Whatever the predicate is: every interval returned is made of adjacent dyadic parts of the
given interval for which the predicate holds. -/
theorem C105_pieces (I : RealInterval) (hI : I.inf < I.sup) (pred : Pred) (hb : pred I = false)
    (D : ℕ) (hD : D ≤ 30) (l : List RealInterval) (hl : segment I pred D = .ok l)
    (J : RealInterval) (hJ : J ∈ l) :
    ∃ q : List RealInterval, q ≠ [] ∧ Follow q J.inf J.sup ∧
      ∀ K ∈ q, pred K = true ∧ ∃ n k, 1 ≤ n ∧ n ≤ D ∧ K = gridCell I n k := by
  obtain ⟨seen, hs, hf⟩ := depths_found (scaledOf I pred) D
  rw [segment_unfold hI hb hD hs fun x hx =>
      ⟨(hf x hx).1, (hf x hx).2.1, by obtain ⟨l, -, hl⟩ := (hf x hx).2.2.1; exact hl.le⟩] at hl
  cases hl
  rw [List.mem_reverse, List.mem_map] at hJ
  obtain ⟨x, hx, rfl⟩ := hJ
  obtain ⟨-, -, ⟨l, hne, hc⟩, -⟩ := hf x hx
  exact follow_of_chain hI hc hne

/-- If the predicate decides whether an interval lies inside a set `G`, then the intervals
returned lie inside `G`, they are in increasing order with gaps between them, and a point of
the given interval belongs to one of them exactly if the part of depth `D` around the point
lies inside `G`.
Missing for the full claim: the intervals need not lie inside the given one
(`C106_inside_refuted`), intervals closed on the right, and depths above 30. -/
theorem C105_segment_partial (I : RealInterval) (ht : I.type = .clopen) (hI : I.inf < I.sup)
    (pred : Pred) (G : Set ℚ) (hG : Decides pred G) (hb : pred I = false) (D : ℕ)
    (hD : D ≤ 30) :
    ∃ l, segment I pred D = .ok l ∧
      (∀ J ∈ l, J.inf < J.sup ∧ J.type = .clopen ∧ J.points ⊆ G) ∧
      l.Pairwise (fun J K => J.sup < K.inf) ∧
      ∀ x ∈ I.points, (∃ J ∈ l, x ∈ J.points) ↔
        ∃ k, x ∈ (gridCell I D k).points ∧ (gridCell I D k).points ⊆ G := by
  have ha := additive_of_decides hI hG
  have hI0 : gridCell I 0 0 = I := by
    obtain ⟨a, b, t⟩ := I
    simp only at ht
    subst ht
    simp [gridCell, gridPoint]
  obtain ⟨seen, hs, hi, hcov⟩ := depths_runs (D := D) ha (by rw [call_blk hI, hI0]; exact hb)
  have hlt : ∀ x ∈ seen, val D x.2 < val D x.1 := by
    intro x hx
    have := (hi.run x hx).lt
    omega
  have hgood : ∀ j, good (scaledOf I pred) D j ↔ (gridCell I D j).points ⊆ G := by
    intro j
    unfold good
    rw [call_blk hI]
    exact hG _ _ ((gridPoint_lt hI).2 (by omega))
  have hcell : ∀ x : ℚ, ∃ j, x ∈ (gridCell I D j).points := by
    intro x
    have h2 : 0 < I.sup - I.inf := by linarith
    have h1 : (0 : ℚ) < 2 ^ D := by positivity
    refine ⟨⌊(x - I.inf) * 2 ^ D / (I.sup - I.inf)⌋, ?_⟩
    have f1 := Int.floor_le ((x - I.inf) * 2 ^ D / (I.sup - I.inf))
    have f2 := Int.lt_floor_add_one ((x - I.inf) * 2 ^ D / (I.sup - I.inf))
    rw [le_div_iff₀ h2] at f1
    rw [div_lt_iff₀ h2] at f2
    simp only [RealInterval.points, gridCell, span, Set.mem_Ico, gridPoint]
    constructor
    · have : (I.sup - I.inf) * (⌊(x - I.inf) * 2 ^ D / (I.sup - I.inf)⌋ : ℚ) / 2 ^ D ≤
          x - I.inf := by rw [div_le_iff₀ h1]; linarith
      linarith
    · push_cast
      have : x - I.inf <
          (I.sup - I.inf) * ((⌊(x - I.inf) * 2 ^ D / (I.sup - I.inf)⌋ : ℚ) + 1) / 2 ^ D := by
        rw [lt_div_iff₀ h1]; linarith
      linarith
  have hpos : ∀ {x : ℚ} {j v : ℤ}, x ∈ (gridCell I D j).points →
      ((gridPoint I D v ≤ x ↔ v ≤ j) ∧ (x < gridPoint I D v ↔ j < v)) := by
    intro x j v hx
    have h1 : gridPoint I D j ≤ x ∧ x < gridPoint I D (j + 1) := hx
    have h3 : gridPoint I D v ≤ x ↔ v ≤ j := by
      constructor
      · intro h
        have := (gridPoint_lt hI).1 (h.trans_lt h1.2)
        omega
      · intro h
        exact ((gridPoint_le hI).2 h).trans h1.1
    exact ⟨h3, by rw [← not_le, h3, not_le]⟩
  refine ⟨_, segment_unfold hI hb hD hs fun x hx =>
    ⟨(hi.wf x hx).1, (hi.wf x hx).2, (hlt x hx).le⟩, ?_, ?_, ?_⟩
  · intro J hJ
    rw [List.mem_reverse, List.mem_map] at hJ
    obtain ⟨x, hx, rfl⟩ := hJ
    refine ⟨(gridPoint_lt hI).2 (hlt x hx), rfl, ?_⟩
    intro y hy
    obtain ⟨j, hj⟩ := hcell y
    have hy' : gridPoint I D (val D x.2) ≤ y ∧ y < gridPoint I D (val D x.1) := hy
    rw [(hpos hj).1, (hpos hj).2] at hy'
    exact (hgood j).1 ((hi.run x hx).good j hy'.1 hy'.2) hj
  · rw [List.pairwise_reverse, List.pairwise_map]
    refine hi.sorted.imp_of_mem fun {x y} hx hy hxy => ?_
    simp only [segmentOf]
    rw [gridPoint_lt hI]
    by_contra hc
    have rx := hi.run x hx
    have ry := hi.run y hy
    have l1 := rx.lt
    have l2 := ry.lt
    have l3 := hi.far x hx y hy hxy
    exact ry.right (by omega) (rx.good _ (by omega) (by omega))
  · intro x hx
    have hx' : I.inf ≤ x ∧ x < I.sup := by
      have : x ∈ span I.type I.inf I.sup := hx
      rw [ht] at this
      exact this
    obtain ⟨j, hj⟩ := hcell x
    have g0 : gridPoint I D 0 = I.inf := by simp [gridPoint]
    have g1 : gridPoint I D (2 ^ D) = I.sup := by
      simp [gridPoint]
    have hj0 : 0 ≤ j := (hpos hj).1.1 (by rw [g0]; exact hx'.1)
    have hj1 : j < 2 ^ D := (hpos hj).2.1 (by rw [g1]; exact hx'.2)
    constructor
    · rintro ⟨J, hJ, hxJ⟩
      rw [List.mem_reverse, List.mem_map] at hJ
      obtain ⟨y, hy, rfl⟩ := hJ
      have hy' : gridPoint I D (val D y.2) ≤ x ∧ x < gridPoint I D (val D y.1) := hxJ
      rw [(hpos hj).1, (hpos hj).2] at hy'
      exact ⟨j, hj, (hgood j).1 ((hi.run y hy).good j hy'.1 hy'.2)⟩
    · rintro ⟨k, hk, hkG⟩
      obtain rfl : j = k := by
        have h1 : gridPoint I D k ≤ x ∧ x < gridPoint I D (k + 1) := hk
        rw [(hpos hj).1, (hpos hj).2] at h1
        omega
      obtain ⟨y, hy, h1, h2⟩ := hcov j hj0 hj1 ((hgood j).2 hkG)
      rw [e_self, mul_one] at h1 h2
      refine ⟨segmentOf I D y, by rw [List.mem_reverse]; exact List.mem_map_of_mem hy, ?_⟩
      show gridPoint I D (val D y.2) ≤ x ∧ x < gridPoint I D (val D y.1)
      rw [(hpos hj).1, (hpos hj).2]
      omega

/-! ## C106 : segments lie in the interval -/

/-- If the set does not reach outside the given interval, neither do the intervals returned. -/
theorem C106_inside_partial (I : RealInterval) (ht : I.type = .clopen) (hI : I.inf < I.sup)
    (pred : Pred) (G : Set ℚ) (hG : Decides pred G) (hin : G ⊆ I.points) (D : ℕ) (hD : D ≤ 30)
    (l : List RealInterval) (hl : segment I pred D = .ok l) (J : RealInterval) (hJ : J ∈ l) :
    J.points ⊆ I.points := by
  by_cases hb : pred I = true
  · rw [(C105_outcome I pred D).1 hb] at hl
    cases hl
    rw [List.mem_singleton.1 hJ]
  · obtain ⟨l', h1, h2, -⟩ := C105_segment_partial I ht hI pred G hG (by simpa using hb) D hD
    rw [h1] at hl
    cases hl
    exact (h2 J hJ).2.2.trans hin

/-- Whatever the predicate is, the intervals returned reach at most the length of the given
interval beyond its left end, and half of it beyond its right end. -/
theorem C106_bounds (I : RealInterval) (hI : I.inf < I.sup) (pred : Pred) (hb : pred I = false)
    (D : ℕ) (hD : D ≤ 30) (l : List RealInterval) (hl : segment I pred D = .ok l)
    (J : RealInterval) (hJ : J ∈ l) :
    I.inf - (I.sup - I.inf) ≤ J.inf ∧ J.sup ≤ I.sup + (I.sup - I.inf) / 2 := by
  obtain ⟨seen, hs, hf⟩ := depths_found (scaledOf I pred) D
  rw [segment_unfold hI hb hD hs fun x hx =>
      ⟨(hf x hx).1, (hf x hx).2.1, by obtain ⟨l, -, hl⟩ := (hf x hx).2.2.1; exact hl.le⟩] at hl
  cases hl
  rw [List.mem_reverse, List.mem_map] at hJ
  obtain ⟨x, hx, rfl⟩ := hJ
  obtain ⟨-, -, -, h1, h2⟩ := hf x hx
  have h3 : (0 : ℚ) < 2 ^ D := by positivity
  have h4 : 0 < I.sup - I.inf := by linarith
  have h1' : (-2 ^ D : ℚ) ≤ val D x.2 := by exact_mod_cast h1
  have h2' : (2 * val D x.1 : ℚ) ≤ 3 * 2 ^ D := by exact_mod_cast h2
  simp only [segmentOf, gridPoint]
  constructor
  · have : -(I.sup - I.inf) ≤ (I.sup - I.inf) * (val D x.2 : ℚ) / 2 ^ D := by
      rw [le_div_iff₀ h3]; nlinarith
    linarith
  · have : (I.sup - I.inf) * (val D x.1 : ℚ) / 2 ^ D ≤ 3 / 2 * (I.sup - I.inf) := by
      rw [div_le_iff₀ h3]; nlinarith
    linarith

/-! ## Concrete cases -/

/-- everything left of `4/5` -/
def below : Pred := fun i => decide (i.sup ≤ 4 / 5)

theorem below_decides : Decides below (Set.Iio (4 / 5)) := by
  intro x y h
  unfold below
  simp only [decide_eq_true_eq]
  constructor
  · intro h1 z hz
    exact lt_of_lt_of_le hz.2 h1
  · intro h1
    by_contra hc
    have hc' : (4 : ℚ) / 5 < y := by simpa using hc
    rcases le_total x (4 / 5) with hx | hx
    · exact lt_irrefl _ (Set.mem_Iio.1 (h1 ⟨hx, hc'⟩))
    · exact absurd (Set.mem_Iio.1 (h1 ⟨le_refl x, h⟩)) (by linarith)

/-- everything from `1/5` on -/
def above : Pred := fun i => decide (1 / 5 ≤ i.inf)

theorem above_decides : Decides above (Set.Ici (1 / 5)) := by
  intro x y h
  unfold above
  simp only [decide_eq_true_eq]
  constructor
  · intro h1 z hz
    exact le_trans h1 hz.1
  · intro h1
    exact h1 ⟨le_refl x, h⟩

/-- `segment` returns intervals that reach outside the given one: for the unit interval and the
set of numbers below `4/5` the answer to depth 2 starts at `-3/4`; for the numbers from `1/5`
on it ends at `5/4`. -/
theorem C106_inside_refuted :
    ∃ (I : RealInterval) (pred pred' : Pred) (G G' : Set ℚ), I.type = .clopen ∧ I.inf < I.sup ∧
      Decides pred G ∧ Decides pred' G' ∧
      (∃ J, segment I pred 2 = .ok [J] ∧ J.inf < I.inf) ∧
      (∃ J, segment I pred' 2 = .ok [J] ∧ I.sup < J.sup) := by
  refine ⟨⟨0, 1, .clopen⟩, below, above, _, _, rfl, by norm_num, below_decides, above_decides,
    ⟨⟨-3 / 4, 3 / 4, .clopen⟩, ?_, ?_⟩, ⟨⟨1 / 4, 5 / 4, .clopen⟩, ?_, ?_⟩⟩ <;> decide +kernel

/-- two separate parts of the unit interval, with ends off the grid -/
def twoParts : Pred := fun i =>
  (decide (1 / 5 ≤ i.inf) && decide (i.sup ≤ 2 / 5)) ||
    (decide (3 / 5 ≤ i.inf) && decide (i.sup ≤ 1))

/-- a case that meets the hypotheses of the theorems above, with the answer -/
example : Decides above (Set.Ici (1 / 5)) ∧ above ⟨0, 1, .clopen⟩ = false ∧
    segment ⟨0, 1, .clopen⟩ twoParts 4 =
      .ok [⟨1 / 4, 3 / 8, .clopen⟩, ⟨5 / 8, 1, .clopen⟩] ∧
    segment ⟨1, 1, .clopen⟩ above 4 = .ok [⟨1, 1, .clopen⟩] ∧
    segment ⟨0, 0, .clopen⟩ above 4 = .throws :=
  ⟨above_decides, by decide +kernel, by decide +kernel, by decide +kernel, by decide +kernel⟩

/-- a set inside the interval for `C106_inside_partial` -/
example : Decides (fun i => decide (1 / 5 ≤ i.inf) && decide (i.sup ≤ 4 / 5))
      (Set.Ico (1 / 5) (4 / 5)) ∧
    Set.Ico (1 / 5 : ℚ) (4 / 5) ⊆ (⟨0, 1, .clopen⟩ : RealInterval).points := by
  constructor
  · intro x y h
    simp only [Bool.and_eq_true, decide_eq_true_eq]
    rw [Set.Ico_subset_Ico_iff h]
  · intro x hx
    exact ⟨by have := hx.1; linarith, by have := hx.2; linarith⟩

/-- everything in `(0, 1/2]`, for intervals of both kinds -/
def lowerHalf : Pred := fun i =>
  match i.type with
  | .clopen => decide (0 < i.inf) && decide (i.sup ≤ 1 / 2)
  | .opencl => decide (0 ≤ i.inf) && decide (i.sup ≤ 1 / 2)

/-- For an interval closed on the right the intervals returned are closed on the left, and the
end points come out wrong: with `(0, 1]` and the set `(0, 1/2]` the point `1/2` is not in the
answer although the whole part `(1/4, 1/2]` around it lies in the set. -/
theorem C105_opencl_refuted :
    (∀ i : RealInterval, i.inf < i.sup →
      (lowerHalf i = true ↔ i.points ⊆ Set.Ioc 0 (1 / 2))) ∧
    segment ⟨0, 1, .opencl⟩ lowerHalf 2 = .ok [⟨1 / 4, 1 / 2, .clopen⟩] ∧
    lowerHalf ⟨1 / 4, 1 / 2, .opencl⟩ = true ∧
    (1 / 2 : ℚ) ∈ (⟨1 / 4, 1 / 2, .opencl⟩ : RealInterval).points ∧
    (1 / 2 : ℚ) ∉ (⟨1 / 4, 1 / 2, .clopen⟩ : RealInterval).points := by
  refine ⟨?_, by decide +kernel, by decide +kernel, ?_, ?_⟩
  · rintro ⟨a, b, t⟩ h
    simp only at h
    cases t
    · simp only [lowerHalf, RealInterval.points, span, Bool.and_eq_true, decide_eq_true_eq]
      constructor
      · rintro ⟨h1, h2⟩ z ⟨h3, h4⟩
        exact ⟨by linarith, by linarith⟩
      · intro hs
        refine ⟨(hs ⟨le_refl a, h⟩).1, ?_⟩
        by_contra hc
        have hz := (hs (show (max a (1 / 2) + b) / 2 ∈ Set.Ico a b from
          ⟨by have := le_max_left a (1 / 2); linarith,
            by have := max_lt h (not_le.1 hc); linarith⟩)).2
        have := le_max_right a (1 / 2 : ℚ)
        have := not_le.1 hc
        linarith
    · simp only [lowerHalf, RealInterval.points, span, Bool.and_eq_true, decide_eq_true_eq]
      rw [Set.Ioc_subset_Ioc_iff h]
      tauto
  · constructor <;> norm_num
  · rintro ⟨-, h⟩
    norm_num at h

/-- From depth 31 on the shift `1 << depth` is not defined. -/
theorem C105_depth_refuted (I : RealInterval) (hI : I.inf < I.sup) (pred : Pred)
    (hb : pred I = false) (D : ℤ) (hD : 31 ≤ D) : segment I pred D = .ub := by
  unfold segment
  rw [if_neg (by simp [hb]), if_neg (by simpa using hI), if_pos hD]

end RoughPy.Intervals
