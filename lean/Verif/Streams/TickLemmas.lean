import Verif.Streams.Tick
import Verif.Streams.CellLemmas

set_option linter.unusedSectionVars false

/-!
# Lemmas about `TickStream`

Dyadic intervals are written `node R k j`: the `k`-th interval of `2^j` cells of resolution `R`.
-/

namespace RoughPy.Streams

open RoughPy.Intervals

/-- The `k`-th dyadic interval of length `2^j` cells. -/
def node (R : ℤ) (k : ℤ) (j : ℕ) : DyadicInterval := ⟨k, R - j, .clopen⟩

theorem node_inj {R k k' : ℤ} {j j' : ℕ} (h : node R k j = node R k' j') : k = k' ∧ j = j' := by
  unfold node at h
  simp only [DyadicInterval.mk.injEq, and_true] at h
  exact ⟨h.1, by omega⟩

theorem pow2_nat (j : ℕ) : Dyadic.pow2 (j : ℤ) = 2 ^ j := by
  simp [Dyadic.pow2]

theorem node_expand (R k : ℤ) (j : ℕ) : (node R k j).expand = some (node R (k / 2) (j + 1)) := by
  have := expand_eq (node R k j) 1 (by omega) intDigits_gt_one
  rw [pow2_one] at this
  show (node R k j).expand 1 = _
  rw [this]
  unfold node
  simp only [Option.some.injEq, DyadicInterval.mk.injEq, and_true, true_and]
  push_cast
  ring

theorem node_contains (R k c : ℤ) (j : ℕ) :
    (node R k j).containsDyadic (node R c 0) = true ↔ c / 2 ^ j = k := by
  unfold node
  rw [containsDyadic_clopen _ _ _ _ (by push_cast; omega)]
  have : R - ((0 : ℕ) : ℤ) - (R - (j : ℤ)) = (j : ℤ) := by push_cast; ring
  rw [this, pow2_nat, eq_comm]

theorem node_left (R k : ℤ) (j : ℕ) : (node R k (j + 1)).shrinkLeft 1 = some (node R (k * 2) j) := by
  have h1 : (node R k (j + 1)).shrinkLeft1 = some (node R (k * 2) j) := by
    show (node R k (j + 1)).shrinkToContainedEnd = _
    rw [shrinkToContainedEnd_eq]
    unfold node
    simp only [Option.some.injEq, DyadicInterval.mk.injEq, and_true, true_and]
    push_cast
    ring
  unfold DyadicInterval.shrinkLeft
  rw [h1]
  rfl

theorem node_right (R k : ℤ) (j : ℕ) : (node R k (j + 1)).shrinkRight = some (node R (k * 2 + 1) j) := by
  show (node R k (j + 1)).shrinkToOmittedEnd = _
  rw [shrinkToOmittedEnd_eq]
  unfold node
  simp only [Option.some.injEq, DyadicInterval.mk.injEq, and_true]
  refine ⟨rfl, ?_⟩
  push_cast
  ring

theorem div_pow_succ (c : ℤ) (j : ℕ) : c / 2 ^ (j + 1) = c / 2 ^ j / 2 := by
  rw [pow_succ, Int.ediv_ediv_of_nonneg (by positivity)]

theorem div_pow_add (c : ℤ) (i j : ℕ) : c / 2 ^ (i + j) = c / 2 ^ i / 2 ^ j := by
  rw [pow_add, Int.ediv_ediv_of_nonneg (by positivity)]

/-! ### the expansion loop -/

/-- Two cells lie in the same interval of `2^j` cells. -/
def Agree (a b : ℤ) (j : ℕ) : Prop := a / 2 ^ j = b / 2 ^ j

theorem Agree.mono {a b : ℤ} {i j : ℕ} (h : Agree a b i) (hij : i ≤ j) : Agree a b j := by
  obtain ⟨d, rfl⟩ := Nat.exists_eq_add_of_le hij
  unfold Agree at *
  rw [div_pow_add, div_pow_add, h]

/-- `J` is the least level at which the two cells agree. -/
def LeastAgree (a b : ℤ) (J : ℕ) : Prop := Agree a b J ∧ ∀ j < J, ¬ Agree a b j

theorem LeastAgree.unique {a b : ℤ} {J J' : ℕ} (h : LeastAgree a b J) (h' : LeastAgree a b J') :
    J = J' := by
  rcases lt_trichotomy J J' with hl | hl | hl
  · exact absurd h.1 (h'.2 J hl)
  · exact hl
  · exact absurd h'.1 (h.2 J' hl)

theorem exists_leastAgree {a b : ℤ} {j : ℕ} (h : Agree a b j) : ∃ J ≤ j, LeastAgree a b J := by
  classical
  have hex : ∃ j, Agree a b j := ⟨j, h⟩
  exact ⟨Nat.find hex, Nat.find_min' hex h, Nat.find_spec hex, fun i hi => Nat.find_min hex hi⟩

theorem expandUntil_node (R a b : ℤ) (J : ℕ) (hJ : LeastAgree a b J) :
    ∀ (fuel j : ℕ), j ≤ J → J ≤ j + fuel →
      expandUntil (node R b 0) fuel (node R (a / 2 ^ j) j) = some (node R (a / 2 ^ J) J) := by
  intro fuel
  induction fuel with
  | zero =>
    intro j h1 h2
    have : j = J := by omega
    subst this
    unfold expandUntil
    rw [if_pos ((node_contains _ _ _ _).2 hJ.1.symm)]
  | succ fuel ih =>
    intro j h1 h2
    unfold expandUntil
    by_cases hc : Agree a b j
    · have : j = J := by
        rcases Nat.lt_or_ge j J with h | h
        · exact absurd hc (hJ.2 j h)
        · omega
      subst this
      rw [if_pos ((node_contains _ _ _ _).2 hc.symm)]
    · rw [if_neg fun h => hc ((node_contains _ _ _ _).1 h).symm]
      simp only
      rw [node_expand, Option.bind_some, ← div_pow_succ]
      have : j ≠ J := by rintro rfl; exact hc hJ.1
      exact ih (j + 1) (by omega) (by omega)

theorem expandUntil_never (R a b : ℤ) (h : ∀ j, ¬ Agree a b j) :
    ∀ (fuel j : ℕ), expandUntil (node R b 0) fuel (node R (a / 2 ^ j) j) = none := by
  intro fuel
  induction fuel with
  | zero =>
    intro j
    unfold expandUntil
    rw [if_neg fun hh => h j ((node_contains _ _ _ _).1 hh).symm]
  | succ fuel ih =>
    intro j
    unfold expandUntil
    rw [if_neg fun hh => h j ((node_contains _ _ _ _).1 hh).symm]
    simp only
    rw [node_expand, Option.bind_some, ← div_pow_succ]
    exact ih (j + 1)

/-! ### times and cells -/

/-- The increasing list of occupied cells behind the time vector. -/
structure Cells (R : ℤ) (times : List ℚ) (ks : List ℤ) : Prop where
  sorted : ks.Pairwise (· < ·)
  times_eq : times = ks.map fun k => dyadicValue k R

/-- Occupied cells in an interval. -/
def cellsIn (ks : List ℤ) (k : ℤ) (j : ℕ) : List ℤ := ks.filter fun c => decide (c / 2 ^ j = k)

theorem mem_cellsIn {ks : List ℤ} {k c : ℤ} {j : ℕ} : c ∈ cellsIn ks k j ↔ c ∈ ks ∧ c / 2 ^ j = k := by
  simp [cellsIn]

theorem range_eq_filter_int (Pb Pe : ℤ → Bool) (hb : ∀ s t, s < t → Pb s = true → Pb t = true)
    (he : ∀ s t, s < t → Pe s = true → Pe t = true) (heb : ∀ t, Pe t = true → Pb t = true)
    (m : List ℤ) (h : m.Pairwise (· < ·)) :
    (m.take (m.findIdx Pe)).drop (m.findIdx Pb) = m.filter fun r => Pb r && !Pe r := by
  induction m with
  | nil => rfl
  | cons r m ih =>
    have h' := List.pairwise_cons.1 h
    rw [List.findIdx_cons, List.findIdx_cons, List.filter_cons]
    cases hE : Pe r with
    | true =>
      simp only [cond_true, List.take_zero, List.drop_nil]
      symm
      simp only [heb _ hE, Bool.not_true, Bool.and_false, Bool.false_eq_true, if_false]
      rw [List.filter_eq_nil_iff]
      intro s hs
      simp [he _ _ (h'.1 s hs) hE]
    | false =>
      cases hB : Pb r with
      | true =>
        have hall : m.findIdx Pb = 0 := by
          cases m with
          | nil => rfl
          | cons s m =>
            rw [List.findIdx_cons, hb _ _ (h'.1 s (by simp)) hB]
            rfl
        have := ih h'.2
        rw [hall] at this
        simpa using this
      | false =>
        simp [ih h'.2]

theorem findIdx_le_of_imp (P Q : ℤ → Bool) (h : ∀ c, Q c = true → P c = true) (m : List ℤ) :
    m.findIdx P ≤ m.findIdx Q := by
  induction m with
  | nil => exact le_rfl
  | cons r m ih =>
    rw [List.findIdx_cons, List.findIdx_cons]
    cases hP : P r with
    | true => simp
    | false =>
      cases hQ : Q r with
      | true => rw [h r hQ] at hP; cases hP
      | false => simpa using ih

theorem lowerBoundT_eq {R : ℤ} {times : List ℚ} {ks : List ℤ} (h : Cells R times ks) (a : ℤ) :
    lowerBoundT times (dyadicValue a R) = ks.findIdx fun c => decide (a ≤ c) := by
  unfold lowerBoundT
  rw [h.times_eq, List.findIdx_map]
  congr 1
  funext c
  simp [dyadicValue_le]

theorem upperBoundT_eq {R : ℤ} {times : List ℚ} {ks : List ℤ} (h : Cells R times ks) (a : ℤ) :
    upperBoundT times (dyadicValue a R) = ks.findIdx fun c => decide (a < c) := by
  unfold upperBoundT
  rw [h.times_eq, List.findIdx_map]
  congr 1
  funext c
  simp [dyadicValue_lt]

theorem node_inf (R k : ℤ) (j : ℕ) : (node R k j).inf = dyadicValue (k * 2 ^ j) R := by
  rw [inf_eq_left]
  show dyadicValue k (R - j) = _
  rw [← dyadicValue_shift k (R - j) R (by omega), show R - (R - (j : ℤ)) = j by ring, pow2_nat]

theorem node_sup (R k : ℤ) (j : ℕ) : (node R k j).sup = dyadicValue ((k + 1) * 2 ^ j) R := by
  rw [sup_eq_right]
  show dyadicValue (k + 1) (R - j) = _
  rw [← dyadicValue_shift (k + 1) (R - j) R (by omega), show R - (R - (j : ℤ)) = j by ring, pow2_nat]

theorem div_eq_iff_range (c k : ℤ) (j : ℕ) : c / 2 ^ j = k ↔ k * 2 ^ j ≤ c ∧ c < (k + 1) * 2 ^ j := by
  have hp : (0 : ℤ) < 2 ^ j := by positivity
  constructor
  · rintro rfl
    constructor
    · exact Int.ediv_mul_le _ hp.ne'
    · have := Int.lt_ediv_add_one_mul_self c hp
      exact this
  · rintro ⟨h1, h2⟩
    have a1 := (Int.le_ediv_iff_mul_le hp).2 h1
    have a2 := (Int.ediv_lt_iff_lt_mul hp).2 h2
    omega

theorem head_getElem (m : List ℤ) (b e : ℕ) (h : b < e) :
    ((m.take e).drop b).head? = m[b]? := by
  rw [List.head?_drop, List.getElem?_take, if_pos h]

theorem last_getElem (m : List ℤ) (b e : ℕ) (h : b < e) (he : e ≤ m.length) :
    ((m.take e).drop b).getLast? = m[e - 1]? := by
  rw [List.getLast?_drop, if_neg (by simp; omega), List.getLast?_take]
  rw [if_neg (by omega)]
  have : e - 1 < m.length := by omega
  rw [List.getElem?_eq_getElem this]
  rfl

theorem ofParam_node (R c : ℤ) : DyadicInterval.ofParam (dyadicValue c R) R .clopen = node R c 0 := by
  unfold DyadicInterval.ofParam node dyadicValue
  have h2 := two_zpow_pos R
  have : (c : ℚ) / 2 ^ R * 2 ^ R = (c : ℚ) := by field_simp
  simp only [this, Int.floor_intCast]
  simp

/-- Occupied cells whose left end lies in `[β, ε)`. -/
def cellsBetween (R : ℤ) (ks : List ℤ) (β ε : ℚ) : List ℤ :=
  ks.filter fun c => decide (β ≤ dyadicValue c R) && decide (dyadicValue c R < ε)

theorem lowerBoundT_rat {R : ℤ} {times : List ℚ} {ks : List ℤ} (h : Cells R times ks) (x : ℚ) :
    lowerBoundT times x = ks.findIdx fun c => decide (x ≤ dyadicValue c R) := by
  unfold lowerBoundT
  rw [h.times_eq, List.findIdx_map]
  rfl

/-- What `smallest_dyadic_containing_all_events` returns, for any clopen interval. -/
theorem smallest_gen {R : ℤ} {times : List ℚ} {ks : List ℤ} (h : Cells R times ks)
    (di : DyadicInterval) (hdt : di.type = .clopen) (j : ℕ)
    (hag : ∀ a b, a ∈ cellsBetween R ks di.inf di.sup → b ∈ cellsBetween R ks di.inf di.sup →
      Agree a b j) (fuel : ℕ) (hf : j ≤ fuel) :
    (cellsBetween R ks di.inf di.sup = [] ∧ smallestContaining times R fuel di = some none) ∨
    ∃ a b J, (cellsBetween R ks di.inf di.sup).head? = some a ∧
      (cellsBetween R ks di.inf di.sup).getLast? = some b ∧
      LeastAgree a b J ∧ J ≤ j ∧
      smallestContaining times R fuel di = some (some (node R (a / 2 ^ J) J)) := by
  have hlr : di.inf < di.sup := by rw [inf_eq_left, sup_eq_right]; exact left_lt_right di
  have hmono : ∀ s t : ℤ, s < t → dyadicValue s R < dyadicValue t R :=
    fun s t hst => (dyadicValue_lt ..).2 hst
  set β := di.inf with hβ
  set ε := di.sup with hε
  have hbe : lowerBoundT times β = ks.findIdx fun c => decide (β ≤ dyadicValue c R) :=
    lowerBoundT_rat h _
  have hen : lowerBoundT times ε = ks.findIdx fun c => decide (ε ≤ dyadicValue c R) :=
    lowerBoundT_rat h _
  set b := ks.findIdx fun c => decide (β ≤ dyadicValue c R) with hb
  set e := ks.findIdx fun c => decide (ε ≤ dyadicValue c R) with he
  have hle : b ≤ e := by
    rw [hb, he]
    apply findIdx_le_of_imp
    intro c hc
    simp only [decide_eq_true_eq] at *
    linarith
  have hel : e ≤ ks.length := by rw [he]; exact List.findIdx_le_length
  have hF : (ks.take e).drop b = cellsBetween R ks β ε := by
    rw [hb, he, range_eq_filter_int (fun c => decide (β ≤ dyadicValue c R))
      (fun c => decide (ε ≤ dyadicValue c R))
      (fun s t hst hs => by have := hmono s t hst; simp only [decide_eq_true_eq] at *; linarith)
      (fun s t hst hs => by have := hmono s t hst; simp only [decide_eq_true_eq] at *; linarith)
      (fun t ht => by simp only [decide_eq_true_eq] at *; linarith) ks h.sorted]
    unfold cellsBetween
    refine List.filter_congr fun c _ => ?_
    rw [Bool.eq_iff_iff]
    simp
  unfold smallestContaining
  simp only [← hβ, ← hε, hbe, hen]
  by_cases heq : e = b
  · left
    rw [if_pos heq]
    refine ⟨?_, rfl⟩
    rw [← hF, heq, List.drop_eq_nil_iff]
    exact List.length_take_le _ _
  · right
    rw [if_neg heq]
    have hlt : b < e := by omega
    have h1 := head_getElem ks b e hlt
    have h2 := last_getElem ks b e hlt hel
    rw [hF] at h1 h2
    have hbl : b < ks.length := by omega
    have hel' : e - 1 < ks.length := by omega
    rw [List.getElem?_eq_getElem hbl] at h1
    rw [List.getElem?_eq_getElem hel'] at h2
    set a := ks[b] with ha
    set z := ks[e - 1] with hz
    obtain ⟨J, hJj, hJ⟩ := exists_leastAgree
      (hag a z (List.mem_of_mem_head? (by rw [h1]; rfl)) (List.mem_of_getLast? h2))
    refine ⟨a, z, J, h1, h2, hJ, hJj, ?_⟩
    rw [hdt]
    simp only
    have g1 : times[b]? = some (dyadicValue a R) := by
      rw [h.times_eq, List.getElem?_map, List.getElem?_eq_getElem hbl]; rfl
    have g2 : times[e - 1]? = some (dyadicValue z R) := by
      rw [h.times_eq, List.getElem?_map, List.getElem?_eq_getElem hel']; rfl
    rw [g1, g2]
    simp only [ofParam_node]
    have hx := expandUntil_node R a z J hJ fuel 0 (Nat.zero_le _) (by omega)
    rw [pow_zero, Int.ediv_one] at hx
    have hback : (⟨(node R z 0).k, (node R z 0).n, .clopen⟩ : DyadicInterval) = node R z 0 := rfl
    rw [hback, hx]
    rfl

theorem cellsBetween_node (R : ℤ) (ks : List ℤ) (k : ℤ) (j : ℕ) :
    cellsBetween R ks (node R k j).inf (node R k j).sup = cellsIn ks k j := by
  unfold cellsBetween cellsIn
  refine List.filter_congr fun c _ => ?_
  rw [Bool.eq_iff_iff, node_inf, node_sup]
  simp only [Bool.and_eq_true, decide_eq_true_eq, dyadicValue_le, dyadicValue_lt]
  rw [div_eq_iff_range]

/-- What `smallest_dyadic_containing_all_events` returns, for intervals made of cells. -/
theorem smallest_spec {R : ℤ} {times : List ℚ} {ks : List ℤ} (h : Cells R times ks) (k : ℤ) (j : ℕ)
    (fuel : ℕ) (hf : j ≤ fuel) :
    (cellsIn ks k j = [] ∧ smallestContaining times R fuel (node R k j) = some none) ∨
    ∃ a b J, (cellsIn ks k j).head? = some a ∧ (cellsIn ks k j).getLast? = some b ∧
      LeastAgree a b J ∧ J ≤ j ∧
      smallestContaining times R fuel (node R k j) = some (some (node R (a / 2 ^ J) J)) := by
  have := smallest_gen h (node R k j) rfl j (by
    rw [cellsBetween_node]
    intro a b ha hb
    unfold Agree
    rw [(mem_cellsIn.1 ha).2, (mem_cellsIn.1 hb).2]) fuel hf
  rwa [cellsBetween_node] at this

/-! ### the smallest interval as a function of the occupied cells -/

/-- `(K, J)` is the smallest interval around the cells `F`. -/
def Top (F : List ℤ) (K : ℤ) (J : ℕ) : Prop :=
  ∃ a b, F.head? = some a ∧ F.getLast? = some b ∧ LeastAgree a b J ∧ K = a / 2 ^ J

theorem Top.unique {F : List ℤ} {K K' : ℤ} {J J' : ℕ} (h : Top F K J) (h' : Top F K' J') :
    K = K' ∧ J = J' := by
  obtain ⟨a, b, h1, h2, h3, h4⟩ := h
  obtain ⟨a', b', h1', h2', h3', h4'⟩ := h'
  rw [h1] at h1'
  rw [h2] at h2'
  obtain rfl := Option.some.inj h1'
  obtain rfl := Option.some.inj h2'
  obtain rfl := h3.unique h3'
  exact ⟨h4.trans h4'.symm, rfl⟩

theorem smallest_top {R : ℤ} {times : List ℚ} {ks : List ℤ} (h : Cells R times ks) (k : ℤ) (j : ℕ)
    (hne : cellsIn ks k j ≠ []) :
    ∃ K J, Top (cellsIn ks k j) K J ∧ J ≤ j ∧
      ∀ fuel ≥ j, smallestContaining times R fuel (node R k j) = some (some (node R K J)) := by
  rcases smallest_spec h k j j le_rfl with ⟨h0, -⟩ | ⟨a, b, J, h1, h2, h3, h4, h5⟩
  · exact absurd h0 hne
  · refine ⟨a / 2 ^ J, J, ⟨a, b, h1, h2, h3, rfl⟩, h4, fun fuel hf => ?_⟩
    rcases smallest_spec h k j fuel hf with ⟨h0, -⟩ | ⟨a', b', J', h1', h2', h3', h4', h5'⟩
    · exact absurd h0 hne
    · rw [h5']
      obtain ⟨e1, e2⟩ := Top.unique ⟨a, b, h1, h2, h3, rfl⟩ ⟨a', b', h1', h2', h3', rfl⟩
      rw [e1, e2]

theorem sorted_mem_between {m : List ℤ} (hs : m.Pairwise (· < ·)) {a b c : ℤ} (ha : m.head? = some a)
    (hb : m.getLast? = some b) (hc : c ∈ m) : a ≤ c ∧ c ≤ b := by
  constructor
  · cases m with
    | nil => cases hc
    | cons x m =>
      simp only [List.head?_cons, Option.some.injEq] at ha
      subst ha
      rcases List.mem_cons.1 hc with h | h
      · exact h.ge
      · exact ((List.pairwise_cons.1 hs).1 c h).le
  · obtain ⟨m', rfl⟩ : ∃ m', m = m' ++ [b] := by
      obtain ⟨m', h⟩ := List.getLast?_eq_some_iff.1 hb
      exact ⟨m', h⟩
    rcases List.mem_append.1 hc with h | h
    · exact ((List.pairwise_append.1 hs).2.2 c h b (by simp)).le
    · simp at h; exact h.le

/-- The smallest interval around the occupied cells of `(k, j)` holds the same cells. -/
theorem top_cells {ks : List ℤ} (hs : ks.Pairwise (· < ·)) {k K : ℤ} {j J : ℕ}
    (hT : Top (cellsIn ks k j) K J) (hJ : J ≤ j) : cellsIn ks K J = cellsIn ks k j := by
  obtain ⟨a, b, h1, h2, h3, h4⟩ := hT
  have ma := mem_cellsIn.1 (List.mem_of_mem_head? (by rw [h1]; rfl) : a ∈ cellsIn ks k j)
  have hsF : (cellsIn ks k j).Pairwise (· < ·) := hs.filter _
  have hp : (0 : ℤ) < 2 ^ J := by positivity
  unfold cellsIn
  refine List.filter_congr fun c hc => ?_
  rw [Bool.eq_iff_iff, decide_eq_true_eq, decide_eq_true_eq]
  obtain ⟨d, rfl⟩ := Nat.exists_eq_add_of_le hJ
  constructor
  · intro h
    rw [div_pow_add, h, h4, ← div_pow_add]
    exact ma.2
  · intro h
    have hc' : c ∈ cellsIn ks k (J + d) := mem_cellsIn.2 ⟨hc, h⟩
    obtain ⟨l1, l2⟩ := sorted_mem_between hsF h1 h2 hc'
    have e1 : a / 2 ^ J ≤ c / 2 ^ J := Int.ediv_le_ediv hp l1
    have e2 : c / 2 ^ J ≤ b / 2 ^ J := Int.ediv_le_ediv hp l2
    have e3 : a / 2 ^ J = b / 2 ^ J := h3.1
    rw [h4]
    omega

/-! ### the memoised recursion -/

section Memo

variable {L : Type} {G : Type} [Monoid G]
variable (ops : LieOps L) (sig : L → G) (R : ℤ) (ks : List ℤ) (cellVal : ℤ → G)

/-- Ordered product of the occupied cells of `(k, j)`. -/
def val (k : ℤ) (j : ℕ) : G := ((cellsIn ks k j).map cellVal).prod

/-- The map holds the right value at `(k, j)`. -/
def Entry (m : DyadicInterval → Option L) (k : ℤ) (j : ℕ) : Prop :=
  ∃ x, m (node R k j) = some x ∧ sig x = val ks cellVal k j

/-- All non-empty intervals inside `(k, j)` have their smallest interval in the map. -/
def Complete (m : DyadicInterval → Option L) (k : ℤ) (j : ℕ) : Prop :=
  ∀ k' j', j' ≤ j → k' / 2 ^ (j - j') = k → cellsIn ks k' j' ≠ [] →
    ∃ K J, Top (cellsIn ks k' j') K J ∧ Entry sig R ks cellVal m K J

/-- Invariant of the map during construction. -/
structure MInv (m : DyadicInterval → Option L) : Prop where
  leaf : ∀ c ∈ ks, Entry sig R ks cellVal m c 0
  nonzero : ∀ k j x, m (node R k j) = some x → ops.isZero x = false →
    sig x = val ks cellVal k j ∧ Complete sig R ks cellVal m k j

theorem val_split (hs : ks.Pairwise (· < ·)) (k : ℤ) (j : ℕ) :
    val ks cellVal k (j + 1) = val ks cellVal (k * 2) j * val ks cellVal (k * 2 + 1) j := by
  have key : ∀ ks : List ℤ, ks.Pairwise (· < ·) →
      cellsIn ks k (j + 1) = cellsIn ks (k * 2) j ++ cellsIn ks (k * 2 + 1) j := by
    intro ks hs
    induction ks with
    | nil => rfl
    | cons c ks ih =>
      have h' := List.pairwise_cons.1 hs
      have IH := ih h'.2
      unfold cellsIn at *
      rw [List.filter_cons, List.filter_cons, List.filter_cons, IH]
      have hdiv := div_pow_succ c j
      by_cases h1 : c / 2 ^ j = k * 2
      · have h2 : c / 2 ^ (j + 1) = k := by omega
        have h3 : c / 2 ^ j ≠ k * 2 + 1 := by omega
        simp [h1, h2]
      · by_cases h4 : c / 2 ^ j = k * 2 + 1
        · have h2 : c / 2 ^ (j + 1) = k := by omega
          have hnil : ks.filter (fun c => decide (c / 2 ^ j = k * 2)) = [] := by
            rw [List.filter_eq_nil_iff]
            intro x hx hxe
            simp only [decide_eq_true_eq] at hxe
            have : c / 2 ^ j ≤ x / 2 ^ j := Int.ediv_le_ediv (by positivity) (h'.1 x hx).le
            omega
          rw [hnil]
          simp [h2, h4]
        · have h2 : c / 2 ^ (j + 1) ≠ k := by omega
          simp [h1, h2, h4]
  unfold val
  rw [key ks hs, List.map_append, List.prod_append]

variable {ops sig R ks cellVal}

theorem Complete.mono {m m' : DyadicInterval → Option L} {k : ℤ} {j : ℕ}
    (h : Complete sig R ks cellVal m k j)
    (hm : ∀ k j, Entry sig R ks cellVal m k j → Entry sig R ks cellVal m' k j) :
    Complete sig R ks cellVal m' k j := by
  intro k' j' h1 h2 h3
  obtain ⟨K, J, hT, hE⟩ := h k' j' h1 h2 h3
  exact ⟨K, J, hT, hm _ _ hE⟩

/-- From the completeness of the smallest interval to that of the interval itself, and to that
of any interval whose occupied cells are among its own. -/
theorem complete_of_top (hs : ks.Pairwise (· < ·)) {m : DyadicInterval → Option L} {k K : ℤ}
    {j J : ℕ} (hT : Top (cellsIn ks k j) K J) (hJ : J ≤ j)
    (hE : Entry sig R ks cellVal m K J) (hC : Complete sig R ks cellVal m K J)
    (k' : ℤ) (j' : ℕ) (hsub : ∀ c ∈ cellsIn ks k' j', c ∈ cellsIn ks k j)
    (hne : cellsIn ks k' j' ≠ []) :
    ∃ K' J', Top (cellsIn ks k' j') K' J' ∧ Entry sig R ks cellVal m K' J' := by
  have hcells := top_cells hs hT hJ
  obtain ⟨c, hc⟩ := List.exists_mem_of_ne_nil _ hne
  have hc1 := (mem_cellsIn.1 hc).2
  have hc2 : c / 2 ^ J = K := by
    have := hsub c hc
    rw [← hcells] at this
    exact (mem_cellsIn.1 this).2
  rcases Nat.lt_or_ge j' J with hlt | hge
  · refine hC k' j' hlt.le ?_ hne
    rw [← hc1, ← div_pow_add, show j' + (J - j') = J by omega, hc2]
  · have hsame : cellsIn ks k' j' = cellsIn ks k j := by
      rw [← hcells]
      unfold cellsIn
      refine List.filter_congr fun x hx => ?_
      rw [Bool.eq_iff_iff, decide_eq_true_eq, decide_eq_true_eq]
      constructor
      · intro h
        have := hsub x (mem_cellsIn.2 ⟨hx, h⟩)
        rw [← hcells] at this
        exact (mem_cellsIn.1 this).2
      · intro h
        rw [show j' = J + (j' - J) by omega, div_pow_add, h, ← hc2, ← div_pow_add,
          show J + (j' - J) = j' by omega, hc1]
    rw [hsame]
    exact ⟨K, J, hT, hE⟩

theorem entry_update (hE : MInv ops sig R ks cellVal m) {K : ℤ} {J : ℕ} {v : L}
    (hv : sig v = val ks cellVal K J) (k j) (h : Entry sig R ks cellVal m k j) :
    Entry sig R ks cellVal (Function.update m (node R K J) (some v)) k j := by
  by_cases he : node R k j = node R K J
  · obtain ⟨rfl, rfl⟩ := node_inj he
    exact ⟨v, by rw [Function.update_self], hv⟩
  · obtain ⟨x, hx, sx⟩ := h
    exact ⟨x, by rw [Function.update_of_ne he]; exact hx, sx⟩

theorem recursiveLogsig_spec {times : List ℚ} (hcells : Cells R times ks)
    (hI : Interprets ops sig) (h0 : ops.isZero ops.zero = true) (fuel : ℕ) :
    ∀ (depth j : ℕ) (k : ℤ) (m : DyadicInterval → Option L), j < depth → j ≤ fuel →
      MInv ops sig R ks cellVal m →
      ∃ x m', recursiveLogsig ops times R fuel depth (node R k j) m = some (x, m') ∧
        sig x = val ks cellVal k j ∧ MInv ops sig R ks cellVal m' ∧
        Complete sig R ks cellVal m' k j ∧
        ∀ k j, Entry sig R ks cellVal m k j → Entry sig R ks cellVal m' k j := by
  intro depth
  induction depth with
  | zero => intro j k m h; omega
  | succ depth ih =>
    intro j k m hj hf hm
    have hs := hcells.sorted
    unfold recursiveLogsig
    by_cases hne : cellsIn ks k j = []
    · rcases smallest_spec hcells k j fuel hf with ⟨-, h⟩ | ⟨a, b, J, h1, -⟩
      · rw [h]
        refine ⟨_, _, rfl, ?_, hm, ?_, fun _ _ h => h⟩
        · rw [hI.zero, val, hne]; rfl
        · intro k' j' h1 h2 h3
          exfalso
          apply h3
          rw [List.eq_nil_iff_forall_not_mem] at hne ⊢
          intro c hc
          refine hne c (mem_cellsIn.2 ⟨(mem_cellsIn.1 hc).1, ?_⟩)
          rw [← h2, ← (mem_cellsIn.1 hc).2, ← div_pow_add]
          congr 2
          omega
      · rw [hne] at h1; cases h1
    · obtain ⟨K, J, hT, hJj, hsm⟩ := smallest_top hcells k j hne
      rw [hsm fuel hf]
      simp only
      have hcellsKJ := top_cells hs hT hJj
      have hvalKJ : val ks cellVal K J = val ks cellVal k j := by unfold val; rw [hcellsKJ]
      have hTK : Top (cellsIn ks K J) K J := by rw [hcellsKJ]; exact hT
      have hsub : ∀ k' j', j' ≤ j → k' / 2 ^ (j - j') = k →
          ∀ c ∈ cellsIn ks k' j', c ∈ cellsIn ks k j := by
        intro k' j' h1 h2 c hc
        refine mem_cellsIn.2 ⟨(mem_cellsIn.1 hc).1, ?_⟩
        rw [← h2, ← (mem_cellsIn.1 hc).2, ← div_pow_add]
        congr 2
        omega
      have finish : ∀ m' : DyadicInterval → Option L, Entry sig R ks cellVal m' K J →
          Complete sig R ks cellVal m' K J → Complete sig R ks cellVal m' k j :=
        fun m' hE hC k' j' h1 h2 h3 => complete_of_top hs hT hJj hE hC k' j' (hsub k' j' h1 h2) h3
      by_cases hz : ops.isZero ((m (node R K J)).getD ops.zero) = true
      · rw [if_neg (by simp [hz])]
        cases J with
        | zero =>
          have hn : (node R K 0).n = R := by simp [node]
          rw [if_pos hn]
          have hKks : K ∈ ks := by
            obtain ⟨c, hc⟩ := List.exists_mem_of_ne_nil _ hne
            rw [← hcellsKJ] at hc
            have := mem_cellsIn.1 hc
            rw [pow_zero, Int.ediv_one] at this
            rw [← this.2]; exact this.1
          have hE := hm.leaf K hKks
          have hC : Complete sig R ks cellVal m K 0 := by
            intro k' j' h1 h2 h3
            have : j' = 0 := by omega
            subst this
            rw [Nat.sub_zero, pow_zero, Int.ediv_one] at h2
            subst h2
            exact ⟨k', 0, hTK, hE⟩
          obtain ⟨x, hx, sx⟩ := hE
          refine ⟨_, _, rfl, ?_, hm, finish m ⟨x, hx, sx⟩ hC, fun _ _ h => h⟩
          rw [hx]
          show sig x = _
          rw [sx, hvalKJ]
        | succ J =>
          have hn : (node R K (J + 1)).n ≠ R := by unfold node; simp only; omega
          rw [if_neg hn, node_left, node_right]
          simp only
          obtain ⟨x, m₁, e1, sx, i1, c1, mo1⟩ := ih J (K * 2) m (by omega) (by omega) hm
          obtain ⟨y, m₂, e2, sy, i2, c2, mo2⟩ := ih J (K * 2 + 1) m₁ (by omega) (by omega) i1
          rw [e1]
          simp only
          rw [e2]
          have hv : sig (ops.cbh [x, y]) = val ks cellVal K (J + 1) := by
            rw [hI.cbh, val_split ks cellVal hs]
            simp [sx, sy]
          set m₃ := Function.update m₂ (node R K (J + 1)) (some (ops.cbh [x, y])) with hm₃
          have mo3 : ∀ k j, Entry sig R ks cellVal m₂ k j → Entry sig R ks cellVal m₃ k j :=
            fun k j h => entry_update i2 hv k j h
          have hE3 : Entry sig R ks cellVal m₃ K (J + 1) := ⟨_, Function.update_self .., hv⟩
          have hC3 : Complete sig R ks cellVal m₃ K (J + 1) := by
            intro k' j' h1 h2 h3
            rcases Nat.lt_or_ge j' (J + 1) with hlt | hge
            · have hhalf : k' / 2 ^ (J - j') = K * 2 ∨ k' / 2 ^ (J - j') = K * 2 + 1 := by
                have : k' / 2 ^ (J + 1 - j') = k' / 2 ^ (J - j') / 2 := by
                  rw [show J + 1 - j' = J - j' + 1 by omega, div_pow_succ]
                omega
              rcases hhalf with hh | hh
              · exact ((c1.mono mo2).mono mo3) k' j' (by omega) hh h3
              · exact (c2.mono mo3) k' j' (by omega) hh h3
            · have : j' = J + 1 := by omega
              subst this
              rw [Nat.sub_self, pow_zero, Int.ediv_one] at h2
              subst h2
              exact ⟨k', J + 1, hTK, hE3⟩
          refine ⟨_, _, rfl, by rw [hv, hvalKJ], ⟨fun c hc => mo3 _ _ (i2.leaf c hc), ?_⟩,
            finish m₃ hE3 hC3, fun k j h => mo3 _ _ (mo2 _ _ (mo1 _ _ h))⟩
          intro k' j' z hz' hnz
          by_cases he : node R k' j' = node R K (J + 1)
          · obtain ⟨rfl, rfl⟩ := node_inj he
            rw [Function.update_self] at hz'
            obtain rfl := Option.some.inj hz'
            exact ⟨hv, hC3⟩
          · rw [Function.update_of_ne he] at hz'
            obtain ⟨s1, s2⟩ := i2.nonzero k' j' z hz' hnz
            exact ⟨s1, s2.mono mo3⟩
      · have hz' : ops.isZero ((m (node R K J)).getD ops.zero) = false := by simpa using hz
        rw [if_pos (by simp [hz'])]
        cases hmx : m (node R K J) with
        | none =>
          rw [hmx] at hz
          exact absurd h0 hz
        | some x =>
          rw [hmx] at hz'
          obtain ⟨s1, s2⟩ := hm.nonzero K J x hmx hz'
          exact ⟨x, m, rfl, by rw [s1, hvalKJ], hm, finish m ⟨x, hmx, s1⟩ s2, fun _ _ h => h⟩

theorem Complete.cover {m : DyadicInterval → Option L} {k k' : ℤ} {j j' : ℕ}
    (hC : Complete sig R ks cellVal m k j) (hsub : ∀ c ∈ cellsIn ks k' j', c ∈ cellsIn ks k j)
    (hne : cellsIn ks k' j' ≠ []) :
    ∃ K J, Top (cellsIn ks k' j') K J ∧ Entry sig R ks cellVal m K J := by
  obtain ⟨c, hc⟩ := List.exists_mem_of_ne_nil _ hne
  have hc1 := (mem_cellsIn.1 hc).2
  have hc2 := (mem_cellsIn.1 (hsub c hc)).2
  rcases Nat.lt_or_ge j j' with hlt | hge
  · have hsame : cellsIn ks k' j' = cellsIn ks k j := by
      unfold cellsIn
      refine List.filter_congr fun x hx => ?_
      rw [Bool.eq_iff_iff, decide_eq_true_eq, decide_eq_true_eq]
      constructor
      · exact fun h => (mem_cellsIn.1 (hsub x (mem_cellsIn.2 ⟨hx, h⟩))).2
      · intro h
        rw [show j' = j + (j' - j) by omega, div_pow_add, h, ← hc2, ← div_pow_add,
          show j + (j' - j) = j' by omega, hc1]
    rw [hsame] at hne ⊢
    exact hC k j le_rfl (by simp) hne
  · refine hC k' j' hge ?_ hne
    rw [← hc1, ← div_pow_add, show j' + (j - j') = j by omega, hc2]

end Memo

/-! ### fuel -/

theorem expandUntil_mono {target : DyadicInterval} : ∀ {f f' : ℕ} {i r : DyadicInterval},
    expandUntil target f i = some r → f ≤ f' → expandUntil target f' i = some r := by
  intro f
  induction f with
  | zero =>
    intro f' i r h _
    unfold expandUntil at h ⊢
    split at h
    · rename_i hc; rw [if_pos hc]; exact h
    · cases h
  | succ f ih =>
    intro f' i r h hf
    obtain ⟨f', rfl⟩ : ∃ g, f' = g + 1 := ⟨f' - 1, by omega⟩
    unfold expandUntil at h ⊢
    split at h
    · rename_i hc; rw [if_pos hc]; exact h
    · rename_i hc
      rw [if_neg hc]
      simp only at h ⊢
      cases he : i.expand with
      | none => rw [he] at h; cases h
      | some i' =>
        rw [he, Option.bind_some] at h
        rw [Option.bind_some]
        exact ih h (by omega)

theorem smallestContaining_mono {times : List ℚ} {R : ℤ} {f f' : ℕ} {di : DyadicInterval}
    {r : Option DyadicInterval} (h : smallestContaining times R f di = some r) (hf : f ≤ f') :
    smallestContaining times R f' di = some r := by
  unfold smallestContaining at h ⊢
  simp only at h ⊢
  split at h
  · rename_i hc; rw [if_pos hc]; exact h
  · rename_i hc
    rw [if_neg hc]
    split at h
    · rename_i first last heq
      rw [Option.map_eq_some_iff] at h ⊢
      obtain ⟨a, ha, rfl⟩ := h
      exact ⟨a, expandUntil_mono ha hf, rfl⟩
    · cases h

theorem recursiveLogsig_mono {L : Type} {ops : LieOps L} {times : List ℚ} {R : ℤ} {f f' : ℕ}
    (hf : f ≤ f') : ∀ {n n' : ℕ} {di : DyadicInterval} {m : DyadicInterval → Option L}
    {r : L × (DyadicInterval → Option L)}, recursiveLogsig ops times R f n di m = some r → n ≤ n' →
    recursiveLogsig ops times R f' n' di m = some r := by
  intro n
  induction n with
  | zero => intro n' di m r h; cases h
  | succ n ih =>
    intro n' di m r h hn
    obtain ⟨n', rfl⟩ : ∃ g, n' = g + 1 := ⟨n' - 1, by omega⟩
    unfold recursiveLogsig at h ⊢
    cases hs : smallestContaining times R f di with
    | none => rw [hs] at h; cases h
    | some p =>
      rw [hs] at h
      rw [smallestContaining_mono hs hf]
      cases p with
      | none => exact h
      | some p =>
        simp only at h ⊢
        split_ifs at h ⊢ with h1 h2
        · exact h
        · exact h
        · cases hl : p.shrinkLeft 1 with
          | none => rw [hl] at h; cases h
          | some l =>
            cases hr : p.shrinkRight with
            | none => rw [hl, hr] at h; cases h
            | some rr =>
              rw [hl, hr] at h
              simp only at h ⊢
              cases hx : recursiveLogsig ops times R f n l m with
              | none => rw [hx] at h; cases h
              | some x =>
                rw [hx] at h
                rw [ih hx (by omega)]
                simp only at h ⊢
                cases hy : recursiveLogsig ops times R f n rr x.2 with
                | none => rw [hy] at h; cases h
                | some y =>
                  rw [hy] at h
                  rw [ih hy (by omega)]
                  exact h

/-! ### the insertion loop -/

theorem insertTime_cells {R : ℤ} (c : ℤ) : ∀ {times : List ℚ} {ks : List ℤ}, Cells R times ks →
    ∃ ks', Cells R (insertTime (dyadicValue c R) times) ks' ∧ ∀ x, x ∈ ks' ↔ x = c ∨ x ∈ ks := by
  intro times ks
  induction ks generalizing times with
  | nil =>
    intro h
    have := h.times_eq
    subst this
    exact ⟨[c], ⟨by simp, rfl⟩, by simp⟩
  | cons s ks ih =>
    intro h
    have ht := h.times_eq
    subst ht
    have h' := List.pairwise_cons.1 h.sorted
    simp only [List.map_cons, insertTime, dyadicValue_lt]
    rcases lt_trichotomy c s with hl | hl | hl
    · rw [if_pos hl]
      refine ⟨c :: s :: ks, ⟨?_, rfl⟩, by simp⟩
      rw [List.pairwise_cons]
      refine ⟨fun x hx => ?_, h.sorted⟩
      rcases List.mem_cons.1 hx with rfl | hx
      · exact hl
      · exact hl.trans (h'.1 x hx)
    · subst hl
      rw [if_neg (lt_irrefl _), if_neg (lt_irrefl _)]
      exact ⟨c :: ks, ⟨h.sorted, rfl⟩, by simp⟩
    · rw [if_neg (by omega), if_pos hl]
      obtain ⟨ks', hk, hmem⟩ := ih ⟨h'.2, rfl⟩
      refine ⟨s :: ks', ⟨?_, ?_⟩, ?_⟩
      · rw [List.pairwise_cons]
        refine ⟨fun x hx => ?_, hk.sorted⟩
        rcases (hmem x).1 hx with rfl | hx
        · exact hl
        · exact h'.1 x hx
      · rw [hk.times_eq]; rfl
      · intro x
        simp only [List.mem_cons, hmem]
        tauto

/-- The cell of a time. -/
def cellOf (R : ℤ) (t : ℚ) : ℤ := ⌊t * 2 ^ R⌋

theorem ofParam_cell (R : ℤ) (t : ℚ) : DyadicInterval.ofParam t R .clopen = node R (cellOf R t) 0 := by
  unfold DyadicInterval.ofParam node cellOf
  simp

theorem includedEnd_node (R c : ℤ) : (node R c 0).includedEnd = dyadicValue c R := by
  have h1 : (node R c 0).includedEnd = (node R c 0).inf := rfl
  rw [h1, node_inf]
  simp

section Build

variable {L G : Type} [Monoid G]

/-- Ordered product of the items in cell `c`. -/
def itemsVal (sig : L → G) (R : ℤ) (items : List (ℚ × L)) (c : ℤ) : G :=
  eventsSig sig (items.filter fun r => decide (cellOf R r.1 = c))

theorem itemsVal_append (sig : L → G) (R : ℤ) (l : List (ℚ × L)) (r : ℚ × L) (c : ℤ) :
    itemsVal sig R (l ++ [r]) c =
      itemsVal sig R l c * if cellOf R r.1 = c then sig r.2 else 1 := by
  unfold itemsVal
  rw [List.filter_append, eventsSig_append]
  congr 1
  by_cases h : cellOf R r.1 = c <;> simp [h, eventsSig]

theorem insert_loop (ops : LieOps L) (sig : L → G) (hI : Interprets ops sig) (R : ℤ)
    (items : List (ℚ × L)) :
    ∃ ks, Cells R (items.foldl (tickInsert ops R) ([], fun _ => none)).1 ks ∧
      (∀ c, c ∈ ks ↔ ∃ r ∈ items, cellOf R r.1 = c) ∧
      (∀ d x, (items.foldl (tickInsert ops R) ([], fun _ => none)).2 d = some x →
        ∃ c ∈ ks, d = node R c 0) ∧
      ∀ c ∈ ks, ∃ x, (items.foldl (tickInsert ops R) ([], fun _ => none)).2 (node R c 0) = some x ∧
        sig x = itemsVal sig R items c := by
  induction items using List.reverseRecOn with
  | nil => exact ⟨[], ⟨List.Pairwise.nil, rfl⟩, by simp, by simp, by simp⟩
  | append_singleton items r ih =>
    obtain ⟨ks, h1, h2, h3, h4⟩ := ih
    rw [List.foldl_append]
    simp only [List.foldl_cons, List.foldl_nil]
    set st := items.foldl (tickInsert ops R) ([], fun _ => none) with hst
    unfold tickInsert
    simp only [ofParam_cell, includedEnd_node]
    obtain ⟨ks', k1, k2⟩ := insertTime_cells (cellOf R r.1) h1
    refine ⟨ks', k1, ?_, ?_, ?_⟩
    · intro c
      rw [k2, h2]
      constructor
      · rintro (rfl | ⟨s, hs, rfl⟩)
        · exact ⟨r, by simp, rfl⟩
        · exact ⟨s, by simp [hs], rfl⟩
      · rintro ⟨s, hs, rfl⟩
        rcases List.mem_append.1 hs with hs | hs
        · exact Or.inr ⟨s, hs, rfl⟩
        · rw [List.mem_singleton] at hs; subst hs; exact Or.inl rfl
    · intro d x hd
      by_cases he : d = node R (cellOf R r.1) 0
      · exact ⟨_, (k2 _).2 (Or.inl rfl), he⟩
      · rw [Function.update_of_ne he] at hd
        obtain ⟨c, hc, rfl⟩ := h3 d x hd
        exact ⟨c, (k2 _).2 (Or.inr hc), rfl⟩
    · intro c hc
      rw [itemsVal_append]
      by_cases he : cellOf R r.1 = c
      · rw [if_pos he, he, Function.update_self]
        refine ⟨_, rfl, ?_⟩
        cases hx : st.2 (node R c 0) with
        | none =>
          have hnil : itemsVal sig R items c = 1 := by
            unfold itemsVal
            rw [List.filter_eq_nil_iff.2]
            · rfl
            · intro s hs hsc
              simp only [decide_eq_true_eq] at hsc
              obtain ⟨x, hx', -⟩ := h4 c ((h2 c).2 ⟨s, hs, hsc⟩)
              rw [hx] at hx'
              cases hx'
          rw [hnil, one_mul]
        | some y =>
          obtain ⟨c', hc', e⟩ := h3 _ _ hx
          obtain ⟨rfl, -⟩ := node_inj e
          obtain ⟨x, hx', sx⟩ := h4 c hc'
          rw [hx] at hx'
          obtain rfl := Option.some.inj hx'
          simp only
          rw [hI.cbh]
          simp [sx]
      · rw [if_neg he, mul_one, Function.update_of_ne (fun e => he (node_inj e).1.symm)]
        rcases (k2 c).1 hc with rfl | hc
        · exact absurd rfl he
        · exact h4 c hc

theorem filter_split (f : (ℚ × L) → ℤ) (c : ℤ) (items : List (ℚ × L))
    (hs : (items.map f).Pairwise (· ≤ ·)) (hc : ∀ r ∈ items, c ≤ f r) :
    (items.filter fun r => decide (f r = c)) ++ (items.filter fun r => decide (f r ≠ c)) = items := by
  induction items with
  | nil => rfl
  | cons r items ih =>
    rw [List.map_cons, List.pairwise_cons] at hs
    have IH := ih hs.2 fun r hr => hc r (by simp [hr])
    by_cases h : f r = c
    · simp only [List.filter_cons, h, decide_true, if_true, ne_eq, not_true_eq_false, decide_false,
        Bool.false_eq_true, if_false, List.cons_append]
      rw [IH]
    · have hlt : c < f r := lt_of_le_of_ne (hc r (by simp)) (Ne.symm h)
      have hall : ∀ s ∈ items, f s ≠ c := by
        intro s hs'
        have := hs.1 (f s) (List.mem_map_of_mem hs')
        omega
      rw [List.filter_cons, if_neg (by simp [h]), List.filter_cons, if_pos (by simp [h]),
        List.filter_eq_nil_iff.2 (by intro s hs'; simp [hall s hs']),
        List.filter_eq_self.2 (by intro s hs'; simp [hall s hs'])]
      rfl

theorem cells_prod (sig : L → G) (f : (ℚ × L) → ℤ) : ∀ (ks : List ℤ) (items : List (ℚ × L)),
    ks.Pairwise (· < ·) → (items.map f).Pairwise (· ≤ ·) → (∀ r ∈ items, f r ∈ ks) →
    (ks.map fun c => eventsSig sig (items.filter fun r => decide (f r = c))).prod =
      eventsSig sig items := by
  intro ks
  induction ks with
  | nil =>
    intro items _ _ h
    have : items = [] := List.eq_nil_iff_forall_not_mem.2 fun r hr => by simpa using h r hr
    subst this
    rfl
  | cons c ks ih =>
    intro items hs hi hm
    have h' := List.pairwise_cons.1 hs
    have hc : ∀ r ∈ items, c ≤ f r := by
      intro r hr
      rcases List.mem_cons.1 (hm r hr) with h | h
      · exact h.ge
      · exact (h'.1 _ h).le
    rw [List.map_cons, List.prod_cons]
    conv_rhs => rw [← filter_split f c items hi hc]
    rw [eventsSig_append]
    congr 1
    rw [← ih (items.filter fun r => decide (f r ≠ c)) h'.2]
    · congr 1
      refine List.map_congr_left fun d hd => ?_
      rw [List.filter_filter]
      congr 1
      refine List.filter_congr fun r _ => ?_
      have := h'.1 d hd
      rw [Bool.eq_iff_iff]
      simp only [decide_eq_true_eq, Bool.and_eq_true, ne_eq]
      omega
    · exact hi.sublist (List.Sublist.map _ List.filter_sublist)
    · intro r hr
      rw [List.mem_filter] at hr
      rcases List.mem_cons.1 (hm r hr.1) with h | h
      · simp [h] at hr
      · exact h

theorem cellOf_mono (R : ℤ) {s t : ℚ} (h : s ≤ t) : cellOf R s ≤ cellOf R t :=
  Int.floor_le_floor (mul_le_mul_of_nonneg_right h (two_zpow_pos R).le)

/-- The product over occupied cells is the product over the items. -/
theorem filter_cells_prod (sig : L → G) (R : ℤ) (ks : List ℤ) (items : List (ℚ × L))
    (hs : ks.Pairwise (· < ·)) (hi : items.Pairwise fun r s => r.1 ≤ s.1)
    (hm : ∀ c, c ∈ ks ↔ ∃ r ∈ items, cellOf R r.1 = c) (p : ℤ → Bool) :
    ((ks.filter p).map (itemsVal sig R items)).prod =
      eventsSig sig (items.filter fun r => p (cellOf R r.1)) := by
  rw [← cells_prod sig (fun r => cellOf R r.1) (ks.filter p)
    (items.filter fun r => p (cellOf R r.1)) (hs.filter _)]
  · congr 1
    refine List.map_congr_left fun c hc => ?_
    unfold itemsVal
    rw [List.filter_filter]
    congr 1
    refine List.filter_congr fun r _ => ?_
    have hp := (List.mem_filter.1 hc).2
    rw [Bool.eq_iff_iff]
    simp only [decide_eq_true_eq, Bool.and_eq_true]
    constructor
    · intro h; exact ⟨h, by rw [h]; exact hp⟩
    · exact fun h => h.1
  · rw [List.pairwise_map]
    exact (hi.filter _).imp fun h => cellOf_mono R h
  · intro r hr
    rw [List.mem_filter] at hr ⊢
    exact ⟨(hm _).2 ⟨r, hr.1, rfl⟩, hr.2⟩

/-! ### the constructor -/

theorem neg_agree {a b : ℤ} (ha : a < 0) (hb : b < 0) : ∃ j, Agree a b j := by
  have key : ∀ c : ℤ, c < 0 → ∀ j : ℕ, (-c).toNat ≤ j → c / 2 ^ j = -1 := by
    intro c hc j hj
    have h2 : ((-c).toNat : ℤ) < 2 ^ (-c).toNat := by exact_mod_cast Nat.lt_two_pow_self
    have h3 : (2 : ℤ) ^ (-c).toNat ≤ 2 ^ j := pow_le_pow_right₀ (by norm_num) hj
    rw [div_eq_iff_range]
    constructor
    · omega
    · have : ((-1 : ℤ) + 1) * 2 ^ j = 0 := by ring
      omega
  refine ⟨max (-a).toNat (-b).toNat, ?_⟩
  unfold Agree
  rw [key a ha _ (le_max_left _ _), key b hb _ (le_max_right _ _)]

theorem nonneg_agree {a b : ℤ} (ha : 0 ≤ a) (hb : 0 ≤ b) : ∃ j, Agree a b j := by
  have key : ∀ c : ℤ, 0 ≤ c → ∀ j : ℕ, c.toNat ≤ j → c / 2 ^ j = 0 := by
    intro c hc j hj
    have h2 : (c.toNat : ℤ) < 2 ^ c.toNat := by exact_mod_cast Nat.lt_two_pow_self
    have h3 : (2 : ℤ) ^ c.toNat ≤ 2 ^ j := pow_le_pow_right₀ (by norm_num) hj
    exact Int.ediv_eq_zero_of_lt hc (by omega)
  refine ⟨max a.toNat b.toNat, ?_⟩
  unfold Agree
  rw [key a ha _ (le_max_left _ _), key b hb _ (le_max_right _ _)]

theorem mixed_never {a b : ℤ} (ha : a < 0) (hb : 0 ≤ b) (j : ℕ) : ¬ Agree a b j := by
  unfold Agree
  have h1 : a / 2 ^ j < 0 := Int.ediv_neg_of_neg_of_pos ha (by positivity)
  have h2 : 0 ≤ b / 2 ^ j := Int.ediv_nonneg hb (by positivity)
  omega

theorem neg_cells {ks : List ℤ} (hs : ks.Pairwise (· < ·)) :
    ks.take (ks.findIdx fun c => decide (0 < c)) = ks.filter fun c => decide (c ≤ 0) := by
  have := range_eq_filter_int (fun _ => true) (fun c => decide (0 < c)) (fun _ _ _ _ => rfl)
    (fun s t hst h => by simp only [decide_eq_true_eq] at *; omega) (fun _ _ => rfl) ks hs
  have h0 : ks.findIdx (fun _ => true) = 0 := by cases ks <;> simp [List.findIdx_cons]
  rw [h0, List.drop_zero] at this
  rw [this]
  refine List.filter_congr fun c _ => ?_
  rw [Bool.eq_iff_iff]
  simp

theorem pos_cells {ks : List ℤ} (hs : ks.Pairwise (· < ·)) :
    ks.drop (ks.findIdx fun c => decide (0 ≤ c)) = ks.filter fun c => decide (0 ≤ c) := by
  have := range_eq_filter_int (fun c => decide (0 ≤ c)) (fun _ => false)
    (fun s t hst h => by simp only [decide_eq_true_eq] at *; omega)
    (fun _ _ _ h => h) (fun _ h => by cases h) ks hs
  have h0 : ks.findIdx (fun _ => false) = ks.length := by
    rw [List.findIdx_eq_length]; simp
  rw [h0, List.take_length] at this
  rw [this]
  refine List.filter_congr fun c _ => ?_
  simp

theorem zero_value (R : ℤ) : dyadicValue 0 R = 0 := by simp [dyadicValue]

/-- `smallest_dyadic_containing_all_negative_events` in terms of cells. -/
theorem smallestNegative_eq {R : ℤ} {times : List ℚ} {ks : List ℤ} (h : Cells R times ks) (fuel : ℕ) :
    ((ks.filter fun c => decide (c ≤ 0)) = [] ∧ smallestNegative times R fuel = some none) ∨
    ∃ a b, (ks.filter fun c => decide (c ≤ 0)).head? = some a ∧
      (ks.filter fun c => decide (c ≤ 0)).getLast? = some b ∧
      smallestNegative times R fuel = (expandUntil (node R b 0) fuel (node R a 0)).map some := by
  unfold smallestNegative
  have hz : upperBoundT times 0 = ks.findIdx fun c => decide (0 < c) := by
    rw [← zero_value R, upperBoundT_eq h]
  simp only [hz]
  have hF := neg_cells h.sorted
  set z := ks.findIdx fun c => decide (0 < c) with hzd
  have hzl : z ≤ ks.length := by rw [hzd]; exact List.findIdx_le_length
  by_cases h0 : z = 0
  · left
    rw [if_pos h0]
    exact ⟨by rw [← hF, h0]; rfl, rfl⟩
  · right
    rw [if_neg h0, ← hF]
    have h1 := head_getElem ks 0 z (by omega)
    have h2 := last_getElem ks 0 z (by omega) hzl
    rw [List.drop_zero] at h1 h2
    have l1 : 0 < ks.length := by omega
    have l2 : z - 1 < ks.length := by omega
    rw [List.getElem?_eq_getElem l1] at h1
    rw [List.getElem?_eq_getElem l2] at h2
    refine ⟨_, _, h1, h2, ?_⟩
    have g1 : times[0]? = some (dyadicValue ks[0] R) := by
      rw [h.times_eq, List.getElem?_map, List.getElem?_eq_getElem l1]; rfl
    have g2 : times[z - 1]? = some (dyadicValue ks[z - 1] R) := by
      rw [h.times_eq, List.getElem?_map, List.getElem?_eq_getElem l2]; rfl
    rw [g1, g2]
    simp only [ofParam_node]

/-- `smallest_dyadic_containing_all_positive_events` in terms of cells. -/
theorem smallestPositive_eq {R : ℤ} {times : List ℚ} {ks : List ℤ} (h : Cells R times ks) (fuel : ℕ) :
    ((ks.filter fun c => decide (0 ≤ c)) = [] ∧ smallestPositive times R fuel = some none) ∨
    ∃ a b, (ks.filter fun c => decide (0 ≤ c)).head? = some a ∧
      (ks.filter fun c => decide (0 ≤ c)).getLast? = some b ∧
      smallestPositive times R fuel = (expandUntil (node R b 0) fuel (node R a 0)).map some := by
  unfold smallestPositive
  have hz : lowerBoundT times 0 = ks.findIdx fun c => decide (0 ≤ c) := by
    rw [← zero_value R, lowerBoundT_eq h]
  have hlen : times.length = ks.length := by rw [h.times_eq, List.length_map]
  simp only [hz, hlen]
  have hF := pos_cells h.sorted
  set z := ks.findIdx fun c => decide (0 ≤ c) with hzd
  have hzl : z ≤ ks.length := by rw [hzd]; exact List.findIdx_le_length
  by_cases h0 : z = ks.length
  · left
    rw [if_pos h0]
    exact ⟨by rw [← hF, h0, List.drop_length], rfl⟩
  · right
    rw [if_neg h0, ← hF]
    have h1 := head_getElem ks z ks.length (by omega)
    have h2 := last_getElem ks z ks.length (by omega) le_rfl
    rw [List.take_length] at h1 h2
    have l1 : z < ks.length := by omega
    have l2 : ks.length - 1 < ks.length := by omega
    rw [List.getElem?_eq_getElem l1] at h1
    rw [List.getElem?_eq_getElem l2] at h2
    refine ⟨_, _, h1, h2, ?_⟩
    have g1 : times[z]? = some (dyadicValue ks[z] R) := by
      rw [h.times_eq, List.getElem?_map, List.getElem?_eq_getElem l1]; rfl
    have g2 : times[ks.length - 1]? = some (dyadicValue ks[ks.length - 1] R) := by
      rw [h.times_eq, List.getElem?_map, List.getElem?_eq_getElem l2]; rfl
    rw [g1, g2]
    simp only [ofParam_node]

/-- One root: the interval found covers the given side. -/
theorem root_covers {R : ℤ} {ks : List ℤ} (hs : ks.Pairwise (· < ·)) (p : ℤ → Bool) {a b : ℤ}
    (ha : (ks.filter p).head? = some a) (hb : (ks.filter p).getLast? = some b)
    (hag : ∃ j, Agree a b j) :
    ∃ K J, (∀ fuel ≥ J, (expandUntil (node R b 0) fuel (node R a 0)).map some =
        some (some (node R K J))) ∧ ∀ c ∈ ks, p c = true → c ∈ cellsIn ks K J := by
  obtain ⟨j, hj⟩ := hag
  obtain ⟨J, -, hJ⟩ := exists_leastAgree hj
  refine ⟨a / 2 ^ J, J, fun fuel hf => ?_, fun c hc hp => ?_⟩
  · have := expandUntil_node R a b J hJ fuel 0 (Nat.zero_le _) (by omega)
    rw [pow_zero, Int.ediv_one] at this
    rw [this]
    rfl
  · refine mem_cellsIn.2 ⟨hc, ?_⟩
    obtain ⟨l1, l2⟩ := sorted_mem_between (hs.filter p) ha hb (List.mem_filter.2 ⟨hc, hp⟩)
    have e1 : a / 2 ^ J ≤ c / 2 ^ J := Int.ediv_le_ediv (by positivity) l1
    have e2 : c / 2 ^ J ≤ b / 2 ^ J := Int.ediv_le_ediv (by positivity) l2
    have e3 : a / 2 ^ J = b / 2 ^ J := hJ.1
    omega

/-- One root step of the constructor. -/
theorem root_step (ops : LieOps L) (sig : L → G) (hI : Interprets ops sig)
    (hz : ops.isZero ops.zero = true) {R : ℤ} {times : List ℚ} {ks : List ℤ}
    (hcells : Cells R times ks) (cellVal : ℤ → G) (p : ℤ → Bool)
    (find : ℕ → Option (Option DyadicInterval))
    (hfind : ∀ fuel, ((ks.filter p) = [] ∧ find fuel = some none) ∨
      ∃ a b, (ks.filter p).head? = some a ∧ (ks.filter p).getLast? = some b ∧
        find fuel = (expandUntil (node R b 0) fuel (node R a 0)).map some)
    (hag : ∀ a ∈ ks, ∀ b ∈ ks, p a = true → p b = true → ∃ j, Agree a b j)
    (m : DyadicInterval → Option L) (hm : MInv ops sig R ks cellVal m) :
    ∃ f₀ r m', (∀ fuel ≥ f₀, find fuel = some r ∧
        (r = none ∧ m' = m ∨
          ∃ d, r = some d ∧ (recursiveLogsig ops times R fuel fuel d m).map Prod.snd = some m')) ∧
      MInv ops sig R ks cellVal m' ∧
      (∀ k j, Entry sig R ks cellVal m k j → Entry sig R ks cellVal m' k j) ∧
      ∀ k j, cellsIn ks k j ≠ [] → (∀ c ∈ cellsIn ks k j, p c = true) →
        ∃ K J, Top (cellsIn ks k j) K J ∧ Entry sig R ks cellVal m' K J := by
  by_cases hnil : ks.filter p = []
  · refine ⟨0, none, m, fun fuel _ => ⟨?_, Or.inl ⟨rfl, rfl⟩⟩, hm, fun _ _ h => h, ?_⟩
    · rcases hfind fuel with ⟨-, h⟩ | ⟨a, b, h, -⟩
      · exact h
      · rw [hnil] at h; cases h
    · intro k j hne hp
      obtain ⟨c, hc⟩ := List.exists_mem_of_ne_nil _ hne
      rw [List.filter_eq_nil_iff] at hnil
      exact absurd (hp c hc) (hnil c (mem_cellsIn.1 hc).1)
  · have : ∃ a b, (ks.filter p).head? = some a ∧ (ks.filter p).getLast? = some b := by
      rcases hfind 0 with ⟨h, -⟩ | ⟨a, b, h1, h2, -⟩
      · exact absurd h hnil
      · exact ⟨a, b, h1, h2⟩
    obtain ⟨a, b, ha, hb⟩ := this
    have ma := List.mem_filter.1 (List.mem_of_mem_head? (by rw [ha]; rfl) : a ∈ ks.filter p)
    have mb := List.mem_filter.1 (List.mem_of_getLast? hb)
    obtain ⟨K, J, hexp, hcov⟩ := root_covers (R := R) hcells.sorted p ha hb
      (hag a ma.1 b mb.1 ma.2 mb.2)
    obtain ⟨x, m', e, -, i, c, mo⟩ := recursiveLogsig_spec hcells hI hz (J + 1) (J + 1) J K m
      (by omega) (by omega) hm
    refine ⟨J + 1, some (node R K J), m', fun fuel hf => ⟨?_, ?_⟩, i, mo, ?_⟩
    · rcases hfind fuel with ⟨h, -⟩ | ⟨a', b', h1, h2, h3⟩
      · exact absurd h hnil
      · rw [ha] at h1
        rw [hb] at h2
        obtain rfl := Option.some.inj h1
        obtain rfl := Option.some.inj h2
        rw [h3, hexp fuel (by omega)]
    · refine Or.inr ⟨_, rfl, ?_⟩
      rw [recursiveLogsig_mono hf e hf]
      rfl
    · intro k j hne hp
      exact c.cover (fun x hx => hcov x (mem_cellsIn.1 hx).1 (hp x hx)) hne

/-- The state after construction. -/
structure Built (ops : LieOps L) (sig : L → G) (R : ℤ) (items : List (ℚ × L)) (s : Tick L)
    (ks : List ℤ) : Prop where
  res : s.res = R
  cells : Cells R s.times ks
  mem : ∀ c, c ∈ ks ↔ ∃ r ∈ items, cellOf R r.1 = c
  inv : MInv ops sig R ks (itemsVal sig R items) s.data
  complete : ∀ k j, cellsIn ks k j ≠ [] → ∃ K J, Top (cellsIn ks k j) K J ∧
    Entry sig R ks (itemsVal sig R items) s.data K J

theorem cellsIn_zero {ks : List ℤ} (hs : ks.Pairwise (· < ·)) {c : ℤ} (hc : c ∈ ks) :
    cellsIn ks c 0 = [c] := by
  unfold cellsIn
  simp only [pow_zero, Int.ediv_one]
  have hnd : ks.Nodup := hs.imp fun h => h.ne
  rw [show (fun c_1 => decide (c_1 = c)) = (fun x => x == c) from rfl, List.filter_beq,
    List.count_eq_one_of_mem hnd hc]
  rfl

theorem tickBuild_spec (ops : LieOps L) (sig : L → G) (hI : Interprets ops sig)
    (hz : ops.isZero ops.zero = true) (R : ℤ) (items : List (ℚ × L))
    (hcond : (∀ r ∈ items, 0 ≤ cellOf R r.1) ∨ ∀ r ∈ items, cellOf R r.1 ≠ 0) :
    ∃ s ks, Returns (tickBuild ops R items) s ∧ Built ops sig R items s ks := by
  obtain ⟨ks, h1, h2, h3, h4⟩ := insert_loop ops sig hI R items
  set st := items.foldl (tickInsert ops R) ([], fun _ => none) with hst
  have hleafval : ∀ c ∈ ks, val ks (itemsVal sig R items) c 0 = itemsVal sig R items c := by
    intro c hc
    unfold val
    rw [cellsIn_zero h1.sorted hc]
    simp
  have hleaf : ∀ c ∈ ks, Entry sig R ks (itemsVal sig R items) st.2 c 0 := by
    intro c hc
    obtain ⟨x, hx, sx⟩ := h4 c hc
    exact ⟨x, hx, by rw [sx, hleafval c hc]⟩
  have hm : MInv ops sig R ks (itemsVal sig R items) st.2 := by
    refine ⟨hleaf, fun k j x hx _ => ?_⟩
    obtain ⟨c, hc, e⟩ := h3 _ _ hx
    obtain ⟨rfl, rfl⟩ := node_inj e
    obtain ⟨y, hy, sy⟩ := hleaf k hc
    rw [hx] at hy
    obtain rfl := Option.some.inj hy
    refine ⟨sy, fun k' j' e1 e2 e3 => ?_⟩
    have : j' = 0 := by omega
    subst this
    rw [Nat.sub_zero, pow_zero, Int.ediv_one] at e2
    subst e2
    refine ⟨k', 0, ?_, hleaf k' hc⟩
    rw [cellsIn_zero h1.sorted hc]
    exact ⟨k', k', rfl, rfl, ⟨rfl, by simp⟩, by simp⟩
  have hck : (∀ c ∈ ks, 0 ≤ c) ∨ ∀ c ∈ ks, c ≠ 0 := by
    rcases hcond with h | h
    · left; intro c hc; obtain ⟨r, hr, rfl⟩ := (h2 c).1 hc; exact h r hr
    · right; intro c hc; obtain ⟨r, hr, rfl⟩ := (h2 c).1 hc; exact h r hr
  obtain ⟨f₁, r₁, m₁, e1, i1, mo1, c1⟩ := root_step ops sig hI hz h1 (itemsVal sig R items)
    (fun c => decide (c ≤ 0)) (smallestNegative st.1 R) (smallestNegative_eq h1)
    (by
      intro a ha b hb pa pb
      simp only [decide_eq_true_eq] at pa pb
      rcases hck with h | h
      · have := h a ha
        have := h b hb
        exact ⟨0, by unfold Agree; congr 1; omega⟩
      · exact neg_agree (lt_of_le_of_ne pa (h a ha)) (lt_of_le_of_ne pb (h b hb))) st.2 hm
  obtain ⟨f₂, r₂, m₂, e2, i2, mo2, c2⟩ := root_step ops sig hI hz h1 (itemsVal sig R items)
    (fun c => decide (0 ≤ c)) (smallestPositive st.1 R) (smallestPositive_eq h1)
    (by
      intro a ha b hb pa pb
      simp only [decide_eq_true_eq] at pa pb
      exact nonneg_agree pa pb) m₁ i1
  refine ⟨⟨st.1, m₂, R⟩, ks, ⟨max f₁ f₂, fun n hn => ?_⟩, rfl, h1, h2, i2, ?_⟩
  · unfold tickBuild
    rw [← hst]
    obtain ⟨a1, a2⟩ := e1 n (le_trans (le_max_left _ _) hn)
    obtain ⟨b1, b2⟩ := e2 n (le_trans (le_max_right _ _) hn)
    simp only [a1]
    have fin : (match (some r₂ : Option (Option DyadicInterval)) with
        | none => none
        | some pos =>
          (match pos with
          | none => some m₁
          | some d => (recursiveLogsig ops st.1 R n n d m₁).map Prod.snd).map
            fun m₂ => (⟨st.1, m₂, R⟩ : Tick L)) = some ⟨st.1, m₂, R⟩ := by
      clear e2
      rcases b2 with ⟨h, rfl⟩ | ⟨d, h, h'⟩
      · subst h; rfl
      · subst h
        simp only
        rw [h']
        rfl
    clear e1
    rcases a2 with ⟨h, h'⟩ | ⟨d, h, h'⟩
    · subst h
      subst h'
      simp only [b1]
      exact fin
    · subst h
      simp only
      rw [h']
      simp only [b1]
      exact fin
  · intro k j hne
    by_cases hk : 0 ≤ k
    · refine c2 k j hne fun c hc => ?_
      have := (mem_cellsIn.1 hc).2
      simp only [decide_eq_true_eq]
      by_contra hneg
      have := Int.ediv_neg_of_neg_of_pos (not_le.1 hneg) (show (0 : ℤ) < 2 ^ j by positivity)
      omega
    · obtain ⟨K, J, hT, hE⟩ := c1 k j hne fun c hc => by
        have := (mem_cellsIn.1 hc).2
        simp only [decide_eq_true_eq]
        by_contra hpos
        have := Int.ediv_nonneg (not_le.1 hpos).le (show (0 : ℤ) ≤ 2 ^ j by positivity)
        omega
      exact ⟨K, J, hT, mo2 _ _ hE⟩

/-- Any clopen dyadic query on a constructed tick stream. -/
theorem tickLogSig_spec {ops : LieOps L} {sig : L → G} (hI : Interprets ops sig) {R : ℤ}
    {items : List (ℚ × L)} (hi : items.Pairwise fun r s => r.1 ≤ s.1) {s : Tick L} {ks : List ℤ}
    (hb : Built ops sig R items s ks) (d : DyadicInterval) (hd : d.type = .clopen) :
    ∃ x, Returns (fun fuel => tickLogSig ops s fuel d) x ∧
      sig x = eventsSig sig (items.filter fun r =>
        decide (d.left ≤ dyadicValue (cellOf R r.1) R) &&
          decide (dyadicValue (cellOf R r.1) R < d.right)) := by
  have hval := filter_cells_prod sig R ks items hb.cells.sorted hi hb.mem
    fun c => decide (d.inf ≤ dyadicValue c R) && decide (dyadicValue c R < d.sup)
  rw [inf_eq_left, sup_eq_right] at hval
  rw [← hval]
  have hcb : (ks.filter fun c => decide (d.left ≤ dyadicValue c R) &&
      decide (dyadicValue c R < d.right)) = cellsBetween R ks d.inf d.sup := by
    rw [inf_eq_left, sup_eq_right]; rfl
  rw [hcb]
  obtain ⟨k, n, ty⟩ := d
  simp only at hd
  subst hd
  rcases le_or_gt n R with hn | hn
  · obtain ⟨j, hj⟩ : ∃ j : ℕ, n = R - j := ⟨(R - n).toNat, by omega⟩
    subst hj
    have hnode : (⟨k, R - j, .clopen⟩ : DyadicInterval) = node R k j := rfl
    rw [hnode, cellsBetween_node]
    by_cases hne : cellsIn ks k j = []
    · refine ⟨ops.zero, ⟨j, fun fuel hf => ?_⟩, by rw [hI.zero, hne]; rfl⟩
      show tickLogSig ops s fuel _ = _
      unfold tickLogSig
      rw [hb.res]
      rcases smallest_spec hb.cells k j fuel hf with ⟨-, h⟩ | ⟨a, b, J, h1, -⟩
      · rw [h]
      · rw [hne] at h1; cases h1
    · obtain ⟨K, J, hT, hJ, hsm⟩ := smallest_top hb.cells k j hne
      obtain ⟨K', J', hT', x, hx, sx⟩ := hb.complete k j hne
      obtain ⟨rfl, rfl⟩ := hT.unique hT'
      refine ⟨x, ⟨j, fun fuel hf => ?_⟩, ?_⟩
      · show tickLogSig ops s fuel _ = _
        unfold tickLogSig
        rw [hb.res, hsm fuel hf]
        exact hx
      · rw [sx, val, top_cells hb.cells.sorted hT hJ]
  · set d : DyadicInterval := ⟨k, n, .clopen⟩ with hdd
    -- at most one cell starts inside the interval
    have honly : ∀ a ∈ cellsBetween R ks d.inf d.sup, ∀ b ∈ cellsBetween R ks d.inf d.sup, a = b := by
      have key : ∀ a ∈ cellsBetween R ks d.inf d.sup, ∀ b ∈ cellsBetween R ks d.inf d.sup,
          ¬ a < b := by
        intro a ha b hb' hab
        have h1 := (List.mem_filter.1 ha).2
        have h2 := (List.mem_filter.1 hb').2
        simp only [Bool.and_eq_true, decide_eq_true_eq, Intervals.inf_eq_left,
          Intervals.sup_eq_right] at h1 h2
        have hw : d.right - d.left = 1 / 2 ^ n := by
          show dyadicValue (k + 1) n - dyadicValue k n = _
          unfold dyadicValue
          push_cast
          ring
        have hw2 : 1 / (2 : ℚ) ^ R ≤ dyadicValue b R - dyadicValue a R := by
          unfold dyadicValue
          rw [← sub_div]
          have : (1 : ℚ) ≤ (b : ℚ) - a := by
            have : (a : ℚ) + 1 ≤ b := by exact_mod_cast hab
            linarith
          exact div_le_div_of_nonneg_right this (two_zpow_pos R).le
        have hw3 : 1 / (2 : ℚ) ^ n < 1 / 2 ^ R :=
          one_div_lt_one_div_of_lt (two_zpow_pos R) (zpow_lt_zpow_right₀ (by norm_num) hn)
        linarith [h1.1, h2.2]
      intro a ha b hb'
      have := key a ha b hb'
      have := key b hb' a ha
      omega
    have hgen := fun fuel => smallest_gen hb.cells d rfl 0
      (fun a b ha hb' => by unfold Agree; rw [honly a ha b hb']) fuel (Nat.zero_le _)
    by_cases hne : cellsBetween R ks d.inf d.sup = []
    · refine ⟨ops.zero, ⟨0, fun fuel _ => ?_⟩, by rw [hI.zero, hne]; rfl⟩
      show tickLogSig ops s fuel _ = _
      unfold tickLogSig
      rw [hb.res]
      rcases hgen fuel with ⟨-, h⟩ | ⟨a, b, J, h1, -⟩
      · rw [h]
      · rw [hne] at h1; cases h1
    · obtain ⟨c, hc⟩ := List.exists_mem_of_ne_nil _ hne
      have hcks := (List.mem_filter.1 hc).1
      obtain ⟨x, hx, sx⟩ := hb.inv.leaf c hcks
      have hsing : cellsBetween R ks d.inf d.sup = [c] := by
        have hnd : (cellsBetween R ks d.inf d.sup).Nodup :=
          (hb.cells.sorted.imp fun h => h.ne).filter _
        have hall := fun b hb' => honly b hb' c hc
        revert hnd hall hc
        generalize cellsBetween R ks d.inf d.sup = l
        intro hc hnd hall
        match l, hc, hnd, hall with
        | [y], _, _, hall => rw [hall y (by simp)]
        | y :: z :: l, _, hnd, hall =>
          have e1 := hall y (by simp)
          have e2 := hall z (by simp)
          simp [e1, e2] at hnd
      refine ⟨x, ⟨0, fun fuel _ => ?_⟩, ?_⟩
      · show tickLogSig ops s fuel _ = _
        unfold tickLogSig
        rw [hb.res]
        rcases hgen fuel with ⟨h, -⟩ | ⟨a, b, J, h1, h2, h3, h4, h5⟩
        · exact absurd h hne
        · rw [h5]
          have : J = 0 := by omega
          subst this
          rw [hsing] at h1
          obtain rfl := Option.some.inj h1
          rw [pow_zero, Int.ediv_one]
          exact hx
      · rw [sx, hsing, val, cellsIn_zero hb.cells.sorted hcks]

end Build


end RoughPy.Streams
