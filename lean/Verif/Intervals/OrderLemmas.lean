import Verif.Intervals.Dissect

/-! Helper lemmas: dyadic comparisons, rebase, `operator<` on dyadic intervals. -/

namespace RoughPy.Intervals

open RoughPy.Intervals.Dyadic

/-- signed included end: the quantity `operator<` compares first. -/
def uval (d : DyadicInterval) : ℚ :=
  match d.type with
  | .clopen => dyadicValue d.k d.n
  | .opencl => -dyadicValue d.k d.n

theorem lt_iff_uval (l r : DyadicInterval) (h : l.type = r.type) :
    l.lt r = true ↔ uval l < uval r ∨ (uval l = uval r ∧ l.n < r.n) := by
  unfold DyadicInterval.lt uval DyadicInterval.unit
  rw [if_neg (by simp [h]), ← h]
  split_ifs with h1 h2
  · rw [decide_eq_true_eq]
    cases l.type <;>
      simp only [h1, DyadicInterval.unitOf, dyadicValue_lt, neg_lt_neg_iff,
        lt_irrefl, and_false, or_false] <;> omega
  · rw [← dyadicValue_shift r.k r.n l.n (by omega), decide_eq_true_eq]
    cases l.type <;>
      simp only [DyadicInterval.unitOf, dyadicValue_lt, neg_lt_neg_iff,
        not_lt.mpr h2.le, and_false, or_false, shift_eq] <;> omega
  · have h3 : l.n < r.n := by omega
    rw [← dyadicValue_shift l.k l.n r.n (by omega), decide_eq_true_eq]
    cases l.type <;>
      simp only [DyadicInterval.unitOf, dyadicValue_lt, neg_lt_neg_iff, h3,
        and_true, shift_eq, neg_inj, dyadicValue_inj] <;> omega

theorem uval_inj (a b : DyadicInterval) (ht : a.type = b.type) (hn : a.n = b.n)
    (h : uval a = uval b) : a = b := by
  obtain ⟨k, n, t⟩ := a
  obtain ⟨k', n', t'⟩ := b
  simp only at ht hn
  subst ht hn
  unfold uval at h
  cases t <;> simp only [neg_inj, dyadicValue_inj] at h <;> rw [h]

theorem le_of_points_subset (a b : DyadicInterval) (h : a.type = b.type)
    (hs : b.points ⊆ a.points) (hne : a ≠ b) : uval a ≤ uval b ∧ a.n < b.n := by
  have h1 := (points_subset_iff a b h).mp hs
  have hn : a.n ≤ b.n := by
    by_contra hc
    have := (containsDyadic_iff a b h).mpr h1
    unfold DyadicInterval.containsDyadic at this
    rw [if_neg (by simp [h]), if_neg (by omega)] at this
    simp at this
  have hu : uval a ≤ uval b := by
    unfold uval
    unfold DyadicInterval.left DyadicInterval.right at h1
    rw [h] at h1 ⊢
    cases hb : b.type <;> rw [hb] at h1 <;> simp only at h1 ⊢
    · exact h1.1
    · exact neg_le_neg h1.2
  refine ⟨hu, lt_of_le_of_ne hn fun he => hne ?_⟩
  apply uval_inj _ _ h he
  unfold uval
  unfold DyadicInterval.left DyadicInterval.right at h1
  rw [h, he] at h1 ⊢
  cases hb : b.type <;> rw [hb] at h1 <;> simp only [dyadicValue_le] at h1 ⊢ <;>
    (have : a.k = b.k := by omega) <;> rw [this]

theorem rationalEquals_iff (l r : Dyadic) :
    l.rationalEquals r = true ↔ dyadicValue l.k l.n = dyadicValue r.k r.n := by
  have key : ∀ l r : Dyadic, l.k ≠ 0 → r.k ≠ 0 → r.n ≤ l.n →
      (dyadicValue l.k l.n = dyadicValue r.k r.n ↔ l.k = r.k * pow2 (l.n - r.n)) := by
    intro l r _ _ h
    rw [← dyadicValue_shift r.k r.n l.n h, dyadicValue_inj]
  have zero : ∀ n k m : ℤ, dyadicValue 0 n = dyadicValue k m ↔ k = 0 := by
    intro n k m
    unfold dyadicValue
    have := (two_zpow_pos m).ne'
    have := (two_zpow_pos n).ne'
    constructor
    · intro h
      rw [Int.cast_zero, zero_div, eq_comm, div_eq_zero_iff] at h
      rcases h with h | h
      · exact_mod_cast h
      · exact absurd h (by assumption)
    · rintro rfl; simp
  unfold Dyadic.rationalEquals
  by_cases hl : l.k = 0
  · rw [hl, zero]
    by_cases hr : r.k = 0 <;> simp [hr]
  by_cases hr : r.k = 0
  · rw [eq_comm (a := dyadicValue l.k l.n), hr, zero]
    simp [hl]
  simp only [hl, hr, and_self, or_self, if_false]
  by_cases h1 : Int.tmod l.k r.k = 0 ∧ Int.tdiv l.k r.k ≥ 1
  · rw [if_pos h1]
    obtain ⟨q, hq⟩ := Int.dvd_of_tmod_eq_zero h1.1
    have hdiv : Int.tdiv l.k r.k = q := by rw [hq, Int.mul_tdiv_cancel_left _ hr]
    rw [hdiv] at h1 ⊢
    by_cases hrel : l.n - r.n < 0
    · simp only [hrel, if_true, Bool.false_eq_true, false_iff]
      rw [eq_comm, key r l hr hl (by omega), hq]
      have hP := pow2_ge_two (r.n - l.n) (by omega)
      intro h
      have h2 : r.k * 1 = r.k * (q * pow2 (r.n - l.n)) := by linarith
      have h3 := mul_left_cancel₀ hr h2
      nlinarith [h1.2]
    · simp only [hrel, if_false, decide_eq_true_eq]
      rw [key l r hl hr (by omega), hq]
      constructor
      · rintro h; rw [h]
      · intro h; exact mul_left_cancel₀ hr h
  rw [if_neg h1]
  have n1 : ∀ q, l.k = r.k * q → ¬ 1 ≤ q := fun q hq hq1 => h1 ⟨by
    rw [hq]; exact Int.mul_tmod_right _ _, by rw [hq, Int.mul_tdiv_cancel_left _ hr]; exact hq1⟩
  by_cases h2 : Int.tmod r.k l.k = 0 ∧ Int.tdiv r.k l.k ≥ 1
  · rw [if_pos h2]
    obtain ⟨q, hq⟩ := Int.dvd_of_tmod_eq_zero h2.1
    have hdiv : Int.tdiv r.k l.k = q := by rw [hq, Int.mul_tdiv_cancel_left _ hl]
    rw [hdiv] at h2 ⊢
    by_cases hrel : r.n - l.n < 0
    · simp only [hrel, if_true, Bool.false_eq_true, false_iff]
      rw [key l r hl hr (by omega)]
      intro h
      exact n1 _ h (by have := pow2_pos (l.n - r.n); omega)
    · simp only [hrel, if_false, decide_eq_true_eq]
      rw [eq_comm (a := dyadicValue l.k l.n), key r l hr hl (by omega), hq]
      constructor
      · rintro h; rw [h]
      · intro h; exact mul_left_cancel₀ hl h
  · rw [if_neg h2]
    simp only [Bool.false_eq_true, false_iff]
    intro h
    rcases le_or_gt r.n l.n with hn | hn
    · rw [key l r hl hr hn] at h
      exact n1 _ h (by have := pow2_pos (l.n - r.n); omega)
    · rw [eq_comm, key r l hr hl hn.le] at h
      apply h2
      constructor
      · rw [h]; exact Int.mul_tmod_right _ _
      · rw [h, Int.mul_tdiv_cancel_left _ hl]; have := pow2_pos (r.n - l.n); omega

/-! ### rebase -/

theorem tdiv_findR (k : ℤ) (m : ℕ) :
    ∃ q, k = 2 ^ findR k m * q ∧ Int.tdiv k (2 ^ findR k m) = q := by
  obtain ⟨q, hq⟩ := findR_dvd k m
  refine ⟨q, hq, ?_⟩
  have h2 : (2 : ℤ) ^ findR k m ≠ 0 := by positivity
  have := Int.mul_tdiv_cancel_left q h2
  rwa [← hq] at this

theorem rebase_value (d : Dyadic) (res : ℤ) :
    dyadicValue (d.rebase res).1.k (d.rebase res).1.n = dyadicValue d.k d.n := by
  unfold Dyadic.rebase
  split_ifs with h1 h2 h3
  · rw [h1]; simp [dyadicValue]
  · exact dyadicValue_shift _ _ _ h2
  all_goals
    simp only
    generalize findR_arg : Int.toNat _ = m
    obtain ⟨q, hq, this⟩ := tdiv_findR d.k m
    rw [this]
    have hs := dyadicValue_shift q (d.n - findR d.k m) d.n (by omega)
    rw [show d.n - (d.n - (findR d.k m : ℤ)) = findR d.k m by ring] at hs
    rw [← hs]
    congr 1
    unfold pow2
    rw [Int.toNat_natCast, mul_comm]
    exact hq.symm

theorem rebase_unguarded (d : Dyadic) (res : ℤ) (h : d.n < intDigits + res) :
    ((d.rebase res).2 = true ↔ (d.rebase res).1.n = res) ∧
    ((d.rebase res).2 = false → res < (d.rebase res).1.n ∧ (d.rebase res).1.k % 2 = 1) := by
  by_cases hk : d.k = 0
  · simp [Dyadic.rebase, hk]
  by_cases hr : res ≥ d.n
  · simp [Dyadic.rebase, hk, hr]
  push Not at hr
  rw [rebase_coarse d res hk hr h]
  simp only [decide_eq_true_eq, decide_eq_false_iff_not]
  refine ⟨eq_comm, fun hne => ?_⟩
  set m := (d.n - res).toNat with hm
  have hle := findR_le d.k m
  refine ⟨by omega, ?_⟩
  have hlt : findR d.k m < m := by omega
  obtain ⟨q, hq, this⟩ := tdiv_findR d.k m
  rw [this]
  rcases Int.emod_two_eq_zero_or_one q with h0 | h0
  · exfalso
    apply findR_max d.k m (findR d.k m + 1) (by omega) (by omega)
    refine ⟨q / 2, ?_⟩
    conv_lhs => rw [hq]
    rw [pow_succ, mul_assoc]
    congr 1
    omega
  · exact h0

/-- an odd multiplier cannot be represented at a coarser power -/
theorem odd_not_coarser (k n k' n' : ℤ) (ho : k % 2 = 1) (h : n' < n) :
    dyadicValue k' n' ≠ dyadicValue k n := by
  intro he
  rw [← dyadicValue_shift k' n' n h.le, dyadicValue_inj] at he
  rw [show n - n' = (n - n' - 1) + 1 by ring, pow2_succ _ (by omega)] at he
  have : k = 2 * (k' * pow2 (n - n' - 1)) := by rw [← he]; ring
  omega

/-! ### interval membership by rounding -/

theorem mem_points_iff (k n : ℤ) (t : IType) (x : ℚ) :
    x ∈ (⟨k, n, t⟩ : DyadicInterval).points ↔
      k = match t with | .clopen => ⌊x * 2 ^ n⌋ | .opencl => ⌈x * 2 ^ n⌉ := by
  have hp := two_zpow_pos n
  unfold DyadicInterval.points dyadicValue
  cases t
  · simp only [Set.mem_Ico]
    rw [div_le_iff₀ hp, lt_div_iff₀ hp, eq_comm, Int.floor_eq_iff]
    push_cast; exact Iff.rfl
  · simp only [Set.mem_Ioc]
    rw [div_lt_iff₀ hp, le_div_iff₀ hp, eq_comm, Int.ceil_eq_iff]
    push_cast; exact Iff.rfl

theorem roundTo_floor (k n res : ℤ) (h : res ≤ n) (t : IType) :
    roundTo t k n res = match t with
      | .clopen => ⌊dyadicValue k n * 2 ^ res⌋
      | .opencl => ⌈dyadicValue k n * 2 ^ res⌉ := by
  have hv : dyadicValue k n * 2 ^ res = (k : ℚ) / (pow2 (n - res) : ℤ) := by
    rw [pow2_coe _ (by omega), zpow_sub₀ (by norm_num)]
    unfold dyadicValue
    have := (two_zpow_pos n).ne'
    have := (two_zpow_pos res).ne'
    field_simp
  rw [hv]
  have hfl : ∀ a : ℤ, ⌊(a : ℚ) / (pow2 (n - res) : ℤ)⌋ = a / pow2 (n - res) :=
    fun a => by
      have := Rat.floor_intCast_div_natCast a (2 ^ (n - res).toNat)
      unfold pow2
      push_cast at this ⊢
      exact this
  unfold roundTo
  split_ifs with h1
  · have : n = res := by omega
    subst this
    rw [sub_self, pow2_zero]
    cases t <;> simp
  · cases t <;> simp only
    · rw [hfl]
    · have := hfl (-k)
      rw [← this]
      push_cast
      rw [neg_div, Int.floor_neg, neg_neg]

end RoughPy.Intervals
