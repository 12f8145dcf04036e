import Verif.Intervals.Spec
import Mathlib.Tactic.Linarith
import Mathlib.Tactic.Ring
import Mathlib.Tactic.Positivity
import Mathlib.Tactic.FieldSimp
import Mathlib.Algebra.Order.Field.Power

/-! Helper lemmas about the interval model. -/

namespace RoughPy.Intervals

open RoughPy.Intervals.Dyadic

theorem mod_eq_emod (a b : ℤ) (hb : 0 < b) : Dyadic.mod a b = a % b := by
  unfold Dyadic.mod
  simp only
  have h1 := Int.tmod_def a b
  rcases le_or_gt 0 a with ha | ha
  · have : Int.tmod a b = a % b := Int.tmod_eq_emod_of_nonneg ha
    rw [this, if_neg (not_lt.mpr (Int.emod_nonneg a hb.ne'))]
  · have h2 := Int.tmod_eq_emod (a := a) (b := b)
    rw [abs_of_pos hb]
    have h3 := Int.emod_nonneg a hb.ne'
    have h4 := Int.emod_lt_of_pos a hb
    split_ifs at h2 ⊢ with h5 h6 <;> try omega

theorem findR_le (k : ℤ) (m : ℕ) : findR k m ≤ m := by
  induction m with
  | zero => simp [findR]
  | succ m ih => unfold findR; split_ifs <;> omega

theorem findR_dvd (k : ℤ) (m : ℕ) : (2 : ℤ) ^ findR k m ∣ k := by
  induction m with
  | zero => simp [findR]
  | succ m ih =>
    unfold findR
    split_ifs with h
    · exact ih
    · exact Int.dvd_of_tmod_eq_zero (not_not.mp h)

theorem findR_max (k : ℤ) (m s : ℕ) (h1 : findR k m < s) (h2 : s ≤ m) : ¬ (2 : ℤ) ^ s ∣ k := by
  induction m with
  | zero => omega
  | succ m ih =>
    unfold findR at h1
    split_ifs at h1 with h
    · rcases Nat.lt_or_ge m s with h3 | h3
      · have : s = m + 1 := by omega
        subst this
        intro hd
        exact h (Int.tmod_eq_zero_of_dvd hd)
      · exact ih h1 h3
    · omega

theorem findR_eq_of_dvd (k : ℤ) (m : ℕ) (h : (2 : ℤ) ^ m ∣ k) : findR k m = m := by
  by_contra hne
  have := findR_le k m
  exact findR_max k m m (by omega) le_rfl h

theorem pow2_pos (e : ℤ) : 0 < pow2 e := by unfold pow2; positivity

theorem pow2_coe (e : ℤ) (he : 0 ≤ e) : ((pow2 e : ℤ) : ℚ) = (2 : ℚ) ^ e := by
  unfold pow2
  obtain ⟨m, rfl⟩ := Int.eq_ofNat_of_zero_le he
  simp

theorem two_zpow_pos (n : ℤ) : (0 : ℚ) < (2 : ℚ) ^ n := by positivity

theorem dyadicValue_lt {k k' n : ℤ} : dyadicValue k n < dyadicValue k' n ↔ k < k' := by
  unfold dyadicValue
  rw [div_lt_div_iff_of_pos_right (two_zpow_pos n)]
  exact_mod_cast Iff.rfl

theorem dyadicValue_le {k k' n : ℤ} : dyadicValue k n ≤ dyadicValue k' n ↔ k ≤ k' := by
  unfold dyadicValue
  rw [div_le_div_iff_of_pos_right (two_zpow_pos n)]
  exact_mod_cast Iff.rfl

theorem dyadicValue_inj {k k' n : ℤ} : dyadicValue k n = dyadicValue k' n ↔ k = k' := by
  rw [le_antisymm_iff, dyadicValue_le, dyadicValue_le, le_antisymm_iff]

/-- moving to a finer power -/
theorem dyadicValue_shift (k n m : ℤ) (h : n ≤ m) :
    dyadicValue (k * pow2 (m - n)) m = dyadicValue k n := by
  unfold dyadicValue
  push_cast
  rw [pow2_coe _ (by omega), zpow_sub₀ (by norm_num)]
  have := (two_zpow_pos n).ne'
  have := (two_zpow_pos m).ne'
  field_simp

theorem toParam_eq (d : Dyadic) : d.toParam = dyadicValue d.k d.n := by
  unfold Dyadic.toParam dyadicValue
  rw [zpow_neg, div_eq_mul_inv]

theorem shift_eq (k n : ℤ) : Dyadic.shift k n = k * pow2 n := rfl

/-- `rebase` in the range where the 32-bit guard is not triggered, as a closed form. -/
theorem rebase_coarse (d : Dyadic) (res : ℤ) (hk : d.k ≠ 0) (h1 : res < d.n)
    (h2 : d.n < intDigits + res) :
    d.rebase res =
      (⟨Int.tdiv d.k (2 ^ findR d.k (d.n - res).toNat), d.n - findR d.k (d.n - res).toNat⟩,
        decide (res = d.n - findR d.k (d.n - res).toNat)) := by
  unfold Dyadic.rebase
  rw [if_neg hk, if_neg (by omega)]
  simp only
  rw [if_neg (by omega)]

/-- Closed form of the multiplier computed by `DyadicInterval(Dyadic, res, type)`. -/
def roundTo (t : IType) (k n res : ℤ) : ℤ :=
  if n ≤ res then k * pow2 (res - n)
  else match t with
    | .clopen => k / pow2 (n - res)
    | .opencl => -((-k) / pow2 (n - res))

theorem zero_roundTo (t : IType) (n res : ℤ) : roundTo t 0 n res = 0 := by
  unfold roundTo
  split_ifs
  · simp
  · cases t <;> simp

theorem roundTo_of_dvd (t : IType) (k n res q : ℤ) (h : res < n) (hq : k = q * pow2 (n - res)) :
    roundTo t k n res = q := by
  unfold roundTo
  rw [if_neg (by omega)]
  have hp := (pow2_pos (n - res)).ne'
  cases t <;> simp only
  · rw [hq, Int.mul_ediv_cancel _ hp]
  · rw [hq, ← Int.neg_mul, Int.mul_ediv_cancel _ hp]; ring

theorem ofDyadic_eq (d : Dyadic) (res : ℤ) (t : IType) (h : d.n < intDigits + res) :
    DyadicInterval.ofDyadic d res t = some ⟨roundTo t d.k d.n res, res, t⟩ := by
  unfold DyadicInterval.ofDyadic
  by_cases hk : d.k = 0
  · simp [Dyadic.rebase, hk, zero_roundTo]
  by_cases hres : res ≥ d.n
  · simp [Dyadic.rebase, hk, hres, roundTo, shift_eq]
  push Not at hres
  rw [rebase_coarse d res hk hres h]
  set m := (d.n - res).toNat with hm
  have hmz : (m : ℤ) = d.n - res := by omega
  set r := findR d.k m with hr
  have hrm : r ≤ m := findR_le _ _
  obtain ⟨q, hq⟩ : (2 : ℤ) ^ r ∣ d.k := findR_dvd _ _
  have h2r : (2 : ℤ) ^ r ≠ 0 := by positivity
  have htd : Int.tdiv d.k (2 ^ r) = q := by rw [hq, Int.mul_tdiv_cancel_left _ h2r]
  have hpow : pow2 (d.n - res) = 2 ^ m := by unfold pow2; rw [hm]
  rw [htd]
  by_cases hrm' : r = m
  · have : res = d.n - (r : ℤ) := by omega
    simp only [this, decide_true, if_true]
    rw [roundTo_of_dvd t d.k d.n _ q (by omega)]
    rw [hq, show d.n - (d.n - (r : ℤ)) = (r : ℤ) by ring]
    unfold pow2
    simp [mul_comm]
  · have hne : ¬ res = d.n - (r : ℤ) := by omega
    simp only [hne, decide_false, Bool.false_eq_true, if_false]
    set e := d.n - (r : ℤ) - res with he
    have heN : e.toNat = m - r := by omega
    have hpe : pow2 e = 2 ^ (m - r) := by unfold pow2; rw [heN]
    have hpepos := pow2_pos e
    -- the rounded multiplier
    have hK : DyadicInterval.unitOf t * (q * DyadicInterval.unitOf t -
        Dyadic.mod (q * DyadicInterval.unitOf t) (pow2 e)) =
        roundTo t d.k d.n res * pow2 e := by
      rw [mod_eq_emod _ _ hpepos]
      have hsplit : (2 : ℤ) ^ m = 2 ^ r * pow2 e := by
        rw [hpe, ← pow_add]; congr 1; omega
      unfold roundTo
      rw [if_neg (by omega), hpow, hsplit, hq]
      cases t <;> simp only [DyadicInterval.unitOf]
      · rw [Int.mul_ediv_mul_of_pos _ _ (by positivity)]
        have := Int.emod_add_mul_ediv q (pow2 e)
        simp only [mul_one, one_mul]
        linarith
      · rw [← Int.mul_neg, Int.mul_ediv_mul_of_pos _ _ (by positivity)]
        have := Int.emod_add_mul_ediv (-q) (pow2 e)
        simp only [mul_neg, mul_one, neg_mul, one_mul]
        linarith
    rw [hK]
    by_cases hz : roundTo t d.k d.n res * pow2 e = 0
    · have hz' : roundTo t d.k d.n res = 0 := by
        rcases mul_eq_zero.mp hz with h | h
        · exact h
        · exact absurd h hpepos.ne'
      simp [Dyadic.rebase, hz']
    · rw [rebase_coarse _ res hz (by simp only; omega) (by simp only; omega)]
      simp only
      rw [show d.n - (r : ℤ) - res = e from rfl, heN,
        findR_eq_of_dvd _ (m - r) (by rw [hpe]; exact dvd_mul_left _ _)]
      have e1 : res = d.n - (r : ℤ) - ((m - r : ℕ) : ℤ) := by omega
      have e2 : Int.tdiv (roundTo t d.k d.n res * pow2 e) (2 ^ (m - r)) = roundTo t d.k d.n res := by
        rw [← hpe, Int.mul_tdiv_cancel _ hpepos.ne']
      rw [e2, ← e1]
      simp


/-! ### left and right ends, inclusion -/

theorem left_lt_right (d : DyadicInterval) : d.left < d.right := by
  unfold DyadicInterval.left DyadicInterval.right
  cases d.type <;> simp only [dyadicValue_lt] <;> omega

theorem points_eq (d : DyadicInterval) : d.points = span d.type d.left d.right := by
  unfold DyadicInterval.points DyadicInterval.left DyadicInterval.right span
  cases d.type <;> rfl

theorem points_subset_iff (a b : DyadicInterval) (h : a.type = b.type) :
    b.points ⊆ a.points ↔ a.left ≤ b.left ∧ b.right ≤ a.right := by
  rw [points_eq, points_eq, h]
  unfold span
  cases b.type
  · exact Set.Ico_subset_Ico_iff (left_lt_right b)
  · exact (Set.Ioc_subset_Ioc_iff (left_lt_right b)).trans and_comm

/-- ends expressed at a finer power -/
theorem left_at (d : DyadicInterval) (m : ℤ) (h : d.n ≤ m) :
    d.left = dyadicValue ((match d.type with | .clopen => d.k | .opencl => d.k - 1) * pow2 (m - d.n)) m := by
  rw [dyadicValue_shift _ _ _ h]
  unfold DyadicInterval.left
  cases d.type <;> rfl

theorem right_at (d : DyadicInterval) (m : ℤ) (h : d.n ≤ m) :
    d.right = dyadicValue ((match d.type with | .clopen => d.k + 1 | .opencl => d.k) * pow2 (m - d.n)) m := by
  rw [dyadicValue_shift _ _ _ h]
  unfold DyadicInterval.right
  cases d.type <;> rfl

theorem pow2_zero : pow2 0 = 1 := by simp [pow2]
theorem pow2_one : pow2 1 = 2 := by simp [pow2]

theorem pow2_ge_two (e : ℤ) (h : 0 < e) : 2 ≤ pow2 e := by
  unfold pow2
  obtain ⟨m, hm⟩ : ∃ m, e.toNat = m + 1 := ⟨e.toNat - 1, by omega⟩
  rw [hm, pow_succ]
  have : (1 : ℤ) ≤ 2 ^ m := one_le_pow₀ (by norm_num)
  omega

/-- arithmetic heart of `contains_dyadic` for clopen -/
theorem aligned_clopen (k m P : ℤ) (hP : 0 < P) :
    k * P = m - m % P ↔ k * P ≤ m ∧ m + 1 ≤ (k + 1) * P := by
  have h1 := Int.emod_add_mul_ediv m P
  have h2 := Int.emod_nonneg m hP.ne'
  have h3 := Int.emod_lt_of_pos m hP
  constructor
  · intro h
    constructor
    · omega
    · have : (k + 1) * P = k * P + P := by ring
      omega
  · rintro ⟨h4, h5⟩
    have e1 : (k + 1) * P = k * P + P := by ring
    have : m / P = k := by
      rw [Int.ediv_eq_iff_of_pos hP] <;> constructor <;> nlinarith
    rw [this] at h1
    have : P * k = k * P := mul_comm _ _
    omega

theorem containsDyadic_iff (a b : DyadicInterval) (ht : a.type = b.type) :
    a.containsDyadic b = true ↔ a.left ≤ b.left ∧ b.right ≤ a.right := by
  unfold DyadicInterval.containsDyadic
  rw [if_neg (by simp [ht])]
  split_ifs with hn
  · simp only [decide_eq_true_eq]
    have hP := pow2_pos (b.n - a.n)
    rw [mod_eq_emod _ _ hP, shift_eq, left_at a b.n hn, right_at a b.n hn]
    unfold DyadicInterval.unit DyadicInterval.left DyadicInterval.right
    rw [ht]
    cases b.type <;> simp only [DyadicInterval.unitOf, dyadicValue_le]
    · rw [← aligned_clopen _ _ _ hP]; simp
    · have := aligned_clopen (-a.k) (-b.k) (pow2 (b.n - a.n)) hP
      have e : -1 * (b.k * -1 - b.k * -1 % pow2 (b.n - a.n))
          = -(-b.k - (-b.k) % pow2 (b.n - a.n)) := by
        rw [show b.k * -1 = -b.k by ring]; ring
      rw [e]
      constructor
      · intro h
        have h' := this.mp (by linarith)
        constructor <;> nlinarith [h'.1, h'.2]
      · intro h
        have h' := this.mpr (by constructor <;> nlinarith [h.1, h.2])
        linarith
  · simp only [Bool.false_eq_true, false_iff, not_and]
    intro h1 h2
    push Not at hn
    have hb := left_at b a.n hn.le
    have hb2 := right_at b a.n hn.le
    have hP := pow2_ge_two (a.n - b.n) (by omega)
    rw [hb] at h1
    rw [hb2] at h2
    unfold DyadicInterval.left at h1
    unfold DyadicInterval.right at h2
    rw [← ht] at h1 h2
    cases hta : a.type <;> rw [hta] at h1 h2 <;> simp only [dyadicValue_le] at h1 h2 <;> nlinarith

/-! ### ends in terms of the model's accessors -/

theorem inf_eq_left (d : DyadicInterval) : d.inf = d.left := by
  unfold DyadicInterval.inf DyadicInterval.dinf DyadicInterval.left
  cases h : d.type <;>
    simp [toParam_eq, DyadicInterval.dincludedEnd, DyadicInterval.dexcludedEnd,
      DyadicInterval.toDyadic, DyadicInterval.unit, DyadicInterval.unitOf, h, sub_eq_add_neg]

theorem sup_eq_right (d : DyadicInterval) : d.sup = d.right := by
  unfold DyadicInterval.sup DyadicInterval.dsup DyadicInterval.right
  cases h : d.type <;>
    simp [toParam_eq, DyadicInterval.dincludedEnd, DyadicInterval.dexcludedEnd,
      DyadicInterval.toDyadic, DyadicInterval.unit, DyadicInterval.unitOf, h]

/-! ### closed forms of the tree operations -/

theorem intDigits_gt_one : (1 : ℤ) < intDigits := by decide

theorem roundTo_fine (t : IType) (k n r : ℤ) (h : n ≤ r) : roundTo t k n r = k * pow2 (r - n) := by
  unfold roundTo; rw [if_pos h]

theorem roundTo_coarse (k n r : ℤ) (h : r < n) : roundTo .clopen k n r = k / pow2 (n - r) := by
  unfold roundTo; rw [if_neg (by omega)]

theorem shrinkToContainedEnd_eq (d : DyadicInterval) :
    d.shrinkToContainedEnd = some ⟨d.k * 2, d.n + 1, d.type⟩ := by
  unfold DyadicInterval.shrinkToContainedEnd
  rw [ofDyadic_eq _ _ _ (by have := intDigits_gt_one; simp [DyadicInterval.toDyadic]; omega)]
  rw [show d.toDyadic = ⟨d.k, d.n⟩ from rfl, roundTo_fine _ _ _ _ (by simp only; omega)]
  simp only
  rw [show (1 : ℤ) + d.n - d.n = 1 by ring, pow2_one, add_comm 1 d.n]

theorem flip_even (d : DyadicInterval) (h : d.k % 2 = 0) :
    d.flip = { d with k := d.k + d.unit } := by
  unfold DyadicInterval.flip
  rw [if_pos (Int.tmod_eq_zero_of_dvd (by omega))]

theorem flip_odd (d : DyadicInterval) (h : d.k % 2 = 1) :
    d.flip = { d with k := d.k - d.unit } := by
  unfold DyadicInterval.flip
  rw [if_neg (fun h' => by have := Int.dvd_of_tmod_eq_zero h'; omega)]

theorem shrinkToOmittedEnd_eq (d : DyadicInterval) :
    d.shrinkToOmittedEnd = some ⟨d.k * 2 + d.unit, d.n + 1, d.type⟩ := by
  unfold DyadicInterval.shrinkToOmittedEnd
  rw [shrinkToContainedEnd_eq]
  simp only [Option.map_some]
  rw [flip_even _ (by simp)]
  rfl

theorem expand_eq (d : DyadicInterval) (arg : ℤ) (h0 : 0 < arg) (h1 : arg < intDigits) :
    d.expand arg = some ⟨d.k / pow2 arg, d.n - arg, .clopen⟩ := by
  unfold DyadicInterval.expand
  rw [ofDyadic_eq _ _ _ (by simp [DyadicInterval.dincludedEnd, DyadicInterval.toDyadic]; omega)]
  rw [show d.dincludedEnd = ⟨d.k, d.n⟩ from rfl, roundTo_coarse _ _ _ (by simp only; omega)]
  simp only
  rw [show d.n - (d.n - arg) = arg by ring]

theorem aligned_clopen_eq (d : DyadicInterval) (ht : d.type = .clopen) :
    d.aligned = some (decide (d.k % 2 = 0)) := by
  have h31 := intDigits_gt_one
  unfold DyadicInterval.aligned
  rw [ofDyadic_eq _ _ _ (by simp [DyadicInterval.toDyadic]; omega)]
  simp only [Option.bind_eq_bind, Option.bind_some, DyadicInterval.toDyadic]
  rw [ofDyadic_eq _ _ _ (by simp only; omega)]
  simp only [Option.bind_some, Option.pure_def, Option.some.injEq]
  unfold DyadicInterval.intervalEq
  rw [inf_eq_left, inf_eq_left, sup_eq_right, sup_eq_right]
  unfold DyadicInterval.left DyadicInterval.right
  simp only [ht, roundTo, if_pos (show d.n - 1 ≤ d.n by omega),
    if_neg (show ¬ d.n ≤ d.n - 1 by omega), dyadicValue_inj,
    show d.n - (d.n - 1) = 1 by ring, pow2_one]
  rcases Int.emod_two_eq_zero_or_one d.k with h | h
  · have : d.k = d.k / 2 * 2 := by omega
    simp [h, ← this]
  · have : ¬ d.k = d.k / 2 * 2 := by omega
    simp [h, this]

end RoughPy.Intervals
