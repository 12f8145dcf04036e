import Verif.Lie.Search
import Verif.Lie.Dim
import Mathlib.RingTheory.PowerSeries.Derivative
import Mathlib.RingTheory.Ideal.Quotient.Operations
import Mathlib.Tactic.LinearCombination

set_option linter.unusedSectionVars false

/-!
# The number of rows of a Hall table

Lazard elimination: with `E k` the rows `h ≥ k` whose left parent is smaller than `k`,
`1 - E k = (1 - t^deg k) (1 - E (k+1))` as generating functions, up to the depth of the table.
-/

namespace RoughPy.Lie

open PowerSeries Finset
open ArithmeticFunction (moebius)

/-- Degree of a row, as a total function. -/
def Basis.deg (b : Basis) (k : ℕ) : ℕ := ((b.degree k).getD 0).toNat

theorem IsHallTable.deg_eq {b : Basis} (hb : IsHallTable b) {k d : ℕ} (h : HasDegree b k d) : b.deg k = d := by
  unfold Basis.deg
  rw [hb.degree_of h]
  simp

theorem IsHallTable.hasDegree_deg {b : Basis} (hb : IsHallTable b) {k : ℕ} (h : k < b.data.length) :
    HasDegree b k (b.deg k) := by
  obtain ⟨d, hd⟩ := hb.exists_degree h
  rw [hb.deg_eq hd]
  exact hd

theorem IsHallTable.deg_pos {b : Basis} (hb : IsHallTable b) {k : ℕ} (h : k < b.data.length) (hk : 0 < k) :
    0 < b.deg k := hb.degree_pos (hb.hasDegree_deg h) hk

theorem IsHallTable.one_le_length {b : Basis} (hb : IsHallTable b) : 1 ≤ b.data.length := by
  have := hb.start_mono (c := 1) (d := b.depth + 1) (by omega) le_rfl
  rw [hb.start_one, hb.start_last] at this
  exact this

/-- Right parent of a row. -/
def right (R : List (ℕ × ℕ)) (j : ℕ) : ℕ := (R.getD j (0, 0)).2

theorem row_eq {R : List (ℕ × ℕ)} {j : ℕ} (h : j < R.length) : R[j]? = some (left R j, right R j) := by
  unfold left right
  rw [List.getD_eq_getElem _ _ h, List.getElem?_eq_getElem h]

/-- The rows of degree at least two, in terms of `left` and `right`. -/
theorem IsHallTable.row {b : Basis} (hb : IsHallTable b) {k : ℕ} (h : k < b.data.length) (hd : 2 ≤ b.deg k) :
    0 < left b.data k ∧ left b.data k < right b.data k ∧ right b.data k < b.data.length ∧
      left b.data (right b.data k) ≤ left b.data k ∧
      b.deg (left b.data k) + b.deg (right b.data k) = b.deg k := by
  obtain ⟨i, j, p, q, c, h1, h2, h3, h4, h5, h6, h7, h8, h9⟩ := hb.rows _ k hd (hb.hasDegree_deg h)
  rw [row_eq h, Option.some.injEq, Prod.mk.injEq] at h1
  obtain ⟨rfl, rfl⟩ := h1
  have hl := h6.lt hb
  rw [row_eq hl, Option.some.injEq] at h8
  subst h8
  exact ⟨hb.pos_of_degree h5 (by omega), h7, hl, h9, by rw [hb.deg_eq h5, hb.deg_eq h6, h4]⟩

theorem IsHallTable.left_letter {b : Basis} (hb : IsHallTable b) {k : ℕ} (hd : HasDegree b k 1) :
    left b.data k = 0 := by
  rw [hb.letter_iff] at hd
  exact IsHallTable.left_eq (b := b) (hb.letters k hd.1 hd.2)

/-- A row with a positive left parent has degree at least two. -/
theorem IsHallTable.deg_of_left {b : Basis} (hb : IsHallTable b) {k : ℕ} (h : k < b.data.length)
    (hl : 0 < left b.data k) : 2 ≤ b.deg k := by
  by_contra hlt
  have hd := hb.hasDegree_deg h
  rcases Nat.lt_or_ge (b.deg k) 1 with h0 | h0
  · have : b.deg k = 0 := by omega
    rw [this, hb.hasDegree_iff, hb.start_one] at hd
    have hk : k = 0 := by omega
    subst hk
    have := IsHallTable.left_eq (b := b) hb.root
    dsimp only at this
    omega
  · rw [show b.deg k = 1 by omega] at hd
    rw [hb.left_letter hd] at hl
    omega

theorem IsHallTable.left_lt {b : Basis} (hb : IsHallTable b) {k : ℕ} (h : k < b.data.length) (hk : 0 < k) :
    left b.data k < k := by
  rcases Nat.eq_zero_or_pos (left b.data k) with h0 | h0
  · omega
  · have h1 := hb.row h (hb.deg_of_left h h0)
    have h2 := hb.deg_pos h1.2.2.1 (by omega)
    exact hb.lt_of_degree_lt (hb.hasDegree_deg (by omega)) (hb.hasDegree_deg h) (by omega)

/-! ## Generating functions -/

variable (b : Basis)

/-- The rows that remain at step `k` of the elimination. -/
def elim (k : ℕ) : Finset ℕ := (range b.data.length).filter fun h => k ≤ h ∧ left b.data h < k

/-- Its generating function. -/
noncomputable def elimSeries (k : ℕ) : ℤ⟦X⟧ := ∑ h ∈ elim b k, X ^ b.deg h

/-- Reduction modulo `X ^ (depth + 1)`. -/
noncomputable abbrev φ : ℤ⟦X⟧ →+* ℤ⟦X⟧ ⧸ Ideal.span {(X : ℤ⟦X⟧) ^ (b.depth + 1)} := Ideal.Quotient.mk _

theorem φ_eq_iff {f g : ℤ⟦X⟧} : φ b f = φ b g ↔ ∀ n, n ≤ b.depth → coeff n f = coeff n g := by
  rw [Ideal.Quotient.eq, Ideal.mem_span_singleton, X_pow_dvd_iff]
  constructor
  · intro h n hn
    have := h n (by omega)
    rw [map_sub, sub_eq_zero] at this
    exact this
  · intro h n hn
    rw [map_sub, sub_eq_zero]
    exact h n (by omega)

theorem φ_X_pow {m : ℕ} (h : b.depth < m) : φ b (X ^ m) = 0 := by
  rw [← map_zero (φ b), φ_eq_iff]
  intro n hn
  rw [coeff_X_pow, if_neg (by omega), map_zero]

variable {b}

theorem IsHallTable.children {b : Basis} (hb : IsHallTable b) {k : ℕ} (hk : 0 < k) (hkl : k < b.data.length) :
    φ b (∑ h ∈ (range b.data.length).filter (fun h => left b.data h = k), X ^ b.deg h) =
      φ b (X ^ b.deg k * elimSeries b (k + 1)) := by
  have h1 : ∑ h ∈ (range b.data.length).filter (fun h => left b.data h = k), (X : ℤ⟦X⟧) ^ b.deg h =
      ∑ j ∈ (elim b (k + 1)).filter (fun j => b.deg k + b.deg j ≤ b.depth), X ^ (b.deg k + b.deg j) := by
    refine sum_bij (fun h _ => right b.data h) ?_ ?_ ?_ ?_
    · intro h hh
      rw [mem_filter, mem_range] at hh
      obtain ⟨h2, rfl⟩ := hh
      have hr := hb.row h2 (hb.deg_of_left h2 hk)
      have hd := (hb.hasDegree_deg h2).1
      rw [mem_filter, elim, mem_filter, mem_range]
      exact ⟨⟨hr.2.2.1, by omega, by omega⟩, by omega⟩
    · intro h hh h' hh' heq
      rw [mem_filter, mem_range] at hh hh'
      obtain ⟨h2, h3⟩ := hh
      obtain ⟨h2', h3'⟩ := hh'
      have hd := hb.deg_of_left h2 (by omega)
      have hr := hb.row h2 hd
      have hr' := hb.row h2' (hb.deg_of_left h2' (by omega))
      have hdeg : b.deg h = b.deg h' := by
        have e1 := hr.2.2.2.2
        have e2 := hr'.2.2.2.2
        rw [h3] at e1
        rw [h3'] at e2
        rw [← e1, ← e2, heq]
      have g1 := hb.hasDegree_deg h2
      have g2 := hb.hasDegree_deg h2'
      rw [← hdeg] at g2
      rcases Nat.lt_trichotomy h h' with hlt | rfl | hlt
      · have := hb.sorted _ h h' _ _ hd g1 g2 hlt (row_eq h2) (row_eq h2')
        dsimp only at this
        omega
      · rfl
      · have := hb.sorted _ h' h _ _ hd g2 g1 hlt (row_eq h2') (row_eq h2)
        dsimp only at this
        omega
    · intro j hj
      rw [mem_filter, elim, mem_filter, mem_range] at hj
      obtain ⟨⟨h2, h3, h4⟩, h5⟩ := hj
      have hp := hb.deg_pos hkl hk
      have hq := hb.deg_pos h2 (by omega)
      obtain ⟨h, g1, g2⟩ := hb.complete k j _ _ _ hp hq h5 (hb.hasDegree_deg hkl) (hb.hasDegree_deg h2) (by omega)
        (row_eq h2) (by dsimp only; omega)
      have hl := g1.lt hb
      rw [row_eq hl, Option.some.injEq, Prod.mk.injEq] at g2
      exact ⟨h, by rw [mem_filter, mem_range]; exact ⟨hl, g2.1⟩, g2.2⟩
    · intro h hh
      rw [mem_filter, mem_range] at hh
      obtain ⟨h2, h3⟩ := hh
      have hr := hb.row h2 (hb.deg_of_left h2 (by omega))
      rw [← hr.2.2.2.2, h3]
  rw [h1, elimSeries, mul_sum, ← sum_filter_add_sum_filter_not (elim b (k + 1))
    (fun j => b.deg k + b.deg j ≤ b.depth) fun i => (X : ℤ⟦X⟧) ^ b.deg k * X ^ b.deg i, map_add]
  have h2 : φ b (∑ i ∈ (elim b (k + 1)).filter (fun j => ¬ b.deg k + b.deg j ≤ b.depth),
      (X : ℤ⟦X⟧) ^ b.deg k * X ^ b.deg i) = 0 := by
    rw [map_sum]
    refine sum_eq_zero fun i hi => ?_
    rw [mem_filter] at hi
    rw [← pow_add]
    exact φ_X_pow b (by omega)
  rw [h2, add_zero]
  simp only [pow_add]

theorem IsHallTable.elim_step {b : Basis} (hb : IsHallTable b) {k : ℕ} (hk : 0 < k) (hkl : k < b.data.length) :
    φ b (1 - elimSeries b k) = φ b (1 - X ^ b.deg k) * φ b (1 - elimSeries b (k + 1)) := by
  have h1 : elimSeries b (k + 1) + X ^ b.deg k = elimSeries b k +
      ∑ h ∈ (range b.data.length).filter (fun h => left b.data h = k), X ^ b.deg h := by
    unfold elimSeries
    have hnot : k ∉ elim b (k + 1) := by
      unfold elim
      rw [mem_filter]
      omega
    have hdis : Disjoint (elim b k) ((range b.data.length).filter (fun h => left b.data h = k)) := by
      unfold elim
      rw [disjoint_filter]
      intro x _ h h'
      omega
    rw [← sum_union hdis, add_comm, ← sum_insert (f := fun h => (X : ℤ⟦X⟧) ^ b.deg h) hnot]
    refine sum_congr ?_ fun _ _ => rfl
    ext h
    unfold elim
    rw [mem_insert, mem_filter, mem_union, mem_filter, mem_filter, mem_range]
    constructor
    · rintro (rfl | ⟨h1, h2, h3⟩)
      · exact Or.inl ⟨hkl, le_rfl, hb.left_lt hkl hk⟩
      · by_cases h4 : left b.data h = k
        · exact Or.inr ⟨h1, h4⟩
        · exact Or.inl ⟨h1, by omega, by omega⟩
    · rintro (⟨h1, h2, h3⟩ | ⟨h1, h2⟩)
      · by_cases h4 : h = k
        · exact Or.inl h4
        · exact Or.inr ⟨h1, by omega, by omega⟩
      · have hh : 0 < h := by
          rcases Nat.eq_zero_or_pos h with h0 | h0
          · subst h0
            have := IsHallTable.left_eq (b := b) hb.root
            dsimp only at this
            omega
          · exact h0
        have := hb.left_lt h1 hh
        exact Or.inr ⟨h1, by omega, by omega⟩
  have h2 := congrArg (φ b) h1
  rw [map_add, map_add, hb.children hk hkl, map_mul] at h2
  rw [map_sub, map_sub, map_sub, map_one]
  linear_combination h2

theorem IsHallTable.elim_one {b : Basis} (hb : IsHallTable b) : elimSeries b 1 = (b.width : ℤ⟦X⟧) * X := by
  have h1 : elim b 1 = Icc 1 b.width := by
    ext h
    unfold elim
    rw [mem_filter, mem_range, mem_Icc]
    constructor
    · rintro ⟨h2, h3, h4⟩
      have hd : b.deg h = 1 := by
        by_contra hne
        have := hb.deg_pos h2 (by omega)
        have := hb.row h2 (by omega)
        omega
      have := hb.hasDegree_deg h2
      rw [hd, hb.letter_iff] at this
      exact this
    · intro h2
      have hd := hb.letter_iff.2 h2
      exact ⟨hd.lt hb, h2.1, by rw [hb.left_letter hd]; omega⟩
  unfold elimSeries
  rw [h1]
  rw [sum_congr rfl (g := fun _ => (X : ℤ⟦X⟧))]
  · rw [sum_const, Nat.card_Icc, nsmul_eq_mul]
    simp
  · intro h hh
    rw [mem_Icc] at hh
    rw [hb.deg_eq (hb.letter_iff.2 hh), pow_one]

/-- The product formula. -/
theorem IsHallTable.product {b : Basis} (hb : IsHallTable b) :
    φ b (1 - (b.width : ℤ⟦X⟧) * X) = φ b (∏ k ∈ Ico 1 b.data.length, (1 - X ^ b.deg k)) := by
  have hN := hb.one_le_length
  have h : ∀ j m, m + j = b.data.length → 1 ≤ m → φ b (1 - elimSeries b m) =
      φ b (∏ k ∈ Ico m b.data.length, (1 - X ^ b.deg k)) := by
    intro j
    induction j with
    | zero =>
      intro m hm _
      rw [show m = b.data.length by omega, Ico_self, prod_empty]
      have : elim b b.data.length = ∅ := by
        unfold elim
        rw [filter_eq_empty_iff]
        intro x hx
        rw [mem_range] at hx
        omega
      unfold elimSeries
      rw [this, sum_empty, sub_zero]
    | succ j ih =>
      intro m hm hm1
      have hlt : m < b.data.length := by omega
      rw [hb.elim_step hm1 hlt, ih (m + 1) (by omega) (by omega), ← map_mul,
        prod_eq_prod_Ico_succ_bot hlt]
  rw [← hb.elim_one]
  exact h (b.data.length - 1) 1 (by omega) le_rfl

/-! ## Witt's formula -/

/-- `X · d/dX`. -/
noncomputable def theta (f : ℤ⟦X⟧) : ℤ⟦X⟧ := X * derivative ℤ f

theorem coeff_theta (f : ℤ⟦X⟧) (n : ℕ) : coeff n (theta f) = n * coeff n f := by
  unfold theta
  cases n with
  | zero => rw [coeff_zero_X_mul]; simp
  | succ n =>
    rw [coeff_succ_X_mul, coeff_derivative]
    push_cast
    ring

theorem theta_mul (f g : ℤ⟦X⟧) : theta (f * g) = theta f * g + f * theta g := by
  unfold theta
  rw [Derivation.leibniz]
  simp only [smul_eq_mul]
  ring

/-- `Σ_{m ≥ 1} X^{dm}`. -/
noncomputable def multiples (d : ℕ) : ℤ⟦X⟧ := PowerSeries.mk fun n => if 0 < n ∧ d ∣ n then 1 else 0

theorem multiples_mul {d : ℕ} (hd : 0 < d) : (1 - X ^ d) * multiples d = X ^ d := by
  ext n
  rw [sub_mul, one_mul, map_sub, coeff_X_pow_mul', coeff_X_pow, multiples, coeff_mk]
  by_cases h1 : d ≤ n
  · rw [if_pos h1, coeff_mk]
    obtain ⟨m, rfl⟩ : ∃ m, n = m + d := ⟨n - d, by omega⟩
    rw [Nat.add_sub_cancel]
    have h2 : d ∣ m + d ↔ d ∣ m := Nat.dvd_add_self_right
    by_cases h3 : d ∣ m
    · rw [if_pos ⟨by omega, h2.2 h3⟩]
      by_cases h4 : m = 0
      · subst h4; simp
      · rw [if_pos ⟨by omega, h3⟩, if_neg (by omega)]; rfl
    · rw [if_neg (by rw [h2]; tauto), if_neg (by tauto), if_neg (by
        intro h
        have : m = 0 := by omega
        subst this
        exact h3 (dvd_zero d))]
      rfl
  · have h4 : ¬ (0 < n ∧ d ∣ n) := by
      rintro ⟨h2, h3⟩
      exact h1 (Nat.le_of_dvd h2 h3)
    rw [if_neg h1, if_neg h4, if_neg (by omega)]
    rfl

theorem theta_prod (s : Finset ℕ) (d : ℕ → ℕ) (hd : ∀ k ∈ s, 0 < d k) :
    theta (∏ k ∈ s, (1 - X ^ d k)) = -((∏ k ∈ s, (1 - X ^ d k)) * ∑ k ∈ s, (d k : ℤ⟦X⟧) * multiples (d k)) := by
  induction s using Finset.induction_on with
  | empty =>
    rw [prod_empty, sum_empty, mul_zero, neg_zero]
    ext n
    rw [coeff_theta, coeff_one, map_zero]
    split
    · rename_i h; rw [h]; simp
    · simp
  | insert a s ha ih =>
    rw [prod_insert ha, sum_insert ha, theta_mul, ih fun k hk => hd k (mem_insert_of_mem hk)]
    have h1 : theta (1 - X ^ d a) = -((d a : ℤ⟦X⟧) * X ^ d a) := by
      ext n
      rw [coeff_theta, map_sub, map_neg, coeff_one, coeff_X_pow]
      rw [show ((d a : ℤ⟦X⟧)) = C (d a : ℤ) by simp, coeff_C_mul, coeff_X_pow]
      have := hd a (mem_insert_self a s)
      by_cases h0 : n = 0
      · subst h0
        rw [if_neg (by omega : ¬ (0 = d a))]; simp
      · rw [if_neg h0]
        by_cases h1 : n = d a
        · rw [if_pos h1, ← h1]; ring
        · rw [if_neg h1]; ring
    rw [h1]
    linear_combination -(d a : ℤ⟦X⟧) * (∏ k ∈ s, (1 - X ^ d k)) * (-multiples_mul (hd a (mem_insert_self a s)))

theorem IsHallTable.witt_sum {b : Basis} (hb : IsHallTable b) {n : ℕ} (hn : 0 < n) (hD : n ≤ b.depth) :
    ∑ k ∈ (Ico 1 b.data.length).filter (fun k => b.deg k ∣ n), (b.deg k : ℤ) = (b.width : ℤ) ^ n := by
  have hpos : ∀ k ∈ Ico 1 b.data.length, 0 < b.deg k := by
    intro k hk
    rw [mem_Ico] at hk
    exact hb.deg_pos hk.2 hk.1
  have h1 := theta_prod (Ico 1 b.data.length) b.deg hpos
  set P := ∏ k ∈ Ico 1 b.data.length, (1 - (X : ℤ⟦X⟧) ^ b.deg k) with hP
  set S := ∑ k ∈ Ico 1 b.data.length, (b.deg k : ℤ⟦X⟧) * multiples (b.deg k) with hS
  have h2 := (φ_eq_iff b).1 hb.product
  -- coefficients of `S`
  have hS2 : ∀ m, coeff m S = ∑ k ∈ Ico 1 b.data.length, if 0 < m ∧ b.deg k ∣ m then (b.deg k : ℤ) else 0 := by
    intro m
    rw [hS, map_sum]
    refine sum_congr rfl fun k _ => ?_
    rw [show ((b.deg k : ℤ⟦X⟧)) = C (b.deg k : ℤ) by simp, coeff_C_mul, multiples, coeff_mk]
    split <;> simp
  have hQ : ∀ m, m ≤ b.depth → coeff m ((1 - (b.width : ℤ⟦X⟧) * X) * S) = -((m : ℤ) * coeff m (1 - (b.width : ℤ⟦X⟧) * X)) := by
    intro m hm
    have h3 := congrArg (coeff m) h1
    rw [coeff_theta, map_neg] at h3
    rw [h2 m hm, h3, neg_neg, coeff_mul, coeff_mul]
    refine sum_congr rfl fun x hx => ?_
    rw [mem_antidiagonal] at hx
    rw [h2 x.1 (by omega)]
  have hw : ∀ (f : ℤ⟦X⟧) m, coeff (m + 1) ((1 - (b.width : ℤ⟦X⟧) * X) * f) = coeff (m + 1) f - b.width * coeff m f := by
    intro f m
    rw [sub_mul, one_mul, map_sub, mul_assoc, show ((b.width : ℤ⟦X⟧)) = C (b.width : ℤ) by simp, coeff_C_mul,
      coeff_succ_X_mul]
  have hw1 : ∀ m, coeff (m + 1) (1 - (b.width : ℤ⟦X⟧) * X) = if m = 0 then -(b.width : ℤ) else 0 := by
    intro m
    have := hw 1 m
    rw [mul_one, coeff_one, coeff_one, if_neg (by omega)] at this
    rw [this]
    split <;> simp
  have hmain : ∀ m, m + 1 ≤ b.depth → coeff (m + 1) S = (b.width : ℤ) ^ (m + 1) := by
    intro m
    induction m with
    | zero =>
      intro hm
      have h3 := hQ 1 hm
      rw [show (1 : ℕ) = 0 + 1 from rfl, hw, hw1, if_pos rfl] at h3
      have h4 : coeff 0 S = 0 := by
        rw [hS2]
        exact sum_eq_zero fun k _ => by rw [if_neg (by omega)]
      rw [h4] at h3
      simp at h3 ⊢
      exact h3
    | succ m ih =>
      intro hm
      have h3 := hQ (m + 1 + 1) hm
      rw [hw, hw1, if_neg (by omega), mul_zero, neg_zero, ih (by omega)] at h3
      rw [pow_succ]
      linear_combination h3
  obtain ⟨m, rfl⟩ : ∃ m, n = m + 1 := ⟨n - 1, by omega⟩
  rw [← hmain m hD, hS2, sum_filter]
  refine sum_congr rfl fun k _ => ?_
  by_cases h : b.deg k ∣ m + 1
  · rw [if_pos h, if_pos ⟨by omega, h⟩]
  · rw [if_neg h, if_neg (by tauto)]

/-- Number of rows of degree `d`. -/
theorem IsHallTable.card_degree {b : Basis} (hb : IsHallTable b) {d : ℕ} (hd : 0 < d) (hD : d ≤ b.depth) :
    #((Ico 1 b.data.length).filter (fun k => b.deg k = d)) = b.start (d + 1) - b.start d := by
  have : (Ico 1 b.data.length).filter (fun k => b.deg k = d) = Ico (b.start d) (b.start (d + 1)) := by
    ext k
    rw [mem_filter, mem_Ico, mem_Ico]
    constructor
    · rintro ⟨⟨h1, h2⟩, h3⟩
      have := hb.hasDegree_deg h2
      rw [h3, hb.hasDegree_iff] at this
      exact this.2
    · intro h
      have hk := hb.hasDegree_iff.2 ⟨hD, h⟩
      exact ⟨⟨hb.pos_of_degree hk hd, hk.lt hb⟩, hb.deg_eq hk⟩
  rw [this, Nat.card_Ico]

/-- Witt's formula: `Σ_{d ∣ n} d · (number of rows of degree d) = width ^ n`. -/
theorem IsHallTable.witt {b : Basis} (hb : IsHallTable b) {n : ℕ} (hn : 0 < n) (hD : n ≤ b.depth) :
    ∑ d ∈ n.divisors, (d : ℤ) * (b.start (d + 1) - b.start d : ℕ) = (b.width : ℤ) ^ n := by
  rw [← hb.witt_sum hn hD]
  rw [← sum_fiberwise_of_maps_to (s := (Ico 1 b.data.length).filter (fun k => b.deg k ∣ n)) (t := n.divisors)
    (g := fun k => b.deg k)]
  · refine sum_congr rfl fun d hd => ?_
    rw [Nat.mem_divisors] at hd
    have hd0 := Nat.pos_of_dvd_of_pos hd.1 hn
    have hdn := Nat.le_of_dvd hn hd.1
    rw [← hb.card_degree hd0 (by omega), filter_filter]
    have he : (Ico 1 b.data.length).filter (fun k => b.deg k ∣ n ∧ b.deg k = d) =
        (Ico 1 b.data.length).filter (fun k => b.deg k = d) := by
      refine filter_congr fun k _ => ⟨fun h => h.2, fun h => ⟨h ▸ hd.1, h⟩⟩
    rw [he, mul_comm, ← nsmul_eq_mul, ← sum_const]
    refine sum_congr rfl fun k hk => ?_
    rw [mem_filter] at hk
    rw [hk.2]
  · intro k hk
    rw [mem_filter] at hk
    rw [Nat.mem_divisors]
    exact ⟨hk.2, by omega⟩

theorem IsHallTable.lieDegreeDim {b : Basis} (hb : IsHallTable b) {n : ℕ} (hn : 0 < n) (hD : n ≤ b.depth) :
    lieDegreeDim b.width n = some ((b.start (n + 1) - b.start n : ℕ) : ℤ) := by
  have h := (ArithmeticFunction.sum_eq_iff_sum_mul_moebius_eq_on (R := ℤ)
    (f := fun d => (d : ℤ) * (b.start (d + 1) - b.start d : ℕ)) (g := fun n => (b.width : ℤ) ^ n)
    {n | 0 < n ∧ n ≤ b.depth} (by
      rintro m n hmn ⟨h1, h2⟩
      exact ⟨Nat.pos_of_dvd_of_pos hmn h1, le_trans (Nat.le_of_dvd h1 hmn) h2⟩)).1
    (fun n hn hm => hb.witt hn hm.2) n hn ⟨hn, hD⟩
  simp only [Int.cast_id] at h
  rw [lieDegreeDim_eq _ hn, h]
  congr 1
  rw [Int.mul_tdiv_cancel_left _ (by omega)]

/-- `compute_lie_dim` is the number of rows after the first. -/
theorem IsHallTable.lieDim {b : Basis} (hb : IsHallTable b) :
    lieDim b.width b.depth = some ((b.data.length : ℤ) - 1) := by
  unfold Lie.lieDim
  rw [loop_sum (f := fun d => ((b.start (d + 1) - b.start d : ℕ) : ℤ)) (by
    intro s d hd
    rw [RoughPy.Tensor.mem_degreesUp] at hd
    rw [hb.lieDegreeDim (by omega) hd.2]
    rfl), sum_degreesUp, zero_add]
  congr 1
  have h : ∀ m, m ≤ b.depth → ∑ d ∈ Icc 1 m, ((b.start (d + 1) - b.start d : ℕ) : ℤ) = b.start (m + 1) - 1 := by
    intro m
    induction m with
    | zero => intro _; rw [hb.start_one]; simp
    | succ m ih =>
      intro hm
      rw [sum_Icc_succ_top (by omega), ih (by omega)]
      have := hb.start_mono (c := m + 1) (d := m + 1 + 1) (by omega) (by omega)
      omega
  rw [h _ le_rfl, hb.start_last]

/-- The constructor allocates the right amount of memory and builds the table. -/
theorem construct_eq (w m : ℕ) : construct w (m + 1) = some (hallTable w m) := by
  have h := (hallTable_isHall w m).lieDim
  unfold construct
  rw [show (hallTable w m).width = w from rfl, show (hallTable w m).depth = m + 1 from rfl] at h
  rw [h]
  simp only [Option.bind_eq_bind, Option.bind_some]
  apply constructIn_eq
  omega

end RoughPy.Lie
