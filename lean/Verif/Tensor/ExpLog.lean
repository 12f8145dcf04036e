import Verif.Tensor.Series
import Mathlib.RingTheory.PowerSeries.Log
import Mathlib.Algebra.CharZero.Infinite
import Mathlib.Algebra.Order.Antidiag.Prod
import Mathlib.Tactic.FieldSimp
import Mathlib.Tactic.LinearCombination

/-!
# Exponential and logarithm of tensor series

`texp x = Σ xⁿ/n!` and `tlog g = Σ (-1)^{n+1} (g-1)ⁿ/n`; on a word only finitely many powers
contribute because `x` (resp. `g - 1`) has no constant term.
-/

set_option linter.unusedSectionVars false

open Finset PowerSeries

namespace RoughPy.Tensor.Series

variable {α K : Type*} [Field K] [CharZero K]

theorem texp_apply (x : Series α K) (u : List α) :
    texp x u = ∑ n ∈ range (u.length + 1), ((n.factorial : K))⁻¹ * (x ^ n) u := by
  simp only [texp, power_eq]

theorem tlog_apply (g : Series α K) (u : List α) :
    tlog g u = ∑ n ∈ range (u.length + 1),
      (if n = 0 then 0 else (-1) ^ (n + 1) / (n : K)) * ((g - 1) ^ n) u := by
  simp only [tlog, power_eq]

/-- evaluation of a power series at a tensor series without constant term -/
noncomputable def peval (p : PowerSeries K) (x : Series α K) : Series α K :=
  fun u => ∑ n ∈ range (u.length + 1), coeff n p * (x ^ n) u

theorem sum_triangle {M : Type*} [AddCommMonoid M] (f : ℕ × ℕ → M) {N : ℕ}
    (hf : ∀ i j, N ≤ i + j → f (i, j) = 0) :
    ∑ i ∈ range N, ∑ j ∈ range N, f (i, j) = ∑ n ∈ range N, ∑ ij ∈ antidiagonal n, f ij := by
  rw [← sum_product' (range N) (range N) (fun i j => f (i, j)), sum_sigma']
  have : ∑ ij ∈ range N ×ˢ range N, f (ij.1, ij.2) =
      ∑ ij ∈ (range N ×ˢ range N).filter (fun ij => ij.1 + ij.2 < N), f ij := by
    symm
    refine sum_subset_zero_on_sdiff (filter_subset _ _) ?_ ?_
    · intro ij hij
      simp only [mem_sdiff, mem_product, mem_range, mem_filter, not_and, not_lt] at hij
      exact hf _ _ (hij.2 hij.1)
    · intro ij _; rfl
  rw [this]
  refine sum_bij' (fun ij _ => ⟨ij.1 + ij.2, ij⟩) (fun s _ => s.2) ?_ ?_ ?_ ?_ ?_
  · intro ij hij
    simp only [mem_filter, mem_product, mem_range] at hij
    simp [hij.2]
  · rintro ⟨n, ij⟩ h
    simp only [mem_sigma, mem_range, mem_antidiagonal] at h
    simp only [mem_filter, mem_product, mem_range]
    omega
  · intro ij _; rfl
  · rintro ⟨n, ij⟩ h
    simp only [mem_sigma, mem_range, mem_antidiagonal] at h
    obtain ⟨-, rfl⟩ := h
    rfl
  · intro ij _; rfl

theorem peval_eq (p : PowerSeries K) {x : Series α K} (hx : x [] = 0) (u : List α) {N : ℕ}
    (hN : u.length < N) : peval p x u = ∑ n ∈ range N, coeff n p * (x ^ n) u := by
  unfold peval
  refine sum_subset (range_subset_range.2 hN) fun n _ hn => ?_
  rw [pow_apply_eq_zero hx n u (by simpa using hn), mul_zero]

theorem peval_nil (p : PowerSeries K) (x : Series α K) : peval p x [] = coeff 0 p := by
  simp [peval, one_nil]

theorem peval_add (p q : PowerSeries K) (x : Series α K) :
    peval (p + q) x = peval p x + peval q x := by
  ext u; simp [peval, add_apply, add_mul, sum_add_distrib]

theorem peval_sub (p q : PowerSeries K) (x : Series α K) :
    peval (p - q) x = peval p x - peval q x := by
  ext u; simp [peval, sub_apply, sub_mul, sum_sub_distrib]

theorem peval_one (x : Series α K) : peval 1 x = 1 := by
  ext u
  rw [peval, sum_eq_single 0]
  · simp
  · intro n _ hn; simp [PowerSeries.coeff_one, hn]
  · simp

theorem peval_X {x : Series α K} (hx : x [] = 0) : peval X x = x := by
  ext u
  rw [peval_eq X hx u (N := u.length + 2) (by omega), sum_eq_single 1]
  · simp
  · intro n _ hn; simp [PowerSeries.coeff_X, hn]
  · intro h; simp at h

theorem peval_mul (p q : PowerSeries K) {x : Series α K} (hx : x [] = 0) :
    peval (p * q) x = peval p x * peval q x := by
  ext u
  set N := u.length + 1 with hN
  have h1 : (peval p x * peval q x) u =
      ∑ i ∈ range N, ∑ j ∈ range N, coeff i p * coeff j q * (x ^ (i + j)) u := by
    have : ∀ i j, (x ^ (i + j)) u =
        ∑ k ∈ range N, (x ^ i) (u.take k) * (x ^ j) (u.drop k) := fun i j => by
      rw [pow_add, mul_apply]
    simp_rw [this, mul_sum]
    rw [mul_apply]
    calc _ = ∑ k ∈ range N, ∑ i ∈ range N, ∑ j ∈ range N,
          coeff i p * coeff j q * ((x ^ i) (u.take k) * (x ^ j) (u.drop k)) := by
            refine sum_congr rfl fun k _ => ?_
            rw [peval_eq p hx (u.take k) (N := N) (by simp; omega),
              peval_eq q hx (u.drop k) (N := N) (by simp; omega), sum_mul_sum]
            refine sum_congr rfl fun i _ => sum_congr rfl fun j _ => by ring
      _ = _ := by
            rw [sum_comm]
            refine sum_congr rfl fun i _ => ?_
            rw [sum_comm]
  rw [h1, peval_eq _ hx u (N := N) (by omega)]
  simp_rw [PowerSeries.coeff_mul, sum_mul]
  rw [sum_triangle (fun ij => coeff ij.1 p * coeff ij.2 q * (x ^ (ij.1 + ij.2)) u)]
  · refine sum_congr rfl fun n _ => sum_congr rfl fun ij hij => ?_
    rw [mem_antidiagonal.1 hij]
  · intro i j hij
    rw [pow_apply_eq_zero hx _ u (by omega), mul_zero]

theorem peval_pow (p : PowerSeries K) {x : Series α K} (hx : x [] = 0) (n : ℕ) :
    peval (p ^ n) x = peval p x ^ n := by
  induction n with
  | zero => simp [peval_one]
  | succ n ih => rw [pow_succ, peval_mul _ _ hx, ih, pow_succ]

theorem coeff_pow_eq_zero {q : PowerSeries K} (hq : constantCoeff q = 0) {n d : ℕ}
    (h : n < d) : coeff n (q ^ d) = 0 := by
  obtain ⟨r, hr⟩ := X_dvd_iff.2 hq
  rw [hr, mul_pow, coeff_X_pow_mul']
  simp [Nat.not_le.2 h]

theorem peval_subst (p : PowerSeries K) {q : PowerSeries K} (hq : constantCoeff q = 0)
    {x : Series α K} (hx : x [] = 0) : peval (p.subst q) x = peval p (peval q x) := by
  have hqx : peval q x [] = 0 := by rw [peval_nil]; simpa using hq
  have hs : HasSubst q := HasSubst.of_constantCoeff_zero' hq
  ext u
  set N := u.length + 1 with hN
  rw [peval_eq p hqx u (N := N) (by omega), peval_eq _ hx u (N := N) (by omega)]
  simp_rw [← peval_pow _ hx]
  have : ∀ d, peval (q ^ d) x u = ∑ n ∈ range N, coeff n (q ^ d) * (x ^ n) u :=
    fun d => peval_eq _ hx u (by omega)
  simp_rw [this, mul_sum]
  rw [sum_comm]
  refine sum_congr rfl fun n hn => ?_
  rw [coeff_subst' hs, finsum_eq_sum_of_support_subset (s := range N), sum_mul]
  · refine sum_congr rfl fun d _ => by rw [smul_eq_mul]; ring
  · intro d hd
    simp only [coe_range, Set.mem_Iio]
    by_contra hlt
    apply hd
    simp only [mem_range] at hn
    simp only [smul_eq_mul]
    rw [coeff_pow_eq_zero hq (by omega), mul_zero]

theorem texp_eq_peval (x : Series α K) : texp x = peval (exp K) x := by
  ext u
  simp [texp_apply, peval, coeff_exp]

theorem tlog_eq_peval (g : Series α K) : tlog g = peval (log K) (g - 1) := by
  ext u
  simp only [tlog_apply, peval, coeff_log]
  refine sum_congr rfl fun n _ => ?_
  split_ifs <;> simp

/-! ### Power series identities -/

theorem log_subst_exp : (log K).subst (exp K - 1) = X := by
  have hs : HasSubst (exp K - 1) := HasSubst.exp_sub_one
  apply derivative.ext
  · rw [derivative_subst hs, deriv_log, derivative_X]
    have h1 : d⁄dX K (exp K - 1) = exp K := by
      rw [map_sub, derivative_exp, derivative_one, sub_zero]
    rw [h1]
    have hgeom : (mk fun n ↦ algebraMap ℚ K ((-1 : ℚ) ^ n)) * (1 + X) = 1 := by
      ext n
      rw [mul_add, mul_one, map_add]
      cases n with
      | zero => simp
      | succ n => rw [coeff_succ_mul_X]; simp [PowerSeries.coeff_one, pow_succ]
    have h2 := congrArg (fun p => p.subst (exp K - 1)) hgeom
    simp only [subst_mul hs, subst_add hs, subst_X hs] at h2
    have h3 : (1 : PowerSeries K).subst (exp K - 1) = 1 := by
      have := subst_C (S := K) (a := exp K - 1) (1 : K)
      simpa using this
    rw [h3] at h2
    simpa using h2
  · have h0 : constantCoeff (exp K - 1) = (0 : K) := by simp
    have := constantCoeff_subst_eq_zero (a := (exp K - 1)) h0 (log K) constantCoeff_log
    rw [constantCoeff_X]
    exact this

theorem exp_subst_log : (exp K - 1).subst (log K) = X := by
  have hu : IsUnit ((log K).coeff 1) := by rw [coeff_one_log]; exact isUnit_one
  have hl : HasSubst (log K) := HasSubst.log
  have he : HasSubst (exp K - 1) := HasSubst.exp_sub_one
  obtain ⟨q, hinv_l⟩ : ∃ q : PowerSeries K, q.subst (log K) = X :=
    ⟨_, subst_substInvOfIsUnit_left (log K) constantCoeff_log hu⟩
  have : q = exp K - 1 := by
    have h1 := subst_comp_subst_apply (R := K) hl he q
    have h2 : subst (exp K - 1) (subst (log K) q : PowerSeries K) = exp K - 1 := by
      rw [hinv_l]; exact subst_X he
    have h3 : subst (subst (exp K - 1) (log K) : PowerSeries K) q = q := by
      rw [log_subst_exp]; exact X_subst q
    exact h3.symm.trans (h1.symm.trans h2)
  rw [← this, hinv_l]

/-! ### log ∘ exp and exp ∘ log -/

theorem texp_nil (x : Series α K) : texp x [] = 1 := by simp [texp_apply, one_nil]

theorem tlog_nil (x : Series α K) : tlog x [] = 0 := by simp [tlog_apply]

theorem tlog_texp {x : Series α K} (hx : x [] = 0) : tlog (texp x) = x := by
  rw [tlog_eq_peval, texp_eq_peval]
  have : peval (exp K) x - 1 = peval (exp K - 1) x := by rw [peval_sub, peval_one]
  rw [this, ← peval_subst _ (by simp) hx, log_subst_exp, peval_X hx]

theorem texp_tlog {g : Series α K} (hg : g [] = 1) : texp (tlog g) = g := by
  have h0 : (g - 1) [] = 0 := by rw [sub_apply, hg, one_nil, sub_self]
  rw [tlog_eq_peval, texp_eq_peval]
  have : peval (exp K) (peval (log K) (g - 1)) =
      peval (exp K - 1) (peval (log K) (g - 1)) + 1 := by
    rw [peval_sub, peval_one]; abel
  rw [this, ← peval_subst _ (by simp) h0, exp_subst_log, peval_X h0]
  abel

theorem texp_zero : texp (0 : Series α K) = 1 := by
  ext u
  rw [texp_apply, sum_eq_single 0]
  · simp
  · intro n _ hn; simp [hn, zero_apply]
  · simp

theorem tlog_one : tlog (1 : Series α K) = 0 := by
  rw [← texp_zero, tlog_texp]
  rfl

/-- exponentials of commuting elements multiply -/
theorem texp_add {x y : Series α K} (hx : x [] = 0) (hy : y [] = 0) (hc : Commute x y) :
    texp (x + y) = texp x * texp y := by
  ext u
  set N := u.length + 1 with hN
  have hxy : (x + y) [] = 0 := by rw [add_apply, hx, hy, add_zero]
  have e : ∀ {z : Series α K}, z [] = 0 → ∀ v : List α, v.length < N →
      texp z v = ∑ n ∈ range N, ((n.factorial : K))⁻¹ * (z ^ n) v := fun hz v hv => by
    rw [texp_eq_peval, peval_eq _ hz v hv]; simp [coeff_exp]
  have hvan : ∀ i j, u.length < i + j → (x ^ i * y ^ j) u = 0 := by
    intro i j hij
    rw [mul_apply]
    refine sum_eq_zero fun k hk => ?_
    rcases Nat.lt_or_ge (u.take k).length i with h | h
    · rw [pow_apply_eq_zero hx _ _ h, zero_mul]
    · rw [pow_apply_eq_zero hy _ (u.drop k) (by simp at h ⊢; omega), mul_zero]
  rw [e hxy u (by omega), mul_apply]
  have hR : ∑ k ∈ range (u.length + 1), texp x (u.take k) * texp y (u.drop k) =
      ∑ i ∈ range N, ∑ j ∈ range N,
        ((i.factorial : K))⁻¹ * ((j.factorial : K))⁻¹ * (x ^ i * y ^ j) u := by
    simp_rw [mul_apply, mul_sum]
    calc _ = ∑ k ∈ range N, ∑ i ∈ range N, ∑ j ∈ range N,
          ((i.factorial : K))⁻¹ * ((j.factorial : K))⁻¹ *
            ((x ^ i) (u.take k) * (y ^ j) (u.drop k)) := by
            refine sum_congr rfl fun k _ => ?_
            rw [e hx (u.take k) (by simp; omega), e hy (u.drop k) (by simp; omega), sum_mul_sum]
            refine sum_congr rfl fun i _ => sum_congr rfl fun j _ => by ring
      _ = _ := by
            rw [sum_comm]
            refine sum_congr rfl fun i _ => ?_
            rw [sum_comm]
  rw [hR]
  have hL : ∀ n, ((n.factorial : K))⁻¹ * ((x + y) ^ n) u =
      ∑ ij ∈ antidiagonal n,
        ((ij.1.factorial : K))⁻¹ * ((ij.2.factorial : K))⁻¹ * (x ^ ij.1 * y ^ ij.2) u := by
    intro n
    rw [hc.add_pow']
    rw [sum_apply, mul_sum]
    refine sum_congr rfl fun ij hij => ?_
    rw [mem_antidiagonal] at hij
    have : ((n.choose ij.1) • (x ^ ij.1 * y ^ ij.2)) u =
        (n.choose ij.1 : K) * (x ^ ij.1 * y ^ ij.2) u := by
      rw [← Nat.cast_smul_eq_nsmul K, smul_apply]
    rw [this]
    have hf : (n.choose ij.1 : K) * (ij.1.factorial * ij.2.factorial) = n.factorial := by
      have h0 := Nat.choose_mul_factorial_mul_factorial (n := n) (k := ij.1) (by omega)
      rw [show n - ij.1 = ij.2 by omega] at h0
      have h1 := congrArg (Nat.cast (R := K)) h0
      push_cast at h1
      rw [← h1]; ring
    have e1 : (ij.1.factorial : K) ≠ 0 := Nat.cast_ne_zero.2 (Nat.factorial_ne_zero _)
    have e2 : (ij.2.factorial : K) ≠ 0 := Nat.cast_ne_zero.2 (Nat.factorial_ne_zero _)
    have e3 : (n.factorial : K) ≠ 0 := Nat.cast_ne_zero.2 (Nat.factorial_ne_zero _)
    field_simp
    linear_combination ((x ^ ij.1 * y ^ ij.2) u) * hf
  simp_rw [hL]
  rw [sum_triangle (fun ij => ((ij.1.factorial : K))⁻¹ * ((ij.2.factorial : K))⁻¹ *
    (x ^ ij.1 * y ^ ij.2) u)]
  intro i j hij
  rw [hvan _ _ (by omega), mul_zero]

theorem texp_mul_texp_neg {x : Series α K} (hx : x [] = 0) : texp x * texp (-x) = 1 := by
  rw [← texp_add hx (by rw [neg_apply, hx, neg_zero]) (Commute.neg_right (Commute.refl x)),
    add_neg_cancel, texp_zero]

theorem texp_neg_mul_texp {x : Series α K} (hx : x [] = 0) : texp (-x) * texp x = 1 := by
  have := texp_mul_texp_neg (x := -x) (by rw [neg_apply, hx, neg_zero])
  rwa [neg_neg] at this

theorem EqUpTo.texp {D : ℕ} {x y : Series α K} (h : EqUpTo D x y) :
    EqUpTo D (texp x) (texp y) := fun u hu => by
  rw [texp_apply, texp_apply]
  exact sum_congr rfl fun n _ => by rw [h.pow n u hu]

theorem EqUpTo.tlog {D : ℕ} {x y : Series α K} (h : EqUpTo D x y) :
    EqUpTo D (tlog x) (tlog y) := fun u hu => by
  rw [tlog_apply, tlog_apply]
  exact sum_congr rfl fun n _ => by rw [(h.sub (EqUpTo.refl D 1)).pow n u hu]

end RoughPy.Tensor.Series
