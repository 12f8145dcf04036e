import Verif.Tensor.ExpLog
import Mathlib.Algebra.Polynomial.Eval.Coeff
import Mathlib.Algebra.Polynomial.Eval.Defs
import Mathlib.Algebra.Polynomial.Basic
import Mathlib.Data.Nat.Choose.Sum
import Mathlib.Data.Nat.Choose.Cast

set_option linter.unusedSectionVars false

/-!
# The derivative of the exponential

`IsDeriv F P D`: the coefficients of `F t` are polynomials in `t` with constant coefficients `P` and
linear coefficients `D`.
-/

namespace RoughPy.Tensor.Series

open Finset Polynomial

variable {α K : Type*} [Field K]

/-- `F` is a polynomial family with value `P` and derivative `D` at zero: every coefficient of `F t` is
a polynomial in `t` whose first two coefficients are those of `P` and `D`. -/
def IsDeriv (F : K → Series α K) (P D : Series α K) : Prop :=
  ∀ u, ∃ p : K[X], (∀ t, F t u = p.eval t) ∧ p.coeff 0 = P u ∧ p.coeff 1 = D u

theorem IsDeriv.const (P : Series α K) : IsDeriv (fun _ => P) P 0 := fun u =>
  ⟨C (P u), fun t => by rw [eval_C], by rw [coeff_C_zero], by rw [coeff_C_of_ne_zero one_ne_zero]; rfl⟩

theorem IsDeriv.linear (x y : Series α K) : IsDeriv (fun t => x + t • y) x y := fun u =>
  ⟨C (x u) + X * C (y u), fun t => by
    rw [eval_add, eval_mul, eval_C, eval_X, eval_C]; rfl,
    by rw [coeff_add, coeff_C_zero, coeff_X_mul_zero, add_zero],
    by rw [coeff_add, coeff_C_of_ne_zero one_ne_zero, show (1 : ℕ) = 0 + 1 from rfl, coeff_X_mul,
      coeff_C_zero, zero_add]⟩

theorem IsDeriv.smul (c : K) {F : K → Series α K} {P D : Series α K} (h : IsDeriv F P D) :
    IsDeriv (fun t => c • F t) (c • P) (c • D) := fun u => by
  obtain ⟨p, h1, h2, h3⟩ := h u
  exact ⟨C c * p, fun t => by rw [eval_mul, eval_C, ← h1]; rfl,
    by rw [coeff_C_mul, h2]; rfl, by rw [coeff_C_mul, h3]; rfl⟩

theorem IsDeriv.sum {ι : Type*} (s : Finset ι) {F : ι → K → Series α K} {P D : ι → Series α K}
    (h : ∀ i ∈ s, IsDeriv (F i) (P i) (D i)) :
    IsDeriv (fun t => ∑ i ∈ s, F i t) (∑ i ∈ s, P i) (∑ i ∈ s, D i) := fun u => by
  classical
  choose! p h1 h2 h3 using fun i (hi : i ∈ s) => h i hi u
  refine ⟨∑ i ∈ s, p i, fun t => ?_, ?_, ?_⟩
  · show (∑ i ∈ s, F i t : Series α K) u = _
    rw [eval_finsetSum, Series.sum_apply]
    exact sum_congr rfl fun i hi => h1 i hi t
  · rw [finsetSum_coeff, Series.sum_apply]
    exact sum_congr rfl h2
  · rw [finsetSum_coeff, Series.sum_apply]
    exact sum_congr rfl h3

theorem IsDeriv.mul {F G : K → Series α K} {P D Q E : Series α K} (hF : IsDeriv F P D)
    (hG : IsDeriv G Q E) : IsDeriv (fun t => F t * G t) (P * Q) (D * Q + P * E) := fun u => by
  choose p p1 p2 p3 using fun k => hF (u.take k)
  choose q q1 q2 q3 using fun k => hG (u.drop k)
  refine ⟨∑ k ∈ range (u.length + 1), p k * q k, fun t => ?_, ?_, ?_⟩
  · show (F t * G t : Series α K) u = _
    rw [eval_finsetSum, mul_apply]
    exact sum_congr rfl fun k _ => by rw [eval_mul, p1, q1]
  · rw [finsetSum_coeff, mul_apply]
    exact sum_congr rfl fun k _ => by rw [mul_coeff_zero, p2, q2]
  · rw [finsetSum_coeff, Series.add_apply, mul_apply, mul_apply, ← sum_add_distrib]
    exact sum_congr rfl fun k _ => by rw [mul_coeff_one, p2, q2, p3, q3, add_comm]

/-- the derivative of a power -/
def dpow (x y : Series α K) : ℕ → Series α K
  | 0 => 0
  | n + 1 => dpow x y n * x + x ^ n * y

theorem IsDeriv.pow (x y : Series α K) (n : ℕ) :
    IsDeriv (fun t => (x + t • y) ^ n) (x ^ n) (dpow x y n) := by
  induction n with
  | zero =>
    simp only [pow_zero]
    exact IsDeriv.const 1
  | succ n ih =>
    simp only [pow_succ]
    exact ih.mul (IsDeriv.linear x y)

theorem IsDeriv.prod {ι : Type*} (l : List ι) {F : ι → K → Series α K} {P D : ι → Series α K}
    (h : ∀ i ∈ l, IsDeriv (F i) (P i) (D i)) : ∃ E, IsDeriv (fun t => (l.map fun i => F i t).prod) (l.map P).prod E := by
  induction l with
  | nil => exact ⟨0, by simp only [List.map_nil, List.prod_nil]; exact IsDeriv.const 1⟩
  | cons i l ih =>
    obtain ⟨E, hE⟩ := ih fun j hj => h j (List.mem_cons_of_mem _ hj)
    simp only [List.map_cons, List.prod_cons]
    exact ⟨_, (h i List.mem_cons_self).mul hE⟩

/-- the derivative of the exponential, by words -/
def dexp (x y : Series α K) : Series α K :=
  fun u => ∑ n ∈ range (u.length + 1), ((n.factorial : K))⁻¹ * dpow x y n u

theorem IsDeriv.texp [CharZero K] (x y : Series α K) :
    IsDeriv (fun t => texp (x + t • y)) (Series.texp x) (dexp x y) := fun u => by
  obtain ⟨p, h1, h2, h3⟩ := IsDeriv.sum (range (u.length + 1))
    (fun n _ => (IsDeriv.pow x y n).smul ((n.factorial : K))⁻¹) u
  refine ⟨p, fun t => ?_, ?_, ?_⟩
  · rw [← h1]
    show Series.texp (x + t • y) u = (∑ i ∈ range (u.length + 1), ((i.factorial : K))⁻¹ • (x + t • y) ^ i : Series α K) u
    rw [texp_apply, Series.sum_apply]
    rfl
  · rw [h2, texp_apply, Series.sum_apply]
    rfl
  · rw [h3, Series.sum_apply]
    rfl

theorem IsDeriv.unique [CharZero K] {F : K → Series α K} {P D P' D' : Series α K}
    (h : IsDeriv F P D) (h' : IsDeriv F P' D') : P = P' ∧ D = D' := by
  have : ∀ u, P u = P' u ∧ D u = D' u := by
    intro u
    obtain ⟨p, h1, h2, h3⟩ := h u
    obtain ⟨q, g1, g2, g3⟩ := h' u
    have : p = q := Polynomial.funext fun t => by rw [← h1, g1]
    subst this
    exact ⟨h2 ▸ g2, h3 ▸ g3⟩
  exact ⟨funext fun u => (this u).1, funext fun u => (this u).2⟩

/-! ## The series of iterated commutators -/

/-- `y ↦ y x - x y` -/
def rad (x y : Series α K) : Series α K := y * x - x * y

theorem dpow_eq (x y : Series α K) (n : ℕ) :
    dpow x y n = ∑ k ∈ range n, (n.choose (k + 1)) • (x ^ (n - 1 - k) * (rad x)^[k] y) := by
  -- `y x^j = Σ C(j,k) x^(j-k) rad^k y`
  have hmove : ∀ (j : ℕ) (z : Series α K), z * x ^ j =
      ∑ k ∈ range (j + 1), (j.choose k) • (x ^ (j - k) * (rad x)^[k] z) := by
    intro j
    induction j with
    | zero => intro z; simp
    | succ j ih =>
      intro z
      have h1 : z * x ^ (j + 1) = x * (z * x ^ j) + rad x z * x ^ j := by
        unfold rad
        rw [sub_mul, pow_succ', ← mul_assoc, ← mul_assoc, add_sub_cancel]
      rw [h1, ih z, ih (rad x z), mul_sum, sum_range_succ' _ (j + 1)]
      have h2 : ∀ k ∈ range (j + 1), x * (j.choose k • (x ^ (j - k) * (rad x)^[k] z)) =
          j.choose k • (x ^ (j + 1 - k) * (rad x)^[k] z) := by
        intro k hk
        rw [mem_range] at hk
        rw [mul_smul_comm, ← mul_assoc, ← pow_succ', show j - k + 1 = j + 1 - k by omega]
      rw [sum_congr rfl h2, sum_range_succ' (fun k => j.choose k • (x ^ (j + 1 - k) * (rad x)^[k] z)) j]
      have h3 : ∑ k ∈ range (j + 1), (j + 1).choose (k + 1) • (x ^ (j + 1 - (k + 1)) * (rad x)^[k + 1] z) =
          ∑ k ∈ range (j + 1), j.choose k • (x ^ (j - k) * (rad x)^[k + 1] z) +
            ∑ k ∈ range j, j.choose (k + 1) • (x ^ (j + 1 - (k + 1)) * (rad x)^[k + 1] z) := by
        have h4 : ∑ k ∈ range j, j.choose (k + 1) • (x ^ (j + 1 - (k + 1)) * (rad x)^[k + 1] z) =
            ∑ k ∈ range (j + 1), j.choose (k + 1) • (x ^ (j - k) * (rad x)^[k + 1] z) := by
          rw [sum_range_succ, Nat.choose_succ_self, zero_smul, add_zero]
          exact sum_congr rfl fun k _ => by rw [show j + 1 - (k + 1) = j - k by omega]
        rw [h4, ← sum_add_distrib]
        refine sum_congr rfl fun k _ => ?_
        rw [Nat.choose_succ_succ, add_smul, show j + 1 - (k + 1) = j - k by omega]
      rw [h3]
      simp only [Function.iterate_succ, Function.comp_apply, Function.iterate_zero, id_eq, Nat.choose_zero_right,
        Nat.sub_zero]
      abel
  -- `dpow (n+1) = x dpow n + y x^n`
  have hstep : ∀ n, dpow x y (n + 1) = x * dpow x y n + y * x ^ n := by
    intro n
    induction n with
    | zero => simp [dpow]
    | succ n ih =>
      show dpow x y (n + 1) * x + x ^ (n + 1) * y = x * (dpow x y n * x + x ^ n * y) + y * x ^ (n + 1)
      rw [ih]
      simp only [add_mul, mul_add, pow_succ' x n, mul_assoc]
      rw [← pow_succ', pow_succ]
      abel
  induction n with
  | zero => simp [dpow]
  | succ n ih =>
    rw [hstep, ih, hmove, mul_sum]
    have h1 : ∀ k ∈ range n, x * (n.choose (k + 1) • (x ^ (n - 1 - k) * (rad x)^[k] y)) =
        n.choose (k + 1) • (x ^ (n - k) * (rad x)^[k] y) := by
      intro k hk
      rw [mem_range] at hk
      rw [mul_smul_comm, ← mul_assoc, ← pow_succ', show n - 1 - k + 1 = n - k by omega]
    rw [sum_congr rfl h1]
    have h2 : ∑ k ∈ range n, n.choose (k + 1) • (x ^ (n - k) * (rad x)^[k] y) =
        ∑ k ∈ range (n + 1), n.choose (k + 1) • (x ^ (n - k) * (rad x)^[k] y) := by
      rw [sum_range_succ, Nat.choose_succ_self, zero_smul, add_zero]
    rw [h2, ← sum_add_distrib]
    refine sum_congr rfl fun k _ => ?_
    rw [← add_smul, add_comm (n.choose (k + 1)), ← Nat.choose_succ_succ, Nat.add_sub_cancel]

/-- words shorter than `n` have coefficient zero -/
def Vanish (n : ℕ) (f : Series α K) : Prop := ∀ u, u.length < n → f u = 0

theorem Vanish.mul {a b : ℕ} {f g : Series α K} (hf : Vanish a f) (hg : Vanish b g) :
    Vanish (a + b) (f * g) := fun u hu => by
  rw [mul_apply]
  refine sum_eq_zero fun k hk => ?_
  rw [mem_range] at hk
  by_cases h : k < a
  · rw [hf _ (by rw [List.length_take]; omega), zero_mul]
  · rw [hg _ (by rw [List.length_drop]; omega), mul_zero]

theorem Vanish.of_nil {x : Series α K} (hx : x [] = 0) : Vanish 1 x := fun u hu => by
  have : u = [] := List.length_eq_zero_iff.1 (by omega)
  rw [this, hx]

theorem Vanish.pow {x : Series α K} (hx : x [] = 0) (n : ℕ) : Vanish n (x ^ n) :=
  fun u hu => pow_apply_eq_zero hx n u hu

theorem Vanish.rad {x y : Series α K} (hx : x [] = 0) (hy : y [] = 0) (k : ℕ) :
    Vanish (k + 1) ((Series.rad x)^[k] y) := by
  induction k with
  | zero => exact Vanish.of_nil hy
  | succ k ih =>
    rw [Function.iterate_succ_apply']
    intro u hu
    have h1 := ih.mul (Vanish.of_nil hx) u (by omega)
    have h2 := (Vanish.of_nil hx).mul ih u (by omega)
    show (_ - _ : Series α K) u = 0
    rw [Series.sub_apply, h1, h2, sub_zero]

variable [CharZero K]

/-- The derivative of the exponential is the exponential times the series of iterated commutators. -/
theorem dexp_eq {x y : Series α K} (hx : x [] = 0) (hy : y [] = 0) (D : ℕ) :
    EqUpTo D (dexp x y)
      (Series.texp x * ∑ k ∈ range (D + 1), (((k + 1).factorial : K))⁻¹ • (Series.rad x)^[k] y) := by
  intro u hu
  set G : ℕ → ℕ → K := fun a k => ((a.factorial : K))⁻¹ * ((((k + 1).factorial : K))⁻¹ *
    (x ^ a * (Series.rad x)^[k] y) u) with hG
  have hzero : ∀ a k, u.length < a + (k + 1) → G a k = 0 := by
    intro a k h
    rw [hG]
    dsimp only
    rw [((Vanish.pow hx a).mul (Vanish.rad hx hy k)) u h, mul_zero, mul_zero]
  -- right hand side
  have hR : (Series.texp x * ∑ k ∈ range (D + 1), (((k + 1).factorial : K))⁻¹ • (Series.rad x)^[k] y) u =
      ∑ a ∈ range (D + 1), ∑ k ∈ range (D + 1), G a k := by
    have h1 : EqUpTo D (Series.texp x) (∑ a ∈ range (D + 1), ((a.factorial : K))⁻¹ • x ^ a) := by
      intro v hv
      rw [texp_apply, Series.sum_apply]
      refine (sum_subset (range_subset_range.2 (by omega)) fun n _ hn => ?_)
      rw [mem_range] at hn
      show _ * _ = (0 : K)
      rw [pow_apply_eq_zero hx n v (by omega), mul_zero]
    rw [EqUpTo.mul h1 (EqUpTo.refl D _) u hu, sum_mul, Series.sum_apply]
    refine sum_congr rfl fun a _ => ?_
    rw [mul_sum, Series.sum_apply]
    refine sum_congr rfl fun k _ => ?_
    rw [smul_mul_assoc, mul_smul_comm]
    rfl
  -- left hand side
  have hL : dexp x y u = ∑ n ∈ range (u.length + 1), ∑ k ∈ range n, G (n - 1 - k) k := by
    unfold dexp
    refine sum_congr rfl fun n _ => ?_
    rw [dpow_eq, Series.sum_apply, mul_sum]
    refine sum_congr rfl fun k hk => ?_
    rw [mem_range] at hk
    have h1 : ((n.choose (k + 1)) • (x ^ (n - 1 - k) * (Series.rad x)^[k] y)) u =
        (n.choose (k + 1) : K) * (x ^ (n - 1 - k) * (Series.rad x)^[k] y) u := by
      rw [← Nat.cast_smul_eq_nsmul K]
      rfl
    rw [h1, hG]
    dsimp only
    rw [Nat.cast_choose K (show k + 1 ≤ n by omega), show n - (k + 1) = n - 1 - k by omega]
    have f1 : (n.factorial : K) ≠ 0 := Nat.cast_ne_zero.2 (Nat.factorial_ne_zero _)
    have f2 : ((k + 1).factorial : K) ≠ 0 := Nat.cast_ne_zero.2 (Nat.factorial_ne_zero _)
    have f3 : ((n - 1 - k).factorial : K) ≠ 0 := Nat.cast_ne_zero.2 (Nat.factorial_ne_zero _)
    field_simp
  rw [hL, hR]
  -- both are sums over `a + k < |u|`
  have hS : ∀ N : ℕ, ∑ n ∈ range (N + 1), ∑ k ∈ range n, G (n - 1 - k) k =
      ∑ k ∈ range N, ∑ a ∈ range (N - k), G a k := by
    intro N
    induction N with
    | zero => simp
    | succ N ih =>
      rw [sum_range_succ, ih, sum_range_succ (fun k => G (N + 1 - 1 - k) k), sum_range_succ (fun k => ∑ a ∈ range (N + 1 - k), G a k)]
      have : ∀ k ∈ range N, ∑ a ∈ range (N + 1 - k), G a k = ∑ a ∈ range (N - k), G a k + G (N + 1 - 1 - k) k := by
        intro k hk
        rw [mem_range] at hk
        rw [show N + 1 - k = N - k + 1 by omega, sum_range_succ, Nat.add_sub_cancel]
      rw [sum_congr rfl this, sum_add_distrib, add_assoc]
      congr 1
      simp
  rw [hS, sum_comm (s := range (D + 1)) (t := range (D + 1))]
  have hext : ∑ k ∈ range u.length, ∑ a ∈ range (u.length - k), G a k =
      ∑ k ∈ range u.length, ∑ a ∈ range (D + 1), G a k := by
    refine sum_congr rfl fun k _ => ?_
    refine sum_subset (range_subset_range.2 (by omega)) fun a _ ha => ?_
    rw [mem_range] at ha
    exact hzero a k (by omega)
  rw [hext]
  refine sum_subset (range_subset_range.2 (by omega)) fun k _ hk => ?_
  rw [mem_range] at hk
  exact sum_eq_zero fun a _ => hzero a k (by omega)

end RoughPy.Tensor.Series
