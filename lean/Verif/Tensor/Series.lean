import Verif.Tensor.Spec

/-! # The concatenation product makes series a `K`-algebra -/

set_option linter.unusedSectionVars false

open Finset

namespace RoughPy.Tensor.Series

variable {α K : Type*} [CommRing K]

theorem add_apply (f g : Series α K) (u : List α) : (f + g) u = f u + g u := rfl
theorem sub_apply (f g : Series α K) (u : List α) : (f - g) u = f u - g u := rfl
theorem neg_apply (f : Series α K) (u : List α) : (-f) u = -(f u) := rfl
theorem zero_apply (u : List α) : (0 : Series α K) u = 0 := rfl
theorem smul_apply (c : K) (f : Series α K) (u : List α) : (c • f) u = c * f u := rfl

theorem mul_apply (f g : Series α K) (u : List α) :
    (f * g) u = ∑ k ∈ range (u.length + 1), f (u.take k) * g (u.drop k) := rfl

theorem one_nil : (1 : Series α K) [] = 1 := rfl
theorem one_cons (a : α) (u : List α) : (1 : Series α K) (a :: u) = 0 := rfl

theorem mul_nil (f g : Series α K) : (f * g) [] = f [] * g [] := by
  simp [mul_apply]

/-- left derivative: strip the first letter -/
def ld (a : α) (f : Series α K) : Series α K := fun u => f (a :: u)

theorem mul_cons (f g : Series α K) (a : α) (u : List α) :
    (f * g) (a :: u) = f [] * g (a :: u) + (ld a f * g) u := by
  rw [mul_apply, List.length_cons, sum_range_succ', add_comm]
  simp [mul_apply, ld]

theorem ld_add (a : α) (f g : Series α K) : ld a (f + g) = ld a f + ld a g := rfl
theorem ld_smul (a : α) (c : K) (f : Series α K) : ld a (c • f) = c • ld a f := rfl

theorem ld_mul (a : α) (f g : Series α K) : ld a (f * g) = f [] • ld a g + ld a f * g := by
  ext u
  simp [ld, mul_cons, add_apply, smul_apply]

theorem add_mul' (f g h : Series α K) : (f + g) * h = f * h + g * h := by
  ext u; simp [mul_apply, add_apply, add_mul, sum_add_distrib]

theorem mul_add' (f g h : Series α K) : f * (g + h) = f * g + f * h := by
  ext u; simp [mul_apply, add_apply, mul_add, sum_add_distrib]

theorem smul_mul' (c : K) (f g : Series α K) : (c • f) * g = c • (f * g) := by
  ext u; simp [mul_apply, smul_apply, mul_sum, mul_assoc]

theorem mul_smul' (c : K) (f g : Series α K) : f * (c • g) = c • (f * g) := by
  ext u
  simp only [mul_apply, smul_apply, mul_sum]
  exact sum_congr rfl fun k _ => by ring

theorem mul_assoc' (f g h : Series α K) : (f * g) * h = f * (g * h) := by
  ext u
  induction u generalizing f g h with
  | nil => simp [mul_nil, mul_assoc]
  | cons a u ih =>
    rw [mul_cons, mul_cons, mul_cons, ld_mul, add_mul', add_apply, ih, smul_mul', smul_apply,
      mul_nil]
    ring

theorem zero_mul' (f : Series α K) : 0 * f = 0 := by
  ext u; simp [mul_apply, zero_apply]

theorem mul_zero' (f : Series α K) : f * 0 = 0 := by
  ext u; simp [mul_apply, zero_apply]

theorem one_mul' (f : Series α K) : 1 * f = f := by
  ext u
  cases u with
  | nil => simp [mul_nil, one_nil]
  | cons a u =>
    have : ld a (1 : Series α K) = 0 := rfl
    rw [mul_cons, this, zero_mul']
    simp [one_nil, zero_apply]

theorem mul_one' (f : Series α K) : f * 1 = f := by
  ext u
  induction u generalizing f with
  | nil => simp [mul_nil, one_nil]
  | cons a u ih => rw [mul_cons, ih]; simp [one_cons, ld]

instance : Ring (Series α K) :=
  { (inferInstance : AddCommGroup (Series α K)) with
    mul := (· * ·)
    one := 1
    left_distrib := mul_add'
    right_distrib := add_mul'
    zero_mul := zero_mul'
    mul_zero := mul_zero'
    mul_assoc := mul_assoc'
    one_mul := one_mul'
    mul_one := mul_one' }

instance : Algebra K (Series α K) := Algebra.ofModule smul_mul' (fun c f g => mul_smul' c f g)

theorem sum_apply {ι : Type*} (s : Finset ι) (F : ι → Series α K) (u : List α) :
    (∑ i ∈ s, F i) u = ∑ i ∈ s, F i u := by
  induction s using Finset.cons_induction with
  | empty => rfl
  | cons i s hi ih => rw [sum_cons, sum_cons, add_apply, ih]

/-! ### Truncated equality -/

namespace EqUpTo

theorem refl (D : ℕ) (f : Series α K) : EqUpTo D f f := fun _ _ => rfl

theorem symm {D : ℕ} {f g : Series α K} (h : EqUpTo D f g) : EqUpTo D g f :=
  fun u hu => (h u hu).symm

theorem trans {D : ℕ} {f g h : Series α K} (h1 : EqUpTo D f g) (h2 : EqUpTo D g h) :
    EqUpTo D f h := fun u hu => (h1 u hu).trans (h2 u hu)

theorem mono {D D' : ℕ} (hD : D' ≤ D) {f g : Series α K} (h : EqUpTo D f g) :
    EqUpTo D' f g := fun u hu => h u (hu.trans hD)

theorem add {D : ℕ} {f f' g g' : Series α K} (h1 : EqUpTo D f f') (h2 : EqUpTo D g g') :
    EqUpTo D (f + g) (f' + g') := fun u hu => by
  rw [add_apply, add_apply, h1 u hu, h2 u hu]

theorem sub {D : ℕ} {f f' g g' : Series α K} (h1 : EqUpTo D f f') (h2 : EqUpTo D g g') :
    EqUpTo D (f - g) (f' - g') := fun u hu => by
  rw [sub_apply, sub_apply, h1 u hu, h2 u hu]

theorem smul {D : ℕ} (c : K) {f f' : Series α K} (h1 : EqUpTo D f f') :
    EqUpTo D (c • f) (c • f') := fun u hu => by
  rw [smul_apply, smul_apply, h1 u hu]

theorem mul {D : ℕ} {f f' g g' : Series α K} (h1 : EqUpTo D f f') (h2 : EqUpTo D g g') :
    EqUpTo D (f * g) (f' * g') := fun u hu => by
  rw [mul_apply, mul_apply]
  refine sum_congr rfl fun k _ => ?_
  rw [h1 _ (by simp; omega), h2 _ (by simp; omega)]

/-- multiplying by a series without constant term gains one degree -/
theorem mul_succ {D : ℕ} {f f' g : Series α K} (h1 : EqUpTo D f f') (hg : g [] = 0) :
    EqUpTo (D + 1) (f * g) (f' * g) := fun u hu => by
  rw [mul_apply, mul_apply]
  refine sum_congr rfl fun k hk => ?_
  rcases Nat.lt_or_ge k u.length with h | h
  · rw [h1 _ (by simp; omega)]
  · rw [List.drop_eq_nil_of_le h, hg, mul_zero, mul_zero]

theorem pow {D : ℕ} {f f' : Series α K} (h1 : EqUpTo D f f') (n : ℕ) :
    EqUpTo D (f ^ n) (f' ^ n) := by
  induction n with
  | zero => simp [refl]
  | succ n ih => rw [pow_succ, pow_succ]; exact ih.mul h1

end EqUpTo

theorem pow_apply_eq_zero {x : Series α K} (hx : x [] = 0) (n : ℕ) (u : List α)
    (hu : u.length < n) : (x ^ n) u = 0 := by
  induction n generalizing u with
  | zero => omega
  | succ n ih =>
    rw [pow_succ, mul_apply]
    refine sum_eq_zero fun k hk => ?_
    rcases Nat.lt_or_ge k u.length with h | h
    · rw [ih _ (by simp; omega), zero_mul]
    · rw [List.drop_eq_nil_of_le h, hx, mul_zero]

theorem pow_nil (x : Series α K) (n : ℕ) : (x ^ n) [] = x [] ^ n := by
  induction n with
  | zero => simp [one_nil]
  | succ n ih => rw [pow_succ, mul_nil, ih, pow_succ]

theorem power_eq (x : Series α K) (n : ℕ) : x.power n = x ^ n := by
  induction n with
  | zero => rw [power, pow_zero]
  | succ n ih => rw [power, ih, pow_succ]

end RoughPy.Tensor.Series
