import Verif.Tensor.Shuffle
import Verif.Tensor.ExpLog
import Mathlib.Data.Nat.Choose.Sum
import Mathlib.Tactic.NoncommRing

/-! # Antipode, group-like and primitive series -/

set_option linter.unusedSectionVars false

open Finset

namespace RoughPy.Tensor.Series

section antipode
variable {α K : Type*} [CommRing K]

theorem antipode_antipode (f : Series α K) : antipode (antipode f) = f := by
  ext u
  simp only [antipode, List.length_reverse, List.reverse_reverse, ← mul_assoc, ← mul_pow]
  simp

theorem antipode_add (f g : Series α K) : antipode (f + g) = antipode f + antipode g := by
  ext u; simp [antipode, add_apply, mul_add]

theorem antipode_sub (f g : Series α K) : antipode (f - g) = antipode f - antipode g := by
  ext u; simp [antipode, sub_apply, mul_sub]

theorem antipode_smul (c : K) (f : Series α K) : antipode (c • f) = c • antipode f := by
  ext u; simp only [antipode, smul_apply]; ring

theorem antipode_zero : antipode (0 : Series α K) = 0 := by
  ext u; simp [antipode, zero_apply]

theorem antipode_one : antipode (1 : Series α K) = 1 := by
  ext u
  cases u with
  | nil => change (-1 : K) ^ 0 * 1 = 1; simp
  | cons a u =>
    unfold antipode
    rw [one_cons]
    obtain ⟨b, v, h⟩ := List.exists_cons_of_ne_nil (l := (a :: u).reverse) (by simp)
    rw [h, one_cons, mul_zero]

theorem antipode_mul (f g : Series α K) : antipode (f * g) = antipode g * antipode f := by
  ext u
  simp only [antipode, mul_apply, List.length_reverse]
  rw [mul_sum, ← sum_range_reflect]
  refine sum_congr rfl fun k hk => ?_
  rw [mem_range] at hk
  have e : u.length + 1 - 1 - k = u.length - k := by omega
  rw [e, List.take_reverse, List.drop_reverse, List.length_take, List.length_drop,
    min_eq_left (by omega), show u.length - (u.length - k) = k by omega]
  have : (-1 : K) ^ u.length = (-1) ^ k * (-1) ^ (u.length - k) := by
    rw [← pow_add]; congr 1; omega
  rw [this]
  ring

theorem antipode_pow (f : Series α K) (n : ℕ) : antipode (f ^ n) = antipode f ^ n := by
  induction n with
  | zero => simp [antipode_one]
  | succ n ih => rw [pow_succ, antipode_mul, ih, pow_succ']

theorem IsLie.antipode_eq [DecidableEq α] {x : Series α K} (h : IsLie x) : antipode x = -x := by
  induction h with
  | letter a =>
    ext u
    rw [neg_apply]
    unfold antipode Series.letter
    by_cases h : u = [a]
    · subst h; simp
    · have : u.reverse ≠ [a] := fun h' => h (by rw [← u.reverse_reverse, h']; rfl)
      rw [if_neg this, if_neg h]; simp
  | zero => rw [antipode_zero, neg_zero]
  | add _ _ h1 h2 => rw [antipode_add, h1, h2, neg_add]
  | smul c _ h1 => rw [antipode_smul, h1, smul_neg]
  | bracket _ _ h1 h2 => rw [antipode_sub, antipode_mul, antipode_mul, h1, h2]; noncomm_ring

theorem IsLie.nil [DecidableEq α] {x : Series α K} (h : IsLie x) : x [] = 0 := by
  induction h with
  | letter a => simp [Series.letter]
  | zero => rfl
  | add _ _ h1 h2 => rw [add_apply, h1, h2, add_zero]
  | smul c _ h1 => rw [smul_apply, h1, mul_zero]
  | bracket _ _ h1 h2 => rw [sub_apply, mul_nil, mul_nil, h1, h2]; simp

end antipode

/-! ### Pairing with shuffles of words -/

section onShuffle
variable {α K : Type*} [CommRing K]

theorem onShuffle_nil_left (f : Series α K) (v : List α) : f.onShuffle [] v = f v := by
  simp [onShuffle, shuffles]

theorem onShuffle_nil_right (f : Series α K) (u : List α) : f.onShuffle u [] = f u := by
  cases u <;> simp [onShuffle, shuffles]

theorem onShuffle_cons (f : Series α K) (a b : α) (u v : List α) :
    f.onShuffle (a :: u) (b :: v) =
      (ld a f).onShuffle u (b :: v) + (ld b f).onShuffle (a :: u) v := by
  simp [onShuffle, shuffles, List.map_append, List.sum_append, List.map_map, Function.comp_def, ld]

/-- first letter recursion, uniform in both words -/
theorem onShuffle_rec (f : Series α K) (u v : List α) :
    f.onShuffle u v =
      (match u with | [] => 0 | a :: u' => (ld a f).onShuffle u' v) +
      (match v with | [] => 0 | b :: v' => (ld b f).onShuffle u v') +
      (if u = [] ∧ v = [] then f [] else 0) := by
  cases u with
  | nil =>
    cases v with
    | nil => simp [onShuffle_nil_left]
    | cons b v => simp [onShuffle_nil_left, ld]
  | cons a u =>
    cases v with
    | nil => simp [onShuffle_nil_right, ld]
    | cons b v => simp [onShuffle_cons]

theorem onShuffle_add (f g : Series α K) (u v : List α) :
    (f + g).onShuffle u v = f.onShuffle u v + g.onShuffle u v := by
  unfold onShuffle
  rw [← List.sum_map_add]
  simp only [add_apply]

theorem onShuffle_smul (c : K) (f : Series α K) (u v : List α) :
    (c • f).onShuffle u v = c * f.onShuffle u v := by
  unfold onShuffle
  rw [← List.sum_map_mul_left]
  simp only [smul_apply]

theorem onShuffle_sub (f g : Series α K) (u v : List α) :
    (f - g).onShuffle u v = f.onShuffle u v - g.onShuffle u v := by
  have h : f - g = f + (-1 : K) • g := by rw [neg_one_smul, sub_eq_add_neg]
  rw [h, onShuffle_add, onShuffle_smul]; ring

theorem onShuffle_zero (u v : List α) : (0 : Series α K).onShuffle u v = 0 := by
  have := onShuffle_smul (0 : K) (0 : Series α K) u v
  rwa [zero_smul, zero_mul] at this

theorem onShuffle_sum {ι : Type*} (s : Finset ι) (F : ι → Series α K) (u v : List α) :
    (∑ i ∈ s, F i).onShuffle u v = ∑ i ∈ s, (F i).onShuffle u v := by
  classical
  induction s using Finset.induction_on with
  | empty => simp [onShuffle_zero]
  | insert i s hi ih => rw [sum_insert hi, sum_insert hi, onShuffle_add, ih]

theorem shuffles_length (u v : List α) : ∀ z ∈ shuffles u v, z.length = u.length + v.length := by
  fun_induction shuffles u v with
  | case1 v => simp
  | case2 a u => simp
  | case3 a u b v ih1 ih2 =>
    intro z hz
    simp only [List.mem_append, List.mem_map] at hz
    rcases hz with ⟨y, hy, rfl⟩ | ⟨y, hy, rfl⟩
    · have := ih1 y hy; simp at this ⊢; omega
    · have := ih2 y hy; simp at this ⊢; omega

theorem onShuffle_congr {f g : Series α K} {D : ℕ} (h : EqUpTo D f g) {u v : List α}
    (hl : u.length + v.length ≤ D) : f.onShuffle u v = g.onShuffle u v := by
  unfold onShuffle
  congr 1
  refine List.map_congr_left fun z hz => h z ?_
  rw [shuffles_length u v z hz]
  exact hl

theorem onShuffle_one (u v : List α) :
    (1 : Series α K).onShuffle u v = (1 : Series α K) u * (1 : Series α K) v := by
  cases u with
  | nil => rw [onShuffle_nil_left, one_nil, one_mul]
  | cons a u =>
    cases v with
    | nil => rw [onShuffle_nil_right, one_nil, mul_one]
    | cons b v =>
      rw [onShuffle_cons, one_cons, zero_mul]
      have : ∀ a : α, ld a (1 : Series α K) = 0 := fun a => by ext; rfl
      rw [this, this, onShuffle_zero, onShuffle_zero, add_zero]

/-- deconcatenation is compatible with shuffles -/
theorem onShuffle_mul (f g : Series α K) (u v : List α) :
    (f * g).onShuffle u v = ∑ i ∈ range (u.length + 1), ∑ j ∈ range (v.length + 1),
      f.onShuffle (u.take i) (v.take j) * g.onShuffle (u.drop i) (v.drop j) := by
  induction hn : u.length + v.length generalizing f u v with
  | zero =>
    obtain rfl := List.length_eq_zero_iff.1 (by omega : u.length = 0)
    obtain rfl := List.length_eq_zero_iff.1 (by omega : v.length = 0)
    simp [onShuffle_nil_left, mul_nil]
  | succ n ih =>
    have e1 : ∀ (a : α) (u' : List α), u = a :: u' →
        (ld a (f * g)).onShuffle u' v = f [] * (ld a g).onShuffle u' v +
          ∑ i ∈ range (u'.length + 1), ∑ j ∈ range (v.length + 1),
            (ld a f).onShuffle (u'.take i) (v.take j) *
              g.onShuffle (u'.drop i) (v.drop j) := by
      rintro a u' rfl
      rw [ld_mul, onShuffle_add, onShuffle_smul, ih (ld a f) u' v (by simp at hn; omega)]
    have e2 : ∀ (b : α) (v' : List α), v = b :: v' →
        (ld b (f * g)).onShuffle u v' = f [] * (ld b g).onShuffle u v' +
          ∑ i ∈ range (u.length + 1), ∑ j ∈ range (v'.length + 1),
            (ld b f).onShuffle (u.take i) (v'.take j) *
              g.onShuffle (u.drop i) (v'.drop j) := by
      rintro b v' rfl
      rw [ld_mul, onShuffle_add, onShuffle_smul, ih (ld b f) u v' (by simp at hn; omega)]
    cases u with
    | nil => simp [onShuffle_nil_left, mul_apply]
    | cons a u =>
      cases v with
      | nil => simp [onShuffle_nil_right, mul_apply]
      | cons b v =>
        rw [onShuffle_cons, e1 a u rfl, e2 b v rfl]
        -- split the right hand side according to the first letter of the left factor
        have hr : ∀ i j, f.onShuffle ((a :: u).take i) ((b :: v).take j) =
            (match i with | 0 => 0 | i + 1 => (ld a f).onShuffle (u.take i) ((b :: v).take j)) +
            (match j with | 0 => 0 | j + 1 => (ld b f).onShuffle ((a :: u).take i) (v.take j)) +
            (if i = 0 ∧ j = 0 then f [] else 0) := by
          intro i j
          rw [onShuffle_rec]
          cases i <;> cases j <;> simp
        have hl1 : (a :: u).length = u.length + 1 := rfl
        have hl2 : (b :: v).length = v.length + 1 := rfl
        simp only [hr, add_mul, sum_add_distrib]
        have t1 : ∑ i ∈ range ((a :: u).length + 1), ∑ j ∈ range ((b :: v).length + 1),
            (match i with | 0 => 0 | i + 1 => (ld a f).onShuffle (u.take i) ((b :: v).take j)) *
              g.onShuffle ((a :: u).drop i) ((b :: v).drop j) =
            ∑ i ∈ range (u.length + 1), ∑ j ∈ range ((b :: v).length + 1),
              (ld a f).onShuffle (u.take i) ((b :: v).take j) *
              g.onShuffle (u.drop i) ((b :: v).drop j) := by
          rw [hl1, sum_range_succ' _ (u.length + 1)]
          simp
        have t2 : ∑ i ∈ range ((a :: u).length + 1), ∑ j ∈ range ((b :: v).length + 1),
            (match j with | 0 => 0 | j + 1 => (ld b f).onShuffle ((a :: u).take i) (v.take j)) *
              g.onShuffle ((a :: u).drop i) ((b :: v).drop j) =
            ∑ i ∈ range ((a :: u).length + 1), ∑ j ∈ range (v.length + 1),
              (ld b f).onShuffle ((a :: u).take i) (v.take j) *
              g.onShuffle ((a :: u).drop i) (v.drop j) := by
          refine sum_congr rfl fun i _ => ?_
          rw [hl2, sum_range_succ' _ (v.length + 1)]
          simp
        have t3 : ∑ i ∈ range ((a :: u).length + 1), ∑ j ∈ range ((b :: v).length + 1),
            (if i = 0 ∧ j = 0 then f [] else 0) *
              g.onShuffle ((a :: u).drop i) ((b :: v).drop j) =
            f [] * g.onShuffle (a :: u) (b :: v) := by
          rw [sum_eq_single 0, sum_eq_single 0]
          · simp
          · intro j _ hj; simp [hj]
          · intro h; simp at h
          · intro i _ hi
            exact sum_eq_zero fun j _ => by simp [hi]
          · intro h; simp at h
        rw [t1, t2, t3, onShuffle_cons g]
        ring

end onShuffle

/-! ### Primitive series -/

section prim
variable {α K : Type*} [CommRing K]

/-- `x` vanishes on shuffles of non-empty words of total length at most `N`, and on `1` -/
def PrimUpTo (N : ℕ) (x : Series α K) : Prop :=
  x [] = 0 ∧ ∀ u v, u ≠ [] → v ≠ [] → u.length + v.length ≤ N → x.onShuffle u v = 0

/-- primitive series -/
def Primitive (x : Series α K) : Prop := ∀ N, PrimUpTo N x

theorem PrimUpTo.apply {N : ℕ} {x : Series α K} (h : PrimUpTo N x) (u v : List α)
    (hl : u.length + v.length ≤ N) :
    x.onShuffle u v = x u * (1 : Series α K) v + (1 : Series α K) u * x v := by
  cases u with
  | nil =>
    rw [onShuffle_nil_left, one_nil, one_mul, h.1, zero_mul, zero_add]
  | cons a u =>
    cases v with
    | nil => rw [onShuffle_nil_right, one_nil, mul_one, h.1, mul_zero, add_zero]
    | cons b v =>
      rw [h.2 _ _ (by simp) (by simp) hl, one_cons, one_cons, mul_zero, zero_mul, add_zero]

theorem sum_sum_tensor (F1 F2 G1 G2 : Series α K) (u v : List α) :
    ∑ i ∈ range (u.length + 1), ∑ j ∈ range (v.length + 1),
      F1 (u.take i) * F2 (v.take j) * (G1 (u.drop i) * G2 (v.drop j)) =
      (F1 * G1) u * (F2 * G2) v := by
  rw [mul_apply, mul_apply, sum_mul_sum]
  refine sum_congr rfl fun i _ => sum_congr rfl fun j _ => ?_
  ring

theorem prim_mul {x y : Series α K} (hx : Primitive x) (hy : Primitive y) (u v : List α) :
    (x * y).onShuffle u v = (x * y) u * (1 : Series α K) v + x u * y v + y u * x v +
      (1 : Series α K) u * (x * y) v := by
  rw [onShuffle_mul]
  have h : ∀ i j, x.onShuffle (u.take i) (v.take j) * y.onShuffle (u.drop i) (v.drop j) =
      x (u.take i) * (1 : Series α K) (v.take j) * (y (u.drop i) * (1 : Series α K) (v.drop j)) +
      x (u.take i) * (1 : Series α K) (v.take j) * ((1 : Series α K) (u.drop i) * y (v.drop j)) +
      (1 : Series α K) (u.take i) * x (v.take j) * (y (u.drop i) * (1 : Series α K) (v.drop j)) +
      (1 : Series α K) (u.take i) * x (v.take j) * ((1 : Series α K) (u.drop i) * y (v.drop j)) := by
    intro i j
    rw [(hx _).apply _ _ le_rfl, (hy _).apply _ _ le_rfl]
    ring
  simp only [h, sum_add_distrib, sum_sum_tensor, mul_one, one_mul]

theorem IsLie.primitive [DecidableEq α] {x : Series α K} (h : IsLie x) : Primitive x := by
  induction h with
  | letter a =>
    refine fun N => ⟨(IsLie.letter a).nil, fun u v hu hv _ => ?_⟩
    unfold onShuffle
    refine List.sum_eq_zero ?_
    intro c hc
    rw [List.mem_map] at hc
    obtain ⟨z, hz, rfl⟩ := hc
    have := shuffles_length u v z hz
    have h1 := List.length_pos_iff.2 hu
    have h2 := List.length_pos_iff.2 hv
    unfold Series.letter
    rw [if_neg]
    rintro rfl
    simp at this; omega
  | zero => exact fun N => ⟨rfl, fun u v _ _ _ => onShuffle_zero u v⟩
  | add _ _ h1 h2 =>
    refine fun N => ⟨by rw [add_apply, (h1 N).1, (h2 N).1, add_zero], fun u v hu hv hl => ?_⟩
    rw [onShuffle_add, (h1 N).2 u v hu hv hl, (h2 N).2 u v hu hv hl, add_zero]
  | smul c _ h1 =>
    refine fun N => ⟨by rw [smul_apply, (h1 N).1, mul_zero], fun u v hu hv hl => ?_⟩
    rw [onShuffle_smul, (h1 N).2 u v hu hv hl, mul_zero]
  | bracket h1' h2' h1 h2 =>
    refine fun N => ⟨(IsLie.bracket h1' h2').nil, fun u v hu hv hl => ?_⟩
    rw [onShuffle_sub, prim_mul h1 h2, prim_mul h2 h1]
    obtain ⟨a, u, rfl⟩ := List.exists_cons_of_ne_nil hu
    obtain ⟨b, v, rfl⟩ := List.exists_cons_of_ne_nil hv
    rw [one_cons, one_cons]
    ring

/-- binomial formula for the powers of a series that is primitive in low degrees -/
theorem onShuffle_pow {N : ℕ} {x : Series α K} (hx : PrimUpTo N x) (n : ℕ) (u v : List α)
    (hl : u.length + v.length ≤ N + 1) (h1 : n = 1 → u.length + v.length ≤ N) :
    (x ^ n).onShuffle u v = ∑ ij ∈ antidiagonal n, (n.choose ij.1 : K) *
      ((x ^ ij.1) u * (x ^ ij.2) v) := by
  induction n generalizing u v with
  | zero => simp [onShuffle_one]
  | succ n ih =>
    rcases Nat.eq_zero_or_pos n with rfl | hn
    · rw [zero_add, pow_one, hx.apply u v (h1 rfl)]
      simp [Finset.Nat.antidiagonal_succ, add_comm]
    · rw [pow_succ, onShuffle_mul]
      have hnil : ∀ i, 0 < i → (x ^ i) [] = 0 := fun i hi => by
        rw [pow_nil, hx.1, zero_pow (by omega)]
      have term : ∀ i ∈ range (u.length + 1), ∀ j ∈ range (v.length + 1),
          (x ^ n).onShuffle (u.take i) (v.take j) * x.onShuffle (u.drop i) (v.drop j) =
          ∑ kl ∈ antidiagonal n, (n.choose kl.1 : K) *
            ((x ^ kl.1) (u.take i) * (x ^ kl.2) (v.take j) *
              (x (u.drop i) * (1 : Series α K) (v.drop j)) +
            (x ^ kl.1) (u.take i) * (x ^ kl.2) (v.take j) *
              ((1 : Series α K) (u.drop i) * x (v.drop j))) := by
        intro i hi j hj
        rw [mem_range] at hi hj
        by_cases hfull : i + j ≤ N
        · have hI := ih (u.take i) (v.take j) (by simp; omega) (by simp; omega)
          rw [hI, sum_mul]
          by_cases h0 : u.length - i + (v.length - j) ≤ N
          · rw [hx.apply (u.drop i) (v.drop j) (by simp; omega)]
            exact sum_congr rfl fun kl _ => by ring
          · have hi0 : i = 0 := by omega
            have hj0 : j = 0 := by omega
            subst hi0 hj0
            refine sum_congr rfl fun kl hkl => ?_
            rw [mem_antidiagonal] at hkl
            rw [List.take_zero, List.take_zero]
            rcases Nat.eq_zero_or_pos kl.1 with h | h
            · rw [hnil kl.2 (by omega)]; ring
            · rw [hnil kl.1 h]; ring
        · have hiu : i = u.length := by omega
          have hjv : j = v.length := by omega
          subst hiu hjv
          rw [List.drop_length, List.drop_length, onShuffle_nil_left, hx.1]
          simp
      rw [sum_congr rfl fun i hi => sum_congr rfl fun j hj => term i hi j hj]
      have swap : ∀ F : ℕ → ℕ → ℕ × ℕ → K, ∑ i ∈ range (u.length + 1),
          ∑ j ∈ range (v.length + 1), ∑ kl ∈ antidiagonal n, F i j kl =
          ∑ kl ∈ antidiagonal n, ∑ i ∈ range (u.length + 1), ∑ j ∈ range (v.length + 1),
            F i j kl := by
        intro F
        rw [sum_comm]
        rw [sum_congr rfl fun j _ => sum_comm, sum_comm]
        exact sum_congr rfl fun kl _ => sum_comm
      rw [swap, Finset.sum_antidiagonal_choose_succ_mul (fun i j => (x ^ i) u * (x ^ j) v) n,
        ← sum_add_distrib]
      refine sum_congr rfl fun kl hkl => ?_
      rw [mem_antidiagonal] at hkl
      have hch : n.choose kl.2 = n.choose kl.1 := by
        rw [← hkl, Nat.choose_symm_add]
      simp only [← mul_sum, sum_add_distrib, sum_sum_tensor, mul_one, ← pow_succ, hch]
      ring

end prim

section char0
variable {α K : Type*} [Field K] [CharZero K]

theorem texp_eqUpTo {x : Series α K} (hx : x [] = 0) (L : ℕ) :
    EqUpTo L (texp x) (∑ n ∈ range (L + 1), ((n.factorial : K)⁻¹) • x ^ n) := by
  intro u hu
  rw [sum_apply, texp_apply]
  refine sum_subset (range_subset_range.2 (by omega)) fun n _ hn => ?_
  rw [pow_apply_eq_zero hx n u (by simpa using hn), mul_zero]

theorem choose_div_factorial {n : ℕ} {kl : ℕ × ℕ} (h : kl ∈ antidiagonal n) :
    ((n.factorial : K)⁻¹) * (n.choose kl.1 : K) =
      ((kl.1.factorial : K)⁻¹) * ((kl.2.factorial : K)⁻¹) := by
  rw [mem_antidiagonal] at h
  subst h
  have h := Nat.add_choose_mul_factorial_mul_factorial kl.1 kl.2
  rw [Nat.choose_symm_add.symm] at h
  have h1 : ((kl.1.factorial : ℕ) : K) ≠ 0 := by exact_mod_cast kl.1.factorial_ne_zero
  have h2 : ((kl.2.factorial : ℕ) : K) ≠ 0 := by exact_mod_cast kl.2.factorial_ne_zero
  have h3 : (((kl.1 + kl.2).factorial : ℕ) : K) ≠ 0 := by
    exact_mod_cast (kl.1 + kl.2).factorial_ne_zero
  have h' : (((kl.1 + kl.2).choose kl.1 : ℕ) : K) * (kl.1.factorial : K) * (kl.2.factorial : K) =
      ((kl.1 + kl.2).factorial : K) := by exact_mod_cast h
  field_simp
  linear_combination h'

/-- the sum of the binomial expressions is the product of the exponentials -/
theorem sum_binomial {x : Series α K} (hx : x [] = 0) (u v : List α) {L : ℕ}
    (hL : u.length + v.length ≤ L) :
    ∑ n ∈ range (L + 1), ((n.factorial : K)⁻¹) * ∑ ij ∈ antidiagonal n, (n.choose ij.1 : K) *
      ((x ^ ij.1) u * (x ^ ij.2) v) = texp x u * texp x v := by
  rw [(texp_eqUpTo hx L) u (by omega), (texp_eqUpTo hx L) v (by omega), sum_apply, sum_apply,
    sum_mul_sum]
  rw [sum_triangle (fun ij : ℕ × ℕ => (((ij.1.factorial : K)⁻¹) • x ^ ij.1) u *
    (((ij.2.factorial : K)⁻¹) • x ^ ij.2) v)]
  · refine sum_congr rfl fun n _ => ?_
    rw [mul_sum]
    refine sum_congr rfl fun ij hij => ?_
    rw [← mul_assoc, choose_div_factorial hij, smul_apply, smul_apply]
    ring
  · intro i j hij
    dsimp only
    rw [smul_apply, smul_apply]
    rcases Nat.lt_or_ge u.length i with h | h
    · rw [pow_apply_eq_zero hx i u h]; ring
    · rw [pow_apply_eq_zero hx j v (by omega)]; ring

theorem Primitive.groupLike_texp {x : Series α K} (h : Primitive x) : GroupLike (texp x) := by
  refine ⟨texp_nil x, fun u v => ?_⟩
  have hx := (h 0).1
  set L := u.length + v.length with hL
  rw [onShuffle_congr (texp_eqUpTo hx L) (u := u) (v := v) le_rfl, onShuffle_sum,
    ← sum_binomial hx u v (L := L) le_rfl]
  refine sum_congr rfl fun n _ => ?_
  rw [onShuffle_smul, onShuffle_pow (h L) n u v (by omega) (by omega)]

theorem GroupLike.mul {f g : Series α K} (hf : GroupLike f) (hg : GroupLike g) :
    GroupLike (f * g) := by
  refine ⟨by rw [mul_nil, hf.1, hg.1, mul_one], fun u v => ?_⟩
  rw [onShuffle_mul, ← sum_sum_tensor]
  refine sum_congr rfl fun i _ => sum_congr rfl fun j _ => ?_
  rw [hf.2, hg.2]

theorem groupLike_one : GroupLike (1 : Series α K) := ⟨rfl, onShuffle_one⟩

theorem GroupLike.primitive_tlog {g : Series α K} (hg : GroupLike g) : Primitive (tlog g) := by
  set x := tlog g with hx
  have hx0 : x [] = 0 := tlog_nil g
  have hgx : texp x = g := texp_tlog hg.1
  intro N
  induction N with
  | zero =>
    refine ⟨hx0, fun u v hu hv hl => ?_⟩
    have h1 := List.length_pos_iff.2 hu
    omega
  | succ N ih =>
    refine ⟨hx0, fun u v hu hv hl => ?_⟩
    by_cases hle : u.length + v.length ≤ N
    · exact ih.2 u v hu hv hle
    have h1 := List.length_pos_iff.2 hu
    have h2 := List.length_pos_iff.2 hv
    have hgl := hg.2 u v
    rw [← hgx] at hgl
    set L := u.length + v.length with hL
    rw [onShuffle_congr (texp_eqUpTo hx0 L) (u := u) (v := v) le_rfl, onShuffle_sum,
      ← sum_binomial hx0 u v (L := L) le_rfl, ← sub_eq_zero, ← sum_sub_distrib,
      sum_eq_single 1] at hgl
    · rw [onShuffle_smul, pow_one] at hgl
      obtain ⟨a, u, rfl⟩ := List.exists_cons_of_ne_nil hu
      obtain ⟨b, v, rfl⟩ := List.exists_cons_of_ne_nil hv
      simpa [Finset.Nat.antidiagonal_succ, one_cons] using hgl
    · intro n _ hn
      rw [onShuffle_smul, onShuffle_pow ih n u v (by omega) (fun h => absurd h hn), sub_self]
    · intro h
      exact absurd (mem_range.2 (by omega)) h

end char0

end RoughPy.Tensor.Series
