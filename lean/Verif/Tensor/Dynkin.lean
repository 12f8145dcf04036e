import Verif.Tensor.Hopf
import Verif.Tensor.Adjoint

/-!
# The Dynkin operator

`rb (a u) = [a, rb u]`.  For a primitive series `p` the sum of `p u · rb u` over the words of length `n` is `n · p` on
the words of length `n` (Dynkin, Specht, Wever).
-/

set_option linter.unusedSectionVars false

open Finset

namespace RoughPy.Tensor.Series

variable {α K : Type*} [CommRing K]

/-- Right derivative. -/
def rd (a : α) (f : Series α K) : Series α K := fun u => f (u ++ [a])

theorem ld_rd (a b : α) (f : Series α K) : ld a (rd b f) = rd b (ld a f) := rfl

/-- The last letter of an interleaving is the last letter of one of the two words. -/
theorem onShuffle_concat (f : Series α K) (a b : α) (u v : List α) :
    f.onShuffle (u ++ [a]) (v ++ [b]) =
      (rd a f).onShuffle u (v ++ [b]) + (rd b f).onShuffle (u ++ [a]) v := by
  induction hn : u.length + v.length using Nat.strong_induction_on generalizing f u v with
  | _ n ih =>
    cases u with
    | nil =>
      cases v with
      | nil =>
        simp only [List.nil_append]
        rw [onShuffle_cons, onShuffle_nil_left, onShuffle_nil_right, onShuffle_nil_left, onShuffle_nil_right, add_comm]
        rfl
      | cons d v =>
        have h := ih v.length (by simp at hn; omega) (ld d f) [] v (by simp)
        simp only [List.nil_append, List.cons_append] at h ⊢
        rw [onShuffle_cons, h, onShuffle_cons (rd b f), onShuffle_nil_left, onShuffle_nil_left, onShuffle_nil_left,
          onShuffle_nil_left]
        simp only [ld, rd, List.cons_append]
        exact add_left_comm _ _ _
    | cons c u =>
      cases v with
      | nil =>
        have h := ih u.length (by simp at hn; omega) (ld c f) u [] (by simp)
        simp only [List.nil_append, List.cons_append] at h ⊢
        rw [onShuffle_cons, h, onShuffle_cons (rd a f), onShuffle_nil_right, onShuffle_nil_right, onShuffle_nil_right,
          onShuffle_nil_right]
        simp only [ld, rd, List.cons_append]
        rw [add_right_comm]
        rfl
      | cons d v =>
        have h1 := ih (u.length + (v.length + 1)) (by simp at hn; omega) (ld c f) u (d :: v) (by simp)
        have h2 := ih (u.length + 1 + v.length) (by simp at hn; omega) (ld d f) (c :: u) v (by simp)
        simp only [List.cons_append] at h1 h2 ⊢
        rw [onShuffle_cons, h1, h2, onShuffle_cons (rd a f), onShuffle_cons (rd b f)]
        simp only [ld_rd]
        exact add_add_add_comm _ _ _ _

theorem letter_mul_cons [DecidableEq α] (a c : α) (f : Series α K) (u : List α) :
    (letter K a * f) (c :: u) = if c = a then f u else 0 := by
  rw [mul_apply, Finset.sum_eq_single 1]
  · simp only [List.take_succ_cons, List.take_zero, List.drop_succ_cons, List.drop_zero, letter]
    by_cases h : c = a
    · simp [h]
    · simp [h]
  · intro k _ hk
    unfold letter
    rw [if_neg, zero_mul]
    intro h
    have := congrArg List.length h
    rw [List.length_take] at this
    simp at this
    rename_i hm
    simp only [List.length_cons, mem_range] at hm
    have hu : u = [] ∨ u ≠ [] := em _
    rcases hu with rfl | hu
    · simp at *
      rcases k with _ | k
      · simp at h
      · simp at hm hk; omega
    · have : 0 < u.length := List.length_pos_iff.2 hu
      omega
  · intro h
    exact absurd (mem_range.2 (by simp)) h

theorem mul_letter_concat [DecidableEq α] (a c : α) (f : Series α K) (u : List α) :
    (f * letter K a) (u ++ [c]) = if c = a then f u else 0 := by
  rw [mul_apply, Finset.sum_eq_single u.length]
  · rw [List.take_left, List.drop_left]
    unfold letter
    by_cases h : c = a
    · simp [h]
    · simp [h]
  · intro k hm hk
    unfold letter
    rw [if_neg, mul_zero]
    intro h
    have := congrArg List.length h
    simp only [List.length_drop, List.length_append, List.length_singleton, mem_range] at this hm
    omega
  · intro h
    exact absurd (mem_range.2 (by simp)) h

variable [DecidableEq α]

/-- Right-nested brackets of the letters of a word. -/
def rb (K : Type*) [CommRing K] : List α → Series α K
  | [] => 0
  | [a] => letter K a
  | a :: b :: u => letter K a * rb K (b :: u) - rb K (b :: u) * letter K a

theorem rb_isLie (u : List α) : IsLie (rb K u) := by
  induction u with
  | nil => exact .zero
  | cons a u ih =>
    cases u with
    | nil => exact .letter a
    | cons b u => exact .bracket (.letter a) ih

theorem rb_cons (a : α) {u : List α} (hu : u ≠ []) : rb K (a :: u) = letter K a * rb K u - rb K u * letter K a := by
  cases u with
  | nil => exact absurd rfl hu
  | cons b u => rfl

theorem rb_ne_length (u z : List α) (h : u.length ≠ z.length) : rb K u z = 0 := by
  induction u generalizing z with
  | nil => rfl
  | cons a u ih =>
    by_cases hu : u = []
    · subst hu
      change (if z = [a] then (1 : K) else 0) = 0
      rw [if_neg]
      rintro rfl
      exact h rfl
    · rw [rb_cons a hu, sub_apply]
      rcases List.eq_nil_or_concat z with rfl | ⟨z', b, rfl⟩
      · rw [mul_nil, mul_nil]; simp [letter]
      · rw [List.concat_eq_append] at *
        rw [mul_letter_concat, ih z' (by simp at h; omega), ite_self, sub_zero]
        cases hz : z' ++ [b] with
        | nil => simp at hz
        | cons c y =>
          rw [hz] at h
          rw [letter_mul_cons, ih y (by simp at h; omega), ite_self]

/-- The `i`-th letter of `z` in the centre. -/
def centre (p : Series α K) (z : List α) (i : ℕ) : K :=
  match z.drop i with
  | [] => 0
  | a :: y => (rd a p).onShuffle (z.take i) y.reverse

theorem centre_eq (p : Series α K) (x : List α) (a : α) (y : List α) :
    centre p (x ++ a :: y) x.length = (rd a p).onShuffle x y.reverse := by
  unfold centre
  rw [List.drop_left, List.take_left]

variable [Fintype α]

/-- Peel the letters off the two ends. -/
theorem sumWords_rb (p : Series α K) (z : List α) (hz : z ≠ []) :
    sumWords z.length (fun u => p u * rb K u z) =
      ∑ i ∈ range z.length, (-1) ^ (z.length - 1 - i) * centre p z i := by
  induction hn : z.length using Nat.strong_induction_on generalizing p z with
  | _ n ih =>
    cases z with
    | nil => exact absurd rfl hz
    | cons c z' =>
      rcases List.eq_nil_or_concat z' with rfl | ⟨m, b, rfl⟩
      · subst hn
        have hs : ∀ a : α, p [a] * rb K [a] [c] = if a = c then p [c] else 0 := by
          intro a
          change p [a] * (if [c] = [a] then (1 : K) else 0) = _
          by_cases h : a = c
          · subst h; simp
          · rw [if_neg h, if_neg (by simpa using fun e => h e.symm), mul_zero]
        change ∑ a : α, p [a] * rb K [a] [c] = _
        rw [sum_congr rfl fun a _ => hs a, sum_ite_eq' univ c, if_pos (mem_univ _)]
        have : centre p [c] 0 = p [c] := by
          have := centre_eq p [] c []
          simp only [List.nil_append, List.length_nil, List.reverse_nil] at this
          rw [this, onShuffle_nil_left]
          rfl
        simp [this]
      · rw [List.concat_eq_append] at *
        have hlen : n = m.length + 2 := by rw [← hn]; simp
        subst hlen
        have hL : sumWords (m.length + 2) (fun u => p u * rb K u (c :: (m ++ [b]))) =
            sumWords (m.length + 1) (fun u => ld c p u * rb K u (m ++ [b])) -
            sumWords (m.length + 1) (fun u => ld b p u * rb K u (c :: m)) := by
          change ∑ a : α, sumWords (m.length + 1) (fun u => p (a :: u) * rb K (a :: u) (c :: (m ++ [b]))) = _
          have hs : ∀ a : α, sumWords (m.length + 1) (fun u => p (a :: u) * rb K (a :: u) (c :: (m ++ [b]))) =
              (if c = a then sumWords (m.length + 1) (fun u => ld c p u * rb K u (m ++ [b])) else 0) +
              (if b = a then - sumWords (m.length + 1) (fun u => ld b p u * rb K u (c :: m)) else 0) := by
            intro a
            have h1 : sumWords (m.length + 1) (fun u => p (a :: u) * rb K (a :: u) (c :: (m ++ [b]))) =
                sumWords (m.length + 1) (fun u => (if c = a then (1 : K) else 0) * (ld c p u * rb K u (m ++ [b])) +
                  (if b = a then (-1 : K) else 0) * (ld b p u * rb K u (c :: m))) := by
              refine sumWords_congr fun u hu => ?_
              have hu0 : u ≠ [] := by rintro rfl; simp at hu
              rw [rb_cons a hu0, sub_apply, letter_mul_cons]
              have hm := mul_letter_concat (K := K) a b (rb K u) (c :: m)
              rw [List.cons_append] at hm
              rw [hm]
              by_cases h1 : c = a
              · by_cases h2 : b = a
                · subst h1; subst h2; simp [ld]; ring
                · subst h1; simp [ld, h2]
              · by_cases h2 : b = a
                · subst h2; simp [ld, h1]
                · simp [h1, h2]
            rw [h1, sumWords_add_fun, sumWords_mul_left, sumWords_mul_left]
            congr 1
            · by_cases h : c = a <;> simp [h]
            · by_cases h : b = a <;> simp [h]
          rw [sum_congr rfl fun a _ => hs a, sum_add_distrib, sum_ite_eq, sum_ite_eq, if_pos (mem_univ _),
            if_pos (mem_univ _), sub_eq_add_neg]
        have ih1 := ih (m.length + 1) (by omega) (ld c p) (m ++ [b]) (by simp) (by simp)
        have ih2 := ih (m.length + 1) (by omega) (ld b p) (c :: m) (by simp) (by simp)
        rw [hL, ih1, ih2]
        -- the recursion of the centres
        have hc : ∀ i, i < m.length + 2 → centre p (c :: (m ++ [b])) i =
            (if 0 < i then centre (ld c p) (m ++ [b]) (i - 1) else 0) +
            (if i < m.length + 1 then centre (ld b p) (c :: m) i else 0) := by
          intro i hi
          by_cases hi1 : i = m.length + 1
          · subst hi1
            have e0 := centre_eq p (c :: m) b []
            have e1 := centre_eq (ld c p) m b []
            simp only [List.reverse_nil, onShuffle_nil_right, List.cons_append, List.length_cons] at e0 e1
            rw [e0, if_pos (by omega), if_neg (by omega), Nat.add_sub_cancel, e1, add_zero]
            rfl
          · rw [if_pos (show i < m.length + 1 by omega)]
            cases i with
            | zero =>
              have e0 := centre_eq p [] c (m ++ [b])
              have e2 := centre_eq (ld b p) [] c m
              simp only [List.nil_append, List.length_nil, onShuffle_nil_left] at e0 e2
              rw [e0, e2, if_neg (by omega), zero_add, List.reverse_append]
              rfl
            | succ i =>
              rw [if_pos (by omega), Nat.add_sub_cancel]
              have him : i < m.length := by omega
              obtain ⟨x, a, y, rfl, hx⟩ : ∃ x a y, m = x ++ a :: y ∧ x.length = i :=
                ⟨m.take i, m[i], m.drop (i + 1), by rw [List.getElem_cons_drop, List.take_append_drop], by simp; omega⟩
              subst hx
              have e0 := centre_eq p (c :: x) a (y ++ [b])
              have e1 := centre_eq (ld c p) x a (y ++ [b])
              have e2 := centre_eq (ld b p) (c :: x) a y
              simp only [List.cons_append, List.length_cons, List.reverse_append, List.reverse_cons, List.reverse_nil,
                List.nil_append] at e0 e1 e2
              simp only [List.append_assoc, List.cons_append]
              rw [e0, e1, e2, onShuffle_cons]
              rfl
        have hsum : ∑ i ∈ range (m.length + 2), (-1 : K) ^ (m.length + 2 - 1 - i) * centre p (c :: (m ++ [b])) i =
            ∑ i ∈ range (m.length + 2), ((-1 : K) ^ (m.length + 2 - 1 - i) *
              (if 0 < i then centre (ld c p) (m ++ [b]) (i - 1) else 0) +
              (-1 : K) ^ (m.length + 2 - 1 - i) * (if i < m.length + 1 then centre (ld b p) (c :: m) i else 0)) :=
          sum_congr rfl fun i hi => by rw [hc i (mem_range.1 hi), mul_add]
        rw [hsum, sum_add_distrib]
        have s1 : ∑ i ∈ range (m.length + 2), (-1 : K) ^ (m.length + 2 - 1 - i) *
            (if 0 < i then centre (ld c p) (m ++ [b]) (i - 1) else 0) =
            ∑ i ∈ range (m.length + 1), (-1) ^ (m.length + 1 - 1 - i) * centre (ld c p) (m ++ [b]) i := by
          rw [sum_range_succ' _ (m.length + 1), if_neg (by omega), mul_zero, add_zero]
          refine sum_congr rfl fun i _ => ?_
          rw [if_pos (by omega), Nat.add_sub_cancel]
          congr 2
          omega
        have s2 : ∑ i ∈ range (m.length + 2), (-1 : K) ^ (m.length + 2 - 1 - i) *
            (if i < m.length + 1 then centre (ld b p) (c :: m) i else 0) =
            -∑ i ∈ range (m.length + 1), (-1) ^ (m.length + 1 - 1 - i) * centre (ld b p) (c :: m) i := by
          rw [sum_range_succ _ (m.length + 1), if_neg (by omega), mul_zero, add_zero, ← sum_neg_distrib]
          refine sum_congr rfl fun i hi => ?_
          have hi := mem_range.1 hi
          rw [if_pos hi, show m.length + 2 - 1 - i = (m.length + 1 - 1 - i) + 1 by omega, pow_succ]
          ring
        rw [s1, s2, sub_eq_add_neg]

omit [Fintype α] in
/-- On a primitive series all centres give the same up to sign. -/
theorem PrimUpTo.centre {N : ℕ} {p : Series α K} (hp : PrimUpTo N p) {z : List α} (hz : z.length ≤ N) {i : ℕ}
    (hi : i < z.length) : Series.centre p z i = (-1) ^ (z.length - 1 - i) * p z := by
  induction hk : z.length - 1 - i generalizing i with
  | zero =>
    obtain ⟨x, a, rfl⟩ : ∃ x a, z = x ++ [a] := by
      rcases List.eq_nil_or_concat z with rfl | ⟨x, a, rfl⟩
      · simp at hi
      · exact ⟨x, a, by simp⟩
    have : i = x.length := by simp at hi hk; omega
    subst this
    rw [centre_eq, List.reverse_nil, onShuffle_nil_right]
    simp [rd]
  | succ k ih =>
    have h1 := ih (i := i + 1) (by omega) (by omega)
    obtain ⟨x, a, b, y, rfl, hx⟩ : ∃ x a b y, z = x ++ a :: b :: y ∧ x.length = i :=
      ⟨z.take i, z[i], z[i + 1], z.drop (i + 2), by
        rw [List.getElem_cons_drop (by omega), List.getElem_cons_drop (by omega), List.take_append_drop], by simp; omega⟩
    subst hx
    rw [centre_eq]
    have e1 := centre_eq p (x ++ [a]) b y
    simp only [List.append_assoc, List.singleton_append, List.length_append, List.length_singleton] at e1
    rw [e1] at h1
    have h0 := hp.2 (x ++ [a]) (b :: y).reverse (by simp) (by simp) (by simp at hz ⊢; omega)
    rw [List.reverse_cons, onShuffle_concat] at h0
    rw [h1] at h0
    rw [List.reverse_cons, pow_succ]
    linear_combination h0

/-- The Dynkin operator multiplies the primitive series by the degree. -/
theorem PrimUpTo.dynkin {N : ℕ} {p : Series α K} (hp : PrimUpTo N p) {z : List α} (hz : z.length ≤ N) :
    sumWords z.length (fun u => p u * rb K u z) = z.length * p z := by
  by_cases h0 : z = []
  · subst h0
    change p [] * 0 = ((0 : ℕ) : K) * p []
    simp
  · rw [sumWords_rb p z h0]
    have : ∀ i ∈ range z.length, (-1 : K) ^ (z.length - 1 - i) * Series.centre p z i = p z := by
      intro i hi
      rw [hp.centre hz (mem_range.1 hi), ← mul_assoc, ← mul_pow]
      simp
    rw [sum_congr rfl this, sum_const, card_range, nsmul_eq_mul]

end RoughPy.Tensor.Series
