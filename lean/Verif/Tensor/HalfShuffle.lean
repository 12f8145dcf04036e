import Verif.Lite.ShuffleSpec
import Verif.Tensor.WordShuffle
import Verif.Tensor.Dynkin
import Verif.Tensor.ComputeLemmas

/-! # Half shuffles of series -/

set_option linter.unusedSectionVars false

namespace RoughPy.Tensor.Series

variable {α : Type} {K : Type} [CommRing K]

theorem leftHalf_nil (f g : Series α K) : leftHalf f g [] = 0 := rfl

theorem leftHalf_cons (f g : Series α K) (a : α) (u : List α) :
    leftHalf f g (a :: u) = shuffle (ld a f) g u := rfl

theorem rightHalf_nil (f g : Series α K) : rightHalf f g [] = 0 := rfl

theorem rightHalf_concat (f g : Series α K) (a : α) (u : List α) :
    rightHalf f g (u ++ [a]) = shuffle f (rd a g) u := by
  unfold rightHalf
  rw [List.getLast?_concat, List.dropLast_concat]
  rfl

theorem shuffle_concat (f g : Series α K) (a : α) (u : List α) :
    shuffle f g (u ++ [a]) = shuffle (rd a f) g u + shuffle f (rd a g) u := by
  induction u generalizing f g with
  | nil => rw [List.nil_append, shuffle_cons]; rfl
  | cons b u ih =>
    rw [List.cons_append, shuffle_cons, shuffle_cons, shuffle_cons, ih, ih]
    exact add_add_add_comm _ _ _ _

theorem leftHalf_add_swap (f g : Series α K) :
    leftHalf f g + leftHalf g f = shuffle f g - (f [] * g []) • (1 : Series α K) := by
  funext u
  cases u with
  | nil =>
    rw [Series.add_apply, Series.sub_apply, Series.smul_apply, shuffle_nil, leftHalf_nil, leftHalf_nil,
      one_nil]
    ring
  | cons a u =>
    rw [Series.add_apply, Series.sub_apply, Series.smul_apply, leftHalf_cons, leftHalf_cons,
      shuffle_cons, one_cons, mul_zero, sub_zero, shuffle_comm (ld a g)]

theorem rightHalf_add_swap (f g : Series α K) :
    rightHalf f g + rightHalf g f = shuffle f g - (f [] * g []) • (1 : Series α K) := by
  funext u
  rcases List.eq_nil_or_concat' u with rfl | ⟨u, a, rfl⟩
  · rw [Series.add_apply, Series.sub_apply, Series.smul_apply, shuffle_nil, rightHalf_nil,
      rightHalf_nil, one_nil]
    ring
  · rw [Series.add_apply, Series.sub_apply, Series.smul_apply, rightHalf_concat, rightHalf_concat,
      shuffle_concat]
    have : (1 : Series α K) (u ++ [a]) = 0 := by
      cases u <;> exact one_cons _ _
    rw [this, mul_zero, sub_zero, shuffle_comm g, add_comm]

theorem leftHalf_add_swap_of {f g : Series α K} (h : f [] * g [] = 0) :
    leftHalf f g + leftHalf g f = shuffle f g := by
  rw [leftHalf_add_swap, h, zero_smul, sub_zero]

theorem rightHalf_add_swap_of {f g : Series α K} (h : f [] * g [] = 0) :
    rightHalf f g + rightHalf g f = shuffle f g := by
  rw [rightHalf_add_swap, h, zero_smul, sub_zero]

/-- the identity of half shuffles -/
theorem leftHalf_leftHalf (f g h : Series α K) :
    leftHalf (leftHalf f g) h = leftHalf f (shuffle g h) := by
  funext u
  cases u with
  | nil => rfl
  | cons a u =>
    rw [leftHalf_cons, leftHalf_cons, ← shuffle_assoc]
    rfl

/-! ### Bilinearity -/

theorem leftHalf_add_left (f f' g : Series α K) :
    leftHalf (f + f') g = leftHalf f g + leftHalf f' g := by
  funext u
  cases u with
  | nil => rw [Series.add_apply, leftHalf_nil, leftHalf_nil, leftHalf_nil, add_zero]
  | cons a u =>
    rw [Series.add_apply, leftHalf_cons, leftHalf_cons, leftHalf_cons, ← Series.add_apply,
      ← shuffle_add_left]
    rfl

theorem leftHalf_add_right (f g g' : Series α K) :
    leftHalf f (g + g') = leftHalf f g + leftHalf f g' := by
  funext u
  cases u with
  | nil => rw [Series.add_apply, leftHalf_nil, leftHalf_nil, leftHalf_nil, add_zero]
  | cons a u =>
    rw [Series.add_apply, leftHalf_cons, leftHalf_cons, leftHalf_cons, ← Series.add_apply,
      ← shuffle_add_right]

theorem leftHalf_smul_left (c : K) (f g : Series α K) :
    leftHalf (c • f) g = c • leftHalf f g := by
  funext u
  cases u with
  | nil => rw [Series.smul_apply, leftHalf_nil, leftHalf_nil, mul_zero]
  | cons a u =>
    rw [Series.smul_apply, leftHalf_cons, leftHalf_cons, ← Series.smul_apply, ← shuffle_smul_left]
    rfl

theorem leftHalf_smul_right (c : K) (f g : Series α K) :
    leftHalf f (c • g) = c • leftHalf f g := by
  funext u
  cases u with
  | nil => rw [Series.smul_apply, leftHalf_nil, leftHalf_nil, mul_zero]
  | cons a u =>
    rw [Series.smul_apply, leftHalf_cons, leftHalf_cons, ← Series.smul_apply, ← shuffle_smul_right]

theorem leftHalf_congr {D : ℕ} {f f' g g' : Series α K} (h1 : EqUpTo D f f') (h2 : EqUpTo D g g') :
    EqUpTo D (leftHalf f g) (leftHalf f' g') := by
  intro u hu
  cases u with
  | nil => rfl
  | cons a u =>
    have hu' : u.length + 1 ≤ D := hu
    rw [leftHalf_cons, leftHalf_cons]
    exact shuffle_congr (D := u.length) (fun v hv => h1 (a :: v) (by simp only [List.length_cons]; omega))
      (fun v hv => h2 v (by omega)) u le_rfl

theorem rightHalf_add_left (f f' g : Series α K) :
    rightHalf (f + f') g = rightHalf f g + rightHalf f' g := by
  funext u
  rcases List.eq_nil_or_concat' u with rfl | ⟨u, a, rfl⟩
  · rw [Series.add_apply, rightHalf_nil, rightHalf_nil, rightHalf_nil, add_zero]
  · rw [Series.add_apply, rightHalf_concat, rightHalf_concat, rightHalf_concat, ← Series.add_apply,
      ← shuffle_add_left]

theorem rightHalf_add_right (f g g' : Series α K) :
    rightHalf f (g + g') = rightHalf f g + rightHalf f g' := by
  funext u
  rcases List.eq_nil_or_concat' u with rfl | ⟨u, a, rfl⟩
  · rw [Series.add_apply, rightHalf_nil, rightHalf_nil, rightHalf_nil, add_zero]
  · rw [Series.add_apply, rightHalf_concat, rightHalf_concat, rightHalf_concat, ← Series.add_apply,
      ← shuffle_add_right]
    rfl

theorem rightHalf_smul_left (c : K) (f g : Series α K) :
    rightHalf (c • f) g = c • rightHalf f g := by
  funext u
  rcases List.eq_nil_or_concat' u with rfl | ⟨u, a, rfl⟩
  · rw [Series.smul_apply, rightHalf_nil, rightHalf_nil, mul_zero]
  · rw [Series.smul_apply, rightHalf_concat, rightHalf_concat, ← Series.smul_apply,
      ← shuffle_smul_left]

theorem rightHalf_smul_right (c : K) (f g : Series α K) :
    rightHalf f (c • g) = c • rightHalf f g := by
  funext u
  rcases List.eq_nil_or_concat' u with rfl | ⟨u, a, rfl⟩
  · rw [Series.smul_apply, rightHalf_nil, rightHalf_nil, mul_zero]
  · rw [Series.smul_apply, rightHalf_concat, rightHalf_concat, ← Series.smul_apply,
      ← shuffle_smul_right]
    rfl

theorem rightHalf_congr {D : ℕ} {f f' g g' : Series α K} (h1 : EqUpTo D f f') (h2 : EqUpTo D g g') :
    EqUpTo D (rightHalf f g) (rightHalf f' g') := by
  intro u hu
  rcases List.eq_nil_or_concat' u with rfl | ⟨u, a, rfl⟩
  · rfl
  · rw [List.length_append, List.length_singleton] at hu
    rw [rightHalf_concat, rightHalf_concat]
    exact shuffle_congr (D := u.length) (fun v hv => h1 v (by omega))
      (fun v hv => h2 (v ++ [a]) (by rw [List.length_append, List.length_singleton]; omega)) u le_rfl

/-! ### Words -/

variable [DecidableEq α]

theorem leftHalf_word_nil (g : Series α K) : leftHalf (word K []) g = 0 := by
  funext u
  cases u with
  | nil => rfl
  | cons a u =>
    rw [leftHalf_cons, ld_word, shuffle_zero_left]
    rfl

theorem leftHalf_word_cons (a : α) (u : List α) (g : Series α K) :
    leftHalf (word K (a :: u)) g = letter K a * shuffle (word K u) g := by
  funext z
  cases z with
  | nil => rw [leftHalf_nil, mul_nil]; simp [letter]
  | cons b z =>
    rw [leftHalf_cons, letter_mul_cons, ld_word]
    dsimp only
    split_ifs
    · rfl
    · rw [shuffle_zero_left]; rfl

theorem rd_word (b a : α) (v : List α) :
    rd b (word K (v ++ [a])) = if b = a then word K v else 0 := by
  funext z
  show (if z ++ [b] = v ++ [a] then (1 : K) else 0) = _
  by_cases h : b = a
  · subst h
    rw [if_pos rfl]
    exact if_congr (by simp) rfl rfl
  · rw [if_neg h, if_neg]
    · rfl
    · intro hz
      exact h (by simpa using (List.append_inj' hz rfl).2)

theorem rightHalf_word_concat (a : α) (v : List α) (f : Series α K) :
    rightHalf f (word K (v ++ [a])) = shuffle f (word K v) * letter K a := by
  funext z
  rcases List.eq_nil_or_concat' z with rfl | ⟨z, b, rfl⟩
  · rw [rightHalf_nil, mul_nil]; simp [letter]
  · rw [rightHalf_concat, mul_letter_concat, rd_word]
    split_ifs
    · rfl
    · rw [shuffle_zero_right]; rfl

theorem rightHalf_word_nil (f : Series α K) : rightHalf f (word K []) = 0 := by
  funext z
  rcases List.eq_nil_or_concat' z with rfl | ⟨z, b, rfl⟩
  · rfl
  · have : rd b (word K ([] : List α)) = 0 := by
      funext y
      show (if y ++ [b] = [] then (1 : K) else 0) = 0
      rw [if_neg (by simp)]
    rw [rightHalf_concat, this, shuffle_zero_right]
    rfl

theorem word_nil_apply {u : List α} (hu : u ≠ []) : word K u [] = 0 := by
  unfold word
  rw [if_neg fun h => hu h.symm]

/-- shuffles of words are homogeneous -/
theorem shuffle_word_eq_zero {u v z : List α} (h : z.length ≠ u.length + v.length) :
    shuffle (word K u) (word K v) z = 0 := by
  rw [shuffle_word, List.count_eq_zero_of_not_mem, Nat.cast_zero]
  exact fun hz => h (shuffles_length u v z hz)

end RoughPy.Tensor.Series
