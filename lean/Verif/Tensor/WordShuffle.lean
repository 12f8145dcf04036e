import Verif.Tensor.Hopf
import Verif.Tensor.Shuffle

/-!
# The shuffle product on words
-/

namespace RoughPy.Tensor

open Series

variable {K : Type} [CommRing K]

theorem shuffle_zero_left {α : Type} (f : Series α K) : shuffle 0 f = 0 := by
  rw [shuffle_comm, shuffle_zero_right]

theorem ld_word {α : Type} [DecidableEq α] (a : α) (u : List α) :
    ld a (Series.word K u) = match u with
      | [] => 0
      | b :: u' => if a = b then Series.word K u' else 0 := by
  cases u with
  | nil => rfl
  | cons b u' =>
    funext z
    show (if a :: z = b :: u' then (1 : K) else 0) = _
    by_cases h : a = b
    · subst h; simp [Series.word]
    · simp only [List.cons.injEq, h, false_and, if_false]; rfl

theorem count_map_cons {α : Type} [DecidableEq α] (a b : α) (z : List α) (l : List (List α)) :
    (l.map (fun y => b :: y)).count (a :: z) = if a = b then l.count z else 0 := by
  induction l with
  | nil => simp
  | cons y l ih =>
    rw [List.map_cons, List.count_cons, ih, List.count_cons]
    by_cases h : a = b
    · subst h
      simp
    · have : ¬ b = a := fun h' => h h'.symm
      simp [h, this]

theorem shuffle_word {α : Type} [DecidableEq α] (u v z : List α) :
    shuffle (Series.word K u) (Series.word K v) z = (((shuffles u v).count z : ℕ) : K) := by
  induction z generalizing u v with
  | nil =>
    rw [shuffle_nil]
    cases u with
    | nil =>
      rw [shuffles]
      cases v with
      | nil => simp [Series.word]
      | cons b v => simp [Series.word]
    | cons a u =>
      have : List.count [] (shuffles (a :: u) v) = 0 := by
        rw [List.count_eq_zero]
        intro h
        have := shuffles_length _ _ _ h
        simp only [List.length_nil, List.length_cons] at this
        omega
      rw [this]
      simp [Series.word]
  | cons c z ih =>
    rw [shuffle_cons, ld_word, ld_word]
    cases u with
    | nil =>
      rw [shuffles]
      cases v with
      | nil =>
        simp only [shuffle_zero_right, shuffle_zero_left]
        simp [Series.zero_apply]
      | cons b v =>
        simp only [shuffle_zero_left]
        rw [Series.zero_apply, zero_add, List.count_singleton]
        by_cases h : c = b
        · subst h
          rw [if_pos rfl, ih, shuffles, List.count_singleton]
          simp
        · rw [if_neg h, shuffle_zero_right, Series.zero_apply]
          have h' : ¬ b = c := fun h' => h h'.symm
          simp [h']
    | cons a u =>
      cases v with
      | nil =>
        rw [shuffles]
        simp only [shuffle_zero_right]
        rw [Series.zero_apply, add_zero, List.count_singleton]
        by_cases h : c = a
        · subst h
          rw [if_pos rfl, ih]
          cases u with
          | nil => rw [shuffles, List.count_singleton]; simp
          | cons a' u => rw [shuffles, List.count_singleton]; simp
        · rw [if_neg h, shuffle_zero_left, Series.zero_apply]
          have h' : ¬ a = c := fun h' => h h'.symm
          simp [h']
      | cons b v =>
        rw [shuffles, List.count_append, count_map_cons, count_map_cons]
        have e1 : shuffle (if c = a then Series.word K u else 0) (Series.word K (b :: v)) z =
            ((if c = a then (shuffles u (b :: v)).count z else 0 : ℕ) : K) := by
          by_cases h : c = a
          · rw [if_pos h, if_pos h, ih]
          · rw [if_neg h, if_neg h, shuffle_zero_left, Series.zero_apply, Nat.cast_zero]
        have e2 : shuffle (Series.word K (a :: u)) (if c = b then Series.word K v else 0) z =
            ((if c = b then (shuffles (a :: u) v).count z else 0 : ℕ) : K) := by
          by_cases h : c = b
          · rw [if_pos h, if_pos h, ih]
          · rw [if_neg h, if_neg h, shuffle_zero_right, Series.zero_apply, Nat.cast_zero]
        push_cast at e1 e2 ⊢
        rw [e1, e2]


end RoughPy.Tensor
