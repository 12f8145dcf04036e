import Verif.Tensor.Series
import Mathlib.Algebra.Order.BigOperators.Group.Finset

/-! # Lemmas on word offsets -/

open Finset

namespace RoughPy.Tensor

variable {w : ℕ}

theorem wordOffset_lt (u : List (Fin w)) : wordOffset u < w ^ u.length := by
  induction u with
  | nil => simp [wordOffset]
  | cons a u ih =>
    rw [wordOffset, List.length_cons, pow_succ]
    have ha : a.val + 1 ≤ w := a.isLt
    calc a.val * w ^ u.length + wordOffset u < a.val * w ^ u.length + w ^ u.length := by omega
      _ = (a.val + 1) * w ^ u.length := by ring
      _ ≤ w * w ^ u.length := Nat.mul_le_mul_right _ ha
      _ = _ := by ring

theorem wordOffset_append (u v : List (Fin w)) :
    wordOffset (u ++ v) = wordOffset u * w ^ v.length + wordOffset v := by
  induction u with
  | nil => simp [wordOffset]
  | cons a u ih =>
    rw [List.cons_append, wordOffset, ih, wordOffset, List.length_append, pow_add]
    ring

theorem wordOffset_singleton (a : Fin w) : wordOffset [a] = a.val := by simp [wordOffset]

theorem wordOffset_split (u : List (Fin w)) (k : ℕ) :
    wordOffset u =
      wordOffset (u.take k) * w ^ (u.length - k) + wordOffset (u.drop k) := by
  conv_lhs => rw [← List.take_append_drop k u, wordOffset_append, List.length_drop]

theorem wordOffset_take_lt (u : List (Fin w)) (k : ℕ) (hk : k ≤ u.length) :
    wordOffset (u.take k) < w ^ k := by
  have := wordOffset_lt (u.take k)
  rwa [List.length_take, min_eq_left hk] at this

theorem wordOffset_drop_lt (u : List (Fin w)) (k : ℕ) :
    wordOffset (u.drop k) < w ^ (u.length - k) := by
  have := wordOffset_lt (u.drop k)
  rwa [List.length_drop] at this

theorem wordOffset_div (u : List (Fin w)) (k : ℕ) :
    wordOffset u / w ^ (u.length - k) = wordOffset (u.take k) := by
  have h := wordOffset_drop_lt u k
  rw [wordOffset_split u k, mul_comm, Nat.mul_add_div (by omega), Nat.div_eq_of_lt h, add_zero]

theorem wordOffset_mod (u : List (Fin w)) (k : ℕ) :
    wordOffset u % w ^ (u.length - k) = wordOffset (u.drop k) := by
  have h := wordOffset_drop_lt u k
  conv_lhs => rw [wordOffset_split u k]
  rw [Nat.mul_add_mod_of_lt' h]
where
  Nat.mul_add_mod_of_lt' {a b c : ℕ} (h : c < b) : (a * b + c) % b = c := by
    rw [mul_comm, Nat.mul_add_mod, Nat.mod_eq_of_lt h]

theorem wordOffset_inj {u v : List (Fin w)} (hl : u.length = v.length)
    (h : wordOffset u = wordOffset v) : u = v := by
  induction u generalizing v with
  | nil => cases v with | nil => rfl | cons => simp at hl
  | cons a u ih =>
    cases v with
    | nil => simp at hl
    | cons b v =>
      have hl' : u.length = v.length := by simpa using hl
      have hu := wordOffset_lt u
      have hv := wordOffset_lt v
      rw [wordOffset, wordOffset, hl'] at h
      rw [hl'] at hu
      have h1 : a.val = b.val := by
        have e1 : (a.val * w ^ v.length + wordOffset u) / w ^ v.length = a.val := by
          rw [mul_comm, Nat.mul_add_div (by omega), Nat.div_eq_of_lt hu, add_zero]
        have e2 : (b.val * w ^ v.length + wordOffset v) / w ^ v.length = b.val := by
          rw [mul_comm, Nat.mul_add_div (by omega), Nat.div_eq_of_lt hv, add_zero]
        rw [← e1, ← e2, h]
      have h2 : wordOffset u = wordOffset v := by rw [h1] at h; omega
      rw [Fin.ext h1, ih hl' h2]

/-- the word of length `d` at offset `r` -/
theorem exists_word {d r : ℕ} (h : r < w ^ d) :
    ∃ u : List (Fin w), u.length = d ∧ wordOffset u = r := by
  induction d generalizing r with
  | zero => exact ⟨[], rfl, by simp [wordOffset]; simp at h; omega⟩
  | succ d ih =>
    have hw : 0 < w ^ d := by
      rcases Nat.eq_zero_or_pos (w ^ d) with h0 | h0
      · rw [pow_succ, h0, zero_mul] at h; omega
      · exact h0
    have ha : r / w ^ d < w := by
      rw [Nat.div_lt_iff_lt_mul hw]; rwa [pow_succ, mul_comm] at h
    obtain ⟨u, hl, hu⟩ := ih (Nat.mod_lt r hw)
    refine ⟨⟨r / w ^ d, ha⟩ :: u, by simp [hl], ?_⟩
    rw [wordOffset, hl, hu]
    exact Nat.div_add_mod' r (w ^ d)

theorem wordsBelow_zero : wordsBelow w 0 = 0 := rfl

theorem wordsBelow_succ (d : ℕ) : wordsBelow w (d + 1) = wordsBelow w d + w ^ d :=
  sum_range_succ _ _

theorem wordsBelow_succ' (d : ℕ) : wordsBelow w (d + 1) = 1 + w * wordsBelow w d := by
  induction d with
  | zero => simp [wordsBelow]
  | succ d ih =>
    have h := wordsBelow_succ (w := w) d
    rw [wordsBelow_succ, ih]
    have : 1 + w * wordsBelow w d + w ^ (d + 1) = 1 + w * (wordsBelow w d + w ^ d) := by
      rw [pow_succ]; ring
    rw [this, ← h, ih]

theorem wordsBelow_mono {d e : ℕ} (h : d ≤ e) : wordsBelow w d ≤ wordsBelow w e :=
  sum_le_sum_of_subset (range_subset_range.2 h)

theorem wordIndex_lt {u : List (Fin w)} {D : ℕ} (h : u.length ≤ D) :
    wordIndex u < wordsBelow w (D + 1) := by
  calc wordIndex u < wordsBelow w (u.length + 1) := by
        rw [wordsBelow_succ, wordIndex]; have := wordOffset_lt u; omega
    _ ≤ _ := wordsBelow_mono (by omega)

/-- `d`-blocks are disjoint: the degree of a position is determined by its index -/
theorem level_unique {d e r s : ℕ} (hr : r < w ^ d) (hs : s < w ^ e)
    (h : wordsBelow w d + r = wordsBelow w e + s) : d = e ∧ r = s := by
  rcases Nat.lt_trichotomy d e with hlt | rfl | hlt
  · have := wordsBelow_mono (w := w) (Nat.succ_le_of_lt hlt)
    rw [wordsBelow_succ] at this; omega
  · exact ⟨rfl, by omega⟩
  · have := wordsBelow_mono (w := w) (Nat.succ_le_of_lt hlt)
    rw [wordsBelow_succ] at this; omega

theorem wordIndex_inj {u v : List (Fin w)} (h : wordIndex u = wordIndex v) : u = v := by
  obtain ⟨h1, h2⟩ := level_unique (wordOffset_lt u) (wordOffset_lt v) h
  exact wordOffset_inj h1 h2

theorem exists_wordIndex {D i : ℕ} (h : i < wordsBelow w (D + 1)) :
    ∃ u : List (Fin w), u.length ≤ D ∧ wordIndex u = i := by
  induction D with
  | zero =>
    refine ⟨[], le_rfl, ?_⟩
    simp [wordsBelow] at h
    simp [wordIndex, wordOffset, wordsBelow, h]
  | succ D ih =>
    rcases Nat.lt_or_ge i (wordsBelow w (D + 1)) with hi | hi
    · obtain ⟨u, h1, h2⟩ := ih hi
      exact ⟨u, by omega, h2⟩
    · rw [wordsBelow_succ] at h
      obtain ⟨u, h1, h2⟩ := exists_word (w := w) (d := D + 1) (r := i - wordsBelow w (D + 1))
        (by omega)
      refine ⟨u, by omega, ?_⟩
      rw [wordIndex, h1, h2]; omega

end RoughPy.Tensor
