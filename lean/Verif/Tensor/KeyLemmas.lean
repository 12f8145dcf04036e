import Verif.Tensor.Keys
import Verif.Tensor.Index
import Mathlib.Data.List.Range
import Mathlib.Tactic.Linarith

/-! # Lemmas about tensor keys and word indices -/

namespace RoughPy.Tensor

variable {w : ℕ}

/-- The key of a word: its length and its offset among the words of that length. -/
def keyOf (u : List (Fin w)) : Key := ⟨u.length, wordOffset u⟩

theorem fold_range_map (f : ℕ → ℕ) (step : ℕ → ℕ) (hs : ∀ i, f (i + 1) = step (f i)) (n : ℕ) :
    (List.range n).foldl (fun l _ => l ++ [step (l.getLastD 0)]) [f 0]
      = (List.range (n + 1)).map f := by
  induction n with
  | zero => rfl
  | succ n ih =>
    rw [List.range_succ (n := n), List.foldl_append, ih]
    simp only [List.foldl_cons, List.foldl_nil]
    rw [List.range_succ (n := n + 1), List.map_append, List.range_succ (n := n), List.map_append]
    simp [hs]

theorem tbPowers_eq (w depth : ℕ) : tbPowers w depth = (List.range (depth + 1)).map (w ^ ·) :=
  fold_range_map (w ^ ·) (· * w) (fun i => pow_succ w i) depth

theorem tbSizes_eq (w depth : ℕ) :
    tbSizes w depth = (List.range (depth + 2)).map fun i => wordsBelow w (i + 1) := by
  have h := fold_range_map (fun i => wordsBelow w (i + 1)) (fun x => 1 + w * x)
    (fun i => wordsBelow_succ' (i + 1)) depth
  have h0 : wordsBelow w (0 + 1) = 1 := by simp [wordsBelow]
  simp only [h0] at h
  unfold tbSizes
  simp only [h]
  rw [List.range_succ (n := depth + 1), List.map_append, List.range_succ (n := depth),
    List.map_append]
  simp [wordsBelow_succ' (depth + 1)]

theorem tbSizes_get {depth i : ℕ} (h : i < depth + 2) :
    (tbSizes w depth)[i]? = some (wordsBelow w (i + 1)) := by
  rw [tbSizes_eq]; simp [h]

theorem tbPowers_get {depth i : ℕ} (h : i < depth + 1) :
    (tbPowers w depth)[i]? = some (w ^ i) := by
  rw [tbPowers_eq]; simp [h]

theorem startOfDegree_eq {depth d : ℕ} (h : d ≤ depth + 2) :
    startOfDegree w depth d = some (wordsBelow w d) := by
  unfold startOfDegree
  by_cases h0 : d = 0
  · simp [h0, wordsBelow]
  · rw [if_neg h0, tbSizes_get (by omega)]
    congr 2; omega

theorem keyToIndex_keyOf {depth : ℕ} (u : List (Fin w)) (h : u.length ≤ depth + 2) :
    keyToIndex w depth (keyOf u) = some (wordIndex u) := by
  unfold keyToIndex
  rw [show (keyOf u).degree = u.length from rfl, startOfDegree_eq h]
  rfl

theorem indexToKey_wordIndex {depth : ℕ} (u : List (Fin w)) (h : u.length ≤ depth + 1) :
    indexToKey w depth (wordIndex u) = keyOf u := by
  unfold indexToKey
  cases u with
  | nil => simp [wordIndex, wordsBelow, wordOffset, keyOf]
  | cons a u =>
    have hpos : wordIndex (a :: u) ≠ 0 := by
      unfold wordIndex
      rw [List.length_cons, wordsBelow_succ']; omega
    rw [if_neg hpos]
    set d := u.length with hd
    have hlen : (a :: u).length = d + 1 := by simp [hd]
    have hlt := wordIndex_lt (u := a :: u) (D := d + 1) (by omega)
    have hge : wordsBelow w (d + 1) ≤ wordIndex (a :: u) := by
      unfold wordIndex; rw [hlen]; omega
    have hfind : (tbSizes w depth).findIdx? (fun s => !decide (s ≤ wordIndex (a :: u)))
        = some (d + 1) := by
      rw [List.findIdx?_eq_some_iff_getElem]
      have hsz : (tbSizes w depth).length = depth + 2 := by rw [tbSizes_eq]; simp
      refine ⟨by omega, ?_, ?_⟩
      · have h1 : (tbSizes w depth)[d + 1]'(by omega) = wordsBelow w (d + 1 + 1) := by
          have := tbSizes_get (w := w) (depth := depth) (i := d + 1) (by omega)
          rw [List.getElem?_eq_getElem (by omega)] at this
          exact Option.some.inj this
        rw [h1]; simp; omega
      · intro j hj
        have h1 : (tbSizes w depth)[j]'(by omega) = wordsBelow w (j + 1) := by
          have := tbSizes_get (w := w) (depth := depth) (i := j) (by omega)
          rw [List.getElem?_eq_getElem (by omega)] at this
          exact Option.some.inj this
        have h2 := wordsBelow_mono (w := w) (show j + 1 ≤ d + 1 by omega)
        rw [h1]; simp; omega
    rw [hfind]
    simp only [keyOf, hlen, Nat.add_sub_cancel]
    rw [List.getD_eq_getElem?_getD, tbSizes_get (by omega)]
    simp [wordIndex, hlen]

theorem lparent_keyOf {depth : ℕ} (a : Fin w) (u : List (Fin w)) (h : u.length ≤ depth) :
    lparent w depth (keyOf (a :: u)) = some (keyOf [a]) := by
  unfold lparent keyOf
  simp only [List.length_cons, Nat.add_one_ne_zero, if_false, Nat.add_sub_cancel]
  rw [tbPowers_get (by omega)]
  have h1 := wordOffset_lt u
  simp only [Option.map_some, List.length_nil, wordOffset, pow_zero, mul_one, add_zero, zero_add]
  congr 2
  rw [mul_comm, Nat.mul_add_div (by omega), Nat.div_eq_of_lt h1, add_zero]

theorem rparent_keyOf {depth : ℕ} (a : Fin w) (u : List (Fin w)) (h : u.length ≤ depth) :
    rparent w depth (keyOf (a :: u)) = some (keyOf u) := by
  unfold rparent keyOf
  simp only [List.length_cons, Nat.add_one_ne_zero, if_false, Nat.add_sub_cancel]
  rw [tbPowers_get (by omega)]
  have h1 := wordOffset_lt u
  simp only [Option.map_some, wordOffset]
  congr 2
  rw [mul_comm, Nat.mul_add_mod, Nat.mod_eq_of_lt h1]

theorem sub_div_mul_self (i w : ℕ) : i - i / w * w = i % w := by
  have := Nat.div_add_mod' i w; omega

theorem wordOffset_snoc (u : List (Fin w)) (a : Fin w) :
    wordOffset (u ++ [a]) = wordOffset u * w + a.val := by
  rw [wordOffset_append, wordOffset_singleton]; simp

theorem snoc_mod (x : ℕ) (a : Fin w) : (x * w + a.val) % w = a.val := by
  rw [mul_comm, Nat.mul_add_mod, Nat.mod_eq_of_lt a.isLt]

theorem snoc_div (x : ℕ) (a : Fin w) : (x * w + a.val) / w = x := by
  have := a.isLt
  rw [mul_comm, Nat.mul_add_div (by omega), Nat.div_eq_of_lt a.isLt, add_zero]

theorem reverseIdx_fold (u : List (Fin w)) (acc : ℕ) :
    ((List.range u.length).foldl (fun (st : ℕ × ℕ) _ =>
      (st.1 * w + (st.2 - st.2 / w * w), st.2 / w)) (acc, wordOffset u)).1
      = acc * w ^ u.length + wordOffset u.reverse := by
  induction u using List.reverseRecOn generalizing acc with
  | nil => simp [wordOffset]
  | append_singleton u a ih =>
    rw [List.length_append, List.length_singleton, List.range_succ_eq_map, List.foldl_cons,
      List.foldl_map, sub_div_mul_self, wordOffset_snoc, snoc_mod, snoc_div, ih]
    simp only [List.reverse_append, List.reverse_singleton, List.singleton_append, wordOffset,
      List.length_reverse]
    ring

theorem reverseKey_keyOf (u : List (Fin w)) : reverseKey w (keyOf u) = keyOf u.reverse := by
  unfold reverseKey keyOf reverseIdx
  simp only [List.length_reverse]
  rw [reverseIdx_fold]
  simp

theorem unpackWord_eq (u : List (Fin w)) :
    unpackWord w u.length (wordOffset u) = (u.map Fin.val).reverse := by
  induction u using List.reverseRecOn with
  | nil => rfl
  | append_singleton u a ih =>
    rw [List.length_append, List.length_singleton, unpackWord, sub_div_mul_self, wordOffset_snoc,
      snoc_mod, snoc_div, ih]
    simp

theorem foldl_letters (u : List (Fin w)) (acc : ℕ) :
    (u.map Fin.val).foldl (fun r l => r * w + l) acc = acc * w ^ u.length + wordOffset u := by
  induction u generalizing acc with
  | nil => simp [wordOffset]
  | cons a u ih => simp only [List.map_cons, List.foldl_cons, ih, List.length_cons, wordOffset]; ring

theorem packWord_eq (u : List (Fin w)) : packWord w (u.map Fin.val).reverse = wordOffset u := by
  unfold packWord
  rw [List.reverse_reverse, foldl_letters]; simp

/-! ## `PyTensorKey` -/

theorem wordIndex_nil : wordIndex ([] : List (Fin w)) = 0 := by
  simp [wordIndex, wordsBelow, wordOffset]

theorem wordIndex_snoc (u : List (Fin w)) (a : Fin w) :
    wordIndex (u ++ [a]) = wordIndex u * w + (a.val + 1) := by
  unfold wordIndex
  rw [List.length_append, List.length_singleton, wordsBelow_succ', wordOffset_snoc]
  ring

/-- The letters `1, ..., w` of a word, as Python sees them. -/
def letters (u : List (Fin w)) : List ℕ := u.map fun a => a.val + 1

theorem pyKeyOfLetters_letters (u : List (Fin w)) : pyKeyOfLetters w (letters u) = wordIndex u := by
  induction u using List.reverseRecOn with
  | nil => simp [pyKeyOfLetters, letters, wordIndex_nil]
  | append_singleton u a ih =>
    unfold pyKeyOfLetters letters at *
    rw [List.map_append, List.foldl_append, ih, wordIndex_snoc]; simp

theorem pyLettersRev_wordIndex (u : List (Fin w)) :
    pyLettersRev w (wordIndex u) = (letters u).reverse := by
  induction u using List.reverseRecOn with
  | nil => rw [wordIndex_nil, pyLettersRev]; simp [letters]
  | append_singleton u a ih =>
    have ha := a.isLt
    have h0 : ¬ (wordIndex (u ++ [a]) = 0 ∨ w = 0) := by rw [wordIndex_snoc]; omega
    have h1 : wordIndex (u ++ [a]) - 1 = wordIndex u * w + a.val := by rw [wordIndex_snoc]; omega
    rw [pyLettersRev, dif_neg h0, h1, snoc_mod, snoc_div, ih]
    simp [letters, add_comm]

theorem pyToLetters_wordIndex (u : List (Fin w)) : pyToLetters w (wordIndex u) = letters u := by
  rw [pyToLetters, pyLettersRev_wordIndex, List.reverse_reverse]

theorem le_wordsBelow (hw : 1 ≤ w) (D : ℕ) : D ≤ wordsBelow w D := by
  induction D with
  | zero => simp
  | succ D ih => rw [wordsBelow_succ]; have := Nat.one_le_pow D w hw; omega

theorem exists_word_of_index (hw : 1 ≤ w) (i : ℕ) : ∃ u : List (Fin w), wordIndex u = i := by
  obtain ⟨u, -, h⟩ := exists_wordIndex (w := w) (D := i) (i := i) (by
    have := le_wordsBelow hw (i + 1); omega)
  exact ⟨u, h⟩

theorem letters_map_of_mem {l : List ℕ} (h : ∀ a ∈ l, 1 ≤ a ∧ a ≤ w) :
    ∃ u : List (Fin w), letters u = l := by
  induction l with
  | nil => exact ⟨[], rfl⟩
  | cons a l ih =>
    obtain ⟨u, hu⟩ := ih fun b hb => h b (by simp [hb])
    have ha := h a (by simp)
    exact ⟨⟨a - 1, by omega⟩ :: u, by simp [letters] at *; exact ⟨by omega, hu⟩⟩

end RoughPy.Tensor
