import Verif.Tensor.KeyLemmas

/-!
# C12 and C55: words, keys and flat indices

`wordIndex u` (in `Spec.lean`) is the position of the word `u` among all words, shorter words
first, words of one length in lexicographic order.  `keyOf u` is the pair (length of `u`, position
of `u` among the words of that length).  `letters u` lists the letters of `u` counted from one.
-/

namespace RoughPy.Tensor

variable {w : ℕ}

/-! ## C12 -/

/-- Word to index and back: `key_to_index` and `index_to_key` are inverse to each other on all words
up to the depth, and all indices below the number of such words are attained. -/
theorem C12_word_index_bijection {depth : ℕ} :
    (∀ u : List (Fin w), u.length ≤ depth →
      keyToIndex w depth (keyOf u) = some (wordIndex u) ∧
      indexToKey w depth (wordIndex u) = keyOf u ∧
      wordIndex u < wordsBelow w (depth + 1)) ∧
    (∀ i, i < wordsBelow w (depth + 1) → keyToIndex w depth (indexToKey w depth i) = some i ∧
      ∃ u : List (Fin w), u.length ≤ depth ∧ keyOf u = indexToKey w depth i) := by
  refine ⟨fun u h => ⟨keyToIndex_keyOf u (by omega), indexToKey_wordIndex u (by omega),
    wordIndex_lt h⟩, fun i hi => ?_⟩
  obtain ⟨u, h1, rfl⟩ := exists_wordIndex hi
  rw [indexToKey_wordIndex u (by omega), keyToIndex_keyOf u (by omega)]
  exact ⟨rfl, u, h1, rfl⟩

example : indexToKey 3 2 (wordIndex [(2 : Fin 3), 1]) = ⟨2, 7⟩ ∧
    keyToIndex 3 2 ⟨2, 7⟩ = some 11 := by decide +kernel

/-- Different words have different keys and different indices. -/
theorem C12_injective (u v : List (Fin w)) :
    (wordIndex u = wordIndex v ↔ u = v) ∧ (keyOf u = keyOf v ↔ u = v) := by
  refine ⟨⟨wordIndex_inj, fun h => by rw [h]⟩, ⟨fun h => ?_, fun h => by rw [h]⟩⟩
  simp only [keyOf, Key.mk.injEq] at h
  exact wordOffset_inj h.1 h.2

/-- The words of degree `d` occupy exactly the block from `start(d)` to `start(d+1)`. -/
theorem C12_blocks {depth d : ℕ} (hd : d ≤ depth) :
    ∃ s e, startOfDegree w depth d = some s ∧ startOfDegree w depth (d + 1) = some e ∧
      e = s + w ^ d ∧
      ∀ u : List (Fin w), u.length = d ↔ s ≤ wordIndex u ∧ wordIndex u < e := by
  refine ⟨_, _, startOfDegree_eq (by omega), startOfDegree_eq (by omega), wordsBelow_succ d, ?_⟩
  intro u
  have hlt := wordIndex_lt (u := u) le_rfl
  have hge : wordsBelow w u.length ≤ wordIndex u := by unfold wordIndex; omega
  constructor
  · rintro rfl; exact ⟨hge, hlt⟩
  · rintro ⟨h1, h2⟩
    rcases Nat.lt_trichotomy u.length d with h | h | h
    · have := wordsBelow_mono (w := w) (show u.length + 1 ≤ d by omega); omega
    · exact h
    · have := wordsBelow_mono (w := w) (show d + 1 ≤ u.length by omega); omega

/-- Index order is the order by degree, then lexicographic. -/
theorem C12_order (u v : List (Fin w)) :
    wordIndex u < wordIndex v ↔
      u.length < v.length ∨ (u.length = v.length ∧ List.Lex (· < ·) u v) := by
  have hu := wordIndex_lt (u := u) le_rfl
  have hv := wordIndex_lt (u := v) le_rfl
  have hu' : wordsBelow w u.length ≤ wordIndex u := by unfold wordIndex; omega
  have hv' : wordsBelow w v.length ≤ wordIndex v := by unfold wordIndex; omega
  rcases Nat.lt_trichotomy u.length v.length with h | h | h
  · have := wordsBelow_mono (w := w) (show u.length + 1 ≤ v.length by omega)
    exact ⟨fun _ => Or.inl h, fun _ => by omega⟩
  · have key : ∀ (u v : List (Fin w)), u.length = v.length →
        (wordOffset u < wordOffset v ↔ List.Lex (· < ·) u v) := by
      intro u
      induction u with
      | nil =>
        intro v hl
        have : v = [] := List.length_eq_zero_iff.1 hl.symm
        subst this; simp
      | cons a u ih =>
        intro v hl
        cases v with
        | nil => simp at hl
        | cons b v =>
          simp only [List.length_cons, Nat.add_right_cancel_iff] at hl
          have h1 := wordOffset_lt u
          have h2 := wordOffset_lt v
          have hlex : List.Lex (· < ·) (a :: u) (b :: v) ↔ a < b ∨ (a = b ∧ List.Lex (· < ·) u v) := by
            constructor
            · intro h; cases h with
              | rel h => exact Or.inl h
              | cons h => exact Or.inr ⟨rfl, h⟩
            · rintro (h | ⟨rfl, h⟩)
              · exact List.Lex.rel h
              · exact List.Lex.cons h
          rw [hlex]
          simp only [wordOffset]
          rw [hl] at h1 ⊢
          rcases Nat.lt_trichotomy a.val b.val with hab | hab | hab
          · have h3 : (a.val + 1) * w ^ v.length ≤ b.val * w ^ v.length :=
              Nat.mul_le_mul_right _ hab
            have h4 : a < b := hab
            refine iff_of_true (by rw [add_mul] at h3; omega) (Or.inl h4)
          · have hab' : a = b := Fin.ext hab
            subst hab'
            simp [ih v hl]
          · have h3 : (b.val + 1) * w ^ v.length ≤ a.val * w ^ v.length :=
              Nat.mul_le_mul_right _ hab
            have h4 : ¬ a < b := by rw [Fin.lt_def]; omega
            have h5 : ¬ a = b := by rw [Fin.ext_iff]; omega
            refine iff_of_false (by rw [add_mul] at h3; omega) (by simp [h4, h5])
    unfold wordIndex
    rw [← key u v h, h]
    simp
  · have := wordsBelow_mono (w := w) (show v.length + 1 ≤ u.length by omega)
    exact ⟨fun _ => by omega, fun h' => by omega⟩

/-- `lparent` is the first letter, `rparent` the rest of the word. -/
theorem C12_parents {depth : ℕ} (a : Fin w) (u : List (Fin w)) (h : (a :: u).length ≤ depth) :
    lparent w depth (keyOf (a :: u)) = some (keyOf [a]) ∧
    rparent w depth (keyOf (a :: u)) = some (keyOf u) := by
  simp only [List.length_cons] at h
  exact ⟨lparent_keyOf a u (by omega), rparent_keyOf a u (by omega)⟩

/-- `tensor_basis::parents` is meant to return both at once.  It is right for degree two ... -/
theorem C12_parents_pair_partial {depth : ℕ} (a b : Fin w) (h : 1 ≤ depth) :
    parents w depth (keyOf [a, b]) = some (keyOf [a], 1, ((wordOffset [b] : ℕ) : ℤ)) := by
  unfold parents keyOf
  simp only [List.length_cons, List.length_nil, wordOffset]
  rw [tbPowers_get (by omega)]
  have := b.isLt
  have h1 : (a.val * w + b.val) / w = a.val := snoc_div _ b
  simp [h1]
  have h2 : ((a.val : ℤ) * w + b.val) / w = a.val := by exact_mod_cast h1
  rw [h2]; ring

/-- ... and wrong for degree three: the second parent of the word `(2,1,1)` of width 2 is not
`(1,1)`; its index is outside degree two. -/
theorem C12_parents_pair_refuted :
    parents 2 3 (keyOf [(1 : Fin 2), 0, 0]) = some (keyOf [(1 : Fin 2)], 2, 2) ∧
    rparent 2 3 (keyOf [(1 : Fin 2), 0, 0]) = some ⟨2, 0⟩ := by decide +kernel

/-- Reversal of keys is reversal of words. -/
theorem C12_reverse (u : List (Fin w)) : reverseKey w (keyOf u) = keyOf u.reverse :=
  reverseKey_keyOf u

example : reverseKey 3 (keyOf [(0 : Fin 3), 1, 2]) = ⟨3, 21⟩ ∧
    keyOf [(2 : Fin 3), 1, 0] = ⟨3, 21⟩ := by decide +kernel

/-- Unpacking a key lists the letters (last letter first), packing them gives the key back. -/
theorem C12_unpack_pack (u : List (Fin w)) :
    unpackWord w (keyOf u).degree (keyOf u).index = (u.map Fin.val).reverse ∧
    packWord w (unpackWord w (keyOf u).degree (keyOf u).index) = (keyOf u).index := by
  have h := unpackWord_eq u
  refine ⟨h, ?_⟩
  show packWord w (unpackWord w u.length (wordOffset u)) = wordOffset u
  rw [h, packWord_eq]

/-- Concatenating unpacked words concatenates the words: the index of the product is the index of
the concatenation. -/
theorem C12_concat (u v : List (Fin w)) :
    packWord w (mulWord (unpackWord w u.length (wordOffset u))
      (unpackWord w v.length (wordOffset v))) = (keyOf (u ++ v)).index := by
  rw [unpackWord_eq, unpackWord_eq, mulWord, ← List.reverse_append, ← List.map_append, packWord_eq]
  rfl

/-- Splitting after `n` letters splits the word. -/
theorem C12_split (u : List (Fin w)) (n : ℕ) :
    (splitWord (unpackWord w u.length (wordOffset u)) n).1 = ((u.take n).map Fin.val).reverse ∧
    (splitWord (unpackWord w u.length (wordOffset u)) n).2 = ((u.drop n).map Fin.val).reverse := by
  rw [unpackWord_eq]
  unfold splitWord
  simp only [List.length_reverse, List.length_map]
  split_ifs with h
  · rw [List.take_of_length_le h, List.drop_of_length_le h]; simp
  · rw [List.drop_reverse, List.take_reverse]
    simp only [List.length_map]
    have h1 : u.length - (u.length - n) = n := by omega
    rw [h1, List.map_take, List.map_drop]
    simp

/-- Advancing a key of degree at most the depth moves to the word with the next index. -/
theorem C12_advance {depth : ℕ} (hw : 1 ≤ w) (u : List (Fin w)) (h : u.length ≤ depth) :
    ∃ v : List (Fin w), advanceKey w depth (keyOf u) = some (keyOf v) ∧
      wordIndex v = wordIndex u + 1 := by
  obtain ⟨v, hv⟩ := exists_word_of_index hw (wordIndex u + 1)
  refine ⟨v, ?_, hv⟩
  unfold advanceKey
  rw [show (keyOf u).degree = u.length from rfl, tbPowers_get (by omega)]
  have hlt := wordOffset_lt u
  have hltv := wordOffset_lt v
  rw [Option.map_some]
  refine congrArg some ?_
  show (if wordOffset u + 1 ≥ w ^ u.length then (⟨u.length + 1, 0⟩ : Key)
    else ⟨u.length, wordOffset u + 1⟩) = ⟨v.length, wordOffset v⟩
  by_cases h1 : wordOffset u + 1 ≥ w ^ u.length
  · have h2 : wordsBelow w v.length + wordOffset v = wordsBelow w (u.length + 1) + 0 := by
      have := wordsBelow_succ (w := w) u.length
      unfold wordIndex at hv; omega
    obtain ⟨h3, h4⟩ := level_unique hltv (Nat.pow_pos (by omega)) h2
    rw [if_pos h1, h3, h4]
  · have h2 : wordsBelow w v.length + wordOffset v = wordsBelow w u.length + (wordOffset u + 1) := by
      unfold wordIndex at hv; omega
    obtain ⟨h3, h4⟩ := level_unique hltv (by omega) h2
    rw [if_neg h1, h3, h4]

/-- The 64-bit packed key is faithful and ordered like the indices as long as the degree is below
256 and the index below `2^56`. -/
theorem C12_packed {d i e j : ℕ} (hd : d < 256) (hi : i < 2 ^ 56) (he : e < 256) (hj : j < 2 ^ 56) :
    keyDegree (packKey d i) = d ∧ keyIndex (packKey d i) = i ∧
    (packKey d i < packKey e j ↔ d < e ∨ (d = e ∧ i < j)) := by
  unfold keyDegree keyIndex packKey
  omega

example : keyDegree (packKey 3 21) = 3 ∧ packKey 2 100 < packKey 3 1 := by decide +kernel

/-- Two words with the same packed key are equal (degree at most 255, fewer than `2^56` words of
that degree). -/
theorem C12_packed_words (u v : List (Fin w)) (hu : u.length < 256) (hv : v.length < 256)
    (hu' : w ^ u.length ≤ 2 ^ 56) (hv' : w ^ v.length ≤ 2 ^ 56)
    (h : packKey u.length (wordOffset u) = packKey v.length (wordOffset v)) : u = v := by
  have h1 := wordOffset_lt u
  have h2 := wordOffset_lt v
  have a := C12_packed hu (lt_of_lt_of_le h1 hu') hv (lt_of_lt_of_le h2 hv')
  have b := C12_packed hv (lt_of_lt_of_le h2 hv') hu (lt_of_lt_of_le h1 hu')
  exact wordOffset_inj (by rw [← a.1, ← b.1, h]) (by rw [← a.2.1, ← b.2.1, h])

/-- `unpacked_tensor_word::operator<` is a different order: it compares the *last* letters first,
so `(1,2) < (2,1)` as words and by index, but not for this operator. -/
theorem C12_unpacked_order_refuted :
    wordIndex [(0 : Fin 2), 1] < wordIndex [(1 : Fin 2), 0] ∧
    wordLess (unpackWord 2 2 (wordOffset [(0 : Fin 2), 1]))
      (unpackWord 2 2 (wordOffset [(1 : Fin 2), 0])) = false ∧
    wordLess (unpackWord 2 2 (wordOffset [(1 : Fin 2), 0]))
      (unpackWord 2 2 (wordOffset [(0 : Fin 2), 1])) = true := by decide +kernel

/-! ## C55: `TensorKey` in Python -/

/-- Building a key from letters `1..w` gives the position of the word, and `to_letters` gives the
letters back. -/
theorem C55_letters_round_trip {l : List ℕ} (hl : ∀ a ∈ l, 1 ≤ a ∧ a ≤ w) :
    pyToLetters w (pyKeyOfLetters w l) = l := by
  obtain ⟨u, rfl⟩ := letters_map_of_mem hl
  rw [pyKeyOfLetters_letters, pyToLetters_wordIndex]

/-- Conversely the letters of any index (width at least one) are letters `1..w` and give the same
index. -/
theorem C55_index_round_trip (hw : 1 ≤ w) (i : ℕ) :
    pyKeyOfLetters w (pyToLetters w i) = i ∧ ∀ a ∈ pyToLetters w i, 1 ≤ a ∧ a ≤ w := by
  obtain ⟨u, rfl⟩ := exists_word_of_index hw i
  rw [pyToLetters_wordIndex, pyKeyOfLetters_letters]
  refine ⟨rfl, fun a ha => ?_⟩
  simp only [letters, List.mem_map] at ha
  obtain ⟨b, -, rfl⟩ := ha
  have := b.isLt; omega

/-- `to_index` is the position of the word. -/
theorem C55_index (u : List (Fin w)) :
    pyKeyOfLetters w (letters u) = wordIndex u ∧ pyToLetters w (wordIndex u) = letters u :=
  ⟨pyKeyOfLetters_letters u, pyToLetters_wordIndex u⟩

example : pyKeyOfLetters 3 [2, 3, 1] = 28 ∧ pyToLetters 3 28 = [2, 3, 1] := by
  refine ⟨by decide, ?_⟩
  exact (C55_index [(1 : Fin 3), 2, 0]).2

/-- The constructor accepts every word that fits and rejects words that are too long or contain a
letter above the width. -/
theorem C55_construct (u : List (Fin w)) {depth : ℕ} (h : u.length ≤ depth) :
    pyKeyConstruct (letters u) (some w) (some depth) = .ok w depth (wordIndex u) ∧
    (∀ l : List ℕ, l.length > depth → pyKeyConstruct l (some w) (some depth) = .valueError) ∧
    (∀ (l : List ℕ) (a : ℕ), a ∈ l → a > w →
      pyKeyConstruct l (some w) (some depth) = .valueError) := by
  refine ⟨?_, ?_, ?_⟩
  · unfold pyKeyConstruct
    have h1 : ¬ (letters u).length > depth := by simp [letters]; omega
    have h2 : ¬ ((letters u).any fun l => l > w) = true := by
      simp only [letters, List.any_map, List.any_eq_true, not_exists, not_and]
      intro a _
      have := a.isLt
      simp
    simp only [if_neg h1, if_neg h2, pyKeyOfLetters_letters]
  · intro l hl
    unfold pyKeyConstruct
    simp only [if_pos hl]
  · intro l a ha haw
    unfold pyKeyConstruct
    have h2 : (l.any fun l => l > w) = true := by
      rw [List.any_eq_true]; exact ⟨a, ha, by simpa using haw⟩
    simp only [h2, if_true]
    split_ifs <;> rfl

/-- The letter 0 is accepted and silently denotes another word: with width 2, `(1, 0)` is the
word `(2)`. -/
theorem C55_zero_letter_refuted :
    pyKeyConstruct [1, 0] (some 2) (some 2) = .ok 2 2 (pyKeyOfLetters 2 [2]) := by decide +kernel

/-- Construction from an index: for width at least 2, exactly the indices of words up to the depth
are accepted. -/
theorem C55_from_index_partial {depth i : ℕ} (hw : 2 ≤ w) :
    (i < wordsBelow w (depth + 1) → pyKeyOfIndex w depth i = .ok w depth i) ∧
    (wordsBelow w (depth + 1) ≤ i → pyKeyOfIndex w depth i = .valueError) := by
  have h : (w ^ (depth + 1) - 1) / (w - 1) = wordsBelow w (depth + 1) := by
    have hg : wordsBelow w (depth + 1) * (w - 1) = w ^ (depth + 1) - 1 := by
      have h1 := wordsBelow_succ (w := w) (depth + 1)
      have h2 := wordsBelow_succ' (w := w) (depth + 1)
      rw [Nat.mul_sub, mul_comm _ w, mul_one]
      omega
    rw [← hg, Nat.mul_div_cancel _ (by omega)]
  unfold pyKeyOfIndex
  rw [if_neg (by omega), h]
  exact ⟨fun h1 => by rw [if_neg (by omega)], fun h1 => by rw [if_pos (by omega)]⟩

/-- For width 1 the constructor divides by zero, whatever the index. -/
theorem C55_from_index_width_one_refuted (depth i : ℕ) :
    pyKeyOfIndex 1 depth i = .divisionByZero := rfl

/-- `reverse()` reverses the word, `is_letter` recognises words of length one. -/
theorem C55_reverse (u : List (Fin w)) :
    pyReverse w (wordIndex u) = wordIndex u.reverse ∧
    (pyIsLetter w (wordIndex u) = true ↔ u.length = 1) := by
  constructor
  · rw [pyReverse, pyToLetters_wordIndex, ← pyKeyOfLetters_letters]
    simp [letters]
  · have h0 : wordsBelow w 1 = 1 := by simp [wordsBelow]
    have h1 : wordsBelow w 2 = 1 + w := by simp [wordsBelow, Finset.sum_range_succ]
    have hlt := wordIndex_lt (u := u) le_rfl
    have hge : wordsBelow w u.length ≤ wordIndex u := by unfold wordIndex; omega
    simp only [pyIsLetter, Bool.and_eq_true, decide_eq_true_eq]
    constructor
    · rintro ⟨h2, h3⟩
      rcases Nat.lt_trichotomy u.length 1 with h | h | h
      · have : u = [] := List.length_eq_zero_iff.1 (by omega)
        subst this; rw [wordIndex_nil] at h2; omega
      · exact h
      · have := wordsBelow_mono (w := w) (show 2 ≤ u.length by omega); omega
    · intro h
      rw [h] at hlt hge
      have : wordsBelow w (1 + 1) = 1 + w := h1
      omega

/-- `key1 * key2` is a concatenation, but of the words in the opposite order. -/
theorem C55_mul_partial (u v : List (Fin w)) :
    pyMul w (wordIndex u) (wordIndex v) = wordIndex (v ++ u) := by
  rw [pyMul, pyToLetters_wordIndex, pyToLetters_wordIndex, ← pyKeyOfLetters_letters]
  simp [letters]

/-- `(1) * (2)` is `(2,1)`, not `(1,2)`. -/
theorem C55_mul_refuted :
    pyMul 2 (wordIndex [(0 : Fin 2)]) (wordIndex [(1 : Fin 2)])
      ≠ wordIndex ([(0 : Fin 2)] ++ [(1 : Fin 2)]) := by
  rw [C55_mul_partial]; decide +kernel

/-- `split_n(n)` splits off the last `n` letters when `n ≤ 0`, `n = 1` or `n ≥ depth`. -/
theorem C55_split_partial {depth : ℕ} (u : List (Fin w)) (hd : u.length ≤ depth) (n : ℤ)
    (hn : n ≤ 1 ∨ (depth : ℤ) ≤ n) :
    pySplitN w depth (wordIndex u) n =
      (wordIndex (u.take (u.length - n.toNat)), wordIndex (u.drop (u.length - n.toNat))) := by
  unfold pySplitN
  by_cases h0 : wordIndex u = 0
  · have : u = [] := wordIndex_inj (by rw [h0, wordIndex_nil])
    subst this
    simp [wordIndex_nil]
  · rw [if_neg h0]
    by_cases h1 : n ≤ 0
    · rw [if_pos h1, Int.toNat_of_nonpos h1]
      simp [wordIndex_nil]
    · rw [if_neg h1]
      by_cases h2 : n ≥ (depth : ℤ)
      · rw [if_pos h2]
        have : u.length - n.toNat = 0 := by omega
        simp [this, wordIndex_nil]
      · have : n = 1 := by omega
        subst this
        rw [if_neg h2]
        rcases List.eq_nil_or_concat u with rfl | ⟨v, a, rfl⟩
        · exact absurd wordIndex_nil h0
        · simp only [List.concat_eq_append]
          rw [wordIndex_snoc]
          have h3 : wordIndex v * w + (a.val + 1) - 1 = wordIndex v * w + a.val := by omega
          have h4 : wordIndex [a] = a.val + 1 := by
            have := wordIndex_snoc [] a
            simpa [wordIndex_nil] using this
          simp only [Int.toNat_one, pow_one, h3, snoc_mod, snoc_div]
          simp [h4, add_comm]

example : pySplitN 2 3 (wordIndex [(1 : Fin 2), 0, 1]) 1 =
    (wordIndex [(1 : Fin 2), 0], wordIndex [(1 : Fin 2)]) :=
  C55_split_partial (depth := 3) [(1 : Fin 2), 0, 1] (by simp) 1 (by simp)

/-- `split_n(2)` of `(1,2,1)` (width 2, depth 3) is not `((1), (2,1))`. -/
theorem C55_split_refuted :
    pySplitN 2 3 (wordIndex [(0 : Fin 2), 1, 0]) 2 ≠
      (wordIndex [(0 : Fin 2)], wordIndex [(1 : Fin 2), 0]) ∧
    pySplitN 2 3 (wordIndex [(0 : Fin 2), 1, 0]) 2 = (2, 1) := by decide +kernel

/-- Keys over the same basis object: `==` is equality of words, and equal keys have equal hashes. -/
theorem C55_eq_hash_partial (hashPtr : ℕ → ℕ) (combine : ℕ → ℕ → ℕ) (a b : KeyObj)
    (u v : List (Fin w)) (ha : a.width = w) (hb : b.width = w)
    (hu : a.key = wordIndex u) (hv : b.key = wordIndex v) :
    (a.equals b = true ↔ u = v) ∧
    (a.basisAddr = b.basisAddr → a.equals b = true → a.hash hashPtr combine = b.hash hashPtr combine) := by
  unfold KeyObj.equals KeyObj.hash
  rw [ha, hb, hu, hv]
  simp only [beq_self_eq_true, Bool.true_and, beq_iff_eq]
  refine ⟨(C12_injective u v).1, fun h1 h2 => by rw [h1, h2]⟩

/-- Keys of different depths compare equal although the hash is computed from the address of the
basis: whenever the hash distinguishes two bases at all, equal keys have different hashes. -/
theorem C55_hash_refuted (hashPtr : ℕ → ℕ) (combine : ℕ → ℕ → ℕ) (p q key : ℕ)
    (h : combine (hashPtr p) key ≠ combine (hashPtr q) key) :
    ∃ a b : KeyObj, a.width = b.width ∧ a.depth ≠ b.depth ∧ a.equals b = true ∧
      a.hash hashPtr combine ≠ b.hash hashPtr combine :=
  ⟨⟨p, 2, 2, key⟩, ⟨q, 2, 3, key⟩, rfl, by simp, by simp [KeyObj.equals], h⟩

end RoughPy.Tensor
