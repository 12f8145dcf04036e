import Verif.Tensor.IterModel
import Verif.Tensor.IterSpec
import Verif.Tensor.KeyProps

/-!
# C159 — iterating over a tensor basis
-/

namespace RoughPy.Tensor

/-! ### Lemmas -/

theorem KeyIter.drain_eq (it : KeyIter) : it.drain = List.range' it.current (it.stop - it.current) := by
  rw [KeyIter.drain]
  split
  · rename_i h
    unfold KeyIter.next at h
    split at h
    · rename_i hc
      rw [Nat.sub_eq_zero_of_le hc]
      rfl
    · cases h
  · rename_i k it' h
    have h' := h
    unfold KeyIter.next at h'
    split at h'
    · cases h'
    · rename_i hc
      cases h'
      rw [KeyIter.drain_eq]
      dsimp only
      obtain ⟨n, hn⟩ : ∃ n, it.stop - it.current = n + 1 := ⟨it.stop - it.current - 1, by omega⟩
      rw [hn, List.range'_succ]
      congr 2
      omega
termination_by it.stop - it.current
decreasing_by
  unfold KeyIter.next at h
  split at h
  · cases h
  · cases h
    omega

/-- words by their last letter -/
theorem wordsOfLength_snoc (w : ℕ) : ∀ n, wordsOfLength w (n + 1) =
    (wordsOfLength w n).flatMap fun u => (List.range w).map fun a => u ++ [a + 1]
  | 0 => by
    simp only [wordsOfLength, List.map_cons, List.map_nil, List.flatMap_cons, List.flatMap_nil, List.append_nil,
      List.nil_append]
    rw [List.map_eq_flatMap]
  | n + 1 => by
    rw [wordsOfLength]
    conv_rhs => rw [wordsOfLength]
    rw [List.flatMap_assoc]
    congr 1
    funext a
    rw [wordsOfLength_snoc w n, List.map_flatMap, List.flatMap_map]
    congr 1
    funext u
    rw [List.map_map]
    rfl

theorem pyToLetters_snoc {w : ℕ} (k a : ℕ) (ha : a < w) :
    pyToLetters w (k * w + a + 1) = pyToLetters w k ++ [a + 1] := by
  have hw : 0 < w := by omega
  unfold pyToLetters
  rw [pyLettersRev, dif_neg (by omega)]
  have e1 : (k * w + a + 1 - 1) % w = a := by
    rw [Nat.add_sub_cancel, Nat.add_comm, Nat.add_mul_mod_self_right, Nat.mod_eq_of_lt ha]
  have e2 : (k * w + a + 1 - 1) / w = k := by
    rw [Nat.add_sub_cancel, Nat.add_comm, Nat.add_mul_div_right _ _ hw, Nat.div_eq_of_lt ha, Nat.zero_add]
  rw [e1, e2, List.reverse_cons, Nat.add_comm 1 a]

/-- the keys below a run of keys -/
theorem range'_blocks (w s : ℕ) : ∀ n, List.range' (s * w + 1) (n * w) =
    (List.range' s n).flatMap fun k => (List.range w).map fun a => k * w + a + 1
  | 0 => by simp
  | n + 1 => by
    have h1 : List.range' s (n + 1) = List.range' s n ++ [s + n] := by rw [List.range'_concat]; simp
    rw [h1, List.flatMap_append, ← range'_blocks w s n, Nat.succ_mul, ← List.range'_append_1]
    congr 1
    simp only [List.flatMap_cons, List.flatMap_nil, List.append_nil]
    rw [List.range'_eq_map_range]
    congr 1
    funext a
    rw [Nat.add_mul]
    omega

theorem level_letters (w : ℕ) : ∀ n, (List.range' (wordsBelow w n) (w ^ n)).map (pyToLetters w) = wordsOfLength w n
  | 0 => by
    simp [wordsBelow, wordsOfLength, pyToLetters, pyLettersRev]
  | n + 1 => by
    rw [wordsOfLength_snoc, ← level_letters w n, wordsBelow_succ', Nat.pow_succ, Nat.add_comm 1,
      Nat.mul_comm w (wordsBelow w n), range'_blocks, List.map_flatMap, List.flatMap_map]
    congr 1
    funext k
    rw [List.map_map]
    apply List.map_congr_left
    intro a ha
    exact pyToLetters_snoc k a (List.mem_range.1 ha)

theorem all_letters (w : ℕ) : ∀ d, (List.range (wordsBelow w (d + 1))).map (pyToLetters w) = wordsUpTo w d
  | 0 => by
    simp [wordsBelow, wordsUpTo, wordsOfLength, pyToLetters, pyLettersRev]
  | d + 1 => by
    have h1 : wordsUpTo w (d + 1) = wordsUpTo w d ++ wordsOfLength w (d + 1) := by
      unfold wordsUpTo
      rw [List.range_succ, List.flatMap_append]
      simp
    have h2 : wordsBelow w (d + 1 + 1) = wordsBelow w (d + 1) + w ^ (d + 1) := by
      unfold wordsBelow
      rw [Finset.sum_range_succ]
    rw [h1, ← all_letters w d, ← level_letters w (d + 1), h2, ← List.map_append]
    congr 1
    rw [List.range_eq_range', List.range_eq_range', ← List.range'_append_1]
    simp

theorem wordsUpTo_length (w d : ℕ) : (wordsUpTo w d).length = wordsBelow w (d + 1) := by
  rw [← all_letters]
  simp

theorem basisDimension_eq (w d : ℕ) : basisDimension w d = some (wordsUpTo w d).length := by
  rw [wordsUpTo_length]
  exact tbSizes_get (by omega)

theorem wordsUpTo_get {w d a : ℕ} {u : List ℕ} (h : (wordsUpTo w d)[a]? = some u) :
    a < (wordsUpTo w d).length ∧ pyToLetters w a = u := by
  obtain ⟨h1, h2⟩ := List.getElem?_eq_some_iff.1 h
  refine ⟨h1, ?_⟩
  have h3 : a < wordsBelow w (d + 1) := by rw [← wordsUpTo_length]; exact h1
  rw [← all_letters, List.getElem?_map, List.getElem?_range h3] at h
  exact Option.some.inj h

/-! ### Theorems -/

/-- C159: iterating over a tensor basis lists every word once, shorter words first and words of the same length
in the order of a dictionary. -/
theorem C159_basis_partial (w d : ℕ) (h : (wordsUpTo w d).length < 2 ^ 64) :
    ∃ it, basisIter w d = some it ∧ it.drain.map (pyToLetters w) = wordsUpTo w d := by
  unfold basisIter mkKeyIter
  rw [basisDimension_eq]
  refine ⟨_, rfl, ?_⟩
  rw [KeyIter.drain_eq]
  dsimp only
  rw [if_pos (by unfold noEnd; omega), Nat.sub_zero, ← List.range_eq_range', wordsUpTo_length, all_letters]

/-- C159: iterating from the key of one word to that of another lists the words from the first up to but without the
second; positions are those in the list of all words. -/
theorem C159_between_partial (w d a b : ℕ) (hw : 1 ≤ w) (u v : List ℕ) (hu : (wordsUpTo w d)[a]? = some u)
    (hv : (wordsUpTo w d)[b]? = some v) :
    ∃ it, mkKeyIter w d (pyKeyOfLetters w u) (pyKeyOfLetters w v) = some it ∧
      it.drain.map (pyToLetters w) = ((wordsUpTo w d).take b).drop a := by
  obtain ⟨h1, rfl⟩ := wordsUpTo_get hu
  obtain ⟨h2, rfl⟩ := wordsUpTo_get hv
  rw [(C55_index_round_trip hw a).1, (C55_index_round_trip hw b).1]
  unfold mkKeyIter
  rw [basisDimension_eq]
  refine ⟨_, rfl, ?_⟩
  rw [KeyIter.drain_eq]
  dsimp only
  rw [if_neg (by omega), ← all_letters, ← List.map_take, ← List.map_drop]
  congr 1
  rw [wordsUpTo_length] at h2
  rw [List.take_range, Nat.min_eq_left (Nat.le_of_lt h2), List.range_eq_range', List.drop_range']
  simp

/-- C159: the words listed are those with at most `d` letters from `1, …, w`, none twice. -/
theorem C159_words (w d : ℕ) (hw : 1 ≤ w) :
    (wordsUpTo w d).Nodup ∧ ∀ u, u ∈ wordsUpTo w d ↔ u.length ≤ d ∧ ∀ a ∈ u, 1 ≤ a ∧ a ≤ w := by
  constructor
  · rw [← all_letters]
    refine List.Nodup.map_on ?_ List.nodup_range
    intro x _ y _ h
    rw [← (C55_index_round_trip hw x).1, ← (C55_index_round_trip hw y).1, h]
  · have hl : ∀ n u, u ∈ wordsOfLength w n ↔ u.length = n ∧ ∀ a ∈ u, 1 ≤ a ∧ a ≤ w := by
      intro n
      induction n with
      | zero =>
        intro u
        simp only [wordsOfLength, List.mem_singleton, List.length_eq_zero_iff]
        constructor
        · rintro rfl; simp
        · exact fun h => h.1
      | succ n ih =>
        intro u
        simp only [wordsOfLength, List.mem_flatMap, List.mem_range, List.mem_map]
        constructor
        · rintro ⟨a, ha, t, ht, rfl⟩
          obtain ⟨h1, h2⟩ := (ih t).1 ht
          refine ⟨by simp [h1], fun b hb => ?_⟩
          rcases List.mem_cons.1 hb with rfl | hb
          · omega
          · exact h2 b hb
        · rintro ⟨h1, h2⟩
          cases u with
          | nil => simp at h1
          | cons b t =>
            have hb := h2 b List.mem_cons_self
            refine ⟨b - 1, by omega, t, (ih t).2 ⟨by simpa using h1, fun c hc => h2 c (List.mem_cons_of_mem _ hc)⟩, ?_⟩
            congr 1
            omega
    intro u
    simp only [wordsUpTo, List.mem_flatMap, List.mem_range, hl]
    constructor
    · rintro ⟨n, hn, h1, h2⟩
      exact ⟨by omega, h2⟩
    · rintro ⟨h1, h2⟩
      exact ⟨u.length, by omega, rfl, h2⟩

/-- C159: a loop over an iterator does not advance it: `__iter__` returns a copy.  For every iterator that has a key
left, the iterator gives the same key before and after the loop. -/
theorem C159_loop_refuted (it : KeyIter) (h : it.current < it.stop) :
    it.forLoop.1 ≠ [] ∧ (it.forLoop.2.next).isSome = true ∧ it.forLoop.2.next = it.next := by
  refine ⟨?_, ?_, rfl⟩
  · show it.drain ≠ []
    rw [KeyIter.drain_eq]
    intro hn
    have := congrArg List.length hn
    simp at this
    omega
  · show (it.next).isSome = true
    unfold KeyIter.next
    rw [if_neg (by omega)]
    rfl

/-! ### The hypotheses can be met -/

example : wordsUpTo 2 2 = [[], [1], [2], [1, 1], [1, 2], [2, 1], [2, 2]] := by decide +kernel

example : (wordsUpTo 3 2)[4]? = some [1, 1] ∧ (wordsUpTo 3 2)[9]? = some [2, 3] ∧
    ((wordsUpTo 3 2).take 9).drop 4 = [[1, 1], [1, 2], [1, 3], [2, 1], [2, 2]] := by decide +kernel

example : (⟨2, 5, 2, 2⟩ : KeyIter).current < (⟨2, 5, 2, 2⟩ : KeyIter).stop := by decide

end RoughPy.Tensor
