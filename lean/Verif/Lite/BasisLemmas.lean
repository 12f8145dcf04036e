import Verif.Lite.Model
import Verif.Tensor.Index

/-! # Graded bases: keys and indices -/

namespace RoughPy.Lite

open RoughPy.Tensor

/-- `B` is a graded basis in which the keys of degree `d` have the indices from `start d` up to
`start (d + 1)`. -/
structure Basis.Lawful (B : Basis) (start : ℕ → ℕ) : Prop where
  zero : start 0 = 0
  mono : Monotone start
  sizes : ∀ d s, B.sizes[d]? = some s → s = start (d + 1)
  length : B.depth < B.sizes.length
  maxDim : B.maxDim = start (B.depth + 1)
  startOf : ∀ d, d ≤ B.depth → start d < start (d + 1) → B.startOf d = some (start d)
  levelSize : ∀ d, d ≤ B.depth → start d < start (d + 1) →
    B.levelSize d = some (start (d + 1) - start d)
  indexToKey : ∀ k : Key, k.deg ≤ B.depth → start k.deg + k.idx < start (k.deg + 1) →
    B.indexToKey (start k.deg + k.idx) = some k
  nogap : ∀ d e, 0 < start d → d ≤ e → e ≤ B.depth → start e < start (e + 1) →
    start d < start (d + 1)

/-- the keys of the basis -/
def ValidKey (start : ℕ → ℕ) (depth : ℕ) (k : Key) : Prop :=
  k.deg ≤ depth ∧ start k.deg + k.idx < start (k.deg + 1)

/-- the index of a key -/
def keyIndex (start : ℕ → ℕ) (k : Key) : ℕ := start k.deg + k.idx

theorem level_eq {start : ℕ → ℕ} (hm : Monotone start) {d e i : ℕ} (h1 : start d ≤ i)
    (h2 : i < start (d + 1)) (h3 : start e ≤ i) (h4 : i < start (e + 1)) : d = e := by
  rcases lt_trichotomy d e with h | h | h
  · have := hm (show d + 1 ≤ e by omega); omega
  · exact h
  · have := hm (show e + 1 ≤ d by omega); omega

theorem keyIndex_inj {start : ℕ → ℕ} (hm : Monotone start) {D : ℕ} {k j : Key}
    (hk : ValidKey start D k) (hj : ValidKey start D j)
    (h : keyIndex start k = keyIndex start j) : k = j := by
  obtain ⟨d, i⟩ := k
  obtain ⟨e, i'⟩ := j
  simp only [keyIndex, ValidKey] at *
  obtain rfl : d = e := level_eq hm (i := start d + i) (by omega) hk.2 (by omega) (by omega)
  rw [show i = i' by omega]

theorem exists_level {start : ℕ → ℕ} (h0 : start 0 = 0) {D i : ℕ} (h : i < start (D + 1)) :
    ∃ d, d ≤ D ∧ start d ≤ i ∧ i < start (d + 1) := by
  induction D with
  | zero => exact ⟨0, le_refl _, by omega, h⟩
  | succ D ih =>
    by_cases hD : i < start (D + 1)
    · obtain ⟨d, h1, h2, h3⟩ := ih hD
      exact ⟨d, by omega, h2, h3⟩
    · exact ⟨D + 1, le_refl _, by omega, h⟩

theorem exists_key {start : ℕ → ℕ} (h0 : start 0 = 0) {D i : ℕ} (h : i < start (D + 1)) :
    ∃ k, ValidKey start D k ∧ keyIndex start k = i := by
  obtain ⟨d, h1, h2, h3⟩ := exists_level h0 h
  exact ⟨⟨d, i - start d⟩, ⟨h1, by dsimp only; omega⟩, by simp only [keyIndex]; omega⟩

theorem ValidKey.index_lt {start : ℕ → ℕ} (hm : Monotone start) {D : ℕ} {k : Key}
    (h : ValidKey start D k) : keyIndex start k < start (D + 1) :=
  lt_of_lt_of_le h.2 (hm (Nat.succ_le_succ h.1))

/-- keys with smaller index are smaller -/
theorem key_lt_of_index_lt {start : ℕ → ℕ} (hm : Monotone start) {D : ℕ} {k j : Key}
    (hk : ValidKey start D k) (_hj : ValidKey start D j)
    (h : keyIndex start k < keyIndex start j) : k < j := by
  obtain ⟨d, i⟩ := k
  obtain ⟨e, i'⟩ := j
  show Key.lex _ < Key.lex _
  unfold Key.lex
  rw [Prod.Lex.toLex_lt_toLex]
  simp only [keyIndex, ValidKey] at *
  rcases lt_trichotomy d e with h1 | h1 | h1
  · exact Or.inl h1
  · subst h1; exact Or.inr ⟨rfl, by omega⟩
  · have := hm (show e + 1 ≤ d by omega); omega

namespace Basis.Lawful
variable {B : Basis} {start : ℕ → ℕ} (hB : B.Lawful start)
include hB

theorem getElem_sizes {d : ℕ} (h : d ≤ B.depth) : B.sizes[d]? = some (start (d + 1)) := by
  have hlt : d < B.sizes.length := lt_of_le_of_lt h hB.length
  have := List.getElem?_eq_getElem hlt
  rw [this]
  exact congrArg some (hB.sizes _ _ this)

theorem keyToIndex {k : Key} (hk : ValidKey start B.depth k) :
    B.keyToIndex k = some (keyIndex start k) := by
  unfold Basis.keyToIndex
  rw [hB.startOf k.deg hk.1 (lt_of_le_of_lt (Nat.le_add_right _ _) hk.2)]
  rfl

theorem nextDimension {n : ℕ} (hn : n < start (B.depth + 1)) :
    ∃ i, i ≤ B.depth ∧ B.nextDimension n = (start (i + 1), i) ∧ start i ≤ n ∧
      n < start (i + 1) := by
  obtain ⟨d, h1, h2, h3⟩ := exists_level hB.zero hn
  refine ⟨d, h1, ?_, h2, h3⟩
  have hidx : B.sizes.findIdx? (fun s => decide (n < s)) = some d := by
    rw [List.findIdx?_eq_some_iff_getElem]
    have hlt : d < B.sizes.length := lt_of_le_of_lt h1 hB.length
    refine ⟨hlt, ?_, ?_⟩
    · have := hB.sizes d _ (List.getElem?_eq_getElem hlt)
      rw [this]; exact decide_eq_true h3
    · intro j hj
      have := hB.sizes j _ (List.getElem?_eq_getElem (hj.trans hlt))
      rw [this]
      have hm := hB.mono (show j + 1 ≤ d by omega)
      simp only [Bool.not_eq_true, decide_eq_false_iff_not, not_lt]
      omega
  unfold Basis.nextDimension
  rw [hidx]
  dsimp only
  rw [hB.getElem_sizes h1]

theorem maxDim_eq : B.maxDim = start (B.depth + 1) := hB.maxDim

theorem advanceKey {k : Key} (hk : ValidKey start B.depth k) :
    ∃ k', B.advanceKey k = some k' ∧
      ∀ j, ValidKey start B.depth j → keyIndex start j = keyIndex start k + 1 → k' = j := by
  unfold Basis.advanceKey
  have hlt : start k.deg < start (k.deg + 1) := lt_of_le_of_lt (Nat.le_add_right _ _) hk.2
  rw [hB.levelSize _ hk.1 hlt]
  simp only [Option.bind_eq_bind, Option.bind_some]
  by_cases h : k.idx + 1 ≥ start (k.deg + 1) - start k.deg
  · rw [if_pos h]
    refine ⟨_, rfl, fun j hj hji => ?_⟩
    obtain ⟨d, i⟩ := k
    obtain ⟨e, i'⟩ := j
    simp only [keyIndex, ValidKey] at *
    have hpos : 0 < start (d + 1) := by omega
    have he : d + 1 ≤ e := by
      by_contra hcon
      have := hB.mono (show e + 1 ≤ d + 1 by omega)
      omega
    have hd := hB.nogap (d + 1) e hpos he hj.1 (by omega)
    obtain rfl : e = d + 1 := level_eq hB.mono (i := start e + i') (by omega) (by omega)
      (by omega) (by omega)
    rw [show i' = 0 by omega]
  · rw [if_neg h]
    refine ⟨_, rfl, fun j hj hji => ?_⟩
    refine keyIndex_inj hB.mono (D := B.depth) ⟨hk.1, ?_⟩ hj ?_
    · dsimp only; omega
    · simp only [keyIndex] at *; omega

end Basis.Lawful

/-! ### The tensor basis -/

theorem tensorTables_eq (w depth : ℕ) :
    (tensorTables w depth).powers = (List.range (depth + 1)).map (fun d => w ^ d) ∧
    (tensorTables w depth).lastPower = w ^ depth ∧
    (tensorTables w depth).sizes = (List.range (depth + 1)).map (fun d => wordsBelow w (d + 1)) ∧
    (tensorTables w depth).lastSize = wordsBelow w (depth + 1) := by
  induction depth with
  | zero => simp [tensorTables, wordsBelow]
  | succ n ih =>
    obtain ⟨h1, h2, h3, h4⟩ := ih
    unfold tensorTables at h1 h2 h3 h4 ⊢
    rw [List.range_succ, List.foldl_append, List.foldl_cons, List.foldl_nil]
    dsimp only
    rw [h1, h2, h3, h4]
    refine ⟨?_, ?_, ?_, ?_⟩
    · rw [List.range_succ (n := n + 1), List.map_append]; simp [pow_succ]
    · rw [pow_succ]
    · rw [List.range_succ (n := n + 1), List.map_append]
      simp [wordsBelow_succ' (w := w) (n + 1)]
    · rw [wordsBelow_succ' (w := w) (n + 1)]

theorem tensorSizes_eq (w depth : ℕ) :
    tensorSizes w depth = (List.range (depth + 2)).map (fun d => wordsBelow w (d + 1)) := by
  unfold tensorSizes
  rw [(tensorTables_eq w depth).2.2.1, (tensorTables_eq w depth).2.2.2,
    List.range_succ (n := depth + 1), List.map_append]
  simp [wordsBelow_succ' (w := w) (depth + 1)]

theorem tensorPowers_eq (w depth : ℕ) :
    tensorPowers w depth = (List.range (depth + 1)).map (fun d => w ^ d) :=
  (tensorTables_eq w depth).1

theorem tensorSizes_get {w depth d : ℕ} (h : d ≤ depth + 1) :
    (tensorSizes w depth)[d]? = some (wordsBelow w (d + 1)) := by
  rw [tensorSizes_eq, List.getElem?_map, List.getElem?_range (by omega)]; rfl

theorem tensorPowers_get {w depth d : ℕ} (h : d ≤ depth) :
    (tensorPowers w depth)[d]? = some (w ^ d) := by
  rw [tensorPowers_eq, List.getElem?_map, List.getElem?_range (by omega)]; rfl

theorem tensorStart_eq {w depth d : ℕ} (h : d ≤ depth + 2) :
    tensorStart w depth d = some (wordsBelow w d) := by
  cases d with
  | zero => rfl
  | succ d => exact tensorSizes_get (by omega)

theorem tensorBasis_lawful (w depth : ℕ) : (tensorBasis w depth).Lawful (wordsBelow w) where
  zero := rfl
  mono := fun _ _ h => wordsBelow_mono h
  sizes := fun d s h => by
    dsimp only [tensorBasis] at h
    have hd : d < (tensorSizes w depth).length := (List.getElem?_eq_some_iff.1 h).1
    rw [tensorSizes_eq, List.length_map, List.length_range] at hd
    rw [tensorSizes_get (by omega)] at h
    exact (Option.some.inj h).symm
  length := by
    dsimp only [tensorBasis]
    rw [tensorSizes_eq, List.length_map, List.length_range]; omega
  maxDim := (tensorTables_eq w depth).2.2.2
  startOf := fun d hd _ => tensorStart_eq (by dsimp only [tensorBasis] at hd; omega)
  levelSize := fun d hd _ => by
    dsimp only [tensorBasis] at hd ⊢
    rw [tensorPowers_get hd, wordsBelow_succ]; congr 1; omega
  indexToKey := fun k hk hlt => by
    obtain ⟨d, i⟩ := k
    dsimp only [tensorBasis] at hk hlt ⊢
    unfold tensorIndexToKey
    by_cases h0 : wordsBelow w d + i = 0
    · rw [if_pos h0]
      have hd : d = 0 := by
        cases d with
        | zero => rfl
        | succ d => rw [wordsBelow_succ' (w := w) d] at h0; omega
      subst hd
      rw [show i = 0 by omega]
    · rw [if_neg h0]
      have hd : d ≠ 0 := by
        rintro rfl
        rw [wordsBelow_succ, wordsBelow_zero] at hlt
        rw [wordsBelow_zero] at h0
        simp only [pow_zero] at hlt
        omega
      obtain ⟨e, rfl⟩ := Nat.exists_eq_succ_of_ne_zero hd
      have hidx : (tensorSizes w depth).findIdx?
          (fun s => decide (wordsBelow w (e + 1) + i < s)) = some (e + 1) := by
        rw [List.findIdx?_eq_some_iff_getElem]
        have hlen : (tensorSizes w depth).length = depth + 2 := by
          rw [tensorSizes_eq, List.length_map, List.length_range]
        have hget : ∀ j (h : j < (tensorSizes w depth).length),
            (tensorSizes w depth)[j] = wordsBelow w (j + 1) := by
          intro j h
          have := tensorSizes_get (w := w) (depth := depth) (d := j) (by omega)
          rw [List.getElem?_eq_getElem h] at this
          exact Option.some.inj this
        refine ⟨by omega, ?_, ?_⟩
        · rw [hget]; exact decide_eq_true hlt
        · intro j hj
          rw [hget]
          have := wordsBelow_mono (w := w) (d := j + 1) (e := e + 1) (by omega)
          simp only [Bool.not_eq_true, decide_eq_false_iff_not, not_lt]
          omega
      rw [Nat.succ_eq_add_one, hidx]
      dsimp only
      rw [tensorSizes_get (d := e) (by omega)]
      simp
  nogap := fun d e h0 hde _ he => by
    rw [wordsBelow_succ] at he ⊢
    have : 0 < w ^ e := by omega
    rcases Nat.eq_zero_or_pos w with rfl | hw
    · have hd : d ≠ 0 := by rintro rfl; simp [wordsBelow_zero] at h0
      rw [zero_pow (by omega)] at this
      omega
    · have := Nat.pow_pos (n := d) hw
      omega

end RoughPy.Lite
