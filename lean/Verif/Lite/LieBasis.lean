import Verif.Lite.LieMulLemmas
import Verif.Lie.ApplyLemmas

set_option linter.unusedSectionVars false

/-! # The graded basis of a Hall set -/

namespace RoughPy.Lite

open RoughPy.Lie (IsHallTable HasDegree hallTable hallTable_isHall)

/-- the index of the first key of degree `d` -/
def lieStart (b : Lie.Basis) (d : ℕ) : ℕ := b.start (min d (b.depth + 1)) - 1

variable {b : Lie.Basis} {hs : HallSet}

theorem lieStart_zero (hb : IsHallTable b) : lieStart b 0 = 0 := by
  unfold lieStart
  rw [Nat.zero_min, hb.start_zero]

theorem lieStart_one (hb : IsHallTable b) : lieStart b 1 = 0 := by
  unfold lieStart
  rw [Nat.min_eq_left (by omega), hb.start_one]

theorem lieStart_eq {d : ℕ} (hd : d ≤ b.depth + 1) : lieStart b d = b.start d - 1 := by
  unfold lieStart
  rw [Nat.min_eq_left hd]

theorem lieStart_mono (hb : IsHallTable b) : Monotone (lieStart b) := by
  intro c d h
  unfold lieStart
  have := hb.start_mono (c := min c (b.depth + 1)) (d := min d (b.depth + 1)) (by omega) (by omega)
  omega

theorem one_le_start (hb : IsHallTable b) {d : ℕ} (h1 : 1 ≤ d) (h2 : d ≤ b.depth + 1) :
    1 ≤ b.start d := by
  have := hb.start_mono h1 h2
  rwa [hb.start_one] at this

/-- keys of the basis are the keys of the table -/
theorem validKey_iff (hb : IsHallTable b) {k : Key} :
    ValidKey (lieStart b) b.depth k ↔ ∃ i, 0 < i ∧ i < b.data.length ∧ k = keyAt b i := by
  constructor
  · rintro ⟨h1, h2⟩
    have hk0 : 0 < k.deg := by
      by_contra h
      have h0 : k.deg = 0 := by omega
      rw [h0, lieStart_one hb] at h2
      omega
    have h3 := one_le_start hb hk0 (by omega)
    rw [lieStart_eq (by omega), lieStart_eq (by omega)] at h2
    have hd : HasDegree b (b.start k.deg + k.idx) k.deg := hb.hasDegree_iff.2 ⟨h1, by omega, by omega⟩
    refine ⟨b.start k.deg + k.idx, by omega, hd.lt hb, ?_⟩
    rw [keyAt_eq hb hd, Nat.add_sub_cancel_left]
  · rintro ⟨i, h1, h2, rfl⟩
    have hd := hb.hasDegree_deg h2
    have h3 := hb.degree_pos hd h1
    obtain ⟨h4, h5, h6⟩ := hb.hasDegree_iff.1 hd
    have h7 := one_le_start hb h3 (by omega)
    refine ⟨h4, ?_⟩
    show lieStart b (b.deg i) + (i - b.start (b.deg i)) < lieStart b (b.deg i + 1)
    rw [lieStart_eq (by omega), lieStart_eq (by omega)]
    omega

theorem keyIndex_keyAt (hb : IsHallTable b) {i : ℕ} (h1 : 0 < i) (h2 : i < b.data.length) :
    keyIndex (lieStart b) (keyAt b i) = i - 1 := by
  have hd := hb.hasDegree_deg h2
  have h3 := hb.degree_pos hd h1
  obtain ⟨h4, h5, h6⟩ := hb.hasDegree_iff.1 hd
  have h7 := one_le_start hb h3 (by omega)
  show lieStart b (b.deg i) + (i - b.start (b.deg i)) = _
  rw [lieStart_eq (by omega)]
  omega

theorem sizes_length (hr : Rep b hs) : hs.sizes.length = b.depth + 1 := by
  rw [hr.sizes, List.length_map, List.length_range]

theorem hall_size (hr : Rep b hs) {d : ℕ} (hd : d ≤ b.depth) : hs.size d = some (b.start (d + 1) - 1) := by
  unfold HallSet.size
  rw [if_pos (by rw [sizes_length hr]; omega), hr.size_get hd]

theorem hallBasis_lawful (hb : IsHallTable b) (hr : Rep b hs) :
    (hs.basis b.depth (b.start (b.depth + 1) - 1)).Lawful (lieStart b) where
  zero := lieStart_zero hb
  mono := lieStart_mono hb
  sizes := fun d s h => by
    have hd : d < hs.sizes.length := (List.getElem?_eq_some_iff.1 h).1
    rw [sizes_length hr] at hd
    have h' : hs.sizes[d]? = some s := h
    rw [hr.size_get (by omega), Option.some.injEq] at h'
    rw [lieStart_eq (by omega), h']
  length := by
    show b.depth < hs.sizes.length
    rw [sizes_length hr]; omega
  maxDim := (lieStart_eq le_rfl).symm
  startOf := fun d hd h => by
    have hd' : d ≤ b.depth := hd
    show hs.startOf d = _
    cases d with
    | zero => rw [lieStart_zero hb, lieStart_one hb] at h; omega
    | succ d =>
      show hs.size d = _
      rw [hall_size hr (by omega), lieStart_eq (by omega)]
  levelSize := fun d hd h => by
    have hd' : d ≤ b.depth := hd
    show hs.sizeOfDegree d = _
    have h0 : 0 < d := by
      by_contra h0
      have : d = 0 := by omega
      rw [this, lieStart_zero hb, lieStart_one hb] at h; omega
    have h1 := one_le_start hb h0 (by omega)
    unfold HallSet.sizeOfDegree
    rw [hr.range_get hd', lieStart_eq (by omega), lieStart_eq (by omega)]
    simp only [Option.bind_eq_bind, Option.bind_some, Option.some.injEq]
    omega
  indexToKey := fun k hk hlt => by
    have hk' : k.deg ≤ b.depth := hk
    show hs.keyOfIndex _ = _
    have hk0 : 0 < k.deg := by
      by_contra h
      have h0 : k.deg = 0 := by omega
      rw [h0, lieStart_one hb] at hlt
      omega
    obtain ⟨d, i⟩ := k
    obtain ⟨e, rfl⟩ := Nat.exists_eq_succ_of_ne_zero (Nat.pos_iff_ne_zero.1 hk0)
    dsimp only [Nat.succ_eq_add_one] at *
    have hget : ∀ j (h : j < (hs.sizes.drop 1).length),
        (hs.sizes.drop 1)[j] = lieStart b (j + 2) := by
      intro j h
      rw [List.length_drop, sizes_length hr] at h
      have := hr.size_get (d := 1 + j) (by omega)
      rw [List.getElem_drop]
      rw [List.getElem?_eq_getElem (by rw [sizes_length hr]; omega), Option.some.injEq] at this
      rw [this, lieStart_eq (by omega), show 1 + j + 1 = j + 2 by omega]
    have hidx : (hs.sizes.drop 1).findIdx?
        (fun s => decide (lieStart b (e + 1) + i < s)) = some e := by
      rw [List.findIdx?_eq_some_iff_getElem]
      refine ⟨by rw [List.length_drop, sizes_length hr]; omega, ?_, ?_⟩
      · rw [hget]; exact decide_eq_true hlt
      · intro j hj
        rw [hget]
        have := lieStart_mono hb (show j + 2 ≤ e + 1 by omega)
        simp only [Bool.not_eq_true, decide_eq_false_iff_not, not_lt]
        omega
    unfold HallSet.keyOfIndex
    rw [hidx]
    dsimp only
    rw [hr.size_get (by omega), lieStart_eq (by omega)]
    simp only [Option.bind_eq_bind, Option.bind_some, Option.some.injEq]
    rw [Nat.add_sub_cancel_left]
  nogap := fun d e h0 hde he hlt => by
    have he' : e ≤ b.depth := he
    have hd2 : 2 ≤ d := by
      by_contra h
      have := lieStart_mono hb (show d ≤ 1 by omega)
      rw [lieStart_one hb] at this
      omega
    rw [lieStart_eq (by omega), lieStart_eq (by omega)] at hlt
    have hw := hb.two_le_width e (b.start e) (by omega)
      (hb.hasDegree_iff.2 ⟨he', le_rfl, by omega⟩)
    obtain ⟨m, rfl⟩ : ∃ m, d = m + 2 := ⟨d - 2, by omega⟩
    obtain ⟨k, j, hk, -⟩ := hb.exists_left_one hw m (by omega)
    have := hb.hasDegree_iff.1 hk
    have h1 := one_le_start hb (d := m + 2) (by omega) (by omega)
    rw [lieStart_eq (by omega), lieStart_eq (by omega)]
    omega

/-- What `hallBasis` returns. -/
theorem hallBasis_eq (w m : ℕ) : ∃ hs, HallSet.new w (m + 1) = some hs ∧
    Rep (hallTable w m) hs ∧
    hallBasis w (m + 1) = some (hs, hs.basis (m + 1) ((hallTable w m).start (m + 2) - 1)) := by
  obtain ⟨hs, h1, h2⟩ := new_rep w (m + 1)
  refine ⟨hs, h1, h2, ?_⟩
  unfold hallBasis
  rw [h1]
  simp only [Option.bind_eq_bind, Option.bind_some]
  rw [hall_size h2 (d := m + 1) le_rfl]
  rfl

theorem hasKey_iff (hb : IsHallTable b) (hr : Rep b hs) {k : Key} :
    hs.HasKey k ↔ ValidKey (lieStart b) b.depth k := by
  constructor
  · rintro ⟨h0, n, h1, h2⟩
    have hd : k.deg ≤ b.depth := by
      by_contra hd
      unfold HallSet.sizeOfDegree at h1
      rw [hr.ranges, List.getElem?_eq_none (by rw [List.length_map, List.length_range]; omega)] at h1
      cases h1
    unfold HallSet.sizeOfDegree at h1
    rw [hr.range_get hd] at h1
    simp only [Option.bind_eq_bind, Option.bind_some, Option.some.injEq] at h1
    have := one_le_start hb h0 (by omega)
    refine ⟨hd, ?_⟩
    rw [lieStart_eq (by omega), lieStart_eq (by omega)]
    omega
  · rintro ⟨h1, h2⟩
    have hk0 : 0 < k.deg := by
      by_contra h
      have h0 : k.deg = 0 := by omega
      rw [h0, lieStart_one hb] at h2
      omega
    have := one_le_start hb hk0 (by omega)
    refine ⟨hk0, _, ((hallBasis_lawful hb hr).levelSize k.deg h1 (by omega)), by omega⟩

end RoughPy.Lite
