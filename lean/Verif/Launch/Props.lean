import Verif.Launch.Spec

/-!
# Properties of launch parameters

Vocabulary: `Verif/Launch/Spec.lean`.
-/

namespace RoughPy.Launch

/-! ## Helper lemmas -/

theorem roundUpDivide_eq {v d : ℕ} (hd : 0 < d) (h : v + d ≤ 2 ^ 64) :
    roundUpDivide v d = (v + d - 1) / d := by
  unfold roundUpDivide
  have e : v + d + (2 ^ 64 - 1) = (v + d - 1) + 2 ^ 64 := by omega
  rw [e, Nat.add_mod_right, Nat.mod_eq_of_lt (by omega)]

theorem ceil_le {v d : ℕ} (hd : 0 < d) : v ≤ (v + d - 1) / d * d := by
  have h1 := Nat.div_add_mod (v + d - 1) d
  have h2 := Nat.mod_lt (v + d - 1) hd
  rw [Nat.mul_comm]
  omega

theorem ceil_fewest {v d : ℕ} (hd : 0 < d) : Fewest ((v + d - 1) / d) d v := by
  refine ⟨ceil_le hd, fun m hm => ?_⟩
  have : (v + d - 1) / d < m + 1 := by
    rw [Nat.div_lt_iff_lt_mul hd, Nat.succ_mul]
    omega
  omega

theorem ceil_spare {v d : ℕ} (hd : 0 < d) (h : v % d ≠ 0) :
    (v + d - 1) / d * d = v + (d - v % d) := by
  have h1 := Nat.div_add_mod v d
  have h2 := Nat.mod_lt v hd
  have e : (v + d - 1) / d = v / d + 1 := by
    have : v + d - 1 = (v % d - 1) + d * (v / d + 1) := by
      rw [Nat.mul_add]; omega
    rw [this, Nat.add_mul_div_left _ _ hd, Nat.div_eq_of_lt (by omega)]
    omega
  rw [e, Nat.add_mul, Nat.mul_comm]
  omega

/-- The code in one direction -/
theorem numGroups_at {p : Params} (ho : p.group.Ordered) {d : Dir} (hg : 0 < p.group.at d) :
    (numGroups p).at d = roundUpDivide (p.work.at d) (p.group.at d) % 2 ^ 32 := by
  obtain ⟨h1, h2⟩ := ho
  cases d <;> simp only [Dim3.at] at hg ⊢ <;> unfold numGroups
  · rw [if_pos hg]
    dsimp only
    split
    · split <;> rfl
    · rfl
  · rw [if_pos (h2 hg), if_pos hg]
    dsimp only
    split <;> rfl
  · rw [if_pos (h2 (h1 hg)), if_pos (h1 hg), if_pos hg]

theorem underflow_at {p : Params} (ho : p.group.Ordered) {d : Dir} (hg : 0 < p.group.at d) :
    (underflow p).at d = p.group.at d - p.work.at d % p.group.at d := by
  obtain ⟨h1, h2⟩ := ho
  cases d <;> simp only [Dim3.at] at hg ⊢ <;> unfold underflow
  · rw [if_pos hg]
    dsimp only
    split
    · split <;> rfl
    · rfl
  · rw [if_pos (h2 hg), if_pos hg]
    dsimp only
    split <;> rfl
  · rw [if_pos (h2 (h1 hg)), if_pos (h1 hg), if_pos hg]

theorem last_word : ∀ s : Fin 64, bitsSet (~~~((1#64 <<< s.val) - 1)) = 64 - s.val := by
  decide +kernel

theorem full_word : bitsSet (BitVec.allOnes 64) = 64 := by decide +kernel

theorem workMask_count {p : Params} {m : List (BitVec 64)} (hp : 0 < totalWork p)
    (hb : totalWork p + 64 ≤ 2 ^ 64) (h : workMask p = some m) :
    maskSet m + 1 = totalWork p ∧ totalWork p % 64 ≠ 1 := by
  unfold workMask at h
  dsimp only at h
  rw [roundUpDivide_eq (by omega) hb] at h
  generalize ht : totalWork p = t at *
  split at h
  · cases h
  · next h0 =>
    split at h
    · cases h
    · next h1 =>
      cases h
      have hl := last_word ⟨(t + 64 - 1) / 64 * 64 - t + 1, by omega⟩
      dsimp only at hl
      simp only [maskSet, List.map_append, List.map_replicate, List.sum_append, List.sum_replicate_nat,
        List.map_cons, List.map_nil, List.sum_cons, List.sum_nil, hl, full_word]
      omega

/-! ## C166 -/

/-- **C166** (in part): in each direction with a group size, the number of groups is the fewest that hold
the work.

Missing: only when it fits in 32 bits and the sum of the work and the group size in 64 bits, see
`C166_groups_refuted`. -/
theorem C166_groups_partial (p : Params) (d : Dir) (ho : p.group.Ordered) (hg : 0 < p.group.at d)
    (hb : p.work.at d + p.group.at d ≤ 2 ^ 64)
    (hn : p.work.at d ≤ (2 ^ 32 - 1) * p.group.at d) :
    Fewest ((numGroups p).at d) (p.group.at d) (p.work.at d) := by
  rw [numGroups_at ho hg, roundUpDivide_eq hg hb, Nat.mod_eq_of_lt]
  · exact ceil_fewest hg
  · have := (ceil_fewest (v := p.work.at d) hg).2 _ hn
    omega

example : (⟨⟨10, 7, 0⟩, ⟨4, 2, 0⟩⟩ : Params).group.Ordered ∧
    numGroups ⟨⟨10, 7, 0⟩, ⟨4, 2, 0⟩⟩ = ⟨3, 4, 0⟩ := by
  constructor
  · simp [Dim3.Ordered]
  · decide

/-- **C166** (in part): the places left over in the groups are as many as the parameters say.

Missing: only when the work does not fill the groups, see `C166_left_over_refuted`. -/
theorem C166_left_over_partial (p : Params) (d : Dir) (ho : p.group.Ordered) (hg : 0 < p.group.at d)
    (hb : p.work.at d + p.group.at d ≤ 2 ^ 64)
    (hn : p.work.at d ≤ (2 ^ 32 - 1) * p.group.at d) (hw : ¬ p.group.at d ∣ p.work.at d) :
    (numGroups p).at d * p.group.at d = p.work.at d + (underflow p).at d := by
  rw [numGroups_at ho hg, roundUpDivide_eq hg hb, Nat.mod_eq_of_lt, underflow_at ho hg]
  · exact ceil_spare hg fun h => hw (Nat.dvd_of_mod_eq_zero h)
  · have := (ceil_fewest (v := p.work.at d) hg).2 _ hn
    omega

example : underflow ⟨⟨10, 7, 0⟩, ⟨4, 2, 0⟩⟩ = ⟨2, 1, 0⟩ ∧ ¬ 4 ∣ 10 := by decide

/-- **C166** (in part): the size of the work is the number of items in the box, and the number of directions
is right.

Missing: only when there is work, the directions are used in order, and the number fits in 64 bits. -/
theorem C166_size_partial (p : Params) (ho : p.work.Ordered) (hp : hasWork p = true)
    (hb : p.work.volume < 2 ^ 64) :
    totalWork p = p.work.volume ∧ numDims p = p.work.used := by
  obtain ⟨⟨x, y, z⟩, g⟩ := p
  obtain ⟨h1, h2⟩ := ho
  simp only [hasWork, decide_eq_true_eq] at hp
  simp only [Dim3.volume] at hb h1 h2 hp
  simp only [totalWork, numDims, Dim3.volume, Dim3.used]
  rcases Nat.eq_zero_or_pos y with hy | hy
  · subst hy
    rcases Nat.eq_zero_or_pos z with hz | hz
    · subst hz
      simp [hp]
    · exact absurd (h1 hz) (by omega)
  · have ey : max y 1 = y := by omega
    rw [ey] at hb ⊢
    rcases Nat.eq_zero_or_pos z with hz | hz
    · subst hz
      have : x * y < 2 ^ 64 := by simpa using hb
      simp [hp, hy, Nat.mod_eq_of_lt this]
    · have ez : max z 1 = z := by omega
      rw [ez] at hb ⊢
      have h3 : x * y < 2 ^ 64 := Nat.lt_of_le_of_lt (Nat.le_mul_of_pos_right _ hz) hb
      simp only [hy, hz, if_true, Nat.mod_eq_of_lt h3, Nat.mod_eq_of_lt hb]
      simp [hp, hy, hz]

example : (⟨10, 7, 0⟩ : Dim3).Ordered ∧ totalWork ⟨⟨10, 7, 0⟩, ⟨4, 2, 0⟩⟩ = 70 := by
  constructor
  · simp [Dim3.Ordered]
  · decide

/-- **C166** fails as stated: the number of groups is cut to 32 bits and the sum wraps around at 64 bits, so
much work gives no group at all; and so does work without a group size. -/
theorem C166_groups_refuted :
    numGroups ⟨⟨2 ^ 32, 0, 0⟩, ⟨1, 0, 0⟩⟩ = ⟨0, 0, 0⟩ ∧
    numGroups ⟨⟨2 ^ 64 - 1, 0, 0⟩, ⟨2, 0, 0⟩⟩ = ⟨0, 0, 0⟩ ∧
    numGroups (.ofWork ⟨5, 0, 0⟩) = ⟨0, 0, 0⟩ := by
  decide +kernel

/-- **C166** fails as stated: when the work fills the groups, a whole group is said to be left over. -/
theorem C166_left_over_refuted (p : Params) (d : Dir) (ho : p.group.Ordered) (hg : 0 < p.group.at d)
    (hw : p.group.at d ∣ p.work.at d) : (underflow p).at d = p.group.at d := by
  rw [underflow_at ho hg, Nat.mod_eq_zero_of_dvd hw, Nat.sub_zero]

example : numGroups ⟨⟨8, 0, 0⟩, ⟨4, 0, 0⟩⟩ = ⟨2, 0, 0⟩ ∧ underflow ⟨⟨8, 0, 0⟩, ⟨4, 0, 0⟩⟩ = ⟨4, 0, 0⟩ := by
  decide

/-- **C166** fails as stated: the mask of the work never has a bit for each item. It has one bit too few, or
making it is undefined behaviour. -/
theorem C166_mask_refuted (p : Params) (ho : p.work.Ordered) (hp : hasWork p = true)
    (hb : p.work.volume + 64 ≤ 2 ^ 64) :
    (∀ m, workMask p = some m → maskSet m + 1 = p.work.volume) ∧
      (p.work.volume % 64 = 1 → workMask p = none) := by
  have e := (C166_size_partial p ho hp (by omega)).1
  have hpos : 0 < p.work.volume := by
    simp only [hasWork, decide_eq_true_eq] at hp
    exact Nat.mul_pos (Nat.mul_pos hp (by omega)) (by omega)
  rw [← e] at hb hpos ⊢
  refine ⟨fun m hm => (workMask_count hpos hb hm).1, fun h1 => ?_⟩
  rcases hm : workMask p with _ | m
  · rfl
  · exact absurd h1 (workMask_count hpos hb hm).2

example : (workMask ⟨⟨64, 0, 0⟩, ⟨0, 0, 0⟩⟩).map maskSet = some 63 ∧
    (workMask ⟨⟨70, 0, 0⟩, ⟨0, 0, 0⟩⟩).map maskSet = some 69 ∧ workMask ⟨⟨65, 0, 0⟩, ⟨0, 0, 0⟩⟩ = none := by
  decide +kernel

end RoughPy.Launch
