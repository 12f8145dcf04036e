import Verif.Intervals.SegmentLemmas

/-!
# Invariants of the search behind `segment`
-/

namespace RoughPy.Intervals.Searcher

variable {p : ScaledPredicate} {D : ℕ}

/-- An entry of `m_seen` stands for adjacent good blocks. -/
def Fnd (p : ScaledPredicate) (D : ℕ) (x : Dyadic × Dyadic) : Prop :=
  Wf D x.1 ∧ Wf D x.2 ∧ (∃ l, l ≠ [] ∧ Chain p D l (val D x.2) (val D x.1)) ∧
    -2 ^ D ≤ val D x.2 ∧ 2 * val D x.1 ≤ 3 * 2 ^ D

theorem mem_assign {key value : Dyadic} (hk : Wf D key) {seen : Seen}
    (hs : ∀ x ∈ seen, Wf D x.1) {x : Dyadic × Dyadic} (h : x ∈ assign key value seen) :
    x ∈ seen ∨ (Wf D x.1 ∧ val D x.1 = val D key ∧ x.2 = value) := by
  induction seen with
  | nil =>
    simp only [assign, List.mem_singleton] at h
    subst h
    exact Or.inr ⟨hk, rfl, rfl⟩
  | cons y rest ih =>
    obtain ⟨s, i⟩ := y
    have hw : Wf D s := hs (s, i) (by simp)
    unfold assign at h
    by_cases h1 : greater key s = true
    · rw [if_pos h1] at h
      rcases List.mem_cons.1 h with rfl | h
      · exact Or.inr ⟨hk, rfl, rfl⟩
      · exact Or.inl h
    · rw [if_neg h1] at h
      by_cases h2 : greater s key = true
      · rw [if_pos h2] at h
        rcases List.mem_cons.1 h with rfl | h
        · simp
        · rcases ih (fun x hx => hs x (by simp [hx])) h with h | h
          · simp [h]
          · exact Or.inr h
      · rw [if_neg h2] at h
        rcases List.mem_cons.1 h with rfl | h
        · rw [greater_iff hk hw] at h1
          rw [greater_iff hw hk] at h2
          exact Or.inr ⟨hw, by simp only; omega, rfl⟩
        · simp [h]

theorem expand_fnd {n : ℕ} (hn : n ≤ D) (h1 : 1 ≤ n) {k : ℤ} (hk0 : 0 ≤ k)
    (hk1 : k < 2 ^ n) (hg : p.call (blk n k) = true)
    {seen : Seen} (hs : ∀ x ∈ seen, Fnd p D x) :
    ∃ seen', expand p D seen (blk n k) = some seen' ∧ ∀ x ∈ seen', Fnd p D x := by
  obtain ⟨l, i, s, h2, h3, h4, -, -, hlo, hhi, -⟩ := expandFound_spec n hn h1 k hg
  obtain ⟨a, ha, hwa, hva⟩ := h4.head h3
  obtain ⟨b, hb, hwb, hvb⟩ := h4.last h3
  unfold expand
  rw [h2]
  simp only [Option.bind_eq_bind, Option.bind_some, ha, hb]
  refine ⟨_, rfl, fun x hx => ?_⟩
  rcases mem_assign hwb (fun x hx => (hs x hx).1) hx with h | ⟨h5, h6, h7⟩
  · exact hs x h
  · have hp := e_pos D n
    have hu := e_unit hn
    have hk2 : (k + 1) * e D n ≤ 2 ^ D := by
      rw [← hu]; exact mul_le_mul_of_nonneg_right (by omega) hp.le
    have hk3 : 0 ≤ k * e D n := mul_nonneg hk0 hp.le
    have hk4 : 2 * e D n ≤ 2 ^ D := by
      rw [← hu]
      refine mul_le_mul_of_nonneg_right ?_ hp.le
      calc (2 : ℤ) = 2 ^ 1 := by norm_num
        _ ≤ 2 ^ n := pow_le_pow_right₀ (by norm_num) h1
    refine ⟨h5, h7 ▸ hwa, ⟨l, h3, by rw [h7, h6, hva, hvb]; exact h4⟩, ?_, ?_⟩
    · rw [h7, hva]; linarith
    · rw [h6, hvb]; linarith

theorem not_less {k : ℤ} {n : ℕ} (hn : n ≤ D) {i : Dyadic} (hi : Wf D i) :
    (!less ⟨k, n⟩ i) = true ↔ val D i ≤ k * e D n := by
  have := less_iff (D := D) (l := ⟨k, n⟩) (r := i) ⟨by simp, by simpa using hn⟩ hi
  rw [Bool.not_eq_true', Bool.eq_false_iff, Ne, this]
  simp [val]

theorem not_greater {k : ℤ} {n : ℕ} (hn : n ≤ D) {i : Dyadic} (hi : Wf D i) :
    (!greater ⟨k, n⟩ i) = true ↔ k * e D n ≤ val D i := by
  have := greater_iff (D := D) (l := ⟨k, n⟩) (r := i) ⟨by simp, by simpa using hn⟩ hi
  rw [Bool.not_eq_true', Bool.eq_false_iff, Ne, this]
  simp [val]

theorem skipTo_le {i : Dyadic} (hi : Wf D i) {n : ℕ} (hn : n ≤ D) {k : ℤ}
    (h : val D i ≤ k * e D n) : skipTo n i ≤ k := by
  have h1 := (skipTo_bounds hi hn).1
  have h2 := e_pos D n
  by_contra hlt
  have : (k + 1) * e D n ≤ skipTo n i * e D n :=
    mul_le_mul_of_nonneg_right (by omega) h2.le
  linarith

theorem nextLoop_le {n : ℕ} (hn : n ≤ D) (seen : Seen) (hs : ∀ x ∈ seen, Wf D x.1 ∧ Wf D x.2)
    (k : ℤ) : nextLoop n seen k ≤ k := by
  induction seen generalizing k with
  | nil => exact le_refl _
  | cons y rest ih =>
    obtain ⟨s, i⟩ := y
    have hw : Wf D s ∧ Wf D i := hs (s, i) (by simp)
    have hr : ∀ x ∈ rest, Wf D x.1 ∧ Wf D x.2 := fun x hx => hs x (by simp [hx])
    unfold nextLoop
    by_cases h1 : (!less ⟨k, n⟩ i) = true
    · rw [if_pos h1]
      by_cases h2 : (!greater ⟨k, n⟩ s) = true
      · rw [if_pos h2]
        exact (ih hr _).trans (skipTo_le hw.2 hn ((not_less hn hw.2).1 h1))
      · rw [if_neg h2]
    · rw [if_neg h1]
      exact ih hr k

theorem scan_fnd {n : ℕ} (hn : n ≤ D) (h1 : 1 ≤ n) (fuel : ℕ) (k : ℤ) (hf : k < fuel)
    (hk1 : k < 2 ^ n) (seen : Seen) (hs : ∀ x ∈ seen, Fnd p D x) :
    ∃ seen', scan p D fuel seen (blk n k) = some seen' ∧ ∀ x ∈ seen', Fnd p D x := by
  induction fuel generalizing k seen with
  | zero =>
    unfold scan
    rw [if_neg (by simp only [blk]; push_cast at hf; omega)]
    exact ⟨_, rfl, hs⟩
  | succ fuel ih =>
    unfold scan
    by_cases hk : (blk n k).k ≥ 0
    · rw [if_pos hk]
      simp only
      obtain ⟨seen₁, he, hs₁⟩ : ∃ seen₁, (if p.call (blk n k) = true then
          expand p D seen (blk n k) else some seen) = some seen₁ ∧ ∀ x ∈ seen₁, Fnd p D x := by
        by_cases hg : p.call (blk n k) = true
        · rw [if_pos hg]
          exact expand_fnd hn h1 hk hk1 hg hs
        · rw [if_neg hg]
          exact ⟨_, rfl, hs⟩
      rw [he]
      simp only [Option.bind_eq_bind, Option.bind_some]
      have := nextLoop_le hn seen₁ (fun x hx => ⟨(hs₁ x hx).1, (hs₁ x hx).2.1⟩) k
      refine ih (nextLoop n seen₁ k - 1) ?_ (by omega) seen₁ hs₁
      push_cast at hf
      omega
    · rw [if_neg hk]
      exact ⟨_, rfl, hs⟩

theorem depths_fnd (ds : List ℕ) (hd : ∀ d ∈ ds, 1 ≤ d ∧ d ≤ D) (seen : Seen)
    (hs : ∀ x ∈ seen, Fnd p D x) :
    ∃ seen', depths p D (ds.map fun d => ((d : ℕ) : ℤ)) seen = some seen' ∧
      ∀ x ∈ seen', Fnd p D x := by
  induction ds generalizing seen with
  | nil => exact ⟨_, rfl, hs⟩
  | cons d ds ih =>
    simp only [List.map_cons]
    unfold depths
    obtain ⟨hd1, hd2⟩ := hd d (by simp)
    have hle := nextLoop_le hd2 seen (fun x hx => ⟨(hs x hx).1, (hs x hx).2.1⟩) (2 ^ d)
    obtain ⟨seen₁, h1, h2⟩ := scan_fnd (p := p) hd2 hd1 (2 ^ d) (nextLoop d seen (2 ^ d) - 1)
      (by push_cast; omega) (by omega) seen hs
    rw [show (getNext seen ⟨2 ^ ((d : ℤ)).toNat, d, .clopen⟩) =
      blk d (nextLoop d seen (2 ^ d) - 1) by simp [getNext, blk],
      show ((d : ℤ)).toNat = d by simp, h1]
    simp only [Option.bind_eq_bind, Option.bind_some]
    exact ih (fun x hx => hd x (by simp [hx])) seen₁ h2

theorem depthList_eq (D : ℕ) :
    depthList D = ((List.range D).map (· + 1)).map fun d => ((d : ℕ) : ℤ) := by
  simp [depthList, Function.comp_def]

/-- The search stops, and everything it finds is made of adjacent good blocks. -/
theorem depths_found (p : ScaledPredicate) (D : ℕ) :
    ∃ seen, depths p D (depthList D) [] = some seen ∧ ∀ x ∈ seen, Fnd p D x := by
  rw [depthList_eq]
  exact depths_fnd _ (by simp; omega) [] (by simp)

/-! ## The predicate decides inclusion in a set -/

/-- An entry of `m_seen`, cut to the unit interval, is a maximal run of good cells. -/
structure Run (p : ScaledPredicate) (D : ℕ) (i s : ℤ) : Prop where
  lt : max i 0 < min s (2 ^ D)
  good : ∀ j, i ≤ j → j < s → good p D j
  left : 0 < i → ¬ Searcher.good p D (i - 1)
  right : s < 2 ^ D → ¬ Searcher.good p D s

theorem Run.eq_of_meet {i s i' s' j : ℤ} (h : Run p D i s) (h' : Run p D i' s')
    (h1 : i ≤ j) (h2 : j < s) (h1' : i' ≤ j) (h2' : j < s') (h0 : 0 ≤ j) (hM : j < 2 ^ D) :
    max i 0 = max i' 0 ∧ min s (2 ^ D) = min s' (2 ^ D) := by
  constructor
  · rcases lt_trichotomy (max i 0) (max i' 0) with hl | he | hl
    · exfalso
      exact h'.left (by omega) (h.good (i' - 1) (by omega) (by omega))
    · exact he
    · exfalso
      exact h.left (by omega) (h'.good (i - 1) (by omega) (by omega))
  · rcases lt_trichotomy (min s (2 ^ D)) (min s' (2 ^ D)) with hl | he | hl
    · exfalso
      exact h.right (by omega) (h'.good s (by omega) (by omega))
    · exact he
    · exfalso
      exact h'.right (by omega) (h.good s' (by omega) (by omega))

/-- the entries are ordered by supremum, the largest first -/
def Sorted (D : ℕ) (seen : Seen) : Prop := seen.Pairwise fun a b => val D b.1 < val D a.1

theorem assign_new {key value : Dyadic} (hk : Wf D key) {seen : Seen}
    (hs : ∀ x ∈ seen, Wf D x.1) (hne : ∀ x ∈ seen, val D x.1 ≠ val D key)
    (ho : Sorted D seen) :
    Sorted D (assign key value seen) ∧
      ∀ x, x ∈ assign key value seen ↔ x = (key, value) ∨ x ∈ seen := by
  induction seen with
  | nil => simp [assign, Sorted]
  | cons y rest ih =>
    obtain ⟨s, i⟩ := y
    have hw : Wf D s := hs (s, i) (by simp)
    have hn : val D s ≠ val D key := hne (s, i) (by simp)
    obtain ⟨ho1, ho2⟩ := List.pairwise_cons.1 ho
    unfold assign
    by_cases h1 : greater key s = true
    · rw [if_pos h1]
      refine ⟨?_, by simp⟩
      rw [greater_iff hk hw] at h1
      refine List.pairwise_cons.2 ⟨?_, ho⟩
      intro x hx
      rcases List.mem_cons.1 hx with rfl | hx
      · exact h1
      · exact (ho1 x hx).trans h1
    · rw [if_neg h1]
      rw [greater_iff hk hw] at h1
      have h2 : greater s key = true := by rw [greater_iff hw hk]; omega
      rw [if_pos h2]
      obtain ⟨ih1, ih2⟩ := ih (fun x hx => hs x (by simp [hx])) (fun x hx => hne x (by simp [hx]))
        ho2
      rw [greater_iff hw hk] at h2
      constructor
      · refine List.pairwise_cons.2 ⟨?_, ih1⟩
        intro x hx
        rcases (ih2 x).1 hx with rfl | hx
        · exact h2
        · exact ho1 x hx
      · intro x
        simp only [List.mem_cons, ih2 x]
        tauto

/-- what is known about `m_seen` at any time -/
structure Inv (p : ScaledPredicate) (D : ℕ) (seen : Seen) : Prop where
  sorted : Sorted D seen
  wf : ∀ x ∈ seen, Wf D x.1 ∧ Wf D x.2
  run : ∀ x ∈ seen, Run p D (val D x.2) (val D x.1)
  far : ∀ x ∈ seen, ∀ y ∈ seen, val D y.1 < val D x.1 → val D y.1 < 2 ^ D

/-- block `k` of depth `n` lies in an entry -/
def Covered (D : ℕ) (seen : Seen) (n : ℕ) (k : ℤ) : Prop :=
  ∃ x ∈ seen, val D x.2 ≤ k * e D n ∧ (k + 1) * e D n ≤ val D x.1

/-- `get_next_dyadic` skips only blocks that are covered or bad, and stops at a block that is
not covered. -/
theorem nextLoop_spec (ha : Additive p) {n : ℕ} (hn : n ≤ D) (seen : Seen) (hi : Inv p D seen)
    (k : ℤ) (hk : k ≤ 2 ^ n) :
    (∀ k', nextLoop n seen k ≤ k' → k' < k → 0 ≤ k' → p.call (blk n k') = true →
      Covered D seen n k') ∧
    ¬ Covered D seen n (nextLoop n seen k - 1) := by
  induction seen generalizing k with
  | nil =>
    refine ⟨fun k' h1 h2 => ?_, ?_⟩
    · simp only [nextLoop] at h1; omega
    · rintro ⟨x, hx, -⟩
      simp at hx
  | cons y rest ih =>
    obtain ⟨s, i⟩ := y
    have hwf : ∀ x ∈ rest, Wf D x.1 ∧ Wf D x.2 := fun x hx => hi.wf x (by simp [hx])
    have hi' : Inv p D rest :=
      ⟨(List.pairwise_cons.1 hi.sorted).2, hwf, fun x hx => hi.run x (by simp [hx]),
        fun x hx y hy => hi.far x (by simp [hx]) y (by simp [hy])⟩
    have hlt := (List.pairwise_cons.1 hi.sorted).1
    have hw : Wf D s ∧ Wf D i := hi.wf (s, i) (by simp)
    have hr : Run p D (val D i) (val D s) := hi.run (s, i) (by simp)
    have hp := e_pos D n
    have up : ∀ k', Covered D rest n k' → Covered D ((s, i) :: rest) n k' := by
      rintro k' ⟨x, hx, h⟩
      exact ⟨x, by simp [hx], h⟩
    unfold nextLoop
    by_cases h1 : (!less ⟨k, n⟩ i) = true
    · rw [if_pos h1]
      rw [not_less hn hw.2] at h1
      by_cases h2 : (!greater ⟨k, n⟩ s) = true
      · rw [if_pos h2]
        rw [not_greater hn hw.1] at h2
        have hle := skipTo_le hw.2 hn h1
        obtain ⟨hb1, hb2⟩ := skipTo_bounds hw.2 hn
        obtain ⟨ih1, ih2⟩ := ih hi' (skipTo n i) (by omega)
        have hle' := nextLoop_le hn rest hwf (skipTo n i)
        constructor
        · intro k' h3 h4 h5 h6
          by_cases h7 : k' < skipTo n i
          · exact up _ (ih1 k' h3 h7 h5 h6)
          · refine ⟨(s, i), by simp, ?_, ?_⟩
            · by_contra hc
              have h8 : k' * e D n < val D i := by simpa using hc
              have h9 : (skipTo n i + 1) * e D n ≤ (k' + 1) * e D n :=
                mul_le_mul_of_nonneg_right (by omega) hp.le
              have h10 : 0 ≤ k' * e D n := mul_nonneg h5 hp.le
              exact hr.left (by omega)
                ((block_iff ha hn k').1 h6 _ (by omega) (by omega))
            · have : (k' + 1) * e D n ≤ k * e D n := mul_le_mul_of_nonneg_right (by omega) hp.le
              simp only; omega
        · rintro ⟨x, hx, h3, h4⟩
          rcases List.mem_cons.1 hx with rfl | hx
          · have : nextLoop n rest (skipTo n i) * e D n ≤ skipTo n i * e D n :=
              mul_le_mul_of_nonneg_right hle' hp.le
            rw [sub_mul] at h3
            simp only at h3
            omega
          · exact ih2 ⟨x, hx, h3, h4⟩
      · rw [if_neg h2]
        rw [not_greater hn hw.1] at h2
        constructor
        · intro k' h3 h4; omega
        · rintro ⟨x, hx, h3, h4⟩
          rw [sub_add_cancel] at h4
          rcases List.mem_cons.1 hx with rfl | hx
          · exact h2 h4
          · have := hlt x hx
            simp only at this
            omega
    · rw [if_neg h1]
      rw [not_less hn hw.2] at h1
      obtain ⟨ih1, ih2⟩ := ih hi' k hk
      refine ⟨fun k' h3 h4 h5 h6 => up _ (ih1 k' h3 h4 h5 h6), ?_⟩
      rintro ⟨x, hx, h3, h4⟩
      rcases List.mem_cons.1 hx with rfl | hx
      · have hle' := nextLoop_le hn rest hwf k
        have : nextLoop n rest k * e D n ≤ k * e D n := mul_le_mul_of_nonneg_right hle' hp.le
        rw [sub_mul] at h3
        simp only at h3
        omega
      · exact ih2 ⟨x, hx, h3, h4⟩

/-- everything of smaller depth, and everything of depth `n` beyond `k`, has been dealt with -/
def Done (p : ScaledPredicate) (D : ℕ) (seen : Seen) (n : ℕ) (k : ℤ) : Prop :=
  ∀ (m : ℕ) (k' : ℤ), (m < n ∨ (m = n ∧ k < k')) → 0 ≤ k' → k' < 2 ^ m →
    p.call (blk m k') = true → Covered D seen m k'

/-- `expand` finds the maximal run of good cells around a block that is not covered yet. -/
theorem expand_run (ha : Additive p) {n : ℕ} (hn : n ≤ D) (h1 : 1 ≤ n) {k : ℤ} (hk0 : 0 ≤ k)
    (hk1 : k < 2 ^ n) (hg : p.call (blk n k) = true) {seen : Seen} (hi : Inv p D seen)
    (hd : Done p D seen n k) (hc : ¬ Covered D seen n k) :
    ∃ seen', expand p D seen (blk n k) = some seen' ∧ Inv p D seen' ∧
      (∀ m k', Covered D seen m k' → Covered D seen' m k') ∧ Covered D seen' n k := by
  obtain ⟨l, i, s, h2, h3, h4, h5, h6, -, -, h7, h8⟩ := expandFound_spec n hn h1 k hg
  have hp := e_pos D n
  have hu := e_unit hn
  have hcell := (block_iff ha hn k).1 hg
  have hk2 : (k + 1) * e D n ≤ 2 ^ D := by
    rw [← hu]; exact mul_le_mul_of_nonneg_right (by omega) hp.le
  have hk3 : 0 ≤ k * e D n := mul_nonneg hk0 hp.le
  have hk4 : (k + 1) * e D n = k * e D n + e D n := by ring
  obtain ⟨n', rfl⟩ : ∃ n', n = n' + 1 := ⟨n - 1, by omega⟩
  have hes := e_succ (show n' < D by omega)
  have hpow : (2 : ℤ) ^ (n' + 1) = 2 * 2 ^ n' := by ring
  -- a parent that is good would be covered
  have hparent : ∀ q, 0 ≤ q → q < 2 ^ n' → p.call (blk (n' + 1) (2 * q)) = true →
      p.call (blk (n' + 1) (2 * q + 1)) = true → ∃ x ∈ seen,
        val D x.2 ≤ 2 * q * e D (n' + 1) ∧ (2 * q + 2) * e D (n' + 1) ≤ val D x.1 := by
    intro q hq0 hq1 ha1 ha2
    obtain ⟨x, hx, hx1, hx2⟩ := hd n' q (Or.inl (by omega)) hq0 hq1 ((ha n' q).2 ⟨ha1, ha2⟩)
    rw [hes] at hx1 hx2
    exact ⟨x, hx, by linarith, by linarith⟩
  have hrun : Run p D i s := by
    refine ⟨?_, fun j hj1 hj2 => h4.good ha j hj1 hj2, ?_, ?_⟩
    · omega
    · intro hi0
      by_cases hk : k = 0
      · subst hk
        simp at h5
        omega
      · refine h7 ha ?_ ?_
        · intro hodd
          rw [← Bool.not_eq_true]
          intro hb
          obtain ⟨x, hx, hx1, hx2⟩ := hparent (k / 2) (by omega) (by omega)
            (by rw [show 2 * (k / 2) = k - 1 by omega]; exact hb)
            (by rw [show 2 * (k / 2) + 1 = k by omega]; exact hg)
          rw [show 2 * (k / 2) = k - 1 by omega] at hx1 hx2
          refine hc ⟨x, hx, ?_, ?_⟩
          · rw [sub_mul] at hx1; omega
          · rw [show k - 1 + 2 = k + 1 by ring] at hx2; exact hx2
        · intro heven hb1
          rw [← Bool.not_eq_true]
          intro hb2
          obtain ⟨x, hx, hx1, hx2⟩ := hparent (k / 2 - 1) (by omega) (by omega)
            (by rw [show 2 * (k / 2 - 1) = k - 2 by omega]; exact hb2)
            (by rw [show 2 * (k / 2 - 1) + 1 = k - 1 by omega]; exact hb1)
          rw [show 2 * (k / 2 - 1) = k - 2 by omega] at hx1 hx2
          rw [sub_add_cancel] at hx2
          rw [sub_mul] at hx1
          have hlt : val D x.1 < (k + 1) * e D (n' + 1) := by
            by_contra hge
            exact hc ⟨x, hx, by omega, by omega⟩
          exact (hi.run x hx).right (by omega) (hcell _ hx2 hlt)
    · intro hs
      by_cases hk : k + 1 < 2 ^ (n' + 1)
      · refine h8 ha ?_
        rw [← Bool.not_eq_true]
        intro hb
        obtain ⟨x, hx, hx1, hx2⟩ := hd (n' + 1) (k + 1) (Or.inr ⟨rfl, by omega⟩) (by omega) hk hb
        have h9 : (k + 1 + 1) * e D (n' + 1) = (k + 1) * e D (n' + 1) + e D (n' + 1) := by ring
        have hlt : k * e D (n' + 1) < val D x.2 := by
          by_contra hge
          exact hc ⟨x, hx, by omega, by omega⟩
        exact (hi.run x hx).left (by omega) (hcell _ (by omega) (by omega))
      · have : k + 1 = 2 ^ (n' + 1) := by omega
        rw [this, hu] at h6
        omega
  obtain ⟨a, ha1, hwa, hva⟩ := h4.head h3
  obtain ⟨b, hb1, hwb, hvb⟩ := h4.last h3
  have hmin : ∀ x ∈ seen, min (val D x.1) (2 ^ D) ≠ min s (2 ^ D) := by
    intro x hx heq
    have hrx := hi.run x hx
    have l1 := hrx.lt
    have l2 := hrun.lt
    obtain ⟨e1, e2⟩ := hrx.eq_of_meet hrun (j := min s (2 ^ D) - 1) (by omega) (by omega)
      (by omega) (by omega) (by omega) (by omega)
    exact hc ⟨x, hx, by omega, by omega⟩
  have hne : ∀ x ∈ seen, val D x.1 ≠ val D b.dsup := by
    intro x hx heq
    exact hmin x hx (by rw [heq, hvb])
  obtain ⟨as1, as2⟩ := assign_new (value := a.dinf) hwb (fun x hx => (hi.wf x hx).1) hne hi.sorted
  unfold expand
  rw [h2]
  simp only [Option.bind_eq_bind, Option.bind_some, ha1, hb1]
  refine ⟨_, rfl, ⟨as1, ?_, ?_, ?_⟩, ?_, ?_⟩
  · intro x hx
    rcases (as2 x).1 hx with rfl | hx
    · exact ⟨hwb, hwa⟩
    · exact hi.wf x hx
  · intro x hx
    rcases (as2 x).1 hx with rfl | hx
    · simp only
      rw [hva, hvb]
      exact hrun
    · exact hi.run x hx
  · intro x hx y hy hlt
    rcases (as2 x).1 hx with rfl | hx <;> rcases (as2 y).1 hy with rfl | hy
    · exact absurd hlt (lt_irrefl _)
    · simp only at hlt
      have := hmin y hy
      omega
    · simp only at hlt ⊢
      have := hmin x hx
      omega
    · exact hi.far x hx y hy hlt
  · rintro m k' ⟨x, hx, hx1⟩
    exact ⟨x, (as2 x).2 (Or.inr hx), hx1⟩
  · exact ⟨_, (as2 _).2 (Or.inl rfl), by simp only; omega, by simp only; omega⟩

theorem scan_run (ha : Additive p) {n : ℕ} (hn : n ≤ D) (h1 : 1 ≤ n) (fuel : ℕ) (k : ℤ)
    (hf : k < fuel) (hk1 : k < 2 ^ n) (seen : Seen) (hi : Inv p D seen)
    (hd : Done p D seen n k) (hc : ¬ Covered D seen n k) :
    ∃ seen', scan p D fuel seen (blk n k) = some seen' ∧ Inv p D seen' ∧
      Done p D seen' n (-1) := by
  induction fuel generalizing k seen with
  | zero =>
    unfold scan
    rw [if_neg (by simp only [blk]; push_cast at hf; omega)]
    refine ⟨_, rfl, hi, fun m k' h h0 => hd m k' ?_ h0⟩
    push_cast at hf
    omega
  | succ fuel ih =>
    unfold scan
    by_cases hk : (blk n k).k ≥ 0
    · rw [if_pos hk]
      simp only [blk] at hk
      simp only
      obtain ⟨seen₁, he, hi₁, hm, hg⟩ : ∃ seen₁, (if p.call (blk n k) = true then
          expand p D seen (blk n k) else some seen) = some seen₁ ∧ Inv p D seen₁ ∧
          (∀ m k', Covered D seen m k' → Covered D seen₁ m k') ∧
          (p.call (blk n k) = true → Covered D seen₁ n k) := by
        by_cases hg : p.call (blk n k) = true
        · rw [if_pos hg]
          obtain ⟨s, a, b, c, d⟩ := expand_run ha hn h1 hk hk1 hg hi hd hc
          exact ⟨s, a, b, c, fun _ => d⟩
        · rw [if_neg hg]
          exact ⟨_, rfl, hi, fun _ _ h => h, fun h => absurd h hg⟩
      rw [he]
      simp only [Option.bind_some]
      have hle := nextLoop_le hn seen₁ hi₁.wf k
      obtain ⟨n1, n2⟩ := nextLoop_spec ha hn seen₁ hi₁ k (by omega)
      refine ih (nextLoop n seen₁ k - 1) ?_ (by omega) seen₁ hi₁ ?_ n2
      · push_cast at hf
        omega
      · rintro m k' hmk h0 hk' hgood
        by_cases hold : m < n ∨ (m = n ∧ k < k')
        · exact hm m k' (hd m k' hold h0 hk' hgood)
        · obtain ⟨rfl, hk2⟩ : m = n ∧ nextLoop n seen₁ k - 1 < k' := by omega
          by_cases hkk : k' = k
          · subst hkk
            exact hg hgood
          · exact n1 k' (by omega) (by omega) h0 hgood
    · rw [if_neg hk]
      simp only [blk] at hk
      exact ⟨_, rfl, hi, fun m k' h h0 => hd m k' (by omega) h0⟩

theorem depths_run (ha : Additive p) (t d : ℕ) (hd : d + t = D) (seen : Seen)
    (hi : Inv p D seen) (hdone : Done p D seen d (-1)) :
    ∃ seen', depths p D (((List.range' (d + 1) t)).map fun d => ((d : ℕ) : ℤ)) seen = some seen' ∧
      Inv p D seen' ∧ Done p D seen' D (-1) := by
  induction t generalizing d seen with
  | zero =>
    obtain rfl : d = D := by omega
    exact ⟨seen, by simp [depths], hi, hdone⟩
  | succ t ih =>
    rw [List.range'_succ]
    simp only [List.map_cons]
    unfold depths
    have hd2 : d + 1 ≤ D := by omega
    have hle := nextLoop_le hd2 seen hi.wf (2 ^ (d + 1))
    obtain ⟨n1, n2⟩ := nextLoop_spec ha hd2 seen hi (2 ^ (d + 1)) (le_refl _)
    obtain ⟨seen₁, h1, h2, h3⟩ := scan_run ha hd2 (by omega) (2 ^ (d + 1))
      (nextLoop (d + 1 : ℕ) seen (2 ^ (d + 1)) - 1) (by push_cast at hle ⊢; omega) (by omega)
      seen hi (by
        intro m k' hmk h0 hk' hgood
        by_cases hm : m < d + 1
        · exact hdone m k' (by omega) h0 hk' hgood
        · obtain ⟨rfl, hk2⟩ : m = d + 1 ∧
            nextLoop (d + 1 : ℕ) seen (2 ^ (d + 1)) - 1 < k' := by omega
          exact n1 k' (by omega) hk' h0 hgood) n2
    rw [show (getNext seen ⟨2 ^ (((d + 1 : ℕ) : ℤ)).toNat, ((d + 1 : ℕ) : ℤ), .clopen⟩) =
      blk (d + 1) (nextLoop (d + 1 : ℕ) seen (2 ^ (d + 1)) - 1) by
        simp only [getNext, blk, Int.toNat_natCast],
      show (((d + 1 : ℕ) : ℤ)).toNat = d + 1 by simp, h1]
    simp only [Option.bind_eq_bind, Option.bind_some]
    exact ih (d + 1) (by omega) seen₁ h2 h3

/-- What the search has found in the end: the maximal runs of good cells. -/
theorem depths_runs (ha : Additive p) (h0 : p.call (blk 0 0) = false) :
    ∃ seen, depths p D (depthList D) [] = some seen ∧ Inv p D seen ∧
      ∀ j, 0 ≤ j → j < 2 ^ D → good p D j → Covered D seen D j := by
  obtain ⟨seen, h1, h2, h3⟩ := depths_run (D := D) ha D 0 (by omega) []
    ⟨by simp [Sorted], by simp, by simp, by simp⟩ (by
      intro m k' hm hk0 hk1 hg
      obtain rfl : m = 0 := by omega
      obtain rfl : k' = 0 := by simp at hk1; omega
      rw [h0] at hg; cases hg)
  refine ⟨seen, ?_, h2, fun j hj0 hj1 hg => h3 D j (Or.inr ⟨rfl, by omega⟩) hj0 hj1 hg⟩
  rw [depthList_eq, ← h1]
  congr 2
  rw [List.range_eq_range', List.range'_eq_map_range, List.range'_eq_map_range]
  simp [Function.comp_def, add_comm]

end RoughPy.Intervals.Searcher
