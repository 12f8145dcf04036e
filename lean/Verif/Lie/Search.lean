import Verif.Lie.HallLemmas

set_option linter.unusedSectionVars false

/-!
# Binary searches: degree of a key, lookup of a word
-/

namespace RoughPy.Lie

open RoughPy.Tensor (loop degreesUp)

theorem degreeLoop_spec (db : List ℕ) (key N : ℕ) (hN : N ≤ db.length) :
    ∀ fuel pos diff, pos + diff ≤ N → diff < fuel →
      (∀ i, i < pos → db.getD i 0 ≤ key) → (∀ i, pos + diff ≤ i → i < N → key < db.getD i 0) →
      db.Pairwise (· ≤ ·) →
      ∃ p, degreeLoop db key fuel pos diff = some p ∧ p ≤ N ∧ (∀ i, i < p → db.getD i 0 ≤ key) ∧
        (∀ i, p ≤ i → i < N → key < db.getD i 0) := by
  intro fuel
  induction fuel with
  | zero => intro pos diff _ h; omega
  | succ fuel ih =>
    intro pos diff h1 h2 h3 h4 h5
    simp only [degreeLoop]
    by_cases hd : 0 < diff
    · rw [if_pos hd]
      have hlt : pos + diff / 2 < db.length := by omega
      have hg : db[pos + diff / 2]? = some (db.getD (pos + diff / 2) 0) := by
        rw [List.getD_eq_getElem _ _ hlt, List.getElem?_eq_getElem hlt]
      rw [hg]
      simp only [Option.bind_eq_bind, Option.bind_some]
      by_cases hk : db.getD (pos + diff / 2) 0 ≤ key
      · rw [if_pos hk]
        refine ih _ _ (by omega) (by omega) ?_ ?_ h5
        · intro i hi
          exact le_trans (pairwise_getD h5 (by omega) hlt) hk
        · intro i hi hi2
          exact h4 i (by omega) hi2
      · rw [if_neg hk]
        refine ih _ _ (by omega) (by omega) h3 ?_ h5
        intro i hi hi2
        exact lt_of_lt_of_le (by omega) (pairwise_getD h5 (a := pos + diff / 2) (b := i) hi (by omega))
    · rw [if_neg hd]
      have : diff = 0 := by omega
      subst this
      exact ⟨pos, rfl, by omega, h3, h4⟩

theorem IsHallTable.degree_of {b : Basis} (hb : IsHallTable b) {k d : ℕ} (h : HasDegree b k d) :
    b.degree k = some (d : ℤ) := by
  obtain ⟨p, h1, h2, h3, h4⟩ := degreeLoop_spec b.db k (b.depth + 1) (by rw [hb.db_length]; omega)
    (b.depth + 2) 0 (b.depth + 1) (by omega) (by omega) (by intro i hi; omega) (by intro i hi hi2; omega)
    hb.db_sorted
  rw [hb.hasDegree_iff] at h
  unfold Basis.start at h
  have hp : p = d + 1 := by
    rcases Nat.lt_trichotomy p (d + 1) with h5 | h5 | h5
    · have := h4 d (by omega) (by omega); omega
    · exact h5
    · have := h3 (d + 1) h5; omega
  unfold Basis.degree
  rw [h1, hp]
  simp

/-- Keys beyond the table are given the degree of the table. -/
theorem IsHallTable.degree_beyond {b : Basis} (hb : IsHallTable b) {k : ℕ} (h : b.data.length ≤ k) :
    b.degree k = some (b.depth : ℤ) := by
  obtain ⟨p, h1, h2, h3, h4⟩ := degreeLoop_spec b.db k (b.depth + 1) (by rw [hb.db_length]; omega)
    (b.depth + 2) 0 (b.depth + 1) (by omega) (by omega) (by intro i hi; omega) (by intro i hi hi2; omega)
    hb.db_sorted
  have hp : p = b.depth + 1 := by
    by_contra hne
    have h5 := h4 p le_rfl (by omega)
    have h6 := hb.start_mono (c := p) (d := b.depth + 1) (by omega) le_rfl
    rw [hb.start_last] at h6
    unfold Basis.start at h6
    omega
  unfold Basis.degree
  rw [h1, hp]
  simp

theorem IsHallTable.start_zero {b : Basis} (hb : IsHallTable b) : b.start 0 = 0 := by
  have := hb.start_get (d := 0) (by omega)
  rw [hb.db_zero, Option.some.injEq] at this
  exact this.symm

theorem IsHallTable.start_one {b : Basis} (hb : IsHallTable b) : b.start 1 = 1 := by
  have := hb.start_get (d := 1) (by omega)
  rw [hb.db_one, Option.some.injEq] at this
  exact this.symm

theorem IsHallTable.start_two {b : Basis} (hb : IsHallTable b) : b.start 2 = 1 + b.width := by
  have := hb.start_get (d := 2) (by have := hb.depth_pos; omega)
  rw [hb.db_two, Option.some.injEq] at this
  exact this.symm

/-- Every row has a degree. -/
theorem IsHallTable.exists_degree {b : Basis} (hb : IsHallTable b) {k : ℕ} (h : k < b.data.length) :
    ∃ d, HasDegree b k d := by
  have h1 : ∀ d, d ≤ b.depth + 1 → k < b.start d → ∃ c, c < d ∧ b.start c ≤ k ∧ k < b.start (c + 1) := by
    intro d
    induction d with
    | zero => intro _ h; rw [hb.start_zero] at h; omega
    | succ d ih =>
      intro h2 h3
      by_cases h4 : k < b.start d
      · obtain ⟨c, h5, h6⟩ := ih (by omega) h4
        exact ⟨c, by omega, h6⟩
      · exact ⟨d, by omega, by omega, h3⟩
  obtain ⟨c, h2, h3, h4⟩ := h1 (b.depth + 1) le_rfl (by rw [hb.start_last]; exact h)
  exact ⟨c, hb.hasDegree_iff.2 ⟨by omega, h3, h4⟩⟩

theorem IsHallTable.degree_unique {b : Basis} (hb : IsHallTable b) {k c d : ℕ} (h : HasDegree b k c)
    (h' : HasDegree b k d) : c = d := by
  have h1 := hb.degree_of h
  rw [hb.degree_of h', Option.some.injEq] at h1
  omega

theorem IsHallTable.degree_pos {b : Basis} (hb : IsHallTable b) {k d : ℕ} (h : HasDegree b k d) (hk : 0 < k) :
    0 < d := by
  by_contra h0
  have : d = 0 := by omega
  subst this
  rw [hb.hasDegree_iff, hb.start_one] at h
  omega

theorem IsHallTable.pos_of_degree {b : Basis} (hb : IsHallTable b) {k d : ℕ} (h : HasDegree b k d) (hd : 0 < d) :
    0 < k := by
  rw [hb.hasDegree_iff] at h
  have := hb.start_mono (c := 1) (d := d) (by omega) (by omega)
  rw [hb.start_one] at this
  omega

/-- Keys are ordered by degree. -/
theorem IsHallTable.degree_mono {b : Basis} (hb : IsHallTable b) {k l c d : ℕ} (h : HasDegree b k c)
    (h' : HasDegree b l d) (hkl : k ≤ l) : c ≤ d := by
  by_contra hlt
  rw [hb.hasDegree_iff] at h h'
  have := hb.start_mono (c := d + 1) (d := c) (by omega) (by omega)
  omega

theorem IsHallTable.lt_of_degree_lt {b : Basis} (hb : IsHallTable b) {k l c d : ℕ} (h : HasDegree b k c)
    (h' : HasDegree b l d) (hcd : c < d) : k < l := by
  by_contra hlt
  have := hb.degree_mono h' h (by omega)
  omega

theorem IsHallTable.letter_iff {b : Basis} (hb : IsHallTable b) {k : ℕ} : HasDegree b k 1 ↔ 1 ≤ k ∧ k ≤ b.width := by
  rw [hb.hasDegree_iff, hb.start_one, hb.start_two]
  have := hb.depth_pos
  omega

/-! ## find_word -/

theorem wordLess_trans {a b c : ℕ × ℕ} (h : wordLess a b) (h' : wordLess b c) : wordLess a c := by
  unfold wordLess at *
  omega

theorem wordLess_irrefl (a : ℕ × ℕ) : ¬ wordLess a a := by unfold wordLess; omega

theorem wordLess_trichotomy (a b : ℕ × ℕ) : wordLess a b ∨ a = b ∨ wordLess b a := by
  obtain ⟨a1, a2⟩ := a
  obtain ⟨b1, b2⟩ := b
  unfold wordLess
  rw [Prod.mk.injEq]
  dsimp only
  omega

theorem findLoop_spec (data : List (ℕ × ℕ)) (target : ℕ × ℕ) (lo hi : ℕ) (hhi : hi ≤ data.length)
    (hs : ∀ k k' r r', lo ≤ k → k < k' → k' < hi → data[k]? = some r → data[k']? = some r' → wordLess r r') :
    ∀ fuel pos diff, lo ≤ pos → pos + diff ≤ hi → diff < fuel →
      (∀ i r, lo ≤ i → i < pos → data[i]? = some r → wordLess r target) →
      (∀ i r, pos + diff ≤ i → i < hi → data[i]? = some r → wordLess target r) →
      (∃ k, findLoop data target fuel pos diff = some (.inl k) ∧ lo ≤ k ∧ k < hi ∧ data[k]? = some target) ∨
      (∃ p, findLoop data target fuel pos diff = some (.inr p) ∧ lo ≤ p ∧ p ≤ hi ∧
        (∀ i r, lo ≤ i → i < p → data[i]? = some r → wordLess r target) ∧
        (∀ i r, p ≤ i → i < hi → data[i]? = some r → wordLess target r)) := by
  intro fuel
  induction fuel with
  | zero => intro pos diff _ _ h; omega
  | succ fuel ih =>
    intro pos diff h0 h1 h2 h3 h4
    simp only [findLoop]
    by_cases hd : 0 < diff
    · rw [if_pos hd]
      have hlt : pos + diff / 2 < data.length := by omega
      have hg := List.getElem?_eq_getElem hlt
      rw [hg]
      simp only [Option.bind_eq_bind, Option.bind_some]
      generalize data[pos + diff / 2] = test at hg ⊢
      by_cases he : test = target
      · rw [if_pos he]
        exact Or.inl ⟨_, rfl, by omega, by omega, by rw [hg, he]⟩
      · rw [if_neg he]
        by_cases hl : wordLess test target
        · rw [if_pos hl]
          refine ih _ _ (by omega) (by omega) (by omega) ?_ ?_
          · intro i r hi1 hi2 hr
            rcases Nat.lt_or_ge i (pos + diff / 2) with hi3 | hi3
            · exact wordLess_trans (hs _ _ _ _ hi1 hi3 (by omega) hr hg) hl
            · have : i = pos + diff / 2 := by omega
              subst this
              rw [hg, Option.some.injEq] at hr
              subst hr
              exact hl
          · intro i r hi1 hi2
            exact h4 i r (by omega) hi2
        · rw [if_neg hl]
          have hl' : wordLess target test := by
            rcases wordLess_trichotomy test target with h | h | h
            · exact absurd h hl
            · exact absurd h he
            · exact h
          refine ih _ _ (by omega) (by omega) (by omega) h3 ?_
          intro i r hi1 hi2 hr
          rcases Nat.lt_or_eq_of_le hi1 with hi3 | hi3
          · exact wordLess_trans hl' (hs _ _ _ _ (by omega) hi3 hi2 hg hr)
          · subst hi3
            rw [hg, Option.some.injEq] at hr
            subst hr
            exact hl'
    · rw [if_neg hd]
      have : diff = 0 := by omega
      subst this
      exact Or.inr ⟨pos, rfl, h0, by omega, h3, h4⟩

/-- The word is in the block: it is found. -/
theorem IsHallTable.findWord_some {b : Basis} (hb : IsHallTable b) {d k : ℕ} {target : ℕ × ℕ} (hd : 2 ≤ d)
    (hk : HasDegree b k d) (h : b.data[k]? = some target) : b.findWord target d = some (some k) := by
  have hk' := hb.hasDegree_iff.1 hk
  have hm := hb.start_mono (c := d + 1) (d := b.depth + 1) (by omega) le_rfl
  rw [hb.start_last] at hm
  have hm2 := hb.start_mono (c := d) (d := d + 1) (by omega) (by omega)
  have hs : ∀ k k' r r', b.start d ≤ k → k < k' → k' < b.start (d + 1) → b.data[k]? = some r →
      b.data[k']? = some r' → wordLess r r' := by
    intro k k' r r' h1 h2 h3 h4 h5
    exact hb.sorted d k k' r r' hd (hb.hasDegree_iff.2 ⟨hk'.1, h1, by omega⟩)
      (hb.hasDegree_iff.2 ⟨hk'.1, by omega, h3⟩) h2 h4 h5
  unfold Basis.findWord
  rw [if_neg (by omega), hb.start_get (d := d) (by omega), hb.start_get (d := d + 1) (by omega)]
  simp only [Option.bind_eq_bind, Option.bind_some]
  rcases findLoop_spec b.data target (b.start d) (b.start (d + 1)) hm hs
    (b.start (d + 1) - b.start d + 1) (b.start d) (b.start (d + 1) - b.start d) le_rfl (by omega) (by omega)
    (by intro i r h1 h2; omega) (by intro i r h1 h2; omega) with ⟨k', h1, h2, h3, h4⟩ | ⟨p, h1, h2, h3, h4, h5⟩
  · rw [h1]
    simp only [Option.bind_some, Option.some.injEq]
    rcases Nat.lt_trichotomy k' k with h6 | h6 | h6
    · exact absurd (hs _ _ _ _ h2 h6 (by omega) h4 h) (wordLess_irrefl _)
    · exact h6
    · exact absurd (hs _ _ _ _ (by omega) h6 h3 h h4) (wordLess_irrefl _)
  · exfalso
    rcases Nat.lt_or_ge k p with h6 | h6
    · exact wordLess_irrefl _ (h4 k _ (by omega) h6 h)
    · exact wordLess_irrefl _ (h5 k _ h6 (by omega) h)

/-- The word is not in the block, and some row from the block or after it is greater or some row
follows the block: the search says so. -/
theorem IsHallTable.findWord_none {b : Basis} (hb : IsHallTable b) {d : ℕ} {target : ℕ × ℕ} (hd : 2 ≤ d)
    (hdd : d ≤ b.depth) (h : ∀ k, HasDegree b k d → b.data[k]? ≠ some target)
    (hg : b.start (d + 1) < b.data.length ∨ ∃ k r, HasDegree b k d ∧ b.data[k]? = some r ∧ wordLess target r) :
    b.findWord target d = some none := by
  have hm := hb.start_mono (c := d + 1) (d := b.depth + 1) (by omega) le_rfl
  rw [hb.start_last] at hm
  have hm2 := hb.start_mono (c := d) (d := d + 1) (by omega) (by omega)
  have hs : ∀ k k' r r', b.start d ≤ k → k < k' → k' < b.start (d + 1) → b.data[k]? = some r →
      b.data[k']? = some r' → wordLess r r' := by
    intro k k' r r' h1 h2 h3 h4 h5
    exact hb.sorted d k k' r r' hd (hb.hasDegree_iff.2 ⟨hdd, h1, by omega⟩)
      (hb.hasDegree_iff.2 ⟨hdd, by omega, h3⟩) h2 h4 h5
  unfold Basis.findWord
  rw [if_neg (by omega), hb.start_get (d := d) (by omega), hb.start_get (d := d + 1) (by omega)]
  simp only [Option.bind_eq_bind, Option.bind_some]
  rcases findLoop_spec b.data target (b.start d) (b.start (d + 1)) hm hs
    (b.start (d + 1) - b.start d + 1) (b.start d) (b.start (d + 1) - b.start d) le_rfl (by omega) (by omega)
    (by intro i r h1 h2; omega) (by intro i r h1 h2; omega) with ⟨k', h1, h2, h3, h4⟩ | ⟨p, h1, h2, h3, h4, h5⟩
  · exact absurd h4 (h k' (hb.hasDegree_iff.2 ⟨hdd, h2, h3⟩))
  · rw [h1]
    simp only [Option.bind_some]
    have hp : p < b.data.length := by
      rcases hg with hg | ⟨k, r, h6, h7, h8⟩
      · omega
      · have h9 := hb.hasDegree_iff.1 h6
        rcases Nat.lt_or_ge k p with h10 | h10
        · exact absurd (wordLess_trans (h4 k r h9.2.1 h10 h7) h8) (wordLess_irrefl _)
        · have := h6.lt hb; omega
    rw [List.getElem?_eq_getElem hp]
    simp only [Option.bind_some, Option.some.injEq]
    rw [if_neg]
    rintro ⟨h6, h7⟩
    exact h p (hb.hasDegree_iff.2 ⟨hdd, h2, h6⟩) (by rw [List.getElem?_eq_getElem hp, h7])

end RoughPy.Lie
