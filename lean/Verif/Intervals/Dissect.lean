import Verif.Intervals.Lemmas

/-! Lemmas about the two loops of `to_dyadic_intervals`. -/

namespace RoughPy.Intervals

open RoughPy.Intervals.Dyadic

theorem tilesFrom_append (l₁ l₂ : List DyadicInterval) (a b c : ℚ)
    (h₁ : TilesFrom l₁ a b) (h₂ : TilesFrom l₂ b c) : TilesFrom (l₁ ++ l₂) a c := by
  induction l₁ generalizing a with
  | nil => simp only [TilesFrom] at h₁; subst h₁; simpa using h₂
  | cons d l ih => exact ⟨h₁.1, ih _ h₁.2⟩

theorem containsDyadic_clopen (k m b n : ℤ) (h : m ≤ n) :
    (⟨k, m, .clopen⟩ : DyadicInterval).containsDyadic ⟨b, n, .clopen⟩ = true ↔
      k = b / pow2 (n - m) := by
  unfold DyadicInterval.containsDyadic
  have hP := pow2_pos (n - m)
  rw [if_neg (by simp), if_pos h]
  simp only [DyadicInterval.unit, DyadicInterval.unitOf, mul_one, one_mul, mod_eq_emod _ _ hP,
    shift_eq, decide_eq_true_eq]
  have h1 := Int.emod_add_mul_ediv b (pow2 (n - m))
  rw [show b - b % pow2 (n - m) = (b / pow2 (n - m)) * pow2 (n - m) by
    rw [mul_comm]; omega]
  exact mul_right_cancel_iff_of_pos hP

theorem pow2_succ (e : ℤ) (h : 0 ≤ e) : pow2 (e + 1) = pow2 e * 2 := by
  unfold pow2
  rw [show (e + 1).toNat = e.toNat + 1 by omega, pow_succ]

theorem floor_half (b n m : ℤ) (h : m ≤ n) :
    b / pow2 (n - (m - 1)) = b / pow2 (n - m) / 2 := by
  rw [show n - (m - 1) = (n - m) + 1 by ring, pow2_succ _ (by omega),
    Int.ediv_ediv_of_nonneg (pow2_pos _).le]

theorem dyadicValue_half (k m : ℤ) : dyadicValue (k * 2) m = dyadicValue k (m - 1) := by
  have := dyadicValue_shift k (m - 1) m (by omega)
  rwa [show m - (m - 1) = 1 by ring, pow2_one] at this

theorem loop1_spec (b n : ℤ) : ∀ (fuel : ℕ) (acc : List DyadicInterval) (k m : ℤ),
    m ≤ n → k ≤ b / pow2 (n - m) → (b / pow2 (n - m) - k).toNat ≤ fuel →
    ∃ l k' m', dissectLoop1 fuel acc ⟨k, m, .clopen⟩ ⟨b, n, .clopen⟩
        = some (acc ++ l, ⟨k', m', .clopen⟩) ∧
      m' ≤ m ∧ k' = b / pow2 (n - m') ∧ TilesFrom l (dyadicValue k m) (dyadicValue k' m') ∧
      (∀ d ∈ l, d.type = .clopen ∧ d.n ≤ m) := by
  intro fuel
  induction fuel with
  | zero =>
    intro acc k m hm hk hf
    refine ⟨[], k, m, ?_, le_rfl, by omega, rfl, by simp⟩
    unfold dissectLoop1
    rw [if_pos ((containsDyadic_clopen _ _ _ _ hm).mpr (by omega))]
    simp
  | succ fuel ih =>
    intro acc k m hm hk hf
    by_cases hc : k = b / pow2 (n - m)
    · refine ⟨[], k, m, ?_, le_rfl, hc, rfl, by simp⟩
      unfold dissectLoop1
      rw [if_pos ((containsDyadic_clopen _ _ _ _ hm).mpr hc)]
      simp
    · have hlt : k < b / pow2 (n - m) := by omega
      have hh := floor_half b n m hm
      unfold dissectLoop1
      rw [if_neg (by rw [containsDyadic_clopen _ _ _ _ hm]; exact hc)]
      rw [expand_eq _ 1 (by norm_num) intDigits_gt_one, aligned_clopen_eq _ rfl]
      simp only [pow2_one, Option.bind_eq_bind, Option.bind_some]
      rcases Int.emod_two_eq_zero_or_one k with he | ho
      · simp only [he, decide_true, Bool.not_true, Bool.false_eq_true, if_false]
        obtain ⟨l, k', m', h1, h2, h3, h4, h5⟩ :=
          ih acc (k / 2) (m - 1) (by omega) (by omega) (by omega)
        refine ⟨l, k', m', h1, by omega, h3, ?_, fun d hd => ⟨(h5 d hd).1, by have := (h5 d hd).2; omega⟩⟩
        rw [← dyadicValue_half, show k / 2 * 2 = k by omega] at h4
        exact h4
      · simp only [ho, one_ne_zero, decide_false, Bool.not_false, if_true]
        rw [shrinkToOmittedEnd_eq]
        simp only [Option.bind_some, DyadicInterval.advance, DyadicInterval.unit,
          DyadicInterval.unitOf]
        obtain ⟨l, k', m', h1, h2, h3, h4, h5⟩ :=
          ih (acc ++ [⟨k / 2 * 2 + 1, m - 1 + 1, .clopen⟩]) (k / 2 + 1) (m - 1)
            (by omega) (by omega) (by omega)
        refine ⟨⟨k / 2 * 2 + 1, m - 1 + 1, .clopen⟩ :: l, k', m', ?_, by omega, h3, ?_, ?_⟩
        · rw [h1]; simp
        · rw [← dyadicValue_half, show (k / 2 + 1) * 2 = k + 1 by omega] at h4
          refine ⟨?_, ?_⟩
          · simp only [DyadicInterval.left]
            rw [show k / 2 * 2 + 1 = k by omega, show m - 1 + 1 = m by ring]
          · simp only [DyadicInterval.right]
            rw [show k / 2 * 2 + 1 = k by omega, show m - 1 + 1 = m by ring]
            exact h4
        · intro d hd
          rcases List.mem_cons.mp hd with rfl | hd
          · simp
          · exact ⟨(h5 d hd).1, by have := (h5 d hd).2; omega⟩

theorem loop2_spec (k' m' : ℤ) : ∀ (fuel : ℕ) (tail : List DyadicInterval) (b n : ℤ),
    m' ≤ n → k' = b / pow2 (n - m') → (n - m').toNat ≤ fuel →
    ∃ l, dissectLoop2 fuel tail ⟨k', m', .clopen⟩ ⟨b, n, .clopen⟩ = some (l ++ tail) ∧
      TilesFrom l (dyadicValue k' m') (dyadicValue b n) ∧
      (∀ d ∈ l, d.type = .clopen ∧ d.n ≤ n) := by
  intro fuel
  induction fuel with
  | zero =>
    intro tail b n hm hk hf
    have : n = m' := by omega
    subst this
    refine ⟨[], ?_, ?_, by simp⟩
    · unfold dissectLoop2
      rw [expand_eq _ 1 (by norm_num) intDigits_gt_one]
      simp [DyadicInterval.containsDyadic]
    · rw [sub_self, pow2_zero, Int.ediv_one] at hk
      rw [hk]; rfl
  | succ fuel ih =>
    intro tail b n hm hk hf
    by_cases hmn : n = m'
    · subst hmn
      refine ⟨[], ?_, ?_, by simp⟩
      · unfold dissectLoop2
        rw [expand_eq _ 1 (by norm_num) intDigits_gt_one]
        simp [DyadicInterval.containsDyadic]
      · rw [sub_self, pow2_zero, Int.ediv_one] at hk
        rw [hk]; rfl
    · have hk2 : k' = b / 2 / pow2 (n - 1 - m') := by
        rw [hk, show n - m' = (n - 1 - m') + 1 by ring, pow2_succ _ (by omega), mul_comm,
          Int.ediv_ediv_of_nonneg (by norm_num)]
      unfold dissectLoop2
      rw [expand_eq _ 1 (by norm_num) intDigits_gt_one, aligned_clopen_eq _ rfl]
      simp only [pow2_one, Option.bind_eq_bind, Option.bind_some]
      rw [if_pos ((containsDyadic_clopen _ _ _ _ (by omega)).mpr hk2)]
      rcases Int.emod_two_eq_zero_or_one b with he | ho
      · simp only [he, decide_true, Bool.not_true, Bool.false_eq_true, if_false]
        obtain ⟨l, h1, h2, h3⟩ := ih tail (b / 2) (n - 1) (by omega) hk2 (by omega)
        refine ⟨l, h1, ?_, fun d hd => ⟨(h3 d hd).1, by have := (h3 d hd).2; omega⟩⟩
        rwa [← dyadicValue_half (b / 2), show b / 2 * 2 = b by omega] at h2
      · simp only [ho, one_ne_zero, decide_false, Bool.not_false, if_true]
        rw [shrinkToContainedEnd_eq]
        simp only [Option.bind_some]
        obtain ⟨l, h1, h2, h3⟩ :=
          ih (⟨b / 2 * 2, n - 1 + 1, .clopen⟩ :: tail) (b / 2) (n - 1) (by omega) hk2 (by omega)
        refine ⟨l ++ [⟨b / 2 * 2, n - 1 + 1, .clopen⟩], ?_, ?_, ?_⟩
        · rw [h1]; simp
        · refine tilesFrom_append _ _ _ _ _ h2 ⟨?_, ?_⟩
          · simp only [DyadicInterval.left]
            rw [show n - 1 + 1 = n by ring, dyadicValue_half]
          · simp only [DyadicInterval.right, TilesFrom]
            rw [show b / 2 * 2 + 1 = b by omega, show n - 1 + 1 = n by ring]
        · intro d hd
          rcases List.mem_append.mp hd with hd | hd
          · exact ⟨(h3 d hd).1, by have := (h3 d hd).2; omega⟩
          · simp only [List.mem_singleton] at hd
            subst hd; simp

theorem toDyadicIntervals_spec (inf sup : ℚ) (tol : ℤ) (h : inf ≤ sup) :
    ∃ fuel₀ : ℕ, ∃ l : List DyadicInterval,
      (∀ fuel ≥ fuel₀, toDyadicIntervals fuel inf sup tol .clopen = some l) ∧
      TilesFrom l (dyadicValue ⌊inf * 2 ^ tol⌋ tol) (dyadicValue ⌊sup * 2 ^ tol⌋ tol) ∧
      ∀ d ∈ l, d.type = .clopen ∧ d.n ≤ tol := by
  set k := ⌊inf * 2 ^ tol⌋ with hk
  set b := ⌊sup * 2 ^ tol⌋ with hb
  have hkb : k ≤ b := Int.floor_le_floor (mul_le_mul_of_nonneg_right h (two_zpow_pos tol).le)
  have e0 : b / pow2 (tol - tol) = b := by rw [sub_self, pow2_zero, Int.ediv_one]
  -- determine the result for one particular fuel, then show the result is the same for more
  have key : ∀ fuel, (b - k).toNat ≤ fuel →
      ∃ l k' m', dissectLoop1 fuel [] ⟨k, tol, .clopen⟩ ⟨b, tol, .clopen⟩
        = some (l, ⟨k', m', .clopen⟩) ∧
      m' ≤ tol ∧ k' = b / pow2 (tol - m') ∧ TilesFrom l (dyadicValue k tol) (dyadicValue k' m') ∧
      (∀ d ∈ l, d.type = .clopen ∧ d.n ≤ tol) := by
    intro fuel hf
    obtain ⟨l, k', m', h1, h2⟩ := loop1_spec b tol fuel [] k tol le_rfl (by rw [e0]; exact hkb)
      (by rw [e0]; exact hf)
    exact ⟨l, k', m', by simpa using h1, h2⟩
  -- more fuel gives the same result
  have mono1 : ∀ (fuel : ℕ) (acc : List DyadicInterval) (s e : DyadicInterval) r,
      dissectLoop1 fuel acc s e = some r → ∀ f' ≥ fuel, dissectLoop1 f' acc s e = some r := by
    intro fuel
    induction fuel with
    | zero =>
      intro acc s e r hr f' _
      unfold dissectLoop1 at hr ⊢
      by_cases hc : s.containsDyadic e
      · rw [if_pos hc] at hr ⊢; exact hr
      · rw [if_neg hc] at hr; simp at hr
    | succ fuel ih =>
      intro acc s e r hr f' hf'
      obtain ⟨g, rfl⟩ : ∃ g, f' = g + 1 := ⟨f' - 1, by omega⟩
      unfold dissectLoop1 at hr ⊢
      by_cases hc : s.containsDyadic e
      · rw [if_pos hc] at hr ⊢; exact hr
      · rw [if_neg hc] at hr ⊢
        simp only [Option.bind_eq_bind, Option.bind_eq_some_iff] at hr ⊢
        obtain ⟨nx, hn, al, ha, hr⟩ := hr
        refine ⟨nx, hn, al, ha, ?_⟩
        by_cases hal : (!al) = true
        · rw [if_pos hal] at hr ⊢
          simp only [Option.bind_eq_some_iff] at hr ⊢
          obtain ⟨x, hx, hr⟩ := hr
          exact ⟨x, hx, ih _ _ _ _ hr _ (by omega)⟩
        · rw [if_neg hal] at hr ⊢
          exact ih _ _ _ _ hr _ (by omega)
  have mono2 : ∀ (fuel : ℕ) (tl : List DyadicInterval) (s e : DyadicInterval) r,
      dissectLoop2 fuel tl s e = some r → ∀ f' ≥ fuel, dissectLoop2 f' tl s e = some r := by
    intro fuel
    induction fuel with
    | zero =>
      intro tl s e r hr f' _
      unfold dissectLoop2 at hr ⊢
      simp only [Option.bind_eq_bind, Option.bind_eq_some_iff] at hr ⊢
      obtain ⟨nx, hn, hr⟩ := hr
      refine ⟨nx, hn, ?_⟩
      by_cases hc : s.containsDyadic nx
      · rw [if_pos hc] at hr; simp at hr
      · rw [if_neg hc] at hr ⊢; exact hr
    | succ fuel ih =>
      intro tl s e r hr f' hf'
      obtain ⟨g, rfl⟩ : ∃ g, f' = g + 1 := ⟨f' - 1, by omega⟩
      unfold dissectLoop2 at hr ⊢
      simp only [Option.bind_eq_bind, Option.bind_eq_some_iff] at hr ⊢
      obtain ⟨nx, hn, hr⟩ := hr
      refine ⟨nx, hn, ?_⟩
      by_cases hc : s.containsDyadic nx
      · rw [if_pos hc] at hr ⊢
        simp only [Option.bind_eq_some_iff] at hr ⊢
        obtain ⟨al, ha, hr⟩ := hr
        refine ⟨al, ha, ?_⟩
        by_cases hal : (!al) = true
        · rw [if_pos hal] at hr ⊢
          simp only [Option.bind_eq_some_iff] at hr ⊢
          obtain ⟨x, hx, hr⟩ := hr
          exact ⟨x, hx, ih _ _ _ _ hr _ (by omega)⟩
        · rw [if_neg hal] at hr ⊢
          exact ih _ _ _ _ hr _ (by omega)
      · rw [if_neg hc] at hr ⊢; exact hr
  obtain ⟨l, k', m', h1, h2, h3, h4, h5⟩ := key (b - k).toNat le_rfl
  obtain ⟨l2, g1, g2, g3⟩ := loop2_spec k' m' (tol - m').toNat [] b tol h2 h3 le_rfl
  refine ⟨max (b - k).toNat (tol - m').toNat, l ++ l2, ?_, tilesFrom_append _ _ _ _ _ h4 g2, ?_⟩
  · intro fuel hf
    unfold toDyadicIntervals
    simp only [DyadicInterval.ofParam]
    rw [← hk, ← hb, mono1 _ _ _ _ _ h1 fuel (le_trans (le_max_left _ _) hf)]
    simp only [Option.bind_eq_bind, Option.bind_some]
    rw [mono2 _ _ _ _ _ g1 fuel (le_trans (le_max_right _ _) hf)]
    simp
  · intro d hd
    rcases List.mem_append.mp hd with hd | hd
    · exact h5 d hd
    · exact g3 d hd

end RoughPy.Intervals
