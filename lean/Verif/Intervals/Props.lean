import Verif.Intervals.OrderLemmas

/-!
# Properties C01–C09 and C53: dyadics and intervals

The statements use only `dyadicValue`, `points`, `left`, `right`, `TilesFrom` (Spec.lean)
and the modelled API functions.
-/

namespace RoughPy.Intervals

/-! ## C01 — comparison of dyadics -/

/-- C01 fails: `Dyadic(1,0) < Dyadic(1,1)` is answered `true` although `1 > 1/2`;
all four operators are wrong on this pair. -/
theorem C01_dyadic_compare_refuted :
    (Dyadic.lt ⟨1, 0⟩ ⟨1, 1⟩ = true ∧ Dyadic.le ⟨1, 0⟩ ⟨1, 1⟩ = true ∧
      Dyadic.gt ⟨1, 0⟩ ⟨1, 1⟩ = false ∧ Dyadic.ge ⟨1, 0⟩ ⟨1, 1⟩ = false) ∧
    dyadicValue 1 1 < dyadicValue 1 0 := by
  refine ⟨by decide, ?_⟩
  norm_num [dyadicValue]

/-- C01, the part that holds: for equal powers the four operators compare the numbers.
Missing: different powers (where the claim is false, see `C01_dyadic_compare_refuted`). -/
theorem C01_dyadic_compare_partial (l r : Dyadic) (h : l.n = r.n) :
    (l.lt r = true ↔ dyadicValue l.k l.n < dyadicValue r.k r.n) ∧
    (l.le r = true ↔ dyadicValue l.k l.n ≤ dyadicValue r.k r.n) ∧
    (l.gt r = true ↔ dyadicValue l.k l.n > dyadicValue r.k r.n) ∧
    (l.ge r = true ↔ dyadicValue l.k l.n ≥ dyadicValue r.k r.n) := by
  simp [Dyadic.lt, Dyadic.le, Dyadic.gt, Dyadic.ge, h, dyadicValue_lt, dyadicValue_le,
    shift_eq, pow2_zero]

example : (⟨-3, 2⟩ : Dyadic).lt ⟨5, 2⟩ = true ∧ (⟨5, 2⟩ : Dyadic).lt ⟨-3, 2⟩ = false := by decide

/-- What `operator<` computes on all inputs: it compares `k·2^n` instead of `k/2^n`. -/
theorem C01_dyadic_lt_actual (l r : Dyadic) :
    l.lt r = true ↔ (l.k : ℚ) * 2 ^ l.n < (r.k : ℚ) * 2 ^ r.n := by
  have key : ∀ (a b n m : ℤ), n ≤ m →
      (((a : ℚ) * 2 ^ n < (b : ℚ) * 2 ^ m ↔ a < b * Dyadic.pow2 (m - n)) ∧
       ((b : ℚ) * 2 ^ m < (a : ℚ) * 2 ^ n ↔ b * Dyadic.pow2 (m - n) < a)) := by
    intro a b n m h
    have hp := two_zpow_pos n
    have e : (b : ℚ) * 2 ^ m = ((b * Dyadic.pow2 (m - n) : ℤ) : ℚ) * 2 ^ n := by
      push_cast
      rw [pow2_coe _ (by omega), mul_assoc, ← zpow_add₀ (by norm_num)]
      congr 2; ring
    rw [e, mul_lt_mul_iff_left₀ hp, mul_lt_mul_iff_left₀ hp]
    exact ⟨by exact_mod_cast Iff.rfl, by exact_mod_cast Iff.rfl⟩
  unfold Dyadic.lt
  split_ifs with h
  · rw [(key _ _ _ _ h).1, decide_eq_true_eq, shift_eq]
  · rw [(key _ _ _ _ (by omega : r.n ≤ l.n)).2, decide_eq_true_eq, shift_eq]

/-- `rational_equals` is equality of the denoted numbers, for all inputs. -/
theorem C01_rational_equals (l r : Dyadic) :
    l.rationalEquals r = true ↔ dyadicValue l.k l.n = dyadicValue r.k r.n :=
  rationalEquals_iff l r

example : (⟨4, 3⟩ : Dyadic).rationalEquals ⟨1, 1⟩ = true ∧
    (⟨-4, 3⟩ : Dyadic).rationalEquals ⟨1, 1⟩ = false := by decide

/-! ## C02 — rebase -/

/-- C02: for a request that does not trigger the 32-bit guard (`n < 31 + res`), `rebase`
keeps the number, answers `true` exactly if the power is now the requested one, and when it
answers `false` the number has no representation at any coarser power. -/
theorem C02_rebase (d : Dyadic) (res : ℤ) (h : d.n < 31 + res) :
    dyadicValue (d.rebase res).1.k (d.rebase res).1.n = dyadicValue d.k d.n ∧
    ((d.rebase res).2 = true ↔ (d.rebase res).1.n = res) ∧
    ((d.rebase res).2 = false → res < (d.rebase res).1.n ∧
      ∀ k' n', n' < (d.rebase res).1.n → dyadicValue k' n' ≠ dyadicValue d.k d.n) := by
  refine ⟨rebase_value d res, (rebase_unguarded d res h).1, fun hf => ?_⟩
  obtain ⟨h1, h2⟩ := (rebase_unguarded d res h).2 hf
  refine ⟨h1, fun k' n' hn => ?_⟩
  rw [← rebase_value d res]
  exact odd_not_coarser _ _ _ _ h2 hn

example : (⟨12, 5⟩ : Dyadic).rebase 3 = (⟨3, 3⟩, true) ∧
    (⟨12, 5⟩ : Dyadic).rebase 1 = (⟨3, 3⟩, false) ∧ (5 : ℤ) < 31 + 1 := by decide

/-- The value is kept even when the guard is triggered. -/
theorem C02_rebase_value (d : Dyadic) (res : ℤ) :
    dyadicValue (d.rebase res).1.k (d.rebase res).1.n = dyadicValue d.k d.n :=
  rebase_value d res

/-- Beyond the guard the answer `true` does not mean that the requested power was reached:
rebasing `2^30/2^31` to power 0 yields `1/2^1` and answers `true`. -/
theorem C02_rebase_guard_refuted :
    (⟨2 ^ 30, 31⟩ : Dyadic).rebase 0 = (⟨1, 1⟩, true) := by decide +kernel

/-! ## C03 — interval around a real number -/

/-- C03: length, membership, and uniqueness. -/
theorem C03_interval_of_real (x : ℚ) (res : ℤ) (t : IType) :
    let d := DyadicInterval.ofParam x res t
    d.n = res ∧ d.type = t ∧ d.right - d.left = 1 / 2 ^ res ∧ x ∈ d.points ∧
    ∀ d' : DyadicInterval, d'.n = res → d'.type = t → x ∈ d'.points → d' = d := by
  have hlen : ∀ d : DyadicInterval, d.right - d.left = 1 / 2 ^ d.n := by
    intro d
    unfold DyadicInterval.right DyadicInterval.left dyadicValue
    cases d.type <;> simp only <;> push_cast <;> ring
  have hn : (DyadicInterval.ofParam x res t).n = res := by
    unfold DyadicInterval.ofParam; cases t <;> rfl
  have ht : (DyadicInterval.ofParam x res t).type = t := by
    unfold DyadicInterval.ofParam; cases t <;> rfl
  refine ⟨hn, ht, by rw [hlen, hn], ?_, ?_⟩
  · unfold DyadicInterval.ofParam
    cases t <;> simp only <;> rw [mem_points_iff]
  · rintro ⟨k, n, t'⟩ rfl rfl hx
    rw [mem_points_iff] at hx
    unfold DyadicInterval.ofParam
    cases t' <;> simp only at hx ⊢ <;> rw [hx]

example : DyadicInterval.ofParam (-3/8) 2 .clopen = ⟨-2, 2, .clopen⟩ ∧
    DyadicInterval.ofParam (-3/8) 2 .opencl = ⟨-1, 2, .opencl⟩ := by
  constructor <;> (unfold DyadicInterval.ofParam; norm_num)

/-- `inf`, `sup`, `included_end`, `excluded_end` report the ends of the interval as a set. -/
theorem C03_ends (d : DyadicInterval) :
    d.points = span d.type d.inf d.sup ∧ d.inf < d.sup ∧ d.includedEnd ∈ d.points ∧
    d.excludedEnd ∉ d.points ∧
    ({d.includedEnd, d.excludedEnd} : Set ℚ) = {d.inf, d.sup} := by
  have hlt := left_lt_right d
  have h1 : d.includedEnd = match d.type with | .clopen => d.left | .opencl => d.right := by
    unfold DyadicInterval.includedEnd DyadicInterval.left DyadicInterval.right
    rw [toParam_eq]; cases d.type <;> rfl
  have h2 : d.excludedEnd = match d.type with | .clopen => d.right | .opencl => d.left := by
    unfold DyadicInterval.excludedEnd DyadicInterval.left DyadicInterval.right
      DyadicInterval.dexcludedEnd DyadicInterval.unit
    rw [toParam_eq]
    cases d.type <;> simp [DyadicInterval.unitOf, sub_eq_add_neg]
  rw [inf_eq_left, sup_eq_right, h1, h2, points_eq]
  refine ⟨rfl, hlt, ?_, ?_, ?_⟩
  · unfold span; cases d.type <;> simp [hlt]
  · unfold span; cases d.type <;> simp
  · cases d.type
    · rfl
    · exact Set.pair_comm _ _

/-! ## C04 — interval around a dyadic -/

/-- C04, for `d.n < 31 + res` (missing: the rest, where the 32-bit guard makes it false): the constructor succeeds, and the result is the unique
interval of that power and type that contains the point (if the point is at least as fine),
respectively the interval whose included end is the point (if the point is coarser). -/
theorem C04_interval_of_dyadic_partial (d : Dyadic) (res : ℤ) (t : IType) (h : d.n < 31 + res) :
    ∃ i, DyadicInterval.ofDyadic d res t = some i ∧ i.n = res ∧ i.type = t ∧
      dyadicValue d.k d.n ∈ i.points ∧
      (d.n ≤ res → dyadicValue i.k i.n = dyadicValue d.k d.n) ∧
      ∀ i' : DyadicInterval, i'.n = res → i'.type = t → dyadicValue d.k d.n ∈ i'.points →
        i' = i := by
  have hmem : dyadicValue d.k d.n ∈ (⟨roundTo t d.k d.n res, res, t⟩ : DyadicInterval).points := by
    rw [mem_points_iff]
    rcases le_or_gt res d.n with hr | hr
    · exact roundTo_floor _ _ _ hr t
    · rw [roundTo_fine _ _ _ _ hr.le, ← dyadicValue_shift d.k d.n res hr.le]
      unfold dyadicValue
      rw [div_mul_cancel₀ _ (two_zpow_pos res).ne']
      cases t
      · exact (Int.floor_intCast _).symm
      · exact (Int.ceil_intCast _).symm
  refine ⟨_, ofDyadic_eq d res t h, rfl, rfl, hmem, fun hr => ?_, ?_⟩
  · simp only
    rw [roundTo_fine _ _ _ _ hr, dyadicValue_shift _ _ _ hr]
  · rintro ⟨k, n, t'⟩ rfl rfl hx
    rw [mem_points_iff] at hx hmem
    rw [hx, ← hmem]

example : DyadicInterval.ofDyadic ⟨-5, 3⟩ 1 .clopen = some ⟨-2, 1, .clopen⟩ ∧
    DyadicInterval.ofDyadic ⟨-5, 3⟩ 1 .opencl = some ⟨-1, 1, .opencl⟩ ∧ (3 : ℤ) < 31 + 1 := by
  decide +kernel

/-- Beyond the guard the constructor silently returns an interval of a different length:
asking for the unit interval (power 0) around `2^30/2^31` yields `[1/2, 1)`. -/
theorem C04_interval_of_dyadic_guard_refuted :
    DyadicInterval.ofDyadic ⟨2 ^ 30, 31⟩ 0 .clopen = some ⟨1, 1, .clopen⟩ := by decide +kernel

/-! ## C05 — dyadic dissection -/

/-- C05 (clopen): the dissection of an interval terminates; the result consists of clopen
dyadic intervals no finer than the tolerance that lead, each starting where its predecessor
ends, from `⌊inf·2^tol⌋/2^tol` to `⌊sup·2^tol⌋/2^tol`. -/
theorem C05_dissection (inf sup : ℚ) (tol : ℤ) (h : inf ≤ sup) :
    ∃ fuel₀ : ℕ, ∃ l : List DyadicInterval,
      (∀ fuel ≥ fuel₀, toDyadicIntervals fuel inf sup tol .clopen = some l) ∧
      TilesFrom l (dyadicValue ⌊inf * 2 ^ tol⌋ tol) (dyadicValue ⌊sup * 2 ^ tol⌋ tol) ∧
      ∀ d ∈ l, d.type = .clopen ∧ d.n ≤ tol :=
  toDyadicIntervals_spec inf sup tol h

/-- A list of intervals that tiles `[a,b)` has union `[a,b)` and is in strictly increasing,
pairwise disjoint order. -/
theorem C05_tiling_is_partition (l : List DyadicInterval) (a b : ℚ) (h : TilesFrom l a b)
    (hc : ∀ d ∈ l, d.type = .clopen) :
    (∀ x, (∃ d ∈ l, x ∈ d.points) ↔ a ≤ x ∧ x < b) ∧
    l.Pairwise (fun d e => d.right ≤ e.left ∧ Disjoint d.points e.points) ∧ a ≤ b := by
  induction l generalizing a with
  | nil =>
    simp only [TilesFrom] at h
    subst h
    refine ⟨fun x => ?_, List.Pairwise.nil, le_rfl⟩
    simp
  | cons d l ih =>
    obtain ⟨h1, h2⟩ := h
    obtain ⟨i1, i2, i3⟩ := ih d.right h2 fun e he => hc e (List.mem_cons_of_mem _ he)
    have hd : d.type = .clopen := hc d (List.mem_cons_self ..)
    have hlt := left_lt_right d
    have hp : ∀ e : DyadicInterval, e.type = .clopen → ∀ x, x ∈ e.points ↔ e.left ≤ x ∧ x < e.right := by
      intro e he x
      rw [points_eq, he]; rfl
    refine ⟨fun x => ?_, List.Pairwise.cons ?_ i2, by linarith⟩
    · rw [List.exists_mem_cons_iff, i1 x, hp d hd, h1]
      constructor
      · rintro (⟨h3, h4⟩ | ⟨h3, h4⟩)
        · exact ⟨h3, by linarith⟩
        · exact ⟨by linarith, h4⟩
      · rintro ⟨h3, h4⟩
        rcases lt_or_ge x d.right with h5 | h5
        · exact Or.inl ⟨h3, h5⟩
        · exact Or.inr ⟨h5, h4⟩
    · intro e he
      have het := hc e (List.mem_cons_of_mem _ he)
      have hle : d.right ≤ e.left :=
        ((i1 e.left).mp ⟨e, he, (hp e het _).mpr ⟨le_rfl, left_lt_right e⟩⟩).1
      refine ⟨hle, Set.disjoint_left.mpr fun x hx hx' => ?_⟩
      have := ((hp d hd x).mp hx).2
      have := ((hp e het x).mp hx').1
      linarith

example : toDyadicIntervals 10 (1/4) (7/4) 2 .clopen
    = some [⟨1, 2, .clopen⟩, ⟨1, 1, .clopen⟩, ⟨2, 1, .clopen⟩, ⟨6, 2, .clopen⟩] := by decide +kernel

/-- C05 fails for the other interval type: unless the whole interval lies in one grid cell,
`to_dyadic_intervals(..., Opencl)` never returns (it keeps appending), because
`expand_interval` turns the running interval into a clopen one, which never contains the
opencl end interval. -/
theorem C05_opencl_never_returns (inf sup : ℚ) (tol : ℤ)
    (h : ⌈inf * 2 ^ tol⌉ ≠ ⌈sup * 2 ^ tol⌉) (fuel : ℕ) :
    toDyadicIntervals fuel inf sup tol .opencl = none := by
  have loop : ∀ (fuel : ℕ) (acc : List DyadicInterval) (s e : DyadicInterval),
      s.type = .clopen → e.type = .opencl → dissectLoop1 fuel acc s e = none := by
    intro fuel
    induction fuel with
    | zero =>
      intro acc s e hs he
      unfold dissectLoop1
      simp [DyadicInterval.containsDyadic, hs, he]
    | succ fuel ih =>
      intro acc s e hs he
      unfold dissectLoop1
      rw [if_neg (by simp [DyadicInterval.containsDyadic, hs, he]),
        expand_eq _ 1 (by norm_num) intDigits_gt_one, aligned_clopen_eq _ hs]
      simp only [Option.bind_eq_bind, Option.bind_some]
      split_ifs
      · rw [shrinkToOmittedEnd_eq]
        simp only [Option.bind_some]
        exact ih _ _ _ rfl he
      · exact ih _ _ _ rfl he
  unfold toDyadicIntervals
  simp only [DyadicInterval.ofParam, Option.bind_eq_bind]
  have : dissectLoop1 fuel [] ⟨⌈sup * 2 ^ tol⌉, tol, .opencl⟩ ⟨⌈inf * 2 ^ tol⌉, tol, .opencl⟩
      = none := by
    unfold dissectLoop1
    rw [if_neg]
    · cases fuel with
      | zero => rfl
      | succ fuel =>
        rw [expand_eq _ 1 (by norm_num) intDigits_gt_one]
        simp only [Option.bind_eq_bind, Option.bind_some, Option.bind_eq_none_iff]
        intro al _
        split_ifs
        · rw [shrinkToOmittedEnd_eq]
          simp only [Option.bind_some]
          exact loop _ _ _ _ rfl rfl
        · exact loop _ _ _ _ rfl rfl
    · have hc := containsDyadic_iff ⟨⌈sup * 2 ^ tol⌉, tol, .opencl⟩ ⟨⌈inf * 2 ^ tol⌉, tol, .opencl⟩
        rfl
      rw [hc]
      unfold DyadicInterval.left DyadicInterval.right
      simp only [dyadicValue_le]
      omega
  rw [this]; rfl

example : ⌈(0 : ℚ) * 2 ^ (0 : ℤ)⌉ ≠ ⌈(2 : ℚ) * 2 ^ (0 : ℤ)⌉ := by norm_num

/-! ## C06 — contains_dyadic -/

/-- C06: for intervals of the same type `contains_dyadic` is set inclusion. -/
theorem C06_contains_dyadic (a b : DyadicInterval) (h : a.type = b.type) :
    a.containsDyadic b = true ↔ b.points ⊆ a.points := by
  rw [containsDyadic_iff a b h, points_subset_iff a b h]

example : (⟨-1, 0, .opencl⟩ : DyadicInterval).containsDyadic ⟨-3, 1, .opencl⟩ = true ∧
    (⟨-1, 0, .opencl⟩ : DyadicInterval).containsDyadic ⟨-4, 1, .opencl⟩ = false := by
  decide +kernel

/-- For different types the answer is always `false` (even for, e.g., `[0,4) ⊇ (1,2]`). -/
theorem C06_contains_dyadic_mixed (a b : DyadicInterval) (h : a.type ≠ b.type) :
    a.containsDyadic b = false := by
  unfold DyadicInterval.containsDyadic
  rw [if_pos (fun he => h he.symm)]

/-! ## C07 — moving in the dyadic tree -/

/-- C07: the left and right halves exist, are dyadic intervals of the same type and half the
length, and partition the interval. -/
theorem C07_halves (d : DyadicInterval) :
    ∃ l r, d.shrinkLeft1 = some l ∧ d.shrinkRight = some r ∧
      l.type = d.type ∧ r.type = d.type ∧ l.n = d.n + 1 ∧ r.n = d.n + 1 ∧
      l.left = d.left ∧ l.right = r.left ∧ r.right = d.right ∧
      l.points ∪ r.points = d.points ∧ Disjoint l.points r.points := by
  obtain ⟨k, n, t⟩ := d
  have hv : ∀ j : ℤ, dyadicValue (j * 2) (n + 1) = dyadicValue j n := by
    intro j
    have := dyadicValue_half j (n + 1)
    rwa [show n + 1 - 1 = n by ring] at this
  cases t
  · refine ⟨⟨k * 2, n + 1, .clopen⟩, ⟨k * 2 + 1, n + 1, .clopen⟩, ?_, ?_, rfl, rfl, rfl, rfl,
      hv k, rfl, ?_, ?_, ?_⟩
    · unfold DyadicInterval.shrinkLeft1; rw [shrinkToContainedEnd_eq]
    · unfold DyadicInterval.shrinkRight; rw [shrinkToOmittedEnd_eq]; rfl
    · simp only [DyadicInterval.right]
      rw [← hv]; congr 1; ring
    · simp only [DyadicInterval.points]
      rw [Set.Ico_union_Ico_eq_Ico]
      · rw [hv, ← hv (k + 1)]; congr 2; ring
      · exact dyadicValue_le.mpr (by omega)
      · exact dyadicValue_le.mpr (by omega)
    · simp only [DyadicInterval.points]
      rw [Set.disjoint_left]
      intro x hx hx'
      exact absurd hx'.1 (not_le.mpr hx.2)
  · refine ⟨⟨k * 2 - 1, n + 1, .opencl⟩, ⟨k * 2, n + 1, .opencl⟩, ?_, ?_, rfl, rfl, rfl, rfl,
      ?_, rfl, hv k, ?_, ?_⟩
    · unfold DyadicInterval.shrinkLeft1; rw [shrinkToOmittedEnd_eq]
      simp [DyadicInterval.unit, DyadicInterval.unitOf, sub_eq_add_neg]
    · unfold DyadicInterval.shrinkRight; rw [shrinkToContainedEnd_eq]
    · simp only [DyadicInterval.left]
      rw [← hv]; congr 1; ring
    · simp only [DyadicInterval.points]
      rw [Set.Ioc_union_Ioc_eq_Ioc]
      · rw [hv, ← hv (k - 1)]; congr 2; ring
      · exact dyadicValue_le.mpr (by omega)
      · exact dyadicValue_le.mpr (by omega)
    · simp only [DyadicInterval.points]
      rw [Set.disjoint_left]
      intro x hx hx'
      exact absurd hx.2 (not_le.mpr hx'.1)

example : (⟨3, 1, .opencl⟩ : DyadicInterval).shrinkLeft1 = some ⟨5, 2, .opencl⟩ ∧
    (⟨3, 1, .opencl⟩ : DyadicInterval).shrinkRight = some ⟨6, 2, .opencl⟩ := by decide +kernel

/-- C07: `shrink_to_contained_end` keeps the included end, stays inside, and halves. -/
theorem C07_shrink_to_contained_end (d : DyadicInterval) :
    ∃ s, d.shrinkToContainedEnd = some s ∧ s.n = d.n + 1 ∧ s.type = d.type ∧
      s.includedEnd = d.includedEnd ∧ s.points ⊆ d.points := by
  have hv := dyadicValue_half d.k (d.n + 1)
  rw [show d.n + 1 - 1 = d.n by ring] at hv
  refine ⟨_, shrinkToContainedEnd_eq d, rfl, rfl, ?_, ?_⟩
  · unfold DyadicInterval.includedEnd
    rw [toParam_eq, toParam_eq]
    exact hv
  · obtain ⟨l, r, h1, h2, -, -, -, -, -, -, -, h3, -⟩ := C07_halves d
    rw [← h3]
    unfold DyadicInterval.shrinkLeft1 DyadicInterval.shrinkRight at *
    cases hd : d.type <;> simp only [hd] at h1 h2
    · rw [shrinkToContainedEnd_eq] at h1
      cases h1; rw [← hd]; exact Set.subset_union_left
    · rw [shrinkToContainedEnd_eq] at h2
      cases h2; rw [← hd]; exact Set.subset_union_right

/-- C07: `flip_interval` returns the sibling: same power and type, disjoint, and the two
together make up one dyadic interval of twice the length; applying it twice is the
identity. -/
theorem C07_flip (d : DyadicInterval) :
    d.flip.flip = d ∧ d.flip.n = d.n ∧ d.flip.type = d.type ∧ Disjoint d.points d.flip.points ∧
    ∃ p : DyadicInterval, p.n = d.n - 1 ∧ p.type = d.type ∧ d.points ∪ d.flip.points = p.points := by
  obtain ⟨k, n, t⟩ := d
  -- the parent
  have main : ∀ q : ℤ, ∀ t : IType,
      let a : DyadicInterval := ⟨q * 2, n, t⟩
      let b : DyadicInterval := ⟨q * 2 + DyadicInterval.unitOf t, n, t⟩
      a.flip = b ∧ b.flip = a ∧ Disjoint a.points b.points ∧
        a.points ∪ b.points = (⟨q, n - 1, t⟩ : DyadicInterval).points := by
    intro q t
    refine ⟨flip_even _ (by simp), ?_, ?_⟩
    · rw [flip_odd _ (by cases t <;> simp [DyadicInterval.unitOf])]
      simp [DyadicInterval.unit]
    · obtain ⟨l, r, h1, h2, -, -, -, -, -, -, -, h3, h4⟩ := C07_halves ⟨q, n - 1, t⟩
      unfold DyadicInterval.shrinkLeft1 at h1
      unfold DyadicInterval.shrinkRight at h2
      cases t <;> simp only at h1 h2 <;>
        rw [shrinkToContainedEnd_eq] at * <;> rw [shrinkToOmittedEnd_eq] at * <;>
        simp only [Option.some.injEq, show n - 1 + 1 = n by ring, DyadicInterval.unit] at h1 h2 <;>
        subst h1 h2
      · exact ⟨h4, h3⟩
      · exact ⟨h4.symm, by rw [Set.union_comm]; exact h3⟩
  rcases Int.emod_two_eq_zero_or_one k with he | ho
  · obtain ⟨h1, h2, h3, h4⟩ := main (k / 2) t
    rw [show k / 2 * 2 = k by omega] at h1 h2 h3 h4
    rw [h1, h2]
    exact ⟨rfl, rfl, rfl, h3, ⟨k / 2, n - 1, t⟩, rfl, rfl, h4⟩
  · cases t
    · obtain ⟨h1, h2, h3, h4⟩ := main (k / 2) .clopen
      simp only [DyadicInterval.unitOf] at h1 h2 h3 h4
      rw [show k / 2 * 2 + 1 = k by omega] at h1 h2 h3 h4
      rw [h2, h1]
      exact ⟨rfl, rfl, rfl, h3.symm, ⟨k / 2, n - 1, .clopen⟩, rfl, rfl, by
        rw [Set.union_comm]; exact h4⟩
    · obtain ⟨h1, h2, h3, h4⟩ := main (k / 2 + 1) .opencl
      simp only [DyadicInterval.unitOf] at h1 h2 h3 h4
      rw [show (k / 2 + 1) * 2 + -1 = k by omega] at h1 h2 h3 h4
      rw [h2, h1]
      exact ⟨rfl, rfl, rfl, h3.symm, ⟨k / 2 + 1, n - 1, .opencl⟩, rfl, rfl, by
        rw [Set.union_comm]; exact h4⟩

/-- C07 for `expand_interval`, clopen only: the result is the clopen dyadic interval,
`2^arg` times as long, that contains the original. Missing: opencl intervals, where the claim
fails (`C07_expand_opencl_refuted`), and `arg ≥ 31` (the 32-bit guard). -/
theorem C07_expand_partial (d : DyadicInterval) (arg : ℤ) (h0 : 0 < arg) (h1 : arg < 31)
    (ht : d.type = .clopen) :
    ∃ e, d.expand arg = some e ∧ e.n = d.n - arg ∧ e.type = d.type ∧ d.points ⊆ e.points := by
  refine ⟨_, expand_eq d arg h0 h1, rfl, ht.symm, ?_⟩
  rw [← C06_contains_dyadic _ _ ht.symm]
  obtain ⟨k, n, t⟩ := d
  simp only at ht
  subst ht
  rw [containsDyadic_clopen _ _ _ _ (by simp only; omega)]
  simp only
  rw [show n - (n - arg) = arg by ring]

example : (⟨-5, 2, .clopen⟩ : DyadicInterval).expand 2 = some ⟨-2, 0, .clopen⟩ := by decide +kernel

/-- C07 fails for `expand_interval` on opencl intervals: expanding `(1,2]` gives `[2,4)`,
of the wrong type and not containing `3/2`. -/
theorem C07_expand_opencl_refuted :
    (⟨2, 0, .opencl⟩ : DyadicInterval).expand 1 = some ⟨1, -1, .clopen⟩ ∧
    (3/2 : ℚ) ∈ (⟨2, 0, .opencl⟩ : DyadicInterval).points ∧
    (3/2 : ℚ) ∉ (⟨1, -1, .clopen⟩ : DyadicInterval).points := by
  refine ⟨by decide +kernel, ?_, ?_⟩
  · norm_num [DyadicInterval.points, dyadicValue]
  · norm_num [DyadicInterval.points, dyadicValue]

/-- `aligned` tells whether a clopen interval is the left half of its parent. -/
theorem C07_aligned_partial (d : DyadicInterval) (ht : d.type = .clopen) :
    ∃ b, d.aligned = some b ∧ (b = true ↔ ∃ p l, p.type = .clopen ∧
      DyadicInterval.shrinkLeft1 p = some l ∧ l = d) := by
  refine ⟨_, aligned_clopen_eq d ht, ?_⟩
  rw [decide_eq_true_eq]
  constructor
  · intro h
    refine ⟨⟨d.k / 2, d.n - 1, .clopen⟩, d, rfl, ?_, rfl⟩
    unfold DyadicInterval.shrinkLeft1
    simp only
    rw [shrinkToContainedEnd_eq]
    obtain ⟨k, n, t⟩ := d
    simp only at ht h
    subst ht
    simp only [show n - 1 + 1 = n by ring, show k / 2 * 2 = k by omega]
  · rintro ⟨p, l, h1, h2, rfl⟩
    unfold DyadicInterval.shrinkLeft1 at h2
    rw [h1] at h2
    simp only at h2
    rw [shrinkToContainedEnd_eq] at h2
    cases h2
    simp

/-- `shift_forward` moves a clopen interval to the left and `shift_back` to the right: the
names are the wrong way round with respect to the direction of the parameter. -/
theorem C07_shift_names_swapped (d : DyadicInterval) (h : d.type = .clopen) :
    d.shiftForward.right = d.left ∧ d.shiftBack.left = d.right := by
  obtain ⟨k, n, t⟩ := d
  simp only at h
  subst h
  simp [DyadicInterval.shiftForward, DyadicInterval.shiftBack, DyadicInterval.left,
    DyadicInterval.right, DyadicInterval.unit, DyadicInterval.unitOf]

/-! ## C08 — ordering of dyadic intervals -/

/-- C08: on the intervals of one type `operator<` is a strict total order in which every
interval precedes all dyadic intervals properly contained in it. -/
theorem C08_order (t : IType) :
    (∀ a : DyadicInterval, a.lt a = false) ∧
    (∀ a b c : DyadicInterval, a.type = t → b.type = t → c.type = t →
      a.lt b = true → b.lt c = true → a.lt c = true) ∧
    (∀ a b : DyadicInterval, a.type = t → b.type = t → a.lt b = true ∨ a = b ∨ b.lt a = true) ∧
    (∀ a b : DyadicInterval, a.type = t → b.type = t → b.points ⊆ a.points → a ≠ b →
      a.lt b = true) := by
  refine ⟨?_, ?_, ?_, ?_⟩
  · intro a
    rw [← Bool.not_eq_true, lt_iff_uval _ _ rfl]
    simp
  · intro a b c ha hb hc h1 h2
    rw [lt_iff_uval _ _ (ha.trans hb.symm)] at h1
    rw [lt_iff_uval _ _ (hb.trans hc.symm)] at h2
    rw [lt_iff_uval _ _ (ha.trans hc.symm)]
    rcases h1 with h1 | ⟨h1, h1'⟩ <;> rcases h2 with h2 | ⟨h2, h2'⟩
    · exact Or.inl (h1.trans h2)
    · exact Or.inl (h2 ▸ h1)
    · exact Or.inl (h1 ▸ h2)
    · exact Or.inr ⟨h1.trans h2, h1'.trans h2'⟩
  · intro a b ha hb
    rw [lt_iff_uval _ _ (ha.trans hb.symm), lt_iff_uval _ _ (hb.trans ha.symm)]
    rcases lt_trichotomy (uval a) (uval b) with h | h | h
    · exact Or.inl (Or.inl h)
    · rcases lt_trichotomy a.n b.n with h' | h' | h'
      · exact Or.inl (Or.inr ⟨h, h'⟩)
      · exact Or.inr (Or.inl (uval_inj _ _ (ha.trans hb.symm) h' h))
      · exact Or.inr (Or.inr (Or.inr ⟨h.symm, h'⟩))
    · exact Or.inr (Or.inr (Or.inl h))
  · intro a b ha hb hs hne
    have h := ha.trans hb.symm
    rw [lt_iff_uval _ _ h]
    obtain ⟨h1, h2⟩ := le_of_points_subset a b h hs hne
    rcases h1.lt_or_eq with h1 | h1
    · exact Or.inl h1
    · exact Or.inr ⟨h1, h2⟩

example : (⟨0, 0, .clopen⟩ : DyadicInterval).lt ⟨0, 3, .clopen⟩ = true ∧
    (⟨0, 3, .clopen⟩ : DyadicInterval).lt ⟨1, 2, .clopen⟩ = true := by decide +kernel

/-- C08 fails for a map whose keys have both types: "neither less nor greater" is not
transitive (`[0,1) ~ (0,1] ~ [1,2)` but `[0,1) < [1,2)`), so it is not a strict weak order. -/
theorem C08_order_mixed_refuted :
    let a : DyadicInterval := ⟨0, 0, .clopen⟩
    let b : DyadicInterval := ⟨1, 0, .opencl⟩
    let c : DyadicInterval := ⟨1, 0, .clopen⟩
    (a.lt b = false ∧ b.lt a = false) ∧ (b.lt c = false ∧ c.lt b = false) ∧ a.lt c = true := by
  decide +kernel

/-! ## C09 — intersection and union -/

/-- C09 for overlapping clopen intervals: `intersection` is the intersection of the point
sets. Missing: disjoint intervals and opencl intervals, where the claim is false. -/
theorem C09_intersection_partial (l r : RealInterval) (hl : l.type = .clopen)
    (hr : r.type = .clopen) (h1 : l.inf ≤ l.sup) (h2 : r.inf ≤ r.sup)
    (ho : l.inf < r.sup ∧ r.inf < l.sup) :
    (l.intersection r).points = l.points ∩ r.points := by
  unfold RealInterval.intersection
  rw [if_neg (by push Not; exact ⟨ho.1, ho.2⟩)]
  unfold RealInterval.mk'
  rw [if_neg (not_lt.mpr (max_le (le_min h1 ho.1.le) (le_min ho.2.le h2)))]
  unfold RealInterval.points span
  rw [hl, hr]
  simp only
  rw [Set.Ico_inter_Ico]

example : RealInterval.intersection ⟨0, 2, .clopen⟩ ⟨1, 3, .clopen⟩ = ⟨1, 2, .clopen⟩ := by
  decide +kernel

/-- C09 fails for disjoint intervals: the intersection of `[5,6)` and `[7,8)` is reported as
`[0,1)`. -/
theorem C09_intersection_disjoint_refuted :
    RealInterval.intersection ⟨5, 6, .clopen⟩ ⟨7, 8, .clopen⟩ = ⟨0, 1, .clopen⟩ := by
  decide +kernel

/-- C09 fails for opencl intervals: the intersection of `(0,2]` with itself is reported as
`[0,2)`. -/
theorem C09_intersection_opencl_refuted :
    RealInterval.intersection ⟨0, 2, .opencl⟩ ⟨0, 2, .opencl⟩ = ⟨0, 2, .clopen⟩ ∧
    (2 : ℚ) ∈ (⟨0, 2, .opencl⟩ : RealInterval).points ∧
    (2 : ℚ) ∉ (⟨0, 2, .clopen⟩ : RealInterval).points := by
  refine ⟨by decide +kernel, ?_, ?_⟩ <;> simp [RealInterval.points, span]

/-- C09 for clopen intervals: `interval_union` contains both and lies in every clopen
interval that contains both. Missing: opencl intervals (type is lost). -/
theorem C09_union_partial (l r : RealInterval) (hl : l.type = .clopen) (hr : r.type = .clopen)
    (h1 : l.inf < l.sup) (h2 : r.inf < r.sup) :
    l.points ∪ r.points ⊆ (l.union r).points ∧
    ∀ i : RealInterval, i.type = .clopen → l.points ∪ r.points ⊆ i.points →
      (l.union r).points ⊆ i.points := by
  have hu : l.union r = ⟨min l.inf r.inf, max l.sup r.sup, .clopen⟩ := by
    unfold RealInterval.union RealInterval.mk'
    rw [if_neg]
    exact not_lt.mpr ((min_le_left _ _).trans (h1.le.trans (le_max_left _ _)))
  rw [hu]
  unfold RealInterval.points span
  rw [hl, hr]
  simp only
  constructor
  · rintro x (⟨h3, h4⟩ | ⟨h3, h4⟩)
    · exact ⟨(min_le_left _ _).trans h3, h4.trans_le (le_max_left _ _)⟩
    · exact ⟨(min_le_right _ _).trans h3, h4.trans_le (le_max_right _ _)⟩
  · intro i hi hsub
    rw [hi] at hsub ⊢
    simp only at hsub ⊢
    rw [Set.union_subset_iff, Set.Ico_subset_Ico_iff h1, Set.Ico_subset_Ico_iff h2] at hsub
    exact Set.Ico_subset_Ico (le_min hsub.1.1 hsub.2.1) (max_le hsub.1.2 hsub.2.2)

example : RealInterval.union ⟨0, 1, .clopen⟩ ⟨3, 4, .clopen⟩ = ⟨0, 4, .clopen⟩ := by
  decide +kernel

/-! ## C53 — membership, overlap and containment tests -/

/-- C53: `contains_point` is membership. -/
theorem C53_contains_point (i : RealInterval) (x : ℚ) :
    i.containsPoint x = true ↔ x ∈ i.points := by
  unfold RealInterval.containsPoint RealInterval.points span
  cases i.type <;> simp [Set.mem_Ico, Set.mem_Ioc]

/-- C53: `intersects_with` holds exactly if the two (non-empty) intervals of any types have
a common point. -/
theorem C53_intersects_with (l r : RealInterval) (h1 : l.inf < l.sup) (h2 : r.inf < r.sup) :
    l.intersectsWith r = true ↔ (l.points ∩ r.points).Nonempty := by
  have mid : ∀ a b : RealInterval, a.inf < a.sup → b.inf < b.sup → a.inf ≤ b.inf → b.inf < a.sup →
      (a.points ∩ b.points).Nonempty := by
    intro a b ha hb h3 h4
    refine ⟨(b.inf + min a.sup b.sup) / 2, ?_, ?_⟩ <;> unfold RealInterval.points span <;>
      have h5 : b.inf < min a.sup b.sup := lt_min h4 hb <;>
      have h6 := min_le_left a.sup b.sup <;> have h7 := min_le_right a.sup b.sup
    · cases a.type <;> constructor <;> linarith
    · cases b.type <;> constructor <;> linarith
  unfold RealInterval.intersectsWith
  split_ifs with h3 h4 h5
  · simp only [true_iff]
    rcases h3 with ⟨h3, h4⟩ | ⟨h3, h4⟩
    · exact mid l r h1 h2 h3 h4
    · rw [Set.inter_comm]; exact mid r l h2 h1 h3 h4
  · push Not at h3
    simp only [Bool.and_eq_true, decide_eq_true_eq]
    constructor
    · rintro ⟨h5, h6⟩
      refine ⟨r.inf, ?_, ?_⟩ <;> unfold RealInterval.points span
      · rw [h5, h4]; exact ⟨h1, le_rfl⟩
      · rw [h6]; exact ⟨le_rfl, h2⟩
    · rintro ⟨x, hx, hx'⟩
      unfold RealInterval.points span at hx hx'
      cases hl : l.type <;> cases hr : r.type <;> simp [hl, hr] at hx hx' ⊢ <;> linarith
  · push Not at h3
    simp only [Bool.and_eq_true, decide_eq_true_eq]
    constructor
    · rintro ⟨h6, h7⟩
      refine ⟨l.inf, ?_, ?_⟩ <;> unfold RealInterval.points span
      · rw [h6]; exact ⟨le_rfl, h1⟩
      · rw [h7, h5]; exact ⟨h2, le_rfl⟩
    · rintro ⟨x, hx, hx'⟩
      unfold RealInterval.points span at hx hx'
      cases hl : l.type <;> cases hr : r.type <;> simp [hl, hr] at hx hx' ⊢ <;> linarith
  · push Not at h3
    simp only [Bool.false_eq_true, false_iff]
    rintro ⟨x, hx, hx'⟩
    have g1 : l.inf ≤ x ∧ x ≤ l.sup := by
      unfold RealInterval.points span at hx
      cases hl : l.type <;> simp [hl] at hx <;> constructor <;> linarith
    have g2 : r.inf ≤ x ∧ x ≤ r.sup := by
      unfold RealInterval.points span at hx'
      cases hr : r.type <;> simp [hr] at hx' <;> constructor <;> linarith
    rcases le_total l.inf r.inf with h6 | h6
    · exact h4 (le_antisymm (by linarith) (h3.1 h6))
    · exact h5 (le_antisymm (by linarith) (h3.2 h6))

example : RealInterval.intersectsWith ⟨0, 1, .opencl⟩ ⟨1, 2, .clopen⟩ = true ∧
    RealInterval.intersectsWith ⟨0, 1, .clopen⟩ ⟨1, 2, .clopen⟩ = false := by decide +kernel

/-- C53 for `contains`, same types: it is set inclusion (for a non-empty argument).
Missing: mixed types, where the test is wrong. -/
theorem C53_contains_partial (i a : RealInterval) (h : i.type = a.type) (h1 : a.inf < a.sup) :
    i.contains a = true ↔ a.points ⊆ i.points := by
  unfold RealInterval.contains RealInterval.points span
  rw [h]
  simp only [Bool.and_eq_true, decide_eq_true_eq]
  cases a.type <;> simp only
  · rw [Set.Ico_subset_Ico_iff h1]
  · rw [Set.Ioc_subset_Ioc_iff h1]; exact and_comm

/-- `[0,1)` claims to contain `(0,1]`. -/
theorem C53_contains_mixed_refuted :
    RealInterval.contains ⟨0, 1, .clopen⟩ ⟨0, 1, .opencl⟩ = true ∧
    ¬ (⟨0, 1, .opencl⟩ : RealInterval).points ⊆ (⟨0, 1, .clopen⟩ : RealInterval).points := by
  refine ⟨by decide +kernel, fun h => ?_⟩
  have : (1 : ℚ) ∈ (⟨0, 1, .clopen⟩ : RealInterval).points :=
    h (by simp [RealInterval.points, span])
  simp [RealInterval.points, span] at this

end RoughPy.Intervals
