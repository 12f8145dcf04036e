import Verif.Lie.HistoryLemmas
import Verif.Lie.CheckLemmas

set_option linter.unusedSectionVars false

/-!
# Properties of Hall bases and of the Lie multiplication table

Vocabulary: `Spec.lean` (`IsHallTable`, `IsHallMap`, `Looks`, `History`).
-/

namespace RoughPy.Lie

open RoughPy.Tensor (Series)

attribute [local instance] LieRing.ofAssociativeRing

theorem hall_of_construct {w d : ℕ} {b : Basis} (hd : 0 < d) (h : construct w d = some b) : ∃ m, d = m + 1 ∧ b = hallTable w m := by
  obtain ⟨m, rfl⟩ : ∃ m, d = m + 1 := ⟨d - 1, by omega⟩
  rw [construct_eq, Option.some.injEq] at h
  exact ⟨m, rfl, h.symm⟩

/-! ## C26: the constructor -/

/-- C26.  For every width and every positive depth the constructor succeeds (in particular it stays
within the arrays it has allocated) and the arrays list a Hall set: letters first, then all the
admissible pairs, each once, sorted, in one block for each degree. -/
theorem C26_construct_hall (w d : ℕ) (hd : 0 < d) :
    ∃ b, construct w d = some b ∧ b.width = w ∧ b.depth = d ∧ IsHallTable b := by
  obtain ⟨m, rfl⟩ : ∃ m, d = m + 1 := ⟨d - 1, by omega⟩
  exact ⟨hallTable w m, construct_eq w m, rfl, rfl, hallTable_isHall w m⟩

/-- C26.  No row of the table occurs twice. -/
theorem C26_rows_distinct {w d : ℕ} {b : Basis} (hd : 0 < d) (h : construct w d = some b) {k k' : ℕ} {r : ℕ × ℕ}
    (hk : b.data[k]? = some r) (hk' : b.data[k']? = some r) : k = k' := by
  obtain ⟨m, rfl, rfl⟩ := hall_of_construct hd h
  have hb := hallTable_isHall w m
  have hl := (List.getElem?_eq_some_iff.1 hk).1
  have hl' := (List.getElem?_eq_some_iff.1 hk').1
  obtain ⟨p, hp⟩ := hb.exists_degree hl
  obtain ⟨q, hq⟩ := hb.exists_degree hl'
  have hr : r = (left (hallTable w m).data k, right (hallTable w m).data k) := by
    rw [row_eq hl, Option.some.injEq] at hk; exact hk.symm
  have hr' : r = (left (hallTable w m).data k', right (hallTable w m).data k') := by
    rw [row_eq hl', Option.some.injEq] at hk'; exact hk'.symm
  have hsmall : ∀ {k p}, HasDegree (hallTable w m) k p → p < 2 → (hallTable w m).data[k]? = some (0, k) := by
    intro k p hp h2
    rcases Nat.lt_or_ge p 1 with h0 | h1
    · have : p = 0 := by omega
      subst this
      rw [hb.hasDegree_iff, hb.start_one] at hp
      have : k = 0 := by omega
      subst this
      exact hb.root
    · have : p = 1 := by omega
      subst this
      have := hb.letter_iff.1 hp
      exact hb.letters k this.1 this.2
  have hlarge : ∀ {k p}, HasDegree (hallTable w m) k p → 2 ≤ p → 0 < left (hallTable w m).data k := by
    intro k p hp h2
    have := hb.row (hp.lt hb) (by rw [hb.deg_eq hp]; exact h2)
    exact this.1
  rcases Nat.lt_or_ge p 2 with h1 | h1 <;> rcases Nat.lt_or_ge q 2 with h2 | h2
  · have e1 := hsmall hp h1
    have e2 := hsmall hq h2
    rw [hk, Option.some.injEq] at e1
    rw [hk', Option.some.injEq] at e2
    rw [e1, Prod.mk.injEq] at e2
    exact e2.2
  · have e1 := hsmall hp h1
    have e2 := hlarge hq h2
    rw [hk, Option.some.injEq] at e1
    rw [hr', Prod.mk.injEq] at e1
    omega
  · have e1 := hsmall hq h2
    have e2 := hlarge hp h1
    rw [hk', Option.some.injEq] at e1
    rw [hr, Prod.mk.injEq] at e1
    omega
  · have hpq : p = q := by
      have d1 := hb.row hl (by rw [hb.deg_eq hp]; exact h1)
      have d2 := hb.row hl' (by rw [hb.deg_eq hq]; exact h2)
      rw [hr, Prod.mk.injEq] at hr'
      rw [hr'.1, hr'.2, hb.deg_eq hp] at d1
      rw [hb.deg_eq hq] at d2
      omega
    subst hpq
    rcases Nat.lt_trichotomy k k' with hlt | heq | hlt
    · have := hb.sorted p k k' r r h1 hp hq hlt hk hk'; omega
    · exact heq
    · have := hb.sorted p k' k r r h1 hq hp hlt hk' hk; omega

/-- C26.  The basis of smaller depth is an initial segment of the basis of larger depth. -/
theorem C26_depth_prefix {w d d' : ℕ} {b b' : Basis} (hd : 0 < d) (hdd : d ≤ d') (h : construct w d = some b)
    (h' : construct w d' = some b') : b.data <+: b'.data ∧ b.db <+: b'.db := by
  obtain ⟨m, rfl, rfl⟩ := hall_of_construct hd h
  obtain ⟨m', rfl, rfl⟩ := hall_of_construct (by omega) h'
  exact hallState_prefix w (by omega)

example : construct 2 4 = some ⟨2, 4, [(0, 0), (0, 1), (0, 2), (1, 2), (1, 3), (2, 3), (1, 4), (2, 4), (2, 5)],
    [0, 1, 3, 4, 6, 9]⟩ := by decide +kernel

/-- C26, depth zero: `degree_begin[1]` is not written, so that `size()` reads an uninitialised entry. -/
theorem C26_depth_zero_uninitialised (w : ℕ) : ∃ b, construct w 0 = some b ∧ b.size = none := by
  refine ⟨⟨w, 0, [(0, 0)], [0]⟩, ?_, rfl⟩
  unfold construct lieDim
  rfl

/-! ## C65: dimensions -/

/-- C65.  The numbers of rows satisfy Witt's formula. -/
theorem C65_witt {w d : ℕ} {b : Basis} (hd : 0 < d) (h : construct w d = some b) {n : ℕ} (hn : 0 < n) (hnd : n ≤ d) :
    ∑ k ∈ n.divisors, k * b.count k = w ^ n := by
  obtain ⟨m, rfl, rfl⟩ := hall_of_construct hd h
  have h1 := (hallTable_isHall w m).witt hn hnd
  have h2 : (((∑ k ∈ n.divisors, k * (hallTable w m).count k : ℕ)) : ℤ) = ((w ^ n : ℕ) : ℤ) := by
    push_cast
    exact h1
  exact_mod_cast h2

/-- C65.  `compute_lie_degree_dim` is the number of rows of that degree. -/
theorem C65_degree_dim {w d : ℕ} {b : Basis} (hd : 0 < d) (h : construct w d = some b) {n : ℕ} (hn : 0 < n) (hnd : n ≤ d) :
    lieDegreeDim w n = some (b.count n : ℤ) := by
  obtain ⟨m, rfl, rfl⟩ := hall_of_construct hd h
  exact (hallTable_isHall w m).lieDegreeDim hn hnd

/-- C65.  `size()` is the number of rows that are not the neutral element, and equals `compute_lie_dim`. -/
theorem C65_size {w d : ℕ} {b : Basis} (hd : 0 < d) (h : construct w d = some b) :
    b.size = some ((b.data.length : ℤ) - 1) ∧ lieDim w d = b.size := by
  obtain ⟨m, rfl, rfl⟩ := hall_of_construct hd h
  have hb := hallTable_isHall w m
  have h1 : (hallTable w m).size = some (((hallTable w m).data.length : ℤ) - 1) := by
    unfold Basis.size Basis.trueSize
    rw [hb.db_last]
    rfl
  exact ⟨h1, by rw [h1]; exact hb.lieDim⟩

example : (construct 3 5).bind Basis.size = some 80 ∧ lieDegreeDim 3 5 = some 48 := by decide +kernel

/-! ## C27: lookups -/

/-- C27.  The degree of every key of the basis. -/
theorem C27_degree {w d : ℕ} {b : Basis} (hd : 0 < d) (h : construct w d = some b) {k n lo hi : ℕ} (hn : n ≤ d)
    (hlo : b.db[n]? = some lo) (hhi : b.db[n + 1]? = some hi) (h1 : lo ≤ k) (h2 : k < hi) :
    b.degree k = some (n : ℤ) := by
  obtain ⟨m, rfl, rfl⟩ := hall_of_construct hd h
  exact (hallTable_isHall w m).degree_of ⟨hn, lo, hi, hlo, hhi, h1, h2⟩

/-- C27.  Every key that is in the basis has a degree. -/
theorem C27_degree_total {w d : ℕ} {b : Basis} (hd : 0 < d) (h : construct w d = some b) {k : ℕ}
    (hk : k < b.data.length) : ∃ n, n ≤ d ∧ b.degree k = some (n : ℤ) ∧ HasDegree b k n := by
  obtain ⟨m, rfl, rfl⟩ := hall_of_construct hd h
  obtain ⟨n, hn⟩ := (hallTable_isHall w m).exists_degree hk
  exact ⟨n, hn.1, (hallTable_isHall w m).degree_of hn, hn⟩

/-- C27.  A pair that is a row of the given degree is found, and at its place. -/
theorem C27_find_word_found {w d : ℕ} {b : Basis} (hd : 0 < d) (h : construct w d = some b) {n k : ℕ} (hn : 2 ≤ n)
    {target : ℕ × ℕ} (hk : HasDegree b k n) (hrow : b.data[k]? = some target) :
    b.findWord target n = some (some k) := by
  obtain ⟨m, rfl, rfl⟩ := hall_of_construct hd h
  exact (hallTable_isHall w m).findWord_some hn hk hrow

/-- C27.  For every pair of keys `a < c` whose degrees sum to at most the depth — the queries that the
multiplication table makes — the answer is exact: the key of the row `(a, c)`, or "not found" and
there is no such row.  Missing for the full claim: pairs greater than every row of the last degree, see
`C27_find_word_past_end`. -/
theorem C27_find_word_partial {w d : ℕ} {b : Basis} (hd : 0 < d) (h : construct w d = some b) {a c p q : ℕ}
    (ha0 : 0 < a) (hac : a < c) (ha : HasDegree b a p) (hc : HasDegree b c q) (hpq : p + q ≤ d) :
    (∃ k, b.findWord (a, c) (p + q) = some (some k) ∧ HasDegree b k (p + q) ∧ b.data[k]? = some (a, c)) ∨
    (b.findWord (a, c) (p + q) = some none ∧ ∀ k : ℕ, b.data[k]? ≠ some (a, c)) := by
  obtain ⟨m, rfl, rfl⟩ := hall_of_construct hd h
  have hb := hallTable_isHall w m
  rcases hb.findWord_pair ha hc ha0 hac hpq with h1 | ⟨h1, c1, c2, p1, q1, h2, h3, h4, h5, h6, h7, h8, h9⟩
  · exact Or.inl h1
  · right
    refine ⟨h1, fun k hk => ?_⟩
    have hl := (List.getElem?_eq_some_iff.1 hk).1
    rw [row_eq hl, Option.some.injEq, Prod.mk.injEq] at hk
    have hr := hb.row hl (hb.deg_of_left hl (by omega))
    rw [hk.1, hk.2] at hr
    have := IsHallTable.left_eq (b := hallTable w m) h2
    dsimp only at this
    omega

/-- The query that is greater than every row of the last degree reads the row after the last one. -/
theorem C27_find_word_past_end : ∃ b, construct 2 2 = some b ∧ b.findWord (2, 3) 2 = none := by
  refine ⟨_, construct_eq 2 1, ?_⟩
  decide +kernel

example : ∃ b, construct 2 3 = some b ∧ b.findWord (2, 3) 3 = some (some 5) ∧ b.findWord (1, 4) 3 = some none := by
  refine ⟨_, construct_eq 2 2, ?_⟩
  decide +kernel

/-! ## C25: the bracket table -/

/-- C25.  For every width and depth, every cache that arises from lookups through default bases of that
width, every pair of keys and every Lie ring in which the keys are given by iterated brackets: the lookup
returns and the result is the bracket, as a combination with non-zero coefficients, in increasing order
of keys, all of the right degree. -/
theorem C25_bracket_is_commutator {w d : ℕ} {b : Basis} (hd : 0 < d) (hb : construct w d = some b)
    {L : Type*} [LieRing L] {e : ℕ → L} (he : IsHallMap b e) {cache : Cache} (hist : History (Standard w) cache)
    {a c p q : ℕ} (ha0 : 0 < a) (hc0 : 0 < c) (ha : HasDegree b a p) (hc : HasDegree b c q) (hpq : p + q ≤ d) :
    ∃ r cache', Looks b cache (a, c) (r, cache') ∧ (r.map fun t => t.2 • e t.1).sum = ⁅e a, e c⁆ ∧
      r.Pairwise (fun s t => s.1 < t.1) ∧ ∀ t ∈ r, t.2 ≠ 0 ∧ HasDegree b t.1 (p + q) := by
  obtain ⟨m, rfl, rfl⟩ := hall_of_construct hd hb
  obtain ⟨r, cache', h1, h2⟩ := lookup_value he hist ha0 hc0 ha hc hpq
  exact ⟨r, cache', h1, h2.value, h2.clean.1, fun t ht => ⟨h2.clean.2 t ht, h2.keys t ht⟩⟩

/-- C25.  The same with the commutator in the tensor algebra over any commutative ring. -/
theorem C25_bracket_in_tensors {w d : ℕ} {b : Basis} (hd : 0 < d) (hb : construct w d = some b)
    {K : Type*} [CommRing K] {e : ℕ → Series (Fin w) K}
    (he : ∀ n k i j, 2 ≤ n → HasDegree b k n → b.data[k]? = some (i, j) → e k = e i * e j - e j * e i)
    {cache : Cache} (hist : History (Standard w) cache)
    {a c p q : ℕ} (ha0 : 0 < a) (hc0 : 0 < c) (ha : HasDegree b a p) (hc : HasDegree b c q) (hpq : p + q ≤ d) :
    ∃ r cache', Looks b cache (a, c) (r, cache') ∧ (r.map fun t => t.2 • e t.1).sum = e a * e c - e c * e a := by
  obtain ⟨r, cache', h1, h2, -⟩ := C25_bracket_is_commutator hd hb (e := e) he hist ha0 hc0 ha hc hpq
  exact ⟨r, cache', h1, h2⟩

/-- C25.  Brackets beyond the depth are zero and leave the cache as it is. -/
theorem C25_bracket_beyond {w d : ℕ} {b : Basis} (hd : 0 < d) (hb : construct w d = some b) (cache : Cache)
    {a c p q : ℕ} (ha0 : 0 < a) (hc0 : 0 < c) (ha : HasDegree b a p) (hc : HasDegree b c q) (hpq : d < p + q) :
    Looks b cache (a, c) ([], cache) := by
  obtain ⟨m, rfl, rfl⟩ := hall_of_construct hd hb
  exact looks_of_get (fuel := 0 + 1) (get_beyond (hallTable_isHall w m) ha0 hc0 ha hc hpq cache)

/-- `[4, 2] = [[1,[1,2]], 2]` in two letters: minus the key 7 = `[2,[1,[1,2]]]`. -/
example : ∃ b, construct 2 4 = some b ∧ ∃ cache, Looks b emptyCache (4, 2) ([(7, -1)], cache) := by
  refine ⟨_, construct_eq 2 3, ?_⟩
  have h : (get (hallTable 2 3) 10 emptyCache (4, 2)).map Prod.fst = some [(7, -1)] := by decide +kernel
  cases hg : get (hallTable 2 3) 10 emptyCache (4, 2) with
  | none => rw [hg] at h; cases h
  | some o =>
    rw [hg, Option.map_some, Option.some.injEq] at h
    exact ⟨o.2, looks_of_get (by rw [hg, ← h])⟩

/-- `[1, 5] = [1,[2,[1,2]]] = [2,[1,[1,2]]]`: a bracket that is not itself a key. -/
example : (get (hallTable 2 3) 10 emptyCache (1, 5)).map Prod.fst = some [(7, 1)] := by decide +kernel

/-! ## C28: history -/

/-- C28, default bases.  The bracket of a pair of keys is the same in every cache that arises from lookups
through default bases of that width, and in every default basis that contains it.  Missing for the full
claim: bases with user-supplied data share the cache, see `C28_custom_basis_changes_answers`. -/
theorem C28_history_independent_partial {w d d' : ℕ} {b b' : Basis} (hd : 0 < d) (hd' : 0 < d')
    (hb : construct w d = some b) (hb' : construct w d' = some b') {cache cache' : Cache}
    (hist : History (Standard w) cache) (hist' : History (Standard w) cache') {a c p q : ℕ} (ha0 : 0 < a) (hc0 : 0 < c)
    (ha : HasDegree b a p) (hc : HasDegree b c q) (hpq : p + q ≤ d) (hpq' : p + q ≤ d') :
    ∃ r c₁ c₂, Looks b cache (a, c) (r, c₁) ∧ Looks b' cache' (a, c) (r, c₂) := by
  obtain ⟨m, rfl, rfl⟩ := hall_of_construct hd hb
  obtain ⟨m', rfl, rfl⟩ := hall_of_construct hd' hb'
  have hM := hallTable_isHall w (max m m')
  have he : IsHallMap (hallTable w (max m m')) (hallPoly ℤ (hallTable w (max m m'))) := hallPoly_isHallMap hM
  have hp0 := (hallTable_isHall w m).degree_pos ha ha0
  have hq0 := (hallTable_isHall w m).degree_pos hc hc0
  have hmove : ∀ k n, n ≤ m + 1 → n ≤ m' + 1 → HasDegree (hallTable w m) k n → HasDegree (hallTable w m') k n := by
    intro k n h1 h2 hk
    rcases le_total m m' with hle | hle
    · exact (hasDegree_table w hle h1).2 hk
    · exact (hasDegree_table w hle h2).1 hk
  obtain ⟨r, c₁, h1, h2⟩ := lookup_value (isHallMap_table w (le_max_left m m') he) hist ha0 hc0 ha hc hpq
  obtain ⟨r', c₂, k1, k2⟩ := lookup_value (isHallMap_table w (le_max_right m m') he) hist' ha0 hc0
    (hmove _ _ (by omega) (by omega) ha) (hmove _ _ (by omega) (by omega) hc) hpq'
  have : r = r' := by
    refine hM.entry_unique (n := p + q) (by omega) (by show p + q ≤ max m m' + 1; omega) h2.clean k2.clean ?_ ?_ (h2.value.trans k2.value.symm)
    · exact fun t ht => (hasDegree_table w (le_max_left m m') hpq).2 (h2.keys t ht)
    · exact fun t ht => (hasDegree_table w (le_max_right m m') hpq').2 (k2.keys t ht)
  subst this
  exact ⟨r, c₁, c₂, h1, k1⟩

/-- A history that is not empty: a lookup of `(1, 2)` in the basis of depth 3. -/
example : ∃ cache, History (Standard 2) cache ∧ cache (1, 2) = some (some [(3, 1)]) := by
  have h : (get (hallTable 2 2) 10 emptyCache (1, 2)).map (fun o => o.2 (1, 2)) = some (some (some [(3, 1)])) := by
    decide +kernel
  cases hg : get (hallTable 2 2) 10 emptyCache (1, 2) with
  | none => rw [hg] at h; cases h
  | some o =>
    rw [hg, Option.map_some, Option.some.injEq] at h
    exact ⟨o.2, .lookup ⟨3, by omega, construct_eq 2 2⟩ .fresh (looks_of_get hg), h⟩

/-- A Hall table with one row of degree three, `[2,[1,2]]`, passed as `data`. -/
def otherData : List (ℕ × ℕ) := [(0, 0), (0, 1), (0, 2), (1, 2), (2, 3)]

/-- C28, user-supplied data: after a lookup through such a basis the default basis of the same width
answers `[2,[1,2]]` with the key of `[1,[1,2]]`. -/
theorem C28_custom_basis_changes_answers : ∃ b b' cache c₁ c₂ c₃,
    construct 2 3 = some b ∧ customBasis otherData [0, 1, 3, 4, 5] 2 3 = some b' ∧
    Looks b' emptyCache (2, 3) ([(4, 1)], cache) ∧ Looks b cache (2, 3) ([(4, 1)], c₁) ∧
    Looks b emptyCache (2, 3) ([(5, 1)], c₂) ∧ Looks b emptyCache (1, 3) ([(4, 1)], c₃) := by
  have split : ∀ {b : Basis} {cache : Cache} {word : ℕ × ℕ} {r : Entry} {fuel : ℕ},
      (get b fuel cache word).map Prod.fst = some r → ∃ c, get b fuel cache word = some (r, c) := by
    intro b cache word r fuel h
    cases hg : get b fuel cache word with
    | none => rw [hg] at h; cases h
    | some o =>
      rw [hg, Option.map_some, Option.some.injEq] at h
      exact ⟨o.2, by rw [← h]⟩
  have hb' : customBasis otherData [0, 1, 3, 4, 5] 2 3 = some ⟨2, 3, otherData, [0, 1, 3, 4, 5]⟩ := by decide +kernel
  have h1 : ((get ⟨2, 3, otherData, [0, 1, 3, 4, 5]⟩ 10 emptyCache (2, 3)).map Prod.fst) = some [(4, 1)] := by
    decide +kernel
  have h2 : ((get ⟨2, 3, otherData, [0, 1, 3, 4, 5]⟩ 10 emptyCache (2, 3)).bind fun o =>
      (get (hallTable 2 2) 10 o.2 (2, 3)).map Prod.fst) = some [(4, 1)] := by decide +kernel
  obtain ⟨cache, hc⟩ := split h1
  rw [hc] at h2
  simp only [Option.bind_some] at h2
  obtain ⟨c₁, hc₁⟩ := split h2
  obtain ⟨c₂, hc₂⟩ := split (b := hallTable 2 2) (fuel := 10) (cache := emptyCache) (word := (2, 3)) (r := [(5, 1)])
    (by decide +kernel)
  obtain ⟨c₃, hc₃⟩ := split (b := hallTable 2 2) (fuel := 10) (cache := emptyCache) (word := (1, 3)) (r := [(4, 1)])
    (by decide +kernel)
  exact ⟨_, _, cache, c₁, c₂, c₃, construct_eq 2 2, hb', looks_of_get hc, looks_of_get hc₁, looks_of_get hc₂, looks_of_get hc₃⟩

/-! ## C32: the checker -/

/-- C32, what holds.  If the check (order of the keys, Bourbaki convention) returns 1 then the offsets start at
zero, have a first block of `width` rows and increase strictly up to the last degree, the rows are as many as the
last offset says, every letter row has left parent zero or names itself, and every later row `[a, bc]` satisfies
`a < bc` and has `b` (the left parent of `bc`) zero or at most `a`.  Missing for the full claim: see the
counterexamples below. -/
theorem C32_accepted_partial {data : List (ℤ × ℤ)} {db : List ℤ} {width depth : ℤ} (hd : 1 ≤ depth)
    (h : checkStandard data db width depth .bourbaki = some true) :
    at' db 0 = some 0 ∧ (∃ d1 d2, at' db 1 = some d1 ∧ at' db 2 = some d2 ∧ d2 - d1 = width ∧
      ∀ l, d1 ≤ l → l < d2 → ∃ row, at' data l = some row ∧ (row.1 = 0 ∨ row.2 = l)) ∧
    (∀ i, 2 ≤ i → i ≤ depth → ∃ x y, at' db i = some x ∧ at' db (i - 1) = some y ∧ y < x) ∧
    at' db (depth + 1) = some (data.length : ℤ) ∧
    ∀ n lo hi k, 2 ≤ n → n ≤ depth → at' db n = some lo → at' db (n + 1) = some hi → lo ≤ k → k < hi →
      ∃ a bc row, at' data k = some (a, bc) ∧ a < bc ∧ at' data bc = some row ∧ (row.1 = 0 ∨ row.1 ≤ a) := by
  obtain ⟨h1, h2, h3⟩ := checkWith_true hd h
  obtain ⟨-, g2, ⟨d1, d2, g3, g4, g5⟩, g6, g7⟩ := checkBasics_true hd h1
  exact ⟨g2, ⟨d1, d2, g3, g4, g5, fun l hl1 hl2 => h2 d1 d2 l g3 g4 hl1 hl2⟩, g6, g7,
    fun n lo hi k hn1 hn2 hlo hhi hk1 hk2 => checkRow_bourbaki (h3 n lo hi k hn1 hn2 hlo hhi hk1 hk2)⟩

/-- C32.  The default bases of width at least two are accepted. -/
theorem C32_default_accepted {w d : ℕ} (hw : 2 ≤ w) {b : Basis} (hd : 0 < d) (h : construct w d = some b) :
    checkStandard (intRows b.data) (intOffsets b.db) w d .bourbaki = some true := by
  obtain ⟨m, rfl, rfl⟩ := hall_of_construct hd h
  have hb := hallTable_isHall w m
  refine hb.checkWith fun n hn1 hn2 => ?_
  by_cases h3 : 3 ≤ n
  · obtain ⟨k, j, h1, -⟩ := hb.exists_left_one hw (n - 3) (by omega)
    rw [hb.hasDegree_iff] at h1
    rw [show n - 3 + 2 = n - 1 by omega, show n - 1 + 1 = n by omega] at h1
    omega
  · have : n = 2 := by omega
    subst this
    rw [hb.start_two, hb.start_one]
    show 1 < 1 + w
    omega

/-- C32.  With the usual order passed as a function the second checker gives the same answer. -/
theorem C32_custom_order_agrees (data : List (ℤ × ℤ)) (db : List ℤ) (width depth : ℤ) (major : Major) :
    checkCustom data db width depth (fun a c => if a ≤ c then 1 else 0) major =
      checkStandard data db width depth major := by
  unfold checkCustom checkStandard
  congr 1
  funext k
  exact checkRowCustom_eq data major k

/-- C32, refuted: a letter row with another right parent, a letter row with a non-zero left parent and a row zero that
is not neutral are accepted. -/
theorem C32_letters_not_checked :
    checkStandard [(0, 0), (0, 7), (5, 2)] [0, 1, 3] 2 1 .bourbaki = some true ∧
    checkStandard [(3, 4), (0, 1), (0, 2)] [0, 1, 3] 2 1 .bourbaki = some true := by decide +kernel

/-- C32, refuted: a row that is its own right parent, a row of the wrong degree, a repeated row are accepted. -/
theorem C32_rows_not_checked :
    checkStandard [(0, 0), (0, 1), (0, 2), (1, 3)] [0, 1, 3, 4] 2 2 .bourbaki = some true ∧
    checkStandard [(0, 0), (0, 1), (0, 2), (1, 2), (1, 2)] [0, 1, 3, 4, 5] 2 3 .bourbaki = some true ∧
    checkStandard [(0, 0), (0, 1), (0, 2), (1, 2), (1, 2)] [0, 1, 3, 5] 2 2 .bourbaki = some true := by decide +kernel

/-- C32: a parent outside the table and a negative offset make the check itself read outside the arrays. -/
theorem C32_check_reads_outside :
    checkStandard [(0, 0), (0, 1), (0, 2), (1, 9)] [0, 1, 3, 4] 2 2 .bourbaki = none ∧
    checkStandard [(0, 0)] [0, -1, 1] 2 1 .bourbaki = none ∧
    checkStandard [] [0] 2 (-1) .bourbaki = none := by decide +kernel

/-- C32: asking for the Bourbaki convention by its number selects the other one, which rejects the default
basis; without the argument it is accepted. -/
theorem C32_requested_convention_ignored : majorConverter 0 = some .reutenauer ∧
    ∃ b, construct 2 2 = some b ∧ checkStandard (intRows b.data) (intOffsets b.db) 2 2 .reutenauer = some false ∧
      checkStandard (intRows b.data) (intOffsets b.db) 2 2 .bourbaki = some true := by
  refine ⟨by decide +kernel, _, construct_eq 2 1, ?_⟩
  decide +kernel

/-- C32: the default basis of width one and depth three is rejected (its last blocks are empty). -/
theorem C32_width_one_rejected : ∃ b, construct 1 3 = some b ∧
    checkStandard (intRows b.data) (intOffsets b.db) 1 3 .bourbaki = some false := by
  refine ⟨_, construct_eq 1 2, ?_⟩
  decide +kernel

example : checkStandard [(0, 0), (0, 1), (0, 2), (1, 2), (1, 3), (2, 3)] [0, 1, 3, 4, 6] 2 3 .bourbaki = some true := by
  decide +kernel

end RoughPy.Lie
