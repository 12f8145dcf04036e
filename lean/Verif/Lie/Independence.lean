import Verif.Lie.Count
import Verif.Lie.BracketLemmas
import Verif.Tensor.Series
import Mathlib.Algebra.Lie.OfAssociative
import Mathlib.Data.List.Sort
import Mathlib.LinearAlgebra.Dimension.OrzechProperty
import Mathlib.LinearAlgebra.Dimension.Constructions
import Mathlib.LinearAlgebra.FreeModule.StrongRankCondition

set_option linter.unusedSectionVars false

/-!
# Hall polynomials are linearly independent

Products of Hall polynomials in non-decreasing order of keys span the words of each length (exchange
neighbours, induction on the number of factors); there are `width ^ n` of them of degree `n`.
-/

namespace RoughPy.Lie

open Finset PowerSeries
open RoughPy.Tensor (Series)
open RoughPy.Tensor.Series (letter)

attribute [local instance] LieRing.ofAssociativeRing

/-! ## Every bracket of Hall elements is an integer combination of Hall elements -/

theorem exists_expansion {L : Type*} [LieRing L] {b : Basis} (hb : IsHallTable b) {e : ℕ → L}
    (he : IsHallMap b e) {a c p q : ℕ} (ha0 : 0 < a) (hc0 : 0 < c) (ha : HasDegree b a p)
    (hc : HasDegree b c q) (hpq : p + q ≤ b.depth) : ∃ r, EntryOK e b (p + q) a c r := by
  obtain ⟨r, _, _, h, _⟩ := get_ok e b hb he (mu b (p + q) (min a c) + 1) emptyCache a c p q ha0 hc0 ha hc hpq
    (Nat.lt_succ_self _) (fun a c h => by cases h) (fun a c p q r _ _ _ _ _ h => by cases h)
  exact ⟨r, h⟩

/-! ## Ordered products span -/

section Span

variable {K A : Type*} [CommRing K] [Ring A] [Algebra K A] {b : Basis} (e : ℕ → A)

/-- All entries are keys of the table. -/
def ValidKeys (b : Basis) (l : List ℕ) : Prop := ∀ k ∈ l, 0 < k ∧ k < b.data.length

/-- Total degree. -/
def degSum (b : Basis) (l : List ℕ) : ℕ := (l.map b.deg).sum

theorem degSum_append (b : Basis) (l l' : List ℕ) : degSum b (l ++ l') = degSum b l + degSum b l' := by
  unfold degSum
  rw [List.map_append, List.sum_append]

theorem degSum_cons (b : Basis) (k : ℕ) (l : List ℕ) : degSum b (k :: l) = b.deg k + degSum b l := rfl

/-- Product of the elements with the given keys. -/
def prodOf (l : List ℕ) : A := (l.map e).prod

theorem prodOf_append (l l' : List ℕ) : prodOf e (l ++ l') = prodOf e l * prodOf e l' := by
  unfold prodOf
  rw [List.map_append, List.prod_append]

theorem prodOf_cons (k : ℕ) (l : List ℕ) : prodOf e (k :: l) = e k * prodOf e l := by
  unfold prodOf
  rw [List.map_cons, List.prod_cons]

variable (K b) in
/-- The span of the ordered products of degree `n`. -/
def ordered (n : ℕ) : Submodule K A :=
  Submodule.span K {x | ∃ l, ValidKeys b l ∧ degSum b l = n ∧ l.Pairwise (· ≤ ·) ∧ x = prodOf e l}

theorem swap_mem (hb : IsHallTable b) (he : IsHallMap b e) {n m : ℕ} (hn : n ≤ b.depth)
    (ih : ∀ l, ValidKeys b l → degSum b l = n → l.length < m → prodOf e l ∈ ordered K b e n)
    {l₁ l₂ : List ℕ} (h : l₁.Perm l₂) : ∀ pre, ValidKeys b (pre ++ l₁) → degSum b (pre ++ l₁) = n →
      (pre ++ l₁).length = m → prodOf e (pre ++ l₁) - prodOf e (pre ++ l₂) ∈ ordered K b e n := by
  induction h with
  | nil => intro pre _ _ _; rw [sub_self]; exact Submodule.zero_mem _
  | cons x _ ih2 =>
    rename_i l₁ l₂ _
    intro pre h1 h2 h3
    have := ih2 (pre ++ [x]) (by simpa using h1) (by simpa using h2) (by simpa using h3)
    simpa using this
  | swap x y l =>
    intro pre h1 h2 h3
    have hx := h1 x (by simp)
    have hy := h1 y (by simp)
    have hdx := hb.hasDegree_deg hx.2
    have hdy := hb.hasDegree_deg hy.2
    rw [degSum_append, degSum_cons, degSum_cons] at h2
    obtain ⟨r, hr⟩ := exists_expansion hb he hy.1 hx.1 hdy hdx (by omega)
    have h4 : prodOf e (pre ++ y :: x :: l) - prodOf e (pre ++ x :: y :: l) =
        prodOf e pre * ⁅e y, e x⁆ * prodOf e l := by
      rw [Ring.lie_def, prodOf_append, prodOf_append, prodOf_cons, prodOf_cons, prodOf_cons, prodOf_cons]
      noncomm_ring
    rw [h4, ← hr.value]
    have h5 : ∀ s : Entry, (∀ t ∈ s, HasDegree b t.1 (b.deg y + b.deg x)) →
        prodOf e pre * Entry.value e s * prodOf e l ∈ ordered K b e n := by
      intro s
      induction s with
      | nil => intro _; rw [Entry.value_nil, mul_zero, zero_mul]; exact Submodule.zero_mem _
      | cons t s ihs =>
        intro hs
        rw [Entry.value_cons, mul_add, add_mul]
        refine Submodule.add_mem _ ?_ (ihs fun t ht => hs t (List.mem_cons_of_mem _ ht))
        have ht := hs t List.mem_cons_self
        rw [mul_smul_comm, smul_mul_assoc]
        refine Submodule.smul_of_tower_mem _ t.2 ?_
        have h6 : prodOf e pre * e t.1 * prodOf e l = prodOf e (pre ++ t.1 :: l) := by
          rw [prodOf_append, prodOf_cons, mul_assoc]
        rw [h6]
        refine ih _ ?_ ?_ ?_
        · intro k hk
          rw [List.mem_append, List.mem_cons] at hk
          rcases hk with hk | rfl | hk
          · exact h1 k (by simp [hk])
          · exact ⟨hb.pos_of_degree ht (by have := hb.deg_pos hy.2 hy.1; omega), ht.lt hb⟩
          · exact h1 k (by simp [hk])
        · rw [degSum_append, degSum_cons, hb.deg_eq ht]; omega
        · simp only [List.length_append, List.length_cons] at h3 ⊢; omega
    exact h5 r hr.keys
  | trans h12 _ ih1 ih2 =>
    rename_i l₁ l₂ l₃ _
    intro pre h1 h2 h3
    have hp : (pre ++ l₁).Perm (pre ++ l₂) := List.Perm.append_left pre h12
    have h4 := ih1 pre h1 h2 h3
    have h5 := ih2 pre (fun k hk => h1 k (hp.mem_iff.2 hk))
      (by rw [← h2]; exact ((hp.map b.deg).sum_eq).symm) (by rw [← h3]; exact hp.length_eq.symm)
    have := Submodule.add_mem _ h4 h5
    rwa [sub_add_sub_cancel] at this

/-- Every product is a combination of ordered products. -/
theorem prodOf_mem (hb : IsHallTable b) (he : IsHallMap b e) {n : ℕ} (hn : n ≤ b.depth) :
    ∀ m l, ValidKeys b l → degSum b l = n → l.length < m → prodOf e l ∈ ordered K b e n := by
  intro m
  induction m with
  | zero => intro l _ _ h; omega
  | succ m ih =>
    intro l h1 h2 h3
    by_cases h4 : l.length = m
    · have hp : l.Perm (l.insertionSort (· ≤ ·)) := (List.perm_insertionSort _ l).symm
      have h5 := swap_mem (K := K) e hb he hn ih hp [] h1 h2 h4
      rw [List.nil_append, List.nil_append] at h5
      have h6 : prodOf e (l.insertionSort (· ≤ ·)) ∈ ordered K b e n := by
        refine Submodule.subset_span ⟨_, fun k hk => h1 k (hp.mem_iff.2 hk), ?_, List.pairwise_insertionSort _ l, rfl⟩
        rw [← h2]
        exact ((hp.map b.deg).sum_eq).symm
      have := Submodule.add_mem _ h5 h6
      rwa [sub_add_cancel] at this
    · exact ih l h1 h2 (by omega)

end Span

/-! ## The number of ordered products -/

/-- The ordered products of keys from the last `j` rows, of degree `n`. -/
def monomials (b : Basis) : ℕ → ℕ → List (List ℕ)
  | 0, n => if n = 0 then [[]] else []
  | j + 1, n => monomials b j n ++
      if _h : 0 < b.deg (b.data.length - (j + 1)) ∧ b.deg (b.data.length - (j + 1)) ≤ n then
        (monomials b (j + 1) (n - b.deg (b.data.length - (j + 1)))).map ((b.data.length - (j + 1)) :: ·)
      else []
termination_by j n => (j, n)

theorem mem_monomials (b : Basis) (hd : ∀ k, 0 < k → k < b.data.length → 0 < b.deg k) :
    ∀ j l n, j < b.data.length → (∀ k ∈ l, b.data.length - j ≤ k ∧ k < b.data.length) → degSum b l = n →
      l.Pairwise (· ≤ ·) → l ∈ monomials b j n := by
  intro j
  induction j with
  | zero =>
    intro l n _ h1 h2 _
    have hl : l = [] := by
      cases l with
      | nil => rfl
      | cons x l => have := h1 x List.mem_cons_self; omega
    subst hl
    have : n = 0 := h2.symm
    subst this
    simp [monomials]
  | succ j ih =>
    intro l
    induction l with
    | nil =>
      intro n hj _ h2 h3
      rw [monomials, List.mem_append]
      exact Or.inl (ih [] n (by omega) (by simp) h2 h3)
    | cons x l ihl =>
      intro n hj h1 h2 h3
      rw [List.pairwise_cons] at h3
      rw [monomials, List.mem_append]
      rw [degSum_cons] at h2
      have hx := h1 x List.mem_cons_self
      by_cases h4 : x = b.data.length - (j + 1)
      · right
        have hpos := hd x (by omega) hx.2
        subst h4
        rw [dif_pos ⟨hpos, by omega⟩, List.mem_map]
        exact ⟨l, ihl _ hj (fun k hk => h1 k (List.mem_cons_of_mem _ hk)) (by omega) h3.2, rfl⟩
      · left
        refine ih _ n (by omega) ?_ (by rw [degSum_cons]; exact h2) (List.pairwise_cons.2 h3)
        intro k hk
        refine ⟨?_, (h1 k hk).2⟩
        rcases List.mem_cons.1 hk with rfl | hk
        · omega
        · have := h3.1 k hk; omega

/-- Generating function of the numbers of ordered products. -/
noncomputable def monomialSeries (b : Basis) (j : ℕ) : ℤ⟦X⟧ := PowerSeries.mk fun n => ((monomials b j n).length : ℤ)

theorem monomialSeries_succ (b : Basis) (j : ℕ) (hd : 0 < b.deg (b.data.length - (j + 1))) :
    (1 - X ^ b.deg (b.data.length - (j + 1))) * monomialSeries b (j + 1) = monomialSeries b j := by
  ext n
  rw [sub_mul, one_mul, map_sub, PowerSeries.coeff_X_pow_mul']
  unfold monomialSeries
  rw [PowerSeries.coeff_mk, monomials]
  by_cases h : b.deg (b.data.length - (j + 1)) ≤ n
  · rw [dif_pos ⟨hd, h⟩, if_pos h, PowerSeries.coeff_mk, PowerSeries.coeff_mk, List.length_append, List.length_map]
    push_cast
    ring
  · rw [dif_neg (fun hh => h hh.2), if_neg h, List.append_nil, sub_zero, PowerSeries.coeff_mk]

theorem monomialSeries_zero (b : Basis) : monomialSeries b 0 = 1 := by
  ext n
  unfold monomialSeries
  rw [PowerSeries.coeff_mk, monomials, PowerSeries.coeff_one]
  by_cases h : n = 0
  · rw [if_pos h, if_pos h]; rfl
  · rw [if_neg h, if_neg h]; rfl

theorem prod_monomialSeries (b : Basis) (hd : ∀ k, 0 < k → k < b.data.length → 0 < b.deg k) :
    ∀ j, j < b.data.length →
      (∏ k ∈ Ico (b.data.length - j) b.data.length, (1 - X ^ b.deg k : ℤ⟦X⟧)) * monomialSeries b j = 1 := by
  intro j
  induction j with
  | zero => intro _; rw [Nat.sub_zero, Ico_self, prod_empty, one_mul, monomialSeries_zero]
  | succ j ih =>
    intro hj
    have h1 : b.data.length - (j + 1) + 1 = b.data.length - j := by omega
    rw [prod_eq_prod_Ico_succ_bot (by omega), h1, mul_comm (1 - _), mul_assoc,
      monomialSeries_succ b j (hd _ (by omega) (by omega)), ih (by omega)]

/-- There are as many ordered products of degree `n` as words of length `n`. -/
theorem IsHallTable.length_monomials {b : Basis} (hb : IsHallTable b) {n : ℕ} (hn : n ≤ b.depth) :
    (monomials b (b.data.length - 1) n).length = b.width ^ n := by
  have h1 := hb.one_le_length
  have h2 := prod_monomialSeries b (fun k hk hkl => hb.deg_pos hkl hk) (b.data.length - 1) (by omega)
  have h3 : b.data.length - (b.data.length - 1) = 1 := by omega
  rw [h3] at h2
  have h4 : φ b ((1 - (b.width : ℤ⟦X⟧) * X) * monomialSeries b (b.data.length - 1)) = φ b 1 := by
    rw [map_mul, hb.product, ← map_mul, h2]
  have h5 : (1 - (b.width : ℤ⟦X⟧) * X) * PowerSeries.mk (fun n => (b.width : ℤ) ^ n) = 1 := by
    ext n
    rw [sub_mul, one_mul, map_sub, mul_assoc]
    have hc : ((b.width : ℤ⟦X⟧)) = PowerSeries.C (b.width : ℤ) := by simp
    rw [hc, PowerSeries.coeff_C_mul]
    cases n with
    | zero => simp
    | succ n =>
      rw [PowerSeries.coeff_succ_X_mul, PowerSeries.coeff_mk, PowerSeries.coeff_mk, PowerSeries.coeff_one,
        if_neg (Nat.succ_ne_zero n), pow_succ]
      ring
  have h6 : φ b (monomialSeries b (b.data.length - 1)) = φ b (PowerSeries.mk (fun n => (b.width : ℤ) ^ n)) := by
    have : φ b (PowerSeries.mk (fun n => (b.width : ℤ) ^ n) *
        ((1 - (b.width : ℤ⟦X⟧) * X) * monomialSeries b (b.data.length - 1))) =
        φ b (PowerSeries.mk (fun n => (b.width : ℤ) ^ n) * 1) := by
      rw [map_mul, h4, ← map_mul]
    rw [mul_one, ← mul_assoc, mul_comm (PowerSeries.mk _), h5, one_mul] at this
    exact this
  rw [φ_eq_iff] at h6
  have h7 := h6 n hn
  unfold monomialSeries at h7
  rw [PowerSeries.coeff_mk, PowerSeries.coeff_mk] at h7
  exact_mod_cast h7

/-! ## Values of the Hall elements in the tensor algebra -/

/-- The element of a Lie ring named by a key, for given images of the letters. -/
def hallValue {L : Type*} [LieRing L] (b : Basis) (x : ℕ → L) : ℕ → ℕ → L
  | 0, k => x k
  | f + 1, k => if 2 ≤ b.deg k then ⁅hallValue b x f (left b.data k), hallValue b x f (right b.data k)⁆ else x k

theorem hallValue_fuel {L : Type*} [LieRing L] {b : Basis} (hb : IsHallTable b) (x : ℕ → L) : ∀ f f' k,
    k < b.data.length → b.deg k ≤ f → b.deg k ≤ f' → hallValue b x f k = hallValue b x f' k := by
  intro f
  induction f with
  | zero =>
    intro f' k _ hf _
    cases f' with
    | zero => rfl
    | succ f' => simp only [hallValue]; rw [if_neg (by omega)]
  | succ f ih =>
    intro f' k hk hf hf'
    cases f' with
    | zero => simp only [hallValue]; rw [if_neg (by omega)]
    | succ f' =>
      simp only [hallValue]
      by_cases hd : 2 ≤ b.deg k
      · have hr := hb.row hk hd
        have h1 := hb.deg_pos (k := left b.data k) (by omega) (by omega)
        have h2 := hb.deg_pos (k := right b.data k) (by omega) (by omega)
        rw [if_pos hd, if_pos hd, ih f' _ (by omega) (by omega) (by omega), ih f' _ (by omega) (by omega) (by omega)]
      · rw [if_neg hd, if_neg hd]

/-- The element named by a key, without fuel. -/
def hallElem {L : Type*} [LieRing L] (b : Basis) (x : ℕ → L) (k : ℕ) : L := hallValue b x b.depth k

theorem hallElem_isHallMap {L : Type*} [LieRing L] {b : Basis} (hb : IsHallTable b) (x : ℕ → L) :
    IsHallMap b (hallElem b x) := by
  intro d k i j hd hk hrow
  have hkl := hk.lt hb
  have hdk := hb.deg_eq hk
  have hr := hb.row hkl (by omega)
  have hrow2 := row_eq hkl
  rw [hrow, Option.some.injEq, Prod.mk.injEq] at hrow2
  obtain ⟨rfl, rfl⟩ := hrow2
  unfold hallElem
  obtain ⟨m, hm⟩ : ∃ m, b.depth = m + 1 := ⟨b.depth - 1, by have := hb.depth_pos; omega⟩
  have hdm : d ≤ b.depth := hk.1
  have h1 := hb.deg_pos (k := left b.data k) (by omega) (by omega)
  have h2 := hb.deg_pos (k := right b.data k) (by omega) (by omega)
  rw [hm]
  rw [show hallValue b x (m + 1) k = ⁅hallValue b x m (left b.data k), hallValue b x m (right b.data k)⁆ by
    simp only [hallValue]; rw [if_pos (by omega)]]
  rw [hallValue_fuel hb x m (m + 1) _ (by omega) (by omega) (by omega),
    hallValue_fuel hb x m (m + 1) _ (by omega) (by omega) (by omega)]

theorem hallElem_letter {L : Type*} [LieRing L] {b : Basis} (hb : IsHallTable b) (x : ℕ → L) {k : ℕ}
    (h1 : 1 ≤ k) (h2 : k ≤ b.width) : hallElem b x k = x k := by
  have hd := hb.deg_eq ((hb.letter_iff (k := k)).2 ⟨h1, h2⟩)
  unfold hallElem
  cases b.depth with
  | zero => rfl
  | succ m => simp only [hallValue]; rw [if_neg (by omega)]

section Words

variable {K : Type*} [CommRing K]

/-- The series vanishes on all words of another length. -/
def Homog {α : Type*} (n : ℕ) (f : Series α K) : Prop := ∀ u, u.length ≠ n → f u = 0

theorem Homog.mul {α : Type*} {m n : ℕ} {f g : Series α K} (hf : Homog m f) (hg : Homog n g) :
    Homog (m + n) (f * g) := by
  intro u hu
  rw [Tensor.Series.mul_apply]
  refine Finset.sum_eq_zero fun k hk => ?_
  rw [Finset.mem_range] at hk
  by_cases h : (u.take k).length = m
  · rw [hg (u.drop k) ?_, mul_zero]
    rw [List.length_take] at h
    rw [List.length_drop]
    omega
  · rw [hf _ h, zero_mul]

theorem Homog.sub {α : Type*} {n : ℕ} {f g : Series α K} (hf : Homog n f) (hg : Homog n g) : Homog n (f - g) := by
  intro u hu
  rw [Tensor.Series.sub_apply, hf u hu, hg u hu, sub_zero]

/-- The letters as tensors, numbered from one. -/
def letterOf (K : Type*) [CommRing K] (w : ℕ) (k : ℕ) : Series (Fin w) K :=
  if h : k - 1 < w then letter K ⟨k - 1, h⟩ else 0

theorem letterOf_homog (w k : ℕ) : Homog 1 (letterOf K w k) := by
  intro u hu
  unfold letterOf
  by_cases h : k - 1 < w
  · rw [dif_pos h]
    unfold letter
    rw [if_neg]
    rintro rfl
    exact hu rfl
  · rw [dif_neg h]; rfl

/-- The Hall polynomials: every key as an element of the tensor algebra. -/
def hallPoly (K : Type*) [CommRing K] (b : Basis) (k : ℕ) : Series (Fin b.width) K :=
  hallElem b (letterOf K b.width) k

theorem hallPoly_isHallMap {b : Basis} (hb : IsHallTable b) : IsHallMap b (hallPoly K b) :=
  hallElem_isHallMap hb _

theorem hallPoly_letter {b : Basis} (hb : IsHallTable b) (i : Fin b.width) :
    hallPoly K b (i.val + 1) = letter K i := by
  unfold hallPoly
  rw [hallElem_letter hb _ (by omega) (by omega)]
  unfold letterOf
  rw [dif_pos (by omega)]
  rfl

theorem hallPoly_homog {b : Basis} (hb : IsHallTable b) : ∀ n k, HasDegree b k n → 0 < n → Homog n (hallPoly K b k) := by
  intro n
  induction n using Nat.strong_induction_on with
  | _ n ih =>
    intro k hk hn
    by_cases h : 2 ≤ n
    · obtain ⟨i, j, p, q, c, h1, h2, h3, h4, h5, h6, -⟩ := hb.rows n k h hk
      rw [hallPoly_isHallMap hb n k i j h hk h1, Ring.lie_def]
      refine Homog.sub ?_ ?_
      · rw [← h4]; exact (ih p (by omega) i h5 (by omega)).mul (ih q (by omega) j h6 (by omega))
      · rw [← h4, add_comm]; exact (ih q (by omega) j h6 (by omega)).mul (ih p (by omega) i h5 (by omega))
    · have : n = 1 := by omega
      subst this
      have := hb.letter_iff.1 hk
      unfold hallPoly
      rw [hallElem_letter hb _ this.1 this.2]
      exact letterOf_homog _ _

theorem letter_mul {α : Type*} [DecidableEq α] (a : α) (f : Series α K) : ∀ u, (letter K a * f) u =
    match u with
    | [] => 0
    | c :: u => if c = a then f u else 0 := by
  intro u
  cases u with
  | nil => rw [Tensor.Series.mul_nil]; unfold letter; rw [if_neg (by simp), zero_mul]
  | cons c u =>
    rw [Tensor.Series.mul_cons]
    unfold letter
    rw [if_neg (by simp), zero_mul, zero_add]
    have : Tensor.Series.ld c (fun z => if z = [a] then (1 : K) else 0 : Series α K) = if c = a then (1 : Series α K) else 0 := by
      funext z
      unfold Tensor.Series.ld
      by_cases h : c = a
      · rw [if_pos h]
        cases z with
        | nil => exact if_pos (by rw [h])
        | cons d z => exact if_neg (by simp)
      · rw [if_neg h]; exact if_neg (by simp [h])
    rw [this]
    by_cases h : c = a
    · rw [if_pos h, one_mul]; exact (if_pos h).symm
    · rw [if_neg h, zero_mul]; exact (if_neg h).symm

/-- A product of letters is a word. -/
theorem prodOf_letters {b : Basis} (hb : IsHallTable b) (u : List (Fin b.width)) :
    prodOf (hallPoly K b) (u.map fun i => i.val + 1) = Tensor.Series.word K u := by
  induction u with
  | nil =>
    funext z
    cases z with
    | nil => exact (if_pos rfl).symm
    | cons c z => exact (if_neg (by simp)).symm
  | cons a u ih =>
    rw [List.map_cons, prodOf_cons, ih, hallPoly_letter hb]
    funext z
    rw [letter_mul]
    cases z with
    | nil => exact (if_neg (by simp)).symm
    | cons c z =>
      unfold Tensor.Series.word
      by_cases h : c = a
      · rw [h]; simp
      · rw [if_neg (by simp [h])]; exact if_neg h

/-- The part of a series on the words of length `n`. -/
def part (K : Type*) [CommRing K] (w n : ℕ) : Series (Fin w) K →ₗ[K] ((Fin n → Fin w) → K) where
  toFun s f := s (List.ofFn f)
  map_add' _ _ := rfl
  map_smul' _ _ := rfl

theorem part_word {w n : ℕ} (f : Fin n → Fin w) :
    part K w n (Tensor.Series.word K (List.ofFn f)) = Pi.single f 1 := by
  funext g
  show Tensor.Series.word K (List.ofFn f) (List.ofFn g) = _
  unfold Tensor.Series.word
  by_cases h : g = f
  · subst h; rw [if_pos rfl, Pi.single_eq_same]
  · rw [if_neg (fun hh => h (List.ofFn_injective hh)), Pi.single_eq_of_ne h]

variable [Nontrivial K]

/-- The Hall polynomials of one degree are linearly independent. -/
theorem IsHallTable.independent {b : Basis} (hb : IsHallTable b) {n : ℕ} (hn0 : 0 < n) (hn : n ≤ b.depth) :
    LinearIndependent K fun k : {k // HasDegree b k n} => part K b.width n (hallPoly K b k.1) := by
  have hpos : ∀ k, 0 < k → k < b.data.length → 0 < b.deg k := fun k hk hkl => hb.deg_pos hkl hk
  set ms := monomials b (b.data.length - 1) n with hms
  have hone := hb.one_le_length
  have hmem : ∀ l, ValidKeys b l → degSum b l = n → l.Pairwise (· ≤ ·) → l ∈ ms := fun l h1 h2 h3 =>
    mem_monomials b hpos _ l n (by omega) (fun k hk => ⟨by have := h1 k hk; omega, (h1 k hk).2⟩) h2 h3
  have hspan : (⊤ : Submodule K ((Fin n → Fin b.width) → K)) ≤
      Submodule.span K (Set.range fun i : Fin ms.length => part K b.width n (prodOf (hallPoly K b) ms[i])) := by
    intro v _
    rw [pi_eq_sum_univ' v]
    refine Submodule.sum_mem _ fun f _ => Submodule.smul_mem _ _ ?_
    rw [← part_word, ← prodOf_letters hb]
    have h2 : prodOf (hallPoly K b) ((List.ofFn f).map fun i => i.val + 1) ∈ ordered K b (hallPoly K b) n := by
      refine prodOf_mem _ hb (hallPoly_isHallMap hb) hn _ _ ?_ ?_ (Nat.lt_succ_self _)
      · intro k hk
        rw [List.mem_map] at hk
        obtain ⟨i, _, rfl⟩ := hk
        exact ⟨by omega, ((hb.letter_iff (k := i.val + 1)).2 ⟨by omega, by omega⟩).lt hb⟩
      · unfold degSum
        rw [List.map_map, List.map_congr_left (g := fun _ => 1)]
        · rw [List.map_const', List.sum_replicate, List.length_ofFn, smul_eq_mul, mul_one]
        · intro i _
          exact hb.deg_eq ((hb.letter_iff (k := i.val + 1)).2 ⟨by omega, by omega⟩)
    have h3 := Submodule.mem_map_of_mem (f := part K b.width n) h2
    unfold ordered at h3
    rw [Submodule.map_span] at h3
    refine Submodule.span_mono ?_ h3
    rintro _ ⟨_, ⟨l, h4, h5, h6, rfl⟩, rfl⟩
    obtain ⟨i, hi, h7⟩ := List.getElem_of_mem (hmem l h4 h5 h6)
    exact ⟨⟨i, hi⟩, by simp only [Fin.getElem_fin, h7]⟩
  have hind := linearIndependent_of_top_le_span_of_card_eq_finrank hspan (by
    rw [Fintype.card_fin, Module.finrank_fintype_fun_eq_card, Fintype.card_fun, Fintype.card_fin, Fintype.card_fin,
      hms, hb.length_monomials hn])
  have hidx : ∀ k : {k // HasDegree b k n}, ∃ i : Fin ms.length, ms[i] = [k.1] := by
    intro k
    have hk0 := hb.pos_of_degree k.2 hn0
    obtain ⟨i, hi, h7⟩ := List.getElem_of_mem (hmem [k.1] (by
      intro x hx
      rw [List.mem_singleton] at hx
      subst hx
      exact ⟨hk0, k.2.lt hb⟩) (by
      unfold degSum
      rw [List.map_singleton, List.sum_singleton, hb.deg_eq k.2]) (List.pairwise_singleton _ _))
    exact ⟨⟨i, hi⟩, h7⟩
  choose idx hidx using hidx
  have h8 := hind.comp idx (by
    intro k k' h
    have h1 := hidx k
    rw [h, hidx k'] at h1
    exact Subtype.ext (by simpa using h1.symm))
  have h9 : (fun k : {k // HasDegree b k n} => part K b.width n (hallPoly K b k.1)) =
      (fun i : Fin ms.length => part K b.width n (prodOf (hallPoly K b) ms[i])) ∘ idx := by
    funext k
    show _ = part K b.width n (prodOf (hallPoly K b) ms[idx k])
    rw [hidx k]
    unfold prodOf
    rw [List.map_singleton, List.prod_singleton]
  rw [h9]
  exact h8

end Words

end RoughPy.Lie
