import Verif.GenPoly.Steps
import Mathlib.Tactic.FieldSimp

/-!
# C153 — arithmetic of the generic polynomials

Sums, differences, products and quotients of polynomials are those of the functions they denote.
-/

namespace RoughPy.GenPoly

/-- C153, product of monomials: for normal forms, if every indeterminate of the right factor except
possibly the last one occurs in the left factor, the product is defined, in normal form, and has the
product of the values.

Partial: without the condition the code is undefined (`C153_monomial_undefined`). -/
theorem C153_monomial_partial (m : FlatMap Ind ℕ) (rhs : Mono) (hm : MonoOk m.data) (hr : MonoOk rhs)
    (hk : ∀ k ∈ keys rhs.dropLast, k ∈ keys m.data) :
    ∃ m', mulInplace m rhs = some m' ∧ MonoOk m'.data ∧
      ∀ x, monoVal x m'.data = monoVal x m.data * monoVal x rhs :=
  mulInplace_ok m rhs hm hr hk

/-- C153 (in part): a copy of a power has no room for another indeterminate, so it moves to a new block, and
then the old end is the place of no element: the product is right though an indeterminate comes in front. -/
theorem C153_monomial_full_partial (a b : Ind) (p q r : ℕ) (h : a < b) :
    monoMul [(b, p)] [(a, q), (b, r)] = some [(a, q), (b, p + r)] := by
  have h1 : ¬ b < a := Nat.lt_asymm h
  simp [monoMul, mulInplace, mulStep, FlatMap.find, FlatMap.lowerBound, FlatMap.emplace, FlatMap.insertAt,
    FlatMap.ptr, FlatMap.endPtr, FlatMap.valueAt, FlatMap.setAt, indLt, List.findIdx_cons, h, h1]

example : monoMul [(5, 1)] [(3, 2), (5, 4)] = some [(3, 2), (5, 5)] := by decide

/-- C153: the product of a monomial with one whose first two indeterminates are new is undefined:
the iterator `end()` from before the first insertion is compared after it. -/
theorem C153_monomial_undefined (m : FlatMap Ind ℕ) (hm : MonoOk m.data) (a b : Ind × ℕ) (rest : Mono)
    (hr : MonoOk (a :: b :: rest)) (ha : a.1 ∉ keys m.data) (hb : b.1 ∉ keys m.data) :
    mulInplace m (a :: b :: rest) = none := by
  have hs : Sorted indLt m.data := hm.sorted.imp (by intro a b h; simpa [indLt] using h)
  obtain ⟨l, r, hd, hl, hr', hstep⟩ := mulStep_new m hs a.1 a.2 ha
  have hend := insertAt_end m l.length (by rw [hd]; simp) (a.1, a.2)
  have hdat : (m.insertAt l.length (a.1, a.2)).data = l ++ (a.1, a.2) :: r := by
    rw [insertAt_data, hd, insertIdx_split]
  have hne : b.1 ≠ a.1 := by
    have := (List.pairwise_cons.1 hr.sorted).1 b List.mem_cons_self
    exact fun h => absurd (h ▸ this : a.1 < a.1) (lt_irrefl _)
  have h2 := mulStep_undef m.endPtr (m.insertAt l.length (a.1, a.2))
    (by rw [hdat]; rw [hd] at hs; exact sorted_insert indLt l r a.1 a.2 hs hl hr') b.1 b.2
    (by
      rw [hdat, keys_append, keys_cons]
      rw [hd, keys_append] at hb
      simp only [List.mem_append, List.mem_cons, not_or] at hb ⊢
      exact ⟨hb.1, hne, hb.2⟩) hend
  unfold mulInplace
  rw [List.foldlM_cons, show a = (a.1, a.2) from rfl, hstep]
  show List.foldlM (mulStep m.endPtr) (m.insertAt l.length (a.1, a.2)) (b :: rest) = none
  rw [List.foldlM_cons, show b = (b.1, b.2) from rfl, h2]
  rfl

/-- C153, sum: for normal forms, if every monomial of the right summand except possibly the last one
occurs in the left summand, and either the last one does too or no term before it cancels, the sum
is defined, in normal form, and has the sum of the values.

Partial: without the condition the code can be undefined (`C153_sum_undefined`) or wrong
(`C153_lost_term_refuted`). -/
theorem C153_sum_partial (p : Poly) (rhs : List (Mono × ℚ)) (hp : PolyOk p.data) (hr : PolyOk rhs)
    (hk : ∀ k ∈ keys rhs.dropLast, k ∈ keys p.data)
    (hlast : (∀ k ∈ keys rhs, k ∈ keys p.data) ∨
      ∀ t ∈ rhs.dropLast, ∀ v, (t.1, v) ∈ p.data → v + t.2 ≠ 0) :
    ∃ q, polyAdd p rhs = some q ∧ PolyOk q.data ∧
      ∀ x, polyVal x q.data = polyVal x p.data + polyVal x rhs := by
  obtain ⟨q, h1, h2, h3⟩ := signLoop_ok 1 (Or.inl rfl) p rhs hp hr hk (by simpa using hlast)
  refine ⟨q, ?_, h2, fun x => by rw [h3, one_mul]⟩
  unfold signStep at h1
  rw [if_pos rfl] at h1
  exact h1

/-- C153, difference: as for the sum. -/
theorem C153_difference_partial (p : Poly) (rhs : List (Mono × ℚ)) (hp : PolyOk p.data)
    (hr : PolyOk rhs) (hk : ∀ k ∈ keys rhs.dropLast, k ∈ keys p.data)
    (hlast : (∀ k ∈ keys rhs, k ∈ keys p.data) ∨
      ∀ t ∈ rhs.dropLast, ∀ v, (t.1, v) ∈ p.data → v ≠ t.2) :
    ∃ q, polySub p rhs = some q ∧ PolyOk q.data ∧
      ∀ x, polyVal x q.data = polyVal x p.data - polyVal x rhs := by
  obtain ⟨q, h1, h2, h3⟩ := signLoop_ok (-1) (Or.inr rfl) p rhs hp hr hk (by
    rcases hlast with h | h
    · exact Or.inl h
    · refine Or.inr fun t ht v hv h0 => h t ht v hv ?_
      linarith)
  refine ⟨q, ?_, h2, fun x => by rw [h3]; ring⟩
  unfold signStep at h1
  rw [if_neg (by norm_num)] at h1
  exact h1

/-- C153: the sum and the difference with a polynomial whose first two monomials are new are
undefined; in particular `0 + p` for every `p` of at least two terms. -/
theorem C153_sum_undefined (p : Poly) (hp : PolyOk p.data) (t u : Mono × ℚ) (rest : List (Mono × ℚ))
    (hr : PolyOk (t :: u :: rest)) (ht : t.1 ∉ keys p.data) (hu : u.1 ∉ keys p.data) :
    polyAdd p (t :: u :: rest) = none ∧ polySub p (t :: u :: rest) = none := by
  constructor
  · have h := signLoop_undef 1 (Or.inl rfl) p hp t u rest hr ht hu
    unfold signStep at h
    rw [if_pos rfl] at h
    exact h
  · have h := signLoop_undef (-1) (Or.inr rfl) p hp t u rest hr ht hu
    unfold signStep at h
    rw [if_neg (by norm_num)] at h
    exact h

/-- C153, product: for normal forms, if all products of monomials can be computed, the product is
defined, in normal form, and has the product of the values.

Partial: see `C153_monomial_undefined`. -/
theorem C153_product_partial (p : Poly) (rhs : List (Mono × ℚ)) (hp : PolyOk p.data) (hr : PolyOk rhs)
    (hk : ∀ s ∈ p.data, ∀ t ∈ rhs, ∀ k ∈ keys t.1.dropLast, k ∈ keys s.1) :
    ∃ q, polyMul p rhs = some q ∧ PolyOk q.data ∧
      ∀ x, polyVal x q.data = polyVal x p.data * polyVal x rhs := by
  obtain ⟨q, h1, h2, h3⟩ := polyMul_loop rhs p.data emptyPoly
    ⟨List.Pairwise.nil, by simp [emptyPoly], by simp [emptyPoly]⟩
    (fun s hs => ⟨hp.monos s hs, hp.coeffs s hs, fun t ht => ⟨hr.monos t ht, hr.coeffs t ht, hk s hs t ht⟩⟩)
  refine ⟨q, h1, h2, fun x => ?_⟩
  rw [h3]
  simp [emptyPoly, polyVal]

/-- C153: the right factor has at most one indeterminate in each monomial: no further condition. -/
theorem C153_product_powers (p : Poly) (rhs : List (Mono × ℚ)) (hp : PolyOk p.data) (hr : PolyOk rhs)
    (h1 : ∀ t ∈ rhs, t.1.length ≤ 1) :
    ∃ q, polyMul p rhs = some q ∧ PolyOk q.data ∧
      ∀ x, polyVal x q.data = polyVal x p.data * polyVal x rhs := by
  apply C153_product_partial p rhs hp hr
  intro s _ t ht k hk
  have : t.1.dropLast = [] := by
    apply List.eq_nil_of_length_eq_zero
    have := h1 t ht
    rw [List.length_dropLast]
    omega
  rw [this] at hk
  simp [keys] at hk

/-- C153, quotient by a number: division by zero is an error, otherwise the values are divided. -/
theorem C153_quotient (p : Poly) (hp : PolyOk p.data) (r : ℚ) :
    (r = 0 → polyDiv p r = none) ∧
    (r ≠ 0 → ∃ q, polyDiv p r = some q ∧ PolyOk q.data ∧
      ∀ x, polyVal x q.data = polyVal x p.data / r) := by
  constructor
  · intro h; unfold polyDiv; rw [if_pos h]
  · intro h
    refine ⟨_, by unfold polyDiv; rw [if_neg h], ⟨?_, ?_, ?_⟩, ?_⟩
    · show (p.data.map fun t => (t.1, t.2 / r)).Pairwise _
      rw [List.pairwise_map]
      exact hp.sorted
    · intro t ht
      obtain ⟨s, hs, rfl⟩ := List.mem_map.1 ht
      exact hp.monos s hs
    · intro t ht
      obtain ⟨s, hs, rfl⟩ := List.mem_map.1 ht
      exact div_ne_zero (hp.coeffs s hs) h
    · intro x
      show polyVal x (p.data.map fun t => (t.1, t.2 / r)) = _
      induction p.data with
      | nil => simp [polyVal]
      | cons t l ih =>
        rw [List.map_cons, polyVal_cons, polyVal_cons, ih]
        field_simp

/-! ### Examples -/

def x1 : Ind := mkInd 'x' 1
def x2 : Ind := mkInd 'x' 2
def x3 : Ind := mkInd 'x' 3

/-- `1 + 2 x1`, as made by a constructor with an initialiser list. -/
def linear : Poly := ⟨0, 2, [([], 1), ([(x1, 1)], 2)]⟩

/-- `x1 x2`, as a copy. -/
def mixed : FlatMap Ind ℕ := ⟨0, 2, [(x1, 1), (x2, 1)]⟩

example : PolyOk linear.data ∧ MonoOk mixed.data :=
  ⟨⟨by decide +kernel, by
      intro t ht
      have : t = ([], 1) ∨ t = ([(x1, 1)], 2) := by simpa [linear] using ht
      rcases this with rfl | rfl
      · exact ⟨by simp, by simp⟩
      · exact ⟨by simp, by simp⟩, by decide +kernel⟩, ⟨by decide +kernel, by decide +kernel⟩⟩

/-- `x1 x2 · x1 x3 = x1^2 x2 x3`. -/
example : (mulInplace mixed [(x1, 1), (x3, 1)]).map (fun m => m.data) =
    some [(x1, 2), (x2, 1), (x3, 1)] := by
  decide +kernel

/-- `(1 + 2 x1) + (-2 x1)`, `(1 + 2 x1) - x2`, `(1 + 2 x1)^2`. -/
example : (polyAdd linear [([(x1, 1)], -2)]).map (fun p => p.data) = some [([], 1)] ∧
    (polySub linear [([(x2, 1)], 1)]).map (fun p => p.data) =
      some [([], 1), ([(x1, 1)], 2), ([(x2, 1)], -1)] ∧
    (polyMul linear linear.data).map (fun p => p.data) =
      some [([], 1), ([(x1, 1)], 4), ([(x1, 2)], 4)] :=
  ⟨by decide +kernel, by decide +kernel, by decide +kernel⟩

/-- `x1 · (x2 x3)` is undefined, although `(x2 x3) · x1` is not. -/
example : monoMul [(x1, 1)] [(x2, 1), (x3, 1)] = none ∧
    monoMul [(x2, 1), (x3, 1)] [(x1, 1)] = some [(x1, 1), (x2, 1), (x3, 1)] := by
  decide +kernel

/-! ### What does not hold -/

/-- C153: sums of polynomials in normal form are not always defined. -/
theorem C153_sum_refuted : ¬ ∀ (p : Poly) (rhs : List (Mono × ℚ)), PolyOk p.data → PolyOk rhs →
    ∃ q, polyAdd p rhs = some q := by
  intro h
  have hr : PolyOk [([], (1 : ℚ)), ([(x1, 1)], 2)] :=
    ⟨by decide +kernel, by
      intro t ht
      have : t = ([], 1) ∨ t = ([(x1, 1)], 2) := by simpa using ht
      rcases this with rfl | rfl
      · exact ⟨by simp, by simp⟩
      · exact ⟨by simp, by simp⟩, by decide +kernel⟩
  obtain ⟨q, hq⟩ := h emptyPoly _ ⟨List.Pairwise.nil, by simp [emptyPoly], by simp [emptyPoly]⟩ hr
  have hn : polyAdd emptyPoly [([], (1 : ℚ)), ([(x1, 1)], 2)] = none := by decide +kernel
  rw [hn] at hq
  exact absurd hq (by simp)

/-- C153, lost terms: in a vector with room, `(1 + x2) + (x1 + 5 x2)` — the first insertion moves
`x2` to where `end()` was, so that its coefficient is not changed: the result is `1 + x1 + x2`. -/
theorem C153_lost_term_refuted :
    (polyAdd ⟨0, 4, [([], 1), ([(x2, 1)], 1)]⟩ [([(x1, 1)], 1), ([(x2, 1)], 5)]).map (fun p => p.data) =
      some [([], 1), ([(x1, 1)], 1), ([(x2, 1)], 1)] := by
  decide +kernel

/-- C153, the same for the difference: the coefficient is overwritten, `(1 + x2) - (x1 + 5 x2)` is
`1 - x1 - 5 x2`. -/
theorem C153_overwritten_term_refuted :
    (polySub ⟨0, 4, [([], 1), ([(x2, 1)], 1)]⟩ [([(x1, 1)], 1), ([(x2, 1)], 5)]).map (fun p => p.data) =
      some [([], 1), ([(x1, 1)], -1), ([(x2, 1)], -5)] := by
  decide +kernel

/-- C153: `p -= p` is undefined for two terms (right for one): the loop goes over the elements while
they are erased. -/
theorem C153_self_refuted : polySubSelf linear = none ∧
    (polySubSelf ⟨0, 1, [([(x1, 1)], 2)]⟩).map (fun p => p.data) = some [] := by
  decide +kernel

end RoughPy.GenPoly
