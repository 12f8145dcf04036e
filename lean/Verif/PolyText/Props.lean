import Verif.PolyText.Order

/-!
# C157 — polynomials as text

A polynomial written as text is read as that polynomial; what is shown can be read back; text that is not a
polynomial is refused.
-/

namespace RoughPy.PolyText

open RoughPy.GenPoly

/-- C157, reading: the text of a polynomial, with terms and indeterminates in any order, each once, is read as
that polynomial: its terms are those of the text, and they are stored in order and in normal form.

Partial: fractions are stored as they are written (`C157_unreduced_refuted`), repeated terms are dropped
(`C157_repeated_term_refuted`). -/
theorem C157_text_partial (stod : List Char → Option ℚ) (ts : List (Bool × Term)) (h : ∀ t ∈ ts, t.2.Valid)
    (hp : ts.Pairwise fun s t => ¬ s.2.SameMonomial t.2) :
    ∃ p q, parse stod (text ts) = .ok p ∧ p.Perm q ∧ List.Forall₂ Term.StoredAs (ts.map fun t => t.2) q ∧
      (p.Pairwise fun t u => monoLt t.1 u.1 = true) ∧ ∀ t ∈ p, MonoOk t.1 := by
  obtain ⟨p, q, e1, e2, e3⟩ := parse_perm stod h hp
  exact ⟨p, q, e1, e2, e3, parse_ok e1⟩

/-- C157, showing and reading back: a polynomial in which every term has at most one indeterminate is read
back from the text that is shown.

Partial: not so for two indeterminates, `C157_round_trip_refuted`. -/
theorem C157_round_trip_partial (stod : List Char → Option ℚ) (ts : List Term) (h : ∀ t ∈ ts, t.Valid)
    (hp : ts.Pairwise fun s t => monoLt s.stored.1 t.stored.1 = true) (hl : ∀ t ∈ ts, t.powers.length ≤ 1) :
    parse stod (display (ts.map Term.stored)) = .ok (ts.map Term.stored) := by
  rw [display_stored h hl, parse_text stod (by
    intro t ht
    obtain ⟨u, hu, rfl⟩ := List.mem_map.1 ht
    exact h u hu) (by
    intro t ht
    obtain ⟨u, hu, rfl⟩ := List.mem_map.1 ht
    have := hl u hu
    unfold Term.Ordered
    match u.powers, this with
    | [], _ => exact List.Pairwise.nil
    | [x], _ => exact List.pairwise_singleton _ _) (by rw [List.pairwise_map]; exact hp), List.map_map]
  rfl

/-- C157: whatever text is read, the terms are in increasing order, each monomial once, and each monomial is
in normal form.

Partial: coefficients may be zero (`C157_zero_coefficient`). -/
theorem C157_ordered_partial (stod : List Char → Option ℚ) (s : List Char) (p : List (Mono × Coeff))
    (h : parse stod s = .ok p) :
    (p.Pairwise fun t u => monoLt t.1 u.1 = true) ∧ ∀ t ∈ p, MonoOk t.1 :=
  parse_ok h

/-- C157: no text without digits is refused; it is read as zero. -/
theorem C157_malformed_refuted (stod : List Char → Option ℚ) (s : List Char) (h : ∀ c ∈ s, c.isDigit = false) :
    parse stod s = .ok [] := by
  unfold parse
  rw [searchAll_noDigit _ _ h]
  rfl

/-- C157: a number such as `9.` with a decimal point beyond the range of doubles ends the process. -/
theorem C157_out_of_range_refuted (stod : List Char → Option ℚ) (h : stod "9.".toList = none) :
    parse stod "9.".toList = .terminates := by
  have hs : searchAll 2 ['9', '.'] = [⟨false, .dbl ['9', '.'], []⟩] := by decide +kernel
  show (match readTerms stod (searchAll 2 ['9', '.']) ⟨0, 0, []⟩ with
    | .ok p => Res.ok p.data | .refused => .refused | .terminates => .terminates) = _
  rw [hs]
  unfold readTerms readCoeff
  have h' : stod ['9', '.'] = none := h
  simp [h']

/-! ### What goes wrong -/

def x1 : Ind := mkInd 'x' 1
def x2 : Ind := mkInd 'x' 2

/-- no double is read -/
def noStod : List Char → Option ℚ := fun _ => none

/-- C157: `{ 3(x1 x2) }` is shown for `3 x1 x2` and is read back as `3`. -/
theorem C157_round_trip_refuted :
    display [([(x1, 1), (x2, 1)], (3, 1))] = "{ 3(x1 x2) }".toList ∧
    parse noStod "{ 3(x1 x2) }".toList = .ok [([], (3, 1))] := by
  constructor <;> decide +kernel

/-- C157: the indeterminate alone is read as the constant `1`: `x1` is not a term, `1` is. -/
theorem C157_bare_indeterminate_refuted : parse noStod "x1".toList = .ok [([], (1, 1))] := by decide +kernel

/-- C157: a sign that is separated by a space is ignored. -/
theorem C157_separated_sign_refuted :
    parse noStod "1 - 2(x1)".toList = .ok [([], (1, 1)), ([(x1, 1)], (2, 1))] := by decide +kernel

/-- C157: of two terms in the same monomial the second is dropped. -/
theorem C157_repeated_term_refuted :
    parse noStod "1(x1) 2(x1)".toList = .ok [([(x1, 1)], (1, 1))] := by decide +kernel

/-- C157: of two powers of the same indeterminate the second is dropped. -/
theorem C157_repeated_power_refuted :
    parse noStod "1(x1x1)".toList = .ok [([(x1, 1)], (1, 1))] := by decide +kernel

/-- C157: a fraction that can be reduced is stored as it is, which GMP does not allow: the polynomials of
`2/4` and `1/2` differ. -/
theorem C157_unreduced_refuted :
    parse noStod "2/4".toList = .ok [([], (2, 4))] ∧ parse noStod "1/2".toList = .ok [([], (1, 2))] := by
  constructor <;> decide +kernel

/-- C157: `0(x1)` is read as the constant `1`, the index of the indeterminate. -/
theorem C157_zero_refuted : parse noStod "0(x1)".toList = .ok [([], (1, 1))] := by decide +kernel

/-- C157: a coefficient `0.` is stored. -/
theorem C157_zero_coefficient : parse (fun _ => some 0) "0.(x1)".toList = .ok [([(x1, 1)], (0, 1))] := by
  decide +kernel

/-- C157: a number beyond 64 bits is refused, although it is a valid coefficient and is shown. -/
theorem C157_large_refuted :
    display [([], (2 ^ 63, 1))] = "{ 9223372036854775808 }".toList ∧
    parse noStod "{ 9223372036854775808 }".toList = .refused := by
  constructor <;> decide +kernel

/-! ### The hypotheses can be met -/

/-- `15/2 - 2 x1 + x1^2 y3` -/
def sample : List Term :=
  [⟨15, 2, []⟩, ⟨-2, 1, [⟨'x', 1, 1⟩]⟩, ⟨1, 1, [⟨'x', 1, 2⟩, ⟨'y', 3, 1⟩]⟩]

theorem sample_valid : ∀ t ∈ sample, t.Valid := by
  intro t ht
  simp only [sample, List.mem_cons, List.not_mem_nil, or_false] at ht
  rcases ht with rfl | rfl | rfl
  · exact ⟨by decide, by decide, by decide, by decide, (by intro x hx; cases hx), List.Pairwise.nil⟩
  · refine ⟨by decide, by decide, by decide, by decide, ?_, List.pairwise_singleton _ _⟩
    intro x hx
    simp only [List.mem_cons, List.not_mem_nil, or_false] at hx
    subst hx
    exact ⟨by decide, by decide, by decide, by decide, by decide⟩
  · refine ⟨by decide, by decide, by decide, by decide, ?_, by decide +kernel⟩
    intro x hx
    simp only [List.mem_cons, List.not_mem_nil, or_false] at hx
    rcases hx with rfl | rfl <;> exact ⟨by decide, by decide, by decide, by decide, by decide⟩

example : text (sample.map fun t => (false, t)) = "{ 15/2 -2(x1) 1(x1^2y3) }".toList := by decide +kernel

example : (∀ t ∈ sample.reverse.map fun t => (true, t), t.2.Valid) ∧
    (sample.reverse.map fun t => (true, t)).Pairwise fun s t => ¬ s.2.SameMonomial t.2 :=
  ⟨by
    intro t ht
    obtain ⟨u, hu, rfl⟩ := List.mem_map.1 ht
    exact sample_valid u (List.mem_reverse.1 hu), by unfold Term.SameMonomial; decide +kernel⟩

example : (∀ t ∈ sample.take 2, t.Valid) ∧
    (sample.take 2).Pairwise (fun s t => monoLt s.stored.1 t.stored.1 = true) ∧
    ∀ t ∈ sample.take 2, t.powers.length ≤ 1 :=
  ⟨fun t ht => sample_valid t (List.mem_of_mem_take ht), by decide +kernel, by decide +kernel⟩

example : parse noStod "2(x2) 1(x1)".toList = .ok [([(x1, 1)], (1, 1)), ([(x2, 1)], (2, 1))] := by decide +kernel

example : ∀ c ∈ "not a polynomial".toList, c.isDigit = false := by decide +kernel

end RoughPy.PolyText
