import Verif.BigNum.Lemmas

/-!
# C155 — integers and fractions of arbitrary precision are numbers

Full statement: sums, differences, products, quotients, negatives, absolute values, powers and
comparisons of values of these types are those of the numbers, fractions are in lowest terms,
what the type cannot do is an error.
-/

namespace RoughPy.BigNum

/-! ### Integers -/

/-- C155, integers: sum, difference, product, negative, absolute value, real and imaginary part;
division is an error. -/
theorem C155_integer (a b : ℤ) :
    intOp .add a b = .ok (a + b) ∧ intOp .sub a b = .ok (a - b) ∧ intOp .mul a b = .ok (a * b) ∧
    intOp .div a b = .raised ∧ intNeg a = .ok (-a) ∧ intFn .abs a = .ok |a| ∧
    intFn .real a = .ok a ∧ intFn .imaginary a = .ok 0 ∧
    ∀ f, f = .sqrt ∨ f = .exp ∨ f = .log → intFn f a = .raised := by
  refine ⟨rfl, rfl, rfl, rfl, by simp [intNeg, intOp, intHas, intInplace], rfl, rfl, rfl, ?_⟩
  rintro f (rfl | rfl | rfl) <;> rfl

/-- C155, integers: the four comparisons other than `==`. -/
theorem C155_integer_order (c : Cmp) (hc : c ≠ .eq) (a b : ℤ) : intCompare c a b = true ↔ c.holds a b := by
  have h1 : mpzCmp a b < 0 ↔ a < b := by unfold mpzCmp; rw [Int.sign_neg_iff]; omega
  have h2 : 0 < mpzCmp a b ↔ b < a := by unfold mpzCmp; rw [Int.sign_pos_iff]; omega
  cases c
  · exact absurd rfl hc
  · simp only [intCompare, Cmp.holds, decide_eq_true_eq, h1]
  · simp only [intCompare, Cmp.holds, decide_eq_true_eq]
    rw [← not_lt, h2, not_lt]
  · simp only [intCompare, Cmp.holds, decide_eq_true_eq, gt_iff_lt, h2]
  · simp only [intCompare, Cmp.holds, decide_eq_true_eq, ge_iff_le]
    rw [← not_lt, h1, not_lt]

/-- C155, `==` of integers is true for different numbers and false for equal ones. -/
theorem C155_integer_equal_refuted (a b : ℤ) : intCompare .eq a b = true ↔ a ≠ b := by
  simp only [intCompare, mpzCmp, decide_eq_true_eq, ne_eq, Int.sign_eq_zero_iff_zero, sub_eq_zero]

/-- C155, powers of integers always throw (through the trait: except the first). -/
theorem C155_integer_power_refuted (a n : ℤ) :
    intPow a n = .raised ∧ (n ≠ 1 → traitIntPow a n = .raised) ∧ traitIntPow a 1 = .ok a :=
  ⟨rfl, fun h => by unfold traitIntPow; rw [if_pos h]; rfl, rfl⟩

/-! ### Fractions -/

/-- C155, fractions: differences, products and quotients by numbers other than zero.

Partial: the sum is wrong (`C155_sum_refuted`), the quotient by zero undefined
(`C155_division_by_zero_refuted`). -/
theorem C155_fraction_partial (op : Op) (a b : Mpq) (ha : Lowest a) (hb : Lowest b) (h1 : op ≠ .add)
    (h2 : op = .div → val b ≠ 0) : Gives (ratOp op a b) (op.exact (val a) (val b)) := by
  cases op
  · exact absurd rfl h1
  · exact mpqSub_gives ha hb
  · exact mpqMul_gives ha hb
  · exact mpqDiv_gives ha hb (h2 rfl)

/-- C155: `a + b` is `2 a`, whatever `b` is. -/
theorem C155_sum_refuted (a b : Mpq) (ha : Lowest a) : Gives (ratOp .add a b) (2 * val a) := by
  rw [two_mul]
  exact mpqAdd_gives ha ha

/-- C155: so the sum is right only for equal operands. -/
theorem C155_sum_equal_refuted (a b : Mpq) (ha : Lowest a) :
    Gives (ratOp .add a b) (val a + val b) ↔ val a = val b := by
  obtain ⟨c, h1, h2, h3⟩ := C155_sum_refuted a b ha
  constructor
  · rintro ⟨d, e1, e2, e3⟩
    rw [h1] at e1
    cases e1
    rw [h3] at e3
    linarith
  · intro h
    exact ⟨c, h1, h2, by rw [h3, ← h]; ring⟩

/-- C155: division of fractions by zero is not an error but aborts. -/
theorem C155_division_by_zero_refuted (a b : Mpq) (hb : Lowest b) (h : val b = 0) :
    ratOp .div a b = .undefined := mpqDiv_zero ((val_eq_zero hb).1 h)

/-- C155, fractions in lowest terms: all comparisons. -/
theorem C155_fraction_order (c : Cmp) (a b : Mpq) (ha : Lowest a) (hb : Lowest b) :
    ratCompare c a b = true ↔ c.holds (val a) (val b) := by
  obtain ⟨h1, h2⟩ := cmp_sign ha hb
  rw [gt_iff_lt] at h2
  cases c
  · simp only [ratCompare, mpqEqual, Cmp.holds, Bool.and_eq_true, decide_eq_true_eq]
    constructor
    · rintro ⟨e1, e2⟩
      unfold val
      rw [e1, e2]
    · intro h
      have := lowest_inj ha hb h
      rw [this]
      exact ⟨rfl, rfl⟩
  · simp only [ratCompare, Cmp.holds, decide_eq_true_eq, h1]
  · simp only [ratCompare, Cmp.holds, decide_eq_true_eq]
    rw [← not_lt, h2, not_lt]
  · simp only [ratCompare, Cmp.holds, decide_eq_true_eq, gt_iff_lt, h2]
  · simp only [ratCompare, Cmp.holds, decide_eq_true_eq, ge_iff_le]
    rw [← not_lt, h1, not_lt]

theorem lowest_zero : Lowest ⟨0, 1⟩ := ⟨by decide, by decide⟩

/-- C155, fractions: negative, absolute value, real and imaginary part; roots, exponentials and
logarithms are errors. -/
theorem C155_fraction_functions (a : Mpq) (ha : Lowest a) :
    Gives (ratNeg a) (-val a) ∧ Gives (ratFn .abs a) |val a| ∧ Gives (ratFn .real a) (val a) ∧
    Gives (ratFn .imaginary a) 0 ∧ ∀ f, f = .sqrt ∨ f = .exp ∨ f = .log → ratFn f a = .raised := by
  refine ⟨?_, ⟨_, rfl, ⟨ha.pos, ?_⟩, ?_⟩, ⟨a, rfl, ha, rfl⟩, ⟨_, rfl, lowest_zero, by simp [val]⟩, ?_⟩
  · refine gives_congr (mpqSub_gives lowest_zero ha) ?_
    simp [val]
  · show (|a.num|).natAbs.Coprime a.den.natAbs
    rw [Int.natAbs_abs]
    exact ha.coprime
  · have pa : (0 : ℚ) < a.den := by exact_mod_cast ha.pos
    unfold val mpqAbs
    push_cast
    rw [abs_div, abs_of_pos pa]
  · rintro f (rfl | rfl | rfl) <;> rfl

theorem toU64_pos {n : ℤ} (h0 : 0 ≤ n) (h1 : n < 2 ^ 31) : toU64 n = n.toNat := by
  unfold toU64
  rw [Int.emod_eq_of_lt h0 (by omega)]

theorem mpzPow_small (b : ℤ) {e : ℕ} (h : e < 2 ^ 31) : mpzPow b e = .ok (b ^ e) := by
  unfold mpzPow
  rw [if_neg (by omega)]

/-- C155, powers of fractions with exponents from -1 upwards.

Partial: `C155_power_refuted`. -/
theorem C155_power_partial (a : Mpq) (n : ℤ) (ha : Lowest a) (h0 : -1 ≤ n) (h1 : n < 2 ^ 31)
    (hz : n = -1 → val a ≠ 0) : Gives (ratPow a n) (val a ^ n) := by
  unfold ratPow
  split_ifs with e1 e2 e3 e4
  · exact ⟨_, rfl, ⟨by decide, by decide⟩, by rw [e1]; simp [val]⟩
  · exact ⟨_, rfl, ha, by rw [e2]; simp⟩
  · rw [e3, zpow_neg_one]
    exact mpqInv_gives ha (hz e3)
  · rw [toU64_pos (by omega) h1, mpzPow_small _ (by omega), mpzPow_small _ (by omega)]
    refine ⟨_, rfl, ⟨pow_pos ha.pos _, ?_⟩, ?_⟩
    · show (a.num ^ n.toNat).natAbs.Coprime (a.den ^ n.toNat).natAbs
      rw [Int.natAbs_pow, Int.natAbs_pow]
      exact ha.coprime.pow _ _
    · have hn : n = (n.toNat : ℤ) := by omega
      conv_rhs => rw [hn]
      rw [zpow_natCast]
      unfold val
      push_cast
      rw [div_pow]
  · omega

/-- C155: every power below the minus first, of every fraction except 0, 1 and -1, aborts: the
exponent is cast to an unsigned number without its sign being changed. -/
theorem C155_power_refuted (a : Mpq) (n : ℤ) (ha : Lowest a) (h0 : n ≤ -2) (h1 : -2 ^ 31 ≤ n)
    (hz : val a ≠ 0) (hp : val a ≠ 1) (hm : val a ≠ -1) : ratPow a n = .undefined := by
  have hu : 2 ^ 37 ≤ toU64 n := by unfold toU64; omega
  have hnum : a.num ≠ 0 := fun h => hz ((val_eq_zero ha).2 h)
  unfold ratPow
  rw [if_neg (by omega), if_neg (by omega), if_neg (by omega), if_neg (by omega)]
  by_cases hd : 1 < |a.den|
  · have : mpzPow a.den (toU64 n) = .undefined := by unfold mpzPow; rw [if_pos ⟨hd, hu⟩]
    rw [this]
    rfl
  · have hd1 : a.den = 1 := by
      have := ha.pos
      rw [abs_of_pos this] at hd
      omega
    have hn : 1 < |a.num| := by
      by_contra h
      have h2 := abs_le.1 (not_lt.1 h)
      have : a.num = 1 ∨ a.num = -1 := by omega
      rcases this with h | h
      · exact hp (by simp [val, hd1, h])
      · exact hm (by simp [val, hd1, h])
    have e1 : mpzPow a.den (toU64 n) = .ok (a.den ^ toU64 n) := by
      unfold mpzPow
      rw [if_neg (by rw [hd1]; simp)]
    have e2 : mpzPow a.num (toU64 n) = .undefined := by unfold mpzPow; rw [if_pos ⟨hn, hu⟩]
    rw [e1, e2]
    rfl

/-! ### Where values come from -/

/-- C155, `from_rational` for integers: what is returned is right, and a natural number over one is
returned; a zero denominator is an error.

Partial: `C155_negative_refuted`. -/
theorem C155_from_rational_integer_partial (n d : ℤ) :
    (∀ z, intFromRational n d = .ok z → (z : ℚ) = n / d) ∧
    (0 ≤ n → intFromRational n 1 = .ok n) ∧ intFromRational n 0 = .raised := by
  refine ⟨?_, ?_, by simp [intFromRational]⟩
  · intro z h
    unfold intFromRational at h
    by_cases hd : d = 0
    · rw [if_pos hd] at h; cases h
    · rw [if_neg hd] at h
      by_cases hn : n < 0
      · rw [if_pos hn] at h
        unfold neg64 at h
        split_ifs at h with h1 h2
        · cases h
        · cases h
        · cases h
        · simp only [Out.bind] at h
          split_ifs at h with h3
          have h4 : d = -1 := by
            omega
          have h5 := Out.ok.inj h
          rw [← h5, h4]
          push_cast
          ring
      · rw [if_neg hn] at h
        simp only [Out.bind] at h
        split_ifs at h with h3
        have h4 : d = 1 := by
          omega
        have h5 := Out.ok.inj h
        rw [← h5, h4]
        simp
  · intro hn
    unfold intFromRational
    rw [if_neg one_ne_zero, if_neg (by omega)]
    rfl

/-- C155: every negative integer over one is refused (or undefined, for the smallest one). -/
theorem C155_negative_refuted (n : ℤ) (h : n < 0) :
    intFromRational n 1 = if n = -2 ^ 63 then .undefined else .raised := by
  unfold intFromRational neg64
  rw [if_neg one_ne_zero, if_pos h]
  rw [if_neg (show ¬ (1 : ℤ) = -2 ^ 63 by norm_num)]
  split_ifs with h1
  · rfl
  · simp [Out.bind]

/-- C155, `from_rational` for fractions: the number is right, and if numerator and denominator have
no common factor, it is in lowest terms.

Partial: `C155_common_factor_refuted`, and the smallest numerator or denominator if the denominator
is negative. -/
theorem C155_from_rational_fraction_partial (n d : ℤ) (hd : d ≠ 0)
    (hs : d < 0 → n ≠ -2 ^ 63 ∧ d ≠ -2 ^ 63) :
    ∃ a, ratFromRational n d = .ok a ∧ val a = n / d ∧ (n.natAbs.Coprime d.natAbs → Lowest a) := by
  unfold ratFromRational
  rw [if_neg hd]
  by_cases h : d < 0
  · obtain ⟨h1, h2⟩ := hs h
    rw [if_pos h]
    unfold neg64
    rw [if_neg h1, if_neg h2]
    refine ⟨_, rfl, ?_, fun hc => ⟨by dsimp only; omega, by simpa using hc⟩⟩
    unfold val
    push_cast
    rw [neg_div_neg_eq]
  · rw [if_neg h]
    exact ⟨_, rfl, rfl, fun hc => ⟨by dsimp only; omega, hc⟩⟩

/-- C155: 2/4 and 1/2 are different, and sums with 2/4 are not specified. -/
theorem C155_common_factor_refuted : ∃ a b, ratFromRational 2 4 = .ok a ∧ ratFromRational 1 2 = .ok b ∧
    val a = val b ∧ ratCompare .eq a b = false ∧ ratOp .sub a b = .undefined :=
  ⟨⟨2, 4⟩, ⟨1, 2⟩, by decide +kernel, by decide +kernel, by unfold val; norm_num, by decide +kernel,
    by decide +kernel⟩

/-- C155: a fraction that is read is in lowest terms. -/
theorem C155_parse (n d : ℤ) (hd : d ≠ 0) : Gives (ratParse n d) (n / d) := canonicalize_gives hd

/-- C155: reading "1/0" is not refused but aborts. -/
theorem C155_parse_refuted (n : ℤ) : ratParse n 0 = .undefined := by
  simp [ratParse, mpqCanonicalize]

/-! ### The traits -/

/-- C155: `compare_equal` of the trait is false for all pairs of valid values, whatever the type. -/
theorem C155_trait_equal_refuted {α : Type} (eq : α → α → Bool) (a b : α) :
    traitEqual eq (some a) (some b) = false := rfl

/-- C155: `imaginary` of the trait returns the number itself. -/
theorem C155_trait_imaginary_refuted : traitImaginary (3 : ℤ) = .ok 3 ∧ intFn .imaginary 3 = .ok 0 :=
  ⟨rfl, rfl⟩

/-! ### Formulas -/

/-- Formulas of fractions without sums. -/
inductive Formula
  | lit (n d : ℤ)
  | neg (f : Formula)
  | abs (f : Formula)
  | sub (f g : Formula)
  | mul (f g : Formula)
  | div (f g : Formula)
  | pow (f : Formula) (n : ℕ)

/-- A formula computed with the operations on values. -/
def Formula.run : Formula → Out Mpq
  | .lit n d => ratParse n d
  | .neg f => f.run.bind ratNeg
  | .abs f => f.run.bind (ratFn .abs)
  | .sub f g => f.run.bind fun a => g.run.bind fun b => ratOp .sub a b
  | .mul f g => f.run.bind fun a => g.run.bind fun b => ratOp .mul a b
  | .div f g => f.run.bind fun a => g.run.bind fun b => ratOp .div a b
  | .pow f n => f.run.bind fun a => ratPow a n

/-- The number a formula stands for. -/
def Formula.value : Formula → ℚ
  | .lit n d => n / d
  | .neg f => -f.value
  | .abs f => |f.value|
  | .sub f g => f.value - g.value
  | .mul f g => f.value * g.value
  | .div f g => f.value / g.value
  | .pow f n => f.value ^ n

/-- No division by zero; exponents are 32 bit numbers. -/
def Formula.Ok : Formula → Prop
  | .lit _ d => d ≠ 0
  | .neg f => f.Ok
  | .abs f => f.Ok
  | .sub f g => f.Ok ∧ g.Ok
  | .mul f g => f.Ok ∧ g.Ok
  | .div f g => f.Ok ∧ g.Ok ∧ g.value ≠ 0
  | .pow f n => f.Ok ∧ n < 2 ^ 31

/-- C155: all formulas without sums are computed exactly, and their results are in lowest terms.

Partial: sums, see `C155_sum_refuted`. -/
theorem C155_formula_partial (f : Formula) (h : f.Ok) : Gives f.run f.value := by
  induction f with
  | lit n d => exact C155_parse n d h
  | neg f ih =>
    obtain ⟨a, h1, h2, h3⟩ := ih h
    simp only [Formula.run, Formula.value, h1, Out.bind, ← h3]
    exact (C155_fraction_functions a h2).1
  | abs f ih =>
    obtain ⟨a, h1, h2, h3⟩ := ih h
    simp only [Formula.run, Formula.value, h1, Out.bind, ← h3]
    exact (C155_fraction_functions a h2).2.1
  | sub f g ihf ihg =>
    obtain ⟨a, h1, h2, h3⟩ := ihf h.1
    obtain ⟨b, k1, k2, k3⟩ := ihg h.2
    simp only [Formula.run, Formula.value, h1, k1, Out.bind, ← h3, ← k3]
    exact C155_fraction_partial .sub a b h2 k2 (by decide) (by intro h; cases h)
  | mul f g ihf ihg =>
    obtain ⟨a, h1, h2, h3⟩ := ihf h.1
    obtain ⟨b, k1, k2, k3⟩ := ihg h.2
    simp only [Formula.run, Formula.value, h1, k1, Out.bind, ← h3, ← k3]
    exact C155_fraction_partial .mul a b h2 k2 (by decide) (by intro h; cases h)
  | div f g ihf ihg =>
    obtain ⟨a, h1, h2, h3⟩ := ihf h.1
    obtain ⟨b, k1, k2, k3⟩ := ihg h.2.1
    simp only [Formula.run, Formula.value, h1, k1, Out.bind, ← h3, ← k3]
    exact C155_fraction_partial .div a b h2 k2 (by decide) (fun _ => by rw [k3]; exact h.2.2)
  | pow f n ih =>
    obtain ⟨a, h1, h2, h3⟩ := ih h.1
    simp only [Formula.run, Formula.value, h1, Out.bind, ← h3]
    have := C155_power_partial a n h2 (by omega) (by have := h.2; omega) (by omega)
    rwa [zpow_natCast] at this

/-- (2/3 - 4/(-6))² / (5/2) = 32/45. -/
example : (Formula.div (.pow (.sub (.lit 2 3) (.lit 4 (-6))) 2) (.lit 5 2)).run = .ok ⟨32, 45⟩ := by
  decide +kernel

example : Lowest ⟨-3, 7⟩ ∧ val ⟨-3, 7⟩ ≠ 1 ∧ Lowest ⟨5, 2⟩ :=
  ⟨⟨by decide, by decide⟩, by unfold val; norm_num, ⟨by decide, by decide⟩⟩

end RoughPy.BigNum
