import Verif.Generics.Machine

/-!
# C149: conversions between the built-in number types
-/

namespace RoughPy.Generics

/-- C149, the part that holds: a conversion that was asked to be exact and succeeds gives an object of the
destination type with the same number, between any two types but an integer type and a smaller one of the
same signedness (missing; see `C149_narrowing_refuted`). -/
theorem C149_exact_partial {E : Env} (hE : E.Ieee) {src dst : Ty} {v w : Num} (hv : InType src v)
    (hn : ¬ SameSignNarrower src dst) (h : convert E src dst v true = .success w) :
    InType dst w ∧ SameNumber v w := by
  cases v with
  | int n =>
    have hs : src.isInt = true := hv.1
    cases hd : dst.isInt with
    | true =>
      simp only [convert, hs, hd, intToInt, isAlwaysExact] at h
      split_ifs at h with hc
      cases h
      have hin : IntIn dst n := by
        by_cases ha : src.isSigned = dst.isSigned ∧ dst.size ≤ src.size
        · have : dst.size = src.size := by
            by_contra hne
            exact hn ⟨hs, hd, ha.1, lt_of_le_of_ne ha.2 hne⟩
          have hst : src = dst := by
            revert this ha hs hd
            cases src <;> cases dst <;> simp [Ty.isInt, Ty.isSigned, Ty.size]
          exact hst ▸ hv
        · rw [← checkFits_iff hv hd]
          by_contra hf
          apply hc
          simp only [Bool.and_eq_true, Bool.not_eq_true', hf, and_true]
          simp only [Bool.and_eq_false_iff, beq_eq_false_iff_ne, decide_eq_false_iff_not]
          exact ⟨by tauto, by simpa using hf⟩
      exact ⟨by rw [show InType dst _ ↔ IntIn dst _ from Iff.rfl, wrap_id hin]; exact hin,
        (wrap_id hin).symm⟩
    | false =>
      simp only [convert, hs, hd, intToFlt] at h
      split_ifs at h with hc
      cases h
      have hb : |n| ≤ 2 ^ dst.digits := by
        by_cases hdig : dst.digits < src.digits
        · simp only [hdig, decide_true, Bool.and_true, Bool.true_and, Bool.or_eq_true, Bool.and_eq_true,
            decide_eq_true_eq, not_or, not_and, not_lt] at hc
          rw [abs_le]
          refine ⟨?_, hc.1⟩
          by_cases hsg : src.isSigned = true
          · exact hc.2 hsg
          · have h0 := hv.2.1
            unfold Ty.lo at h0
            rw [if_neg hsg] at h0
            have : (0:ℤ) ≤ 2 ^ dst.digits := by positivity
            omega
        · refine (abs_le_of_int hv).trans ?_
          exact pow_le_pow_right₀ (by norm_num) (by omega)
      refine ⟨?_, ?_⟩
      · show FltIn dst _
        rw [intToFlt_keep hE hd hb]
        exact ⟨hd, rep_int hd hb⟩
      · show E.round dst n = _
        rw [intToFlt_keep hE hd hb]
  | flt x =>
    have hs : src.isInt = false := by
      cases x with
      | fin q => exact hv.1
      | inf b => exact hv
      | nan => exact hv
    cases hd : dst.isInt with
    | true =>
      simp only [convert, hs, hd, fltToInt] at h
      split_ifs at h with h1 h2
      cases x with
      | fin q =>
        simp only [castToInt] at h
        split_ifs at h with h3
        cases h
        simp only [hasFraction, Bool.true_and, ne_eq, decide_eq_true_eq, not_not] at h2
        exact ⟨⟨hd, h3⟩, by show Flt.fin q = _; rw [← h2]⟩
      | inf b => cases h
      | nan => cases h
    | false =>
      simp only [convert, hs, hd, fltToFlt, isAlwaysExact] at h
      split_ifs at h with hc
      cases h
      refine ⟨toFlt_in hE hd x, ?_⟩
      show x = E.toFlt dst x
      by_cases hz : src.size ≤ dst.size
      · exact (toFlt_keep hE (fltIn_mono hd hz hv)).symm
      · simp only [hz, decide_false, Bool.not_false, Bool.and_true, Bool.true_and, fltNe, Bool.or_eq_true,
          decide_eq_true_eq, not_or, not_not, ne_eq] at hc
        have hy : FltIn src (E.toFlt dst x) := fltIn_mono hs (by omega) (toFlt_in hE hd x)
        rw [toFlt_keep hE hy] at hc
        exact hc.2.symm

example : ∃ w, convert machine .f64 .f32 (.flt (.fin (3 / 4))) true = .success w ∧
    SameNumber (.flt (.fin (3 / 4))) w := by
  have h32 : Rep .f32 (3 / 4) := ⟨3, -2, by decide, by decide, by decide, by norm_num⟩
  have h64 : Rep .f64 (3 / 4) := ⟨3, -2, by decide, by decide, by decide, by norm_num⟩
  have e32 : machine.round .f32 (3 / 4) = .fin (3 / 4) := if_pos h32
  have e64 : machine.round .f64 (3 / 4) = .fin (3 / 4) := if_pos h64
  have hc : convert machine .f64 .f32 (.flt (.fin (3 / 4))) true = .success (.flt (.fin (3 / 4))) := by
    simp [convert, Ty.isInt, fltToFlt, isAlwaysExact, Ty.size, Env.toFlt, e32, e64, fltNe]
  exact ⟨_, hc, (C149_exact_partial machine_ieee (v := .flt (.fin (3 / 4))) ⟨rfl, h64⟩
    (by simp [SameSignNarrower, Ty.isInt]) hc).2⟩

/-- C149, the part that holds: between integer types an exact conversion succeeds just if the number fits,
and otherwise reports so and writes nothing, unless the destination is of the same signedness and no
larger. -/
theorem C149_integers_partial (E : Env) {src dst : Ty} {n : ℤ} (hv : IntIn src n) (hd : dst.isInt = true)
    (hn : ¬ SameSignNotWider src dst) :
    (IntIn dst n → convert E src dst (.int n) true = .success (.int n)) ∧
      (¬ IntIn dst n → convert E src dst (.int n) true = .inexact none) := by
  have hs := hv.1
  have ha : isAlwaysExact src dst = false := by
    simp only [isAlwaysExact, hs, hd, Bool.and_eq_false_iff, beq_eq_false_iff_ne, decide_eq_false_iff_not]
    by_contra hc
    simp only [not_or, not_not, ne_eq] at hc
    exact hn ⟨hs, hd, hc.1, hc.2⟩
  simp only [convert, hs, hd, intToInt, ha]
  constructor
  · intro h
    rw [(checkFits_iff hv hd).2 h, wrap_id h]
    rfl
  · intro h
    have : checkFits src dst n = false := by
      rw [← Bool.not_eq_true, checkFits_iff hv hd]; exact h
    rw [this]; rfl

example (E : Env) : convert E .u8 .i8 (.int 200) true = .inexact none ∧
    convert E .i32 .u8 (.int 200) true = .success (.int 200) :=
  ⟨(C149_integers_partial E (src := .u8) (dst := .i8) (by unfold IntIn; decide) rfl
      (by simp [SameSignNotWider, Ty.isSigned])).2 (by unfold IntIn; decide),
    (C149_integers_partial E (src := .i32) (dst := .u8) (by unfold IntIn; decide) rfl
      (by simp [SameSignNotWider, Ty.isSigned])).1 (by unfold IntIn; decide)⟩

/-- C149: without the flag a conversion between integer types succeeds, and keeps the number if it fits
and is the number modulo the range of the destination otherwise. -/
theorem C149_modulo (E : Env) {src dst : Ty} {n : ℤ} (hv : IntIn src n) (hd : dst.isInt = true) :
    ∃ m, convert E src dst (.int n) false = .success (.int m) ∧ IntIn dst m ∧
      (2 ^ (8 * dst.size) : ℤ) ∣ m - n ∧ (IntIn dst n → m = n) := by
  refine ⟨wrap dst n, ?_, wrap_in n hd, ?_, wrap_id⟩
  · simp [convert, hv.1, hd, intToInt]
  · unfold wrap
    dsimp only
    split_ifs
    · have := Int.emod_add_mul_ediv n (2 ^ (8 * dst.size))
      exact ⟨-(n / 2 ^ (8 * dst.size)) - 1, by linarith⟩
    · have := Int.emod_add_mul_ediv n (2 ^ (8 * dst.size))
      exact ⟨-(n / 2 ^ (8 * dst.size)), by linarith⟩

/-- C149, the part that holds: an integer whose magnitude is at most two to the precision of a
floating-point type is converted to the same number, with and without the flag (missing: larger integers
that are numbers of the type, which are refused, see `C149_large_refuted`). -/
theorem C149_to_float_partial {E : Env} (hE : E.Ieee) {src dst : Ty} {n : ℤ} (hv : IntIn src n)
    (hd : dst.isInt = false) (hb : |n| ≤ 2 ^ dst.digits) (exact : Bool) :
    convert E src dst (.int n) exact = .success (.flt (.fin n)) := by
  have hc : ¬ ((decide (dst.digits < src.digits) && exact &&
      (decide (2 ^ dst.digits < n) || (src.isSigned && decide (n < -2 ^ dst.digits)))) = true) := by
    rw [abs_le] at hb
    simp only [Bool.and_eq_true, Bool.or_eq_true, decide_eq_true_eq, not_and, not_or, not_lt]
    intro _
    exact ⟨hb.2, fun _ => hb.1⟩
  simp only [convert, hv.1, hd, intToFlt, if_neg hc, intToFlt_keep hE hd hb]

example : convert machine .i64 .f64 (.int (-(2 ^ 53))) true = .success (.flt (.fin ((-(2 ^ 53) : ℤ) : ℚ))) :=
  C149_to_float_partial machine_ieee (by unfold IntIn; decide) rfl (by decide) true

/-- C149: with the flag an integer beyond that is refused and nothing is written. -/
theorem C149_to_float_refused (E : Env) {src dst : Ty} {n : ℤ} (hv : IntIn src n) (hd : dst.isInt = false)
    (hb : 2 ^ dst.digits < |n|) : convert E src dst (.int n) true = .inexact none := by
  have hdig : dst.digits < src.digits := by
    by_contra hc
    exact absurd ((abs_le_of_int hv).trans (pow_le_pow_right₀ (by norm_num) (not_lt.1 hc))) (not_le.2 hb)
  have hor : 2 ^ dst.digits < n ∨ (src.isSigned = true ∧ n < -2 ^ dst.digits) := by
    rcases lt_abs.1 hb with h | h
    · exact .inl h
    · refine .inr ⟨?_, by omega⟩
      by_contra hsg
      have h0 := hv.2.1
      unfold Ty.lo at h0
      rw [if_neg hsg] at h0
      have : (0:ℤ) < 2 ^ dst.digits := by positivity
      omega
  have hc : (decide (dst.digits < src.digits) && true &&
      (decide (2 ^ dst.digits < n) || (src.isSigned && decide (n < -2 ^ dst.digits)))) = true := by
    simp only [Bool.and_eq_true, Bool.or_eq_true, decide_eq_true_eq]
    exact ⟨⟨hdig, trivial⟩, hor⟩
  simp only [convert, hv.1, hd, intToFlt, if_pos hc]

/-- C149, the part that holds: a floating-point number whose integral part fits in an integer type of at
most its precision is converted to the integral part; with the flag it is refused if there is a fraction,
and nothing is written.  (Missing: the wider integer types, see `C149_wide_refuted`.) -/
theorem C149_to_integer_partial (E : Env) {src dst : Ty} {q : ℚ} (hs : src.isInt = false)
    (hd : dst.isInt = true) (hdig : dst.digits ≤ src.digits) (hf : IntIn dst (trunc q)) :
    convert E src dst (.flt (.fin q)) false = .success (.int (trunc q)) ∧
      (q = trunc q → convert E src dst (.flt (.fin q)) true = .success (.int (trunc q))) ∧
      (q ≠ trunc q → convert E src dst (.flt (.fin q)) true = .inexact none) := by
  have h0 : decide (src.digits < dst.digits) = false := by simpa using hdig
  have h1 : castToInt dst (.fin q) = .success (.int (trunc q)) := by
    simp only [castToInt]; rw [if_pos ⟨hf.2.1, hf.2.2⟩]
  refine ⟨?_, ?_, ?_⟩
  · simp only [convert, hs, hd, fltToInt, h0, h1]; rfl
  · intro h
    have h2 : hasFraction (.fin q) = false := by
      simp only [hasFraction, ne_eq, decide_eq_false_iff_not, not_not]; exact h
    simp only [convert, hs, hd, fltToInt, h0, h1, h2]; rfl
  · intro h
    have h2 : hasFraction (.fin q) = true := by
      simp only [hasFraction, ne_eq, decide_eq_true_eq]; exact h
    simp only [convert, hs, hd, fltToInt, h0, h2]; rfl

example (E : Env) : convert E .f64 .i8 (.flt (.fin (-7 / 2))) false = .success (.int (-3)) ∧
    convert E .f64 .i8 (.flt (.fin (-7 / 2))) true = .inexact none := by
  have ht : trunc (-7 / 2) = -3 := by decide +kernel
  have h := C149_to_integer_partial E (src := .f64) (dst := .i8) (q := -7 / 2) rfl rfl (by decide)
    (by rw [ht]; unfold IntIn; decide)
  rw [ht] at h
  exact ⟨h.1, h.2.2 (by decide +kernel)⟩

/-- the integral part is between the number and zero, at a distance below one -/
theorem C149_trunc (q : ℚ) : |(trunc q : ℚ)| ≤ |q| ∧ |q - trunc q| < 1 ∧ 0 ≤ q * trunc q := by
  unfold trunc
  split_ifs with h
  · have h1 := Int.floor_le q
    have h2 := Int.lt_floor_add_one q
    have h3 : (0:ℚ) ≤ (⌊q⌋ : ℚ) := by exact_mod_cast Int.floor_nonneg.2 h
    refine ⟨?_, ?_, mul_nonneg h h3⟩
    · rw [abs_of_nonneg h, abs_of_nonneg h3]; exact h1
    · rw [abs_of_nonneg (by linarith)]; linarith
  · have h1 := Int.le_ceil q
    have h2 := Int.ceil_lt_add_one q
    have h3 : ((⌈q⌉ : ℤ) : ℚ) ≤ 0 := by
      exact_mod_cast Int.ceil_le.2 (by push_cast; linarith)
    have h4 : q ≤ 0 := by linarith
    refine ⟨?_, ?_, mul_nonneg_of_nonpos_of_nonpos h4 h3⟩
    · rw [abs_of_nonpos h4, abs_of_nonpos h3]; linarith
    · rw [abs_of_nonpos (by linarith)]; linarith

/-- C149, the part that holds: a conversion that calls itself exact always succeeds and always keeps the
number, with and without the flag, unless it goes to a smaller integer type of the same signedness. -/
theorem C149_is_exact_partial {E : Env} (hE : E.Ieee) {src dst : Ty} (h : isAlwaysExact src dst = true)
    (hn : ¬ SameSignNarrower src dst) {v : Num} (hv : InType src v) (exact : Bool) :
    ∃ w, convert E src dst v exact = .success w ∧ InType dst w ∧ SameNumber v w := by
  have hfree : convert E src dst v exact = convert E src dst v true := by
    cases exact with
    | true => rfl
    | false =>
      cases v with
      | int n =>
        have hs : src.isInt = true := hv.1
        cases hd : dst.isInt with
        | true => simp [convert, hs, hd, intToInt, h]
        | false =>
          have : ¬ dst.digits < src.digits := by
            simpa [isAlwaysExact, hs, hd] using h
          simp [convert, hs, hd, intToFlt, this]
      | flt x =>
        have hs : src.isInt = false := by
          cases x with
          | fin q => exact hv.1
          | inf b => exact hv
          | nan => exact hv
        cases hd : dst.isInt with
        | true => simp [isAlwaysExact, hs, hd] at h
        | false => simp [convert, hs, hd, fltToFlt, h]
  have hok : ∃ w, convert E src dst v true = .success w := by
    cases v with
    | int n =>
      have hs : src.isInt = true := hv.1
      cases hd : dst.isInt with
      | true => simp [convert, hs, hd, intToInt, h]
      | false =>
        have : ¬ dst.digits < src.digits := by
          simpa [isAlwaysExact, hs, hd] using h
        simp [convert, hs, hd, intToFlt, this]
    | flt x =>
      have hs : src.isInt = false := by
        cases x with
        | fin q => exact hv.1
        | inf b => exact hv
        | nan => exact hv
      cases hd : dst.isInt with
      | true => simp [isAlwaysExact, hs, hd] at h
      | false => simp [convert, hs, hd, fltToFlt, h]
  obtain ⟨w, hw⟩ := hok
  exact ⟨w, hfree ▸ hw, C149_exact_partial hE hv hn hw⟩

example : ∃ w, convert machine .u32 .f64 (.int 4000000000) false = .success w ∧ InType .f64 w ∧
    SameNumber (.int 4000000000) w :=
  C149_is_exact_partial machine_ieee (by decide) (by simp [SameSignNarrower, Ty.isInt])
    (v := .int 4000000000) (show IntIn .u32 4000000000 by unfold IntIn; decide) false

/-- C149, the part that holds: a conversion that is refused leaves the destination as it was, unless it is
one from `double` to `float` (see `C149_refused_refuted`). -/
theorem C149_refused_partial {E : Env} {src dst : Ty} {v : Num} {w : Option Num} {exact : Bool}
    (h : convert E src dst v exact = .inexact w) (hn : ¬ (src = .f64 ∧ dst = .f32)) :
    w = none ∧ exact = true := by
  unfold convert at h
  split at h
  · unfold intToInt at h
    split_ifs at h with hc
    simp only [Bool.and_eq_true] at hc
    exact ⟨by cases h; rfl, hc.1.2⟩
  · unfold intToFlt at h
    split_ifs at h with hc
    simp only [Bool.and_eq_true] at hc
    exact ⟨by cases h; rfl, hc.1.2⟩
  · rename_i hs hd
    simp only [fltToFlt] at h
    split_ifs at h with hc
    exfalso
    apply hn
    cases src <;> simp [Ty.isInt] at hs <;> cases dst <;> simp [Ty.isInt] at hd <;>
      simp_all [isAlwaysExact, Ty.isInt, Ty.size]
  · unfold fltToInt castToInt at h
    split_ifs at h with h1 h2
    · simp only [Bool.and_eq_true] at h2
      exact ⟨by cases h; rfl, h2.1⟩
    · split at h
      · split_ifs at h
      · cases h
  · cases h

/-- C149: the conversion that is found with `convert_to` is the one to the given type, unless this is
`int8`, which is the part that holds. -/
theorem C149_convert_to_partial (t u : Ty) (hu : u ≠ .i8 ∨ t = .i8) :
    ∃ c, convertTo t u = some c ∧ c.src = t ∧ c.dst = u := by
  cases t <;> cases u <;> simp at hu <;> exact ⟨_, rfl, rfl, rfl⟩

/-! ## The full claim is false -/

/-- C149 is false as stated: 300 is converted from `int64` to `int8` as 44 although the conversion was
asked to be exact, and it calls itself always exact. -/
theorem C149_narrowing_refuted : IntIn .i64 300 ∧ isAlwaysExact .i64 .i8 = true ∧
    ∀ E : Env, convert E .i64 .i8 (.int 300) true = .success (.int 44) := by
  refine ⟨by unfold IntIn; decide, by decide, fun E => ?_⟩
  simp [convert, Ty.isInt, intToInt, isAlwaysExact, Ty.isSigned, Ty.size, wrap, Ty.digits]

/-- C149 is false as stated: all of `int8` are numbers of `int64`, and the conversion says that it is not
always exact. -/
theorem C149_widening_refuted : (∀ n, IntIn .i8 n → IntIn .i64 n) ∧ isAlwaysExact .i8 .i64 = false := by
  refine ⟨fun n h => ?_, by decide⟩
  obtain ⟨_, h1, h2⟩ := h
  refine ⟨rfl, ?_, ?_⟩ <;>
    simp [Ty.lo, Ty.hi, Ty.digits, Ty.isSigned, Ty.size] at * <;> omega

/-- C149 is false as stated: no `double` that is one or more can be converted to `int64`, with or without
the flag. -/
theorem C149_wide_refuted (E : Env) (q : ℚ) (h : 1 ≤ q) (exact : Bool) :
    convert E .f64 .i64 (.flt (.fin q)) exact = .failed := by
  have h0 : 0 < trunc q := by
    unfold trunc
    rw [if_pos (by linarith)]
    exact Int.floor_pos.2 h
  simp [convert, Ty.isInt, fltToInt, Ty.digits, Ty.isSigned, Ty.size, rangeFails, h0]

/-- C149 is false as stated: to convert a `double` that is too large for `int32` is not refused; the
behaviour is undefined, even if the conversion was asked to be exact. -/
theorem C149_range_refuted (E : Env) (exact : Bool) :
    convert E .f64 .i32 (.flt (.fin (2 ^ 31))) exact = .undefined := by
  have ht : trunc (2 ^ 31) = 2147483648 := by decide +kernel
  cases exact <;>
    simp [convert, Ty.isInt, fltToInt, Ty.digits, Ty.isSigned, Ty.size, hasFraction, castToInt, ht, Ty.hi,
      Ty.lo]
  norm_num

/-- C149 is false as stated: an exact conversion from `double` to `float` that is refused has overwritten
the destination with the rounded number. -/
theorem C149_refused_refuted (E : Env) (q r : ℚ) (hr : E.round .f32 q = .fin r) (h : E.round .f64 r ≠ .fin q) :
    convert E .f64 .f32 (.flt (.fin q)) true = .inexact (some (.flt (.fin r))) := by
  have : fltNe (E.round .f64 r) (.fin q) = true := by
    simp [fltNe, h]
  simp [convert, Ty.isInt, fltToFlt, isAlwaysExact, Ty.size, Env.toFlt, hr, this]

/-- C149 is false as stated: the integer `2 ^ 54` is a number of `double`, and its exact conversion from
`int64` is refused. -/
theorem C149_large_refuted (E : Env) : IntIn .i64 (2 ^ 54) ∧ Rep .f64 ((2 ^ 54 : ℤ) : ℚ) ∧
    convert E .i64 .f64 (.int (2 ^ 54)) true = .inexact none := by
  refine ⟨by unfold IntIn; decide, ⟨1, 54, by decide, by decide, by decide, by norm_num⟩, ?_⟩
  exact C149_to_float_refused E (by unfold IntIn; decide) rfl (by decide)

/-- C149 is false as stated: the conversion that is found with `convert_from` goes the other way round, for
any two different types. -/
theorem C149_convert_from_refuted (t u : Ty) : ∃ c, convertFrom t u = some c ∧ c.src = t ∧ c.dst = u := by
  cases t <;> cases u <;> exact ⟨_, rfl, rfl, rfl⟩

/-- C149 is false as stated: so does the one that is found with `convert_to` for `int8`. -/
theorem C149_convert_to_refuted (t : Ty) (h : t ≠ .i8) :
    ∃ c, convertTo t .i8 = some c ∧ c.src = .i8 ∧ c.dst = t := by
  cases t <;> simp at h <;> exact ⟨_, rfl, rfl, rfl⟩

end RoughPy.Generics
