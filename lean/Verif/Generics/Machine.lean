import Verif.Generics.Lemmas
import Mathlib.Tactic.Ring
import Mathlib.Tactic.FieldSimp

/-!
# A machine that meets the assumptions

The representation is the one of IEEE 754; the rounding is the crudest one that is allowed.
-/

namespace RoughPy.Generics

/-- the number of a sign, an exponent field and a fraction field -/
def decParts (t : Ty) (neg : Bool) (e f : ℕ) : Flt :=
  if e = 0 then .fin ((if neg then -1 else 1) * f * 2 ^ t.expMin)
  else if (e : ℤ) = t.expMax - t.expMin + 2 then (if f = 0 then .inf neg else .nan)
  else .fin ((if neg then -1 else 1) * (2 ^ (t.digits - 1) + f : ℕ) * 2 ^ (t.expMin + e - 1))

/-- the number that eight or four bytes stand for -/
def ieeeDec (t : Ty) (n : ℕ) : Flt :=
  decParts t (n / 2 ^ (8 * t.size - 1) % 2 == 1)
    (n / 2 ^ (t.digits - 1) % 2 ^ (8 * t.size - t.digits)) (n % 2 ^ (t.digits - 1))

theorem ieeeDec_parts {t : Ty} (ht : t.isInt = false) (neg : Bool) (e f : ℕ)
    (he : e < 2 ^ (8 * t.size - t.digits)) (hf : f < 2 ^ (t.digits - 1)) :
    ∃ n < 2 ^ (8 * t.size), ieeeDec t n = decParts t neg e f := by
  refine ⟨(if neg then 2 ^ (8 * t.size - 1) else 0) + e * 2 ^ (t.digits - 1) + f, ?_, ?_⟩
  · cases t <;> simp [Ty.isInt] at ht <;> cases neg <;> simp [Ty.size, Ty.digits] at he hf ⊢ <;> omega
  · unfold ieeeDec
    congr 1
    · cases t <;> simp [Ty.isInt] at ht <;> cases neg <;> simp [Ty.size, Ty.digits] at he hf ⊢ <;> omega
    · cases t <;> simp [Ty.isInt] at ht <;> cases neg <;> simp [Ty.size, Ty.digits] at he hf ⊢ <;> omega
    · cases t <;> simp [Ty.isInt] at ht <;> cases neg <;> simp [Ty.size, Ty.digits] at he hf ⊢ <;> omega

theorem rep_normal {t : Ty} (ht : t.isInt = false) : ∀ (k : ℕ) (m e : ℤ), e = t.expMin + k → |m| < 2 ^ t.digits →
    e ≤ t.expMax → ∃ m' e' : ℤ, |m'| < 2 ^ t.digits ∧ t.expMin ≤ e' ∧ e' ≤ t.expMax ∧
      (m : ℚ) * 2 ^ e = m' * 2 ^ e' ∧ (e' = t.expMin ∨ 2 ^ (t.digits - 1) ≤ |m'|)
  | 0, m, e, he, hm, hx => ⟨m, e, hm, by simp [he], hx, rfl, .inl (by simpa using he)⟩
  | k + 1, m, e, he, hm, hx => by
    by_cases h : 2 ^ (t.digits - 1) ≤ |m|
    · exact ⟨m, e, hm, by rw [he]; omega, hx, rfl, .inr h⟩
    · have h2 : |2 * m| < 2 ^ t.digits := by
        rw [abs_mul]
        cases t <;> simp [Ty.isInt] at ht <;> simp [Ty.digits] at h ⊢ <;> omega
      obtain ⟨m', e', a1, a2, a3, a4, a5⟩ := rep_normal ht k (2 * m) (e - 1) (by push_cast at he; omega) h2
        (by omega)
      refine ⟨m', e', a1, a2, a3, ?_, a5⟩
      rw [← a4, zpow_sub₀ (by norm_num)]
      push_cast
      field_simp

theorem ieeeDec_surj {t : Ty} {x : Flt} (h : FltIn t x) : ∃ n < 2 ^ (8 * t.size), ieeeDec t n = x := by
  cases x with
  | inf b =>
    have ht : t.isInt = false := h
    obtain ⟨n, h1, h2⟩ := ieeeDec_parts ht b ((t.expMax - t.expMin + 2).toNat) 0
      (by cases t <;> simp [Ty.isInt] at ht <;> decide) (by positivity)
    refine ⟨n, h1, h2.trans ?_⟩
    cases t <;> simp [Ty.isInt] at ht <;> simp [decParts, Ty.expMax, Ty.expMin]
  | nan =>
    have ht : t.isInt = false := h
    obtain ⟨n, h1, h2⟩ := ieeeDec_parts ht false ((t.expMax - t.expMin + 2).toNat) 1
      (by cases t <;> simp [Ty.isInt] at ht <;> decide)
      (by cases t <;> simp [Ty.isInt] at ht <;> decide)
    refine ⟨n, h1, h2.trans ?_⟩
    cases t <;> simp [Ty.isInt] at ht <;> simp [decParts, Ty.expMax, Ty.expMin]
  | fin q =>
    obtain ⟨ht, m, e, a1, a2, a3, rfl⟩ := h
    obtain ⟨m', e', b1, b2, b3, b4, b5⟩ := rep_normal ht (e - t.expMin).toNat m e (by omega) a1 a3
    rw [b4]
    have hsign : ((if decide (m' < 0) then -1 else 1 : ℚ)) * (m'.natAbs : ℚ) = m' := by
      by_cases hneg : m' < 0
      · simp only [hneg, decide_true, if_true]
        have : ((m'.natAbs : ℤ) : ℚ) = ((-m' : ℤ) : ℚ) := by congr 1; omega
        rw [Int.cast_natCast] at this
        rw [this]; push_cast; ring
      · simp only [hneg, decide_false]
        have : ((m'.natAbs : ℤ) : ℚ) = ((m' : ℤ) : ℚ) := by congr 1; omega
        rw [Int.cast_natCast] at this
        rw [this]; simp
    have habs : |m'| = m'.natAbs := Int.abs_eq_natAbs m'
    by_cases hb : 2 ^ (t.digits - 1) ≤ |m'|
    · obtain ⟨n, h1, h2⟩ := ieeeDec_parts ht (decide (m' < 0)) ((e' - t.expMin + 1).toNat)
        (m'.natAbs - 2 ^ (t.digits - 1))
        (by cases t <;> simp [Ty.isInt] at ht <;> simp [Ty.size, Ty.digits, Ty.expMin, Ty.expMax] at b2 b3 ⊢ <;>
              omega)
        (by rw [habs] at b1 hb
            cases t <;> simp [Ty.isInt] at ht <;> simp [Ty.digits] at b1 hb ⊢ <;> omega)
      refine ⟨n, h1, h2.trans ?_⟩
      unfold decParts
      rw [if_neg (by omega), if_neg (by omega)]
      have e1 : 2 ^ (t.digits - 1) + (m'.natAbs - 2 ^ (t.digits - 1)) = m'.natAbs := by
        rw [habs] at hb
        have : 2 ^ (t.digits - 1) ≤ m'.natAbs := by exact_mod_cast hb
        omega
      have e2 : t.expMin + ((e' - t.expMin + 1).toNat : ℤ) - 1 = e' := by omega
      rw [e1, e2, hsign]
    · have he : e' = t.expMin := b5.resolve_right hb
      obtain ⟨n, h1, h2⟩ := ieeeDec_parts ht (decide (m' < 0)) 0 m'.natAbs (by positivity)
        (by rw [habs] at hb
            have : ¬ (2 ^ (t.digits - 1) ≤ m'.natAbs) := fun hh => hb (by exact_mod_cast hh)
            omega)
      refine ⟨n, h1, h2.trans ?_⟩
      unfold decParts
      rw [if_pos rfl, hsign, he]

open Classical in
/-- a machine -/
noncomputable def machine : Env where
  round t q := if Rep t q then .fin q else .nan
  op o t x y :=
    match o, x, y with
    | .add, .fin p, .fin q => if Rep t (p + q) then .fin (p + q) else .nan
    | _, _, _ => .nan
  enc t x := if h : FltIn t x then (ieeeDec_surj h).choose else 0
  dec := ieeeDec
  maxTo _ dst := dst.hi

open Classical in
theorem machine_ieee : machine.Ieee where
  keep t q _ h := if_pos h
  rep t q ht := by
    show FltIn t (if _ then _ else _)
    split_ifs with h
    · exact ⟨ht, h⟩
    · exact ht
  op o t x y ht := by
    show FltIn t (match o, x, y with | .add, .fin p, .fin q => _ | _, _, _ => _)
    split
    · split_ifs with h
      · exact ⟨ht, h⟩
      · exact ht
    · exact ht
  dec_enc t x h := by
    show ieeeDec t (dite _ _ _) = x
    rw [dif_pos h]
    exact (ieeeDec_surj h).choose_spec.2
  enc_lt t x h := by
    show dite _ _ _ < _
    rw [dif_pos h]
    exact (ieeeDec_surj h).choose_spec.1

end RoughPy.Generics
