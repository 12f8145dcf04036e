import Verif.Generics.Spec
import Mathlib.Tactic.NormNum
import Mathlib.Tactic.Linarith

namespace RoughPy.Generics

theorem wrap_id {t : Ty} {n : ℤ} (h : IntIn t n) : wrap t n = n := by
  obtain ⟨h0, h1, h2⟩ := h
  cases t <;> simp_all [Ty.isInt, wrap, Ty.lo, Ty.hi, Ty.digits, Ty.isSigned, Ty.size] <;> omega

theorem wrap_in {t : Ty} (n : ℤ) (h : t.isInt = true) : IntIn t (wrap t n) := by
  refine ⟨h, ?_⟩
  cases t <;> simp_all [Ty.isInt, wrap, Ty.lo, Ty.hi, Ty.digits, Ty.isSigned, Ty.size] <;> omega

theorem checkFits_iff {src dst : Ty} {n : ℤ} (h : IntIn src n) (hd : dst.isInt = true) :
    checkFits src dst n = true ↔ IntIn dst n := by
  obtain ⟨h0, h1, h2⟩ := h
  unfold IntIn
  cases src <;> simp [Ty.isInt] at h0 <;> cases dst <;> simp [Ty.isInt] at hd <;>
    simp [checkFits, compareLessEqual, Ty.isInt, Ty.lo, Ty.hi, Ty.digits, Ty.isSigned, Ty.size] at h1 h2 ⊢ <;>
    omega

theorem rep_int {t : Ty} {n : ℤ} (ht : t.isInt = false) (h : |n| ≤ 2 ^ t.digits) : Rep t n := by
  by_cases hn : |n| < 2 ^ t.digits
  · exact ⟨n, 0, hn, by cases t <;> simp [Ty.expMin], by cases t <;> simp [Ty.expMax], by simp⟩
  · have he : |n| = 2 ^ t.digits := le_antisymm h (not_lt.1 hn)
    have hz : n = 2 ^ t.digits ∨ n = -2 ^ t.digits := by
      rcases abs_choice n with h' | h' <;> rw [h'] at he
      · exact .inl he
      · exact .inr (by omega)
    rcases hz with rfl | rfl
    · exact ⟨1, t.digits, by cases t <;> simp [Ty.digits, Ty.isInt] at ht ⊢,
        by cases t <;> simp [Ty.expMin, Ty.digits, Ty.isInt] at ht ⊢,
        by cases t <;> simp [Ty.expMax, Ty.digits, Ty.isInt] at ht ⊢, by push_cast; rw [zpow_natCast]; simp⟩
    · exact ⟨-1, t.digits, by cases t <;> simp [Ty.digits, Ty.isInt] at ht ⊢,
        by cases t <;> simp [Ty.expMin, Ty.digits, Ty.isInt] at ht ⊢,
        by cases t <;> simp [Ty.expMax, Ty.digits, Ty.isInt] at ht ⊢, by push_cast; rw [zpow_natCast]; simp⟩

theorem rep_mono {s t : Ty} {q : ℚ} (hs : s.isInt = false) (ht : t.isInt = false) (h : s.size ≤ t.size)
    (hr : Rep s q) : Rep t q := by
  obtain ⟨m, e, h1, h2, h3, h4⟩ := hr
  refine ⟨m, e, ?_, ?_, ?_, h4⟩ <;>
    cases s <;> simp [Ty.isInt] at hs <;> cases t <;> simp [Ty.isInt] at ht <;>
    simp_all [Ty.size, Ty.expMin, Ty.expMax, Ty.digits] <;> omega

theorem abs_le_of_int {src : Ty} {n : ℤ} (h : IntIn src n) : |n| ≤ 2 ^ src.digits := by
  obtain ⟨h0, h1, h2⟩ := h
  unfold Ty.lo Ty.hi at *
  rw [abs_le]
  split at h1
  · omega
  · have : (0:ℤ) ≤ 2 ^ src.digits := by positivity
    omega

theorem toFlt_in {E : Env} (hE : E.Ieee) {t : Ty} (ht : t.isInt = false) (x : Flt) :
    FltIn t (E.toFlt t x) := by
  cases x with
  | fin q => exact hE.rep t q ht
  | inf b => exact ht
  | nan => exact ht

theorem toFlt_keep {E : Env} (hE : E.Ieee) {t : Ty} {x : Flt} (h : FltIn t x) : E.toFlt t x = x := by
  cases x with
  | fin q => exact hE.keep t q h.1 h.2
  | inf b => rfl
  | nan => rfl

theorem fltIn_mono {s t : Ty} {x : Flt} (ht : t.isInt = false) (h : s.size ≤ t.size)
    (hr : FltIn s x) : FltIn t x := by
  cases x with
  | fin q => exact ⟨ht, rep_mono hr.1 ht h hr.2⟩
  | inf b => exact ht
  | nan => exact ht

theorem intToFlt_keep {E : Env} (hE : E.Ieee) {dst : Ty} {n : ℤ} (hd : dst.isInt = false)
    (h : |n| ≤ 2 ^ dst.digits) : E.round dst n = .fin n := hE.keep _ _ hd (rep_int hd h)

end RoughPy.Generics
