import Verif.BigNum.Spec
import Mathlib.Tactic.FieldSimp
import Mathlib.Tactic.Ring
import Mathlib.Tactic.Positivity
import Mathlib.Tactic.Linarith
import Mathlib.Tactic.Push

/-!
# Lemmas on fractions
-/

namespace RoughPy.BigNum

theorem canonical_iff (a : Mpq) : a.canonical = true ↔ Lowest a := by
  unfold Mpq.canonical
  rw [Bool.and_eq_true, decide_eq_true_eq, decide_eq_true_eq]
  exact ⟨fun h => ⟨h.1, h.2⟩, fun h => ⟨h.pos, h.coprime⟩⟩

theorem canonicalize_pos {n d : ℤ} (hd : 0 < d) :
    Lowest ⟨n / (Int.gcd n d : ℤ), d / (Int.gcd n d : ℤ)⟩ ∧
      val ⟨n / (Int.gcd n d : ℤ), d / (Int.gcd n d : ℤ)⟩ = (n : ℚ) / d := by
  have hg : 0 < Int.gcd n d := Int.gcd_pos_of_ne_zero_right _ hd.ne'
  have hg' : (0 : ℤ) < (Int.gcd n d : ℤ) := by exact_mod_cast hg
  obtain ⟨n', hn⟩ := Int.gcd_dvd_left n d
  obtain ⟨d', hd'⟩ := Int.gcd_dvd_right n d
  have e1 : n / (Int.gcd n d : ℤ) = n' := by
    exact Int.ediv_eq_of_eq_mul_right hg'.ne' hn
  have e2 : d / (Int.gcd n d : ℤ) = d' := by
    exact Int.ediv_eq_of_eq_mul_right hg'.ne' hd'
  rw [e1, e2]
  have hp : 0 < d' := by
    rw [hd'] at hd
    exact pos_of_mul_pos_right hd hg'.le
  refine ⟨⟨hp, ?_⟩, ?_⟩
  · have h1 : Int.gcd (n / (Int.gcd n d : ℤ)) (d / (Int.gcd n d : ℤ)) = 1 :=
      Int.gcd_ediv_gcd_ediv_gcd hg
    rw [e1, e2] at h1
    exact h1
  · unfold val
    dsimp only
    have q1 : (n : ℚ) = (Int.gcd n d : ℤ) * n' := by exact_mod_cast hn
    have q2 : (d : ℚ) = (Int.gcd n d : ℤ) * d' := by exact_mod_cast hd'
    rw [q1, q2, mul_div_mul_left]
    exact_mod_cast hg'.ne'

theorem canonicalize_gives {n d : ℤ} (hd : d ≠ 0) : Gives (mpqCanonicalize ⟨n, d⟩) ((n : ℚ) / d) := by
  unfold mpqCanonicalize
  dsimp only
  rw [if_neg hd]
  by_cases h : d < 0
  · rw [if_pos h]
    have := canonicalize_pos (n := -n) (d := -d) (by omega)
    rw [Int.gcd_neg, Int.neg_gcd] at this
    refine ⟨_, rfl, this.1, ?_⟩
    rw [this.2]
    push_cast
    rw [neg_div_neg_eq]
  · rw [if_neg h]
    have := canonicalize_pos (n := n) (d := d) (by omega)
    exact ⟨_, rfl, this.1, this.2⟩

theorem den_ne {a : Mpq} (h : Lowest a) : (a.den : ℚ) ≠ 0 := by
  exact_mod_cast h.pos.ne'

theorem val_eq_zero {a : Mpq} (h : Lowest a) : val a = 0 ↔ a.num = 0 := by
  unfold val
  rw [div_eq_zero_iff]
  constructor
  · rintro (h1 | h1)
    · exact_mod_cast h1
    · exact absurd h1 (den_ne h)
  · intro h1
    left
    exact_mod_cast h1

theorem mpqArgs_ok {a b : Mpq} (ha : Lowest a) (hb : Lowest b) (r : Out Mpq) : mpqArgs a b r = r := by
  unfold mpqArgs
  rw [(canonical_iff a).2 ha, (canonical_iff b).2 hb]
  rfl

theorem gives_congr {r : Out Mpq} {p q : ℚ} (h : Gives r p) (e : p = q) : Gives r q := e ▸ h

theorem mpqAdd_gives {a b : Mpq} (ha : Lowest a) (hb : Lowest b) : Gives (mpqAdd a b) (val a + val b) := by
  unfold mpqAdd
  rw [mpqArgs_ok ha hb]
  refine gives_congr (canonicalize_gives (mul_ne_zero ha.pos.ne' hb.pos.ne')) ?_
  unfold val
  have := den_ne ha
  have := den_ne hb
  push_cast
  field_simp

theorem mpqSub_gives {a b : Mpq} (ha : Lowest a) (hb : Lowest b) : Gives (mpqSub a b) (val a - val b) := by
  unfold mpqSub
  rw [mpqArgs_ok ha hb]
  refine gives_congr (canonicalize_gives (mul_ne_zero ha.pos.ne' hb.pos.ne')) ?_
  unfold val
  have := den_ne ha
  have := den_ne hb
  push_cast
  field_simp

theorem mpqMul_gives {a b : Mpq} (ha : Lowest a) (hb : Lowest b) : Gives (mpqMul a b) (val a * val b) := by
  unfold mpqMul
  rw [mpqArgs_ok ha hb]
  refine gives_congr (canonicalize_gives (mul_ne_zero ha.pos.ne' hb.pos.ne')) ?_
  unfold val
  push_cast
  rw [div_mul_div_comm]

theorem mpqDiv_gives {a b : Mpq} (ha : Lowest a) (hb : Lowest b) (h : val b ≠ 0) :
    Gives (mpqDiv a b) (val a / val b) := by
  unfold mpqDiv
  rw [mpqArgs_ok ha hb]
  have h0 : b.num ≠ 0 := fun e => h ((val_eq_zero hb).2 e)
  refine gives_congr (canonicalize_gives (mul_ne_zero ha.pos.ne' h0)) ?_
  unfold val
  push_cast
  rw [div_div_div_eq]

theorem mpqDiv_zero {a b : Mpq} (h : b.num = 0) : mpqDiv a b = .undefined := by
  unfold mpqDiv mpqArgs mpqCanonicalize
  rw [h]
  simp

theorem mpqInv_gives {a : Mpq} (ha : Lowest a) (h : val a ≠ 0) : Gives (mpqInv a) (val a)⁻¹ := by
  have h0 : a.num ≠ 0 := fun e => h ((val_eq_zero ha).2 e)
  unfold mpqInv
  rw [if_neg h0]
  have hc : a.den.natAbs.Coprime a.num.natAbs := ha.coprime.symm
  split_ifs with h1
  · refine ⟨_, rfl, ⟨by dsimp only; omega, by simpa using hc⟩, ?_⟩
    unfold val
    push_cast
    rw [inv_div, neg_div_neg_eq]
  · refine ⟨_, rfl, ⟨by dsimp only; omega, hc⟩, ?_⟩
    unfold val
    rw [inv_div]

/-- Fractions in lowest terms that stand for the same number are the same. -/
theorem lowest_inj {a b : Mpq} (ha : Lowest a) (hb : Lowest b) (h : val a = val b) : a = b := by
  have h1 := Rat.div_int_inj ha.pos hb.pos ha.coprime hb.coprime h
  cases a
  cases b
  simp only [Mpq.mk.injEq]
  exact h1

theorem cmp_sign {a b : Mpq} (ha : Lowest a) (hb : Lowest b) :
    (mpqCmp a b < 0 ↔ val a < val b) ∧ (mpqCmp a b > 0 ↔ val b < val a) := by
  have pa : (0 : ℚ) < a.den := by exact_mod_cast ha.pos
  have pb : (0 : ℚ) < b.den := by exact_mod_cast hb.pos
  unfold mpqCmp val
  rw [div_lt_div_iff₀ pa pb, div_lt_div_iff₀ pb pa, Int.sign_neg_iff, gt_iff_lt, Int.sign_pos_iff]
  constructor
  · rw [sub_neg]
    exact_mod_cast Iff.rfl
  · rw [sub_pos]
    exact_mod_cast Iff.rfl

end RoughPy.BigNum
