import Verif.Intervals.Segment
import Verif.Intervals.Lemmas
import Mathlib.Tactic.Linarith
import Mathlib.Tactic.Ring
import Mathlib.Tactic.Positivity
import Mathlib.Tactic.FieldSimp
import Mathlib.Tactic.Push

/-!
# Lemmas about the model of `segment`

All positions are measured in cells of the finest depth `D`: the dyadic `k/2^n` is at
`k * 2^(D-n)`.
-/

namespace RoughPy.Intervals.Searcher

open Dyadic

variable {p : ScaledPredicate} {D : ℕ}

/-- number of cells in a block of depth `n` -/
def e (D n : ℕ) : ℤ := 2 ^ (D - n)

theorem e_pos (D n : ℕ) : 0 < e D n := by unfold e; positivity

theorem e_succ {D n : ℕ} (h : n < D) : e D n = 2 * e D (n + 1) := by
  unfold e
  rw [show D - n = (D - (n + 1)) + 1 by omega, pow_succ]; ring

theorem e_self (D : ℕ) : e D D = 1 := by simp [e]

theorem e_unit {D n : ℕ} (h : n ≤ D) : 2 ^ n * e D n = 2 ^ D := by
  unfold e; rw [← pow_add]; congr 1; omega

/-- position of a dyadic of depth at most `D` -/
def val (D : ℕ) (d : Dyadic) : ℤ := d.k * e D d.n.toNat

def Wf (D : ℕ) (d : Dyadic) : Prop := 0 ≤ d.n ∧ d.n ≤ D

theorem shift_val {l : Dyadic} {m : ℤ} (hl : Wf D l) (h1 : l.n ≤ m) (h2 : m ≤ D) :
    Dyadic.shift l.k (m - l.n) * e D m.toNat = val D l := by
  obtain ⟨h0, h3⟩ := hl
  unfold Dyadic.shift Dyadic.pow2 val e
  rw [mul_assoc, ← pow_add]
  congr 2
  omega

theorem less_iff {l r : Dyadic} (hl : Wf D l) (hr : Wf D r) :
    less l r = true ↔ val D l < val D r := by
  have hm : max l.n r.n ≤ D := max_le hl.2 hr.2
  unfold less
  simp only [decide_eq_true_eq]
  rw [← shift_val hl (le_max_left _ r.n) hm, ← shift_val hr (le_max_right l.n _) hm]
  exact (mul_lt_mul_iff_left₀ (e_pos D _)).symm

theorem greater_iff {l r : Dyadic} (hl : Wf D l) (hr : Wf D r) :
    greater l r = true ↔ val D r < val D l := by
  have hm : max l.n r.n ≤ D := max_le hl.2 hr.2
  unfold greater
  simp only [decide_eq_true_eq, gt_iff_lt]
  rw [← shift_val hl (le_max_left _ r.n) hm, ← shift_val hr (le_max_right l.n _) hm]
  exact (mul_lt_mul_iff_left₀ (e_pos D _)).symm

/-- `skipTo` is the block of depth `n` in which the dyadic lies. -/
theorem skipTo_bounds {i : Dyadic} (hi : Wf D i) {n : ℕ} (hn : n ≤ D) :
    skipTo n i * e D n ≤ val D i ∧ val D i < (skipTo n i + 1) * e D n := by
  obtain ⟨h0, h1⟩ := hi
  have hp := e_pos D n
  unfold skipTo
  by_cases ha : (n : ℤ) < i.n
  · rw [if_pos ha]
    have he : e D n = 2 ^ (i.n - n).toNat * e D i.n.toNat := by
      unfold e; rw [← pow_add]; congr 1; omega
    have hq : (0 : ℤ) < 2 ^ (i.n - n).toNat := by positivity
    have hr := e_pos D i.n.toNat
    have hd := Int.mul_ediv_add_emod i.k (2 ^ (i.n - n).toNat)
    have hl := Int.emod_nonneg i.k hq.ne'
    have hu := Int.emod_lt_of_pos i.k hq
    set q := (2 : ℤ) ^ (i.n - n).toNat
    unfold val
    rw [he]
    constructor
    · rw [← mul_assoc]
      exact mul_le_mul_of_nonneg_right (by nlinarith) hr.le
    · rw [← mul_assoc]
      exact mul_lt_mul_of_pos_right (by nlinarith) hr
  · rw [if_neg ha]
    by_cases hb : (n : ℤ) > i.n
    · rw [if_pos hb]
      have he : i.k * 2 ^ (n - i.n).toNat * e D n = val D i := by
        unfold val e; rw [mul_assoc, ← pow_add]; congr 2; omega
      constructor
      · rw [he]
      · rw [add_mul, he]; linarith
    · rw [if_neg hb]
      have : i.n.toNat = n := by omega
      unfold val
      rw [this]
      constructor
      · exact le_refl _
      · rw [add_mul]; linarith

/-- blocks of depth `n` -/
abbrev blk (n : ℕ) (k : ℤ) : DyadicInterval := ⟨k, n, .clopen⟩

theorem shrinkLeft_blk (n : ℕ) (k : ℤ) :
    (blk n k).shrinkLeft 1 = some (blk (n + 1) (2 * k)) := by
  unfold DyadicInterval.shrinkLeft
  unfold DyadicInterval.shrinkLeft1
  simp only [blk]
  rw [shrinkToContainedEnd_eq]
  simp [DyadicInterval.shrinkLeft, mul_comm]

theorem shrinkRight_blk (n : ℕ) (k : ℤ) :
    (blk n k).shrinkRight = some (blk (n + 1) (2 * k + 1)) := by
  unfold DyadicInterval.shrinkRight
  simp only [blk]
  rw [shrinkToOmittedEnd_eq]
  simp [DyadicInterval.unit, DyadicInterval.unitOf, mul_comm]

theorem aligned_blk (n : ℕ) (k : ℤ) : (blk n k).aligned = some (decide (k % 2 = 0)) := by
  rw [aligned_clopen_eq _ rfl]


/-- `l` are adjacent good blocks of depth `1..D`, from position `i` to position `s` -/
def Chain (p : ScaledPredicate) (D : ℕ) : List DyadicInterval → ℤ → ℤ → Prop
  | [], i, s => i = s
  | d :: l, i, s => (∃ (n : ℕ) (k : ℤ), d = blk n k ∧ 1 ≤ n ∧ n ≤ D ∧ p.call (blk n k) = true ∧
      k * e D n = i ∧ Chain p D l ((k + 1) * e D n) s)

theorem Chain.append {l₁ l₂ : List DyadicInterval} {a b c : ℤ}
    (h1 : Chain p D l₁ a b) (h2 : Chain p D l₂ b c) : Chain p D (l₁ ++ l₂) a c := by
  induction l₁ generalizing a with
  | nil => cases h1; exact h2
  | cons d l ih =>
    obtain ⟨n, k, rfl, hn, hD, hg, hi, hc⟩ := h1
    exact ⟨n, k, rfl, hn, hD, hg, hi, ih hc⟩

theorem Chain.single {n : ℕ} {k : ℤ} (h1 : 1 ≤ n) (hn : n ≤ D) (hg : p.call (blk n k) = true) :
    Chain p D [blk n k] (k * e D n) ((k + 1) * e D n) :=
  ⟨n, k, rfl, h1, hn, hg, rfl, rfl⟩

theorem Chain.le {l : List DyadicInterval} {a b : ℤ} (h : Chain p D l a b) : a ≤ b := by
  induction l generalizing a with
  | nil => exact le_of_eq h
  | cons d l ih =>
    obtain ⟨n, k, rfl, hn, hD, hg, hi, hc⟩ := h
    have := ih hc
    have := e_pos D n
    nlinarith

/-- first block of a chain -/
theorem Chain.head {l : List DyadicInterval} {a b : ℤ} (h : Chain p D l a b) (hl : l ≠ []) :
    ∃ d, l.head? = some d ∧ Wf D d.dinf ∧ val D d.dinf = a := by
  cases l with
  | nil => exact absurd rfl hl
  | cons d l =>
    obtain ⟨n, k, rfl, hn, hD, hg, hi, hc⟩ := h
    refine ⟨_, rfl, ⟨?_, ?_⟩, ?_⟩
    · simp [DyadicInterval.dinf, DyadicInterval.dincludedEnd, DyadicInterval.toDyadic]
    · simpa [DyadicInterval.dinf, DyadicInterval.dincludedEnd, DyadicInterval.toDyadic] using hD
    · simpa [DyadicInterval.dinf, DyadicInterval.dincludedEnd, DyadicInterval.toDyadic, val]
        using hi

/-- last block of a chain -/
theorem Chain.last {l : List DyadicInterval} {a b : ℤ} (h : Chain p D l a b) (hl : l ≠ []) :
    ∃ d, l.getLast? = some d ∧ Wf D d.dsup ∧ val D d.dsup = b := by
  induction l generalizing a with
  | nil => exact absurd rfl hl
  | cons d l ih =>
    obtain ⟨n, k, rfl, hn, hD, hg, hi, hc⟩ := h
    cases l with
    | nil =>
      cases hc
      refine ⟨_, rfl, ⟨?_, ?_⟩, ?_⟩
      · simp [DyadicInterval.dsup, DyadicInterval.dexcludedEnd]
      · simpa [DyadicInterval.dsup, DyadicInterval.dexcludedEnd] using hD
      · simp [DyadicInterval.dsup, DyadicInterval.dexcludedEnd, val, DyadicInterval.unit,
          DyadicInterval.unitOf]
    | cons d' l' =>
      obtain ⟨x, hx, hw, hv⟩ := ih hc (by simp)
      exact ⟨x, by rw [List.getLast?_cons_cons]; exact hx, hw, hv⟩

/-- The predicate holds on a block exactly if it holds on both halves. -/
def Additive (p : ScaledPredicate) : Prop :=
  ∀ (n : ℕ) (k : ℤ), p.call (blk n k) = true ↔
    p.call (blk (n + 1) (2 * k)) = true ∧ p.call (blk (n + 1) (2 * k + 1)) = true

/-- the cell `j` of depth `D` is good -/
def good (p : ScaledPredicate) (D : ℕ) (j : ℤ) : Prop := p.call (blk D j) = true

theorem block_iff (ha : Additive p) {n : ℕ} (hn : n ≤ D) (k : ℤ) :
    p.call (blk n k) = true ↔ ∀ j, k * e D n ≤ j → j < (k + 1) * e D n → good p D j := by
  obtain ⟨t, rfl⟩ : ∃ t, D = n + t := ⟨D - n, by omega⟩
  induction t generalizing n k with
  | zero =>
    have he : e (n + 0) n = 1 := by simp [e]
    rw [he]
    constructor
    · intro h j h1 h2
      obtain rfl : j = k := by omega
      exact h
    · intro h
      exact h k (by omega) (by omega)
  | succ t ih =>
    rw [ha n k]
    have hD : n + (t + 1) = (n + 1) + t := by omega
    rw [hD]
    rw [ih (2 * k) (by omega), ih (2 * k + 1) (by omega), e_succ (show n < n + 1 + t by omega)]
    have := e_pos (n + 1 + t) (n + 1)
    constructor
    · rintro ⟨h1, h2⟩ j h3 h4
      by_cases hj : j < (2 * k + 1) * e (n + 1 + t) (n + 1)
      · exact h1 j (by linarith) hj
      · exact h2 j (by linarith) (by linarith)
    · intro h
      exact ⟨fun j h3 h4 => h j (by linarith) (by linarith),
        fun j h3 h4 => h j (by linarith) (by linarith)⟩

theorem Chain.good (ha : Additive p) {l : List DyadicInterval} {a b : ℤ} (h : Chain p D l a b)
    (j : ℤ) (h1 : a ≤ j) (h2 : j < b) : good p D j := by
  induction l generalizing a with
  | nil => cases h; omega
  | cons d l ih =>
    obtain ⟨n, k, rfl, hn, hD, hg, hi, hc⟩ := h
    by_cases hj : j < (k + 1) * e D n
    · exact (block_iff ha hD k).1 hg j (by omega) hj
    · exact ih hc (by omega)

theorem leftLoop_spec (m : ℕ) (hm : m ≤ D) (hm1 : 1 ≤ m) (k : ℤ) (cur : List DyadicInterval) :
    ∃ pre i, leftLoop p D ((D : ℤ) - (m : ℤ)).toNat (blk m k) cur = some (pre ++ cur) ∧
      Chain p D pre i ((k + 1) * e D m) ∧ k * e D m ≤ i ∧
      (Additive p → p.call (blk m k) = false → ¬ good p D (i - 1)) := by
  obtain ⟨t, rfl⟩ : ∃ t, D = m + t := ⟨D - m, by omega⟩
  rw [show ((((m + t : ℕ) : ℤ)) - (m : ℤ)).toNat = t by omega]
  induction t generalizing m k cur with
  | zero =>
    refine ⟨[], _, ?_, rfl, ?_, ?_⟩
    · unfold leftLoop; simp
    · have := e_pos (m + 0) m; linarith
    · intro ha hb hg
      have he : e (m + 0) m = 1 := by simp [e]
      rw [he] at hg
      rw [show (k + 1) * 1 - 1 = k by ring] at hg
      rw [good] at hg
      simp only [add_zero] at hg
      rw [hb] at hg
      cases hg
  | succ t ih =>
    unfold leftLoop
    rw [if_pos (by simp only [blk]; push_cast; omega)]
    simp only
    rw [shrinkLeft_blk, shrinkRight_blk]
    simp only [Option.bind_eq_bind, Option.bind_some]
    have hD : m + (t + 1) = (m + 1) + t := by omega
    have he : e (m + (t + 1)) m = 2 * e (m + 1 + t) (m + 1) := by
      rw [e_succ (by omega), hD]
    by_cases hg : p.call (blk (m + 1) (2 * k + 1)) = true
    · rw [if_pos hg]
      obtain ⟨pre, i, h1, h2, hb, h3⟩ := ih (m + 1) (by omega) (2 * k) (blk (m + 1) (2 * k + 1) :: cur)
        (by omega)
      rw [hD]
      refine ⟨pre ++ [blk (m + 1) (2 * k + 1)], i, ?_, ?_, ?_, ?_⟩
      · rw [h1]; simp
      · refine h2.append ?_
        have := Chain.single (D := m + 1 + t) (show 1 ≤ m + 1 by omega) (by omega) hg
        rw [hD] at he
        rw [he]
        convert this using 1
        ring
      · rw [hD] at he
        rw [he]; linarith
      · intro ha hb
        refine h3 ha ?_
        have := ha m k
        rw [hb, hg] at this
        simpa using this
    · rw [if_neg hg]
      obtain ⟨pre, i, h1, h2, hb, h3⟩ := ih (m + 1) (by omega) (2 * k + 1) cur (by omega)
      rw [hD]
      rw [hD] at he
      refine ⟨pre, i, h1, ?_, ?_, fun ha _ => h3 ha (by simpa using hg)⟩
      rotate_left
      · rw [he]; have := e_pos (m + 1 + t) (m + 1); linarith
      rw [he]
      convert h2 using 1
      ring

theorem rightLoop_spec (m : ℕ) (hm : m ≤ D) (hm1 : 1 ≤ m) (k : ℤ) (cur : List DyadicInterval) :
    ∃ post s, rightLoop p D ((D : ℤ) - (m : ℤ)).toNat (blk m k) cur = some (cur ++ post) ∧
      Chain p D post (k * e D m) s ∧ s ≤ (k + 1) * e D m ∧
      (Additive p → p.call (blk m k) = false → ¬ good p D s) := by
  obtain ⟨t, rfl⟩ : ∃ t, D = m + t := ⟨D - m, by omega⟩
  rw [show ((((m + t : ℕ) : ℤ)) - (m : ℤ)).toNat = t by omega]
  induction t generalizing m k cur with
  | zero =>
    refine ⟨[], _, ?_, rfl, ?_, ?_⟩
    · unfold rightLoop; simp
    · have := e_pos (m + 0) m; linarith
    · intro ha hb hg
      have he : e (m + 0) m = 1 := by simp [e]
      rw [he, mul_one, good] at hg
      simp only [add_zero] at hg
      rw [hb] at hg
      cases hg
  | succ t ih =>
    unfold rightLoop
    rw [if_pos (by simp only [blk]; push_cast; omega)]
    simp only
    rw [shrinkLeft_blk, shrinkRight_blk]
    simp only [Option.bind_eq_bind, Option.bind_some]
    have hD : m + (t + 1) = (m + 1) + t := by omega
    have he : e (m + (t + 1)) m = 2 * e (m + 1 + t) (m + 1) := by
      rw [e_succ (by omega), hD]
    by_cases hg : p.call (blk (m + 1) (2 * k)) = true
    · rw [if_pos hg]
      obtain ⟨post, s, h1, h2, hb, h3⟩ := ih (m + 1) (by omega) (2 * k + 1) (cur ++ [blk (m + 1) (2 * k)])
        (by omega)
      rw [hD]
      rw [hD] at he
      refine ⟨blk (m + 1) (2 * k) :: post, s, ?_, ?_, ?_, ?_⟩
      · rw [h1]; simp
      · refine ⟨m + 1, 2 * k, rfl, by omega, by omega, hg, ?_, h2⟩
        rw [he]; ring
      · rw [he]; linarith
      · intro ha hb
        refine h3 ha ?_
        have := ha m k
        rw [hb, hg] at this
        simpa using this
    · rw [if_neg hg]
      obtain ⟨post, s, h1, h2, hb, h3⟩ := ih (m + 1) (by omega) (2 * k) cur (by omega)
      rw [hD]
      rw [hD] at he
      refine ⟨post, s, h1, ?_, ?_, fun ha _ => h3 ha (by simpa using hg)⟩
      rotate_left
      · rw [he]; have := e_pos (m + 1 + t) (m + 1); linarith
      rw [he]
      convert h2 using 1
      ring

/-- What `expand` finds around a good block: adjacent good blocks; and if the neighbours the
code does not look at are bad, nothing more can be added on either side. -/
theorem expandFound_spec (n : ℕ) (hn : n ≤ D) (h1 : 1 ≤ n) (k : ℤ)
    (hg : p.call (blk n k) = true) :
    ∃ l i s, expandFound p D (blk n k) = some l ∧ l ≠ [] ∧ Chain p D l i s ∧
      i ≤ k * e D n ∧ (k + 1) * e D n ≤ s ∧
      (k - 2) * e D n ≤ i ∧ s ≤ (k + 2) * e D n ∧
      (Additive p →
        (k % 2 = 1 → p.call (blk n (k - 1)) = false) →
        (k % 2 = 0 → p.call (blk n (k - 1)) = true → p.call (blk n (k - 2)) = false) →
        ¬ good p D (i - 1)) ∧
      (Additive p → p.call (blk n (k + 1)) = false → ¬ good p D s) := by
  obtain ⟨pre, i, hL, hC, hlo, hB⟩ : ∃ pre i, expandLeft p D (blk n k) [blk n k] =
      some (pre ++ [blk n k]) ∧ Chain p D pre i (k * e D n) ∧ (k - 2) * e D n ≤ i ∧
      (Additive p →
        (k % 2 = 1 → p.call (blk n (k - 1)) = false) →
        (k % 2 = 0 → p.call (blk n (k - 1)) = true → p.call (blk n (k - 2)) = false) →
        ¬ good p D (i - 1)) := by
    unfold expandLeft
    rw [aligned_blk]
    simp only [Option.bind_eq_bind, Option.bind_some]
    by_cases hc : (decide (k % 2 = 0) && p.call (blk n (k - 1))) = true
    · rw [if_pos hc]
      obtain ⟨pre, i, h2, h3, h5, h4⟩ := leftLoop_spec (p := p) n hn h1 (k - 1 - 1)
        [blk n (k - 1), blk n k]
      simp only [Bool.and_eq_true, decide_eq_true_eq] at hc
      refine ⟨pre ++ [blk n (k - 1)], i, ?_, ?_, ?_, ?_⟩
      · simp only [blk] at h2 ⊢
        rw [h2]; simp
      · refine h3.append ?_
        have := Chain.single h1 hn hc.2
        rwa [sub_add_cancel] at this ⊢
      · rw [show k - 2 = k - 1 - 1 by ring]; exact h5
      · intro ha _ hb
        refine h4 ha ?_
        rw [show k - 1 - 1 = k - 2 by ring]
        exact hb hc.1 hc.2
    · rw [if_neg hc]
      obtain ⟨pre, i, h2, h3, h5, h4⟩ := leftLoop_spec (p := p) n hn h1 (k - 1) [blk n k]
      refine ⟨pre, i, h2, ?_, ?_, ?_⟩
      · rwa [sub_add_cancel] at h3
      · have := e_pos D n
        linarith
      · intro ha hb _
        refine h4 ha ?_
        rcases Int.emod_two_eq_zero_or_one k with hk | hk
        · simpa [hk] using hc
        · exact hb hk
  obtain ⟨post, s, hR, hC', hhi, hB'⟩ := rightLoop_spec (p := p) n hn h1 (k + 1) (pre ++ [blk n k])
  refine ⟨pre ++ [blk n k] ++ post, i, s, ?_, by simp, ?_, hC.le, hC'.le, hlo,
    by rw [show k + 2 = k + 1 + 1 by ring]; exact hhi, hB, hB'⟩
  · unfold expandFound
    rw [hL]
    simp only [Option.bind_eq_bind, Option.bind_some, List.getLast?_append,
      List.getLast?_singleton, Option.some_or]
    exact hR
  · exact (hC.append (Chain.single h1 hn hg)).append hC'

end RoughPy.Intervals.Searcher
