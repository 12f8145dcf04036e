import Verif.Tensor.MulLemmas
import Verif.Tensor.ExpLog

/-! # The exponential, logarithm and fused multiply-exponentiate kernels -/

set_option linter.unusedSectionVars false

open Finset

namespace RoughPy.Tensor

open Series

variable {K : Type} [Field K] [CharZero K]

theorem View.positive_nil (v : View) (w : ℕ) (b : Buf K) : v.positive w b [] = 0 := if_pos rfl

theorem wordIndex_nil (w : ℕ) : wordIndex ([] : List (Fin w)) = 0 := by
  simp [wordIndex, wordOffset, wordsBelow]

theorem wordsBelow_one (w : ℕ) : wordsBelow w 1 = 1 := by simp [wordsBelow]

theorem View.Valid.pos {v : View} {n : ℕ} (h : v.Valid n) : 0 < n := by
  have h1 := wordsBelow_one v.width
  have := wordsBelow_mono (w := v.width) (d := 1) (e := v.maxDeg + 1) (by omega)
  have := h.fits
  omega

/-- one in-place multiplication as used by `exp`, `log` and `fmexp` -/
theorem inplace_step {op : K → K} {c : K} (hop : ∀ x, op x = x * c) {vo va : View}
    {out arg : Buf K} (hw : va.width = vo.width) (hvo : vo.Valid out.size)
    (hva : va.Valid arg.size) (h0 : vo.minDeg = 0) {m : ℕ} (hm : m ≤ vo.maxDeg) :
    ∃ out', ftInplaceMul op (vo.truncate m) (va.truncate m 1) out arg = some out' ∧
      out'.size = out.size ∧
      EqUpTo m (out'.ser vo.width) (c • (out.ser vo.width * va.positive vo.width arg)) := by
  obtain ⟨out', h1, h2, h3, -⟩ := ftInplaceMul_word (op := op) (by rw [hop, zero_mul])
    (vl := vo.truncate m) (vr := va.truncate m 1) (lhs := out) (rhs := arg) hw
    (hvo.truncate _ _) (hva.truncate _ _)
  refine ⟨out', h1, h2, fun u hu => ?_⟩
  have hmin : (vo.truncate m).minDeg = 0 := by simp [View.truncate, h0]
  have hmax : (vo.truncate m).maxDeg = m := by simp [View.truncate, hm]
  have := h3 u (by rw [hmin]; exact Nat.zero_le _) (by rw [hmax]; exact hu)
  refine this.trans ?_
  rw [Series.smul_apply, mul_apply, mul_sum]
  refine sum_congr rfl fun k hk => ?_
  rw [mem_range] at hk
  rw [hop, mul_comm]
  congr 1
  have e1 : (vo.truncate m).series vo.width out (u.take k) = out.ser vo.width (u.take k) := by
    unfold View.series
    rw [if_pos]
    · rfl
    · rw [hmin, hmax, List.length_take]; omega
  have e2 : (va.truncate m 1).series vo.width arg (u.drop k) =
      va.positive vo.width arg (u.drop k) := by
    unfold View.positive View.series
    by_cases hk' : k = u.length
    · rw [if_pos (List.drop_eq_nil_of_le (by omega)), if_neg]
      rw [List.length_drop]
      simp only [View.truncate]
      omega
    · have hne : u.drop k ≠ [] := fun h => by rw [List.drop_eq_nil_iff] at h; omega
      rw [if_neg hne]
      refine if_congr ?_ rfl rfl
      rw [List.length_drop]
      simp only [View.truncate]
      omega
  exact congrArg₂ (· * ·) e1 e2

/-! ### Horner schemes -/

/-- partial sums produced by the Horner scheme of `exp` and `fmexp`: `i` steps with
denominators `D, D-1, …, D-i+1` -/
noncomputable def expHorner {α : Type} (D : ℕ) (a x : Series α K) : ℕ → Series α K
  | 0 => a
  | i + 1 => a + (1 / ((D - i : ℕ) : K)) • (expHorner D a x i * x)

theorem expHorner_eq {α : Type} (D : ℕ) (a x : Series α K) (i : ℕ) (hi : i ≤ D) :
    expHorner D a x i = ∑ n ∈ range (i + 1),
      (((D - i).factorial : K) / ((D - i + n).factorial : K)) • (a * x ^ n) := by
  induction i with
  | zero =>
    have : ((D.factorial : ℕ) : K) ≠ 0 := by exact_mod_cast D.factorial_ne_zero
    simp [expHorner, this]
  | succ i ih =>
    rw [expHorner, ih (by omega), sum_range_succ' _ (i + 1)]
    have hf : (((D - (i + 1)).factorial : ℕ) : K) ≠ 0 := by
      exact_mod_cast (D - (i + 1)).factorial_ne_zero
    rw [pow_zero, mul_one, add_zero, div_self hf, one_smul, add_comm]
    congr 1
    rw [sum_mul, smul_sum]
    refine sum_congr rfl fun n _ => ?_
    obtain ⟨e, he⟩ : ∃ e, D = i + 1 + e := ⟨D - (i + 1), by omega⟩
    have e1 : D - i = e + 1 := by omega
    have e2 : D - (i + 1) = e := by omega
    have e3 : e + 1 + n = e + (n + 1) := by omega
    rw [e1, e2, e3, smul_mul_assoc, smul_smul, mul_assoc, ← pow_succ]
    congr 1
    have h1 : ((e + 1 : ℕ) : K) ≠ 0 := by exact_mod_cast Nat.succ_ne_zero e
    rw [Nat.factorial_succ, Nat.cast_mul]
    field_simp

theorem expHorner_full {α : Type} (D : ℕ) (a x : Series α K) (hx : x [] = 0) :
    EqUpTo D (expHorner D a x D) (a * texp x) := by
  have key : EqUpTo D (∑ n ∈ range (D + 1), ((n.factorial : K)⁻¹) • x ^ n) (texp x) := by
    intro u hu
    rw [Series.sum_apply, texp_apply]
    symm
    refine sum_subset (range_subset_range.2 (by omega)) fun n _ hn => ?_
    rw [Series.pow_apply_eq_zero hx n u (by simpa using hn), mul_zero]
  have h2 : expHorner D a x D = a * ∑ n ∈ range (D + 1), ((n.factorial : K)⁻¹) • x ^ n := by
    rw [expHorner_eq D a x D le_rfl, mul_sum]
    refine sum_congr rfl fun n _ => ?_
    rw [Nat.sub_self, zero_add, Nat.factorial_zero, Nat.cast_one, one_div, mul_smul_comm]
  rw [h2]
  exact (EqUpTo.refl D a).mul key

/-- partial sums of the Horner scheme of `log` -/
noncomputable def logHorner {α : Type} (D : ℕ) (x : Series α K) : ℕ → Series α K
  | 0 => 0
  | i + 1 => (logHorner D x i + ((-1) ^ (D - i + 1) / ((D - i : ℕ) : K)) • 1) * x

theorem logHorner_eq {α : Type} (D : ℕ) (x : Series α K) (i : ℕ) (hi : i ≤ D) :
    logHorner D x i = ∑ n ∈ range i,
      ((-1 : K) ^ (D - i + (n + 1) + 1) / ((D - i + (n + 1) : ℕ) : K)) • x ^ (n + 1) := by
  induction i with
  | zero => simp [logHorner]
  | succ i ih =>
    rw [logHorner, ih (by omega), sum_range_succ', add_mul, sum_mul]
    obtain ⟨e, he⟩ : ∃ e, D = i + 1 + e := ⟨D - (i + 1), by omega⟩
    have e1 : D - i = e + 1 := by omega
    have e2 : D - (i + 1) = e := by omega
    rw [e1, e2]
    congr 1
    · refine sum_congr rfl fun n _ => ?_
      have e3 : e + 1 + (n + 1) = e + (n + 1 + 1) := by omega
      rw [e3, smul_mul_assoc, ← pow_succ]
    · rw [smul_mul_assoc, one_mul, zero_add, pow_one]

theorem logHorner_full {α : Type} (D : ℕ) (x : Series α K) (hx : x [] = 0) :
    EqUpTo D (logHorner D x D) (tlog (1 + x)) := by
  intro u hu
  rw [logHorner_eq D x D le_rfl, Series.sum_apply, tlog_apply, add_sub_cancel_left, sum_range_succ', if_pos rfl,
    zero_mul, add_zero]
  symm
  calc _ = ∑ n ∈ range u.length, ((-1 : K) ^ (D - D + (n + 1) + 1) /
          ((D - D + (n + 1) : ℕ) : K)) * (x ^ (n + 1)) u := by
        refine sum_congr rfl fun n _ => ?_
        rw [if_neg (Nat.succ_ne_zero n), Nat.sub_self, zero_add]
    _ = _ := by
        refine sum_subset (range_subset_range.2 hu) fun n _ hn => ?_
        rw [Series.pow_apply_eq_zero hx _ u (by simp at hn; omega), mul_zero]

/-! ### The kernels -/

theorem ser_update_nil (w : ℕ) {b : Buf K} (v : K) (u : List (Fin w)) :
    (Buf.ser w ⟨b.size, Function.update b.get 0 v⟩ : Series (Fin w) K) u =
      if u = [] then v else b.ser w u := by
  unfold Buf.ser
  by_cases h : u = []
  · subst h; rw [if_pos rfl, wordIndex_nil]; exact Function.update_self 0 v b.get
  · rw [if_neg h]
    dsimp only
    rw [Function.update_of_ne]
    intro h'
    rw [← wordIndex_nil w] at h'
    exact h (wordIndex_inj h')

theorem ftExp_word {vo va : View} {out arg : Buf K} (hw : va.width = vo.width)
    (hvo : vo.Valid out.size) (hva : va.Valid arg.size) (h0 : vo.minDeg = 0) :
    ∃ out', ftExp vo va out arg = some out' ∧ out'.size = out.size ∧
      EqUpTo vo.maxDeg (out'.ser vo.width) (texp (va.positive vo.width arg)) := by
  set x := va.positive vo.width arg with hx
  have hx0 : x [] = 0 := va.positive_nil _ _
  obtain ⟨out', h1, h2, h3⟩ := loop_map_range_inv
    (fun i (s : Buf K) => s.size = out.size ∧
      EqUpTo i (s.ser vo.width) (expHorner vo.maxDeg 1 x i))
    (vo.maxDeg + 1 - 1) (fun i => vo.maxDeg - i)
    (fun out deg => do
      let maxLevel := vo.maxDeg - deg + 1
      let out ← ftInplaceMul (divideBy deg) (vo.truncate maxLevel) (va.truncate maxLevel 1) out arg
      out.addAt 0 1) ⟨out.size, Function.update out.get 0 1⟩
    ⟨rfl, fun u hu => by
      rw [ser_update_nil, if_pos (List.length_eq_zero_iff.1 (by omega))]
      rw [List.length_eq_zero_iff.1 (by omega : u.length = 0)]
      rfl⟩ (by
      rintro i hi s ⟨hs, hg⟩
      have hm : vo.maxDeg - (vo.maxDeg - i) + 1 = i + 1 := by omega
      obtain ⟨s', e1, e2, e3⟩ := inplace_step (op := divideBy (vo.maxDeg - i))
        (c := 1 / ((vo.maxDeg - i : ℕ) : K)) (fun _ => rfl) (out := s) (arg := arg) hw
        (by rw [hs]; exact hvo) hva h0 (m := i + 1) (by omega)
      simp only [hm]
      rw [e1]
      simp only [Option.bind_eq_bind, Option.bind_some]
      refine ⟨_, Buf.addAt_eq (by rw [e2, hs]; exact hvo.pos) _, e2.trans hs, ?_⟩
      intro u hu
      rw [ser_update_nil, expHorner, Series.add_apply]
      have := (e3.trans ((hg.mul_succ hx0).smul _)) u hu
      by_cases hu' : u = []
      · rw [if_pos hu', add_comm]
        subst hu'
        rw [← this, one_nil, Buf.ser, wordIndex_nil]
      · rw [if_neg hu', this]
        obtain ⟨b, u, rfl⟩ := List.exists_cons_of_ne_nil hu'
        rw [one_cons, zero_add])
  refine ⟨out', ?_, h2, ?_⟩
  · unfold ftExp
    rw [Buf.write_eq hvo.pos]
    simp only [Option.bind_eq_bind, Option.bind_some]
    have : degreesDown (vo.maxDeg : ℤ) 1 = degreesDown (vo.maxDeg : ℤ) ((1 : ℕ) : ℤ) := by simp
    rw [this, degreesDown_nat]
    exact h1
  · have := h3.trans (expHorner_full vo.maxDeg 1 x hx0)
    rwa [one_mul] at this

theorem ftLog_word {vo va : View} {out arg : Buf K} (hw : va.width = vo.width)
    (hvo : vo.Valid out.size) (hva : va.Valid arg.size) (h0 : vo.minDeg = 0)
    (hout : out.get 0 = 0) :
    ∃ out', ftLog vo va out arg = some out' ∧ out'.size = out.size ∧
      EqUpTo vo.maxDeg (out'.ser vo.width) (tlog (1 + va.positive vo.width arg)) := by
  set x := va.positive vo.width arg with hx
  have hx0 : x [] = 0 := va.positive_nil _ _
  obtain ⟨out', h1, h2, h3⟩ := loop_map_range_inv
    (fun i (s : Buf K) => s.size = out.size ∧
      EqUpTo i (s.ser vo.width) (logHorner vo.maxDeg x i))
    (vo.maxDeg + 1 - 1) (fun i => vo.maxDeg - i)
    (fun out deg => do
      let maxLevel := vo.maxDeg - deg + 1
      let out ← if deg % 2 = 0 then do
          let x ← out.read 0
          out.write 0 (x - 1 / (deg : K))
        else out.addAt 0 (1 / (deg : K))
      ftInplaceMul id (vo.truncate maxLevel) (va.truncate maxLevel 1) out arg) out
    ⟨rfl, fun u hu => by
      rw [List.length_eq_zero_iff.1 (by omega : u.length = 0), Buf.ser, wordIndex_nil, hout]
      rfl⟩ (by
      rintro i hi s ⟨hs, hg⟩
      have hm : vo.maxDeg - (vo.maxDeg - i) + 1 = i + 1 := by omega
      simp only [hm]
      set deg := vo.maxDeg - i with hdeg
      set r : K := (-1) ^ (deg + 1) / (deg : K) with hr
      have hpos : 0 < s.size := by rw [hs]; exact hvo.pos
      have hstep : (if deg % 2 = 0 then do
            let x ← s.read 0
            s.write 0 (x - 1 / (deg : K))
          else s.addAt 0 (1 / (deg : K))) =
          some ⟨s.size, Function.update s.get 0 (s.get 0 + r)⟩ := by
        by_cases hp : deg % 2 = 0
        · rw [if_pos hp, Buf.read_eq hpos]
          simp only [Option.bind_eq_bind, Option.bind_some]
          rw [Buf.write_eq hpos, hr, pow_succ, Even.neg_one_pow (Nat.even_iff.2 hp)]
          congr 3
          ring
        · rw [if_neg hp, Buf.addAt_eq hpos, hr, pow_succ,
            Odd.neg_one_pow (Nat.odd_iff.2 (by omega))]
          congr 3
          ring
      set s1 : Buf K := ⟨s.size, Function.update s.get 0 (s.get 0 + r)⟩ with hs1
      obtain ⟨s', e1, e2, e3⟩ := inplace_step (op := (id : K → K)) (c := 1)
        (fun x => (mul_one x).symm) (out := s1) (arg := arg) hw
        (by rw [hs1]; dsimp only; rw [hs]; exact hvo) hva h0 (m := i + 1) (by omega)
      refine ⟨s', ?_, e2.trans hs, ?_⟩
      · by_cases hp : deg % 2 = 0
        · rw [if_pos hp, Buf.read_eq hpos] at hstep
          rw [if_pos hp, Buf.read_eq hpos]
          simp only [Option.bind_eq_bind, Option.bind_some] at hstep ⊢
          rw [hstep]
          exact e1
        · rw [if_neg hp] at hstep ⊢
          rw [hstep]
          exact e1
      · rw [one_smul] at e3
        refine e3.trans ?_
        rw [logHorner]
        refine EqUpTo.mul_succ ?_ hx0
        intro u hu
        rw [hs1, ser_update_nil, Series.add_apply, Series.smul_apply]
        by_cases hu' : u = []
        · subst hu'
          rw [if_pos rfl, ← hg [] (by simp), one_nil, mul_one, Buf.ser, wordIndex_nil]
        · rw [if_neg hu', hg u hu]
          obtain ⟨b, u, rfl⟩ := List.exists_cons_of_ne_nil hu'
          rw [one_cons, mul_zero, add_zero])
  refine ⟨out', ?_, h2, ?_⟩
  · unfold ftLog
    have : degreesDown (vo.maxDeg : ℤ) 1 = degreesDown (vo.maxDeg : ℤ) ((1 : ℕ) : ℤ) := by simp
    rw [this, degreesDown_nat]
    exact h1
  · exact h3.trans (logHorner_full vo.maxDeg x hx0)

theorem copyN_spec {n : ℕ} {src dst : Buf K} (h1 : n ≤ src.size) (h2 : n ≤ dst.size) :
    ∃ b, copyN n src dst = some b ∧ b.size = dst.size ∧
      ∀ p, b.get p = if p < n then src.get p else dst.get p := by
  obtain ⟨b, e1, e2, e3⟩ := loop_range_inv
    (fun i (s : Buf K) => s.size = dst.size ∧ ∀ p, s.get p = if p < i then src.get p else dst.get p)
    n (fun dst i => do dst.write i (← src.read i)) dst ⟨rfl, fun p => by simp⟩ (by
      rintro i hi s ⟨hs, hg⟩
      rw [Buf.read_eq (by omega)]
      simp only [Option.bind_eq_bind, Option.bind_some]
      refine ⟨_, Buf.write_eq (by omega) _, hs, fun p => ?_⟩
      dsimp only
      by_cases hp : p = i
      · subst hp; rw [Function.update_self, if_pos (by omega)]
      · rw [Function.update_of_ne hp, hg]
        refine if_congr ?_ rfl rfl
        omega)
  exact ⟨b, e1, e2, e3⟩

theorem vectorInplaceAddition_spec {vl vr : View} {lhs rhs : Buf K} (hw : vr.width = vl.width)
    (hl : vl.Valid lhs.size) (hr : vr.Valid rhs.size) (h0 : vl.minDeg = 0) (h0' : vr.minDeg = 0) :
    ∃ b, vectorInplaceAddition vl vr lhs rhs = some b ∧ b.size = lhs.size ∧
      ∀ p, b.get p = lhs.get p +
        if p < wordsBelow vl.width (min vl.maxDeg vr.maxDeg + 1) then rhs.get p else 0 := by
  have hmin : min (wordsBelow vl.width (vl.maxDeg + 1)) (wordsBelow vl.width (vr.maxDeg + 1)) =
      wordsBelow vl.width (min vl.maxDeg vr.maxDeg + 1) := by
    rcases le_total vl.maxDeg vr.maxDeg with h | h
    · rw [min_eq_left h, min_eq_left (wordsBelow_mono (by omega))]
    · rw [min_eq_right h, min_eq_right (wordsBelow_mono (by omega))]
  unfold vectorInplaceAddition
  rw [View.size_eq hl.maxDeg_le h0, View.size_eq hr.maxDeg_le h0', hw]
  simp only [Option.bind_eq_bind, Option.bind_some]
  rw [hmin]
  set n := wordsBelow vl.width (min vl.maxDeg vr.maxDeg + 1) with hn
  have hn1 : n ≤ lhs.size := le_trans (wordsBelow_mono (by omega)) hl.fits
  have hn2 : n ≤ rhs.size := by
    have := hr.fits
    rw [hw] at this
    exact le_trans (wordsBelow_mono (by omega)) this
  obtain ⟨b, e1, e2, e3⟩ := loop_range_inv
    (fun i (s : Buf K) => s.size = lhs.size ∧
      ∀ p, s.get p = lhs.get p + if p < i then rhs.get p else 0)
    n (fun lhs i => do lhs.addAt i (← rhs.read i)) lhs ⟨rfl, fun p => by simp⟩ (by
      rintro i hi s ⟨hs, hg⟩
      rw [Buf.read_eq (by omega)]
      simp only [Option.bind_eq_bind, Option.bind_some]
      refine ⟨_, Buf.addAt_eq (by omega) _, hs, fun p => ?_⟩
      dsimp only
      by_cases hp : p = i
      · subst hp; rw [Function.update_self, if_pos (by omega), hg, if_neg (by omega), add_zero]
      · rw [Function.update_of_ne hp, hg]
        congr 1
        refine if_congr ?_ rfl rfl
        omega)
  exact ⟨b, e1, e2, e3⟩

theorem ftFmexp_word {vo vm vx : View} {out mul ex : Buf K} (hwm : vm.width = vo.width)
    (hwx : vx.width = vo.width) (hvo : vo.Valid out.size) (hvm : vm.Valid mul.size)
    (hvx : vx.Valid ex.size) (h0 : vo.minDeg = 0) (h0m : vm.minDeg = 0) :
    ∃ out', ftFmexp vo vm vx out mul ex = some out' ∧ out'.size = out.size ∧
      EqUpTo vo.maxDeg (out'.ser vo.width)
        (vm.series vo.width mul * texp (vx.positive vo.width ex)) := by
  set x := vx.positive vo.width ex with hx
  set a := vm.series vo.width mul with ha
  have hx0 : x [] = 0 := vx.positive_nil _ _
  have hmin : min (wordsBelow vo.width (vo.maxDeg + 1)) (wordsBelow vo.width (vm.maxDeg + 1)) =
      wordsBelow vo.width (min vo.maxDeg vm.maxDeg + 1) := by
    rcases le_total vo.maxDeg vm.maxDeg with h | h
    · rw [min_eq_left h, min_eq_left (wordsBelow_mono (by omega))]
    · rw [min_eq_right h, min_eq_right (wordsBelow_mono (by omega))]
  have hin : ∀ u : List (Fin vo.width), u.length ≤ vo.maxDeg →
      (if wordIndex u < wordsBelow vo.width (min vo.maxDeg vm.maxDeg + 1) then
        mul.get (wordIndex u) else 0) = a u := by
    intro u hu
    rw [ha]
    unfold View.series
    refine if_congr ⟨fun h => ⟨by omega, ?_⟩, fun h => wordIndex_lt (by omega)⟩ rfl rfl
    obtain ⟨v, hv1, hv2⟩ := exists_wordIndex h
    rw [← wordIndex_inj hv2]
    omega
  unfold ftFmexp
  rw [View.size_eq hvo.maxDeg_le h0, View.size_eq hvm.maxDeg_le h0m, hwm]
  simp only [Option.bind_eq_bind, Option.bind_some]
  rw [hmin]
  obtain ⟨b0, c1, c2, c3⟩ := copyN_spec
    (n := wordsBelow vo.width (min vo.maxDeg vm.maxDeg + 1)) (src := mul) (dst := out)
    (by have := hvm.fits; rw [hwm] at this; exact le_trans (wordsBelow_mono (by omega)) this)
    (le_trans (wordsBelow_mono (by omega)) hvo.fits)
  rw [c1]
  simp only [Option.bind_some]
  obtain ⟨out', h1, h2, h3⟩ := loop_map_range_inv
    (fun i (s : Buf K) => s.size = out.size ∧
      EqUpTo i (s.ser vo.width) (expHorner vo.maxDeg a x i))
    (vo.maxDeg + 1 - 1) (fun i => vo.maxDeg - i)
    (fun out deg => do
      let maxLevel := vo.maxDeg - deg + 1
      let out ← ftInplaceMul (divideBy deg) (vo.truncate maxLevel) (vx.truncate maxLevel 1) out ex
      vectorInplaceAddition vo vm out mul) b0
    ⟨c2, fun u hu => by
      rw [expHorner, ← hin u (by omega), Buf.ser, c3, if_pos, if_pos]
      · exact wordIndex_lt (by omega)
      · exact wordIndex_lt (by omega)⟩ (by
      rintro i hi s ⟨hs, hg⟩
      have hm : vo.maxDeg - (vo.maxDeg - i) + 1 = i + 1 := by omega
      obtain ⟨s', e1, e2, e3⟩ := inplace_step (op := divideBy (vo.maxDeg - i))
        (c := 1 / ((vo.maxDeg - i : ℕ) : K)) (fun _ => rfl) (out := s) (arg := ex) hwx
        (by rw [hs]; exact hvo) hvx h0 (m := i + 1) (by omega)
      simp only [hm]
      rw [e1]
      simp only [Option.bind_eq_bind, Option.bind_some]
      obtain ⟨s2, f1, f2, f3⟩ := vectorInplaceAddition_spec (lhs := s') (rhs := mul) hwm
        (by rw [e2, hs]; exact hvo) hvm h0 h0m
      refine ⟨s2, f1, f2.trans (e2.trans hs), ?_⟩
      intro u hu
      have := (e3.trans ((hg.mul_succ hx0).smul _)) u hu
      rw [expHorner, Series.add_apply, ← this, Buf.ser, Buf.ser, f3, hin u (by omega), add_comm])
  refine ⟨out', ?_, h2, ?_⟩
  · have : degreesDown (vo.maxDeg : ℤ) 1 = degreesDown (vo.maxDeg : ℤ) ((1 : ℕ) : ℤ) := by simp
    rw [this, degreesDown_nat]
    simpa only [Option.bind_eq_bind] using h1
  · exact h3.trans (expHorner_full vo.maxDeg a x hx0)

end RoughPy.Tensor
