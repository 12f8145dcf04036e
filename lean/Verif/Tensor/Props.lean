import Verif.Tensor.ComputeLemmas
import Verif.Tensor.WordShuffle

/-!
# Properties of the dense tensor functions: C13 - C19, C21, C22, C30, C56

`t.Represents w D f` says that the Python tensor `t` has width `w`, depth `D`, an array of the
right size, and the coefficients of the series `f` on all words of length at most `D`.  A result
`.ok r` means that the call returned, i.e. that no exception was raised and that no kernel
accessed memory outside its arrays.  All statements are for exact scalars in a commutative ring
(a field of characteristic zero where the code divides).
-/

set_option linter.unusedSectionVars false

open Finset

namespace RoughPy.Tensor

open Series DenseTensor

section ring
variable {K : Type} [CommRing K]

/-! ## C13: multiply-add -/

/-- The kernel, for any basis depth `B` and any degree bounds `o`, `l`, `r` of the three arguments:
every word of degree at most `o` receives the coefficient of the product, nothing else in the
output array changes. -/
theorem C13_ft_fma_kernel {w B o l r : ℕ} {out lhs rhs : Buf K} (ho : o ≤ B) (hl : l ≤ B)
    (hr : r ≤ B) (hso : wordsBelow w (o + 1) ≤ out.size)
    (hsl : wordsBelow w (l + 1) ≤ lhs.size) (hsr : wordsBelow w (r + 1) ≤ rhs.size) :
    ∃ out', ftFma id ⟨w, B, 0, o⟩ ⟨w, B, 0, l⟩ ⟨w, B, 0, r⟩ out lhs rhs = some out' ∧
      out'.size = out.size ∧
      (∀ u : List (Fin w), u.length ≤ o → out'.get (wordIndex u) = out.get (wordIndex u) +
        ∑ k ∈ range (u.length + 1),
          (if k ≤ l then lhs.get (wordIndex (u.take k)) else 0) *
          (if u.length - k ≤ r then rhs.get (wordIndex (u.drop k)) else 0)) ∧
      (∀ p, wordsBelow w (o + 1) ≤ p → out'.get p = out.get p) := by
  obtain ⟨out', h1, h2, h3, h4⟩ := ftFma_argView ho hl hr hso hsl hsr
  refine ⟨out', h1, h2, fun u hu => (h3 u hu).trans ?_, h4⟩
  rw [Series.mul_apply]
  show out.get _ + _ = _
  congr 1
  refine sum_congr rfl fun k hk => ?_
  have hk' : k ≤ u.length := Nat.lt_succ_iff.1 (mem_range.1 hk)
  simp only [trunc, List.length_take, List.length_drop, min_eq_left hk', Buf.ser]

/-- The kernel for views with lower degree bounds: the operands are the tensors seen through the
views, words of the output outside its degree bounds keep their coefficients. -/
theorem C13_ft_fma_bounds {vo vl vr : View} {out lhs rhs : Buf K}
    (hwl : vl.width = vo.width) (hwr : vr.width = vo.width)
    (ho : vo.Valid out.size) (hl : vl.Valid lhs.size) (hr : vr.Valid rhs.size) :
    ∃ out', ftFma id vo vl vr out lhs rhs = some out' ∧ out'.size = out.size ∧
      ∀ u : List (Fin vo.width), out'.get (wordIndex u) = out.get (wordIndex u) +
        if vo.minDeg ≤ u.length ∧ u.length ≤ vo.maxDeg then
          (vl.series vo.width lhs * vr.series vo.width rhs) u else 0 := by
  obtain ⟨out', h1, h2, h3⟩ := ftFma_spec id hwl hwr ho hl hr
  refine ⟨out', h1, h2, fun u => ?_⟩
  rw [h3, add_assoc]
  congr 1
  split_ifs with h hu hu
  · have := fmaTerm_wordIndex (op := id) rfl hwl hwr lhs rhs u hu.1 hu.2
    rw [if_pos h] at this
    exact this
  · exfalso
    have : u = [] := by
      cases u with
      | nil => rfl
      | cons a u =>
        have h0 := h.1
        have hb : wordsBelow vo.width (u.length + 1) = _ := wordsBelow_succ' u.length
        rw [wordIndex, List.length_cons] at h0
        omega
    subst this
    exact hu ⟨by rw [h.2.1]; exact Nat.zero_le _, Nat.zero_le _⟩
  · have := fmaTerm_wordIndex (op := id) rfl hwl hwr lhs rhs u hu.1 hu.2
    rw [if_neg h] at this
    exact this
  · rw [fmaTerm_outside, add_zero]
    intro d hd1 hd2 hin
    have : d = u.length := by
      refine (level_unique (r := wordIndex u - wordsBelow vo.width d) (s := wordOffset u)
        (w := vo.width) ?_ (wordOffset_lt u) ?_).1
      · have h1 := hin.1; have h2 := hin.2
        omega
      · have h1 := hin.1
        rw [wordIndex] at h1 ⊢
        omega
    subst this
    exact hu ⟨hd1, hd2⟩

/-- `ft_fma(a, b, c)` for tensors of the same width and depth leaves `a + b*c` in `a`. -/
theorem C13_ft_fma {w D : ℕ} {a b c : DenseTensor K} {e f g : Series (Fin w) K}
    (ha : a.Represents w D e) (hb : b.Represents w D f) (hc : c.Represents w D g) :
    ∃ r, pyFtFma a b c = .ok r ∧ r.Represents w D (e + f * g) := by
  obtain ⟨r, h1, h2⟩ := pyFtFma_rep ha hb hc (by omega) le_rfl
  exact ⟨r, h1, h2.congr fun u hu => if_pos hu⟩

/-- `ft_mul(a, b)` for tensors of the same width and depth is the product. -/
theorem C13_ft_mul {w D : ℕ} {a b : DenseTensor K} {f g : Series (Fin w) K}
    (ha : a.Represents w D f) (hb : b.Represents w D g) :
    ∃ r, pyFtMul a b = .ok r ∧ r.Represents w D (f * g) := by
  obtain ⟨r, h1, h2⟩ := pyFtMul_rep ha hb
  exact ⟨r, h1, h2.congr (trunc_mul_eqUpTo le_rfl le_rfl _ _)⟩

/-- Operands of different widths are rejected with an exception. -/
theorem C13_width_mismatch (a b : DenseTensor K) (h : b.width ≠ a.width) :
    pyFtMul a b = .raised := by
  unfold pyFtMul checked compatible
  rw [if_neg]
  simpa using h

/-- `ft_mul` is associative: both ways of bracketing return, with equal arrays. -/
theorem C13_assoc {w D : ℕ} {a b c : DenseTensor K} {f g h : Series (Fin w) K}
    (ha : a.Represents w D f) (hb : b.Represents w D g) (hc : c.Represents w D h) :
    ∃ r s, (pyFtMul a b).andThen (fun ab => pyFtMul ab c) = .ok r ∧
      (pyFtMul b c).andThen (fun bc => pyFtMul a bc) = .ok s ∧
      r.data.toList = s.data.toList := by
  obtain ⟨ab, e1, hab⟩ := C13_ft_mul ha hb
  obtain ⟨bc, e2, hbc⟩ := C13_ft_mul hb hc
  obtain ⟨r, e3, hr⟩ := C13_ft_mul hab hc
  obtain ⟨s, e4, hs⟩ := C13_ft_mul ha hbc
  refine ⟨r, s, by rw [e1]; exact e3, by rw [e2]; exact e4, toList_eq_of_represents hr hs ?_⟩
  intro u _
  rw [mul_assoc]

/-- the tensor with scalar part one and all other coefficients zero -/
def unitTensor (K : Type) [CommRing K] (w D : ℕ) : DenseTensor K :=
  ⟨⟨wordsBelow w (D + 1), fun i => if i = 0 then 1 else 0⟩, w, D⟩

theorem unitTensor_represents (w D : ℕ) : (unitTensor K w D).Represents w D 1 := by
  refine ⟨rfl, rfl, rfl, fun u _ => ?_⟩
  cases u with
  | nil => simp [unitTensor, wordIndex_nil]; rfl
  | cons a u =>
    have hb : wordsBelow w (u.length + 1) = _ := wordsBelow_succ' u.length
    have : wordIndex (a :: u) ≠ 0 := by rw [wordIndex, List.length_cons]; omega
    simp [unitTensor, this]; rfl

/-- The unit tensor is a left and right unit for `ft_mul`. -/
theorem C13_unit {w D : ℕ} {a : DenseTensor K} {f : Series (Fin w) K}
    (ha : a.Represents w D f) :
    ∃ r s, pyFtMul a (unitTensor K w D) = .ok r ∧ pyFtMul (unitTensor K w D) a = .ok s ∧
      r.data.toList = a.data.toList ∧ s.data.toList = a.data.toList := by
  obtain ⟨r, e1, hr⟩ := C13_ft_mul ha (unitTensor_represents w D)
  obtain ⟨s, e2, hs⟩ := C13_ft_mul (unitTensor_represents w D) ha
  refine ⟨r, s, e1, e2, toList_eq_of_represents hr ha ?_, toList_eq_of_represents hs ha ?_⟩
  · intro u _; rw [mul_one]
  · intro u _; rw [one_mul]

/-- `ft_mul` distributes over entrywise sums of arrays, on both sides. -/
theorem C13_distrib {w D : ℕ} {a b c b' : DenseTensor K} {f g h : Series (Fin w) K}
    (ha : a.Represents w D f) (hb : b.Represents w D g) (hc : c.Represents w D h)
    (hb' : b'.Represents w D (g + h)) :
    (∃ r s t, pyFtMul a b' = .ok r ∧ pyFtMul a b = .ok s ∧ pyFtMul a c = .ok t ∧
      ∀ i < r.data.size, r.data.get i = s.data.get i + t.data.get i) ∧
    (∃ r s t, pyFtMul b' a = .ok r ∧ pyFtMul b a = .ok s ∧ pyFtMul c a = .ok t ∧
      ∀ i < r.data.size, r.data.get i = s.data.get i + t.data.get i) := by
  constructor
  · obtain ⟨r, e1, hr⟩ := C13_ft_mul ha hb'
    obtain ⟨s, e2, hs⟩ := C13_ft_mul ha hb
    obtain ⟨t, e3, ht⟩ := C13_ft_mul ha hc
    refine ⟨r, s, t, e1, e2, e3, fun i hi => ?_⟩
    rw [hr.size] at hi
    obtain ⟨u, hu, rfl⟩ := exists_wordIndex hi
    rw [hr.coeff u hu, hs.coeff u hu, ht.coeff u hu, mul_add, Series.add_apply]
  · obtain ⟨r, e1, hr⟩ := C13_ft_mul hb' ha
    obtain ⟨s, e2, hs⟩ := C13_ft_mul hb ha
    obtain ⟨t, e3, ht⟩ := C13_ft_mul hc ha
    refine ⟨r, s, t, e1, e2, e3, fun i hi => ?_⟩
    rw [hr.size] at hi
    obtain ⟨u, hu, rfl⟩ := exists_wordIndex hi
    rw [hr.coeff u hu, hs.coeff u hu, ht.coeff u hu, add_mul, Series.add_apply]

/-- Width 2, depth 2: `(1 + e₁ + 2 e₂) * (3 + e₂ + 5 e₁e₁)`. -/
example : (pyFtMul (K := ℤ) ⟨Buf.ofList [1, 1, 2, 0, 0, 0, 0], 2, 2⟩
      ⟨Buf.ofList [3, 0, 1, 5, 0, 0, 0], 2, 2⟩).map (fun r => r.data.toList) =
    .ok [3, 3, 7, 5, 1, 0, 2] := by decide +kernel

/-! ## C14: in-place multiplication -/

/-- The kernel, for any basis depth and degree bounds. -/
theorem C14_kernel {w B o r : ℕ} {lhs rhs : Buf K} (ho : o ≤ B) (hr : r ≤ B)
    (hsl : wordsBelow w (o + 1) ≤ lhs.size) (hsr : wordsBelow w (r + 1) ≤ rhs.size) :
    ∃ out, ftInplaceMul id ⟨w, B, 0, o⟩ ⟨w, B, 0, r⟩ lhs rhs = some out ∧
      out.size = lhs.size ∧
      (∀ u : List (Fin w), u.length ≤ o → out.get (wordIndex u) =
        (trunc o (lhs.ser w) * trunc r (rhs.ser w)) u) ∧
      (∀ p, wordsBelow w (o + 1) ≤ p → out.get p = lhs.get p) :=
  ftInplaceMul_argView ho hr hsl hsr

/-- The kernel for arbitrary (lower and upper) degree bounds. -/
theorem C14_kernel_bounds {vl vr : View} {lhs rhs : Buf K}
    (hw : vr.width = vl.width) (hl : vl.Valid lhs.size) (hr : vr.Valid rhs.size) :
    ∃ out, ftInplaceMul id vl vr lhs rhs = some out ∧ out.size = lhs.size ∧
      (∀ u : List (Fin vl.width), vl.minDeg ≤ u.length → u.length ≤ vl.maxDeg →
        out.get (wordIndex u) = (vl.series vl.width lhs * vr.series vl.width rhs) u) := by
  obtain ⟨out, h1, h2, h3, -⟩ := ftInplaceMul_word (op := id) rfl hw hl hr
  exact ⟨out, h1, h2, h3⟩

/-- `ft_inplace_mul(a, b)` leaves the product in `a`, the same array as `ft_mul(a, b)`. -/
theorem C14_inplace_eq_mul {w D : ℕ} {a b : DenseTensor K} {f g : Series (Fin w) K}
    (ha : a.Represents w D f) (hb : b.Represents w D g) :
    ∃ r s, pyFtInplaceMul a b = .ok r ∧ pyFtMul a b = .ok s ∧
      r.Represents w D (f * g) ∧ r.data.toList = s.data.toList := by
  obtain ⟨r, e1, hr⟩ := pyFtInplaceMul_rep ha hb le_rfl
  obtain ⟨s, e2, hs⟩ := C13_ft_mul ha hb
  exact ⟨r, s, e1, e2, hr, toList_eq_of_represents hr hs (EqUpTo.refl _ _)⟩

example : (pyFtInplaceMul (K := ℤ) ⟨Buf.ofList [1, 1, 2, 0, 0, 0, 0], 2, 2⟩
      ⟨Buf.ofList [3, 0, 1, 5, 0, 0, 0], 2, 2⟩).map (fun r => r.data.toList) =
    .ok [3, 3, 7, 5, 1, 0, 2] := by decide +kernel

/-! ## C18: antipode -/

/-- `antipode(a)` reverses every word, with sign `(-1)^length`. -/
theorem C18_antipode {w D : ℕ} {a : DenseTensor K} {f : Series (Fin w) K}
    (ha : a.Represents w D f) (hD : 1 ≤ D) :
    ∃ r, pyAntipode a = .ok r ∧ r.Represents w D (fun u => (-1) ^ u.length * f u.reverse) :=
  pyAntipode_rep ha hD

/-- The kernel between views of different degree bounds. -/
theorem C18_antipode_kernel {vo va : View} {out arg : Buf K} (hw : va.width = vo.width)
    (hvo : vo.Valid out.size) (hva : va.Valid arg.size)
    (h1 : max va.minDeg vo.minDeg ≤ 1 → 1 ≤ min va.maxDeg vo.maxDeg) :
    ∃ out', ftAntipode vo va out arg = some out' ∧ out'.size = out.size ∧
      (∀ u : List (Fin vo.width), max va.minDeg vo.minDeg ≤ u.length →
        u.length ≤ min va.maxDeg vo.maxDeg →
        out'.get (wordIndex u) = (-1) ^ u.length * arg.get (wordIndex u.reverse)) := by
  obtain ⟨out', h1, h2, h3, -⟩ := ftAntipode_word hw hvo hva h1
  exact ⟨out', h1, h2, h3⟩

/-- The antipode is an involution. -/
theorem C18_involution {w D : ℕ} {a : DenseTensor K} {f : Series (Fin w) K}
    (ha : a.Represents w D f) (hD : 1 ≤ D) :
    ∃ r, (pyAntipode a).andThen pyAntipode = .ok r ∧ r.data.toList = a.data.toList := by
  obtain ⟨s, e1, hs⟩ := pyAntipode_rep ha hD
  obtain ⟨r, e2, hr⟩ := pyAntipode_rep hs hD
  refine ⟨r, by rw [e1]; exact e2, toList_eq_of_represents hr ha ?_⟩
  rw [antipode_antipode]; exact EqUpTo.refl _ _

/-- The antipode is an anti-automorphism of `ft_mul`. -/
theorem C18_anti_automorphism {w D : ℕ} {a b : DenseTensor K} {f g : Series (Fin w) K}
    (ha : a.Represents w D f) (hb : b.Represents w D g) (hD : 1 ≤ D) :
    ∃ r s, (pyFtMul a b).andThen pyAntipode = .ok r ∧
      (pyAntipode b).andThen (fun sb => (pyAntipode a).andThen fun sa => pyFtMul sb sa) = .ok s ∧
      r.data.toList = s.data.toList := by
  obtain ⟨ab, e1, hab⟩ := C13_ft_mul ha hb
  obtain ⟨r, e2, hr⟩ := pyAntipode_rep hab hD
  obtain ⟨sa, e3, hsa⟩ := pyAntipode_rep ha hD
  obtain ⟨sb, e4, hsb⟩ := pyAntipode_rep hb hD
  obtain ⟨s, e5, hs⟩ := C13_ft_mul hsb hsa
  refine ⟨r, s, by rw [e1]; exact e2, by rw [e4]; simp only [Outcome.andThen]; rw [e3]; exact e5,
    toList_eq_of_represents hr hs ?_⟩
  rw [antipode_mul]; exact EqUpTo.refl _ _

example : (pyAntipode (K := ℤ) ⟨Buf.ofList [7, 1, 2, 3, 4, 5, 6], 2, 2⟩).map
    (fun r => r.data.toList) = .ok [7, -1, -2, 3, 5, 4, 6] := by decide +kernel

/-- Finding: at depth 0 the antipode touches the (non-existent) level 1. -/
theorem C18_depth_zero_refuted :
    pyAntipode (unitTensor ℤ 2 0) = .undefined ∧ (unitTensor ℤ 2 0).WF := by
  constructor
  · rfl
  · rfl

/-! ## C19: shuffle product -/

/-- `st_fma(a, b, c)` adds the shuffle product: the coefficient of `u` is increased by the sum of
`b(v) c(v')` over all ways of splitting the positions of `u` into two sub-words `v`, `v'`. -/
theorem C19_st_fma {w D : ℕ} {a b c : DenseTensor K} {e f g : Series (Fin w) K}
    (ha : a.Represents w D e) (hb : b.Represents w D f) (hc : c.Represents w D g) :
    ∃ r, pyStFma a b c = .ok r ∧ r.Represents w D
      (fun u => e u + ((splittings u).map fun p => f p.1 * g p.2).sum) :=
  pyStFma_rep ha hb hc le_rfl le_rfl

theorem C19_st_mul {w D : ℕ} {a b : DenseTensor K} {f g : Series (Fin w) K}
    (ha : a.Represents w D f) (hb : b.Represents w D g) :
    ∃ r, pyStMul a b = .ok r ∧ r.Represents w D
      (fun u => ((splittings u).map fun p => f p.1 * g p.2).sum) :=
  pyStMul_rep ha hb le_rfl

/-- The kernel, for general degree bounds: the words up to the degree bound of the left operand
are treated (the other two arguments have to be at least as deep). -/
theorem C19_kernel {vo vl vr : View} {out lhs rhs : Buf K}
    (hwl : vl.width = vo.width) (hwr : vr.width = vo.width)
    (hvo : vo.Valid out.size) (hvl : vl.Valid lhs.size) (hvr : vr.Valid rhs.size)
    (h0 : vo.minDeg = 0) (h0l : vl.minDeg = 0) (h0r : vr.minDeg = 0)
    (hlo : vl.maxDeg ≤ vo.maxDeg) (hlr : vl.maxDeg ≤ vr.maxDeg) :
    ∃ out', stFma id vo vl vr out lhs rhs = some out' ∧ out'.size = out.size ∧
      (∀ u : List (Fin vo.width), u.length ≤ vl.maxDeg → out'.get (wordIndex u) =
        out.get (wordIndex u) + ((splittings u).map fun p =>
          lhs.get (wordIndex p.1) * rhs.get (wordIndex p.2)).sum) ∧
      (∀ p, wordsBelow vo.width (vl.maxDeg + 1) ≤ p → out'.get p = out.get p) := by
  obtain ⟨out', h1, h2, h3, h4⟩ :=
    stFma_word (op := id) hwl hwr hvo hvl hvr h0 h0l h0r hlo hlr
  refine ⟨out', h1, h2, fun u hu => (h3 u hu).trans ?_, h4⟩
  refine congrArg (fun l : List K => out.get (wordIndex u) + l.sum)
    (List.map_congr_left fun p hp => ?_)
  have := splittings_length u p hp
  simp only [View.series, h0l, h0r]
  rw [if_pos ⟨Nat.zero_le _, by omega⟩, if_pos ⟨Nat.zero_le _, by omega⟩]

/-- The shuffle product computed by `st_mul` is commutative. -/
theorem C19_comm {w D : ℕ} {a b : DenseTensor K} {f g : Series (Fin w) K}
    (ha : a.Represents w D f) (hb : b.Represents w D g) :
    ∃ r s, pyStMul a b = .ok r ∧ pyStMul b a = .ok s ∧ r.data.toList = s.data.toList := by
  obtain ⟨r, e1, hr⟩ := pyStMul_rep ha hb le_rfl
  obtain ⟨s, e2, hs⟩ := pyStMul_rep hb ha le_rfl
  refine ⟨r, s, e1, e2, toList_eq_of_represents hr hs ?_⟩
  rw [shuffle_comm]; exact EqUpTo.refl _ _

/-- … associative … -/
theorem C19_assoc {w D : ℕ} {a b c : DenseTensor K} {f g h : Series (Fin w) K}
    (ha : a.Represents w D f) (hb : b.Represents w D g) (hc : c.Represents w D h) :
    ∃ r s, (pyStMul a b).andThen (fun ab => pyStMul ab c) = .ok r ∧
      (pyStMul b c).andThen (fun bc => pyStMul a bc) = .ok s ∧
      r.data.toList = s.data.toList := by
  obtain ⟨ab, e1, hab⟩ := pyStMul_rep ha hb le_rfl
  obtain ⟨bc, e2, hbc⟩ := pyStMul_rep hb hc le_rfl
  obtain ⟨r, e3, hr⟩ := pyStMul_rep hab hc le_rfl
  obtain ⟨s, e4, hs⟩ := pyStMul_rep ha hbc le_rfl
  refine ⟨r, s, by rw [e1]; exact e3, by rw [e2]; exact e4, toList_eq_of_represents hr hs ?_⟩
  rw [shuffle_assoc]; exact EqUpTo.refl _ _

/-- … and unital. -/
theorem C19_unit {w D : ℕ} {a : DenseTensor K} {f : Series (Fin w) K}
    (ha : a.Represents w D f) :
    ∃ r s, pyStMul a (unitTensor K w D) = .ok r ∧ pyStMul (unitTensor K w D) a = .ok s ∧
      r.data.toList = a.data.toList ∧ s.data.toList = a.data.toList := by
  obtain ⟨r, e1, hr⟩ := pyStMul_rep ha (unitTensor_represents w D) le_rfl
  obtain ⟨s, e2, hs⟩ := pyStMul_rep (unitTensor_represents w D) ha le_rfl
  refine ⟨r, s, e1, e2, toList_eq_of_represents hr ha ?_, toList_eq_of_represents hs ha ?_⟩
  · rw [shuffle_one]; exact EqUpTo.refl _ _
  · rw [shuffle_comm, shuffle_one]; exact EqUpTo.refl _ _

/-- The product used by the kernel is the recursively defined shuffle of words: the coefficient of
`z` in the product of the words `u` and `v` is the multiplicity of `z` among the interleavings
`(a u') ⧢ (b v') = a (u' ⧢ b v') + b (a u' ⧢ v')`. -/
theorem C19_word_shuffle {w D : ℕ} {a b : DenseTensor K} (u v : List (Fin w))
    (ha : a.Represents w D (Series.word K u)) (hb : b.Represents w D (Series.word K v)) :
    ∃ r, pyStMul a b = .ok r ∧
      r.Represents w D (fun z => (((shuffles u v).count z : ℕ) : K)) := by
  obtain ⟨r, e1, hr⟩ := pyStMul_rep ha hb le_rfl
  exact ⟨r, e1, hr.congr fun z _ => shuffle_word u v z⟩

/-- `e₁ ⧢ e₁ = 2 e₁e₁`, `e₁ ⧢ e₂ = e₁e₂ + e₂e₁`. -/
example : (pyStMul (K := ℤ) ⟨Buf.ofList [0, 1, 0, 0, 0, 0, 0], 2, 2⟩
      ⟨Buf.ofList [0, 1, 1, 0, 0, 0, 0], 2, 2⟩).map (fun r => r.data.toList) =
    .ok [0, 0, 0, 2, 1, 1, 0] := by decide +kernel

/-! ## C21: adjoint of left multiplication -/

/-- `⟨ft_adjoint_left_mul(a, f), x⟩ = ⟨f, a*x⟩`, the word pairing over words of length at most the
depth of `f`; `a` has at least that depth. -/
theorem C21_adjoint_partial {w Da D : ℕ} {a f : DenseTensor K} {α φ : Series (Fin w) K}
    (ha : a.Represents w Da α) (hf : f.Represents w D φ) (hD : D ≤ Da) :
    ∃ r, pyFtAdjointLeftMul a f = .ok r ∧ ∃ ρ, r.Represents w D ρ ∧
      ∀ x : Series (Fin w) K, pairing D ρ x = pairing D φ (α * x) := by
  obtain ⟨r, e1, hr⟩ := pyFtAdjointLeftMul_rep ha hf hD
  exact ⟨r, e1, _, hr, fun x => pairing_adjoint D α φ x⟩

/-- The same at the level of arrays: pair the result with any tensor `x`, or `f` with
`ft_mul(a, x)`. -/
theorem C21_adjoint_arrays_partial {w D : ℕ} {a f x : DenseTensor K}
    {α φ ξ : Series (Fin w) K}
    (ha : a.Represents w D α) (hf : f.Represents w D φ) (hx : x.Represents w D ξ) :
    ∃ r s, pyFtAdjointLeftMul a f = .ok r ∧ pyFtMul a x = .ok s ∧
      ∑ i ∈ range (wordsBelow w (D + 1)), r.data.get i * x.data.get i =
      ∑ i ∈ range (wordsBelow w (D + 1)), f.data.get i * s.data.get i := by
  obtain ⟨r, e1, ρ, hr, hp⟩ := C21_adjoint_partial ha hf le_rfl
  obtain ⟨s, e2, hs⟩ := C13_ft_mul ha hx
  refine ⟨r, s, e1, e2, ?_⟩
  have key : ∀ (p q : DenseTensor K) (π κ : Series (Fin w) K), p.Represents w D π →
      q.Represents w D κ →
      ∑ i ∈ range (wordsBelow w (D + 1)), p.data.get i * q.data.get i = pairing D π κ := by
    intro p q π κ hp hq
    have gen : ∀ d ≤ D + 1, ∑ i ∈ range (wordsBelow w d), p.data.get i * q.data.get i =
        ∑ n ∈ range d, sumWords n fun u => π u * κ u := by
      intro d
      induction d with
      | zero => intro _; rfl
      | succ d ih =>
        intro hd
        rw [sum_range_succ, wordsBelow_succ, sum_range_add, ih (by omega)]
        congr 1
        rw [sum_offsets (w := w) d (fun r => p.data.get (wordsBelow w d + r) *
          q.data.get (wordsBelow w d + r))]
        refine sumWords_congr fun u hu => ?_
        rw [← hp.coeff u (by omega), ← hq.coeff u (by omega), wordIndex, hu]
    exact gen (D + 1) le_rfl
  rw [key r x ρ ξ hr hx, key f s φ (α * ξ) hf hs]
  exact hp ξ

example : (pyFtAdjointLeftMul (K := ℤ) ⟨Buf.ofList [1, 2, 3, 0, 0, 0, 0], 2, 2⟩
      ⟨Buf.ofList [0, 10, 20, 1, 2, 3, 4], 2, 2⟩).map (fun r => r.data.toList) =
    .ok [80, 21, 36, 1, 2, 3, 4] := by decide +kernel

/-- Finding: when the operator is less deep than the functional, the levels of the functional
beyond the depth of the operator are ignored: with operator `2` (depth 0) and functional `e₁`
(depth 1) the adjoint should be `2 e₁`, but the computed pairing with `e₁` is `0`. -/
theorem C21_shallow_operator_refuted :
    let a : DenseTensor ℤ := ⟨Buf.ofList [2], 1, 0⟩
    let f : DenseTensor ℤ := ⟨Buf.ofList [0, 1], 1, 1⟩
    a.WF ∧ f.WF ∧ (pyFtAdjointLeftMul a f).map (fun r => r.data.toList) = .ok [0, 0] :=
  ⟨rfl, rfl, by decide +kernel⟩

/-! ## C56: adjoint of shuffle multiplication -/

/-- `⟨st_adj_mul(a, f), x⟩ = ⟨f, a ⧢ x⟩`, accumulated onto a zero output. -/
theorem C56_shuffle_adjoint {w D : ℕ} {op arg : Buf K}
    (h1 : wordsBelow w (D + 1) ≤ op.size) (h2 : wordsBelow w (D + 1) ≤ arg.size) :
    ∃ r, stAdjMul (.full w D) (.full w D) (.full w D) (Buf.zeros w D) op arg = some r ∧
      ∀ x : Series (Fin w) K, pairing D (r.ser w) x =
        pairing D (arg.ser w) (shuffle (op.ser w) x) := by
  obtain ⟨r, e1, e2, e3⟩ := stAdjMul_spec (vo := .full w D) (vp := .full w D) (va := .full w D)
    (out := Buf.zeros w D) (op := op) (arg := arg) rfl rfl ⟨le_rfl, le_rfl⟩ ⟨le_rfl, h1⟩
    ⟨le_rfl, h2⟩ rfl rfl rfl le_rfl le_rfl
  refine ⟨r, e1, fun x => ?_⟩
  rw [← pairing_shuffle_adjoint]
  unfold pairing
  refine sum_congr rfl fun n _ => sumWords_congr fun v _ => ?_
  congr 1
  refine (e3 (wordIndex v)).trans ?_
  show (0 : K) + _ = _
  rw [zero_add]
  refine sum_congr rfl fun m hm => sumWords_congr fun (u : List (Fin w)) hu => ?_
  have hm' : m < D + 1 := mem_range.1 hm
  congr 1
  refine List.map_congr_left fun (q : List (Fin w) × List (Fin w)) hq => ?_
  have hq' : q.1.length + q.2.length = u.length := splittings_length u q hq
  have hu' : u.length = m := hu
  have e : wordIndex v = wordIndex q.2 ↔ v = q.2 := ⟨fun h => wordIndex_inj h, fun h => by rw [h]⟩
  have s1 : (View.full w D).series w arg u = arg.ser w u := if_pos (And.intro (Nat.zero_le _)
    (show u.length ≤ D by omega))
  have s2 : (View.full w D).series w op q.1 = op.ser w q.1 := if_pos (And.intro (Nat.zero_le _)
    (show q.1.length ≤ D by omega))
  show (if wordIndex v = wordIndex q.2 then
    (View.full w D).series w arg u * (View.full w D).series w op q.1 else 0) = _
  by_cases h : v = q.2
  · rw [if_pos h, if_pos (e.2 h), s1, s2]
  · rw [if_neg h, if_neg (fun h' => h (e.1 h'))]

example : (stAdjMul (K := ℤ) (.full 2 2) (.full 2 2) (.full 2 2) (Buf.zeros 2 2)
    (Buf.ofList [0, 1, 0, 0, 0, 0, 0]) (Buf.ofList [0, 0, 0, 1, 10, 100, 1000])).map
    (fun r => r.toList) = some [0, 2, 110, 0, 0, 0, 0] := by decide +kernel

end ring

section field
variable {K : Type} [Field K] [CharZero K]

/-! ## C15: exponential -/

/-- `ft_exp(x)` is the exponential series `Σ xⁿ/n!` of `x` without its scalar part. -/
theorem C15_ft_exp {w D : ℕ} {x : DenseTensor K} {f : Series (Fin w) K}
    (hx : x.Represents w D f) :
    ∃ r, pyFtExp x w D = .ok r ∧ r.Represents w D (texp (noScalar f)) :=
  pyFtExp_rep hx le_rfl

/-- The kernel does not depend on what the output array held before. -/
theorem C15_kernel {w D : ℕ} {out arg : Buf K} (h1 : wordsBelow w (D + 1) ≤ out.size)
    (h2 : wordsBelow w (D + 1) ≤ arg.size) :
    ∃ out', ftExp (.full w D) (.full w D) out arg = some out' ∧ out'.size = out.size ∧
      ∀ u : List (Fin w), u.length ≤ D →
        out'.get (wordIndex u) = texp (noScalar (arg.ser w)) u := by
  obtain ⟨out', e1, e2, e3⟩ := ftExp_word (vo := .full w D) (va := .full w D) (out := out)
    (arg := arg) rfl ⟨le_rfl, h1⟩ ⟨le_rfl, h2⟩ rfl
  refine ⟨out', e1, e2, fun u hu => (e3 u hu).trans ?_⟩
  have : EqUpTo D ((argView w D D).positive w arg) (noScalar (arg.ser w)) := by
    rw [argView_positive]; exact noScalar_congr (trunc_eqUpTo le_rfl _)
  exact EqUpTo.texp this u hu

example : (pyFtExp (K := ℚ) ⟨Buf.ofList [9, 1, 2, 0, 0, 0, 1], 2, 2⟩ 2 2).map
    (fun r => r.data.toList) = .ok [1, 1, 2, 1/2, 1, 1, 3] := by decide +kernel

/-! ## C16: logarithm -/

/-- `ft_log(x)` is the logarithm series of `1 + x'`, `x'` being `x` without its scalar part. -/
theorem C16_ft_log {w D : ℕ} {x : DenseTensor K} {f : Series (Fin w) K}
    (hx : x.Represents w D f) :
    ∃ r, pyFtLog x w D = .ok r ∧ r.Represents w D (tlog (1 + noScalar f)) :=
  pyFtLog_rep hx le_rfl

theorem noScalar_of_nil {α : Type} {f : Series α K} (h : f [] = 0) : noScalar f = f := by
  funext u
  unfold noScalar
  split_ifs with hu
  · rw [hu, h]
  · rfl

theorem one_add_noScalar_of_nil {α : Type} {f : Series α K} (h : f [] = 1) :
    1 + noScalar f = f := by
  funext u
  rw [Series.add_apply]
  unfold noScalar
  cases u with
  | nil => rw [if_pos rfl, h]; show (1 : K) + 0 = 1; ring
  | cons a u => rw [if_neg (by simp)]; show (0 : K) + _ = _; ring

/-- `ft_log(ft_exp(x)) = x` for every tensor with zero scalar part. -/
theorem C16_log_exp {w D : ℕ} {x : DenseTensor K} {f : Series (Fin w) K}
    (hx : x.Represents w D f) (h0 : x.data.get 0 = 0) :
    ∃ r, (pyFtExp x w D).andThen (fun e => pyFtLog e w D) = .ok r ∧
      r.data.toList = x.data.toList := by
  have hf : f [] = 0 := by
    rw [← hx.coeff [] (Nat.zero_le _), wordIndex_nil]; exact h0
  obtain ⟨e, e1, he⟩ := pyFtExp_rep hx le_rfl
  obtain ⟨r, e2, hr⟩ := pyFtLog_rep he le_rfl
  refine ⟨r, by rw [e1]; exact e2, toList_eq_of_represents hr hx ?_⟩
  rw [noScalar_of_nil hf, one_add_noScalar_of_nil (texp_nil _), tlog_texp hf]
  exact EqUpTo.refl _ _

/-- `ft_exp(ft_log(g)) = g` for every tensor with scalar part one. -/
theorem C16_exp_log {w D : ℕ} {g : DenseTensor K} {f : Series (Fin w) K}
    (hg : g.Represents w D f) (h1 : g.data.get 0 = 1) :
    ∃ r, (pyFtLog g w D).andThen (fun l => pyFtExp l w D) = .ok r ∧
      r.data.toList = g.data.toList := by
  have hf : f [] = 1 := by
    rw [← hg.coeff [] (Nat.zero_le _), wordIndex_nil]; exact h1
  obtain ⟨e, e1, he⟩ := pyFtLog_rep hg le_rfl
  obtain ⟨r, e2, hr⟩ := pyFtExp_rep he le_rfl
  refine ⟨r, by rw [e1]; exact e2, toList_eq_of_represents hr hg ?_⟩
  rw [one_add_noScalar_of_nil hf, noScalar_of_nil (tlog_nil _), texp_tlog hf]
  exact EqUpTo.refl _ _

example : (pyFtLog (K := ℚ) ⟨Buf.ofList [1, 1, 2, 1/2, 1, 1, 3], 2, 2⟩ 2 2).map
    (fun r => r.data.toList) = .ok [0, 1, 2, 0, 0, 0, 1] := by decide +kernel

/-! ## C17: fused multiply-exponential -/

/-- `ft_fmexp(a, x)` is `a * exp(x')`, `x'` being `x` without its scalar part. -/
theorem C17_ft_fmexp {w D : ℕ} {a x : DenseTensor K} {f g : Series (Fin w) K}
    (ha : a.Represents w D f) (hx : x.Represents w D g) :
    ∃ r, pyFtFmexp a x w D = .ok r ∧ r.Represents w D (f * texp (noScalar g)) :=
  pyFtFmexp_rep ha hx le_rfl le_rfl

/-- The kernel does not depend on what the output array held before. -/
theorem C17_kernel {w D : ℕ} {out mul ex : Buf K} (h1 : wordsBelow w (D + 1) ≤ out.size)
    (h2 : wordsBelow w (D + 1) ≤ mul.size) (h3 : wordsBelow w (D + 1) ≤ ex.size) :
    ∃ out', ftFmexp (.full w D) (.full w D) (.full w D) out mul ex = some out' ∧
      out'.size = out.size ∧
      ∀ u : List (Fin w), u.length ≤ D → out'.get (wordIndex u) =
        (mul.ser w * texp (noScalar (ex.ser w))) u := by
  obtain ⟨out', e1, e2, e3⟩ := ftFmexp_word (vo := .full w D) (vm := .full w D)
    (vx := .full w D) (out := out) (mul := mul) (ex := ex) rfl rfl ⟨le_rfl, h1⟩ ⟨le_rfl, h2⟩
    ⟨le_rfl, h3⟩ rfl rfl
  refine ⟨out', e1, e2, fun u hu => (e3 u hu).trans ?_⟩
  have hp : EqUpTo D ((argView w D D).positive w ex) (noScalar (ex.ser w)) := by
    rw [argView_positive]; exact noScalar_congr (trunc_eqUpTo le_rfl _)
  have hs : EqUpTo D ((argView w D D).series w mul) (mul.ser w) := by
    rw [argView_series]; exact trunc_eqUpTo le_rfl _
  exact EqUpTo.mul hs (EqUpTo.texp hp) u hu

/-- It equals the two-step computation. -/
theorem C17_eq_mul_exp {w D : ℕ} {a x : DenseTensor K} {f g : Series (Fin w) K}
    (ha : a.Represents w D f) (hx : x.Represents w D g) :
    ∃ r s, pyFtFmexp a x w D = .ok r ∧
      (pyFtExp x w D).andThen (fun e => pyFtMul a e) = .ok s ∧
      r.data.toList = s.data.toList := by
  obtain ⟨r, e1, hr⟩ := C17_ft_fmexp ha hx
  obtain ⟨e, e2, he⟩ := C15_ft_exp hx
  obtain ⟨s, e3, hs⟩ := C13_ft_mul ha he
  exact ⟨r, s, e1, by rw [e2]; exact e3, toList_eq_of_represents hr hs (EqUpTo.refl _ _)⟩

example : (pyFtFmexp (K := ℚ) ⟨Buf.ofList [2, 1, 0, 0, 0, 0, 0], 2, 2⟩
    ⟨Buf.ofList [0, 1, 2, 0, 0, 0, 1], 2, 2⟩ 2 2).map
    (fun r => r.data.toList) = .ok [2, 3, 4, 2, 4, 2, 6] := by decide +kernel

/-! ## Signatures: C18 (second part) and C22 -/

/-- The signature of a sequence of increments, computed with the compute functions: start from
the unit and multiply by the exponential of each increment in turn.  This is what
`signature` does in the library (`algebra_lite_internal/lite_context.h`, `compute_signature`). -/
def pySignature (w D : ℕ) (xs : List (DenseTensor K)) : Outcome (DenseTensor K) :=
  xs.foldl (fun acc x => acc.andThen fun s => pyFtFmexp s x w D) (.ok (unitTensor K w D))

/-- each array holds (the truncation of) a Lie element -/
def LieArrays (w D : ℕ) (xs : List (DenseTensor K)) : Prop :=
  ∀ x ∈ xs, ∃ ℓ : Series (Fin w) K, IsLie ℓ ∧ x.Represents w D ℓ

theorem pySignature_rep {w D : ℕ} (xs : List (DenseTensor K)) (hxs : LieArrays w D xs) :
    ∃ ls : List (Series (Fin w) K), (∀ ℓ ∈ ls, IsLie ℓ) ∧
      ∃ r, pySignature w D xs = .ok r ∧ r.Represents w D ((ls.map fun ℓ => texp ℓ).prod) := by
  induction xs using List.reverseRecOn with
  | nil => exact ⟨[], by simp, _, rfl, by simpa using unitTensor_represents w D⟩
  | append_singleton xs x ih =>
    obtain ⟨ls, h1, r, e1, hr⟩ := ih fun y hy => hxs y (by simp [hy])
    obtain ⟨ℓ, hℓ, hx⟩ := hxs x (by simp)
    obtain ⟨s, e2, hs⟩ := C17_ft_fmexp hr hx
    rw [noScalar_of_nil hℓ.nil] at hs
    refine ⟨ls ++ [ℓ], ?_, s, ?_, ?_⟩
    · intro y hy
      rcases List.mem_append.1 hy with h | h
      · exact h1 y h
      · rw [List.mem_singleton.1 h]; exact hℓ
    · unfold pySignature at e1 ⊢
      rw [List.foldl_append, e1]
      exact e2
    · simpa using hs

/-- For every sequence of Lie increments the signature satisfies the shuffle identity: pairing
with the shuffle product of two words is the product of the pairings, as long as the words
together are not longer than the depth. -/
theorem C22_shuffle_identity {w D : ℕ} (xs : List (DenseTensor K)) (hxs : LieArrays w D xs) :
    ∃ s, pySignature w D xs = .ok s ∧ s.data.get 0 = 1 ∧
      ∀ u v : List (Fin w), u.length + v.length ≤ D →
        ((shuffles u v).map fun z => s.data.get (wordIndex z)).sum =
          s.data.get (wordIndex u) * s.data.get (wordIndex v) := by
  obtain ⟨ls, h1, s, e1, hs⟩ := pySignature_rep xs hxs
  have hg : GroupLike ((ls.map fun ℓ => texp ℓ).prod) := by
    clear e1 hs
    induction ls with
    | nil => simpa using groupLike_one
    | cons ℓ ls ih =>
      rw [List.map_cons, List.prod_cons]
      exact GroupLike.mul (h1 ℓ (by simp)).primitive.groupLike_texp
        (ih fun y hy => h1 y (by simp [hy]))
  refine ⟨s, e1, ?_, fun u v huv => ?_⟩
  · have := hs.coeff [] (Nat.zero_le _)
    rw [wordIndex_nil] at this
    rw [this, hg.1]
  · rw [hs.coeff u (by omega), hs.coeff v (by omega), ← hg.2 u v]
    unfold onShuffle
    congr 1
    refine List.map_congr_left fun z hz => ?_
    have := shuffles_length u v z hz
    exact hs.coeff z (by omega)

/-- The antipode of a signature is its inverse: `antipode(S) * S = S * antipode(S) = 1`. -/
theorem C18_inverts_signatures {w D : ℕ} (xs : List (DenseTensor K)) (hxs : LieArrays w D xs)
    (hD : 1 ≤ D) :
    ∃ s a p q, pySignature w D xs = .ok s ∧ pyAntipode s = .ok a ∧ pyFtMul a s = .ok p ∧
      pyFtMul s a = .ok q ∧ p.data.toList = (unitTensor K w D).data.toList ∧
      q.data.toList = (unitTensor K w D).data.toList := by
  obtain ⟨ls, h1, s, e1, hs⟩ := pySignature_rep xs hxs
  obtain ⟨a, e2, ha⟩ := pyAntipode_rep hs hD
  obtain ⟨p, e3, hp⟩ := C13_ft_mul ha hs
  obtain ⟨q, e4, hq⟩ := C13_ft_mul hs ha
  have key : antipode ((ls.map fun ℓ => texp ℓ).prod) * ((ls.map fun ℓ => texp ℓ).prod) = 1 ∧
      ((ls.map fun ℓ => texp ℓ).prod) * antipode ((ls.map fun ℓ => texp ℓ).prod) = 1 := by
    clear e1 hs e2 ha hp hq
    induction ls with
    | nil => simp [antipode_one]
    | cons ℓ ls ih =>
      have ih := ih fun y hy => h1 y (by simp [hy])
      have hℓ := h1 ℓ (by simp)
      have ha : antipode (texp ℓ) = texp (-ℓ) := by
        rw [← hℓ.antipode_eq]
        funext u
        rw [texp_apply]
        show (-1) ^ u.length * texp ℓ u.reverse = _
        rw [texp_apply, List.length_reverse, mul_sum]
        refine sum_congr rfl fun n _ => ?_
        rw [← antipode_pow]
        show _ = _ * ((-1) ^ u.length * (ℓ ^ n) u.reverse)
        ring
      rw [List.map_cons, List.prod_cons, antipode_mul, ha]
      constructor
      · rw [mul_assoc, ← mul_assoc (texp (-ℓ)), texp_neg_mul_texp hℓ.nil, one_mul, ih.1]
      · rw [mul_assoc, ← mul_assoc _ (antipode _), ih.2, one_mul, texp_mul_texp_neg hℓ.nil]
  have hu := unitTensor_represents (K := K) w D
  refine ⟨s, a, p, q, e1, e2, e3, e4, toList_eq_of_represents hp hu ?_,
    toList_eq_of_represents hq hu ?_⟩
  · rw [key.1]; exact EqUpTo.refl _ _
  · rw [key.2]; exact EqUpTo.refl _ _

/-- Two straight pieces `e₁` then `e₂`, depth 2. -/
example : (pySignature (K := ℚ) 2 2 [⟨Buf.ofList [0, 1, 0, 0, 0, 0, 0], 2, 2⟩,
    ⟨Buf.ofList [0, 0, 1, 0, 0, 0, 0], 2, 2⟩]).map (fun r => r.data.toList) =
    .ok [1, 1, 1, 1/2, 1, 0, 1/2] := by decide +kernel

example : LieArrays (K := ℚ) 2 2 [⟨Buf.ofList [0, 1, 0, 0, 0, 0, 0], 2, 2⟩] := by
  intro x hx
  rw [List.mem_singleton] at hx
  subst hx
  refine ⟨Series.letter ℚ 0, IsLie.letter 0, rfl, rfl, rfl, fun u hu => ?_⟩
  match u, hu with
  | [], _ => decide +kernel
  | [a], _ => revert a; decide +kernel
  | [a, b], _ => revert a b; decide +kernel

/-! ## C30: operands of different depth -/

/-- What does hold: `ft_mul` works for any two depths (the result has the depth of the left
operand, missing levels count as zero) … -/
theorem C30_ft_mul_partial {w Da Db : ℕ} {a b : DenseTensor K} {f g : Series (Fin w) K}
    (ha : a.Represents w Da f) (hb : b.Represents w Db g) :
    ∃ r, pyFtMul a b = .ok r ∧ r.Represents w Da (trunc Da f * trunc Db g) :=
  pyFtMul_rep ha hb

/-- … `ft_inplace_mul` if the right operand is at least as deep … -/
theorem C30_ft_inplace_mul_partial {w Da Db : ℕ} {a b : DenseTensor K} {f g : Series (Fin w) K}
    (ha : a.Represents w Da f) (hb : b.Represents w Db g) (hD : Da ≤ Db) :
    ∃ r, pyFtInplaceMul a b = .ok r ∧ r.Represents w Da (f * g) :=
  pyFtInplaceMul_rep ha hb hD

/-- … `ft_fma` if the middle operand is exactly as deep as the output and the last at least … -/
theorem C30_ft_fma_partial {w Da Dc : ℕ} {a b c : DenseTensor K} {e f g : Series (Fin w) K}
    (ha : a.Represents w Da e) (hb : b.Represents w Da f) (hc : c.Represents w Dc g)
    (h2 : Da ≤ Dc) :
    ∃ r, pyFtFma a b c = .ok r ∧ r.Represents w Da (e + f * g) := by
  obtain ⟨r, e1, hr⟩ := pyFtFma_rep ha hb hc (by omega) h2
  exact ⟨r, e1, hr.congr fun u hu => if_pos hu⟩

/-- … exponential, logarithm and fused multiply-exponential with an output basis that is not
deeper than the operands … -/
theorem C30_exp_log_fmexp_partial {w Da Dx Do : ℕ} {a x : DenseTensor K}
    {f g : Series (Fin w) K} (ha : a.Represents w Da f) (hx : x.Represents w Dx g)
    (h1 : Do ≤ Da) (h2 : Do ≤ Dx) :
    (∃ r, pyFtExp x w Do = .ok r ∧ r.Represents w Do (texp (noScalar g))) ∧
    (∃ r, pyFtLog x w Do = .ok r ∧ r.Represents w Do (tlog (1 + noScalar g))) ∧
    (∃ r, pyFtFmexp a x w Do = .ok r ∧ r.Represents w Do (f * texp (noScalar g))) :=
  ⟨pyFtExp_rep hx h2, pyFtLog_rep hx h2, pyFtFmexp_rep ha hx h1 h2⟩

/-- … and `st_mul`, `st_fma`, `ft_adjoint_left_mul` under the corresponding conditions. -/
theorem C30_shuffle_adjoint_partial {w Da Db Dc : ℕ} {a b c : DenseTensor K}
    {e f g : Series (Fin w) K} (ha : a.Represents w Da e) (hb : b.Represents w Db f)
    (hc : c.Represents w Dc g) (h1 : Da ≤ Db) (h2 : Da ≤ Dc) :
    (∃ r, pyStMul a b = .ok r ∧ r.Represents w Da (shuffle e f)) ∧
    (∃ r, pyStFma a b c = .ok r ∧ r.Represents w Da (e + shuffle f g)) ∧
    (∃ r, pyFtAdjointLeftMul b a = .ok r ∧ ∃ ρ, r.Represents w Da ρ ∧
      ∀ x : Series (Fin w) K, pairing Da ρ x = pairing Da e (f * x)) :=
  ⟨pyStMul_rep ha hb h1, pyStFma_rep ha hb hc h1 h2, C21_adjoint_partial hb ha h1⟩

/-- Findings.  (1) `ft_inplace_mul` with a shallower right operand leaves the higher levels of the
left operand unmultiplied: `(1 + e) * 2` over one letter gives `2 + e`.
(2) `ft_fma` sets the *output* depth from its last operand: `0 + e * 2` gives `0` on `e`.
(3), (4) `ft_exp` with a deeper output basis, `st_mul` with a shallower right operand, and
(5) `ft_fma` with an output shallower than both operands access memory outside the arrays. -/
theorem C30_refuted :
    (pyFtInplaceMul (K := ℚ) ⟨Buf.ofList [1, 1], 1, 1⟩ ⟨Buf.ofList [2], 1, 0⟩).map
      (fun r => r.data.toList) = .ok [2, 1] ∧
    (pyFtFma (K := ℚ) ⟨Buf.ofList [0, 0], 1, 1⟩ ⟨Buf.ofList [0, 1], 1, 1⟩
      ⟨Buf.ofList [2], 1, 0⟩).map (fun r => r.data.toList) = .ok [0, 0] ∧
    (pyFtExp (K := ℚ) ⟨Buf.ofList [0, 1], 1, 1⟩ 1 2).map (fun r => r.data.toList) = .undefined ∧
    (pyStMul (K := ℚ) ⟨Buf.ofList [1, 1], 1, 1⟩ ⟨Buf.ofList [1], 1, 0⟩).map
      (fun r => r.data.toList) = .undefined ∧
    (pyFtFma (K := ℚ) ⟨Buf.ofList [0], 1, 0⟩ ⟨Buf.ofList [0, 1], 1, 1⟩
      ⟨Buf.ofList [2, 1], 1, 1⟩).map (fun r => r.data.toList) = .undefined := by
  refine ⟨?_, ?_, ?_, ?_, ?_⟩ <;> decide +kernel

end field

end RoughPy.Tensor
