import Verif.Lie.ApplyLemmas
import Mathlib.LinearAlgebra.Dimension.Constructions

set_option linter.unusedSectionVars false

/-!
# The dimension of the truncated free Lie algebra

`lieSpace K w d` is the linear span of the nested brackets of at most `d` letters.  Its dimension is
the number of Hall polynomials of degree at most `d`.
-/

namespace RoughPy.Lie

open RoughPy.Tensor (Series)
open RoughPy.Tensor.Series (letter)

attribute [local instance] LieRing.ofAssociativeRing

/-- Nested brackets of `n` letters, as tensors. -/
inductive LieWord (K : Type*) [CommRing K] (w : ℕ) : ℕ → Series (Fin w) K → Prop
  | letter (i : Fin w) : LieWord K w 1 (letter K i)
  | bracket {m n : ℕ} {f g : Series (Fin w) K} :
    LieWord K w m f → LieWord K w n g → LieWord K w (m + n) (f * g - g * f)

/-- The free Lie algebra on `w` letters up to degree `d`: the span of the nested brackets of at most
`d` letters. -/
def lieSpace (K : Type*) [CommRing K] (w d : ℕ) : Submodule K (Series (Fin w) K) :=
  Submodule.span K {f | ∃ n ≤ d, LieWord K w n f}

variable {K : Type*} [Field K] {b : Basis}

theorem LieWord.pos {w n : ℕ} {f : Series (Fin w) K} (h : LieWord K w n f) : 0 < n := by
  induction h with
  | letter => omega
  | bracket _ _ h1 _ => omega

theorem hallPoly_lieWord (hb : IsHallTable b) : ∀ n k, 0 < n → HasDegree b k n →
    LieWord K b.width n (hallPoly K b k) := by
  intro n
  induction n using Nat.strong_induction_on with
  | _ n ih =>
    intro k hn hk
    by_cases h : 2 ≤ n
    · obtain ⟨i, j, p, q, c, h1, h2, h3, h4, h5, h6, -⟩ := hb.rows n k h hk
      rw [(hallTensors_hallPoly hb).bracket n k i j h hk h1]
      have := LieWord.bracket (ih p (by omega) i (by omega) h5) (ih q (by omega) j (by omega) h6)
      rwa [h4] at this
    · have : n = 1 := by omega
      subst this
      obtain ⟨h1, h2⟩ := hb.letter_iff.1 hk
      have h4 := hallPoly_letter (K := K) hb ⟨k - 1, by omega⟩
      simp only [Nat.sub_add_cancel h1] at h4
      rw [h4]
      exact LieWord.letter _

/-- The span of the Hall polynomials of degree `n`. -/
def degreeSpan (K : Type*) [CommRing K] (b : Basis) (n : ℕ) : Submodule K (Series (Fin b.width) K) :=
  Submodule.span K {f | ∃ k, HasDegree b k n ∧ f = hallPoly K b k}

theorem lieWord_mem (hb : IsHallTable b) {n : ℕ} {f : Series (Fin b.width) K}
    (h : LieWord K b.width n f) : n ≤ b.depth → f ∈ degreeSpan K b n := by
  induction h with
  | letter i =>
    intro _
    refine Submodule.subset_span ⟨i.val + 1, hb.letter_iff.2 ⟨by omega, by omega⟩, ?_⟩
    rw [hallPoly_letter hb]
  | @bracket m n f g h1 h2 ih1 ih2 =>
    intro hd
    have hf := ih1 (by omega)
    have hg := ih2 (by omega)
    have key : ∀ f ∈ degreeSpan K b m, ∀ g ∈ degreeSpan K b n,
        f * g - g * f ∈ degreeSpan K b (m + n) := by
      intro f hf g hg
      induction hf using Submodule.span_induction with
      | zero => simp
      | add x y _ _ hx hy =>
        have : (x + y) * g - g * (x + y) = (x * g - g * x) + (y * g - g * y) := by
          rw [add_mul, mul_add]; abel
        rw [this]
        exact Submodule.add_mem _ hx hy
      | smul c x _ hx =>
        have : (c • x) * g - g * (c • x) = c • (x * g - g * x) := by
          rw [smul_mul_assoc, mul_smul_comm, smul_sub]
        rw [this]
        exact Submodule.smul_mem _ _ hx
      | mem x hx =>
        obtain ⟨a, ha, rfl⟩ := hx
        induction hg using Submodule.span_induction with
        | zero => simp
        | add x y _ _ hx hy =>
          have : hallPoly K b a * (x + y) - (x + y) * hallPoly K b a =
              (hallPoly K b a * x - x * hallPoly K b a) + (hallPoly K b a * y - y * hallPoly K b a) := by
            rw [add_mul, mul_add]; abel
          rw [this]
          exact Submodule.add_mem _ hx hy
        | smul c x _ hx =>
          have : hallPoly K b a * (c • x) - (c • x) * hallPoly K b a =
              c • (hallPoly K b a * x - x * hallPoly K b a) := by
            rw [smul_mul_assoc, mul_smul_comm, smul_sub]
          rw [this]
          exact Submodule.smul_mem _ _ hx
        | mem x hx =>
          obtain ⟨c, hc, rfl⟩ := hx
          obtain ⟨r, hr⟩ := exists_expansion hb (hallPoly_isHallMap (K := K) hb)
            (hb.pos_of_degree ha h1.pos) (hb.pos_of_degree hc h2.pos) ha hc hd
          have hv := hr.value
          rw [LieRing.of_associative_ring_bracket] at hv
          rw [← hv]
          unfold Entry.value
          refine list_sum_mem fun x hx => ?_
          obtain ⟨t, ht, rfl⟩ := List.mem_map.1 hx
          have hm : hallPoly K b t.1 ∈ degreeSpan K b (m + n) :=
            Submodule.subset_span ⟨t.1, hr.keys t ht, rfl⟩
          exact zsmul_mem hm _
    exact key f hf g hg

/-- The Hall polynomials are linearly independent. -/
theorem IsHallTable.independent_all (hb : IsHallTable b) {N : ℕ} (hN : N < b.data.length) :
    LinearIndependent K fun k : Fin N => hallPoly K b (k.val + 1) := by
  classical
  rw [Fintype.linearIndependent_iff]
  intro g hg k
  obtain ⟨n, hn⟩ := hb.exists_degree (k := k.val + 1) (by omega)
  have hn0 := hb.degree_pos hn (by omega)
  have hnD : n ≤ b.depth := hn.1
  have hli := hb.independent (K := K) hn0 hnD
  rw [linearIndependent_iff'] at hli
  have := hli (Finset.subtype (fun k => HasDegree b k n) (Finset.range (N + 1)))
    (fun k => if h : k.1 - 1 < N then g ⟨k.1 - 1, h⟩ else 0) ?_ ⟨k.val + 1, hn⟩ ?_
  · simpa using this
  · have h1 := congrArg (part K b.width n) hg
    rw [map_sum, map_zero] at h1
    rw [← h1, Finset.sum_subtype_eq_sum_filter (p := fun k => HasDegree b k n)
      (f := fun c => (if h : c - 1 < N then g ⟨c - 1, h⟩ else 0) • part K b.width n (hallPoly K b c)),
      Finset.sum_filter, Finset.sum_range_succ', if_neg (fun h0 => ?_), add_zero, ← Fin.sum_univ_eq_sum_range]
    · refine Finset.sum_congr rfl fun j _ => ?_
      rw [map_smul]
      by_cases hj : HasDegree b (j.val + 1) n
      · rw [if_pos hj, dif_pos (by omega)]
        rfl
      · rw [if_neg hj]
        obtain ⟨m, hm⟩ := hb.exists_degree (k := j.val + 1) (by omega)
        have : part K b.width n (hallPoly K b (j.val + 1)) = 0 := by
          funext f
          exact hallPoly_homog hb m (j.val + 1) hm (hb.degree_pos hm (by omega)) _ (by
            rw [List.length_ofFn]
            exact fun h => hj (h ▸ hm))
        rw [this, smul_zero]
    · exact absurd (hb.pos_of_degree h0 hn0) (by omega)
  · rw [Finset.mem_subtype, Finset.mem_range]
    show k.val + 1 < _
    omega

theorem lieSpace_eq (hb : IsHallTable b) {d : ℕ} (hd : d ≤ b.depth) :
    lieSpace K b.width d =
      Submodule.span K (Set.range fun k : Fin (b.start (d + 1) - 1) => hallPoly K b (k.val + 1)) := by
  apply le_antisymm
  · unfold lieSpace
    rw [Submodule.span_le]
    rintro f ⟨n, hn, hf⟩
    have h := lieWord_mem hb hf (by omega)
    refine Submodule.span_le.2 ?_ h
    rintro g ⟨k, hk, rfl⟩
    have h0 := hb.pos_of_degree hk hf.pos
    have h1 := (hb.hasDegree_iff.1 hk).2.2
    have h2 := hb.start_mono (c := n + 1) (d := d + 1) (by omega) (by omega)
    refine Submodule.subset_span ⟨⟨k - 1, by omega⟩, ?_⟩
    show hallPoly K b (k - 1 + 1) = _
    rw [Nat.sub_add_cancel h0]
  · rw [Submodule.span_le]
    rintro f ⟨k, rfl⟩
    have hk := k.isLt
    have h2 := hb.start_mono (c := d + 1) (d := b.depth + 1) (by omega) (by omega)
    rw [hb.start_last] at h2
    obtain ⟨n, hn⟩ := hb.exists_degree (k := k.val + 1) (by omega)
    have hn0 := hb.degree_pos hn (by omega)
    refine Submodule.subset_span ⟨n, ?_, hallPoly_lieWord hb n _ hn0 hn⟩
    by_contra hlt
    have h3 := (hb.hasDegree_iff.1 hn).2.1
    have h4 := hb.start_mono (c := d + 1) (d := n) (by omega) (by have := hn.1; omega)
    omega

/-- The dimension of the free Lie algebra up to degree `d` is the number of rows up to that
degree. -/
theorem finrank_lieSpace (hb : IsHallTable b) {d : ℕ} (hd : d ≤ b.depth) :
    Module.finrank K (lieSpace K b.width d) = b.start (d + 1) - 1 := by
  have h2 := hb.start_mono (c := d + 1) (d := b.depth + 1) (by omega) (by omega)
  rw [hb.start_last] at h2
  have h1 := hb.one_le_length
  rw [lieSpace_eq hb hd, finrank_span_eq_card (hb.independent_all (by omega)), Fintype.card_fin]

end RoughPy.Lie
