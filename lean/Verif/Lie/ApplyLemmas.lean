import Verif.Lie.T2LLemmas
import Verif.Lie.MapSpec

set_option linter.unusedSectionVars false

/-!
# Applying the two matrices
-/

namespace RoughPy.Lie

open RoughPy.Tensor (Buf Series wordIndex wordOffset wordsBelow wordIndex_inj sumWords)
open RoughPy.Tensor.Series (rb letter PrimUpTo)
open RoughPy.Sparse

attribute [local instance] LieRing.ofAssociativeRing

/-! ## The keys as tensors -/

theorem hallTensors_hallPoly {K : Type*} [CommRing K] {b : Basis} (hb : IsHallTable b) : HallTensors b (hallPoly K b) :=
  ⟨hallPoly_letter hb, fun n k i j h1 h2 h3 => hallPoly_isHallMap hb n k i j h1 h2 h3⟩

theorem HallTensors.eq {K : Type*} [CommRing K] {b : Basis} (hb : IsHallTable b) {e : ℕ → Series (Fin b.width) K}
    (he : HallTensors b e) : ∀ n k, 0 < n → HasDegree b k n → e k = hallPoly K b k := by
  intro n
  induction n using Nat.strong_induction_on with
  | _ n ih =>
    intro k hn hk
    by_cases h : 2 ≤ n
    · obtain ⟨i, j, p, q, c, h1, h2, h3, h4, h5, h6, -⟩ := hb.rows n k h hk
      rw [he.bracket n k i j h hk h1, (hallTensors_hallPoly hb).bracket n k i j h hk h1, ih p (by omega) i (by omega) h5,
        ih q (by omega) j (by omega) h6]
    · have : n = 1 := by omega
      subst this
      obtain ⟨h1, h2⟩ := hb.letter_iff.1 hk
      have h3 := he.letter ⟨k - 1, by omega⟩
      have h4 := hallPoly_letter (K := K) hb ⟨k - 1, by omega⟩
      simp only [Nat.sub_add_cancel h1] at h3 h4
      rw [h3, h4]

variable {K : Type} [Field K] [DecidableEq K]

theorem HallTensors.lieValue_eq {b : Basis} (hb : IsHallTable b) {e : ℕ → Series (Fin b.width) K}
    (he : HallTensors b e) (x : Buf K) : lieValue b e x = lieValue b (hallPoly K b) x := by
  unfold lieValue
  refine Finset.sum_congr rfl fun k hk => ?_
  rw [Finset.mem_range] at hk
  obtain ⟨n, hn⟩ := hb.exists_degree (k := k + 1) (by omega)
  rw [he.eq hb n (k + 1) (hb.degree_pos hn (by omega)) hn]

theorem hallPoly_isLie {b : Basis} (hb : IsHallTable b) : ∀ n k, 0 < n → HasDegree b k n →
    Tensor.Series.IsLie (hallPoly K b k) := by
  intro n
  induction n using Nat.strong_induction_on with
  | _ n ih =>
    intro k hn hk
    by_cases h : 2 ≤ n
    · obtain ⟨i, j, p, q, c, h1, h2, h3, h4, h5, h6, -⟩ := hb.rows n k h hk
      rw [(hallTensors_hallPoly hb).bracket n k i j h hk h1]
      exact Tensor.Series.IsLie.bracket (ih p (by omega) i (by omega) h5) (ih q (by omega) j (by omega) h6)
    · have : n = 1 := by omega
      subst this
      obtain ⟨h1, h2⟩ := hb.letter_iff.1 hk
      have h4 := hallPoly_letter (K := K) hb ⟨k - 1, by omega⟩
      simp only [Nat.sub_add_cancel h1] at h4
      rw [h4]
      exact Tensor.Series.IsLie.letter _

theorem isLie_sum {α ι : Type*} [DecidableEq α] (s : Finset ι) (F : ι → Series α K) (h : ∀ i ∈ s, Tensor.Series.IsLie (F i)) :
    Tensor.Series.IsLie (∑ i ∈ s, F i) := by
  classical
  induction s using Finset.induction_on with
  | empty => exact Tensor.Series.IsLie.zero
  | insert i s hi ih =>
    rw [Finset.sum_insert hi]
    exact Tensor.Series.IsLie.add (h i (Finset.mem_insert_self ..)) (ih fun j hj => h j (Finset.mem_insert_of_mem hj))

theorem lieValue_isLie {b : Basis} (hb : IsHallTable b) (x : Buf K) : Tensor.Series.IsLie (lieValue b (hallPoly K b) x) := by
  refine isLie_sum _ _ fun k hk => ?_
  rw [Finset.mem_range] at hk
  obtain ⟨n, hn⟩ := hb.exists_degree (k := k + 1) (by omega)
  exact Tensor.Series.IsLie.smul _ (hallPoly_isLie hb n _ (hb.degree_pos hn (by omega)) hn)

/-! ## Dimensions -/

theorem IsHallTable.start_le {b : Basis} (hb : IsHallTable b) : ∀ d, d ≤ b.depth → b.start (d + 1) ≤ wordsBelow b.width (d + 1) := by
  intro d
  induction d with
  | zero => intro _; rw [hb.start_one]; simp [wordsBelow]
  | succ d ih =>
    intro hd
    have h1 := ih (by omega)
    have h2 := hb.card_degree (d := d + 1) (by omega) hd
    have h3 := hb.witt_sum (n := d + 1) (by omega) hd
    have h4 := hb.start_mono (c := d + 1) (d := d + 2) (by omega) (by omega)
    have h5 : ((Finset.Ico 1 b.data.length).filter fun k => b.deg k = d + 1).card ≤ b.width ^ (d + 1) := by
      have : ((((Finset.Ico 1 b.data.length).filter fun k => b.deg k = d + 1).card : ℕ) : ℤ) ≤ (b.width : ℤ) ^ (d + 1) := by
        rw [← h3, Finset.card_eq_sum_ones]
        push_cast
        refine le_trans (Finset.sum_le_sum (g := fun k => (b.deg k : ℤ)) ?_) (Finset.sum_le_sum_of_subset_of_nonneg ?_ ?_)
        · intro k hk
          rw [Finset.mem_filter] at hk
          rw [hk.2]
          push_cast
          omega
        · intro k hk
          rw [Finset.mem_filter] at hk ⊢
          exact ⟨hk.1, by rw [hk.2]⟩
        · intro k _ _
          omega
      exact_mod_cast this
    rw [h2] at h5
    have h6 : wordsBelow b.width (d + 2) = wordsBelow b.width (d + 1) + b.width ^ (d + 1) := Tensor.wordsBelow_succ (d + 1)
    show b.start (d + 2) ≤ wordsBelow b.width (d + 2)
    have h7 : b.start (d + 1 + 1) = b.start (d + 2) := rfl
    rw [h7] at h5
    omega

theorem IsHallTable.lie_lt_tensor {b : Basis} (hb : IsHallTable b) :
    b.data.length - 1 < wordsBelow b.width (b.depth + 1) := by
  have h1 := hb.start_le b.depth le_rfl
  rw [hb.start_last] at h1
  have h2 := hb.one_le_length
  omega

/-- Application of a column matrix, through the check of the shapes. -/
theorem applyChecked_ok {m : Matrix K} {M : ℕ → ℕ → K} {rows cols : ℕ} (hs : Stores m cols M) (hr : m.rows = rows) (hc : m.cols = cols)
    (hf : m.csc = true) (hne : rows ≠ cols) (hM : ∀ j i, j < cols → M j i ≠ 0 → i < rows) {op : K → K} (h0 : op 0 = 0)
    {out arg : Buf K} (hout : out.size = rows) (harg : arg.size = cols) :
    ∃ r, applyChecked m op out arg = some r ∧ r.size = rows ∧
      ∀ i, r.get i = out.get i + ∑ j ∈ Finset.range cols, op (M j i * arg.get j) := by
  subst hc
  obtain ⟨r, r1, r2, r3⟩ := apply_csc hs hf h0 (out := out) (arg := arg) (fun j i hj h => by rw [hout]; exact hM j i hj h)
    (by omega)
  refine ⟨r, ?_, by rw [r2, hout], r3⟩
  have hl := hs.offsets
  unfold applyChecked chooseFormat
  rw [if_neg (by omega), if_neg (by omega), if_neg (by omega), if_neg (by omega), if_pos hl]
  simp only [Option.bind_eq_bind, Option.bind_some]
  have : ({ m with csc := true } : Matrix K) = m := by rw [← hf]
  rw [this]
  exact r1

theorem sum_apply_series {α ι : Type*} (s : Finset ι) (F : ι → Series α K) (z : List α) : (∑ i ∈ s, F i) z = ∑ i ∈ s, F i z :=
  Tensor.Series.sum_apply s F z

theorem smul_apply_series {α : Type*} (c : K) (f : Series α K) (z : List α) : (c • f) z = c * f z := rfl

/-- `lie_to_tensor` is the linear map given by the Hall polynomials. -/
theorem lieToTensor_ok {b : Basis} (hb : IsHallTable b) (hw : 0 < b.width) (scale : Option K) {x : Buf K}
    (hx : x.size = b.data.length - 1) :
    ∃ r, lieToTensor b (wordsBelow b.width (b.depth + 1)) scale x = some r ∧ r.size = wordsBelow b.width (b.depth + 1) ∧
      ∀ z : List (Fin b.width), r.get (wordIndex z) = factor scale * lieValue b (hallPoly K b) x z := by
  obtain ⟨m, cols, h1, h2, h3, h4, h5, h6, h7⟩ := l2tMatrix_ok (K := K) hb hw
  have hget : ∀ j, j < b.data.length - 1 → ∃ c, cols[j]? = some c := fun j hj => ⟨_, List.getElem?_eq_getElem (by omega)⟩
  let M : ℕ → ℕ → K := fun j i => match cols[j]? with | none => 0 | some c => coeff c i
  have hM : ∀ f c, cols[f]? = some c → ∀ i, coeff c i = M f i := by
    intro f c hc i
    show _ = (match cols[f]? with | none => 0 | some c => coeff c i)
    rw [hc]
  have hlt := hb.lie_lt_tensor
  obtain ⟨r, r1, r2, r3⟩ := applyChecked_ok (h2.stores h4 hM) h5 h6 h7 (by omega) (by
    intro j i hj hne
    obtain ⟨c, hc⟩ := hget j hj
    rw [← hM j c hc] at hne
    obtain ⟨e, he, hei⟩ : ∃ e ∈ c, e.1 = i := by
      by_contra hcon
      exact hne (coeff_eq_zero fun e he h => hcon ⟨e, he, h⟩)
    obtain ⟨z, hz1, hz2⟩ := (h3 j c hc).words e he
    rw [← hei, hz1]
    apply Tensor.wordIndex_lt
    rw [hz2]
    obtain ⟨n, hn⟩ := hb.exists_degree (k := j + 1) (by omega)
    rw [hb.deg_eq hn]
    exact hn.1) (op := fun v => factor scale * v) (by simp)
    (out := ⟨wordsBelow b.width (b.depth + 1), fun _ => 0⟩) (arg := x) rfl hx
  refine ⟨r, ?_, r2, fun z => ?_⟩
  · unfold lieToTensor
    rw [h1, Option.bind_eq_bind, Option.bind_some]
    refine Eq.trans (congrArg (fun f => applyChecked m f _ x) ?_) r1
    funext v
    cases scale with
    | none => exact (one_mul v).symm
    | some s => rfl
  · rw [r3]
    show 0 + _ = _
    rw [zero_add, ← Finset.mul_sum]
    congr 1
    unfold lieValue
    rw [sum_apply_series]
    refine Finset.sum_congr rfl fun j hj => ?_
    rw [Finset.mem_range] at hj
    obtain ⟨c, hc⟩ := hget j hj
    rw [← hM j c hc, (h3 j c hc).coeff, smul_apply_series, mul_comm]

theorem sum_wordsBelow {w : ℕ} {M : Type*} [AddCommMonoid M] (F : ℕ → M) (d : ℕ) :
    ∑ i ∈ Finset.range (wordsBelow w d), F i = ∑ n ∈ Finset.range d, sumWords n fun u : List (Fin w) => F (wordIndex u) := by
  induction d with
  | zero => rfl
  | succ d ih =>
    rw [Finset.sum_range_succ, Tensor.wordsBelow_succ, Finset.sum_range_add, ih]
    congr 1
    rw [Tensor.sum_offsets (w := w) d (fun r => F (wordsBelow w d + r))]
    refine Tensor.sumWords_congr fun u hu => ?_
    rw [wordIndex, hu]

theorem size_eq {b : Basis} (hb : IsHallTable b) : b.size = some ((b.data.length : ℤ) - 1) := by
  unfold Basis.size Basis.trueSize
  rw [hb.db_last]
  rfl

/-- `tensor_to_lie` applies the Dynkin operator. -/
theorem tensorToLie_ok [CharZero K] {w : ℕ} {b : Basis} (hb : IsHallTable b) (hw : 0 < b.width) (hstd : Standard w b) {cache : Cache}
    (hist : History (Standard w) cache) (scale : Option K) {t : Buf K} (ht : t.size = wordsBelow b.width (b.depth + 1)) :
    ∃ n₀ cache' y, (∀ fuel, n₀ ≤ fuel → tensorToLie b fuel cache scale t = some (y, cache')) ∧ History (Standard w) cache' ∧
      y.size = b.data.length - 1 ∧ lieValue b (hallPoly K b) y = factor scale • ∑ n ∈ Finset.range (b.depth + 1),
        sumWords n fun u : List (Fin b.width) => (t.get (wordIndex u) / (n : K)) • rb K u := by
  obtain ⟨n₀, cache', m, cols, h1, h2, h3, h4, h5, h6, h7, h8⟩ := t2lMatrix_ok (K := K) hb hw hstd hist
  let M : ℕ → ℕ → K := fun j i => match cols[j]? with | none => 0 | some c => coeff c i
  have hM : ∀ f c, cols[f]? = some c → ∀ i, coeff c i = M f i := by
    intro f c hc i
    show _ = (match cols[f]? with | none => 0 | some c => coeff c i)
    rw [hc]
  have hlt := hb.lie_lt_tensor
  have hkeys : ∀ (j : ℕ) (c : List (ℕ × K)), cols[j]? = some c → ∀ e ∈ c, e.1 < b.data.length - 1 := by
    intro j c hc e he
    have hj : j < cols.length := (List.getElem?_eq_some_iff.1 hc).1
    rw [h5] at hj
    obtain ⟨z, hz1, hz2⟩ := Tensor.exists_wordIndex hj
    have := ((h4.keys z c (by rw [hz2]; exact hc)) e he).lt hb
    omega
  obtain ⟨r, r1, r2, r3⟩ := applyChecked_ok (h3.stores h5 hM) h6 h7 h8 (by omega) (by
    intro j i hj hne
    have hc : cols[j]? = some cols[j] := List.getElem?_eq_getElem (by omega)
    rw [← hM j _ hc] at hne
    obtain ⟨e, he, hei⟩ : ∃ e ∈ cols[j], e.1 = i := by
      by_contra hcon
      exact hne (coeff_eq_zero fun e he h => hcon ⟨e, he, h⟩)
    rw [← hei]
    exact hkeys j _ hc e he) (op := fun v => factor scale * v) (by simp)
    (out := ⟨b.data.length - 1, fun _ => 0⟩) (arg := t) rfl ht
  refine ⟨n₀, cache', r, fun fuel hf => ?_, h2, r2, ?_⟩
  · unfold tensorToLie
    rw [h1 fuel hf, Option.bind_eq_bind, Option.bind_some, size_eq hb, Option.bind_eq_bind, Option.bind_some]
    have : ((b.data.length : ℤ) - 1).toNat = b.data.length - 1 := by omega
    rw [this]
    dsimp only
    refine Eq.trans (congrArg (fun f => (applyChecked m f _ t).bind fun r => some (r, cache')) (?_ : _ = fun v => factor scale * v)) ?_
    · funext v
      cases scale with
      | none => exact (one_mul v).symm
      | some s => rfl
    · rw [r1]
      rfl
  · unfold lieValue
    have hy : ∀ k, r.get k = factor scale * ∑ j ∈ Finset.range (wordsBelow b.width (b.depth + 1)), M j k * t.get j := by
      intro k
      rw [r3]
      show 0 + _ = _
      rw [zero_add, Finset.mul_sum]
    simp only [hy, mul_smul]
    rw [← Finset.smul_sum]
    congr 1
    simp only [Finset.sum_smul]
    rw [Finset.sum_comm, sum_wordsBelow]
    refine Finset.sum_congr rfl fun n hn => Tensor.sumWords_congr fun u hu => ?_
    rw [Finset.mem_range] at hn
    have hlt : wordIndex u < cols.length := by
      rw [h5]
      exact Tensor.wordIndex_lt (by omega)
    have hc : cols[wordIndex u]? = some cols[wordIndex u] := List.getElem?_eq_getElem hlt
    have hv := h4.value u _ hc
    rw [valOf_coeff b (hkeys _ _ hc)] at hv
    calc ∑ k ∈ Finset.range (b.data.length - 1), (M (wordIndex u) k * t.get (wordIndex u)) • hallPoly K b (k + 1)
        = t.get (wordIndex u) • ∑ k ∈ Finset.range (b.data.length - 1), coeff cols[wordIndex u] k • hallPoly K b (k + 1) := by
          rw [Finset.smul_sum]
          refine Finset.sum_congr rfl fun k _ => ?_
          rw [← hM _ _ hc, mul_comm, mul_smul]
      _ = (t.get (wordIndex u) / (n : K)) • rb K u := by
          rw [hv, smul_smul, hu, mul_one_div]

theorem sumWords_series {α : Type*} [Fintype α] (n : ℕ) (F : List α → Series α K) (z : List α) :
    sumWords n F z = sumWords n fun u => F u z := by
  induction n generalizing F with
  | zero => rfl
  | succ n ih =>
    rw [sumWords, sumWords, sum_apply_series]
    exact Finset.sum_congr rfl fun a _ => ih _

/-- The Dynkin operator with its normalisation fixes primitive tensors. -/
theorem dynkin_fixes [CharZero K] {w D : ℕ} {p : Series (Fin w) K} (hp : PrimUpTo D p) {z : List (Fin w)} (hz : z.length ≤ D)
    {t : Buf K} (ht : ∀ u : List (Fin w), u.length ≤ D → t.get (wordIndex u) = p u) :
    (∑ n ∈ Finset.range (D + 1), sumWords n fun u : List (Fin w) => (t.get (wordIndex u) / (n : K)) • rb K u) z = p z := by
  rw [sum_apply_series, Finset.sum_eq_single z.length]
  · rw [sumWords_series]
    have h1 : sumWords z.length (fun u : List (Fin w) => ((t.get (wordIndex u) / (z.length : K)) • rb K u) z) =
        sumWords z.length (fun u => (1 / (z.length : K)) * (p u * rb K u z)) := by
      refine Tensor.sumWords_congr fun u hu => ?_
      rw [smul_apply_series, ht u (by omega)]
      ring
    rw [h1, Tensor.sumWords_mul_left, hp.dynkin hz]
    by_cases h0 : z.length = 0
    · rw [List.length_eq_zero_iff.1 h0, hp.1]
      simp
    · have : (z.length : K) ≠ 0 := Nat.cast_ne_zero.2 h0
      field_simp
  · intro n _ hn
    rw [sumWords_series]
    have h1 : sumWords n (fun u : List (Fin w) => ((t.get (wordIndex u) / (n : K)) • rb K u) z) =
        sumWords n (fun _ : List (Fin w) => (0 : K)) := by
      refine Tensor.sumWords_congr fun u hu => ?_
      rw [smul_apply_series, Tensor.Series.rb_ne_length _ _ (by omega), mul_zero]
    rw [h1, Tensor.sumWords_zero]
  · intro h
    exact absurd (Finset.mem_range.2 (by omega)) h

theorem lieValue_sub (b : Basis) {w : ℕ} (e : ℕ → Series (Fin w) K) (x y : Buf K) (z : List (Fin w)) :
    lieValue b e x z - lieValue b e y z = ∑ k ∈ Finset.range (b.data.length - 1), (x.get k - y.get k) * e (k + 1) z := by
  unfold lieValue
  rw [sum_apply_series, sum_apply_series, ← Finset.sum_sub_distrib]
  refine Finset.sum_congr rfl fun k _ => ?_
  rw [smul_apply_series, smul_apply_series]
  ring

/-- Coordinates are determined by the tensor. -/
theorem coords_unique [CharZero K] {b : Basis} (hb : IsHallTable b) {x y : Buf K}
    (h : ∀ z : List (Fin b.width), z.length ≤ b.depth → lieValue b (hallPoly K b) x z = lieValue b (hallPoly K b) y z) :
    ∀ k < b.data.length - 1, x.get k = y.get k := by
  intro k hk
  obtain ⟨n, hn⟩ := hb.exists_degree (k := k + 1) (by omega)
  have hn0 := hb.degree_pos hn (by omega)
  have hnD : n ≤ b.depth := by have := hn.1; omega
  have hli := hb.independent (K := K) hn0 hnD
  rw [linearIndependent_iff'] at hli
  classical
  have := hli (Finset.subtype _ (Finset.range b.data.length)) (fun k => x.get (k.1 - 1) - y.get (k.1 - 1)) ?_ ⟨k + 1, hn⟩ ?_
  · simpa [sub_eq_zero] using this
  · funext f
    rw [Finset.sum_apply]
    have hz : (List.ofFn f).length = n := List.length_ofFn
    have h1 := lieValue_sub b (hallPoly K b) x y (List.ofFn f)
    rw [h _ (by omega), sub_self] at h1
    show ∑ c ∈ Finset.subtype (fun k => HasDegree b k n) (Finset.range b.data.length), (x.get (c.1 - 1) - y.get (c.1 - 1)) * hallPoly K b c.1 (List.ofFn f) = 0
    rw [h1, Finset.sum_subtype_eq_sum_filter (p := fun k => HasDegree b k n)
      (f := fun c => (x.get (c - 1) - y.get (c - 1)) * hallPoly K b c (List.ofFn f))]
    obtain ⟨N, hN⟩ : ∃ N, b.data.length = N + 1 := ⟨b.data.length - 1, by have := hb.one_le_length; omega⟩
    rw [hN, Nat.add_sub_cancel, Finset.sum_filter, Finset.sum_range_succ', if_neg (fun h0 => ?_), add_zero]
    · refine Finset.sum_congr rfl fun j hj => ?_
      rw [Finset.mem_range] at hj
      split_ifs with hjn
      · rw [Nat.add_sub_cancel]
      · obtain ⟨m, hm⟩ := hb.exists_degree (k := j + 1) (by omega)
        rw [hallPoly_homog hb m (j + 1) hm (hb.degree_pos hm (by omega)) _ (fun h => hjn (by rwa [← hz, h])), mul_zero]
    · exact absurd (hb.pos_of_degree h0 hn0) (by omega)
  · rw [Finset.mem_subtype, Finset.mem_range]
    show k + 1 < _
    omega

end RoughPy.Lie
