import Verif.TensorFn.Lemmas

/-!
# C141, C142: `tensor_functions.Log` and `TensorTensorProduct`
-/

namespace RoughPy.TensorFn

open Tensor Finset

variable {α K : Type} [DecidableEq α] [Field K] [DecidableEq K]

/-! ## C141 -/

section

variable [CharZero K]

theorem tlog_one_letter {f : Series α K} (hf : f [] = 1) (a : α) : Series.tlog f [a] = f [a] := by
  rw [Series.tlog_apply]
  simp [Finset.sum_range_succ, Series.sub_apply, Series.one_cons]

theorem mul_two_letters (f g : Series α K) (a b : α) :
    (f * g) [a, b] = f [] * g [a, b] + f [a] * g [b] + f [a, b] * g [] := by
  rw [Series.mul_apply]
  simp [Finset.sum_range_succ]

theorem tlog_two_letters {f : Series α K} (hf : f [] = 1) (a b : α) :
    Series.tlog f [a, b] = f [a, b] - f [a] * f [b] / 2 := by
  rw [Series.tlog_apply]
  simp only [List.length_cons, List.length_nil, Finset.sum_range_succ, Finset.sum_range_zero, pow_one, pow_two,
    mul_two_letters, Series.sub_apply, Series.one_cons, Series.one_nil, hf]
  simp
  ring

/-- `GroupLikeUpTo 2`: the symmetric part in degree two is the square of the part in degree one. -/
theorem groupLike_two {f : Series α K} (h : GroupLikeUpTo 2 f) (a b : α) : f [a, b] + f [b, a] = f [a] * f [b] := by
  have := h.2 [a] [b] (by simp)
  simpa [Series.onShuffle, shuffles] using this

/-- **C141** (part): in contexts of depth at most two, `Log` of a group-like element is the truncated logarithm —
provided that, at depth two, the element is not the exponential of an element without part in degree one.

Missing: these elements (`C141_trivial_refuted`) and depths from three on (`C141_deep_refuted`). -/
theorem C141_log_partial {D : ℕ} (hD : D ≤ 2) {x : Items α K} (hx : Element D x)
    (hg : GroupLikeUpTo D (series x)) (hn : D = 2 → ∃ a, series x [a] ≠ 0) :
    ∃ y, Log D x = some y ∧ series y = Series.trunc D (Series.tlog (series x)) := by
  by_cases h2 : D = 2
  · subst h2
    obtain ⟨a, ha⟩ := hn rfl
    obtain ⟨h3, h4⟩ := log_two hx
    cases hl : Log 2 x with
    | none =>
      exfalso
      have h5 := h3.1 hl a a
      have h6 := groupLike_two hg a a
      rw [series] at h6
      rw [h5] at h6
      exact ha (by simpa [series] using h6.symm)
    | some y =>
      refine ⟨y, rfl, funext fun z => ?_⟩
      rw [series, (h4 y hl).2, Series.trunc]
      match z with
      | [] => simp [Series.tlog_nil]
      | [a] => rw [if_pos (by simp), tlog_one_letter hg.1]; rfl
      | [a, b] =>
        rw [if_pos (by simp), tlog_two_letters hg.1, ← groupLike_two hg]
        rfl
      | a :: b :: c :: z => rw [if_neg (by simp)]
  · obtain ⟨y, h3, -, h5⟩ := removeConstant_some hx.keyed
    refine ⟨y, ?_, funext fun z => ?_⟩
    · have : D - 1 = 0 := by omega
      rw [Log, h3, Option.bind_some, this]; rfl
    · rw [series, h5, Series.trunc]
      match z with
      | [] => simp [Series.tlog_nil]
      | [a] =>
        by_cases h : D = 0
        · rw [if_neg (by simp), if_neg (by simp [h])]
          refine val_of_not_mem fun hm => ?_
          obtain ⟨e, he, hh⟩ := List.mem_map.1 hm
          have := hx.short e he
          rw [hh, h] at this
          simp at this
        · rw [if_neg (by simp), if_pos (by simp; omega), tlog_one_letter hg.1]; rfl
      | a :: b :: z =>
        rw [if_neg (by simp), if_neg (by simp only [List.length_cons]; omega)]
        refine val_of_not_mem fun hm => ?_
        obtain ⟨e, he, hh⟩ := List.mem_map.1 hm
        have := hx.short e he
        rw [hh] at this
        simp only [List.length_cons] at this
        omega

/-- At depth two the result is this for every element, group-like or not; in particular `Log` is linear where it
does not raise. -/
theorem C141_formula {x y : Items α K} (hx : Element 2 x) (h : Log 2 x = some y) :
    series y [] = 0 ∧ (∀ a, series y [a] = series x [a]) ∧
      ∀ a b, series y [a, b] = (series x [a, b] - series x [b, a]) / 2 := by
  have h4 := ((log_two hx).2 y h).2
  refine ⟨h4 [], fun a => h4 [a], fun a b => ?_⟩
  rw [series, h4 [a, b]]
  simp only [series]
  field_simp
  ring

/-- **C141** (part): linearity, at depth at most two, where `Log` does not raise. -/
theorem C141_linear_partial {D : ℕ} (hD : D ≤ 2) {x₁ x₂ x y₁ y₂ y : Items α K} (h₁ : Element D x₁) (h₂ : Element D x₂)
    (h : Element D x) (s t : K) (hx : series x = s • series x₁ + t • series x₂) (hy₁ : Log D x₁ = some y₁)
    (hy₂ : Log D x₂ = some y₂) (hy : Log D x = some y) : series y = s • series y₁ + t • series y₂ := by
  have hv : ∀ z, Dict.val x z = s * Dict.val x₁ z + t * Dict.val x₂ z := fun z => congrFun hx z
  funext z
  show Dict.val y z = s * Dict.val y₁ z + t * Dict.val y₂ z
  by_cases h2 : D = 2
  · subst h2
    rw [((log_two h₁).2 _ hy₁).2, ((log_two h₂).2 _ hy₂).2, ((log_two h).2 _ hy).2]
    match z with
    | [] => simp
    | [a] => exact hv _
    | [a, b] => simp only [hv]; ring
    | a :: b :: c :: z => simp
  · have h1 : D - 1 = 0 := by omega
    have key : ∀ {x y : Items α K}, Element D x → Log D x = some y → ∀ z, Dict.val y z = if z = [] then 0 else Dict.val x z := by
      intro x y hx hy
      obtain ⟨y', h3, -, h5⟩ := removeConstant_some hx.keyed
      rw [Log, h3, Option.bind_some, h1] at hy
      have := Option.some.inj hy
      subst this
      exact h5
    rw [key h₁ hy₁, key h₂ hy₂, key h hy, hv]
    split_ifs <;> simp

/-- At depth two, `Log` raises exactly for the elements whose part in degree two is antisymmetric. -/
theorem C141_raises {x : Items α K} (hx : Element 2 x) :
    Log 2 x = none ↔ ∀ a b, series x [a, b] + series x [b, a] = 0 := (log_two hx).1

/-- **C141** fails: at depth two, `Log` of the exponential of an element without part in degree one — such as the
unit — raises. -/
theorem C141_trivial_refuted {x : Items α K} (hx : Element 2 x) (hg : GroupLikeUpTo 2 (series x))
    (h0 : ∀ a, series x [a] = 0) : Log 2 x = none := by
  rw [C141_raises hx]
  intro a b
  rw [groupLike_two hg, h0, zero_mul]

end

/-- **C141** fails: from depth three on, `Log` raises for every element. -/
theorem C141_deep_refuted {D : ℕ} (hD : 3 ≤ D) {x : Items α K} (hx : Element D x) : Log D x = none := by
  obtain ⟨out, h1, -, -⟩ := removeConstant_some hx.keyed
  obtain ⟨n, hn⟩ : ∃ n, D - 1 = n + 2 := ⟨D - 3, by omega⟩
  rw [Log, h1, Option.bind_some, hn, logLoop]
  cases convolve removeConstant removeConstant x with
  | none => rfl
  | some y =>
    rw [Option.bind_some, logLoop, convolve_three hx.keyed]
    rfl

/-- The unit of the algebra of one letter, in a context of any depth. -/
def unitItems : Items (Fin 1) ℚ := [([], 1)]

theorem groupLike_unit (D : ℕ) : GroupLikeUpTo D (series unitItems) := by
  have hs : series unitItems = (1 : Series (Fin 1) ℚ) := by
    funext z
    cases z with
    | nil => simp [series, unitItems, Dict.val, Series.one_nil]
    | cons a z => simp [series, unitItems, Dict.val, Series.one_cons]
  refine ⟨by rw [hs]; rfl, fun u v _ => ?_⟩
  rw [hs, Series.onShuffle]
  cases u with
  | nil => rw [shuffles]; simp [Series.one_nil]
  | cons a u =>
    rw [Series.one_cons, zero_mul]
    apply List.sum_eq_zero
    intro c hc
    obtain ⟨z, hz, rfl⟩ := List.mem_map.1 hc
    have := Series.shuffles_length _ _ _ hz
    cases z with
    | nil => simp only [List.length_nil, List.length_cons] at this; omega
    | cons b z => rfl

/-- **C141** fails as stated: in no context of depth at least two does `Log` agree with the logarithm on all the
group-like elements; it is the unit for which it raises. -/
theorem C141_log_refuted {D : ℕ} (hD : 2 ≤ D) : ¬ AgreesWithLog (α := Fin 1) (K := ℚ) D (Log D) := by
  intro h
  have he : Element D unitItems := ⟨by simp [unitItems], by simp [unitItems]⟩
  obtain ⟨y, hy, -⟩ := h unitItems he (groupLike_unit D)
  by_cases h2 : D = 2
  · subst h2
    rw [C141_trivial_refuted he (groupLike_unit 2) (fun a => by simp [series, unitItems, Dict.val])] at hy
    cases hy
  · rw [C141_deep_refuted (by omega) he] at hy
    cases hy

/-- exp of the first of two letters plus three times the second, to degree two. -/
def sampleItems : Items (Fin 2) ℚ :=
  [([], 1), ([0], 1), ([1], 3), ([0, 0], 1 / 2), ([0, 1], 3 / 2), ([1, 0], 3 / 2), ([1, 1], 9 / 2)]

example : Element 2 sampleItems := ⟨by decide, by decide⟩

example : series sampleItems [1, 0] + series sampleItems [0, 1] = series sampleItems [1] * series sampleItems [0] := by
  decide +kernel

example : Log 2 sampleItems = some [([0], 1), ([1], 3)] := by decide +kernel

example : Log 3 sampleItems = none := by decide +kernel

example : Log 2 unitItems = none := by decide +kernel

/-- The convolution is taken along the adjoint of the shuffle product: the coefficient of a pair of words is the
pairing of the tensor with the shuffle product of the two words — here of the two words *read backwards*, since the
product of keys puts the right factor first. -/
theorem C141_adjoint_partial {x : Items α K} (hx : (x.map Prod.fst).Nodup) (u v : List α) :
    Dict.val (adjointOfShuffle x) (u, v) = (series x).onShuffle u.reverse v.reverse :=
  val_adjointOfShuffle hx u v

/-- … so that it is not the adjoint of the shuffle product itself. -/
theorem C141_adjoint_refuted : ∃ x : Items (Fin 2) ℚ, (x.map Prod.fst).Nodup ∧ ∃ u v,
    Dict.val (adjointOfShuffle x) (u, v) ≠ (series x).onShuffle u v :=
  ⟨[([0, 1], 5)], by decide, [0, 1], [], by
    rw [val_adjointOfShuffle (by decide)]
    simp [Series.onShuffle, shuffles, series, Dict.val]⟩

/-! ## C142 -/

/-- **C142** (part): the external product of two tensors, made with a context, has the products of the
coefficients.

Missing: without a context (`C142_context_refuted`). -/
theorem C142_product_partial {a b : Items α K} (ha : (a.map Prod.fst).Nodup) (hb : (b.map Prod.fst).Nodup) :
    ∃ d, Prod2.new a b true = some d ∧ (d.map Prod.fst).Nodup ∧
      ∀ u v, Dict.val d (u, v) = series a u * series b v :=
  ⟨_, rfl, ofPair_spec ha hb⟩

/-- **C142** fails: without a context, though the parameter is optional, the product cannot be made. -/
theorem C142_context_refuted (a b : Items α K) : Prod2.new a b false = none := rfl

/-- Sums, multiples and the fused updates are those of the coefficients, and they keep one entry for each pair. -/
theorem C142_arithmetic {a b : Prod2 α K} (ha : (a.map Prod.fst).Nodup) (hb : (b.map Prod.fst).Nodup) (s : K)
    (k : List α × List α) :
    Dict.val (Prod2.plus a b) k = Dict.val a k + Dict.val b k ∧
    Dict.val (Prod2.smul a s) k = Dict.val a k * s ∧
    Dict.val (Prod2.addScalProd a b s) k = Dict.val a k + Dict.val b k * s ∧
    Dict.val (Prod2.addScalDiv a b s) k = Dict.val a k + Dict.val b k / s ∧
    Dict.val (Prod2.subScalDiv a b s) k = Dict.val a k - Dict.val b k / s := by
  refine ⟨?_, (val_smul ha s k).2, ?_, ?_, ?_⟩
  · have h1 : Keyed (a.foldl (fun d e => Dict.add d e.1 e.2) ([] : Prod2 α K)) := keyed_foldl_add _ _ _ (by simp [Keyed])
    have h2 := keyed_foldl_add (fun e : (List α × List α) × K => e.1) (fun e => e.2) b h1
    rw [Prod2.plus, Prod2.ofDict, val_nonzero (keyed_nonzero h2), val_nonzero h2,
      val_foldl_scaled hb 1 (fun x => x) (fun x => (one_mul x).symm),
      val_foldl_scaled ha 1 (fun x => x) (fun x => (one_mul x).symm)]
    simp [Dict.val]
  · rw [Prod2.addScalProd, val_nonzero (keyed_foldl_add _ _ _ ha),
      val_foldl_scaled hb s (fun x => x * s) (fun x => mul_comm x s), mul_comm]
  · rw [Prod2.addScalDiv, val_foldl_scaled hb s⁻¹ (fun x => x / s) (fun x => by rw [div_eq_mul_inv, mul_comm]),
      div_eq_mul_inv, mul_comm (Dict.val b k)]
  · rw [subScalDiv_eq, val_foldl_scaled hb (-s⁻¹) (fun x => -(x / s)) (fun x => by rw [div_eq_mul_inv]; ring),
      div_eq_mul_inv]
    ring

/-- Sums, multiples and `add_scal_prod` have no zero entries, so that two of them with the same coefficients have the
same entries; each pair of words has at most one. -/
theorem C142_canonical {a b : Prod2 α K} (ha : (a.map Prod.fst).Nodup) (s : K) :
    (∀ d ∈ [Prod2.plus a b, Prod2.smul a s, Prod2.addScalProd a b s], (d.map Prod.fst).Nodup ∧ ∀ e ∈ d, e.2 ≠ 0) := by
  intro d hd
  simp only [List.mem_cons, List.not_mem_nil, or_false] at hd
  rcases hd with rfl | rfl | rfl
  · refine ⟨?_, fun e he => (mem_nonzero.1 he).2⟩
    exact keyed_nonzero (keyed_nonzero (keyed_foldl_add _ _ _ (keyed_foldl_add _ _ _ List.nodup_nil)))
  · refine ⟨(val_smul ha s ([], [])).1, fun e he => ?_⟩
    rw [Prod2.smul] at he
    split_ifs at he <;> exact (mem_nonzero.1 he).2
  · exact ⟨keyed_addScalProd ha _ _, addScalProd_ne_zero _ _ _⟩

/-- `sub_scal_div` leaves zero entries: subtracting a product from itself gives an object that is not empty. -/
theorem C142_zero_refuted : ∃ a : Prod2 (Fin 2) ℚ, (∀ k, Dict.val (Prod2.subScalDiv a a 1) k = 0) ∧
    Prod2.subScalDiv a a 1 ≠ [] :=
  ⟨[(([0], [1]), 2)], fun k => by simp [Prod2.subScalDiv, Dict.upsert, Dict.val], by decide +kernel⟩

example : Prod2.new [([(0 : Fin 2)], (2 : ℚ)), ([1], 3)] [([0], 5)] true = some [(([0], [0]), 10), (([1], [0]), 15)] := by
  decide +kernel

example : Prod2.plus [(([(0 : Fin 2)], [1]), (2 : ℚ))] [(([0], [1]), -2), (([], [1]), 1)] = [(([], [1]), 1)] := by
  decide +kernel

end RoughPy.TensorFn
