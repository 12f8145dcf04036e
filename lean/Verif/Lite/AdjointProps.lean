import Verif.Lite.AdjointLemmas
import Verif.Lite.TensorProps

/-!
# C144: the adjoint of left multiplication

`adjointToFreeMultiply` and `leftMulAdjoint` are those of `AdjointModel.lean`.  What the adjoint
should be is said by the word pairing (`pairing`, `Tensor/Spec.lean`) and the product of the tensor
algebra: `⟨adjoint(a, f), x⟩ = ⟨f, a x⟩`.
-/

set_option linter.unusedSectionVars false

namespace RoughPy.Lite

open RoughPy.Tensor RoughPy.Tensor.Series Finset

variable {K : Type} [Field K] [DecidableEq K]

/-! ## Helpers -/

theorem adjoint_dense_value {w depth : ℕ} {arg mul : Dense K} (had : arg.degree ≤ depth)
    (hmd : mul.degree ≤ depth)
    (hal : arg.storage.length = wordsBelow w (arg.degree + 1))
    (hml : mul.storage.length = wordsBelow w (mul.degree + 1)) {f a : Series (Fin w) K}
    (hf : DenseValue w depth arg f) (ha : DenseValue w depth mul a) :
    ∃ r, adjDenseDense w depth arg mul = some r ∧ r.degree = 0 ∧
      r.storage.length = arg.storage.length ∧
      DenseValue w depth r fun u =>
        ∑ n ∈ range (depth + 1 - u.length), sumWords n fun v => a v * f (v ++ u) := by
  obtain ⟨r, e1, e2, e3, e4⟩ := adjDenseDense_spec had hal hml
  have entv : ∀ {v : Dense K} {g : Series (Fin w) K}, DenseValue w depth v g →
      ∀ u : List (Fin w), u.length ≤ depth → ent v.storage (wordIndex u) = g u := by
    intro v g hv u hu
    obtain ⟨h1, h2⟩ := hv.1 u hu
    unfold ent
    rcases hx : v.storage[wordIndex u]? with _ | x
    · exact (h2 hx).symm
    · exact h1 x hx
  have zero : ∀ {v : Dense K} {g : Series (Fin w) K}, DenseValue w depth v g →
      v.storage.length = wordsBelow w (v.degree + 1) →
      ∀ u : List (Fin w), v.degree < u.length → u.length ≤ depth → g u = 0 := by
    intro v g hv hl u h1 h2
    refine (hv.1 u h2).2 (List.getElem?_eq_none ?_)
    rw [hl]
    exact (wordsBelow_mono (by omega)).trans (Nat.le_add_right _ _)
  have hval : ∀ u : List (Fin w), u.length ≤ depth →
      (∑ n ∈ range (depth + 1 - u.length), sumWords n fun v => a v * f (v ++ u)) =
      if u.length ≤ arg.degree then ent r.storage (wordIndex u) else 0 := by
    intro u hu
    by_cases hua : u.length ≤ arg.degree
    · rw [if_pos hua, e4 u hua]
      rw [← sum_subset (range_mono (show min (arg.degree + 1 - u.length)
        (min arg.degree mul.degree + 1) ≤ depth + 1 - u.length by omega))]
      · rw [← sum_subset (range_mono (show min (arg.degree + 1 - u.length)
          (min arg.degree mul.degree + 1) ≤ min arg.degree mul.degree + 1 by omega))]
        · refine sum_congr rfl fun n hn => ?_
          rw [mem_range] at hn
          rw [if_pos (by omega)]
          refine sumWords_congr fun v hv => ?_
          rw [entv ha v (by omega), entv hf (v ++ u) (by rw [List.length_append]; omega)]
        · intro n h1 h2
          rw [mem_range] at h1 h2
          rw [if_neg (by omega)]
      · intro n h1 h2
        rw [mem_range] at h1 h2
        rw [sumWords_congr (G := fun _ => 0), sumWords_zero]
        intro v hv
        by_cases hm : n ≤ mul.degree
        · rw [zero hf hal (v ++ u) (by rw [List.length_append]; omega)
            (by rw [List.length_append]; omega), mul_zero]
        · rw [zero ha hml v (by omega) (by omega), zero_mul]
    · rw [if_neg hua]
      refine sum_eq_zero fun n hn => ?_
      rw [mem_range] at hn
      rw [sumWords_congr (G := fun _ => 0), sumWords_zero]
      intro v hv
      rw [zero hf hal (v ++ u) (by rw [List.length_append]; omega)
        (by rw [List.length_append]; omega), mul_zero]
  refine ⟨r, e1, e2, e3, ?_, by rw [e3]; exact hf.2⟩
  intro u hu
  dsimp only
  rw [hval u hu]
  by_cases hua : u.length ≤ arg.degree
  · rw [if_pos hua]
    have hlt : wordIndex u < r.storage.length := by
      rw [e3, hal]; exact wordIndex_lt hua
    rw [ent_of_lt hlt]
    exact ⟨fun x hx => (Option.some.inj hx).symm, fun h => by simp at h⟩
  · rw [if_neg hua]
    have : r.storage[wordIndex u]? = none := by
      refine List.getElem?_eq_none ?_
      rw [e3, hal]
      exact (wordsBelow_mono (by omega)).trans (Nat.le_add_right _ _)
    rw [this]
    exact ⟨fun x hx => by simp at hx, fun _ => rfl⟩

theorem leftMulAdjoint_dense {w depth : ℕ} {B : Basis} {a f r : Dense K}
    (h : adjDenseDense w depth f a = some r) :
    leftMulAdjoint w depth B (.dense a) (.dense f) = some (.dense r) := by
  show ((adjDenseDense w depth f a).bind fun v => some (Stored.dense v)) = _
  rw [h]; rfl

/-! ## C144 -/

/-- `adjoint_to_free_multiply(a, f)` of dense tensors of one class and one context whose storages
are filled up to their degrees returns a tensor of that class and context, and pairing it with any
`x` gives the pairing of `f` with the product `a x`.  Missing: the other storage types, classes
that differ, multipliers without storage, and arguments that are results of the function; see
below. -/
theorem C144_dense_partial {w depth ctype : ℕ} (kind : TensorKind) {a f : Dense K}
    (had : a.degree ≤ depth) (hfd : f.degree ≤ depth)
    (hal : a.storage.length = wordsBelow w (a.degree + 1))
    (hfl : f.storage.length = wordsBelow w (f.degree + 1)) {α φ : Series (Fin w) K}
    (ha : DenseValue w depth a α) (hf : DenseValue w depth f φ) :
    ∃ r ρ, adjointToFreeMultiply (.tensor ⟨kind, kind, w, depth, ctype, .dense a⟩)
        (.tensor ⟨kind, kind, w, depth, ctype, .dense f⟩) =
          .returned ⟨kind, kind, w, depth, ctype, .dense r⟩ ∧
      DenseValue w depth r ρ ∧
      ∀ x : Series (Fin w) K, pairing depth ρ x = pairing depth φ (α * x) := by
  obtain ⟨r, e1, _, _, e4⟩ := adjoint_dense_value hfd had hfl hal hf ha
  refine ⟨r, _, ?_, e4, fun x => pairing_adjoint depth α φ x⟩
  unfold adjointToFreeMultiply
  dsimp only
  rw [if_neg (by simp)]
  rw [leftMulAdjoint_dense e1]

/-- The same with the product computed by `a * x`, for dense tensors that are values of
expressions and have storage. -/
theorem C144_dense_product_partial [CharZero K] {w depth : ℕ} (hdep : 1 ≤ depth)
    (ea ef ex : TExpr w K) (ha : ea.Ok depth) (hf : ef.Ok depth) (hx : ex.Ok depth) :
    ∃ a f x, ea.eval (denseTensor w depth) = some a ∧ ef.eval (denseTensor w depth) = some f ∧
      ex.eval (denseTensor w depth) = some x ∧
      (a.storage ≠ [] → f.storage ≠ [] → ∃ r p ρ ξ π,
        leftMulAdjoint w depth (tensorBasis w depth) (.dense a) (.dense f) = some (.dense r) ∧
        (denseTensor w depth).mul a x = some p ∧ DenseValue w depth r ρ ∧
        DenseValue w depth x ξ ∧ DenseValue w depth p π ∧
        pairing depth ρ ξ = pairing depth (ef.value depth) π) := by
  have hA := denseTensor_lawful (K := K) w hdep
  obtain ⟨a, a1, a2, a3⟩ := TExpr.eval_spec hA ea ha
  obtain ⟨f, f1, f2, f3⟩ := TExpr.eval_spec hA ef hf
  obtain ⟨x, x1, x2, x3⟩ := TExpr.eval_spec hA ex hx
  refine ⟨a, f, x, a1, f1, x1, fun hna hnf => ?_⟩
  obtain ⟨had, hal⟩ := a2.1.resolve_left hna
  obtain ⟨hfd, hfl⟩ := f2.1.resolve_left hnf
  obtain ⟨r, r1, _, _, r4⟩ := adjoint_dense_value hfd had hfl hal (denseValue_of f2.1 f3)
    (denseValue_of a2.1 a3)
  obtain ⟨p, p1, p2, p3⟩ := hA.mul a x a2.1 x2.1
  refine ⟨r, p, _, _, ea.value depth * ex.value depth, ?_, p1, r4, denseValue_of x2.1 x3,
    denseValue_of p2.1 (p3.trans (a3.mul x3)), pairing_adjoint depth _ _ _⟩
  exact leftMulAdjoint_dense r1

/-- The hypotheses hold: `a = 2·1 + 3·e₂`, `f = 5·e₂e₁ + 7·e₁`, whose adjoint is
`10·e₂e₁ + (14 + 15)·e₁`. -/
example : ∃ a f : Dense ℚ,
    (TExpr.add (.word [] 2) (.word [1] 3) : TExpr 2 ℚ).eval (denseTensor 2 2) = some a ∧
    (TExpr.add (.word [1, 0] 5) (.word [0] 7) : TExpr 2 ℚ).eval (denseTensor 2 2) = some f ∧
    a.storage ≠ [] ∧ f.storage ≠ [] ∧
    (adjDenseDense 2 2 f a).map Dense.storage = some [0, 29, 0, 0, 0, 10, 0] :=
  ⟨_, _, rfl, rfl, by decide +kernel, by decide +kernel, by decide +kernel⟩

/-- Objects that are not tensors, and a multiplier that was never set, raise an exception. -/
theorem C144_errors (x : PyOperand K) (t : PyTensor K) (k : TensorKind) :
    adjointToFreeMultiply .other x = .raised ∧ adjointToFreeMultiply (.tensor t) .other = .raised ∧
    adjointToFreeMultiply (.unset k) x = .raised := by
  refine ⟨?_, ?_, ?_⟩
  · cases x <;> rfl
  · rfl
  · cases x <;> rfl

/-- Whenever the call with a sparse argument has a defined outcome, all entries stored by the
result are zero, whatever the operands. -/
theorem C144_sparse_zero_refuted {w depth : ℕ} {B : Basis} {a : Stored K} {f : Sparse K}
    {r : Stored K} (h : leftMulAdjoint w depth B a (.sparse f) = some r) :
    ∃ v, r = .sparse v ∧ ∀ t ∈ v, t.2 = 0 := by
  unfold leftMulAdjoint at h
  cases a with
  | sparse m =>
    simp only [Option.bind_eq_bind, Option.bind_eq_some_iff] at h
    obtain ⟨v, h1, h2⟩ := h
    exact ⟨v, (Option.some.inj h2).symm, adjSparse_zeros h1⟩
  | dense m =>
    simp only [Option.bind_eq_bind, Option.bind_eq_some_iff] at h
    obtain ⟨l, _, v, h1, h2⟩ := h
    exact ⟨v, (Option.some.inj h2).symm, adjSparse_zeros h1⟩

/-- The adjoint of the unit, which should be `f` itself, is zero for sparse `f = 5·e₁`; the zero is
stored, so that the result compares unequal to the zero tensor. -/
theorem C144_sparse_unit_refuted :
    adjSparse 2 2 [(⟨1, 0⟩, 5)] [(⟨0, 0⟩, (1 : ℚ))] = some [(⟨1, 0⟩, 0)] ∧
    Sparse.beq [(⟨1, 0⟩, (0 : ℚ))] [] = false := by
  decide +kernel

/-- A sparse multiplier with a term of one letter other than the first makes the call on any sparse
argument read outside an array. -/
theorem C144_sparse_letter_refuted {w depth : ℕ} (hw : w < 65536) (hd : depth < 254) {B : Basis}
    {a f : Sparse K} {l : ℕ} {c : K} (hl0 : 1 ≤ l) (hl : l < w) (h : (⟨1, l⟩, c) ∈ a) :
    leftMulAdjoint w depth B (.sparse a) (.sparse f) = none := by
  have gen : ∀ (m r : Sparse K), (⟨1, l⟩, c) ∈ m →
      loop m r (fun result t => (shiftDown w depth 300 f t.1).bind fun s =>
        some (result.binaryInplace (fun l _ => l) s)) = none := by
    intro m
    induction m with
    | nil => intro r h; simp at h
    | cons x m ih =>
      intro r h
      rw [loop_cons]
      rcases List.mem_cons.1 h with h | h
      · subst h
        rw [shiftDown_letter hl0 hl hw hd]
        rfl
      · rcases shiftDown w depth 300 f x.1 with _ | s
        · rfl
        · exact ih _ h
  unfold leftMulAdjoint
  show ((adjSparse w depth f a).bind fun v => some (Stored.sparse v)) = none
  unfold adjSparse
  rw [show (loop a ([] : Sparse K) fun result t => do
    some (Sparse.binaryInplace (fun l _ => l) result (← shiftDown w depth 300 f t.1))) = none from
    gen a [] h]
  rfl

/-- With a sparse multiplier and a dense argument the result has the size of the argument, and no
access is outside the storages … -/
theorem C144_mixed_partial {w depth : ℕ} {B : Basis} {a : Sparse K} {f : Dense K}
    {α : Series (Fin w) K} (ha : SparseValue w depth a α) (hfd : f.degree ≤ depth)
    (hfl : f.storage.length = wordsBelow w (f.degree + 1)) :
    ∃ r, leftMulAdjoint w depth B (.sparse a) (.dense f) = some (.dense r) ∧
      r.storage.length = f.storage.length := by
  obtain ⟨r, e1, _, e3⟩ := adjDenseSparse_some (mul := a) hfd hfl (by
    intro t ht
    obtain ⟨u, _, rfl, _⟩ := ha.2.1 t ht
    exact wordOffset_lt u)
  refine ⟨r, ?_, e3⟩
  show ((adjDenseSparse w depth f a).bind fun v => some (Stored.dense v)) = _
  rw [e1]; rfl

/-- … but the coefficients are taken from the wrong words: with the multiplier `2`, and
`f = 1 + 10·e₁ + 20·e₂`, the result is `2 + 2·e₁ + 20·e₂` instead of `2 + 20·e₁ + 40·e₂`. -/
theorem C144_mixed_refuted :
    (adjDenseSparse 2 1 ⟨[1, 10, 20], 1⟩ [(⟨0, 0⟩, (2 : ℚ))]).map Dense.storage =
      some [2, 2, 20] ∧
    (adjDenseDense 2 1 ⟨[1, 10, 20], 1⟩ ⟨[(2 : ℚ)], 0⟩).map Dense.storage = some [2, 20, 40] := by
  decide +kernel

/-- The degree of the result is recorded as 0.  Used as an argument again, with any multiplier whose
scalar term is not zero, it makes the call write outside the array, if the first argument had terms
of positive degree. -/
theorem C144_twice_refuted {w depth : ℕ} (hw : 1 ≤ w) {B : Basis} {a b f : Dense K}
    (hfd : f.degree ≤ depth) (hf1 : 1 ≤ f.degree)
    (hal : a.storage.length = wordsBelow w (a.degree + 1))
    (hfl : f.storage.length = wordsBelow w (f.degree + 1)) {c : K} (hb : b.storage[0]? = some c)
    (hc : c ≠ 0) : ∃ r, leftMulAdjoint w depth B (.dense a) (.dense f) = some (.dense r) ∧
      leftMulAdjoint w depth B (.dense b) (.dense r) = none := by
  obtain ⟨r, e1, e2, e3, _⟩ := adjDenseDense_spec hfd hfl hal
  refine ⟨r, leftMulAdjoint_dense e1, ?_⟩
  have hlen : 2 ≤ r.storage.length := by
    rw [e3, hfl]
    refine le_trans ?_ (wordsBelow_mono (show 2 ≤ f.degree + 1 by omega))
    rw [wordsBelow_succ', wordsBelow_succ', wordsBelow_zero]
    omega
  unfold leftMulAdjoint
  show ((adjDenseDense w depth r b).bind fun v => some (Stored.dense v)) = none
  unfold adjDenseDense
  rw [e2, tensorSizes_get (by omega)]
  simp only [Option.bind_eq_bind, Option.bind_some]
  rw [hb]
  simp only [Option.bind_some]
  have : adjUnit r.storage c ((Dense.new : Dense K).resizeExact (wordsBelow w (0 + 1)) 0).storage =
      none := by
    unfold adjUnit
    rw [if_pos hc]
    have hz : ((Dense.new : Dense K).resizeExact (wordsBelow w (0 + 1)) 0).storage = [0] := by
      rw [wordsBelow_succ', wordsBelow_zero]; rfl
    rw [hz]
    obtain ⟨n, hn⟩ : ∃ n, r.storage.length = n + 2 := ⟨r.storage.length - 2, by omega⟩
    rw [hn, List.range_succ_eq_map, loop_cons, ent_of_lt (by omega)]
    simp only [Option.bind_eq_bind, Option.bind_some]
    rw [assignAt_eq (by simp)]
    simp only [Option.bind_some]
    rw [List.range_succ_eq_map, List.map_cons, loop_cons, ent_of_lt (by omega)]
    rfl
  rw [this]
  rfl

/-- The hypotheses of `C144_twice_refuted` hold for `a = b = 1` and `f = e₁`. -/
example : (1 : ℕ) ≤ 1 ∧ [(1 : ℚ)].length = wordsBelow 2 1 ∧ [(0 : ℚ), 1, 0].length = wordsBelow 2 2 ∧
    [(1 : ℚ)][0]? = some 1 :=
  ⟨le_rfl, by decide, by decide, rfl⟩

/-- Nor is the result a tensor for the product: `adjoint(1, e₁) * 1` is 0. -/
theorem C144_degree_refuted :
    (adjDenseDense 2 1 ⟨[0, 1, 0], 1⟩ ⟨[(1 : ℚ)], 0⟩) = some ⟨[0, 1, 0], 0⟩ ∧
    ((denseTensor 2 1).mul ⟨[0, 1, 0], 0⟩ ⟨[(1 : ℚ)], 0⟩).map Dense.storage = some [0] ∧
    ((denseTensor 2 1).mul ⟨[0, 1, 0], 1⟩ ⟨[(1 : ℚ)], 0⟩).map Dense.storage = some [0, 1, 0] := by
  decide +kernel

/-- A dense multiplier without storage is read. -/
theorem C144_empty_refuted (w depth degree : ℕ) (f : Dense K) :
    adjDenseDense w depth f ⟨[], degree⟩ = none := by
  unfold adjDenseDense
  rcases (tensorSizes w depth)[f.degree]? with _ | n <;> rfl

/-- A `FreeTensor` multiplier with a `ShuffleTensor` argument gives an object of the class
`FreeTensor` that points to a shuffle tensor. -/
theorem C144_kind_refuted {w depth ctype : ℕ} {a f : Dense K}
    (hfd : f.degree ≤ depth) (hal : a.storage.length = wordsBelow w (a.degree + 1))
    (hfl : f.storage.length = wordsBelow w (f.degree + 1)) :
    ∃ r, adjointToFreeMultiply (.tensor ⟨.free, .free, w, depth, ctype, .dense a⟩)
        (.tensor ⟨.shuffle, .shuffle, w, depth, ctype, .dense f⟩) =
          .returned ⟨.free, .shuffle, w, depth, ctype, .dense r⟩ := by
  obtain ⟨r, e1, _⟩ := adjDenseDense_spec hfd hfl hal
  refine ⟨r, ?_⟩
  unfold adjointToFreeMultiply
  dsimp only
  rw [if_neg (by simp)]
  rw [leftMulAdjoint_dense e1]

/-- Tensors of two contexts with one scalar type are not refused: the result is computed in the
context of the argument and then labelled with that of the multiplier.  A multiplier over four
letters and an argument over two give a tensor "over four letters" with three coefficients. -/
theorem C144_context_refuted :
    ∃ r : Dense ℚ, adjointToFreeMultiply (.tensor ⟨.free, .free, 4, 2, 0, .dense ⟨[2], 0⟩⟩)
        (.tensor ⟨.free, .free, 2, 1, 0, .dense ⟨[1, 5, 7], 1⟩⟩) =
          .returned ⟨.free, .free, 4, 2, 0, .dense r⟩ ∧
      r.storage = [2, 10, 14] ∧ ∀ d, r.storage.length ≠ wordsBelow 4 d := by
  refine ⟨⟨[2, 10, 14], 0⟩, ?_, rfl, ?_⟩
  · unfold adjointToFreeMultiply
    dsimp only
    rw [if_neg (by simp)]
    have : adjDenseDense 2 1 ⟨[(1 : ℚ), 5, 7], 1⟩ ⟨[2], 0⟩ = some ⟨[2, 10, 14], 0⟩ := by decide +kernel
    rw [leftMulAdjoint_dense this]
  · intro d
    rcases d with _ | _ | d
    · decide
    · decide
    · have h : wordsBelow 4 2 ≤ wordsBelow 4 (d + 1 + 1) := by
        apply wordsBelow_mono
        omega
      have h2 : wordsBelow 4 2 = 5 := by decide
      simp only [List.length_cons, List.length_nil]
      omega

/-- An argument that was never set is followed through its null pointer, and coefficients of another
scalar type are read as if they were of the type of the multiplier. -/
theorem C144_unset_refuted (t : PyTensor K) (k : TensorKind) :
    adjointToFreeMultiply (.tensor t) (.unset k) = .undefined := rfl

theorem C144_scalars_refuted (m a : PyTensor K) (h : m.ctype ≠ a.ctype) :
    adjointToFreeMultiply (.tensor m) (.tensor a) = .undefined := by
  unfold adjointToFreeMultiply
  dsimp only
  rw [if_pos (by simp [h])]

end RoughPy.Lite
