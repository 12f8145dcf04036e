import Verif.Lite.TensorAlg

set_option linter.unusedSectionVars false

/-!
# Properties of free tensors of `libalgebra_lite`

`TExpr`, `TExpr.Ok` and `TExpr.value` (in `Verif/Lite/TensorSpec.lean`) describe expressions over
tensors and their value in the tensor algebra; `SparseValue` and `DenseValue` say which tensor a
vector stands for.  `e.eval (sparseTensor w depth)` and `e.eval (denseTensor w depth)` run the
modelled code.
-/

namespace RoughPy.Lite

open RoughPy.Tensor RoughPy.Tensor.Series Finset

variable {K : Type} [Field K] [DecidableEq K]

theorem sparseValue_of {w depth : ℕ} {v : Sparse K} {f : Series (Fin w) K}
    (h : Sparse.Tensor w depth v) (hf : EqUpTo depth (Sparse.ser w v) f) :
    SparseValue w depth v f := by
  refine ⟨h.1.1, fun p hp => ?_, fun u hu hne => ?_⟩
  · obtain ⟨k, c⟩ := p
    obtain ⟨h2, h1⟩ := (Sparse.mem_iff_read h.1).1 hp
    have hk : ValidKey (wordsBelow w) depth k := by
      by_contra hk
      exact h2 (h1.symm.trans (h.2 k hk))
    obtain ⟨u, hu, rfl⟩ := exists_wordKey hk
    have h3 : f u = c := (hf u hu).symm.trans h1
    exact ⟨u, hu, by rw [h3], by rw [h3]; exact h2⟩
  · rw [← hf u hu] at hne ⊢
    refine SMap.mem_of_find ?_
    rw [Sparse.find_eq_read h.1]
    exact if_neg hne

theorem denseValue_of {w depth : ℕ} {v : Dense K} {f : Series (Fin w) K}
    (h : Dense.Whole w depth v) (hf : EqUpTo depth (Dense.ser w v) f) :
    DenseValue w depth v f := by
  refine ⟨fun u hu => ⟨fun x hx => ?_, fun hx => ?_⟩, h.length_le⟩
  · rw [← hf u hu]
    show x = v.storage[wordIndex u]?.getD 0
    rw [hx]; rfl
  · rw [← hf u hu]
    show v.storage[wordIndex u]?.getD 0 = 0
    rw [hx]; rfl

/-! ## C68: expressions over tensors -/

/-- Every expression over sparse tensors evaluates, to the vector of the non-zero coefficients of
its value in the truncated tensor algebra. -/
theorem C68_sparse_expression [CharZero K] (w depth : ℕ) (e : TExpr w K) (he : e.Ok depth) :
    ∃ v, e.eval (sparseTensor w depth) = some v ∧ SparseValue w depth v (e.value depth) := by
  obtain ⟨v, h1, h2, h3⟩ := TExpr.eval_spec (sparseTensor_lawful w depth) e he
  exact ⟨v, h1, sparseValue_of h2 h3⟩

/-- Every expression over dense tensors evaluates — no read or write is out of bounds — to its
value in the truncated tensor algebra. -/
theorem C68_dense_expression [CharZero K] (w : ℕ) {depth : ℕ} (hdep : 1 ≤ depth) (e : TExpr w K)
    (he : e.Ok depth) :
    ∃ v, e.eval (denseTensor w depth) = some v ∧ DenseValue w depth v (e.value depth) := by
  obtain ⟨v, h1, h2, h3⟩ := TExpr.eval_spec (denseTensor_lawful w hdep) e he
  exact ⟨v, h1, denseValue_of h2.1 h3⟩

/-- `==` on the results is equality in the truncated tensor algebra, for sparse tensors. -/
theorem C68_sparse_eq [CharZero K] (w depth : ℕ) (a b : TExpr w K) (ha : a.Ok depth)
    (hb : b.Ok depth) :
    ∃ x y, a.eval (sparseTensor w depth) = some x ∧ b.eval (sparseTensor w depth) = some y ∧
      ((sparseTensor w depth).beq x y = true ↔ EqUpTo depth (a.value depth) (b.value depth)) := by
  have hA := sparseTensor_lawful (K := K) w depth
  obtain ⟨x, h1, h2, h3⟩ := TExpr.eval_spec hA a ha
  obtain ⟨y, g1, g2, g3⟩ := TExpr.eval_spec hA b hb
  refine ⟨x, y, h1, g1, (hA.beq x y h2 g2).trans ⟨fun h => ?_, fun h => ?_⟩⟩
  · exact h3.symm.trans (h.trans g3)
  · exact h3.trans (h.trans g3.symm)

/-- `==` on the results is equality in the truncated tensor algebra, for dense tensors. -/
theorem C68_dense_eq [CharZero K] (w : ℕ) {depth : ℕ} (hdep : 1 ≤ depth) (a b : TExpr w K)
    (ha : a.Ok depth) (hb : b.Ok depth) :
    ∃ x y, a.eval (denseTensor w depth) = some x ∧ b.eval (denseTensor w depth) = some y ∧
      ((denseTensor w depth).beq x y = true ↔ EqUpTo depth (a.value depth) (b.value depth)) := by
  have hA := denseTensor_lawful (K := K) w hdep
  obtain ⟨x, h1, h2, h3⟩ := TExpr.eval_spec hA a ha
  obtain ⟨y, g1, g2, g3⟩ := TExpr.eval_spec hA b hb
  refine ⟨x, y, h1, g1, (hA.beq x y h2.1 g2.1).trans ⟨fun h => ?_, fun h => ?_⟩⟩
  · exact h3.symm.trans (h.trans g3)
  · exact h3.trans (h.trans g3.symm)

/-- The product is associative and distributes over sums, as compared by the code itself. -/
theorem C68_dense_ring_laws [CharZero K] (w : ℕ) {depth : ℕ} (hdep : 1 ≤ depth)
    (a b c : TExpr w K) (ha : a.Ok depth) (hb : b.Ok depth) (hc : c.Ok depth) :
    (∃ x y, ((a.mul b).mul c).eval (denseTensor w depth) = some x ∧
      (a.mul (b.mul c)).eval (denseTensor w depth) = some y ∧
      (denseTensor w depth).beq x y = true) ∧
    (∃ x y, (a.mul (b.add c)).eval (denseTensor w depth) = some x ∧
      ((a.mul b).add (a.mul c)).eval (denseTensor w depth) = some y ∧
      (denseTensor w depth).beq x y = true) ∧
    ∃ x y, ((a.add b).mul c).eval (denseTensor w depth) = some x ∧
      ((a.mul c).add (b.mul c)).eval (denseTensor w depth) = some y ∧
      (denseTensor w depth).beq x y = true := by
  refine ⟨?_, ?_, ?_⟩
  · obtain ⟨x, y, h1, h2, h3⟩ := C68_dense_eq w hdep ((a.mul b).mul c) (a.mul (b.mul c))
      ⟨⟨ha, hb⟩, hc⟩ ⟨ha, hb, hc⟩
    refine ⟨x, y, h1, h2, h3.2 ?_⟩
    simp only [TExpr.value]
    rw [mul_assoc]; exact EqUpTo.refl _ _
  · obtain ⟨x, y, h1, h2, h3⟩ := C68_dense_eq w hdep (a.mul (b.add c)) ((a.mul b).add (a.mul c))
      ⟨ha, hb, hc⟩ ⟨⟨ha, hb⟩, ha, hc⟩
    refine ⟨x, y, h1, h2, h3.2 ?_⟩
    simp only [TExpr.value]
    rw [mul_add]; exact EqUpTo.refl _ _
  · obtain ⟨x, y, h1, h2, h3⟩ := C68_dense_eq w hdep ((a.add b).mul c) ((a.mul c).add (b.mul c))
      ⟨⟨ha, hb⟩, hc⟩ ⟨⟨ha, hc⟩, hb, hc⟩
    refine ⟨x, y, h1, h2, h3.2 ?_⟩
    simp only [TExpr.value]
    rw [add_mul]; exact EqUpTo.refl _ _

/-- The in-place product `a *= b` of sparse or dense results of expressions is the product. -/
theorem C68_mul_inplace [CharZero K] (w : ℕ) {depth : ℕ} (hdep : 1 ≤ depth) (a b : TExpr w K)
    (ha : a.Ok depth) (hb : b.Ok depth) :
    (∃ x y r, a.eval (sparseTensor w depth) = some x ∧ b.eval (sparseTensor w depth) = some y ∧
      (sparseTensor w depth).mulInplace x y = some r ∧
      SparseValue w depth r (a.value depth * b.value depth)) ∧
    ∃ x y r, a.eval (denseTensor w depth) = some x ∧ b.eval (denseTensor w depth) = some y ∧
      (denseTensor w depth).mulInplace x y = some r ∧
      DenseValue w depth r (a.value depth * b.value depth) := by
  constructor
  · have hA := sparseTensor_lawful (K := K) w depth
    obtain ⟨x, h1, h2, h3⟩ := TExpr.eval_spec hA a ha
    obtain ⟨y, g1, g2, g3⟩ := TExpr.eval_spec hA b hb
    obtain ⟨r, e1, e2, -, e3⟩ := hA.mulInplace h2 g2
    exact ⟨x, y, r, h1, g1, e1, sparseValue_of e2 (e3.trans (h3.mul g3))⟩
  · have hA := denseTensor_lawful (K := K) w hdep
    obtain ⟨x, h1, h2, h3⟩ := TExpr.eval_spec hA a ha
    obtain ⟨y, g1, g2, g3⟩ := TExpr.eval_spec hA b hb
    obtain ⟨r, e1, e2, -, e3⟩ := hA.mulInplace h2.1 g2.1
    exact ⟨x, y, r, h1, g1, e1, denseValue_of e2 (e3.trans (h3.mul g3))⟩

/-- `a *= 0` on dense tensors keeps the recorded degree of `a`; the sum with a shorter tensor then
records a degree for which there is no storage, and the next product reads out of bounds.  Here
`a` has degree 2: `((a *= 0) + c) * c` at depth 2. -/
theorem C68_dense_cleared_degree :
    ∃ a c p, (TExpr.word [0, 1] 1 : TExpr 2 ℚ).eval (denseTensor 2 2) = some a ∧
      (TExpr.word [] 1 : TExpr 2 ℚ).eval (denseTensor 2 2) = some c ∧
      (denseTensor 2 2).mulInplace a (denseTensor 2 2).new = some p ∧
      (denseTensor 2 2).mul ((denseTensor 2 2).add p c) c = none :=
  ⟨_, _, _, rfl, rfl, rfl, by decide +kernel⟩

/-- `out.add_mul(a, b)` on dense tensors compares the number of non-zero entries of `out` with the
length of the product, and may cut `out` off: here the coefficient of a word of length 2 is lost
by adding a product of degree 1. -/
theorem C68_dense_add_mul_truncates :
    ∃ out a b r, (TExpr.word [0, 1] 7 : TExpr 2 ℚ).eval (denseTensor 2 2) = some out ∧
      (TExpr.word [] 1 : TExpr 2 ℚ).eval (denseTensor 2 2) = some a ∧
      (TExpr.word [0] 5 : TExpr 2 ℚ).eval (denseTensor 2 2) = some b ∧
      (denseTensor 2 2).addMul out a b = some r ∧ r.storage = [0, 5, 0] :=
  ⟨_, _, _, _, rfl, rfl, rfl, rfl, by decide +kernel⟩

/-- With depth 0 the product of two dense scalars reads an entry the table of powers does not
have, while the product of two sparse scalars is fine. -/
theorem C68_dense_depth_zero [CharZero K] (w : ℕ) (x y : K) :
    ((TExpr.word [] x).mul (TExpr.word [] y) : TExpr w K).eval (denseTensor w 0) = none ∧
    ∃ v, ((TExpr.word [] x).mul (TExpr.word [] y) : TExpr w K).eval (sparseTensor w 0) = some v ∧
      SparseValue w 0 v (((TExpr.word [] x).mul (TExpr.word [] y) : TExpr w K).value 0) :=
  ⟨rfl, C68_sparse_expression w 0 _ ⟨Nat.le_refl _, Nat.le_refl _⟩⟩

/-- The hypotheses of the theorems of C68 hold for a commutator of a product and a sum. -/
example : ∃ e : TExpr 2 ℚ, e.Ok 2 ∧
    (e.eval (denseTensor 2 2)).map (·.storage) = some [0, 0, 0, 0, -6, 6, 0] ∧
    e.eval (sparseTensor 2 2) = some [(⟨2, 1⟩, -6), (⟨2, 2⟩, 6)] :=
  ⟨.comm (.mul (.word [] 2) (.word [1] 1)) (.add (.word [0] 3) (.word [1, 1] 5)),
    by simp [TExpr.Ok], by decide +kernel, by decide +kernel⟩

/-! ## C69: exponential and logarithm -/

theorem value_exp {w : ℕ} [CharZero K] (D : ℕ) (e : TExpr w K) (h : e.value D [] = 0) :
    EqUpTo D (e.exp.value D) (texp (e.value D)) := by
  refine EqUpTo.trans (fun u hu => ?_) (AlgOps.LawfulTensor.sum_exp_eq h D)
  rw [Series.sum_apply]
  refine sum_congr rfl fun n _ => ?_
  rw [Series.smul_apply, power_eq]

theorem one_add_noScalar {w : ℕ} {g : Series (Fin w) K} (h : g [] = 1) : 1 + noScalar g = g := by
  funext u
  show (1 : Series (Fin w) K) u + noScalar g u = g u
  cases u with
  | nil => rw [one_nil, h]; show (1 : K) + 0 = 1; rw [add_zero]
  | cons a u => rw [one_cons, zero_add]; rfl

theorem noScalar_eq {w : ℕ} {g : Series (Fin w) K} (h : g [] = 0) : noScalar g = g := by
  funext u
  cases u with
  | nil => exact h.symm
  | cons a u => rfl

theorem value_log_exp {w : ℕ} [CharZero K] (D : ℕ) (e : TExpr w K) (h : e.value D [] = 0) :
    EqUpTo D (e.exp.log.value D) (e.value D) := by
  have h1 := value_exp D e h
  have h2 : EqUpTo D (1 + noScalar (e.exp.value D)) (texp (e.value D)) := by
    rw [← one_add_noScalar (texp_nil (e.value D))]
    refine EqUpTo.add (EqUpTo.refl _ _) fun u hu => ?_
    unfold noScalar
    rw [h1 u hu]
  have h3 := EqUpTo.tlog h2
  rw [tlog_texp h] at h3
  exact h3

theorem value_exp_log {w : ℕ} [CharZero K] (D : ℕ) (e : TExpr w K) (h : e.value D [] = 1) :
    EqUpTo D (e.log.exp.value D) (e.value D) := by
  have h1 := value_exp D e.log (tlog_nil _)
  have h2 : e.log.value D = tlog (e.value D) := by
    show tlog (1 + noScalar (e.value D)) = _
    rw [one_add_noScalar h]
  rw [h2, texp_tlog h] at h1
  exact h1

theorem value_fmexp {w : ℕ} [CharZero K] (D : ℕ) (a x : TExpr w K) (h : x.value D [] = 0) :
    EqUpTo D ((a.fmexp x).value D) ((a.mul x.exp).value D) := by
  show EqUpTo D (a.value D * texp (noScalar (x.value D))) (a.value D * x.exp.value D)
  rw [noScalar_eq h]
  exact EqUpTo.mul (EqUpTo.refl _ _) (value_exp D x h).symm

/-- For dense tensors: if `x` has no scalar part, `exp(x)` is the exponential series,
`log(exp(x)) == x`, and `a.fmexp(x) == a * exp(x)`; if `g` has scalar part one,
`exp(log(g)) == g`. -/
theorem C69_dense_exp_log [CharZero K] (w : ℕ) {depth : ℕ} (hdep : 1 ≤ depth) (x g a : TExpr w K)
    (hx : x.Ok depth) (hg : g.Ok depth) (ha : a.Ok depth) (hx0 : x.value depth [] = 0)
    (hg1 : g.value depth [] = 1) :
    (∃ r, x.exp.eval (denseTensor w depth) = some r ∧
      DenseValue w depth r (texp (x.value depth))) ∧
    (∃ r y, x.exp.log.eval (denseTensor w depth) = some r ∧
      x.eval (denseTensor w depth) = some y ∧ (denseTensor w depth).beq r y = true) ∧
    (∃ r y, g.log.exp.eval (denseTensor w depth) = some r ∧
      g.eval (denseTensor w depth) = some y ∧ (denseTensor w depth).beq r y = true) ∧
    ∃ r y, (a.fmexp x).eval (denseTensor w depth) = some r ∧
      (a.mul x.exp).eval (denseTensor w depth) = some y ∧
      (denseTensor w depth).beq r y = true := by
  refine ⟨?_, ?_, ?_, ?_⟩
  · obtain ⟨v, h1, h2, h3⟩ := TExpr.eval_spec (denseTensor_lawful w hdep) x.exp hx
    exact ⟨v, h1, denseValue_of h2.1 (h3.trans (value_exp depth x hx0))⟩
  · obtain ⟨r, y, h1, h2, h3⟩ := C68_dense_eq w hdep x.exp.log x hx hx
    exact ⟨r, y, h1, h2, h3.2 (value_log_exp depth x hx0)⟩
  · obtain ⟨r, y, h1, h2, h3⟩ := C68_dense_eq w hdep g.log.exp g hg hg
    exact ⟨r, y, h1, h2, h3.2 (value_exp_log depth g hg1)⟩
  · obtain ⟨r, y, h1, h2, h3⟩ := C68_dense_eq w hdep (a.fmexp x) (a.mul x.exp) ⟨ha, hx⟩ ⟨ha, hx⟩
    exact ⟨r, y, h1, h2, h3.2 (value_fmexp depth a x hx0)⟩

/-- `C69_dense_exp_log` for sparse tensors. -/
theorem C69_sparse_exp_log [CharZero K] (w depth : ℕ) (x g a : TExpr w K)
    (hx : x.Ok depth) (hg : g.Ok depth) (ha : a.Ok depth) (hx0 : x.value depth [] = 0)
    (hg1 : g.value depth [] = 1) :
    (∃ r, x.exp.eval (sparseTensor w depth) = some r ∧
      SparseValue w depth r (texp (x.value depth))) ∧
    (∃ r y, x.exp.log.eval (sparseTensor w depth) = some r ∧
      x.eval (sparseTensor w depth) = some y ∧ (sparseTensor w depth).beq r y = true) ∧
    (∃ r y, g.log.exp.eval (sparseTensor w depth) = some r ∧
      g.eval (sparseTensor w depth) = some y ∧ (sparseTensor w depth).beq r y = true) ∧
    ∃ r y, (a.fmexp x).eval (sparseTensor w depth) = some r ∧
      (a.mul x.exp).eval (sparseTensor w depth) = some y ∧
      (sparseTensor w depth).beq r y = true := by
  refine ⟨?_, ?_, ?_, ?_⟩
  · obtain ⟨v, h1, h2, h3⟩ := TExpr.eval_spec (sparseTensor_lawful w depth) x.exp hx
    exact ⟨v, h1, sparseValue_of h2 (h3.trans (value_exp depth x hx0))⟩
  · obtain ⟨r, y, h1, h2, h3⟩ := C68_sparse_eq w depth x.exp.log x hx hx
    exact ⟨r, y, h1, h2, h3.2 (value_log_exp depth x hx0)⟩
  · obtain ⟨r, y, h1, h2, h3⟩ := C68_sparse_eq w depth g.log.exp g hg hg
    exact ⟨r, y, h1, h2, h3.2 (value_exp_log depth g hg1)⟩
  · obtain ⟨r, y, h1, h2, h3⟩ := C68_sparse_eq w depth (a.fmexp x) (a.mul x.exp) ⟨ha, hx⟩ ⟨ha, hx⟩
    exact ⟨r, y, h1, h2, h3.2 (value_fmexp depth a x hx0)⟩

/-- `exp` and `fmexp` treat the scalar part differently: `exp` keeps it (in a truncated series),
`fmexp` drops it.  With a scalar part they disagree. -/
theorem C69_scalar_part_differs :
    ∃ r y, ((TExpr.word [] 1).fmexp (.word [] 1) : TExpr 1 ℚ).eval (denseTensor 1 1) = some r ∧
      ((TExpr.word [] 1 : TExpr 1 ℚ).exp).eval (denseTensor 1 1) = some y ∧
      r.storage = [1, 0] ∧ y.storage = [2, 0] :=
  ⟨_, _, rfl, rfl, by decide +kernel, by decide +kernel⟩

/-- The hypotheses of C69 hold. -/
example : ∃ x g : TExpr 2 ℚ, x.Ok 2 ∧ g.Ok 2 ∧ x.value 2 [] = 0 ∧ g.value 2 [] = 1 ∧
    (x.exp.eval (denseTensor 2 2)).map (·.storage) = some [1, 3, 0, 9 / 2, 5, 0, 0] :=
  ⟨.add (.word [0] 3) (.word [0, 1] 5), .add (.word [] 1) (.word [1] 5),
    by simp [TExpr.Ok], by simp [TExpr.Ok],
    add_zero (0 : ℚ), add_zero (1 : ℚ), by decide +kernel⟩

/-! ## C47: the inverse -/

/-- `inverse` of a tensor `x = a + y` with invertible scalar part `a` and positive part `y` is
defined and is a two-sided inverse of `a - y`, for dense and for sparse tensors.

Missing: the property asks for an inverse of `a + y`; `C47_inverse_wrong` shows that this holds
only for `y = 0`. -/
theorem C47_inverse_partial [CharZero K] (w : ℕ) {depth : ℕ} (hdep : 1 ≤ depth) (x : TExpr w K)
    (hx : x.Ok depth) (h0 : x.value depth [] ≠ 0) :
    (∃ v r f, x.eval (denseTensor w depth) = some v ∧ (denseTensor w depth).inverse v = some r ∧
      DenseValue w depth r f ∧
      EqUpTo depth (f * (x.value depth [] • 1 - noScalar (x.value depth))) 1 ∧
      EqUpTo depth ((x.value depth [] • 1 - noScalar (x.value depth)) * f) 1) ∧
    ∃ v r f, x.eval (sparseTensor w depth) = some v ∧ (sparseTensor w depth).inverse v = some r ∧
      SparseValue w depth r f ∧
      EqUpTo depth (f * (x.value depth [] • 1 - noScalar (x.value depth))) 1 ∧
      EqUpTo depth ((x.value depth [] • 1 - noScalar (x.value depth)) * f) 1 := by
  have key : ∀ {f : Series (Fin w) K}, EqUpTo depth f (x.value depth) → f [] ≠ 0 ∧
      EqUpTo depth (f [] • 1 - noScalar f)
        (x.value depth [] • 1 - noScalar (x.value depth)) := by
    intro f hf
    have hn := hf [] (Nat.zero_le _)
    refine ⟨by rw [hn]; exact h0, ?_⟩
    rw [hn]
    refine EqUpTo.sub (EqUpTo.refl _ _) fun u hu => ?_
    unfold noScalar
    rw [hf u hu]
  constructor
  · have hA := denseTensor_lawful (K := K) w hdep
    obtain ⟨v, h1, h2, h3⟩ := TExpr.eval_spec hA x hx
    obtain ⟨k1, k2⟩ := key h3
    obtain ⟨r, e1, e2, e3, e4⟩ := hA.inverse h2.1 k1
    exact ⟨v, r, Dense.ser w r, h1, e1, denseValue_of e2.1 (EqUpTo.refl _ _),
      (EqUpTo.mul (EqUpTo.refl _ _) k2.symm).trans e3,
      (EqUpTo.mul k2.symm (EqUpTo.refl _ _)).trans e4⟩
  · have hA := sparseTensor_lawful (K := K) w depth
    obtain ⟨v, h1, h2, h3⟩ := TExpr.eval_spec hA x hx
    obtain ⟨k1, k2⟩ := key h3
    obtain ⟨r, e1, e2, e3, e4⟩ := hA.inverse h2 k1
    exact ⟨v, r, Sparse.ser w r, h1, e1, sparseValue_of e2 (EqUpTo.refl _ _),
      (EqUpTo.mul (EqUpTo.refl _ _) k2.symm).trans e3,
      (EqUpTo.mul k2.symm (EqUpTo.refl _ _)).trans e4⟩

/-- an inverse of `a - y` is one of `a + y` only if `y = 0` -/
theorem inverse_both {w D : ℕ} [CharZero K] {f g : Series (Fin w) K}
    (h1 : EqUpTo D (f * (g [] • 1 - noScalar g)) 1)
    (h2 : EqUpTo D ((g [] • 1 - noScalar g) * f) 1) :
    EqUpTo D (f * g) 1 ↔ ∀ u : List (Fin w), u ≠ [] → u.length ≤ D → g u = 0 := by
  have hsplit : g = g [] • 1 + noScalar g := by
    funext u
    show g u = (g [] • (1 : Series (Fin w) K)) u + noScalar g u
    rw [smul_one_apply]
    unfold noScalar
    split_ifs with h
    · rw [h, add_zero]
    · rw [zero_add]
  constructor
  · intro h u hu hlen
    have h3 : EqUpTo D (f * g - f * (g [] • 1 - noScalar g)) 0 := by
      have := EqUpTo.sub h h1
      rwa [sub_self] at this
    have h4 : f * g - f * (g [] • 1 - noScalar g) = f * ((2 : K) • noScalar g) := by
      rw [← mul_sub, two_smul]
      congr 1
      nth_rewrite 1 [hsplit]
      abel
    rw [h4] at h3
    have h5 := EqUpTo.mul (EqUpTo.refl D (g [] • 1 - noScalar g)) h3
    rw [← mul_assoc, mul_zero] at h5
    have h6 := (EqUpTo.mul h2 (EqUpTo.refl D ((2 : K) • noScalar g))).symm.trans h5
    rw [one_mul] at h6
    have h7 := h6 u hlen
    rw [Series.smul_apply] at h7
    have h8 : noScalar g u = 0 := by
      rcases mul_eq_zero.1 h7 with h | h
      · exact absurd h two_ne_zero
      · exact h
    unfold noScalar at h8
    rwa [if_neg hu] at h8
  · intro h
    have hz : EqUpTo D (noScalar g) 0 := by
      intro u hu
      unfold noScalar
      split_ifs with hn
      · rfl
      · exact h u hn hu
    refine EqUpTo.trans (EqUpTo.mul (EqUpTo.refl _ _) ?_) h1
    intro u hu
    refine (congrFun hsplit u).trans ?_
    rw [Series.add_apply, Series.sub_apply, hz u hu]
    show _ + (0 : K) = _ - (0 : K)
    rw [add_zero, sub_zero]

/-- For every tensor `x` with invertible scalar part, `inverse(x) * x == 1` holds exactly if all
other coefficients of `x` are zero: the sign of the series is wrong. -/
theorem C47_inverse_wrong [CharZero K] (w : ℕ) {depth : ℕ} (hdep : 1 ≤ depth) (x : TExpr w K)
    (hx : x.Ok depth) (h0 : x.value depth [] ≠ 0) :
    ∃ v r p one, x.eval (denseTensor w depth) = some v ∧
      (denseTensor w depth).inverse v = some r ∧ (denseTensor w depth).mul r v = some p ∧
      (denseTensor w depth).single ⟨0, 0⟩ 1 = some one ∧
      ((denseTensor w depth).beq p one = true ↔
        ∀ u : List (Fin w), u ≠ [] → u.length ≤ depth → x.value depth u = 0) := by
  have hA := denseTensor_lawful (K := K) w hdep
  obtain ⟨v, h1, h2, h3⟩ := TExpr.eval_spec hA x hx
  have hn : Dense.ser w v [] = x.value depth [] := h3 [] (Nat.zero_le _)
  obtain ⟨r, e1, e2, e3, e4⟩ := hA.inverse h2.1 (by rw [hn]; exact h0)
  obtain ⟨p, p1, p2, p3⟩ := hA.mul r v e2.1 h2.1
  obtain ⟨one, o1, o2, o3⟩ := hA.scalar 1
  rw [one_smul] at o3
  refine ⟨v, r, p, one, h1, e1, p1, o1, (hA.beq p one p2.1 (hA.tight _ o2).1).trans ?_⟩
  have h4 : EqUpTo (denseTensor w depth : AlgOps K (Dense K)).depth (Dense.ser w p)
      (Dense.ser w one) ↔ EqUpTo (denseTensor w depth : AlgOps K (Dense K)).depth
        (Dense.ser w r * Dense.ser w v) 1 :=
    ⟨fun h => p3.symm.trans (h.trans o3), fun h => p3.trans (h.trans o3.symm)⟩
  rw [h4, inverse_both e3 e4]
  refine forall_congr' fun u => forall_congr' fun _ => forall_congr' fun hu => ?_
  rw [h3 u hu]
  rfl

/-- A tensor meeting the hypotheses of C47, with a positive part. -/
example : ∃ x : TExpr 2 ℚ, x.Ok 2 ∧ x.value 2 [] ≠ 0 ∧ x.value 2 [0] ≠ 0 ∧
    ((x.eval (denseTensor 2 2)).bind (denseTensor 2 2).inverse).map (·.storage) =
      some [1 / 2, 3 / 4, 0, 9 / 8, 0, 0, 0] :=
  ⟨.add (.word [] 2) (.word [0] 3), by simp [TExpr.Ok],
    by show (2 : ℚ) + 0 ≠ 0; norm_num, by show (0 : ℚ) + 3 ≠ 0; norm_num, by decide +kernel⟩

end RoughPy.Lite
