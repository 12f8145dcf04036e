import Verif.Lite.HistoryLemmas

/-!
# Properties of sparse and dense vectors

`Coeffs.run acts i` (in `Verif/Lite/History.lean`) is the function from keys to scalars that
variable `i` denotes after the operations `acts`; `run V acts` runs the modelled code.
-/

namespace RoughPy.Lite

open RoughPy.Tensor

variable {K : Type} [Field K] [DecidableEq K]

/-! ## C48: sparse vectors -/

/-- After any sequence of operations on sparse vectors — with no division by zero, no in-place
operation of a vector with itself other than `a += a`, and no fused multiply-add by zero — no
stored coefficient is zero, keys are stored once and in order, reading a key gives the
coefficient-wise result, and `==` and equality of representation both coincide with equality of
coefficients.

Missing: aliased in-place operations (`C48_sub_self_undefined`) and multiply-add by zero
(`C48_zero_multiplier_stores_zero`), for which the statement is false. -/
theorem C48_sparse_history_partial [CharZero K] (acts : List (Act K))
    (hd : ∀ a ∈ acts, a.Divides) (ha : ∀ a ∈ acts, a.NoAlias)
    (hz : ∀ a ∈ acts, a.NonzeroScale) :
    ∃ s, run (Sparse.ops : VecOps K (Sparse K)) acts = some s ∧
      (∀ i, ∀ e ∈ s i, e.2 ≠ 0) ∧
      (∀ i, (s i).Pairwise fun a b => a.1 < b.1) ∧
      (∀ i k, Sparse.ops.read (s i) k = some (Coeffs.run acts i k)) ∧
      (∀ i k, Coeffs.run acts i k ≠ 0 → (k, Coeffs.run acts i k) ∈ s i) ∧
      (∀ i j, Sparse.ops.beq (s i) (s j) = true ↔ Coeffs.run acts i = Coeffs.run acts j) ∧
      (∀ i j, s i = s j ↔ Coeffs.run acts i = Coeffs.run acts j) := by
  obtain ⟨s, h1, h2⟩ := run_spec (Sparse.lawful (K := K)) acts
    (fun a _ => by cases a <;> trivial) hd fun _ a ham => ⟨ha a ham, hz a ham⟩
  have hread : ∀ i k, Sparse.read (s i) k = Coeffs.run acts i k := fun i k => (h2 i).2 k trivial
  refine ⟨s, h1, fun i => (h2 i).1.2, fun i => (h2 i).1.1, fun i k => congrArg some (hread i k),
    fun i k hk => ?_, fun i j => ?_, fun i j => ?_⟩
  · rw [← hread] at hk ⊢
    refine SMap.mem_of_find ?_
    rw [Sparse.find_eq_read (h2 i).1, if_neg hk]
  · rw [funext_iff]
    refine (Sparse.beq_iff (h2 i).1 (h2 j).1).trans (forall_congr' fun k => ?_)
    rw [hread, hread]
  · constructor
    · intro h
      funext k
      rw [← hread, ← hread, h]
    · intro h
      refine Sparse.ext_read (h2 i).1 (h2 j).1 fun k => ?_
      rw [hread, hread, h]

/-- `x -= x` erases the entry the loop is standing on, for every non-empty `x`. -/
theorem C48_sub_self_undefined (x : Sparse K) (hx : x ≠ []) :
    Sparse.ops.binarySelf (fun l r => l - r) x = none := by
  cases x with
  | nil => exact absurd rfl hx
  | cons e m =>
    obtain ⟨k, v⟩ := e
    show Sparse.binarySelf _ _ = none
    rw [Sparse.binarySelf, if_pos (sub_self v)]

/-- `y.add_scal_prod(x, 0)` stores an explicit zero for every key of `x` that `y` does not have;
`y` then compares different from the empty vector although all its coefficients are zero. -/
theorem C48_zero_multiplier_stores_zero (k : Key) (c : K) (hc : c ≠ 0) :
    ∃ s, run (Sparse.ops : VecOps K (Sparse K)) [.single 0 k c, .addScalProd 1 0 0] = some s ∧
      s 1 = [(k, 0)] ∧ (∀ j, Sparse.ops.read (s 1) j = some 0) ∧
      Sparse.ops.beq (s 1) Sparse.ops.new = false := by
  have h1 : Sparse.single k c = [(k, c)] := by unfold Sparse.single; rw [if_pos hc]
  refine ⟨_, rfl, ?_, ?_, ?_⟩
  all_goals
    have h2 : Sparse.ops.binaryInplace (fun l r : K => l + r * 0) ([] : Sparse K)
        (Sparse.single k c) = [(k, 0)] := by
      rw [h1]
      show [(k, (0 : K) + c * 0)] = _
      rw [mul_zero, add_zero]
  · exact h2
  · intro j
    show some (Sparse.read (Sparse.ops.binaryInplace (fun l r : K => l + r * 0) ([] : Sparse K)
        (Sparse.single k c)) j) = some 0
    rw [h2, Sparse.read, SMap.find]
    split_ifs <;> rfl
  · show Sparse.beq (Sparse.ops.binaryInplace (fun l r : K => l + r * 0) ([] : Sparse K)
        (Sparse.single k c)) [] = false
    rw [h2]; rfl

/-- The hypotheses of `C48_sparse_history_partial` hold for a history that cancels entries. -/
example : (run (Sparse.ops : VecOps ℚ (Sparse ℚ))
      [.single 0 ⟨1, 0⟩ 2, .addCoef 0 ⟨2, 1⟩ 3, .single 1 ⟨1, 0⟩ (-2), .addInplace 0 1,
        .addScalDiv 1 0 4, .addInplace 0 0]).map (fun s => (s 0, s 1)) =
    some ([(⟨2, 1⟩, 6)], [(⟨1, 0⟩, -2), (⟨2, 1⟩, 3 / 4)]) := by
  decide +kernel

/-! ## C49: dense vectors -/

/-- the keys of the tensor basis -/
def IsTensorKey (w depth : ℕ) (k : Key) : Prop := k.deg ≤ depth ∧ k.idx < w ^ k.deg

theorem tensorKey_iff (w depth : ℕ) (k : Key) :
    ValidKey (wordsBelow w) depth k ↔ IsTensorKey w depth k := by
  unfold ValidKey IsTensorKey
  rw [wordsBelow_succ]
  constructor <;> rintro ⟨h1, h2⟩ <;> exact ⟨h1, by omega⟩

/-- For every graded basis: after any sequence of operations on dense vectors that addresses
keys of the basis and does not divide by zero, nothing has been read or written out of bounds,
iterating over a vector visits keys in increasing order with the coefficient-wise result as
values and misses no non-zero coefficient, and `==` coincides with equality of coefficients.
Lengths of operands are arbitrary; operands may be the same vector. -/
theorem C49_dense_history_basis [CharZero K] {B : Basis} {start : ℕ → ℕ} (hB : B.Lawful start)
    (hpos : 0 < start (B.depth + 1)) (acts : List (Act K))
    (hk : ∀ a ∈ acts, a.KeyIn (ValidKey start B.depth)) (hd : ∀ a ∈ acts, a.Divides) :
    ∃ s, run (Dense.ops B : VecOps K (Dense K)) acts = some s ∧
      (∀ i, ∃ r, (Dense.ops B).items (s i) = some r ∧ r.Pairwise (fun a b => a.1 < b.1) ∧
        (∀ e ∈ r, ValidKey start B.depth e.1 ∧ e.2 = Coeffs.run acts i e.1) ∧
        ∀ k, ValidKey start B.depth k → Coeffs.run acts i k ≠ 0 →
          (k, Coeffs.run acts i k) ∈ r) ∧
      ∀ i j, (Dense.ops B).beq (s i) (s j) = true ↔
        ∀ k, ValidKey start B.depth k → Coeffs.run acts i k = Coeffs.run acts j k := by
  obtain ⟨s, h1, h2⟩ := run_spec (Dense.lawful (K := K) hB) acts hk hd False.elim
  refine ⟨s, h1, fun i => ?_, fun i j => ?_⟩
  · obtain ⟨r, e1, e2, e3, e4⟩ := Dense.items_coef hB hpos (h2 i).1
    refine ⟨r, e1, e2, fun e he => ?_, fun k hk hne => ?_⟩
    · obtain ⟨h3, h4⟩ := e3 e he
      exact ⟨h3, by rw [h4, (h2 i).2 _ h3]⟩
    · have := e4 k hk
      rw [(h2 i).2 k hk] at this
      exact this hne
  · refine ((Dense.lawful (K := K) hB).beq _ _ (h2 i).1 (h2 j).1).trans
      (forall₂_congr fun k hk => ?_)
    rw [(h2 i).2 k hk, (h2 j).2 k hk]

/-- `C49_dense_history_basis` for tensors of every width and depth. -/
theorem C49_dense_history [CharZero K] (w depth : ℕ) (acts : List (Act K))
    (hk : ∀ a ∈ acts, a.KeyIn (IsTensorKey w depth)) (hd : ∀ a ∈ acts, a.Divides) :
    ∃ s, run (Dense.ops (tensorBasis w depth) : VecOps K (Dense K)) acts = some s ∧
      (∀ i, ∃ r, (Dense.ops (tensorBasis w depth)).items (s i) = some r ∧
        r.Pairwise (fun a b => a.1 < b.1) ∧
        (∀ e ∈ r, IsTensorKey w depth e.1 ∧ e.2 = Coeffs.run acts i e.1) ∧
        ∀ k, IsTensorKey w depth k → Coeffs.run acts i k ≠ 0 →
          (k, Coeffs.run acts i k) ∈ r) ∧
      ∀ i j, (Dense.ops (tensorBasis w depth)).beq (s i) (s j) = true ↔
        ∀ k, IsTensorKey w depth k → Coeffs.run acts i k = Coeffs.run acts j k := by
  have hp : ValidKey (wordsBelow w) depth = IsTensorKey w depth :=
    funext fun k => propext (tensorKey_iff w depth k)
  rw [← hp] at hk ⊢
  refine C49_dense_history_basis (tensorBasis_lawful w depth) ?_ acts hk hd
  rw [wordsBelow_succ']
  omega

/-- Reading through a `const` dense vector is not checked: a key of the basis beyond the end of
the storage is an out-of-bounds read, not zero. -/
theorem C49_const_read_unchecked :
    ∃ s, run (Dense.ops (tensorBasis 2 2) : VecOps ℚ (Dense ℚ)) [.single 0 ⟨0, 0⟩ 1] = some s ∧
      (Dense.ops (tensorBasis 2 2)).read (s 0) ⟨1, 0⟩ = none ∧
      IsTensorKey 2 2 ⟨1, 0⟩ :=
  ⟨_, rfl, by decide +kernel, by constructor <;> decide⟩

/-- The hypotheses of `C49_dense_history` hold for vectors of three different lengths. -/
example : ∃ s, run (Dense.ops (tensorBasis 2 2) : VecOps ℚ (Dense ℚ))
      [.single 0 ⟨0, 0⟩ 2, .single 1 ⟨2, 1⟩ 3, .single 2 ⟨1, 1⟩ 5, .addInplace 0 1,
        .sub 3 2 0, .subInplace 1 1] = some s ∧
    (s 0).storage = [2, 0, 0, 0, 3, 0, 0] ∧ (s 1).storage = [0, 0, 0, 0, 0, 0, 0] ∧
    (s 3).storage = [-2, 0, 5, 0, -3, 0, 0] :=
  ⟨_, rfl, by decide +kernel, by decide +kernel, by decide +kernel⟩

end RoughPy.Lite
