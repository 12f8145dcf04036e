import Verif.Lite.AntipodeLemmas
import Verif.Lite.TensorProps
import Verif.Tensor.Hopf
import Verif.Tensor.ComputeLemmas

/-!
# C143: the antipode of free tensors

`antipode` is that of `AntipodeModel.lean`; what it should be, `Series.antipode`, is defined in
`Tensor/Spec.lean` by `(-1)^length` and the reversal of words.  `DenseValue`, `SparseValue` and
`TExpr` are in `TensorSpec.lean`.  `maxLetters` bounds the size of the tiles; 0 means none.
-/

set_option linter.unusedSectionVars false

namespace RoughPy.Lite

open RoughPy.Tensor RoughPy.Tensor.Series Finset

variable {K : Type} [Field K] [DecidableEq K]

/-! ## Helpers -/

theorem antipode_dense_eq {maxLetters w depth : ℕ} (hw : w < 65536) {v : Dense K}
    (hv : v.Full w depth) : ∃ r, antipode maxLetters w depth (.dense v) = some (.dense r) ∧
      r.Full w depth ∧ r.degree = v.degree ∧ r.ser w = Series.antipode (v.ser w) := by
  obtain ⟨h, h1, _⟩ := new_eq maxLetters w depth
  obtain ⟨r, e1, e2, e3⟩ := dense_antipode hw h1 hv
  refine ⟨r, ?_, e2, ?_, funext e3⟩
  · unfold antipode
    rw [h1]
    simp only [Option.bind_eq_bind, Option.bind_some]
    rw [e1]; rfl
  · unfold AntipodeHelper.dense at e1
    simp only [Option.bind_eq_bind, Option.bind_eq_some_iff] at e1
    obtain ⟨_, _, _, _, e⟩ := e1
    rw [← Option.some.inj e]

theorem antipode_sparse_eq (maxLetters : ℕ) {w depth : ℕ} {v : Sparse K}
    (hv : Sparse.Tensor w depth v) :
    ∃ r, antipode maxLetters w depth (.sparse v) = some (.sparse r) ∧ Sparse.Tensor w depth r ∧
      EqUpTo depth (r.ser w) (Series.antipode (v.ser w)) := by
  obtain ⟨h, h1, h2, _⟩ := new_eq maxLetters w depth
  obtain ⟨e1, e2⟩ := sparse_antipode h2 hv
  refine ⟨h.sparse v, ?_, e1, e2⟩
  unfold antipode
  rw [h1]; rfl

theorem dense_eq_of_ser {w depth : ℕ} {a b : Dense K} (ha : a.Full w depth) (hb : b.Full w depth)
    (hd : a.degree = b.degree) (h : a.ser w = b.ser w) : a = b := by
  obtain ⟨sa, da⟩ := a
  obtain ⟨sb, db⟩ := b
  obtain rfl : da = db := hd
  have hl : sa.length = sb.length := ha.2.trans hb.2.symm
  congr 1
  refine List.ext_getElem? fun i => ?_
  by_cases hi : i < sa.length
  · obtain ⟨u, _, rfl⟩ := exists_wordIndex (w := w) (show i < wordsBelow w (da + 1) from ha.2 ▸ hi)
    have := congrFun h u
    unfold Dense.ser Dense.entry at this
    dsimp only at this
    exact (getElem?_eq_some_getD hi).trans
      ((congrArg some this).trans (getElem?_eq_some_getD (hl ▸ hi)).symm)
  · rw [List.getElem?_eq_none (by omega), List.getElem?_eq_none (by omega)]

/-- the coefficients of `DenseValue` are the value of the vector -/
theorem DenseValue.ser_eq {w depth : ℕ} {v : Dense K} {f : Series (Fin w) K}
    (h : DenseValue w depth v f) : EqUpTo depth (v.ser w) f := by
  intro u hu
  obtain ⟨h1, h2⟩ := h.1 u hu
  unfold Dense.ser Dense.entry
  rcases hx : v.storage[wordIndex u]? with _ | x
  · exact (h2 hx).symm
  · exact h1 x hx

/-- The antipode inverts products of exponentials of Lie series. -/
theorem antipode_texp_prod [CharZero K] {w : ℕ} (ls : List (Series (Fin w) K))
    (hls : ∀ ℓ ∈ ls, IsLie ℓ) :
    Series.antipode ((ls.map fun ℓ => texp ℓ).prod) * ((ls.map fun ℓ => texp ℓ).prod) = 1 ∧
      ((ls.map fun ℓ => texp ℓ).prod) * Series.antipode ((ls.map fun ℓ => texp ℓ).prod) = 1 := by
  induction ls with
  | nil => simp [antipode_one]
  | cons ℓ ls ih =>
    have ih := ih fun y hy => hls y (by simp [hy])
    have hℓ := hls ℓ (by simp)
    have ha : Series.antipode (texp ℓ) = texp (-ℓ) := by
      rw [← hℓ.antipode_eq]
      funext u
      rw [texp_apply]
      show (-1) ^ u.length * texp ℓ u.reverse = _
      rw [texp_apply, List.length_reverse, mul_sum]
      refine sum_congr rfl fun n _ => ?_
      rw [← antipode_pow]
      show _ = _ * ((-1) ^ u.length * (ℓ ^ n) u.reverse)
      ring
    rw [List.map_cons, List.prod_cons, antipode_mul, ha]
    constructor
    · rw [mul_assoc, ← mul_assoc (texp (-ℓ)), texp_neg_mul_texp hℓ.nil, one_mul, ih.1]
    · rw [mul_assoc, ← mul_assoc _ (Series.antipode _), ih.2, one_mul, texp_mul_texp_neg hℓ.nil]

/-! ## C143 -/

/-- The antipode of every sparse tensor — the value of an expression — has the signed
coefficients of the reversed words, whatever the size of the tiles. -/
theorem C143_sparse [CharZero K] (maxLetters w depth : ℕ) (e : TExpr w K) (he : e.Ok depth) :
    ∃ v r, e.eval (sparseTensor w depth) = some v ∧
      antipode maxLetters w depth (.sparse v) = some (.sparse r) ∧
      SparseValue w depth r fun u => (-1) ^ u.length * e.value depth u.reverse := by
  obtain ⟨v, h1, h2, h3⟩ := TExpr.eval_spec (sparseTensor_lawful w depth) e he
  obtain ⟨r, e1, e2, e3⟩ := antipode_sparse_eq maxLetters h2
  exact ⟨v, r, h1, e1, sparseValue_of e2 (e3.trans (antipode_congr h3))⟩

/-- The antipode of a dense tensor whose storage is filled up to its degree: no access is outside
the storages, and the result has the signed coefficients of the reversed words; whatever the size of
the tiles.  Missing: tensors without storage, see `C143_empty_refuted`. -/
theorem C143_dense_partial (maxLetters : ℕ) {w depth : ℕ} (hw : w < 65536) {v : Dense K}
    (hd : v.degree ≤ depth) (hlen : v.storage.length = wordsBelow w (v.degree + 1))
    {f : Series (Fin w) K} (hf : DenseValue w depth v f) :
    ∃ r, antipode maxLetters w depth (.dense v) = some (.dense r) ∧ r.degree = v.degree ∧
      r.storage.length = v.storage.length ∧
      DenseValue w depth r fun u => (-1) ^ u.length * f u.reverse := by
  obtain ⟨r, e1, e2, e3, e4⟩ := antipode_dense_eq (maxLetters := maxLetters) hw ⟨hd, hlen⟩
  refine ⟨r, e1, e3, by rw [e2.2, hlen, e3], denseValue_of e2.tight.1 ?_⟩
  rw [e4]
  exact antipode_congr hf.ser_eq

/-- The value of every expression over dense tensors has such an antipode, unless it has no
storage. -/
theorem C143_dense_expression_partial [CharZero K] (maxLetters : ℕ) {w depth : ℕ} (hw : w < 65536)
    (hdep : 1 ≤ depth) (e : TExpr w K) (he : e.Ok depth) :
    ∃ v, e.eval (denseTensor w depth) = some v ∧ (v.storage ≠ [] →
      ∃ r, antipode maxLetters w depth (.dense v) = some (.dense r) ∧
        DenseValue w depth r fun u => (-1) ^ u.length * e.value depth u.reverse) := by
  obtain ⟨v, h1, h2, h3⟩ := TExpr.eval_spec (denseTensor_lawful w hdep) e he
  refine ⟨v, h1, fun hne => ?_⟩
  obtain ⟨h4, h5⟩ := h2.1.resolve_left hne
  obtain ⟨r, e1, _, _, e2⟩ := C143_dense_partial maxLetters hw h4 h5 (denseValue_of h2.1 h3)
  exact ⟨r, e1, e2⟩

/-- The antipode of the antipode is the tensor itself, entry for entry. -/
theorem C143_involution (maxLetters : ℕ) {w depth : ℕ} (hw : w < 65536) :
    (∀ v : Dense K, v.degree ≤ depth → v.storage.length = wordsBelow w (v.degree + 1) →
      ∃ r, antipode maxLetters w depth (.dense v) = some (.dense r) ∧
        antipode maxLetters w depth (.dense r) = some (.dense v)) ∧
    ∀ v : Sparse K, (∃ f : Series (Fin w) K, SparseValue w depth v f) →
      ∃ r, antipode maxLetters w depth (.sparse v) = some (.sparse r) ∧
        antipode maxLetters w depth (.sparse r) = some (.sparse v) := by
  constructor
  · intro v hd hlen
    have hv : v.Full w depth := ⟨hd, hlen⟩
    obtain ⟨r, e1, e2, e3, e4⟩ := antipode_dense_eq (maxLetters := maxLetters) hw hv
    obtain ⟨q, f1, f2, f3, f4⟩ := antipode_dense_eq (maxLetters := maxLetters) hw e2
    refine ⟨r, e1, ?_⟩
    rw [f1, dense_eq_of_ser f2 hv (f3.trans e3) (by rw [f4, e4, antipode_antipode])]
  · rintro v ⟨f, hs, hk, _⟩
    have hg : Sparse.Good v := ⟨hs, fun p hp => by
      obtain ⟨u, _, rfl, h⟩ := hk p hp; exact h⟩
    have hv : Sparse.Tensor w depth v := ⟨hg, fun k hk' => by
      by_contra h0
      obtain ⟨u, hu, he, _⟩ := hk _ ((Sparse.mem_iff_read hg).2 ⟨h0, rfl⟩)
      exact hk' ((Prod.mk.inj he).1 ▸ wordKey_valid hu)⟩
    obtain ⟨r, e1, e2, e3⟩ := antipode_sparse_eq maxLetters hv
    obtain ⟨q, f1, f2, f3⟩ := antipode_sparse_eq maxLetters e2
    refine ⟨r, e1, ?_⟩
    rw [f1]
    congr 2
    refine Sparse.ext_read f2.1 hg fun k => ?_
    by_cases hval : ValidKey (wordsBelow w) depth k
    · obtain ⟨u, hu, rfl⟩ := exists_wordKey hval
      have := (f3.trans (antipode_congr e3)) u hu
      rw [antipode_antipode] at this
      exact this
    · rw [f2.2 k hval, hv.2 k hval]

/-- The size of the tiles does not matter. -/
theorem C143_tiles (m n : ℕ) {w depth : ℕ} (hw : w < 65536) {v : Dense K} (hd : v.degree ≤ depth)
    (hlen : v.storage.length = wordsBelow w (v.degree + 1)) :
    antipode m w depth (.dense v) = antipode n w depth (.dense v) := by
  obtain ⟨r, e1, e2, e3, e4⟩ := antipode_dense_eq (maxLetters := m) hw ⟨hd, hlen⟩
  obtain ⟨q, f1, f2, f3, f4⟩ := antipode_dense_eq (maxLetters := n) hw ⟨hd, hlen⟩
  rw [e1, f1, dense_eq_of_ser e2 f2 (e3.trans f3.symm) (e4.trans f4.symm)]

/-- The antipode reverses products: `antipode(a * b) == antipode(b) * antipode(a)`, for dense
tensors with storage. -/
theorem C143_product_partial [CharZero K] (maxLetters : ℕ) {w depth : ℕ} (hw : w < 65536)
    (hdep : 1 ≤ depth) {a b p : Dense K} (ha : a.degree ≤ depth) (hb : b.degree ≤ depth)
    (hla : a.storage.length = wordsBelow w (a.degree + 1))
    (hlb : b.storage.length = wordsBelow w (b.degree + 1))
    (hp : (denseTensor w depth).mul a b = some p) (hne : p.storage ≠ []) :
    ∃ x y r q, antipode maxLetters w depth (.dense a) = some (.dense x) ∧
      antipode maxLetters w depth (.dense b) = some (.dense y) ∧
      antipode maxLetters w depth (.dense p) = some (.dense r) ∧
      (denseTensor w depth).mul y x = some q ∧ (denseTensor w depth).beq r q = true := by
  have hA := denseTensor_lawful (K := K) w hdep
  obtain ⟨p', h1, h2, h3⟩ := hA.mul a b (Or.inr ⟨ha, hla⟩) (Or.inr ⟨hb, hlb⟩)
  rw [hp] at h1
  obtain rfl := Option.some.inj h1
  obtain ⟨x, x1, x2, _, x4⟩ := antipode_dense_eq (maxLetters := maxLetters) hw ⟨ha, hla⟩
  obtain ⟨y, y1, y2, _, y4⟩ := antipode_dense_eq (maxLetters := maxLetters) hw ⟨hb, hlb⟩
  obtain ⟨r, r1, r2, _, r4⟩ := antipode_dense_eq (maxLetters := maxLetters) hw
    (h2.1.resolve_left hne)
  obtain ⟨q, q1, q2, q3⟩ := hA.mul y x y2.tight.1 x2.tight.1
  refine ⟨x, y, r, q, x1, y1, r1, q1, (hA.beq r q r2.tight.1 q2.1).2 ?_⟩
  rw [r4]
  refine (antipode_congr h3).trans (EqUpTo.symm ?_)
  rw [antipode_mul, ← x4, ← y4]
  exact q3

/-- The antipode of a product of exponentials of Lie elements — of a signature — is its inverse. -/
theorem C143_signature_partial [CharZero K] (maxLetters : ℕ) {w depth : ℕ} (hw : w < 65536)
    (hdep : 1 ≤ depth) {g : Dense K} (hd : g.degree ≤ depth)
    (hlen : g.storage.length = wordsBelow w (g.degree + 1)) (ls : List (Series (Fin w) K))
    (hls : ∀ ℓ ∈ ls, IsLie ℓ) (hg : DenseValue w depth g (ls.map fun ℓ => texp ℓ).prod) :
    ∃ r p q, antipode maxLetters w depth (.dense g) = some (.dense r) ∧
      (denseTensor w depth).mul r g = some p ∧ (denseTensor w depth).mul g r = some q ∧
      DenseValue w depth p 1 ∧ DenseValue w depth q 1 := by
  have hA := denseTensor_lawful (K := K) w hdep
  obtain ⟨r, r1, r2, _, r4⟩ := antipode_dense_eq (maxLetters := maxLetters) hw ⟨hd, hlen⟩
  have hgf : g.Full w depth := ⟨hd, hlen⟩
  obtain ⟨p, p1, p2, p3⟩ := hA.mul r g r2.tight.1 hgf.tight.1
  obtain ⟨q, q1, q2, q3⟩ := hA.mul g r hgf.tight.1 r2.tight.1
  have hr : EqUpTo depth (r.ser w) (Series.antipode (ls.map fun ℓ => texp ℓ).prod) := by
    rw [r4]; exact antipode_congr hg.ser_eq
  have key := antipode_texp_prod ls hls
  refine ⟨r, p, q, r1, p1, q1, denseValue_of p2.1 ?_, denseValue_of q2.1 ?_⟩
  · rw [← key.1]; exact p3.trans (hr.mul hg.ser_eq)
  · rw [← key.2]; exact q3.trans (hg.ser_eq.mul hr)

/-- The hypotheses of `C143_signature_partial` hold for the exponential of a letter. -/
example : ∃ (g : Dense ℚ) (ls : List (Series (Fin 2) ℚ)), g.storage = [1, 3, 0, 9 / 2, 0, 0, 0] ∧
    g.degree ≤ 2 ∧ g.storage.length = wordsBelow 2 (g.degree + 1) ∧ (∀ ℓ ∈ ls, IsLie ℓ) ∧
    DenseValue 2 2 g (ls.map fun ℓ => texp ℓ).prod := by
  obtain ⟨r, h1, h2⟩ := (C69_dense_exp_log (K := ℚ) 2 (depth := 2) (by omega) (.word [0] 3)
    (.word [] 1) (.word [] 1) (by simp [TExpr.Ok]) (by simp [TExpr.Ok]) (by simp [TExpr.Ok])
    (by simp [TExpr.value]) (by simp [TExpr.value])).1
  have hr : (TExpr.word [0] 3 : TExpr 2 ℚ).exp.eval (denseTensor 2 2) =
      some ⟨[1, 3, 0, 9 / 2, 0, 0, 0], 2⟩ := by decide +kernel
  rw [hr] at h1
  obtain rfl := Option.some.inj h1
  refine ⟨⟨[1, 3, 0, 9 / 2, 0, 0, 0], 2⟩, [(TExpr.word [0] 3 : TExpr 2 ℚ).value 2], rfl, le_refl _,
    by decide, ?_, by simpa using h2⟩
  intro ℓ hℓ
  rw [List.mem_singleton.1 hℓ]
  have h : (TExpr.word [0] 3 : TExpr 2 ℚ).value 2 = (3 : ℚ) • letter ℚ (0 : Fin 2) := by
    funext u
    rw [Series.smul_apply]
    unfold TExpr.value letter
    split_ifs <;> simp
  rw [h]
  exact IsLie.smul _ (IsLie.letter 0)

/-- A dense tensor without storage — zero as it is made by a context, or as left by `clear` — is
read outside its storage, while the antipode of the zero sparse tensor is zero. -/
theorem C143_empty_refuted (maxLetters w depth degree : ℕ) :
    antipode maxLetters w depth (.dense (⟨[], degree⟩ : Dense K)) = none ∧
    antipode maxLetters w depth (.sparse ([] : Sparse K)) = some (.sparse []) := by
  obtain ⟨h, h1, _⟩ := new_eq maxLetters w depth
  unfold antipode
  rw [h1]
  constructor
  · simp only [Option.bind_eq_bind, Option.bind_some]
    unfold AntipodeHelper.dense
    dsimp only
    rw [List.range_succ_eq_map, loop_cons]
    rfl
  · rfl

/-- The hypotheses hold for a tensor of width 2 and depth 5, whose levels from 4 on are treated in
tiles of words of 2 letters: the coefficient of the word 11212 becomes minus that of 21211. -/
example : ∃ v r : Dense ℚ, (TExpr.add (.word [0, 0, 1, 0, 1] 7) (.word [1] 3) : TExpr 2 ℚ).eval
      (denseTensor 2 5) = some v ∧ v.degree = 5 ∧ v.storage.length = wordsBelow 2 6 ∧
    (AntipodeHelper.new 3 2 5).bind (fun h => h.dense v) = some r ∧
    r.storage[wordIndex ([1, 0, 1, 0, 0] : List (Fin 2))]? = some (-7) ∧
    r.storage[wordIndex ([1] : List (Fin 2))]? = some (-3) :=
  ⟨_, _, rfl, by decide +kernel, by decide +kernel, rfl, by decide +kernel, by decide +kernel⟩

end RoughPy.Lite
