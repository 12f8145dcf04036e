import Verif.Lite.LieElems
import Verif.Lie.Props
import Mathlib.Tactic.NoncommRing

set_option linter.unusedSectionVars false

/-!
# Properties of Lie elements of `libalgebra_lite`

Vocabulary: `Verif/Lite/LieSpec.lean`.  `HallElems hs e` gives the keys of the Hall set `hs` their
meaning as tensors, `LieHistory w c` says that `c` is a cache of products that can arise,
`LExpr.value` is the meaning of an expression.  `x.eval (sparseLie hs depth fuel) c` and
`x.eval (denseLie hs B fuel) c` run the modelled code, starting with the cache `c`; `fuel` bounds
the recursion of the multiplication of keys, and every large enough bound will do.
-/

namespace RoughPy.Lite

open RoughPy.Tensor RoughPy.Tensor.Series
open RoughPy.Lie (IsHallTable HasDegree hallTable hallTable_isHall construct)

attribute [local instance] LieRing.ofAssociativeRing

variable {K : Type} [Field K] [DecidableEq K]

/-! ## The Hall set -/

/-- C26 for the Hall set of the C++ library: it has the keys of the `LieBasis` of the same width
and depth, in the same order.  `κ k` is the key at position `k`; indices of coefficients start with
the first letter, at position one. -/
theorem C26_lite_same_basis (w : ℕ) {depth : ℕ} (hd : 1 ≤ depth) :
    ∃ hs b, ∃ κ : ℕ → Key, HallSet.new w depth = some hs ∧ construct w depth = some b ∧
      κ 0 = ⟨0, 0⟩ ∧ (∀ i < b.data.length, ∀ j < b.data.length, (κ i < κ j ↔ i < j)) ∧
      (∀ k, 0 < k → k < b.data.length → HasDegree b k (κ k).deg ∧ hs.HasKey (κ k) ∧
        hs.keyOfIndex (k - 1) = some (κ k) ∧
        (hs.startOf (κ k).deg).map (· + (κ k).idx) = some (k - 1)) ∧
      (∀ k, hs.HasKey k → ∃ i, 0 < i ∧ i < b.data.length ∧ k = κ i) ∧
      (∀ k i j, 0 < k → b.data[k]? = some (i, j) → hs.parents (κ k) = some (κ i, κ j) ∧
        hs.find (κ i, κ j) = some (κ k)) ∧
      ∀ p k, hs.find p = some k → ∃ n i j, 0 < n ∧ b.data[n]? = some (i, j) ∧ k = κ n ∧
        p = (κ i, κ j) := by
  obtain ⟨m, rfl⟩ : ∃ m, depth = m + 1 := ⟨depth - 1, by omega⟩
  obtain ⟨hs, h1, hr, -⟩ := hallBasis_eq w m
  have hb := hallTable_isHall w m
  have hh : HallRep w (m + 1) hs := ⟨m, hr, le_rfl⟩
  refine ⟨hs, hallTable w m, keyAt (hallTable w m), h1, Lie.construct_eq w m, keyAt_zero hb,
    fun i hi j hj => keyAt_lt_iff hb hi hj, fun k h0 hk => ?_, fun k hk => ?_, fun k i j h0 hrow => ?_,
    fun p k hp => ?_⟩
  · have hv := (validKey_iff hb).2 ⟨k, h0, hk, rfl⟩
    have hL := hallBasis_lawful hb hr
    have hidx := keyIndex_keyAt hb h0 hk
    refine ⟨hb.hasDegree_deg hk, (hasKey_iff hb hr).2 hv, ?_, ?_⟩
    · have := hL.indexToKey _ hv.1 hv.2
      rw [show lieStart (hallTable w m) (keyAt (hallTable w m) k).deg +
        (keyAt (hallTable w m) k).idx = k - 1 from hidx] at this
      exact this
    · have : hs.startOf (keyAt (hallTable w m) k).deg = _ := hL.startOf _ hv.1 (by
        have := hv.2
        omega)
      rw [this, Option.map_some, ← hidx]
      rfl
  · exact (validKey_iff hb).1 ((hasKey_iff hb hr).1 hk)
  · exact ⟨hh.rep_parents hb hr hrow, hr.found k _ h0 hrow⟩
  · by_contra hne
    have := hr.absent p fun n r h0 hrow hp' => hne ⟨n, r.1, r.2, h0, hrow, by
      have h3 := hr.found n r h0 hrow
      rw [← hp'] at h3
      have hp2 : hs.reverse p = some k := hp
      rw [h3, Option.some.injEq] at hp2
      exact hp2.symm, hp'⟩
    have hp2 : hs.reverse p = some k := hp
    rw [this] at hp2
    cases hp2

/-- The keys of a Hall set have a meaning, and only one. -/
theorem C25_lite_elements (w : ℕ) {depth : ℕ} (hd : 1 ≤ depth) {hs : HallSet}
    (h : HallSet.new w depth = some hs) :
    (∃ e : Key → Series (Fin w) K, HallElems hs e) ∧
    ∀ e e' : Key → Series (Fin w) K, HallElems hs e → HallElems hs e' →
      ∀ k, hs.HasKey k → e k = e' k := by
  obtain ⟨m, rfl⟩ : ∃ m, depth = m + 1 := ⟨depth - 1, by omega⟩
  obtain ⟨hs', h1, hr, -⟩ := hallBasis_eq w m
  rw [h1, Option.some.injEq] at h
  subst h
  refine ⟨⟨_, hallElems_exists hr⟩, fun e e' he he' k hk => ?_⟩
  have hb := hallTable_isHall w m
  obtain ⟨i, i1, i2, rfl⟩ := (validKey_iff hb).1 ((hasKey_iff hb hr).1 hk)
  rw [he.eq hr i1 i2, he'.eq hr i1 i2]

/-- C25 for the C++ library: the product of two keys whose degrees add up to at most the depth is
computed, whatever is in the cache, and is their commutator, written in keys of the Hall set. -/
theorem C25_lite_product (w : ℕ) {depth : ℕ} (hd : 1 ≤ depth) {hs : HallSet}
    (h : HallSet.new w depth = some hs) :
    ∃ n₀, ∀ fuel ≥ n₀, ∀ e : Key → Series (Fin w) K, HallElems hs e → ∀ cache, LieHistory w cache →
      ∀ l r, hs.HasKey l → hs.HasKey r → l.deg + r.deg ≤ depth →
      ∃ p cache', lieProd hs depth fuel cache l r = some (p, cache') ∧ LieHistory w cache' ∧
        (∀ t ∈ p, hs.HasKey t.1 ∧ t.1.deg = l.deg + r.deg) ∧
        (p.map fun t => t.2 • e t.1).sum = e l * e r - e r * e l := by
  obtain ⟨m, rfl⟩ : ∃ m, depth = m + 1 := ⟨depth - 1, by omega⟩
  obtain ⟨hs', h1, hr, -⟩ := hallBasis_eq w m
  rw [h1, Option.some.injEq] at h
  subst h
  have hb := hallTable_isHall w m
  obtain ⟨n₀, hn⟩ := prodSpec (K := K) h1 hr
  refine ⟨n₀, fun fuel hf e he cache hc l r hl hrk hdeg => ?_⟩
  obtain ⟨p, c', g1, g2, g3, g4⟩ := hn fuel hf e he cache l r hc ((hasKey_iff hb hr).1 hl)
    ((hasKey_iff hb hr).1 hrk) hdeg
  exact ⟨p, c', g1, g2, fun t ht => ⟨(hasKey_iff hb hr).2 (g3 t ht).1, (g3 t ht).2⟩, g4⟩

/-- The product of keys of degrees 2 and 3 in width 2. -/
example : ((HallSet.new 2 5).bind fun hs =>
    (lieProd hs 5 20 LieCache.fresh ⟨2, 0⟩ ⟨3, 0⟩).map (·.1)) = some [(⟨5, 4⟩, 1)] := by
  decide +kernel

/-! ## C70: expressions over Lie elements -/

/-- Every expression over sparse Lie elements evaluates, whatever products have been computed
before; the entries of the result are keys of the Hall set with non-zero coefficients, in order,
and stand for the value of the expression up to the depth. -/
theorem C70_sparse_expression (w : ℕ) {depth : ℕ} (hd : 1 ≤ depth) {hs : HallSet}
    (h : HallSet.new w depth = some hs) :
    ∃ n₀, ∀ fuel ≥ n₀, ∀ e : Key → Series (Fin w) K, HallElems hs e → ∀ x : LExpr K, x.Ok hs →
      ∀ cache, LieHistory w cache → ∃ v cache',
        x.eval (sparseLie hs depth fuel) cache = some (v, cache') ∧ LieHistory w cache' ∧
        v.Pairwise (fun a b => a.1 < b.1) ∧ (∀ t ∈ v, hs.HasKey t.1 ∧ t.2 ≠ 0) ∧
        EqUpTo depth (itemsValue e v) (x.value e) := by
  obtain ⟨m, rfl⟩ : ∃ m, depth = m + 1 := ⟨depth - 1, by omega⟩
  obtain ⟨hs', h1, hr, -⟩ := hallBasis_eq w m
  rw [h1, Option.some.injEq] at h
  subst h
  have hb := hallTable_isHall w m
  obtain ⟨n₀, hn⟩ := sparseLie_lawful (K := K) h1 hr
  refine ⟨n₀, fun fuel hf e he x hx cache hc => ?_⟩
  have hA := hn fuel hf e he
  obtain ⟨v, c', g1, g2, g3, g4⟩ := hA.eval hr x hx cache hc
  have hI := Sparse.items_of_goodOn g3.1
  refine ⟨v, c', g1, g2, hI.sorted, fun t ht => ⟨(hasKey_iff hb hr).2 (hI.val t ht).1, ?_⟩, ?_⟩
  · exact g3.1.1.2 t ht
  · rw [itemsValue, lieSer_items hb hI]
    exact g4

/-- Every expression over dense Lie elements evaluates — no read or write is out of bounds —
whatever products have been computed before, and the entries of the result stand for the value of
the expression up to the depth. -/
theorem C70_dense_expression {w : ℕ} (hw : 1 ≤ w) {depth : ℕ} (hd : 1 ≤ depth) {hs : HallSet}
    {B : Basis} (h : hallBasis w depth = some (hs, B)) :
    ∃ n₀, ∀ fuel ≥ n₀, ∀ e : Key → Series (Fin w) K, HallElems hs e → ∀ x : LExpr K, x.Ok hs →
      ∀ cache, LieHistory w cache → ∃ v cache' l,
        x.eval (denseLie hs B fuel) cache = some (v, cache') ∧ LieHistory w cache' ∧
        (Dense.ops B).items v = some l ∧
        l.Pairwise (fun a b => a.1 < b.1) ∧ (∀ t ∈ l, hs.HasKey t.1) ∧
        EqUpTo depth (itemsValue e l) (x.value e) := by
  obtain ⟨m, rfl⟩ : ∃ m, depth = m + 1 := ⟨depth - 1, by omega⟩
  obtain ⟨hs', h1, hr, h2⟩ := hallBasis_eq w m
  rw [h2, Option.some.injEq, Prod.mk.injEq] at h
  obtain ⟨rfl, rfl⟩ := h
  have hb := hallTable_isHall w m
  obtain ⟨n₀, hn⟩ := denseLie_lawful (K := K) hw h1 hr
  refine ⟨n₀, fun fuel hf e he x hx cache hc => ?_⟩
  have hA := hn fuel hf e he
  obtain ⟨v, c', g1, g2, g3, g4⟩ := hA.eval hr x hx cache hc
  obtain ⟨l, l1, hI⟩ := hA.graded.items v g3
  refine ⟨v, c', l, g1, g2, l1, hI.sorted, fun t ht => (hasKey_iff hb hr).2 (hI.val t ht).1, ?_⟩
  rw [itemsValue, lieSer_items hb hI]
  exact g4

/-- `==` on results, computed with any caches, is equality of the values: for sparse Lie
elements. -/
theorem C70_sparse_eq [CharZero K] (w : ℕ) {depth : ℕ} (hd : 1 ≤ depth) {hs : HallSet}
    (h : HallSet.new w depth = some hs) :
    ∃ n₀, ∀ fuel ≥ n₀, ∀ fuel' ≥ n₀, ∀ e : Key → Series (Fin w) K, HallElems hs e →
      ∀ x y : LExpr K, x.Ok hs → y.Ok hs →
      ∀ cache cache', LieHistory w cache → LieHistory w cache' → ∃ v c v' c',
        x.eval (sparseLie hs depth fuel) cache = some (v, c) ∧
        y.eval (sparseLie hs depth fuel') cache' = some (v', c') ∧
        (Sparse.ops.beq v v' = true ↔ EqUpTo depth (x.value e) (y.value e)) := by
  obtain ⟨m, rfl⟩ : ∃ m, depth = m + 1 := ⟨depth - 1, by omega⟩
  obtain ⟨hs', h1, hr, -⟩ := hallBasis_eq w m
  rw [h1, Option.some.injEq] at h
  subst h
  have hb := hallTable_isHall w m
  obtain ⟨n₀, hn⟩ := sparseLie_lawful (K := K) h1 hr
  refine ⟨n₀, fun fuel hf fuel' hf' e he x y hx hy cache cache' hc hc' => ?_⟩
  have hA := hn fuel hf e he
  obtain ⟨v, c, g1, g2, g3, g4⟩ := hA.eval hr x hx cache hc
  obtain ⟨v', c', k1, k2, k3, k4⟩ := (hn fuel' hf' e he).eval hr y hy cache' hc'
  refine ⟨v, c, v', c', g1, k1, (hA.graded.lawful.beq v v' g3 k3).trans ⟨fun hq => ?_, fun hq => ?_⟩⟩
  · refine g4.symm.trans (EqUpTo.trans ?_ k4)
    rw [lieSer_congr hb hq]
    exact EqUpTo.refl _ _
  · exact lieSer_inj hr he (g4.trans (hq.trans k4.symm))

/-- `==` on results, computed with any caches, is equality of the values: for dense Lie
elements. -/
theorem C70_dense_eq [CharZero K] {w : ℕ} (hw : 1 ≤ w) {depth : ℕ} (hd : 1 ≤ depth) {hs : HallSet}
    {B : Basis} (h : hallBasis w depth = some (hs, B)) :
    ∃ n₀, ∀ fuel ≥ n₀, ∀ fuel' ≥ n₀, ∀ e : Key → Series (Fin w) K, HallElems hs e →
      ∀ x y : LExpr K, x.Ok hs → y.Ok hs →
      ∀ cache cache', LieHistory w cache → LieHistory w cache' → ∃ v c v' c',
        x.eval (denseLie hs B fuel) cache = some (v, c) ∧
        y.eval (denseLie hs B fuel') cache' = some (v', c') ∧
        ((Dense.ops B).beq v v' = true ↔ EqUpTo depth (x.value e) (y.value e)) := by
  obtain ⟨m, rfl⟩ : ∃ m, depth = m + 1 := ⟨depth - 1, by omega⟩
  obtain ⟨hs', h1, hr, h2⟩ := hallBasis_eq w m
  rw [h2, Option.some.injEq, Prod.mk.injEq] at h
  obtain ⟨rfl, rfl⟩ := h
  have hb := hallTable_isHall w m
  obtain ⟨n₀, hn⟩ := denseLie_lawful (K := K) hw h1 hr
  refine ⟨n₀, fun fuel hf fuel' hf' e he x y hx hy cache cache' hc hc' => ?_⟩
  have hA := hn fuel hf e he
  obtain ⟨v, c, g1, g2, g3, g4⟩ := hA.eval hr x hx cache hc
  obtain ⟨v', c', k1, k2, k3, k4⟩ := (hn fuel' hf' e he).eval hr y hy cache' hc'
  refine ⟨v, c, v', c', g1, k1, (hA.graded.lawful.beq v v' g3 k3).trans ⟨fun hq => ?_, fun hq => ?_⟩⟩
  · refine g4.symm.trans (EqUpTo.trans ?_ k4)
    rw [lieSer_congr hb hq]
    exact EqUpTo.refl _ _
  · exact lieSer_inj hr he (g4.trans (hq.trans k4.symm))

/-- C28 for the C++ library: the result of an expression does not depend on the products computed
before it. -/
theorem C28_lite_history [CharZero K] {w : ℕ} (hw : 1 ≤ w) {depth : ℕ} (hd : 1 ≤ depth)
    {hs : HallSet} {B : Basis} (h : hallBasis w depth = some (hs, B)) :
    ∃ n₀, ∀ fuel ≥ n₀, ∀ x : LExpr K, x.Ok hs →
      ∀ cache cache', LieHistory w cache → LieHistory w cache' →
      (∃ v c c', x.eval (sparseLie hs depth fuel) cache = some (v, c) ∧
        x.eval (sparseLie hs depth fuel) cache' = some (v, c')) ∧
      ∃ v c v' c', x.eval (denseLie hs B fuel) cache = some (v, c) ∧
        x.eval (denseLie hs B fuel) cache' = some (v', c') ∧ (Dense.ops B).beq v v' = true := by
  obtain ⟨hs', h1⟩ : ∃ hs', HallSet.new w depth = some hs' := by
    obtain ⟨hs', h1, -⟩ := new_rep w depth
    exact ⟨hs', h1⟩
  have h1' : HallSet.new w depth = some hs := by
    unfold hallBasis at h
    rw [h1] at h ⊢
    simp only [Option.bind_eq_bind, Option.bind_some, Option.bind_eq_some_iff, Option.some.injEq,
      Prod.mk.injEq] at h
    obtain ⟨_, _, h, _⟩ := h
    rw [h]
  obtain ⟨⟨e, he⟩, -⟩ := C25_lite_elements (K := K) w hd h1'
  obtain ⟨n₁, hn₁⟩ := C70_sparse_eq (K := K) w hd h1'
  obtain ⟨n₂, hn₂⟩ := C70_dense_eq (K := K) hw hd h
  obtain ⟨n₃, hn₃⟩ := C70_sparse_expression (K := K) w hd h1'
  refine ⟨max n₁ (max n₂ n₃), fun fuel hf x hx cache cache' hc hc' => ?_⟩
  obtain ⟨v, c, v', c', g1, g2, g3⟩ := hn₁ fuel (by omega) fuel (by omega) e he x x hx hx cache
    cache' hc hc'
  obtain ⟨u, c₁, u', c₁', k1, k2, k3⟩ := hn₂ fuel (by omega) fuel (by omega) e he x x hx hx cache
    cache' hc hc'
  refine ⟨⟨v, c, c', g1, ?_⟩, u, c₁, u', c₁', k1, k2, k3.2 (EqUpTo.refl _ _)⟩
  have hvv : v = v' := by
    obtain ⟨a, _, a1, -, a2, a3, -⟩ := hn₃ fuel (by omega) e he x hx cache hc
    obtain ⟨a', _, a1', -, a2', a3', -⟩ := hn₃ fuel (by omega) e he x hx cache' hc'
    rw [g1, Option.some.injEq, Prod.mk.injEq] at a1
    rw [g2, Option.some.injEq, Prod.mk.injEq] at a1'
    obtain ⟨rfl, -⟩ := a1
    obtain ⟨rfl, -⟩ := a1'
    have hread := (Sparse.beq_iff ⟨a2, fun t ht => (a3 t ht).2⟩ ⟨a2', fun t ht => (a3' t ht).2⟩).1
      (g3.2 (EqUpTo.refl _ _))
    exact Sparse.ext_read ⟨a2, fun t ht => (a3 t ht).2⟩ ⟨a2', fun t ht => (a3' t ht).2⟩ hread
  rw [hvv]
  exact g2

/-! ## C71: the laws of a Lie algebra -/

/-- Both expressions evaluate, starting with any caches, and the results compare equal. -/
def Same {T : Type} (A : LieOps K T) (w : ℕ) (x y : LExpr K) : Prop :=
  ∀ cache cache', LieHistory w cache → LieHistory w cache' → ∃ v c v' c',
    x.eval A cache = some (v, c) ∧ y.eval A cache' = some (v', c') ∧ A.beq v v' = true

/-- Antisymmetry, the Jacobi identity and linearity, as compared by the code itself, for sparse and
dense Lie elements. -/
theorem C71_lie_laws [CharZero K] {w : ℕ} (hw : 1 ≤ w) {depth : ℕ} (hd : 1 ≤ depth)
    {hs : HallSet} {B : Basis} (hnew : HallSet.new w depth = some hs)
    (h : hallBasis w depth = some (hs, B)) :
    ∃ n₀, ∀ fuel ≥ n₀, ∀ a b c : LExpr K, a.Ok hs → b.Ok hs → c.Ok hs → ∀ s : K,
      (∀ x y, (x, y) ∈ [(a.mul b, (b.mul a).neg), (a.mul a, a.sub a),
          ((a.mul (b.mul c)).add ((b.mul (c.mul a)).add (c.mul (a.mul b))), a.sub a),
          ((a.add b).mul c, (a.mul c).add (b.mul c)), (a.mul (b.add c), (a.mul b).add (a.mul c)),
          ((a.smul s).mul b, (a.mul b).smul s), (a.mul (b.smul s), (a.mul b).smul s),
          (a.mulIn b, a.mul b), (a.addIn b, a.add b), (a.subIn b, a.sub b)] →
        Same (sparseLie hs depth fuel) w x y ∧ Same (denseLie hs B fuel) w x y) := by
  obtain ⟨n₁, hn₁⟩ := C70_sparse_eq (K := K) w hd hnew
  obtain ⟨n₂, hn₂⟩ := C70_dense_eq (K := K) hw hd h
  obtain ⟨⟨e, he⟩, -⟩ := C25_lite_elements (K := K) w hd hnew
  refine ⟨max n₁ n₂, fun fuel hf a b c ha hb hc s x y hxy => ?_⟩
  have key : x.Ok hs ∧ y.Ok hs ∧ x.value e = y.value e := by
    simp only [List.mem_cons, Prod.mk.injEq, List.not_mem_nil, or_false] at hxy
    rcases hxy with ⟨rfl, rfl⟩ | ⟨rfl, rfl⟩ | ⟨rfl, rfl⟩ | ⟨rfl, rfl⟩ | ⟨rfl, rfl⟩ | ⟨rfl, rfl⟩ |
      ⟨rfl, rfl⟩ | ⟨rfl, rfl⟩ | ⟨rfl, rfl⟩ | ⟨rfl, rfl⟩ <;>
    refine ⟨by simp only [LExpr.Ok, ha, hb, hc, and_self],
      by simp only [LExpr.Ok, ha, hb, hc, and_self], ?_⟩ <;>
    simp only [LExpr.value]
    · rw [neg_sub]
    · rw [sub_self, sub_self]
    · noncomm_ring
    · noncomm_ring
    · noncomm_ring
    · rw [smul_mul_assoc, mul_smul_comm, smul_sub]
    · rw [smul_mul_assoc, mul_smul_comm, smul_sub]
  obtain ⟨hx, hy, hv⟩ := key
  constructor
  · intro c₁ c₂ h₁ h₂
    obtain ⟨v, c, v', c', g1, g2, g3⟩ := hn₁ fuel (by omega) fuel (by omega) e he x y hx hy c₁ c₂ h₁ h₂
    exact ⟨v, c, v', c', g1, g2, g3.2 (by rw [hv]; exact EqUpTo.refl _ _)⟩
  · intro c₁ c₂ h₁ h₂
    obtain ⟨v, c, v', c', g1, g2, g3⟩ := hn₂ fuel (by omega) fuel (by omega) e he x y hx hy c₁ c₂ h₁ h₂
    exact ⟨v, c, v', c', g1, g2, g3.2 (by rw [hv]; exact EqUpTo.refl _ _)⟩

/-! ## Concrete cases -/

/-- The hypotheses of the theorems above: a Hall set, its keys, a cache with a product computed
for another depth. -/
example : ∃ hs B cache, hallBasis 2 3 = some (hs, B) ∧ HallSet.new 2 3 = some hs ∧
    LieHistory 2 cache ∧ cache (⟨2, 0⟩, ⟨1, 0⟩) = [(⟨3, 0⟩, -1)] ∧
    ((LExpr.key ⟨1, 0⟩ 2).mul ((LExpr.key ⟨1, 1⟩ 3).add (LExpr.key ⟨2, 0⟩ 5)) : LExpr ℚ).Ok hs := by
  have h4 : ((HallSet.new 2 4).bind fun hs => (lieProd hs 4 9 LieCache.fresh ⟨2, 0⟩ ⟨1, 0⟩).map
      fun r => r.2 (⟨2, 0⟩, ⟨1, 0⟩)) = some [(⟨3, 0⟩, -1)] := by decide +kernel
  obtain ⟨hs4, h5, h6⟩ := Option.bind_eq_some_iff.1 h4
  obtain ⟨⟨p, cache⟩, h7, h8⟩ := Option.map_eq_some_iff.1 h6
  obtain ⟨hs, B, h9⟩ : ∃ hs B, hallBasis 2 3 = some (hs, B) := ⟨_, _, rfl⟩
  have h10 : HallSet.new 2 3 = some hs ∧ hs.sizeOfDegree 1 = some 2 ∧ hs.sizeOfDegree 2 = some 1 := by
    have : (hallBasis 2 3).map Prod.fst = some hs := by rw [h9]; rfl
    have e1 : (hallBasis 2 3).map Prod.fst = HallSet.new 2 3 := rfl
    rw [e1] at this
    refine ⟨this, ?_⟩
    have e2 : (HallSet.new 2 3).map (fun hs => (hs.sizeOfDegree 1, hs.sizeOfDegree 2)) =
        some (some 2, some 1) := by decide +kernel
    rw [this, Option.map_some, Option.some.injEq, Prod.mk.injEq] at e2
    exact e2
  exact ⟨hs, B, cache, h9, h10.1, LieHistory.lookup h5 LieHistory.fresh h7, h8,
    ⟨by decide, 2, h10.2.1, by decide⟩, ⟨by decide, 2, h10.2.1, by decide⟩,
    by decide, 1, h10.2.2, by decide⟩

/-- The product of `2 a` and `3 b + 5 [a, b]` at depth 3 for the two kinds of elements. -/
example : ((HallSet.new 2 3).bind fun hs =>
      (((LExpr.key ⟨1, 0⟩ 2).mul ((LExpr.key ⟨1, 1⟩ 3).add (LExpr.key ⟨2, 0⟩ 5)) : LExpr ℚ).eval
        (sparseLie hs 3 9) LieCache.fresh).map (·.1)) = some [(⟨2, 0⟩, 6), (⟨3, 0⟩, 10)] ∧
    ((hallBasis 2 3).bind fun r : HallSet × Basis =>
      (((LExpr.key ⟨1, 0⟩ 2).mul ((LExpr.key ⟨1, 1⟩ 3).add (LExpr.key ⟨2, 0⟩ 5)) : LExpr ℚ).eval
        (denseLie r.1 r.2 9) LieCache.fresh).map (·.1.storage)) = some [0, 0, 6, 10, 0] := by
  decide +kernel

/-- `commutator` of two Lie elements is twice their bracket: it takes the difference of the two
products, and the product already is the bracket. -/
theorem C70_commutator_is_twice_the_bracket : ∃ hs,
    HallSet.new 2 2 = some hs ∧
    (((LExpr.key ⟨1, 0⟩ 1).mul (LExpr.key ⟨1, 1⟩ 1) : LExpr ℚ).eval
        (sparseLie hs 2 9) LieCache.fresh).map (·.1) = some [(⟨2, 0⟩, 1)] ∧
    (((LExpr.key ⟨1, 0⟩ 1).comm (LExpr.key ⟨1, 1⟩ 1) : LExpr ℚ).eval
        (sparseLie hs 2 9) LieCache.fresh).map (·.1) = some [(⟨2, 0⟩, 2)] :=
  ⟨_, rfl, by decide +kernel, by decide +kernel⟩

/-- `out.add_mul(a, b)` on dense Lie elements can lower the recorded degree of `out`: here `out` is
a key of degree 3 and its record becomes 2, so that the product of `out` with a letter misses the
term of degree 4.  The product before the call has it. -/
theorem C70_dense_add_mul_lowers_degree :
    ((hallBasis 2 4).bind fun r => do
      let A : LieOps ℚ (Dense ℚ) := denseLie r.1 r.2 9
      let out ← A.single ⟨3, 0⟩ 1
      let a ← A.single ⟨1, 0⟩ 1
      let b ← A.single ⟨1, 1⟩ 1
      let out' ← A.addMul LieCache.fresh out a b
      let before ← A.mul LieCache.fresh out a
      let after ← A.mul LieCache.fresh out'.1 a
      some (out.storage, out'.1.storage, before.1.storage, after.1.storage)) =
    some ([0, 0, 0, 1, 0], [0, 0, 1, 1, 0], [0, 0, 0, 0, 0, -1, 0, 0], [0, 0, 0, -1, 0]) := by
  decide +kernel

end RoughPy.Lite
