import Verif.Lite.ContextSig

set_option linter.unusedSectionVars false

/-!
# Properties of the context of `libalgebra_lite`

Vocabulary: `Verif/Lite/ContextSpec.lean`.  `LiteCtx.new w depth = some c` says that `c` is the
context of a width and depth, `HallElems c.hs e` gives its Lie keys their meaning as tensors.
`IsTensor w depth x f` and `IsLieElem c e x f` say that an element, sparse or dense, stands for the
tensor `f`; `c.Computes run P` says that a computation succeeds with a result of which `P` holds,
whatever the maps of the context remember.
-/

namespace RoughPy.Lite

open RoughPy.Tensor RoughPy.Tensor.Series

variable {K : Type} [Field K] [DecidableEq K] {w depth : ℕ} {c : LiteCtx}
  {e : Key → Series (Fin w) K}

theorem ctx_facts (hd : 1 ≤ depth) (h : LiteCtx.new w depth = some c) :
    ∃ m, depth = m + 1 ∧ c.Ok w m ∧ ∃ n₀, ∀ fuel ≥ n₀, c.Fuel w m fuel := by
  obtain ⟨m, rfl⟩ : ∃ m, depth = m + 1 := ⟨depth - 1, by omega⟩
  have hc := LiteCtx.ok_new h
  exact ⟨m, rfl, hc, hc.fuel⟩

/-- from a description for the fuels that suffice to `Computes` -/
theorem computes_of {m : ℕ} (hc : c.Ok w m) {T : Type} {run : ℕ → MapsState → Option (T × MapsState)}
    {P : T → Prop} (hrun : ∀ fuel, c.Fuel w m fuel → ∀ st, MapsHistory w (m + 1) c.hs st →
      ∃ r st', run fuel st = some (r, st') ∧ MapsHistory w (m + 1) c.hs st' ∧ P r) :
    c.Computes run P := by
  obtain ⟨n₀, hn⟩ := hc.fuel
  refine ⟨n₀, fun fuel hf st hst => ?_⟩
  rw [hc.width, hc.depth] at hst ⊢
  exact hrun fuel (hn fuel hf) st hst

/-! ## C72, C73: the maps -/

/-- `lie_to_tensor` gives a tensor of the same storage type that stands for the same element of
the tensor algebra: it is linear and expands keys into commutators. -/
theorem C72_lie_to_tensor (hw : 1 ≤ w) (hd : 1 ≤ depth) (h : LiteCtx.new w depth = some c)
    (he : HallElems c.hs e) {x : Stored K} {f : Series (Fin w) K} (hx : IsLieElem c e x f) :
    c.Computes (fun fuel st => c.lieToTensor fuel st x) fun r =>
      r.vecType = x.vecType ∧ IsTensor w depth r f := by
  obtain ⟨m, rfl, hc, -⟩ := ctx_facts hd h
  exact computes_of hc fun fuel hf st hst => lieToTensor_stored hw hc he hf hst hx

/-- `tensor_to_lie` applies the Dynkin operator, divided by the degree, to every tensor. -/
theorem C73_tensor_to_lie (hw : 1 ≤ w) (hd : 1 ≤ depth) (h : LiteCtx.new w depth = some c)
    (he : HallElems c.hs e) {x : Stored K} {f : Series (Fin w) K} (hx : IsTensor w depth x f) :
    c.Computes (fun fuel st => c.tensorToLie fuel st x) fun r =>
      r.vecType = x.vecType ∧ IsLieElem c e r (dynkinUpTo K depth f) := by
  obtain ⟨m, rfl, hc, -⟩ := ctx_facts hd h
  exact computes_of hc fun fuel hf st hst => tensorToLie_stored hw hc he hf hst hx

/-! ## C28: what the maps remember does not matter -/

theorem sameResult_of {B : Basis}
    {run : ℕ → MapsState → Option (Stored K × MapsState)} {P : Stored K → Prop}
    (hrun : c.Computes run P) (hP : ∀ r r', P r → P r' → Stored.Same B r r') : c.SameResult B run := by
  obtain ⟨n₀, hn⟩ := hrun
  refine ⟨n₀, fun fuel hf fuel' hf' st st' hst hst' => ?_⟩
  obtain ⟨r, s, h1, -, h2⟩ := hn fuel hf st hst
  obtain ⟨r', s', h1', -, h2'⟩ := hn fuel' hf' st' hst'
  exact ⟨r, s, r', s', h1, h1', hP _ _ h2 h2'⟩

variable [CharZero K]

/-- What the maps remember, and which products of Lie keys have been computed, does not change
what `lie_to_tensor`, `tensor_to_lie`, `cbh`, `signature` and `log_signature` give. -/
theorem C28_lite_maps_history (hw : 1 ≤ w) (hd : 1 ≤ depth) (h : LiteCtx.new w depth = some c)
    (he : HallElems c.hs e) {x t : Stored K} {f g : Series (Fin w) K} (hx : IsLieElem c e x f)
    (ht : IsTensor w depth t g) {lies : List (Stored K)} {fs : List (Series (Fin w) K)}
    (hl : List.Forall₂ (IsLieElem c e) lies fs) {rows : List (KeyScalars K)}
    {gs : List (Series (Fin w) K)} (hr : List.Forall₂ (IsLieData c e) rows gs) (vt : VecType) :
    c.SameResult c.tensorBasis (fun fuel st => c.lieToTensor fuel st x) ∧
    c.SameResult c.lieBasis (fun fuel st => c.tensorToLie fuel st t) ∧
    c.SameResult c.lieBasis (fun fuel st => c.cbh fuel st lies vt) ∧
    c.SameResult c.tensorBasis (fun fuel st => c.signature fuel st rows vt) ∧
    c.SameResult c.lieBasis (fun fuel st => c.logSignature fuel st rows vt) := by
  have hA := C72_lie_to_tensor hw hd h he hx
  have hB := C73_tensor_to_lie hw hd h he ht
  obtain ⟨m, rfl, hc, -⟩ := ctx_facts hd h
  refine ⟨sameResult_of hA fun r r' h1 h2 =>
      (tensor_same hw hc h1.2 h2.2 (h1.1.trans h2.1.symm)).2 (EqUpTo.refl _ _),
    sameResult_of hB fun r r' h1 h2 =>
      (lie_same hw hc he h1.2 h2.2 (h1.1.trans h2.1.symm)).2 (EqUpTo.refl _ _),
    sameResult_of (computes_of hc fun fuel hf st hst => cbh_stored hw hc he hf hl hst vt)
      fun r r' h1 h2 => (lie_same hw hc he h1.2 h2.2 (h1.1.trans h2.1.symm)).2 (EqUpTo.refl _ _),
    sameResult_of (computes_of hc fun fuel hf st hst => signature_stored hw hc he hf hr hst vt)
      fun r r' h1 h2 => (tensor_same hw hc h1.2 h2.2 (h1.1.trans h2.1.symm)).2 (EqUpTo.refl _ _),
    sameResult_of (computes_of hc fun fuel hf st hst => logSignature_stored hw hc he hf hr hst vt)
      fun r r' h1 h2 => (lie_same hw hc he h1.2 h2.2 (h1.1.trans h2.1.symm)).2 (EqUpTo.refl _ _)⟩

/-! ## C23: the maps are inverse to each other -/

/-- On tensors that stand for Lie polynomials `tensor_to_lie` changes nothing. -/
theorem C73_tensor_to_lie_of_lie (hw : 1 ≤ w) (hd : 1 ≤ depth) (h : LiteCtx.new w depth = some c)
    (he : HallElems c.hs e) {x : Stored K} {f ℓ : Series (Fin w) K} (hx : IsTensor w depth x f)
    (hℓ : IsLie ℓ) (hf : EqUpTo depth ℓ f) :
    c.Computes (fun fuel st => c.tensorToLie fuel st x) fun r =>
      r.vecType = x.vecType ∧ IsLieElem c e r f := by
  obtain ⟨m, rfl, hc, -⟩ := ctx_facts hd h
  refine computes_of hc fun fuel hfu st hst => ?_
  obtain ⟨r, st', h1, h2, h3, h4⟩ := tensorToLie_stored hw hc he hfu hst hx
  refine ⟨r, st', h1, h2, h3, h4.congr ?_⟩
  rw [hc.depth, ← dynkinUpTo_congr hf]
  exact (dynkinUpTo_prim (hℓ.primitive _)).trans hf

/-- `tensor_to_lie(lie_to_tensor(x)) == x`. -/
theorem C23_lite_lie_tensor_lie (hw : 1 ≤ w) (hd : 1 ≤ depth) (h : LiteCtx.new w depth = some c)
    (he : HallElems c.hs e) {x : Stored K} {f : Series (Fin w) K} (hx : IsLieElem c e x f) :
    c.Computes (fun fuel st => do
      let t ← c.lieToTensor fuel st x
      c.tensorToLie fuel t.2 t.1) fun r => Stored.Same c.lieBasis r x := by
  obtain ⟨m, rfl, hc, -⟩ := ctx_facts hd h
  refine computes_of hc fun fuel hf st hst => ?_
  obtain ⟨t, s, h1, h2, h3, h4⟩ := lieToTensor_stored hw hc he hf hst hx
  obtain ⟨r, s', h5, h6, h7, h8⟩ := tensorToLie_stored hw hc he hf h2 h4
  refine ⟨r, s', by rw [h1]; exact h5, h6, (lie_same hw hc he h8 hx (h7.trans h3)).2 ?_⟩
  obtain ⟨ℓ, l1, l2⟩ := hx.isLie hw hc he
  rw [← dynkinUpTo_congr l2]
  exact (dynkinUpTo_prim (l1.primitive _)).trans l2

/-- `lie_to_tensor(tensor_to_lie(t)) == t` if `t` stands for a Lie polynomial. -/
theorem C23_lite_tensor_lie_tensor (hw : 1 ≤ w) (hd : 1 ≤ depth) (h : LiteCtx.new w depth = some c)
    (he : HallElems c.hs e) {x : Stored K} {f ℓ : Series (Fin w) K} (hx : IsTensor w depth x f)
    (hℓ : IsLie ℓ) (hf : EqUpTo depth ℓ f) :
    c.Computes (fun fuel st => do
      let t ← c.tensorToLie fuel st x
      c.lieToTensor fuel t.2 t.1) fun r => Stored.Same c.tensorBasis r x := by
  obtain ⟨m, rfl, hc, -⟩ := ctx_facts hd h
  refine computes_of hc fun fuel hfu st hst => ?_
  obtain ⟨t, s, h1, h2, h3, h4⟩ := tensorToLie_stored hw hc he hfu hst hx
  obtain ⟨r, s', h5, h6, h7, h8⟩ := lieToTensor_stored hw hc he hfu h2 h4
  refine ⟨r, s', by rw [h1]; exact h5, h6, (tensor_same hw hc h8 hx (h7.trans h3)).2 ?_⟩
  rw [← dynkinUpTo_congr hf]
  exact (dynkinUpTo_prim (hℓ.primitive _)).trans hf

/-- `to_signature(log_signature(data)) == signature(data)`. -/
theorem C23_lite_log_signature (hw : 1 ≤ w) (hd : 1 ≤ depth) (h : LiteCtx.new w depth = some c)
    (he : HallElems c.hs e) {rows : List (KeyScalars K)} {fs : List (Series (Fin w) K)}
    (hl : List.Forall₂ (IsLieData c e) rows fs) (vt : VecType) :
    c.Computes (fun fuel st => do
      let s ← c.signature fuel st rows vt
      let l ← c.logSignature fuel s.2 rows vt
      let t ← c.toSignature fuel l.2 l.1
      some ((t.1, s.1), t.2)) fun r : Stored K × Stored K => Stored.Same c.tensorBasis r.1 r.2 := by
  obtain ⟨m, rfl, hc, -⟩ := ctx_facts hd h
  refine computes_of hc fun fuel hf st hst => ?_
  obtain ⟨s, s', h1, h2, h3, h4⟩ := signature_stored hw hc he hf hl hst vt
  obtain ⟨l, l', l1, l2, l3, l4⟩ := logSignature_stored hw hc he hf hl h2 vt
  obtain ⟨t, t', t1, t2, t3, t4⟩ := toSignature_stored hw hc he hf l2 l4
  refine ⟨(t, s), t', ?_, t2, (tensor_same hw hc t4 h4 (t3.trans (l3.trans h3.symm))).2 ?_⟩
  · rw [h1]
    simp only [Option.bind_eq_bind, Option.bind_some]
    rw [l1]
    simp only [Option.bind_some]
    rw [t1]
    rfl
  · rw [texp_tlog ?_]
    · exact EqUpTo.refl _ _
    · obtain ⟨lies, hlies⟩ := rows_elems hw hc hl
      obtain ⟨g, g1, g2⟩ := prod_texp_groupLike hw hc he hlies
      rw [← g2 [] (Nat.zero_le _), g1.1]

/-! ## Signatures -/

/-- The signature of a sequence of increments is the product of the exponentials of the
increments, in the storage type asked for; the log-signature is its logarithm. -/
theorem C75_signature (hw : 1 ≤ w) (hd : 1 ≤ depth) (h : LiteCtx.new w depth = some c)
    (he : HallElems c.hs e) {rows : List (KeyScalars K)} {fs : List (Series (Fin w) K)}
    (hl : List.Forall₂ (IsLieData c e) rows fs) (vt : VecType) :
    c.Computes (fun fuel st => c.signature fuel st rows vt) (fun r =>
      r.vecType = vt ∧ IsTensor w depth r (fs.map texp).prod) ∧
    c.Computes (fun fuel st => c.logSignature fuel st rows vt) (fun r =>
      r.vecType = vt ∧ IsLieElem c e r (tlog (fs.map texp).prod)) := by
  obtain ⟨m, rfl, hc, -⟩ := ctx_facts hd h
  exact ⟨computes_of hc fun fuel hf st hst => signature_stored hw hc he hf hl hst vt,
    computes_of hc fun fuel hf st hst => logSignature_stored hw hc he hf hl hst vt⟩

/-- Chen's identity: the signature of two sequences of increments, one after the other, is the
product of their signatures. -/
theorem C75_chen (hw : 1 ≤ w) (hd : 1 ≤ depth) (h : LiteCtx.new w depth = some c)
    (he : HallElems c.hs e) {rows rows' : List (KeyScalars K)} {fs fs' : List (Series (Fin w) K)}
    (hl : List.Forall₂ (IsLieData c e) rows fs) (hl' : List.Forall₂ (IsLieData c e) rows' fs')
    (vt : VecType) :
    c.Computes (fun fuel st => do
      let a ← c.signature fuel st rows vt
      let b ← c.signature fuel a.2 rows' vt
      let ab ← c.signature fuel b.2 (rows ++ rows') vt
      some ((a.1, b.1, ab.1), ab.2)) fun r : Stored K × Stored K × Stored K =>
        ∃ S T : Series (Fin w) K, IsTensor w depth r.1 S ∧ IsTensor w depth r.2.1 T ∧
          IsTensor w depth r.2.2 (S * T) := by
  obtain ⟨m, rfl, hc, -⟩ := ctx_facts hd h
  refine computes_of hc fun fuel hf st hst => ?_
  obtain ⟨a, s, a1, a2, a3, a4⟩ := signature_stored hw hc he hf hl hst vt
  obtain ⟨b, s', b1, b2, b3, b4⟩ := signature_stored hw hc he hf hl' a2 vt
  obtain ⟨ab, s'', c1, c2, c3, c4⟩ := signature_stored hw hc he hf (List.rel_append hl hl') b2 vt
  refine ⟨(a, b, ab), s'', ?_, c2, _, _, a4, b4, ?_⟩
  · rw [a1]
    simp only [Option.bind_eq_bind, Option.bind_some]
    rw [b1]
    simp only [Option.bind_some]
    rw [c1]
    rfl
  · rw [List.map_append, List.prod_append] at c4
    exact c4

/-- Signatures satisfy the shuffle identity. -/
theorem C22_lite_shuffle_identity (hw : 1 ≤ w) (hd : 1 ≤ depth) (h : LiteCtx.new w depth = some c)
    (he : HallElems c.hs e) {rows : List (KeyScalars K)} {fs : List (Series (Fin w) K)}
    (hl : List.Forall₂ (IsLieData c e) rows fs) (vt : VecType) :
    c.Computes (fun fuel st => c.signature fuel st rows vt) fun r =>
      ∃ S : Series (Fin w) K, IsTensor w depth r S ∧ S [] = 1 ∧
        ∀ u v : List (Fin w), u.length + v.length ≤ depth →
          ((shuffles u v).map fun z => S z).sum = S u * S v := by
  obtain ⟨m, rfl, hc, -⟩ := ctx_facts hd h
  refine computes_of hc fun fuel hf st hst => ?_
  obtain ⟨r, s, h1, h2, h3, h4⟩ := signature_stored hw hc he hf hl hst vt
  obtain ⟨lies, hlies⟩ := rows_elems hw hc hl
  obtain ⟨g, g1, g2⟩ := prod_texp_groupLike hw hc he hlies
  exact ⟨r, s, h1, h2, g, h4.congr g2.symm, g1.1, fun u v _ => g1.2 u v⟩

/-! ## C24: the Campbell-Baker-Hausdorff formula -/

/-- `cbh` of a list of Lie elements is the logarithm of the product of their exponentials, in the
storage type asked for, whatever the storage types of the elements. -/
theorem C24_cbh (hw : 1 ≤ w) (hd : 1 ≤ depth) (h : LiteCtx.new w depth = some c)
    (he : HallElems c.hs e) {lies : List (Stored K)} {fs : List (Series (Fin w) K)}
    (hl : List.Forall₂ (IsLieElem c e) lies fs) (vt : VecType) :
    c.Computes (fun fuel st => c.cbh fuel st lies vt) fun r =>
      r.vecType = vt ∧ IsLieElem c e r (tlog (fs.map texp).prod) := by
  obtain ⟨m, rfl, hc, -⟩ := ctx_facts hd h
  exact computes_of hc fun fuel hf st hst => cbh_stored hw hc he hf hl hst vt

/-- `cbh` is associative: taking `cbh` of consecutive groups first, with any storage types and
whatever the maps remember, does not change the result. -/
theorem C24_associative (hw : 1 ≤ w) (hd : 1 ≤ depth) (h : LiteCtx.new w depth = some c)
    (he : HallElems c.hs e) {groups : List (List (Stored K))}
    (hg : ∀ g ∈ groups, ∀ x ∈ g, ∃ f, IsLieElem c e x f) :
    ∃ n₀, ∀ fuel ≥ n₀, ∀ rs : List (Stored K),
      List.Forall₂ (fun g r => ∃ st st' vt', MapsHistory w depth c.hs st ∧
        c.cbh fuel st g vt' = some (r, st')) groups rs →
      ∀ st, MapsHistory w depth c.hs st → ∀ vt, ∃ a st' b st'',
        c.cbh fuel st rs vt = some (a, st') ∧ c.cbh fuel st' groups.flatten vt = some (b, st'') ∧
        Stored.Same c.lieBasis a b := by
  obtain ⟨m, rfl, hc, n₀, hn⟩ := ctx_facts hd h
  refine ⟨n₀, fun fuel hfu rs hrs st hst vt => ?_⟩
  have hf := hn fuel hfu
  have key : ∃ fs gs, List.Forall₂ (IsLieElem c e) rs fs ∧
      List.Forall₂ (IsLieElem c e) groups.flatten gs ∧ (fs.map texp).prod = (gs.map texp).prod := by
    clear hst st vt
    induction hrs with
    | nil => exact ⟨[], [], .nil, .nil, rfl⟩
    | @cons g r groups rs h1 _ ih =>
      obtain ⟨fs, gs, i1, i2, i3⟩ := ih fun g hg' => hg g (List.mem_cons_of_mem _ hg')
      obtain ⟨st, st', vt', hst, hr⟩ := h1
      obtain ⟨vals, hv⟩ : ∃ vals, List.Forall₂ (IsLieElem c e) g vals := by
        have := hg g List.mem_cons_self
        clear hg hr
        induction g with
        | nil => exact ⟨[], .nil⟩
        | cons x g ih =>
          obtain ⟨vals, hv⟩ := ih fun x hx => this x (List.mem_cons_of_mem _ hx)
          obtain ⟨f, hf⟩ := this x List.mem_cons_self
          exact ⟨f :: vals, .cons hf hv⟩
      obtain ⟨r', s', r1, -, -, r4⟩ := cbh_stored hw hc he hf hv hst vt'
      rw [hr, Option.some.injEq, Prod.mk.injEq] at r1
      obtain ⟨rfl, rfl⟩ := r1
      refine ⟨_ :: fs, vals ++ gs, .cons r4 i1, List.rel_append hv i2, ?_⟩
      rw [List.map_cons, List.prod_cons, List.map_append, List.prod_append, i3, texp_tlog]
      obtain ⟨g', g1, g2⟩ := prod_texp_groupLike hw hc he hv
      rw [← g2 [] (Nat.zero_le _), g1.1]
  obtain ⟨fs, gs, h1, h2, h3⟩ := key
  obtain ⟨a, s, a1, a2, a3, a4⟩ := cbh_stored hw hc he hf h1 hst vt
  obtain ⟨b, s', b1, b2, b3, b4⟩ := cbh_stored hw hc he hf h2 a2 vt
  refine ⟨a, s, b, s', a1, b1, (lie_same hw hc he a4 b4 (a3.trans b3.symm)).2 ?_⟩
  rw [h3]
  exact EqUpTo.refl _ _

/-- Leaving out elements that are zero does not change `cbh`. -/
theorem C24_zeros (hw : 1 ≤ w) (hd : 1 ≤ depth) (h : LiteCtx.new w depth = some c)
    (he : HallElems c.hs e) {lies : List (Stored K)} (hl : ∀ x ∈ lies, ∃ f, IsLieElem c e x f)
    {keep : Stored K → Bool} (hkeep : ∀ x ∈ lies, keep x = false → IsLieElem c e x 0) (vt : VecType) :
    c.Computes (fun fuel st => do
      let a ← c.cbh fuel st lies vt
      let b ← c.cbh fuel a.2 (lies.filter keep) vt
      some ((a.1, b.1), b.2)) fun r : Stored K × Stored K => Stored.Same c.lieBasis r.1 r.2 := by
  obtain ⟨m, rfl, hc, -⟩ := ctx_facts hd h
  refine computes_of hc fun fuel hf st hst => ?_
  have key : ∃ fs gs, List.Forall₂ (IsLieElem c e) lies fs ∧
      List.Forall₂ (IsLieElem c e) (lies.filter keep) gs ∧ (fs.map texp).prod = (gs.map texp).prod := by
    clear hst st
    induction lies with
    | nil => exact ⟨[], [], .nil, .nil, rfl⟩
    | cons x lies ih =>
      obtain ⟨fs, gs, i1, i2, i3⟩ := ih (fun y hy => hl y (List.mem_cons_of_mem _ hy))
        fun y hy => hkeep y (List.mem_cons_of_mem _ hy)
      cases hk : keep x with
      | true =>
        obtain ⟨f, hx⟩ := hl x List.mem_cons_self
        refine ⟨f :: fs, f :: gs, .cons hx i1, ?_, ?_⟩
        · rw [List.filter_cons_of_pos hk]
          exact .cons hx i2
        · rw [List.map_cons, List.map_cons, List.prod_cons, List.prod_cons, i3]
      | false =>
        refine ⟨0 :: fs, gs, .cons (hkeep x List.mem_cons_self hk) i1, ?_, ?_⟩
        · rw [List.filter_cons_of_neg (by rw [hk]; exact Bool.false_ne_true)]
          exact i2
        · rw [List.map_cons, List.prod_cons, i3, texp_zero, one_mul]
  obtain ⟨fs, gs, h1, h2, h3⟩ := key
  obtain ⟨a, s, a1, a2, a3, a4⟩ := cbh_stored hw hc he hf h1 hst vt
  obtain ⟨b, s', b1, b2, b3, b4⟩ := cbh_stored hw hc he hf h2 a2 vt
  refine ⟨(a, b), s', ?_, b2, (lie_same hw hc he a4 b4 (a3.trans b3.symm)).2 ?_⟩
  · rw [a1]
    simp only [Option.bind_eq_bind, Option.bind_some]
    rw [b1]
    rfl
  · rw [h3]
    exact EqUpTo.refl _ _

/-- `cbh` of an element and its negative is zero. -/
theorem C24_inverse (hw : 1 ≤ w) (hd : 1 ≤ depth) (h : LiteCtx.new w depth = some c)
    (he : HallElems c.hs e) {x y : Stored K} {f : Series (Fin w) K} (hx : IsLieElem c e x f)
    (hy : IsLieElem c e y (-f)) (vt : VecType) :
    c.Computes (fun fuel st => c.cbh fuel st [x, y] vt) fun r => IsLieElem c e r 0 := by
  have hA := C24_cbh hw hd h he (.cons hx (.cons hy .nil)) vt
  obtain ⟨m, rfl, hc, -⟩ := ctx_facts hd h
  obtain ⟨n₀, hn⟩ := hA
  refine ⟨n₀, fun fuel hf st hst => ?_⟩
  obtain ⟨r, s, h1, h2, -, h4⟩ := hn fuel hf st hst
  refine ⟨r, s, h1, h2, ?_⟩
  rw [List.map_cons, List.map_cons, List.map_nil, List.prod_cons, List.prod_cons, List.prod_nil,
    mul_one] at h4
  have h0 : f [] = 0 := hx.nil hw hc he
  rw [← texp_add h0 (by show -(f []) = 0; rw [h0, neg_zero]) ((Commute.refl f).neg_right),
    add_neg_cancel, texp_zero] at h4
  rwa [show tlog (1 : Series (Fin w) K) = 0 by rw [← texp_zero, tlog_texp rfl]] at h4

/-- `cbh` of two elements is `cbh` of the list of the two, but always in the storage type of the
first. -/
theorem C24_pair (hw : 1 ≤ w) (hd : 1 ≤ depth) (h : LiteCtx.new w depth = some c)
    (he : HallElems c.hs e) {x y : Stored K} {f g : Series (Fin w) K} (hx : IsLieElem c e x f)
    (hy : IsLieElem c e y g) (vt : VecType) :
    c.Computes (fun fuel st => do
      let a ← c.cbhPair fuel st x y vt
      let b ← c.cbh fuel a.2 [x, y] x.vecType
      some ((a.1, b.1), b.2)) fun r : Stored K × Stored K =>
        IsLieElem c e r.1 (tlog (texp f * texp g)) ∧ Stored.Same c.lieBasis r.1 r.2 := by
  obtain ⟨m, rfl, hc, -⟩ := ctx_facts hd h
  refine computes_of hc fun fuel hf st hst => ?_
  obtain ⟨a, s, a1, a2, a3, a4⟩ := cbhPair_stored hw hc he hf hst hx hy vt
  obtain ⟨b, s', b1, b2, b3, b4⟩ :=
    cbh_stored hw hc he hf (.cons hx (.cons hy .nil)) a2 x.vecType
  refine ⟨(a, b), s', ?_, b2, a4, (lie_same hw hc he a4 b4 (a3.trans b3.symm)).2 ?_⟩
  · rw [a1]
    simp only [Option.bind_eq_bind, Option.bind_some]
    rw [b1]
    rfl
  · rw [List.map_cons, List.map_cons, List.map_nil, List.prod_cons, List.prod_cons, List.prod_nil,
      mul_one]
    exact EqUpTo.refl _ _

/-! ## Concrete cases -/

/-- Every array of values without keys stands for a Lie element. -/
theorem lieData_exists (hd : 1 ≤ depth) (h : LiteCtx.new w depth = some c) (vals : List K) :
    ∃ f : Series (Fin w) K, IsLieData c e ⟨none, vals⟩ f := by
  obtain ⟨m, rfl, hc, -⟩ := ctx_facts hd h
  have hb := Lie.hallTable_isHall w m
  set ks := (List.range ((Lie.hallTable w m).data.length - 1)).map fun i =>
    keyAt (Lie.hallTable w m) (i + 1) with hks
  set data : KeyScalars K := ⟨none, vals⟩ with hdata
  refine ⟨(ks.zipIdx.map fun t => lastValue (data.entries.take ks.length) t.2 • e t.1).sum, ?_, ks,
    ?_, fun k => ?_, fun t ht => ?_, EqUpTo.refl _ _⟩
  · rintro keys ⟨⟩
  · rw [List.pairwise_map]
    refine List.pairwise_lt_range.imp_of_mem fun hi hj hij => ?_
    rw [List.mem_range] at hi hj
    exact (keyAt_lt_iff hb (by omega) (by omega)).2 (by omega)
  · rw [hasKey_iff hb hc.rep, validKey_iff hb, List.mem_map]
    constructor
    · rintro ⟨i, hi, rfl⟩
      rw [List.mem_range] at hi
      exact ⟨i + 1, by omega, by omega, rfl⟩
    · rintro ⟨i, h0, hi, rfl⟩
      exact ⟨i - 1, List.mem_range.2 (by omega), by rw [show i - 1 + 1 = i by omega]⟩
  · obtain ⟨i, hi, rfl⟩ := List.mem_iff_getElem.1 ht
    rw [List.length_take] at hi
    rw [List.getElem_take]
    have hi' : i < ((List.range vals.length).zip vals).length := lt_of_lt_of_le hi (min_le_right _ _)
    show ((List.range vals.length).zip vals)[i].1 < _
    rw [List.getElem_zip, List.getElem_range]
    omega

/-- The hypotheses of the theorems above: the context of width 2 and depth 3, two Lie elements, one
sparse and one dense, with the same value, an array, and maps that remember nothing. -/
example : ∃ c, ∃ e : Key → Series (Fin 2) ℚ, ∃ f g, ∃ v : Dense ℚ,
    LiteCtx.new 2 3 = some c ∧ HallElems c.hs e ∧
    IsLieElem c e (.sparse [(⟨1, 0⟩, 2), (⟨2, 0⟩, 5)]) f ∧
    IsLieElem c e (.dense v) f ∧
    IsLieData c e ⟨none, [2, 0, 5]⟩ g ∧
    MapsHistory 2 3 c.hs ⟨fun _ => none, fun _ => none, LieCache.fresh⟩ := by
  obtain ⟨c, h⟩ := LiteCtx.new_some 2 2
  have hc := LiteCtx.ok_new h
  obtain ⟨e, he⟩ : ∃ e : Key → Series (Fin 2) ℚ, HallElems c.hs e := ⟨_, hallElems_exists hc.rep⟩
  have h2 : (HallSet.new 2 3).map (fun hs => (hs.sizeOfDegree 1, hs.sizeOfDegree 2)) =
      some (some 2, some 1) := by decide +kernel
  rw [hc.hall, Option.map_some, Option.some.injEq, Prod.mk.injEq] at h2
  have hx : IsLieElem c e (.sparse [(⟨1, 0⟩, (2 : ℚ)), (⟨2, 0⟩, 5)])
      (itemsValue e [(⟨1, 0⟩, (2 : ℚ)), (⟨2, 0⟩, 5)]) := by
    refine ⟨by decide, fun t ht => ?_, EqUpTo.refl _ _⟩
    simp only [List.mem_cons, List.not_mem_nil, or_false] at ht
    rcases ht with rfl | rfl
    · exact ⟨⟨by decide, 2, h2.1, by decide⟩, by decide⟩
    · exact ⟨⟨by decide, 1, h2.2, by decide⟩, by decide⟩
  obtain ⟨g, hg⟩ := lieData_exists (e := e) (by decide) h [(2 : ℚ), 0, 5]
  obtain ⟨n₀, hn⟩ := hc.fuel
  obtain ⟨r, st', -, -, r3, r4⟩ := convertLie_stored (by decide) hc he (hn n₀ le_rfl)
    (.fresh LieHistory.fresh) hx .dense
  cases r with
  | sparse v => cases r3
  | dense v => exact ⟨c, e, _, g, v, h, he, hx, r4, hg, .fresh LieHistory.fresh⟩

/-- `cbh(e₁, e₂)` at depth 3 and the signature of a path with the increments `e₁`, `2 e₂` at depth 2. -/
example : (((LiteCtx.new 2 3).bind fun c =>
      c.cbh 9 ⟨fun _ => none, fun _ => none, LieCache.fresh⟩
        [.sparse [(⟨1, 0⟩, (1 : ℚ))], .sparse [(⟨1, 1⟩, 1)]] .sparse).bind
          fun r => match r.1 with | .sparse v => some v | .dense _ => none) =
      some [(⟨1, 0⟩, 1), (⟨1, 1⟩, 1), (⟨2, 0⟩, 1 / 2), (⟨3, 0⟩, 1 / 12), (⟨3, 1⟩, -1 / 12)] ∧
    (((LiteCtx.new 2 2).bind fun c =>
      c.signature 9 ⟨fun _ => none, fun _ => none, LieCache.fresh⟩
        [⟨none, [(1 : ℚ)]⟩, ⟨some [1], [2]⟩] .dense).bind
          fun r => match r.1 with | .sparse _ => none | .dense v => some v.storage) =
      some [1, 1, 2, 1 / 2, 2, 0, 2] := by
  refine ⟨by decide +kernel, by decide +kernel⟩

end RoughPy.Lite
