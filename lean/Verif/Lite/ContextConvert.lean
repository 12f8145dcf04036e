import Verif.Lite.ContextProps

set_option linter.unusedSectionVars false

/-!
# Construction from arrays and conversion between contexts (C74)
-/

namespace RoughPy.Lite

open RoughPy.Tensor RoughPy.Tensor.Series

variable {K : Type} [Field K] [DecidableEq K] {w depth depth' : ℕ} {c src : LiteCtx}
  {e e' : Key → Series (Fin w) K}

/-- A tensor constructed from an array has the values of the array at the words with these
indices, in either storage type; nothing is written out of bounds. -/
theorem C74_construct_tensor (hw : 1 ≤ w) (hd : 1 ≤ depth) (h : LiteCtx.new w depth = some c)
    {data : KeyScalars K} {f : Series (Fin w) K} (hf : IsTensorData w depth data f) (vt : VecType) :
    ∃ r, c.constructTensor data vt = some r ∧ r.vecType = vt ∧ IsTensor w depth r f := by
  obtain ⟨m, rfl, hc, -⟩ := ctx_facts hd h
  exact constructTensor_stored hw hc hf vt

/-- A Lie element constructed from an array has the values of the array at the keys with these
indices, counted from zero. -/
theorem C74_construct_lie (hw : 1 ≤ w) (hd : 1 ≤ depth) (h : LiteCtx.new w depth = some c)
    {data : KeyScalars K} {f : Series (Fin w) K} (hf : IsLieData c e data f) (vt : VecType) :
    ∃ r, c.constructLie data vt = some r ∧ r.vecType = vt ∧ IsLieElem c e r f := by
  obtain ⟨m, rfl, hc, -⟩ := ctx_facts hd h
  exact constructLie_stored hw hc hf vt

/-- Converting a tensor to another storage type, or to the context of another depth, gives the same
tensor, truncated to the smaller depth.  Full claim: the same without `hok`; it is false, see
`C74_sparse_from_deeper`. -/
theorem C74_convert_tensor_partial (hw : 1 ≤ w) (hd : 1 ≤ depth) (h : LiteCtx.new w depth = some c)
    (hd' : 1 ≤ depth') (h' : LiteCtx.new w depth' = some src) {x : Stored K} {f : Series (Fin w) K}
    (hx : IsTensor w depth' x f) (hok : x.vecType = .dense ∨ depth' ≤ depth) (vt : VecType) :
    ∃ r, c.convertTensor src x vt = some r ∧ r.vecType = vt ∧ IsTensor w depth r (trunc depth' f) := by
  obtain ⟨m, rfl, hc, -⟩ := ctx_facts hd h
  obtain ⟨m', rfl, hc', -⟩ := ctx_facts hd' h'
  exact convertTensor_stored hw hc hc' hx (hok.imp_right fun h => by omega) vt

variable [CharZero K]

/-- Converting a Lie element to another storage type gives the same element. -/
theorem C74_convert_lie (hw : 1 ≤ w) (hd : 1 ≤ depth) (h : LiteCtx.new w depth = some c)
    (he : HallElems c.hs e) {x : Stored K} {f : Series (Fin w) K} (hx : IsLieElem c e x f)
    (vt : VecType) :
    c.Computes (fun fuel st => c.convertLie fuel st x vt) fun r =>
      r.vecType = vt ∧ IsLieElem c e r f := by
  obtain ⟨m, rfl, hc, -⟩ := ctx_facts hd h
  exact computes_of hc fun fuel hf st hst => convertLie_stored hw hc he hf hst hx vt

/-- Converting a Lie element to the context of another depth gives the same element, truncated to
the smaller depth.  Full claim: the same without `hok`. -/
theorem C74_convert_lie_from_partial (hw : 1 ≤ w) (hd : 1 ≤ depth) (h : LiteCtx.new w depth = some c)
    (he : HallElems c.hs e) (hd' : 1 ≤ depth') (h' : LiteCtx.new w depth' = some src)
    (he' : HallElems src.hs e') {x : Stored K} {f : Series (Fin w) K} (hx : IsLieElem src e' x f)
    (hok : x.vecType = .dense ∨ depth' ≤ depth) {srcSt : MapsState}
    (hst : MapsHistory w depth' src.hs srcSt) (vt : VecType) :
    c.Computes (fun fuel st => do
        let r ← c.convertLieFrom fuel src srcSt st x vt
        some ((r.1, r.2.1), r.2.2)) fun r : Stored K × MapsState =>
      MapsHistory w depth' src.hs r.2 ∧ r.1.vecType = vt ∧ IsLieElem c e r.1 (trunc depth' f) := by
  obtain ⟨m, rfl, hc, -⟩ := ctx_facts hd h
  obtain ⟨m', rfl, hc', n₀, hn⟩ := ctx_facts hd' h'
  obtain ⟨n₁, hn₁⟩ := hc.fuel
  refine ⟨max n₀ n₁, fun fuel hf st hst' => ?_⟩
  rw [hc.width, hc.depth] at hst' ⊢
  obtain ⟨r, s, s', r1, r2, r3, r4, r5⟩ := convertLieFrom_stored hw hc he (hn₁ fuel (by omega)) hst'
    hc' he' (hn fuel (by omega)) hst hx (hok.imp_right fun h => by omega) vt
  refine ⟨(r, s), s', ?_, r3, r2, r4, r5⟩
  dsimp only
  rw [r1]
  rfl

/-- `lie_to_tensor` of an element of the context of another depth expands the keys of that context
and truncates to the smaller depth.  Full claim: the same without `hok`. -/
theorem C74_lie_to_tensor_from_partial (hw : 1 ≤ w) (hd : 1 ≤ depth)
    (h : LiteCtx.new w depth = some c) (hd' : 1 ≤ depth') (h' : LiteCtx.new w depth' = some src)
    (he' : HallElems src.hs e') {x : Stored K} {f : Series (Fin w) K} (hx : IsLieElem src e' x f)
    (hok : x.vecType = .dense ∨ depth' ≤ depth) :
    src.Computes (fun fuel st => c.lieToTensorFrom fuel src st x) fun r =>
      r.vecType = x.vecType ∧ IsTensor w depth r (trunc depth' f) := by
  obtain ⟨m, rfl, hc, -⟩ := ctx_facts hd h
  obtain ⟨m', rfl, hc', -⟩ := ctx_facts hd' h'
  exact computes_of hc' fun fuel hf st hst =>
    lieToTensorFrom_stored hw hc hc' he' hf hst hx (hok.imp_right fun h => by omega)

/-- `tensor_to_lie` of a tensor of the context of another depth applies the Dynkin operator to the
tensor truncated to the smaller depth.  Full claim: the same without `hok`. -/
theorem C74_tensor_to_lie_from_partial (hw : 1 ≤ w) (hd : 1 ≤ depth)
    (h : LiteCtx.new w depth = some c) (he : HallElems c.hs e) (hd' : 1 ≤ depth')
    (h' : LiteCtx.new w depth' = some src) {x : Stored K} {f : Series (Fin w) K}
    (hx : IsTensor w depth' x f) (hok : x.vecType = .dense ∨ depth' ≤ depth) :
    c.Computes (fun fuel st => c.tensorToLieFrom fuel src st x) fun r =>
      r.vecType = x.vecType ∧ IsLieElem c e r (dynkinUpTo K depth (trunc depth' f)) := by
  obtain ⟨t, t1, t2, t3⟩ := C74_convert_tensor_partial hw hd h hd' h' hx hok x.vecType
  have := C73_tensor_to_lie hw hd h he t3
  rw [t2] at this
  obtain ⟨n₀, hn⟩ := this
  refine ⟨n₀, fun fuel hf st hst => ?_⟩
  obtain ⟨r, st', r1, r2⟩ := hn fuel hf st hst
  refine ⟨r, st', ?_, r2⟩
  unfold LiteCtx.tensorToLieFrom
  rw [t1]
  exact r1

/-- Conversions, constructions, signatures and `cbh` of lists give the storage type asked for.
Full claim: the same for `cbh` of two elements; it is false, see `C76_pair_ignores_storage_type`. -/
theorem C76_storage_type_partial (hw : 1 ≤ w) (hd : 1 ≤ depth) (h : LiteCtx.new w depth = some c)
    (he : HallElems c.hs e) {x t : Stored K} {f g : Series (Fin w) K} (hx : IsLieElem c e x f)
    (ht : IsTensor w depth t g) {lies : List (Stored K)} {fs : List (Series (Fin w) K)}
    (hl : List.Forall₂ (IsLieElem c e) lies fs) {rows : List (KeyScalars K)}
    {gs : List (Series (Fin w) K)} (hr : List.Forall₂ (IsLieData c e) rows gs) (vt : VecType) :
    (∃ r, c.convertTensor c t vt = some r ∧ r.vecType = vt) ∧
    c.Computes (fun fuel st => c.convertLie fuel st x vt) (fun r => r.vecType = vt) ∧
    c.Computes (fun fuel st => c.cbh fuel st lies vt) (fun r => r.vecType = vt) ∧
    c.Computes (fun fuel st => c.signature fuel st rows vt) (fun r => r.vecType = vt) ∧
    c.Computes (fun fuel st => c.logSignature fuel st rows vt) (fun r => r.vecType = vt) := by
  have mono : ∀ {run : ℕ → MapsState → Option (Stored K × MapsState)} {P : Stored K → Prop},
      c.Computes run (fun r => r.vecType = vt ∧ P r) → c.Computes run fun r => r.vecType = vt := by
    rintro run P ⟨n₀, hn⟩
    refine ⟨n₀, fun fuel hf st hst => ?_⟩
    obtain ⟨r, s, h1, h2, h3⟩ := hn fuel hf st hst
    exact ⟨r, s, h1, h2, h3.1⟩
  obtain ⟨r, r1, r2, -⟩ := C74_convert_tensor_partial hw hd h hd h ht (.inr le_rfl) vt
  have hs := C75_signature hw hd h he hr vt
  exact ⟨⟨r, r1, r2⟩, mono (C74_convert_lie hw hd h he hx vt), mono (C24_cbh hw hd h he hl vt),
    mono hs.1, mono hs.2⟩

/-! ## Refutations -/

/-- the vector of a sparse result -/
def Stored.asSparse : Stored K → Option (Sparse K)
  | .sparse v => some v
  | .dense _ => none

/-- Converting a sparse tensor to a smaller depth goes wrong: the coefficient 5 of a word of three
letters becomes the scalar term of the result at depth 1, and that of a word of two letters is
stored under a key which the context does not have. -/
theorem C74_sparse_from_deeper :
    ((LiteCtx.new 2 1).bind fun c => (LiteCtx.new 2 3).bind fun src => do
      let r ← c.convertTensor src (.sparse [(⟨3, 0⟩, (5 : ℚ))]) .sparse
      r.asSparse) = some [(⟨0, 0⟩, 5)] ∧
    ((LiteCtx.new 2 1).bind fun c => (LiteCtx.new 2 3).bind fun src => do
      let r ← c.convertTensor src (.sparse [(⟨2, 1⟩, (5 : ℚ))]) .sparse
      r.asSparse) = some [(⟨2, 1⟩, 5)] ∧
    IsTensor 2 3 (.sparse [(⟨3, 0⟩, (5 : ℚ))]) (fun u => if u = [0, 0, 0] then 5 else 0) ∧
    ¬ IsTensor 2 1 (.sparse [(⟨0, 0⟩, (5 : ℚ))]) (trunc 3 fun u => if u = [0, 0, 0] then 5 else 0) ∧
    ∀ f, ¬ IsTensor 2 1 (.sparse [(⟨2, 1⟩, (5 : ℚ))]) f := by
  refine ⟨by decide +kernel, by decide +kernel, ?_, ?_, ?_⟩
  · refine ⟨List.pairwise_singleton _ _, fun p hp => ⟨[0, 0, 0], by decide, ?_, ?_⟩, fun u _ hu => ?_⟩
    · rw [List.mem_singleton] at hp
      dsimp only
      rw [hp, if_pos rfl]
      rfl
    · dsimp only
      rw [if_pos rfl]
      norm_num
    · by_cases h : u = [0, 0, 0]
      · subst h
        dsimp only
        rw [if_pos rfl]
        exact List.mem_singleton.2 rfl
      · dsimp only at hu
        rw [if_neg h] at hu
        exact absurd rfl hu
  · rintro ⟨-, h, -⟩
    obtain ⟨u, hu, -, h3⟩ := h _ (List.mem_singleton.2 rfl)
    refine h3 ?_
    show (if u.length ≤ 3 then (if u = [0, 0, 0] then (5 : ℚ) else 0) else 0) = 0
    rw [if_neg (c := u = [0, 0, 0]), ite_self]
    rintro rfl
    exact absurd hu (by decide)
  · rintro f ⟨-, h, -⟩
    obtain ⟨u, hu, h2, -⟩ := h _ (List.mem_singleton.2 rfl)
    have : 2 = u.length := congrArg (fun p => p.1.deg) h2
    omega

/-- Constructing a Lie element from the keys and coefficients that iterating over one shows gives
another element: the keys shown are counted from one, the keys of an array from zero.  The letter
`e₁` becomes `e₂`; the last key becomes a key which the context does not have, and for dense
elements is written out of bounds. -/
theorem C74_shown_keys :
    ((LiteCtx.new 2 2).bind fun c => do
      let data ← c.lieShown (.sparse [(⟨1, 0⟩, (1 : ℚ))])
      let r ← c.constructLie data .sparse
      some (data.keys, ← r.asSparse)) = some (some [1], [(⟨1, 1⟩, 1)]) ∧
    ((LiteCtx.new 2 2).bind fun c => do
      let data ← c.lieShown (.sparse [(⟨2, 0⟩, (1 : ℚ))])
      let r ← c.constructLie data .sparse
      some (data.keys, ← r.asSparse)) = some (some [3], [(⟨0, 0⟩, 1)]) ∧
    (((LiteCtx.new 2 2).bind fun c => do
      let data ← c.lieShown (.sparse [(⟨2, 0⟩, (1 : ℚ))])
      c.constructLie data .dense).isNone) = true := by
  refine ⟨by decide +kernel, by decide +kernel, by decide +kernel⟩

/-- `cbh` of two elements does not use the storage type asked for. -/
theorem C76_pair_ignores_storage_type :
    ((LiteCtx.new 2 2).bind fun c => do
      let r ← c.cbhPair 9 ⟨fun _ => none, fun _ => none, LieCache.fresh⟩
        (.sparse [(⟨1, 0⟩, (1 : ℚ))]) (.sparse [(⟨1, 1⟩, 1)]) .dense
      some r.1.vecType) = some .sparse := by decide +kernel

end RoughPy.Lite
