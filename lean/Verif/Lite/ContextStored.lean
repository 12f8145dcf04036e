import Verif.Lite.ContextLemmas
import Verif.Lie.ApplyLemmas
import Verif.Tensor.Props

set_option linter.unusedSectionVars false

/-! # Lemmas on the context: elements of either storage type -/

namespace RoughPy.Lite

open RoughPy.Tensor RoughPy.Tensor.Series
open RoughPy.Lie (IsHallTable HasDegree hallTable hallTable_isHall Homog)

attribute [local instance] LieRing.ofAssociativeRing

variable {K T : Type} [Field K] [DecidableEq K]

/-! ## Meaning of the elements -/

theorem isTensor_sparse {w D : ℕ} {v : Sparse K} {f : Series (Fin w) K} :
    IsTensor w D (.sparse v) f ↔ Sparse.Tensor w D v ∧ EqUpTo D (Sparse.ser w v) f := by
  refine ⟨fun h => ?_, fun h => sparseValue_of h.1 h.2⟩
  obtain ⟨h1, h2, h3⟩ := h
  have hg : Sparse.Good v := ⟨h1, fun p hp => by
    obtain ⟨u, -, rfl, hne⟩ := h2 p hp
    exact hne⟩
  refine ⟨⟨hg, fun k hk => ?_⟩, fun u hu => ?_⟩
  · by_contra hne
    obtain ⟨u, hu, hku, -⟩ := h2 _ ((Sparse.mem_iff_read hg).2 ⟨hne, rfl⟩)
    rw [Prod.mk.injEq] at hku
    exact hk (hku.1 ▸ wordKey_valid hu)
  · show Sparse.read v (wordKey u) = f u
    by_cases hf : f u = 0
    · rw [hf]
      by_contra hne
      obtain ⟨u', hu', hku, hne'⟩ := h2 _ ((Sparse.mem_iff_read hg).2 ⟨hne, rfl⟩)
      rw [Prod.mk.injEq] at hku
      exact hne' (wordKey_inj hku.1 ▸ hf)
    · exact ((Sparse.mem_iff_read hg).1 (h3 u hu hf)).2

theorem isTensor_dense {w D : ℕ} {v : Dense K} {f : Series (Fin w) K} :
    IsTensor w D (.dense v) f ↔ Dense.Whole w D v ∧ EqUpTo D (Dense.ser w v) f := by
  refine ⟨fun h => ⟨h.2, fun u hu => ?_⟩, fun h => ⟨denseValue_of h.1 h.2, h.1⟩⟩
  obtain ⟨h1, h2⟩ := h.1.1 u hu
  show v.storage[wordIndex u]?.getD 0 = f u
  rcases hx : v.storage[wordIndex u]? with _ | x
  · exact (h2 hx).symm
  · exact h1 x hx

theorem IsTensor.congr {w D : ℕ} {x : Stored K} {f g : Series (Fin w) K} (h : IsTensor w D x f)
    (hfg : EqUpTo D f g) : IsTensor w D x g := by
  cases x with
  | sparse v => rw [isTensor_sparse] at h ⊢; exact ⟨h.1, h.2.trans hfg⟩
  | dense v => rw [isTensor_dense] at h ⊢; exact ⟨h.1, h.2.trans hfg⟩

theorem IsTensor.unique {w D : ℕ} {x : Stored K} {f g : Series (Fin w) K} (h : IsTensor w D x f)
    (h' : IsTensor w D x g) : EqUpTo D f g := by
  cases x with
  | sparse v => rw [isTensor_sparse] at h h'; exact h.2.symm.trans h'.2
  | dense v => rw [isTensor_dense] at h h'; exact h.2.symm.trans h'.2

section lie
variable {w m : ℕ} {c : LiteCtx} {e : Key → Series (Fin w) K}

theorem isLie_sparse (hc : c.Ok w m) {v : Sparse K} {f : Series (Fin w) K} :
    IsLieElem c e (.sparse v) f ↔
      Sparse.GoodDeg (ValidKey (lieStart (hallTable w m)) (m + 1)) (m + 1) v ∧
      EqUpTo (m + 1) (lieSer (hallTable w m) e (Sparse.read v)) f := by
  have hb := hallTable_isHall w m
  constructor
  · rintro ⟨h1, h2, h3⟩
    have hg : Sparse.Good v := ⟨h1, fun t ht => (h2 t ht).2⟩
    have hon : Sparse.GoodOn (ValidKey (lieStart (hallTable w m)) (m + 1)) v := ⟨hg, fun k hk => by
      by_contra hne
      exact hk ((hasKey_iff hb hc.rep).1 (h2 _ ((Sparse.mem_iff_read hg).2 ⟨hne, rfl⟩)).1)⟩
    refine ⟨⟨hon, fun k hk => ?_⟩, ?_⟩
    · by_contra hd
      exact hk (hon.2 k fun hv => hd hv.1)
    · rw [← lieSer_items hb (Sparse.items_of_goodOn hon), ← hc.depth]
      exact h3
  · rintro ⟨h1, h2⟩
    have hI := Sparse.items_of_goodOn h1.1
    refine ⟨hI.sorted, fun t ht => ⟨(hasKey_iff hb hc.rep).2 (hI.val t ht).1, h1.1.1.2 t ht⟩, ?_⟩
    rw [itemsValue, lieSer_items hb hI, hc.depth]
    exact h2

theorem isLie_dense (hw : 0 < w) (hc : c.Ok w m) {v : Dense K} {f : Series (Fin w) K} :
    IsLieElem c e (.dense v) f ↔ Dense.GoodDeg (lieStart (hallTable w m)) (m + 1) v ∧
      EqUpTo (m + 1) (lieSer (hallTable w m) e (Dense.coef (lieStart (hallTable w m)) v)) f := by
  have hb := hallTable_isHall w m
  have hL := hallBasis_lawful hb hc.rep
  have hsize : ∀ d, d ≤ m + 1 → c.hs.size d = some (lieStart (hallTable w m) (d + 1)) := by
    intro d hd
    rw [hall_size hc.rep (show d ≤ (hallTable w m).depth from hd)]
    unfold lieStart
    rw [Nat.min_eq_left (show d + 1 ≤ (hallTable w m).depth + 1 from Nat.succ_le_succ hd)]
  have hitems : ∀ v : Dense K, Dense.GoodDeg (lieStart (hallTable w m)) (m + 1) v →
      ∃ l, Dense.items c.lieBasis v = some l ∧
        itemsValue e l = lieSer (hallTable w m) e (Dense.coef (lieStart (hallTable w m)) v) := by
    intro v hv
    obtain ⟨l, h1, hI⟩ := (Dense.graded (K := K) hL (start_pos hw)).items v hv
    refine ⟨l, ?_, lieSer_items hb hI⟩
    rw [hc.basis]
    exact h1
  constructor
  · rintro ⟨h1, ⟨n, h2, h3⟩, l, h4, h5⟩
    rw [hc.depth] at h1 h5
    rw [hsize _ h1, Option.some.injEq] at h2
    have hg : Dense.GoodDeg (lieStart (hallTable w m)) (m + 1) v := ⟨h1, by omega⟩
    obtain ⟨l', g1, g2⟩ := hitems v hg
    rw [h4, Option.some.injEq] at g1
    subst g1
    exact ⟨hg, g2 ▸ h5⟩
  · rintro ⟨h1, h2⟩
    obtain ⟨l, g1, g2⟩ := hitems v h1
    refine ⟨by rw [hc.depth]; exact h1.1, ⟨_, hsize _ h1.1, h1.2⟩, l, g1, ?_⟩
    rw [hc.depth, g2]
    exact h2

theorem IsLieElem.congr {x : Stored K} {f g : Series (Fin w) K} (h : IsLieElem c e x f)
    (hfg : EqUpTo c.depth f g) : IsLieElem c e x g := by
  cases x with
  | sparse v => exact ⟨h.1, h.2.1, h.2.2.trans hfg⟩
  | dense v =>
    obtain ⟨h1, h2, l, h3, h4⟩ := h
    exact ⟨h1, h2, l, h3, h4.trans hfg⟩

theorem IsLieElem.unique {x : Stored K} {f g : Series (Fin w) K} (h : IsLieElem c e x f)
    (h' : IsLieElem c e x g) : EqUpTo c.depth f g := by
  cases x with
  | sparse v => exact h.2.2.symm.trans h'.2.2
  | dense v =>
    obtain ⟨-, -, l, h3, h4⟩ := h
    obtain ⟨-, -, l', h3', h4'⟩ := h'
    rw [h3, Option.some.injEq] at h3'
    subst h3'
    exact h4.symm.trans h4'

theorem lieSer_isLie (hc : c.Ok w m) (he : HallElems c.hs e) (cf : Key → K) :
    IsLie (lieSer (hallTable w m) e cf) := by
  have hb := hallTable_isHall w m
  refine Lie.isLie_sum _ _ fun i hi => IsLie.smul _ ?_
  rw [Finset.mem_range] at hi
  obtain ⟨n, hn⟩ := hb.exists_degree (k := i + 1) (by omega)
  rw [he.eq hc.rep (by omega) (by omega)]
  exact Lie.hallPoly_isLie hb n _ (hb.degree_pos hn (by omega)) hn

/-- What an element stands for agrees with a Lie element. -/
theorem IsLieElem.isLie (hw : 0 < w) (hc : c.Ok w m) (he : HallElems c.hs e) {x : Stored K}
    {f : Series (Fin w) K} (h : IsLieElem c e x f) : ∃ ℓ, IsLie ℓ ∧ EqUpTo (m + 1) ℓ f := by
  cases x with
  | sparse v => exact ⟨_, lieSer_isLie hc he _, ((isLie_sparse hc).1 h).2⟩
  | dense v => exact ⟨_, lieSer_isLie hc he _, ((isLie_dense hw hc).1 h).2⟩

theorem IsLieElem.nil (hw : 0 < w) (hc : c.Ok w m) (he : HallElems c.hs e) {x : Stored K}
    {f : Series (Fin w) K} (h : IsLieElem c e x f) : f [] = 0 := by
  obtain ⟨ℓ, h1, h2⟩ := h.isLie hw hc he
  rw [← h2 [] (Nat.zero_le _)]
  exact h1.nil

/-- an element without entries stands for zero -/
theorem IsLieElem.of_dimension (hw : 0 < w) (hc : c.Ok w m) {x : Stored K}
    {f : Series (Fin w) K} (h : IsLieElem c e x f) (hx : x.dimension = 0) : EqUpTo (m + 1) f 0 := by
  have hb := hallTable_isHall w m
  cases x with
  | sparse v =>
    have : v = [] := List.length_eq_zero_iff.1 hx
    subst this
    refine ((isLie_sparse hc).1 h).2.symm.trans ?_
    rw [lieSer_zero hb (c := Sparse.read []) fun _ _ => rfl]
    exact EqUpTo.refl _ _
  | dense v =>
    have : v.storage.length = 0 := hx
    refine ((isLie_dense hw hc).1 h).2.symm.trans ?_
    rw [lieSer_zero hb (c := Dense.coef (lieStart (hallTable w m)) v) fun k _ =>
      Dense.entry_of_le (v := v) (i := keyIndex (lieStart (hallTable w m)) k) (by omega)]
    exact EqUpTo.refl _ _

end lie

/-! ## The Dynkin operator -/

theorem dynkinUpTo_congr {w D : ℕ} {f g : Series (Fin w) K} (h : EqUpTo D f g) :
    dynkinUpTo K D f = dynkinUpTo K D g := by
  unfold dynkinUpTo
  refine Finset.sum_congr rfl fun n hn => sumWords_congr fun u hu => ?_
  rw [Finset.mem_range] at hn
  rw [h u (by omega)]

theorem dynkinUpTo_prim [CharZero K] {w D : ℕ} {f : Series (Fin w) K} (h : PrimUpTo D f) :
    EqUpTo D (dynkinUpTo K D f) f := by
  intro z hz
  unfold dynkinUpTo
  rw [Lie.sum_apply_series, Finset.sum_eq_single z.length]
  · rw [Lie.sumWords_series]
    have h1 : sumWords z.length (fun u : List (Fin w) => ((f u / (z.length : K)) • rb K u) z) =
        sumWords z.length (fun u => (1 / (z.length : K)) * (f u * rb K u z)) := by
      refine sumWords_congr fun u hu => ?_
      rw [Series.smul_apply]
      ring
    rw [h1, sumWords_mul_left, h.dynkin hz]
    by_cases h0 : z.length = 0
    · rw [List.length_eq_zero_iff.1 h0, h.1]
      simp
    · have : (z.length : K) ≠ 0 := Nat.cast_ne_zero.2 h0
      field_simp
  · intro n _ hn
    rw [Lie.sumWords_series]
    have : (fun u : List (Fin w) => ((f u / (n : K)) • rb K u) z) = fun u => (f u / (n : K)) * rb K u z :=
      rfl
    rw [this, ← sumWords_zero (α := Fin w) n]
    refine sumWords_congr fun u hu => ?_
    rw [show rb K u z = 0 from rb_ne_length u z (by omega), mul_zero]
  · intro hn
    rw [Finset.mem_range] at hn
    omega

/-! ## Operations on elements of either storage type -/

section ops
variable {w m : ℕ} {c : LiteCtx} {e : Key → Series (Fin w) K} {fuel : ℕ} {st : MapsState}

theorem lieToTensor_stored (hw : 0 < w) (hc : c.Ok w m) (he : HallElems c.hs e)
    (hf : c.Fuel w m fuel) (hst : MapsHistory w (m + 1) c.hs st) {x : Stored K}
    {f : Series (Fin w) K} (hx : IsLieElem c e x f) :
    ∃ r st', c.lieToTensor fuel st x = some (r, st') ∧ MapsHistory w (m + 1) c.hs st' ∧
      r.vecType = x.vecType ∧ IsTensor w (m + 1) r f := by
  cases x with
  | sparse v =>
    obtain ⟨h1, h2⟩ := (isLie_sparse hc).1 hx
    obtain ⟨r, st', e1, e2, e3, e4⟩ := lieToTensorImpl_spec (sparseKind_lawful hc) hc he hf hst h1
    exact ⟨.sparse r, st', by simp only [LiteCtx.lieToTensor, e1, Option.bind_eq_bind, Option.bind_some],
      e2, rfl, isTensor_sparse.2 ⟨e3, e4.trans h2⟩⟩
  | dense v =>
    obtain ⟨h1, h2⟩ := (isLie_dense hw hc).1 hx
    obtain ⟨r, st', e1, e2, e3, e4⟩ := lieToTensorImpl_spec (denseKind_lawful hw hc) hc he hf hst h1
    exact ⟨.dense r, st', by simp only [LiteCtx.lieToTensor, e1, Option.bind_eq_bind, Option.bind_some],
      e2, rfl, isTensor_dense.2 ⟨e3.1, e4.trans h2⟩⟩

theorem tensorToLie_stored (hw : 0 < w) (hc : c.Ok w m) (he : HallElems c.hs e)
    (hf : c.Fuel w m fuel) (hst : MapsHistory w (m + 1) c.hs st) {x : Stored K}
    {f : Series (Fin w) K} (hx : IsTensor w (m + 1) x f) :
    ∃ r st', c.tensorToLie fuel st x = some (r, st') ∧ MapsHistory w (m + 1) c.hs st' ∧
      r.vecType = x.vecType ∧ IsLieElem c e r (dynkinUpTo K (m + 1) f) := by
  cases x with
  | sparse v =>
    obtain ⟨h1, h2⟩ := isTensor_sparse.1 hx
    obtain ⟨r, st', e1, e2, e3, e4⟩ := tensorToLieImpl_spec (sparseKind_lawful hc) hc he hf hst h1
    refine ⟨.sparse r, st', by simp only [LiteCtx.tensorToLie, e1, Option.bind_eq_bind, Option.bind_some],
      e2, rfl, (isLie_sparse hc).2 ⟨e3, ?_⟩⟩
    rw [e4, dynkinUpTo_congr h2]
    exact EqUpTo.refl _ _
  | dense v =>
    obtain ⟨h1, h2⟩ := isTensor_dense.1 hx
    obtain ⟨r, st', e1, e2, e3, e4⟩ := tensorToLieImpl_spec (denseKind_lawful hw hc) hc he hf hst h1
    refine ⟨.dense r, st', by simp only [LiteCtx.tensorToLie, e1, Option.bind_eq_bind, Option.bind_some],
      e2, rfl, (isLie_dense hw hc).2 ⟨e3, ?_⟩⟩
    rw [e4, dynkinUpTo_congr h2]
    exact EqUpTo.refl _ _

/-! ### Conversion -/

theorem constructTensor_spec {k : Kind K T} {ser : T → Series (Fin w) K} {Good Tight Full : T → Prop}
    {coef : T → Key → K} {LGood : ℕ → T → Prop} {strict : Prop}
    (hk : k.Lawful w m ser Good Tight Full coef LGood strict) (hc : c.Ok w m) {data : KeyScalars K}
    (hlen : ∀ keys, data.keys = some keys → keys.length = data.vals.length)
    (hent : ∀ t ∈ data.entries.take (wordsBelow w (m + 2)),
      ∃ u : List (Fin w), u.length ≤ m + 1 ∧ wordIndex u = t.1) :
    ∃ r, constructImpl k.tensor.toVecOps c.tensorBasis data = some r ∧ Good r ∧
      ∀ u : List (Fin w), u.length ≤ m + 1 →
        ser r u = lastValue (data.entries.take (wordsBelow w (m + 2))) (wordIndex u) := by
  have hB := tensorBasis_lawful w (m + 1)
  have hBc : c.tensorBasis = tensorBasis w (m + 1) := by
    unfold LiteCtx.tensorBasis
    rw [hc.width, hc.depth]
  have hmax : c.tensorBasis.maxDim = wordsBelow w (m + 2) := by rw [hBc]; exact hB.maxDim
  have hd := hk.depth
  have key := constructImpl_spec (V := k.tensor.toVecOps) (B := c.tensorBasis)
    (P := fun u : List (Fin w) => u.length ≤ m + 1) (κ := wordKey) (idx := wordIndex) (val := ser)
    (inv := Good) (data := data) (fun u hu => by
      rw [hBc]
      have hv := wordKey_valid hu
      exact hB.indexToKey (wordKey u) hv.1 hv.2)
    (fun u v hu hv h => wordIndex_inj h)
    (fun v hv u hu x => by
      obtain ⟨v', e1, e2, e3⟩ := hk.tensor.modify v hv u (by omega) fun _ => x
      exact ⟨v', e1, hk.tensor.good _ (hk.tensor.tight _ e2), fun q hq => e3 q (by omega)⟩)
    (hk.tensor.good _ hk.tensor.new_tight)
    (fun u hu => hk.tensor.new_ser u (by omega)) hlen (by rw [hmax]; exact hent)
  rw [hmax] at key
  exact key

theorem tensorData_sparse {src : LiteCtx} {m' : ℕ} (hs' : src.Ok w m') {v : Sparse K}
    (hv : Sparse.Tensor w (m' + 1) v) : tensorData src (.sparse v) =
      some ⟨some (v.map fun t => keyIndex (wordsBelow w) t.1), v.map (·.2)⟩ := by
  have hI := Sparse.items_of_goodOn hv
  have hBc : src.tensorBasis = tensorBasis w (m' + 1) := by
    unfold LiteCtx.tensorBasis
    rw [hs'.width, hs'.depth]
  have key : ∀ (l : List (Key × K)) (acc : List ℕ), (∀ t ∈ l, ValidKey (wordsBelow w) (m' + 1) t.1) →
      loop l acc (fun keys (t : Key × K) => do
        let i ← src.tensorBasis.keyToIndex t.1
        some (keys ++ [i])) = some (acc ++ l.map fun t => keyIndex (wordsBelow w) t.1) := by
    intro l
    induction l with
    | nil => intro acc _; rw [List.map_nil, List.append_nil]; rfl
    | cons t l ih =>
      intro acc h
      rw [loop_cons, hBc, (tensorBasis_lawful w (m' + 1)).keyToIndex (h t List.mem_cons_self)]
      simp only [Option.bind_eq_bind, Option.bind_some]
      rw [← hBc]
      have := ih (acc ++ [keyIndex (wordsBelow w) t.1]) fun s hs' => h s (List.mem_cons_of_mem _ hs')
      simp only [Option.bind_eq_bind] at this
      rw [this, List.map_cons, List.append_assoc]
      rfl
  show (do
    let keys ← loop v [] fun keys (t : Key × K) => do
      let i ← src.tensorBasis.keyToIndex t.1
      some (keys ++ [i])
    some (⟨some keys, v.map fun t : Key × K => t.2⟩ : KeyScalars K)) = _
  rw [key v [] fun t ht => (hI.val t ht).1]
  rfl

theorem zip_map_map {α β γ : Type} (l : List α) (f : α → β) (g : α → γ) :
    (l.map f).zip (l.map g) = l.map fun t => (f t, g t) := by
  induction l with
  | nil => rfl
  | cons a l ih => rw [List.map_cons, List.map_cons, List.zip_cons_cons, ih, List.map_cons]

theorem length_le_of_nodup {l : List ℕ} (hl : l.Nodup) {N : ℕ} (h : ∀ i ∈ l, i < N) : l.length ≤ N := by
  have h1 : l.toFinset ⊆ Finset.range N := fun i hi =>
    Finset.mem_range.2 (h i (List.mem_toFinset.1 hi))
  have h2 := Finset.card_le_card h1
  rwa [List.toFinset_card_of_nodup hl, Finset.card_range] at h2

theorem convertTensorImpl_spec {k : Kind K T} {ser : T → Series (Fin w) K} {Good Tight Full : T → Prop}
    {coef : T → Key → K} {LGood : ℕ → T → Prop} {strict : Prop}
    (hk : k.Lawful w m ser Good Tight Full coef LGood strict) (hc : c.Ok w m) {src : LiteCtx} {m' : ℕ}
    (hsrc : src.Ok w m') {x : Stored K} {f : Series (Fin w) K} (hx : IsTensor w (m' + 1) x f)
    (hok : x.vecType = .dense ∨ m' ≤ m) :
    ∃ r, c.convertTensorImpl k src x = some r ∧ Good r ∧
      EqUpTo (m + 1) (ser r) (trunc (m' + 1) f) := by
  cases x with
  | dense v =>
    obtain ⟨h1, h2⟩ := isTensor_dense.1 hx
    have hent : ∀ t ∈ ((⟨none, v.storage⟩ : KeyScalars K).entries.take (wordsBelow w (m + 2))),
        ∃ u : List (Fin w), u.length ≤ m + 1 ∧ wordIndex u = t.1 := by
      intro t ht
      have ht' : t ∈ ((List.range v.storage.length).zip v.storage).take (wordsBelow w (m + 2)) := ht
      rw [List.mem_take_iff_getElem] at ht'
      obtain ⟨i, hi, rfl⟩ := ht'
      rw [List.getElem_zip, List.getElem_range]
      obtain ⟨u, hu1, hu2⟩ := exists_wordIndex (w := w) (D := m + 1) (i := i)
        (show i < wordsBelow w (m + 2) by omega)
      exact ⟨u, hu1, hu2⟩
    obtain ⟨r, e1, e2, e3⟩ := constructTensor_spec hk hc (data := ⟨none, v.storage⟩)
      (fun keys h => by cases h) hent
    refine ⟨r, e1, e2, fun u hu => ?_⟩
    rw [e3 u hu]
    have hidx : wordIndex u < wordsBelow w (m + 2) := wordIndex_lt (by omega)
    have hnd : ∀ n, ((((List.range v.storage.length).zip v.storage).take n).map (·.1)).Nodup := by
      intro n
      rw [List.map_take, List.map_fst_zip (by rw [List.length_range])]
      exact (List.nodup_range).sublist (List.take_sublist _ _)
    have htr : trunc (m' + 1) f u = v.storage[wordIndex u]?.getD 0 := by
      unfold Series.trunc
      split_ifs with hle
      · exact (h2 u hle).symm
      · exact (Dense.ser_eq_zero (d := m' + 1) h1.length_le (by omega)).symm
    rw [htr]
    show lastValue (((List.range v.storage.length).zip v.storage).take _) _ = _
    rcases hget : v.storage[wordIndex u]? with _ | x
    · refine lastValue_of_not_mem fun t ht hti => ?_
      have ht' := List.mem_of_mem_take ht
      have := (List.of_mem_zip (show (t.1, t.2) ∈ _ from ht')).1
      rw [List.mem_range, hti] at this
      rw [List.getElem?_eq_none_iff] at hget
      omega
    · refine lastValue_of_mem (hnd _) ?_
      obtain ⟨g1, g2⟩ := List.getElem?_eq_some_iff.1 hget
      rw [List.mem_take_iff_getElem]
      refine ⟨wordIndex u, by rw [List.length_zip, List.length_range]; omega, ?_⟩
      rw [List.getElem_zip, List.getElem_range, g2]
      rfl
  | sparse v =>
    have hle : m' ≤ m := by
      rcases hok with h | h
      · cases h
      · exact h
    obtain ⟨h1, h2⟩ := isTensor_sparse.1 hx
    have hI := Sparse.items_of_goodOn h1
    have hB := tensorBasis_lawful w (m' + 1)
    have hEnt : ((⟨some (v.map fun t => keyIndex (wordsBelow w) t.1), v.map (·.2)⟩ :
        KeyScalars K)).entries = v.map fun t => (keyIndex (wordsBelow w) t.1, t.2) := zip_map_map ..
    have hword : ∀ t ∈ v, ∃ u : List (Fin w), u.length ≤ m' + 1 ∧ wordKey u = t.1 :=
      fun t ht => exists_wordKey (hI.val t ht).1
    have hnd : ((v.map fun t => (keyIndex (wordsBelow w) t.1, t.2)).map (·.1)).Nodup := by
      rw [List.map_map]
      have hp : v.Pairwise fun a b => a.1 ≠ b.1 :=
        hI.sorted.imp fun h heq => by
          rw [heq] at h
          exact lt_irrefl _ h
      rw [List.Nodup, List.pairwise_map]
      refine List.Pairwise.imp_of_mem (fun {a b} ha hb' hab heq => hab ?_) hp
      obtain ⟨u, -, hu⟩ := hword a ha
      obtain ⟨u', -, hu'⟩ := hword b hb'
      rw [← hu, ← hu']
      have heq' : keyIndex (wordsBelow w) a.1 = keyIndex (wordsBelow w) b.1 := heq
      rw [← hu, ← hu', keyIndex_wordKey, keyIndex_wordKey] at heq'
      rw [wordIndex_inj heq']
    have hlen : (v.map fun t => (keyIndex (wordsBelow w) t.1, t.2)).length ≤ wordsBelow w (m + 2) := by
      have := length_le_of_nodup hnd (N := wordsBelow w (m + 2)) (fun i hi => by
        rw [List.map_map, List.mem_map] at hi
        obtain ⟨t, ht, rfl⟩ := hi
        obtain ⟨u, hu1, hu2⟩ := hword t ht
        show keyIndex (wordsBelow w) t.1 < _
        rw [← hu2, keyIndex_wordKey]
        exact wordIndex_lt (by omega))
      rwa [List.length_map] at this
    have htake : (⟨some (v.map fun t => keyIndex (wordsBelow w) t.1), v.map (·.2)⟩ :
        KeyScalars K).entries.take (wordsBelow w (m + 2)) =
        v.map fun t => (keyIndex (wordsBelow w) t.1, t.2) := by
      rw [hEnt, List.take_of_length_le hlen]
    obtain ⟨r, e1, e2, e3⟩ := constructTensor_spec hk hc
      (data := ⟨some (v.map fun t => keyIndex (wordsBelow w) t.1), v.map (·.2)⟩)
      (fun keys h => by
        obtain rfl := Option.some.inj h
        rw [List.length_map, List.length_map]) (fun t ht => by
        rw [htake, List.mem_map] at ht
        obtain ⟨s, hs', rfl⟩ := ht
        obtain ⟨u, hu1, hu2⟩ := hword s hs'
        exact ⟨u, by omega, by rw [← keyIndex_wordKey, hu2]⟩)
    refine ⟨r, ?_, e2, fun u hu => ?_⟩
    · unfold LiteCtx.convertTensorImpl
      rw [tensorData_sparse hsrc h1]
      exact e1
    · rw [e3 u hu, htake]
      unfold Series.trunc
      by_cases hne : Sparse.ser w v u = 0
      · have h0 : (if u.length ≤ m' + 1 then f u else 0) = 0 := by
          split_ifs with hlu
          · rw [← h2 u hlu, hne]
          · rfl
        rw [h0]
        refine lastValue_of_not_mem fun t ht hti => ?_
        rw [List.mem_map] at ht
        obtain ⟨s, hs', rfl⟩ := ht
        obtain ⟨u', hu1, hu2⟩ := hword s hs'
        dsimp only at hti
        rw [← hu2, keyIndex_wordKey] at hti
        have := wordIndex_inj hti
        subst this
        have := (hI.val s hs').2
        rw [← hu2] at this
        exact h1.1.2 s hs' (this.trans hne)
      · have hmem := hI.mem (wordKey u) (by
          by_contra hv
          exact hne (h1.2 _ hv)) hne
        have hul : u.length ≤ m' + 1 := (hI.val _ hmem).1.1
        rw [if_pos hul, ← h2 u hul]
        refine lastValue_of_mem hnd (List.mem_map.2 ⟨_, hmem, ?_⟩)
        rfl

theorem convertTensor_stored (hw : 0 < w) (hc : c.Ok w m) {src : LiteCtx} {m' : ℕ}
    (hsrc : src.Ok w m') {x : Stored K} {f : Series (Fin w) K} (hx : IsTensor w (m' + 1) x f)
    (hok : x.vecType = .dense ∨ m' ≤ m) (vt : VecType) :
    ∃ r, c.convertTensor src x vt = some r ∧ r.vecType = vt ∧
      IsTensor w (m + 1) r (trunc (m' + 1) f) := by
  cases vt with
  | sparse =>
    obtain ⟨r, e1, e2, e3⟩ := convertTensorImpl_spec (sparseKind_lawful hc) hc hsrc hx hok
    exact ⟨.sparse r, by simp only [LiteCtx.convertTensor, e1, Option.bind_eq_bind, Option.bind_some],
      rfl, isTensor_sparse.2 ⟨e2, e3⟩⟩
  | dense =>
    obtain ⟨r, e1, e2, e3⟩ := convertTensorImpl_spec (denseKind_lawful hw hc) hc hsrc hx hok
    exact ⟨.dense r, by simp only [LiteCtx.convertTensor, e1, Option.bind_eq_bind, Option.bind_some],
      rfl, isTensor_dense.2 ⟨e2, e3⟩⟩

theorem trunc_eqUpTo {w D D' : ℕ} (f : Series (Fin w) K) (h : D ≤ D') : EqUpTo D (trunc D' f) f := by
  intro u hu
  unfold Series.trunc
  rw [if_pos (by omega)]

theorem convertTensor_self (hw : 0 < w) (hc : c.Ok w m) {x : Stored K} {f : Series (Fin w) K}
    (hx : IsTensor w (m + 1) x f) (vt : VecType) :
    ∃ r, c.convertTensor c x vt = some r ∧ r.vecType = vt ∧ IsTensor w (m + 1) r f := by
  obtain ⟨r, h1, h2, h3⟩ := convertTensor_stored hw hc hc hx (Or.inr le_rfl) vt
  exact ⟨r, h1, h2, h3.congr (trunc_eqUpTo f le_rfl)⟩

/-! ### Arithmetic -/

variable [CharZero K]

theorem exp_stored (hw : 0 < w) (hc : c.Ok w m) {x : Stored K} {f : Series (Fin w) K}
    (hx : IsTensor w (m + 1) x f) (h0 : f [] = 0) :
    ∃ r, c.exp x = some r ∧ r.vecType = x.vecType ∧ IsTensor w (m + 1) r (texp f) := by
  cases x with
  | sparse v =>
    obtain ⟨h1, h2⟩ := isTensor_sparse.1 hx
    have hk := sparseKind_lawful (K := K) hc
    obtain ⟨r, e1, e2, e3⟩ := hk.tensor.exp h1
    rw [hk.depth] at e3
    refine ⟨.sparse r, by simp only [LiteCtx.exp, e1, Option.bind_eq_bind, Option.bind_some], rfl,
      isTensor_sparse.2 ⟨e2, e3.trans ((AlgOps.LawfulTensor.sum_exp_eq ?_ _).trans h2.texp)⟩⟩
    rw [h2 [] (Nat.zero_le _), h0]
  | dense v =>
    obtain ⟨h1, h2⟩ := isTensor_dense.1 hx
    have hk := denseKind_lawful (K := K) hw hc
    obtain ⟨r, e1, e2, e3⟩ := hk.tensor.exp h1
    rw [hk.depth] at e3
    refine ⟨.dense r, by simp only [LiteCtx.exp, e1, Option.bind_eq_bind, Option.bind_some], rfl,
      isTensor_dense.2 ⟨e2.tight.1, e3.trans ((AlgOps.LawfulTensor.sum_exp_eq ?_ _).trans h2.texp)⟩⟩
    rw [h2 [] (Nat.zero_le _), h0]

theorem log_stored (hw : 0 < w) (hc : c.Ok w m) {x : Stored K} {f : Series (Fin w) K}
    (hx : IsTensor w (m + 1) x f) (h1 : f [] = 1) :
    ∃ r, c.log x = some r ∧ r.vecType = x.vecType ∧ IsTensor w (m + 1) r (tlog f) := by
  have hlog : ∀ {g : Series (Fin w) K}, EqUpTo (m + 1) g f →
      EqUpTo (m + 1) (tlog (1 + noScalar g)) (tlog f) := by
    intro g hg
    have : g [] = 1 := by rw [hg [] (Nat.zero_le _), h1]
    rw [one_add_noScalar this]
    exact hg.tlog
  cases x with
  | sparse v =>
    obtain ⟨g1, g2⟩ := isTensor_sparse.1 hx
    have hk := sparseKind_lawful (K := K) hc
    obtain ⟨r, e1, e2, e3⟩ := hk.tensor.log g1
    rw [hk.depth] at e3
    exact ⟨.sparse r, by simp only [LiteCtx.log, e1, Option.bind_eq_bind, Option.bind_some], rfl,
      isTensor_sparse.2 ⟨e2, e3.trans (hlog g2)⟩⟩
  | dense v =>
    obtain ⟨g1, g2⟩ := isTensor_dense.1 hx
    have hk := denseKind_lawful (K := K) hw hc
    obtain ⟨r, e1, e2, e3⟩ := hk.tensor.log g1
    rw [hk.depth] at e3
    exact ⟨.dense r, by simp only [LiteCtx.log, e1, Option.bind_eq_bind, Option.bind_some], rfl,
      isTensor_dense.2 ⟨e2.tight.1, e3.trans (hlog g2)⟩⟩

theorem fmexp_stored (hw : 0 < w) (hc : c.Ok w m) {x y : Stored K} {f g : Series (Fin w) K}
    (hx : IsTensor w (m + 1) x f) (hy : IsTensor w (m + 1) y g) (h0 : g [] = 0) :
    ∃ r, c.fmexp x y = some r ∧ r.vecType = x.vecType ∧ IsTensor w (m + 1) r (f * texp g) := by
  have hexp : ∀ {f' g' : Series (Fin w) K}, EqUpTo (m + 1) f' f → EqUpTo (m + 1) g' g →
      EqUpTo (m + 1) (f' * texp (noScalar g')) (f * texp g) := by
    intro f' g' hf hg
    have : g' [] = 0 := by rw [hg [] (Nat.zero_le _), h0]
    rw [noScalar_eq this]
    exact EqUpTo.mul hf hg.texp
  have htr : ∀ g' : Series (Fin w) K, EqUpTo (m + 1) g' (trunc (m + 1) g) → EqUpTo (m + 1) g' g :=
    fun g' h => h.trans (trunc_eqUpTo g le_rfl)
  have hs := sparseKind_lawful (K := K) hc
  have hd := denseKind_lawful (K := K) hw hc
  cases x with
  | sparse v =>
    obtain ⟨g1, g2⟩ := isTensor_sparse.1 hx
    cases y with
    | sparse u =>
      obtain ⟨k1, k2⟩ := isTensor_sparse.1 hy
      obtain ⟨r, e1, e2, e3⟩ := hs.tensor.fmexp g1 k1
      rw [hs.depth] at e3
      exact ⟨.sparse r, by simp only [LiteCtx.fmexp, e1, Option.bind_eq_bind, Option.bind_some], rfl,
        isTensor_sparse.2 ⟨e2, e3.trans (hexp g2 k2)⟩⟩
    | dense u =>
      obtain ⟨z, z1, z2, z3⟩ := convertTensorImpl_spec hs hc hc hy (Or.inr le_rfl)
      obtain ⟨r, e1, e2, e3⟩ := hs.tensor.fmexp g1 z2
      rw [hs.depth] at e3
      exact ⟨.sparse r, by simp only [LiteCtx.fmexp, z1, e1, Option.bind_eq_bind, Option.bind_some], rfl,
        isTensor_sparse.2 ⟨e2, e3.trans (hexp g2 (htr _ z3))⟩⟩
  | dense v =>
    obtain ⟨g1, g2⟩ := isTensor_dense.1 hx
    cases y with
    | dense u =>
      obtain ⟨k1, k2⟩ := isTensor_dense.1 hy
      obtain ⟨r, e1, e2, e3⟩ := hd.tensor.fmexp g1 k1
      rw [hd.depth] at e3
      exact ⟨.dense r, by simp only [LiteCtx.fmexp, e1, Option.bind_eq_bind, Option.bind_some], rfl,
        isTensor_dense.2 ⟨e2.tight.1, e3.trans (hexp g2 k2)⟩⟩
    | sparse u =>
      obtain ⟨z, z1, z2, z3⟩ := convertTensorImpl_spec hd hc hc hy (Or.inr le_rfl)
      obtain ⟨r, e1, e2, e3⟩ := hd.tensor.fmexp g1 z2
      rw [hd.depth] at e3
      exact ⟨.dense r, by simp only [LiteCtx.fmexp, z1, e1, Option.bind_eq_bind, Option.bind_some], rfl,
        isTensor_dense.2 ⟨e2.tight.1, e3.trans (hexp g2 (htr _ z3))⟩⟩

theorem unitTensor_stored (hw : 0 < w) (hc : c.Ok w m) (vt : VecType) :
    ∃ r, c.unitTensor (K := K) vt = some r ∧ r.vecType = vt ∧ IsTensor w (m + 1) r 1 := by
  have hB := tensorBasis_lawful w (m + 1)
  have hk0 : c.tensorBasis.indexToKey 0 = some ⟨0, 0⟩ := by
    unfold LiteCtx.tensorBasis
    rw [hc.width, hc.depth]
    have hv := zeroKey_valid w (m + 1)
    have := hB.indexToKey ⟨0, 0⟩ hv.1 hv.2
    rw [show wordsBelow w (⟨0, 0⟩ : Key).deg + (⟨0, 0⟩ : Key).idx = 0 from hB.zero] at this
    exact this
  cases vt with
  | sparse =>
    have hk := sparseKind_lawful (K := K) hc
    obtain ⟨r, e1, e2, e3⟩ := hk.tensor.modify _ (hk.tensor.good _ hk.tensor.new_tight) [] (Nat.zero_le _)
      fun _ => 1
    have hz : c.constructTensor (K := K) ⟨none, []⟩ .sparse =
        some (.sparse (c.sparseKind (K := K)).tensor.new) := rfl
    refine ⟨.sparse r, ?_, rfl, isTensor_sparse.2 ⟨e2, fun u hu => ?_⟩⟩
    · unfold LiteCtx.unitTensor
      rw [hz, hk0]
      simp only [Option.bind_eq_bind, Option.bind_some]
      rw [wordKey_nil] at e1
      rw [e1]
      rfl
    · rw [e3 u (by rw [hk.depth]; exact hu)]
      cases u with
      | nil => rw [if_pos rfl, one_nil]
      | cons a u =>
        rw [if_neg (by simp), one_cons]
        exact hk.tensor.new_ser _ (by rw [hk.depth]; exact hu)
  | dense =>
    have hk := denseKind_lawful (K := K) hw hc
    obtain ⟨r, e1, e2, e3⟩ := hk.tensor.modify _ (hk.tensor.good _ hk.tensor.new_tight) [] (Nat.zero_le _)
      fun _ => 1
    have hz : c.constructTensor (K := K) ⟨none, []⟩ .dense =
        some (.dense (c.denseKind (K := K)).tensor.new) := rfl
    refine ⟨.dense r, ?_, rfl, isTensor_dense.2 ⟨e2.tight.1, fun u hu => ?_⟩⟩
    · unfold LiteCtx.unitTensor
      rw [hz, hk0]
      simp only [Option.bind_eq_bind, Option.bind_some]
      rw [wordKey_nil] at e1
      rw [e1]
      rfl
    · rw [e3 u (by rw [hk.depth]; exact hu)]
      cases u with
      | nil => rw [if_pos rfl, one_nil]
      | cons a u =>
        rw [if_neg (by simp), one_cons]
        exact hk.tensor.new_ser _ (by rw [hk.depth]; exact hu)

/-! ### The Campbell-Baker-Hausdorff formula -/

theorem cbhFallback_stored (hw : 0 < w) (hc : c.Ok w m) (he : HallElems c.hs e)
    (hf : c.Fuel w m fuel) {lies : List (Stored K)} {fs : List (Series (Fin w) K)}
    (hl : List.Forall₂ (IsLieElem c e) lies fs) (hst : MapsHistory w (m + 1) c.hs st) {x : Stored K}
    {f : Series (Fin w) K} (hx : IsTensor w (m + 1) x f) :
    ∃ r st', c.cbhFallback fuel st x lies = some (r, st') ∧ MapsHistory w (m + 1) c.hs st' ∧
      r.vecType = x.vecType ∧ IsTensor w (m + 1) r (f * (fs.map texp).prod) := by
  induction hl generalizing st x f with
  | nil => exact ⟨x, st, rfl, hst, rfl, by rw [List.map_nil, List.prod_nil, mul_one]; exact hx⟩
  | @cons y g ys gs hy hys ih =>
    unfold LiteCtx.cbhFallback
    rw [loop_cons]
    by_cases hd : y.dimension = 0
    · rw [if_neg (not_not.2 hd), Option.bind_some]
      obtain ⟨r, st', h1, h2, h3, h4⟩ := ih hst hx
      refine ⟨r, st', h1, h2, h3, h4.congr ?_⟩
      rw [List.map_cons, List.prod_cons]
      have h5 : EqUpTo (m + 1) (texp g) 1 := by
        have := (hy.of_dimension hw hc hd).texp
        rwa [texp_zero] at this
      have h6 := (EqUpTo.mul h5 (EqUpTo.refl (m + 1) (gs.map texp).prod)).symm
      rw [one_mul] at h6
      exact EqUpTo.mul (EqUpTo.refl _ _) h6
    · rw [if_pos hd]
      obtain ⟨t, st1, t1, t2, -, t4⟩ := lieToTensor_stored hw hc he hf hst hy
      obtain ⟨z, z1, z2, z3⟩ := fmexp_stored hw hc hx t4 (hy.nil hw hc he)
      obtain ⟨r, st', h1, h2, h3, h4⟩ := ih t2 z3
      rw [t1]
      simp only [Option.bind_eq_bind, Option.bind_some]
      rw [z1]
      simp only [Option.bind_some]
      refine ⟨r, st', h1, h2, h3.trans z2, ?_⟩
      rw [List.map_cons, List.prod_cons, ← mul_assoc]
      exact h4

theorem prod_texp_groupLike (hw : 0 < w) (hc : c.Ok w m) (he : HallElems c.hs e)
    {lies : List (Stored K)} {fs : List (Series (Fin w) K)}
    (hl : List.Forall₂ (IsLieElem c e) lies fs) :
    ∃ g : Series (Fin w) K, GroupLike g ∧ EqUpTo (m + 1) g (fs.map texp).prod := by
  induction hl with
  | nil => exact ⟨1, groupLike_one, by rw [List.map_nil, List.prod_nil]; exact EqUpTo.refl _ _⟩
  | @cons y g ys gs hy hys ih =>
    obtain ⟨h, h1, h2⟩ := ih
    obtain ⟨ℓ, l1, l2⟩ := hy.isLie hw hc he
    refine ⟨texp ℓ * h, (Primitive.groupLike_texp l1.primitive).mul h1, ?_⟩
    rw [List.map_cons, List.prod_cons]
    exact EqUpTo.mul l2.texp h2

/-- `tensor_to_lie(log x)` for a tensor that agrees with a group-like one -/
theorem log_tensorToLie (hw : 0 < w) (hc : c.Ok w m) (he : HallElems c.hs e)
    (hf : c.Fuel w m fuel) (hst : MapsHistory w (m + 1) c.hs st) {x : Stored K}
    {f g : Series (Fin w) K} (hx : IsTensor w (m + 1) x f) (hg : GroupLike g)
    (hfg : EqUpTo (m + 1) g f) :
    ∃ y r st', c.log x = some y ∧ c.tensorToLie fuel st y = some (r, st') ∧
      MapsHistory w (m + 1) c.hs st' ∧ r.vecType = x.vecType ∧ IsLieElem c e r (tlog f) := by
  obtain ⟨y, y1, y2, y3⟩ := log_stored hw hc hx (by rw [← hfg [] (Nat.zero_le _)]; exact hg.1)
  obtain ⟨r, st', r1, r2, r3, r4⟩ := tensorToLie_stored hw hc he hf hst y3
  refine ⟨y, r, st', y1, r1, r2, r3.trans y2, r4.congr ?_⟩
  rw [hc.depth, ← dynkinUpTo_congr hfg.tlog]
  exact (dynkinUpTo_prim (hg.primitive_tlog (m + 1))).trans hfg.tlog

theorem convertLie_stored (hw : 0 < w) (hc : c.Ok w m) (he : HallElems c.hs e)
    (hf : c.Fuel w m fuel) (hst : MapsHistory w (m + 1) c.hs st) {x : Stored K}
    {f : Series (Fin w) K} (hx : IsLieElem c e x f) (vt : VecType) :
    ∃ r st', c.convertLie fuel st x vt = some (r, st') ∧ MapsHistory w (m + 1) c.hs st' ∧
      r.vecType = vt ∧ IsLieElem c e r f := by
  obtain ⟨t, st1, t1, t2, t3, t4⟩ := lieToTensor_stored hw hc he hf hst hx
  obtain ⟨u, u1, u2, u3⟩ := convertTensor_self hw hc t4 vt
  obtain ⟨r, st', r1, r2, r3, r4⟩ := tensorToLie_stored hw hc he hf t2 u3
  refine ⟨r, st', ?_, r2, r3.trans u2, r4.congr ?_⟩
  · unfold LiteCtx.convertLie
    rw [t1]
    simp only [Option.bind_eq_bind, Option.bind_some]
    rw [u1]
    exact r1
  · obtain ⟨ℓ, l1, l2⟩ := hx.isLie hw hc he
    rw [hc.depth, ← dynkinUpTo_congr l2]
    exact (dynkinUpTo_prim (l1.primitive (m + 1))).trans l2

theorem cbh_stored (hw : 0 < w) (hc : c.Ok w m) (he : HallElems c.hs e)
    (hf : c.Fuel w m fuel) {lies : List (Stored K)} {fs : List (Series (Fin w) K)}
    (hl : List.Forall₂ (IsLieElem c e) lies fs) (hst : MapsHistory w (m + 1) c.hs st) (vt : VecType) :
    ∃ r st', c.cbh fuel st lies vt = some (r, st') ∧ MapsHistory w (m + 1) c.hs st' ∧
      r.vecType = vt ∧ IsLieElem c e r (tlog (fs.map texp).prod) := by
  by_cases h1 : ∃ x, lies = [x]
  · obtain ⟨x, rfl⟩ := h1
    obtain ⟨f, rfl, hx⟩ : ∃ f, fs = [f] ∧ IsLieElem c e x f := by
      cases hl with
      | cons h1 h2 =>
        cases h2
        exact ⟨_, rfl, h1⟩
    obtain ⟨r, st', r1, r2, r3, r4⟩ := convertLie_stored hw hc he hf hst hx vt
    refine ⟨r, st', r1, r2, r3, r4.congr ?_⟩
    rw [List.map_cons, List.map_nil, List.prod_singleton, tlog_texp (hx.nil hw hc he)]
    exact EqUpTo.refl _ _
  · obtain ⟨x, x1, x2, x3⟩ := unitTensor_stored (K := K) hw hc vt
    obtain ⟨y, st1, y1, y2, y3, y4⟩ := cbhFallback_stored hw hc he hf hl hst x3
    rw [one_mul] at y4
    obtain ⟨g, g1, g2⟩ := prod_texp_groupLike hw hc he hl
    obtain ⟨z, r, st', z1, z2, z3, z4, z5⟩ := log_tensorToLie hw hc he hf y2 y4 g1 g2
    refine ⟨r, st', ?_, z3, by rw [z4, y3, x2], z5⟩
    have : c.cbh fuel st lies vt = (do
        let collector ← c.unitTensor vt
        let s ← c.cbhFallback fuel st collector lies
        c.tensorToLie fuel s.2 (← c.log s.1)) := by
      unfold LiteCtx.cbh
      split
      · rename_i x
        exact absurd ⟨x, rfl⟩ h1
      · rfl
    rw [this, x1]
    simp only [Option.bind_eq_bind, Option.bind_some]
    rw [y1]
    simp only [Option.bind_some]
    rw [z1]
    exact z2

theorem cbhPair_stored (hw : 0 < w) (hc : c.Ok w m) (he : HallElems c.hs e)
    (hf : c.Fuel w m fuel) (hst : MapsHistory w (m + 1) c.hs st) {x y : Stored K}
    {f g : Series (Fin w) K} (hx : IsLieElem c e x f) (hy : IsLieElem c e y g) (vt : VecType) :
    ∃ r st', c.cbhPair fuel st x y vt = some (r, st') ∧ MapsHistory w (m + 1) c.hs st' ∧
      r.vecType = x.vecType ∧ IsLieElem c e r (tlog (texp f * texp g)) := by
  obtain ⟨a, st1, a1, a2, a3, a4⟩ := lieToTensor_stored hw hc he hf hst hx
  obtain ⟨b, b1, b2, b3⟩ := exp_stored hw hc a4 (hx.nil hw hc he)
  obtain ⟨p, st2, p1, p2, p3, p4⟩ := lieToTensor_stored hw hc he hf a2 hy
  obtain ⟨q, q1, q2, q3⟩ := fmexp_stored hw hc b3 p4 (hy.nil hw hc he)
  obtain ⟨k, k1, k2⟩ := prod_texp_groupLike hw hc he
    (List.Forall₂.cons hx (List.Forall₂.cons hy List.Forall₂.nil))
  rw [List.map_cons, List.map_cons, List.map_nil, List.prod_cons, List.prod_singleton] at k2
  obtain ⟨z, r, st', z1, z2, z3, z4, z5⟩ := log_tensorToLie hw hc he hf p2 q3 k1 k2
  refine ⟨r, st', ?_, z3, by rw [z4, q2, b2, a3], z5⟩
  unfold LiteCtx.cbhPair
  rw [a1]
  simp only [Option.bind_eq_bind, Option.bind_some]
  rw [b1]
  simp only [Option.bind_some]
  rw [p1]
  simp only [Option.bind_some]
  rw [q1]
  simp only [Option.bind_some]
  rw [z1]
  exact z2

end ops

end RoughPy.Lite
