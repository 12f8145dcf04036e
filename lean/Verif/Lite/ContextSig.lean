import Verif.Lite.ContextStored
import Verif.Tensor.Deriv

set_option linter.unusedSectionVars false

/-! # Lemmas on the context: construction of Lie elements, signatures and their derivatives -/

namespace RoughPy.Lite

open RoughPy.Tensor RoughPy.Tensor.Series
open RoughPy.Lie (IsHallTable HasDegree hallTable hallTable_isHall Homog)

attribute [local instance] LieRing.ofAssociativeRing

variable {K T : Type} [Field K] [DecidableEq K]

section
variable {w m : ℕ} {c : LiteCtx} {e : Key → Series (Fin w) K} {fuel : ℕ} {st : MapsState}
  {k : Kind K T} {ser : T → Series (Fin w) K} {Good Tight Full : T → Prop}
  {coef : T → Key → K} {LGood : ℕ → T → Prop} {strict : Prop}

/-! ## Construction -/

theorem constructTensor_stored (hw : 0 < w) (hc : c.Ok w m) {data : KeyScalars K}
    {f : Series (Fin w) K} (hd : IsTensorData w (m + 1) data f) (vt : VecType) :
    ∃ r, c.constructTensor data vt = some r ∧ r.vecType = vt ∧ IsTensor w (m + 1) r f := by
  obtain ⟨h1, h2, h3⟩ := hd
  have hent : ∀ t ∈ data.entries.take (wordsBelow w (m + 2)),
      ∃ u : List (Fin w), u.length ≤ m + 1 ∧ wordIndex u = t.1 := fun t ht =>
    exists_wordIndex (h2 t ht)
  cases vt with
  | sparse =>
    obtain ⟨r, e1, e2, e3⟩ := constructTensor_spec (sparseKind_lawful (K := K) hc) hc h1 hent
    exact ⟨.sparse r, by simp only [LiteCtx.constructTensor, e1, Option.bind_eq_bind, Option.bind_some], rfl,
      isTensor_sparse.2 ⟨e2, fun u hu => (e3 u hu).trans (h3 u hu).symm⟩⟩
  | dense =>
    obtain ⟨r, e1, e2, e3⟩ := constructTensor_spec (denseKind_lawful (K := K) hw hc) hc h1 hent
    exact ⟨.dense r, by simp only [LiteCtx.constructTensor, e1, Option.bind_eq_bind, Option.bind_some], rfl,
      isTensor_dense.2 ⟨e2, fun u hu => (e3 u hu).trans (h3 u hu).symm⟩⟩

/-- the keys of the basis in increasing order -/
theorem keys_eq (hc : c.Ok w m) {ks : List Key} (h1 : ks.Pairwise (· < ·))
    (h2 : ∀ k, k ∈ ks ↔ c.hs.HasKey k) :
    ks = (List.range ((hallTable w m).data.length - 1)).map fun i => keyAt (hallTable w m) (i + 1) := by
  have hb := hallTable_isHall w m
  have h3 : ((List.range ((hallTable w m).data.length - 1)).map
      fun i => keyAt (hallTable w m) (i + 1)).Pairwise (· < ·) := by
    rw [List.pairwise_map]
    refine (List.pairwise_lt_range (n := (hallTable w m).data.length - 1)).imp_of_mem ?_
    intro i j hi hj hij
    rw [List.mem_range] at hi hj
    exact keyAt_lt hb (by omega) (by omega) (by omega)
  have hp : ks.Perm ((List.range ((hallTable w m).data.length - 1)).map
      fun i => keyAt (hallTable w m) (i + 1)) := by
    refine (List.perm_ext_iff_of_nodup (h1.imp fun h => ne_of_lt h) (h3.imp fun h => ne_of_lt h)).2 fun k => ?_
    rw [h2, hasKey_iff hb hc.rep, validKey_iff hb, List.mem_map]
    constructor
    · rintro ⟨i, hi, hi', rfl⟩
      exact ⟨i - 1, List.mem_range.2 (by omega), by rw [Nat.sub_add_cancel hi]⟩
    · rintro ⟨i, hi, rfl⟩
      rw [List.mem_range] at hi
      exact ⟨i + 1, by omega, by omega, rfl⟩
  exact hp.eq_of_pairwise (fun a b _ _ hab hba => absurd hab (lt_asymm hba)) h1 h3

theorem length_eq_start (w m : ℕ) : (hallTable w m).data.length = (hallTable w m).start (m + 2) :=
  (hallTable_isHall w m).start_last.symm

theorem sum_list_range {M : Type*} [AddCommMonoid M] (n : ℕ) (g : ℕ → M) :
    ((List.range n).map g).sum = ∑ i ∈ Finset.range n, g i := by
  induction n with
  | zero => rfl
  | succ n ih =>
    rw [List.range_succ, List.map_append, List.sum_append, ih, Finset.sum_range_succ, List.map_cons,
      List.map_nil, List.sum_cons, List.sum_nil, add_zero]

theorem constructLie_spec (hk : k.Lawful w m ser Good Tight Full coef LGood strict) (hc : c.Ok w m)
    {data : KeyScalars K} {f : Series (Fin w) K} (hd : IsLieData c e data f) :
    ∃ r, constructImpl k.lie c.lieBasis data = some r ∧ LGood (m + 1) r ∧
      EqUpTo (m + 1) (lieSer (hallTable w m) e (coef r)) f := by
  have hb := hallTable_isHall w m
  obtain ⟨h1, ks, h2, h3, h4, h5⟩ := hd
  have hks := keys_eq hc h2 h3
  have hlen : ks.length = (hallTable w m).data.length - 1 := by
    rw [hks, List.length_map, List.length_range]
  have hB := hallBasis_lawful hb hc.rep
  have hmax : c.lieBasis.maxDim = ks.length := by
    rw [hlen, length_eq_start, hc.basis]
    rfl
  have key := constructImpl_spec (V := k.lie) (B := c.lieBasis)
    (P := ValidKey (lieStart (hallTable w m)) (m + 1)) (κ := id)
    (idx := keyIndex (lieStart (hallTable w m))) (val := coef) (inv := LGood (m + 1)) (data := data)
    (fun q hq => by
      rw [hc.basis]
      exact hB.indexToKey q hq.1 hq.2)
    (fun p q hp hq h => by
      obtain ⟨i, i1, i2, rfl⟩ := (validKey_iff hb).1 hp
      obtain ⟨j, j1, j2, rfl⟩ := (validKey_iff hb).1 hq
      rw [keyIndex_keyAt hb i1 i2, keyIndex_keyAt hb j1 j2] at h
      rw [show i = j by omega])
    (fun v hv p hp x => by
      obtain ⟨v', e1, e2, e3⟩ := hk.lie.lawful.modify v hv p hp fun _ => x
      exact ⟨v', e1, e2, e3⟩)
    hk.lie.lawful.new_good (fun p hp => hk.lie.lawful.new_coef p hp) h1 (by
      rw [hmax]
      intro t ht
      have := h4 t ht
      refine ⟨keyAt (hallTable w m) (t.1 + 1), (validKey_iff hb).2 ⟨t.1 + 1, by omega, by omega, rfl⟩, ?_⟩
      rw [keyIndex_keyAt hb (by omega) (by omega), Nat.add_sub_cancel])
  obtain ⟨r, e1, e2, e3⟩ := key
  rw [hmax] at e3
  refine ⟨r, e1, e2, ?_⟩
  rw [hc.depth] at h5
  have hz : ks.zipIdx.map (fun t => lastValue (data.entries.take ks.length) t.2 • e t.1) =
      (List.range ((hallTable w m).data.length - 1)).map fun i =>
        lastValue (data.entries.take ks.length) i • e (keyAt (hallTable w m) (i + 1)) := by
    generalize lastValue (data.entries.take ks.length) = g
    rw [hks]
    apply List.ext_getElem
    · simp
    · intro i _ _
      simp
  rw [hz, sum_list_range] at h5
  refine EqUpTo.trans ?_ h5
  unfold lieSer
  rw [Finset.sum_congr rfl fun i hi => ?_]
  · exact EqUpTo.refl _ _
  · rw [Finset.mem_range] at hi
    rw [e3 _ ((validKey_iff hb).2 ⟨i + 1, by omega, by omega, rfl⟩), keyIndex_keyAt hb (by omega) (by omega),
      Nat.add_sub_cancel]

theorem constructLie_stored (hw : 0 < w) (hc : c.Ok w m) {data : KeyScalars K}
    {f : Series (Fin w) K} (hd : IsLieData c e data f) (vt : VecType) :
    ∃ r, c.constructLie data vt = some r ∧ r.vecType = vt ∧ IsLieElem c e r f := by
  cases vt with
  | sparse =>
    obtain ⟨r, e1, e2, e3⟩ := constructLie_spec (sparseKind_lawful (K := K) hc) hc hd
    exact ⟨.sparse r, by simp only [LiteCtx.constructLie, e1, Option.bind_eq_bind, Option.bind_some], rfl,
      (isLie_sparse hc).2 ⟨e2, e3⟩⟩
  | dense =>
    obtain ⟨r, e1, e2, e3⟩ := constructLie_spec (denseKind_lawful (K := K) hw hc) hc hd
    exact ⟨.dense r, by simp only [LiteCtx.constructLie, e1, Option.bind_eq_bind, Option.bind_some], rfl,
      (isLie_dense hw hc).2 ⟨e2, e3⟩⟩

/-! ## Signatures -/

variable [CharZero K]

theorem computeSignature_spec (hk : k.Lawful w m ser Good Tight Full coef LGood strict) (hc : c.Ok w m)
    (he : HallElems c.hs e) (hf : c.Fuel w m fuel) {rows : List (KeyScalars K)}
    {fs : List (Series (Fin w) K)} (hl : List.Forall₂ (IsLieData c e) rows fs)
    (hst : MapsHistory w (m + 1) c.hs st) :
    ∃ r st', c.computeSignature fuel k st rows = some (r, st') ∧ MapsHistory w (m + 1) c.hs st' ∧
      Good r ∧ EqUpTo (m + 1) (ser r) (fs.map texp).prod := by
  have hd := hk.depth
  have key : ∀ (x : T) (f : Series (Fin w) K) (st : MapsState), Good x → EqUpTo (m + 1) (ser x) f →
      MapsHistory w (m + 1) c.hs st →
      ∃ r st', loop rows (x, st) (fun (s : T × MapsState) row => do
        let lieRow ← constructImpl k.lie c.lieBasis row
        let t ← c.lieToTensorImpl fuel k s.2 lieRow
        some (← k.tensor.fmexp s.1 t.1, t.2)) = some (r, st') ∧ MapsHistory w (m + 1) c.hs st' ∧
      Good r ∧ EqUpTo (m + 1) (ser r) (f * (fs.map texp).prod) := by
    clear hst
    induction hl with
    | nil =>
      intro x f st hx hxf hst
      exact ⟨x, st, rfl, hst, hx, by rw [List.map_nil, List.prod_nil, mul_one]; exact hxf⟩
    | @cons row g rows gs hrow _ ih =>
      intro x f st hx hxf hst
      obtain ⟨l, l1, l2, l3⟩ := constructLie_spec hk hc hrow
      obtain ⟨t, st', t1, t2, t3, t4⟩ := lieToTensorImpl_spec hk hc he hf hst l2
      obtain ⟨y, y1, y2, y3⟩ := hk.tensor.fmexp hx (hk.tensor.good _ t3)
      rw [hd] at y3
      have ht0 : ser t [] = 0 := by
        rw [t4 [] (Nat.zero_le _)]
        exact (lieSer_isLie hc he _).nil
      rw [noScalar_eq ht0] at y3
      obtain ⟨r, st'', r1, r2, r3, r4⟩ := ih y (f * texp g) st' (hk.tensor.good _ (hk.tensor.tight _ y2))
        (y3.trans (EqUpTo.mul hxf (t4.trans l3).texp)) t2
      refine ⟨r, st'', ?_, r2, r3, ?_⟩
      · rw [Tensor.loop_cons]
        simp only [l1, t1, y1, Option.bind_eq_bind, Option.bind_some]
        exact r1
      · rw [List.map_cons, List.prod_cons, ← mul_assoc]
        exact r4
  obtain ⟨x, x1, x2, x3⟩ := hk.tensor.modify _ (hk.tensor.good _ hk.tensor.new_tight) [] (Nat.zero_le _)
    fun _ => 1
  rw [wordKey_nil] at x1
  obtain ⟨r, st', h1, h2, h3, h4⟩ := key x 1 st (hk.tensor.good _ (hk.tensor.tight _ x2)) (fun u hu => by
    rw [x3 u (by omega)]
    cases u with
    | nil => rw [if_pos rfl, one_nil]
    | cons a u =>
      rw [if_neg (by simp), one_cons]
      exact hk.tensor.new_ser _ (by omega)) hst
  refine ⟨r, st', ?_, h2, h3, by rw [one_mul] at h4; exact h4⟩
  unfold LiteCtx.computeSignature
  rw [x1]
  exact h1

theorem signature_stored (hw : 0 < w) (hc : c.Ok w m) (he : HallElems c.hs e)
    (hf : c.Fuel w m fuel) {rows : List (KeyScalars K)} {fs : List (Series (Fin w) K)}
    (hl : List.Forall₂ (IsLieData c e) rows fs) (hst : MapsHistory w (m + 1) c.hs st) (vt : VecType) :
    ∃ r st', c.signature fuel st rows vt = some (r, st') ∧ MapsHistory w (m + 1) c.hs st' ∧
      r.vecType = vt ∧ IsTensor w (m + 1) r (fs.map texp).prod := by
  cases vt with
  | sparse =>
    obtain ⟨r, st', e1, e2, e3, e4⟩ := computeSignature_spec (sparseKind_lawful (K := K) hc) hc he hf hl hst
    exact ⟨.sparse r, st', by simp only [LiteCtx.signature, e1, Option.bind_eq_bind, Option.bind_some], e2, rfl,
      isTensor_sparse.2 ⟨e3, e4⟩⟩
  | dense =>
    obtain ⟨r, st', e1, e2, e3, e4⟩ := computeSignature_spec (denseKind_lawful (K := K) hw hc) hc he hf hl hst
    exact ⟨.dense r, st', by simp only [LiteCtx.signature, e1, Option.bind_eq_bind, Option.bind_some], e2, rfl,
      isTensor_dense.2 ⟨e3, e4⟩⟩

/-- rows have values that elements can have -/
theorem rows_elems (hw : 0 < w) (hc : c.Ok w m) {rows : List (KeyScalars K)}
    {fs : List (Series (Fin w) K)} (hl : List.Forall₂ (IsLieData c e) rows fs) :
    ∃ lies : List (Stored K), List.Forall₂ (IsLieElem c e) lies fs := by
  induction hl with
  | nil => exact ⟨[], .nil⟩
  | cons h _ ih =>
    obtain ⟨lies, h1⟩ := ih
    obtain ⟨x, -, -, h2⟩ := constructLie_stored hw hc h .sparse
    exact ⟨x :: lies, .cons h2 h1⟩

theorem logSignature_stored (hw : 0 < w) (hc : c.Ok w m) (he : HallElems c.hs e)
    (hf : c.Fuel w m fuel) {rows : List (KeyScalars K)} {fs : List (Series (Fin w) K)}
    (hl : List.Forall₂ (IsLieData c e) rows fs) (hst : MapsHistory w (m + 1) c.hs st) (vt : VecType) :
    ∃ r st', c.logSignature fuel st rows vt = some (r, st') ∧ MapsHistory w (m + 1) c.hs st' ∧
      r.vecType = vt ∧ IsLieElem c e r (tlog (fs.map texp).prod) := by
  obtain ⟨s, st', h1, h2, h3, h4⟩ := signature_stored hw hc he hf hl hst vt
  obtain ⟨lies, h5⟩ := rows_elems hw hc hl
  obtain ⟨g, g1, g2⟩ := prod_texp_groupLike hw hc he h5
  obtain ⟨y, r, st'', r1, r2, r3, r4, r5⟩ := log_tensorToLie hw hc he hf h2 h4 g1 g2
  refine ⟨r, st'', ?_, r3, r4.trans h3, r5⟩
  unfold LiteCtx.logSignature
  rw [h1]
  simp only [Option.bind_eq_bind, Option.bind_some]
  rw [r1]
  exact r2

theorem toSignature_stored (hw : 0 < w) (hc : c.Ok w m) (he : HallElems c.hs e)
    (hf : c.Fuel w m fuel) (hst : MapsHistory w (m + 1) c.hs st) {x : Stored K}
    {f : Series (Fin w) K} (hx : IsLieElem c e x f) :
    ∃ r st', c.toSignature fuel st x = some (r, st') ∧ MapsHistory w (m + 1) c.hs st' ∧
      r.vecType = x.vecType ∧ IsTensor w (m + 1) r (texp f) := by
  obtain ⟨t, st', h1, h2, h3, h4⟩ := lieToTensor_stored hw hc he hf hst hx
  obtain ⟨r, r1, r2, r3⟩ := exp_stored hw hc h4 (hx.nil hw hc he)
  refine ⟨r, st', ?_, h2, r2.trans h3, r3⟩
  unfold LiteCtx.toSignature
  rw [h1]
  simp only [Option.bind_eq_bind, Option.bind_some]
  rw [r1]
  rfl

/-! ## Derivatives -/

/-- left commutators -/
theorem rad_iterate_eq (x y : Series (Fin w) K) (n : ℕ) :
    (fun z => x * z - z * x)^[n] y = ((-1 : K) ^ n) • (Series.rad x)^[n] y := by
  induction n with
  | zero => rw [pow_zero, one_smul]; rfl
  | succ n ih =>
    rw [Function.iterate_succ_apply', Function.iterate_succ_apply', ih]
    unfold Series.rad
    rw [mul_smul_comm, smul_mul_assoc, ← smul_sub, pow_succ, mul_neg_one, neg_smul, ← smul_neg, neg_sub]

theorem EqUpTo.rad {D : ℕ} {x x' y y' : Series (Fin w) K} (hx : EqUpTo D x x') (hy : EqUpTo D y y')
    (n : ℕ) : EqUpTo D ((Series.rad x)^[n] y) ((Series.rad x')^[n] y') := by
  induction n with
  | zero => exact hy
  | succ n ih =>
    rw [Function.iterate_succ_apply', Function.iterate_succ_apply']
    unfold Series.rad
    exact EqUpTo.sub (EqUpTo.mul ih hx) (EqUpTo.mul hx ih)

theorem EqUpTo.dexp {D : ℕ} {x x' y y' : Series (Fin w) K} (hx : EqUpTo D x x') (hy : EqUpTo D y y')
    (hx0 : x [] = 0) (hy0 : y [] = 0) : EqUpTo D (Series.dexp x y) (Series.dexp x' y') := by
  have hx0' : x' [] = 0 := by rw [← hx [] (Nat.zero_le _), hx0]
  have hy0' : y' [] = 0 := by rw [← hy [] (Nat.zero_le _), hy0]
  refine (dexp_eq hx0 hy0 D).trans (EqUpTo.trans ?_ (dexp_eq hx0' hy0' D).symm)
  refine EqUpTo.mul hx.texp fun u hu => ?_
  rw [Series.sum_apply, Series.sum_apply]
  exact Finset.sum_congr rfl fun n _ => (EqUpTo.smul _ (EqUpTo.rad hx hy n)) u hu

theorem deriveSeries_spec (hk : k.Lawful w m ser Good Tight Full coef LGood strict) (hc : c.Ok w m)
    {x y : T} (hx : Good x) (hy : Good y) :
    ∃ r, c.deriveSeries k x y = some r ∧ Good r ∧ EqUpTo (m + 1) (ser r)
      (∑ n ∈ Finset.range (m + 1 + 1), (((n + 1).factorial : K))⁻¹ • (Series.rad (ser x))^[n] (ser y)) := by
  have hd := hk.depth
  obtain ⟨ad, a1, a2, a3⟩ := hk.tensor.commutator x y hx hy
  rw [hd] at a3
  have key : ∀ n, ∃ r ad', loop (List.range n) (y, ad, (1 : K)) (fun (s : T × T × K) i => do
      let d := i + 1
      let factor := s.2.2 * ((d + 1 : ℕ) : K)
      let result ← if d % 2 = 0 then k.tensor.addScalDiv s.1 s.2.1 factor
        else k.tensor.subScalDiv s.1 s.2.1 factor
      let ad ← k.tensor.commutator x s.2.1
      some (result, ad, factor)) = some (r, ad', ((n + 1).factorial : K)) ∧ Good r ∧ Good ad' ∧
      EqUpTo (m + 1) (ser ad') ((fun z => ser x * z - z * ser x)^[n + 1] (ser y)) ∧
      EqUpTo (m + 1) (ser r)
        (∑ n ∈ Finset.range (n + 1), (((n + 1).factorial : K))⁻¹ • (Series.rad (ser x))^[n] (ser y)) := by
    intro n
    induction n with
    | zero =>
      refine ⟨y, ad, by simp [loop], hy, hk.tensor.good _ a2, a3, ?_⟩
      rw [Finset.sum_range_one]
      simp only [zero_add, Nat.factorial_one, Nat.cast_one, inv_one, one_smul, Function.iterate_zero, id_eq]
      exact EqUpTo.refl _ _
    | succ n ih =>
      obtain ⟨r, ad', h1, h2, h3, h4, h5⟩ := ih
      have hfac : ((n + 1).factorial : K) * ((n + 1 + 1 : ℕ) : K) = ((n + 1 + 1).factorial : K) := by
        rw [Nat.factorial_succ (n + 1), Nat.cast_mul, mul_comm]
      have hne : ((n + 1 + 1).factorial : K) ≠ 0 := Nat.cast_ne_zero.2 (Nat.factorial_ne_zero _)
      obtain ⟨ad'', b1, b2, b3⟩ := hk.tensor.commutator x ad' hx h3
      rw [hd] at b3
      have hb4 : EqUpTo (m + 1) (ser ad'') ((fun z => ser x * z - z * ser x)^[n + 1 + 1] (ser y)) := by
        rw [Function.iterate_succ_apply']
        exact b3.trans (EqUpTo.sub (EqUpTo.mul (EqUpTo.refl _ _) h4) (EqUpTo.mul h4 (EqUpTo.refl _ _)))
      have hstep : ∃ r', (if (n + 1) % 2 = 0 then k.tensor.addScalDiv r ad' ((n + 1 + 1).factorial : K)
          else k.tensor.subScalDiv r ad' ((n + 1 + 1).factorial : K)) = some r' ∧ Good r' ∧
          EqUpTo (m + 1) (ser r') (ser r + (((n + 1 + 1).factorial : K))⁻¹ • (Series.rad (ser x))^[n + 1] (ser y)) := by
        rw [rad_iterate_eq] at h4
        by_cases hp : (n + 1) % 2 = 0
        · rw [if_pos hp]
          obtain ⟨r', r1, r2, -, r3⟩ := hk.tensor.addScalDiv r ad' _ h2 h3 hne
          rw [hd] at r3
          refine ⟨r', r1, r2, r3.trans (EqUpTo.add (EqUpTo.refl _ _) (EqUpTo.smul _ ?_))⟩
          rw [(Nat.even_iff.2 hp).neg_one_pow, one_smul] at h4
          exact h4
        · rw [if_neg hp]
          obtain ⟨r', r1, r2, -, r3⟩ := hk.tensor.subScalDiv r ad' _ h2 h3 hne
          rw [hd] at r3
          refine ⟨r', r1, r2, r3.trans ?_⟩
          rw [(Nat.odd_iff.2 (by omega)).neg_one_pow, neg_smul, one_smul] at h4
          have := EqUpTo.sub (EqUpTo.refl (m + 1) (ser r)) (EqUpTo.smul (((n + 1 + 1).factorial : K))⁻¹ h4)
          rw [smul_neg, sub_neg_eq_add] at this
          exact this
      obtain ⟨r', r1, r2, r3⟩ := hstep
      refine ⟨r', ad'', ?_, r2, hk.tensor.good _ b2, hb4, ?_⟩
      · rw [List.range_succ, RoughPy.Lie.loop_append_list, h1]
        simp only [Option.bind_some]
        rw [Tensor.loop_cons]
        dsimp only
        rw [hfac]
        by_cases hp : (n + 1) % 2 = 0
        · rw [if_pos hp] at r1 ⊢
          rw [r1]
          simp only [Option.bind_eq_bind, Option.bind_some]
          rw [b1]
          rfl
        · rw [if_neg hp] at r1 ⊢
          rw [r1]
          simp only [Option.bind_eq_bind, Option.bind_some]
          rw [b1]
          rfl
      · rw [Finset.sum_range_succ]
        exact r3.trans (EqUpTo.add h5 (EqUpTo.refl _ _))
  obtain ⟨r, ad', h1, h2, -, -, h5⟩ := key (m + 1)
  refine ⟨r, ?_, h2, h5⟩
  unfold LiteCtx.deriveSeries
  rw [a1, hc.depth]
  simp only [Option.bind_eq_bind, Option.bind_some]
  simp only [Option.bind_eq_bind] at h1
  rw [h1]
  rfl

/-- what the loop over the intervals computes -/
def derivStep (D : Series (Fin w) K) (p : Series (Fin w) K × Series (Fin w) K) : Series (Fin w) K :=
  D * texp p.1 + Series.dexp p.1 p.2

theorem sigDerivativeImpl_spec (hk : k.Lawful w m ser Good Tight Full coef LGood strict)
    (hc : c.Ok w m) (he : HallElems c.hs e) (hf : c.Fuel w m fuel) {info : List (T × T)}
    {fs : List (Series (Fin w) K × Series (Fin w) K)}
    (hl : List.Forall₂ (fun p f => (LGood (m + 1) p.1 ∧
        EqUpTo (m + 1) (lieSer (hallTable w m) e (coef p.1)) f.1) ∧ (LGood (m + 1) p.2 ∧
        EqUpTo (m + 1) (lieSer (hallTable w m) e (coef p.2)) f.2)) info fs)
    (hst : MapsHistory w (m + 1) c.hs st) :
    ∃ r st', c.sigDerivativeImpl fuel k st info = some (r, st') ∧ MapsHistory w (m + 1) c.hs st' ∧
      Good r ∧ EqUpTo (m + 1) (ser r) (fs.foldl derivStep 0) := by
  have hd := hk.depth
  unfold LiteCtx.sigDerivativeImpl
  have key : ∀ (x : T) (f : Series (Fin w) K) (st : MapsState), Good x → EqUpTo (m + 1) (ser x) f →
      MapsHistory w (m + 1) c.hs st →
      ∃ r st', loop info (x, st) (fun (s : T × MapsState) data => do
        let incr ← c.lieToTensorImpl fuel k s.2 data.1
        let pert ← c.lieToTensorImpl fuel k incr.2 data.2
        let sig ← k.tensor.exp incr.1
        let result ← k.tensor.mulInplace s.1 sig
        let series ← c.deriveSeries k incr.1 pert.1
        let single ← k.tensor.mul sig series
        some (k.tensor.addInplace result single, pert.2)) = some (r, st') ∧
      MapsHistory w (m + 1) c.hs st' ∧
      Good r ∧ EqUpTo (m + 1) (ser r) (fs.foldl derivStep f) := by
    clear hst
    induction hl with
    | nil =>
      intro x f st hx hxf hst
      exact ⟨x, st, rfl, hst, hx, hxf⟩
    | @cons p q info fs hp _ ih =>
      intro x f st hx hxf hst
      obtain ⟨⟨p1, p2⟩, p3, p4⟩ := hp
      obtain ⟨a, st1, a1, a2, a3, a4⟩ := lieToTensorImpl_spec hk hc he hf hst p1
      obtain ⟨b, st2, b1, b2, b3, b4⟩ := lieToTensorImpl_spec hk hc he hf a2 p3
      have ha0 : ser a [] = 0 := by
        rw [a4 [] (Nat.zero_le _)]
        exact (lieSer_isLie hc he _).nil
      have hb0 : ser b [] = 0 := by
        rw [b4 [] (Nat.zero_le _)]
        exact (lieSer_isLie hc he _).nil
      obtain ⟨s, s1, s2, s3⟩ := hk.tensor.exp (hk.tensor.good _ a3)
      rw [hd] at s3
      replace s3 := s3.trans (AlgOps.LawfulTensor.sum_exp_eq ha0 _)
      have sg := hk.tensor.good _ (hk.tensor.tight _ s2)
      obtain ⟨y, y1, y2, -, y3⟩ := hk.tensor.mulInplace hx sg
      obtain ⟨d, d1, d2, d3⟩ := deriveSeries_spec hk hc (hk.tensor.good _ a3) (hk.tensor.good _ b3)
      obtain ⟨z, z1, z2, z3⟩ := hk.tensor.mul s d sg d2
      obtain ⟨v1, -, -, v4⟩ := hk.tensor.addInplace y z y2 (hk.tensor.good _ z2)
      rw [hd] at y3 z3 v4
      have hval : EqUpTo (m + 1) (ser (k.tensor.addInplace y z)) (derivStep f q) := by
        refine v4.trans (EqUpTo.add (y3.trans (EqUpTo.mul hxf (s3.trans (a4.trans p2).texp))) ?_)
        refine z3.trans ((EqUpTo.mul s3 d3).trans ((dexp_eq ha0 hb0 (m + 1)).symm.trans ?_))
        exact EqUpTo.dexp (a4.trans p2) (b4.trans p4) ha0 hb0
      obtain ⟨r, st3, r1, r2, r3, r4⟩ := ih _ _ st2 v1 hval b2
      refine ⟨r, st3, ?_, r2, r3, r4⟩
      rw [Tensor.loop_cons]
      simp only [a1, b1, s1, y1, d1, z1, Option.bind_eq_bind, Option.bind_some]
      exact r1
  exact key _ 0 st (hk.tensor.good _ hk.tensor.new_tight) (hd ▸ hk.tensor.new_ser) hst

theorem sigDerivative_stored (hw : 0 < w) (hc : c.Ok w m) (he : HallElems c.hs e)
    (hf : c.Fuel w m fuel) {vt : VecType} {info : List (Stored K × Stored K)}
    {fs : List (Series (Fin w) K × Series (Fin w) K)}
    (hvt : ∀ p ∈ info, p.1.vecType = vt ∧ p.2.vecType = vt)
    (hl : List.Forall₂ (fun p f => IsLieElem c e p.1 f.1 ∧ IsLieElem c e p.2 f.2) info fs)
    (hst : MapsHistory w (m + 1) c.hs st) :
    ∃ r st', c.sigDerivative fuel st info vt = some (r, st') ∧ MapsHistory w (m + 1) c.hs st' ∧
      r.vecType = vt ∧ IsTensor w (m + 1) r (fs.foldl derivStep 0) := by
  cases vt with
  | sparse =>
    have hcast : ∃ l : List (Sparse K × Sparse K),
        (info.mapM fun p => do some (← p.1.castSparse, ← p.2.castSparse)) = some l ∧
        List.Forall₂ (fun p f => (Sparse.GoodDeg (ValidKey (lieStart (hallTable w m)) (m + 1)) (m + 1) p.1 ∧
          EqUpTo (m + 1) (lieSer (hallTable w m) e (Sparse.read p.1)) f.1) ∧
          (Sparse.GoodDeg (ValidKey (lieStart (hallTable w m)) (m + 1)) (m + 1) p.2 ∧
          EqUpTo (m + 1) (lieSer (hallTable w m) e (Sparse.read p.2)) f.2)) l fs := by
      induction hl with
      | nil => exact ⟨[], rfl, .nil⟩
      | @cons p f info fs hp _ ih =>
        obtain ⟨l, l1, l2⟩ := ih fun p hp => hvt p (List.mem_cons_of_mem _ hp)
        obtain ⟨v1, v2⟩ := hvt p List.mem_cons_self
        obtain ⟨a, b⟩ := p
        cases a with
        | dense a => cases v1
        | sparse a =>
          cases b with
          | dense b => cases v2
          | sparse b =>
            refine ⟨(a, b) :: l, ?_, .cons ⟨(isLie_sparse hc).1 hp.1, (isLie_sparse hc).1 hp.2⟩ l2⟩
            rw [List.mapM_cons, l1]
            rfl
    obtain ⟨l, l1, l2⟩ := hcast
    obtain ⟨r, st', r1, r2, r3, r4⟩ := sigDerivativeImpl_spec (sparseKind_lawful (K := K) hc) hc he hf l2 hst
    refine ⟨.sparse r, st', ?_, r2, rfl, isTensor_sparse.2 ⟨r3, r4⟩⟩
    simp only [LiteCtx.sigDerivative]
    rw [l1]
    simp only [Option.bind_eq_bind, Option.bind_some]
    rw [r1]
    rfl
  | dense =>
    have hcast : ∃ l : List (Dense K × Dense K),
        (info.mapM fun p => do some (← p.1.castDense, ← p.2.castDense)) = some l ∧
        List.Forall₂ (fun p f => (Dense.GoodDeg (lieStart (hallTable w m)) (m + 1) p.1 ∧
          EqUpTo (m + 1) (lieSer (hallTable w m) e (Dense.coef (lieStart (hallTable w m)) p.1)) f.1) ∧
          (Dense.GoodDeg (lieStart (hallTable w m)) (m + 1) p.2 ∧
          EqUpTo (m + 1) (lieSer (hallTable w m) e (Dense.coef (lieStart (hallTable w m)) p.2)) f.2)) l fs := by
      induction hl with
      | nil => exact ⟨[], rfl, .nil⟩
      | @cons p f info fs hp _ ih =>
        obtain ⟨l, l1, l2⟩ := ih fun p hp => hvt p (List.mem_cons_of_mem _ hp)
        obtain ⟨v1, v2⟩ := hvt p List.mem_cons_self
        obtain ⟨a, b⟩ := p
        cases a with
        | sparse a => cases v1
        | dense a =>
          cases b with
          | sparse b => cases v2
          | dense b =>
            refine ⟨(a, b) :: l, ?_, .cons ⟨(isLie_dense hw hc).1 hp.1, (isLie_dense hw hc).1 hp.2⟩ l2⟩
            rw [List.mapM_cons, l1]
            rfl
    obtain ⟨l, l1, l2⟩ := hcast
    obtain ⟨r, st', r1, r2, r3, r4⟩ := sigDerivativeImpl_spec (denseKind_lawful (K := K) hw hc) hc he hf l2 hst
    refine ⟨.dense r, st', ?_, r2, rfl, isTensor_dense.2 ⟨r3, r4⟩⟩
    simp only [LiteCtx.sigDerivative]
    rw [l1]
    simp only [Option.bind_eq_bind, Option.bind_some]
    rw [r1]
    rfl

/-! ## Equality -/

theorem lie_same (hw : 0 < w) (hc : c.Ok w m) (he : HallElems c.hs e) {x y : Stored K}
    {f g : Series (Fin w) K} (hx : IsLieElem c e x f) (hy : IsLieElem c e y g)
    (ht : x.vecType = y.vecType) : Stored.Same c.lieBasis x y ↔ EqUpTo (m + 1) f g := by
  have hb := hallTable_isHall w m
  cases x with
  | sparse x =>
    cases y with
    | dense y => cases ht
    | sparse y =>
      have h1 := (isLie_sparse hc).1 hx
      have h2 := (isLie_sparse hc).1 hy
      show (Sparse.ops : VecOps K (Sparse K)).beq x y = true ↔ _
      refine ((sparseKind_lawful (K := K) hc).lie.lawful.beq x y h1.1 h2.1).trans ?_
      refine ⟨fun h => h1.2.symm.trans (EqUpTo.trans ?_ h2.2), fun h =>
        lieSer_inj hc.rep he (h1.2.trans (h.trans h2.2.symm))⟩
      rw [lieSer_congr hb h]
      exact EqUpTo.refl _ _
  | dense x =>
    cases y with
    | sparse y => cases ht
    | dense y =>
      have h1 := (isLie_dense hw hc).1 hx
      have h2 := (isLie_dense hw hc).1 hy
      show (Dense.ops c.lieBasis : VecOps K (Dense K)).beq x y = true ↔ _
      refine ((denseKind_lawful (K := K) hw hc).lie.lawful.beq x y h1.1 h2.1).trans ?_
      refine ⟨fun h => h1.2.symm.trans (EqUpTo.trans ?_ h2.2), fun h =>
        lieSer_inj hc.rep he (h1.2.trans (h.trans h2.2.symm))⟩
      rw [lieSer_congr hb h]
      exact EqUpTo.refl _ _

theorem tensor_same (hw : 0 < w) (hc : c.Ok w m) {x y : Stored K}
    {f g : Series (Fin w) K} (hx : IsTensor w (m + 1) x f) (hy : IsTensor w (m + 1) y g)
    (ht : x.vecType = y.vecType) : Stored.Same c.tensorBasis x y ↔ EqUpTo (m + 1) f g := by
  cases x with
  | sparse x =>
    cases y with
    | dense y => cases ht
    | sparse y =>
      have h1 := isTensor_sparse.1 hx
      have h2 := isTensor_sparse.1 hy
      have hk := sparseKind_lawful (K := K) hc
      have := hk.tensor.beq x y h1.1 h2.1
      rw [hk.depth] at this
      refine this.trans ⟨fun h => h1.2.symm.trans (h.trans h2.2), fun h => h1.2.trans (h.trans h2.2.symm)⟩
  | dense x =>
    cases y with
    | sparse y => cases ht
    | dense y =>
      have h1 := isTensor_dense.1 hx
      have h2 := isTensor_dense.1 hy
      have hk := denseKind_lawful (K := K) hw hc
      have := hk.tensor.beq x y h1.1 h2.1
      rw [hk.depth] at this
      refine this.trans ⟨fun h => h1.2.symm.trans (h.trans h2.2), fun h => h1.2.trans (h.trans h2.2.symm)⟩

/-! ## Other contexts -/

theorem trunc_prim {n N : ℕ} {f : Series (Fin w) K} (h : PrimUpTo N f) : PrimUpTo N (trunc n f) := by
  refine ⟨?_, fun u v hu hv hl => ?_⟩
  · show (if _ then f [] else 0) = (0 : K)
    rw [h.1, ite_self]
  · have := h.2 u v hu hv hl
    unfold Series.onShuffle at this ⊢
    by_cases hn : u.length + v.length ≤ n
    · rw [← this]
      congr 1
      refine List.map_congr_left fun z hz => ?_
      exact if_pos (by rw [shuffles_length u v z hz]; exact hn)
    · refine List.sum_eq_zero fun x hx => ?_
      obtain ⟨z, hz, rfl⟩ := List.mem_map.1 hx
      exact if_neg (by rw [shuffles_length u v z hz]; exact hn)

theorem trunc_congr {n : ℕ} {f g : Series (Fin w) K} (h : EqUpTo n f g) : trunc n f = trunc n g := by
  funext u
  show (if _ then _ else _) = (if _ then _ else _)
  by_cases hu : u.length ≤ n
  · rw [if_pos hu, if_pos hu, h u hu]
  · rw [if_neg hu, if_neg hu]

theorem lieToTensorFrom_stored (hw : 0 < w) (hc : c.Ok w m) {src : LiteCtx} {m' : ℕ} (hs' : src.Ok w m')
    {e' : Key → Series (Fin w) K} (he' : HallElems src.hs e') (hf : src.Fuel w m' fuel)
    (hst : MapsHistory w (m' + 1) src.hs st) {x : Stored K} {f : Series (Fin w) K}
    (hx : IsLieElem src e' x f) (hok : x.vecType = .dense ∨ m' ≤ m) :
    ∃ r st', c.lieToTensorFrom fuel src st x = some (r, st') ∧ MapsHistory w (m' + 1) src.hs st' ∧
      r.vecType = x.vecType ∧ IsTensor w (m + 1) r (trunc (m' + 1) f) := by
  obtain ⟨t, st', h1, h2, h3, h4⟩ := lieToTensor_stored hw hs' he' hf hst hx
  obtain ⟨r, r1, r2, r3⟩ := convertTensor_stored hw hc hs' h4 (by rw [h3]; exact hok) x.vecType
  refine ⟨r, st', ?_, h2, r2, r3⟩
  unfold LiteCtx.lieToTensorFrom
  rw [h1]
  simp only [Option.bind_eq_bind, Option.bind_some]
  rw [r1]
  rfl

theorem convertLieFrom_stored (hw : 0 < w) (hc : c.Ok w m) (he : HallElems c.hs e)
    (hf : c.Fuel w m fuel) (hst : MapsHistory w (m + 1) c.hs st) {src : LiteCtx} {m' : ℕ}
    (hs' : src.Ok w m') {e' : Key → Series (Fin w) K} (he' : HallElems src.hs e')
    (hf' : src.Fuel w m' fuel) {srcSt : MapsState} (hst' : MapsHistory w (m' + 1) src.hs srcSt)
    {x : Stored K} {f : Series (Fin w) K} (hx : IsLieElem src e' x f)
    (hok : x.vecType = .dense ∨ m' ≤ m) (vt : VecType) :
    ∃ r s s', c.convertLieFrom fuel src srcSt st x vt = some (r, s, s') ∧
      MapsHistory w (m' + 1) src.hs s ∧ MapsHistory w (m + 1) c.hs s' ∧
      r.vecType = vt ∧ IsLieElem c e r (trunc (m' + 1) f) := by
  obtain ⟨t, s, h1, h2, h3, h4⟩ := lieToTensor_stored hw hs' he' hf' hst' hx
  obtain ⟨u, u1, u2, u3⟩ := convertTensor_stored hw hc hs' h4 (by rw [h3]; exact hok) vt
  obtain ⟨r, s', r1, r2, r3, r4⟩ := tensorToLie_stored hw hc he hf hst u3
  refine ⟨r, s, s', ?_, h2, r2, r3.trans u2, r4.congr ?_⟩
  · unfold LiteCtx.convertLieFrom
    rw [h1]
    simp only [Option.bind_eq_bind, Option.bind_some]
    rw [u1]
    simp only [Option.bind_some]
    rw [r1]
    rfl
  · rw [hc.depth]
    obtain ⟨ℓ, l1, l2⟩ := hx.isLie hw hs' he'
    rw [← trunc_congr l2]
    exact dynkinUpTo_prim (trunc_prim (l1.primitive _))

end

end RoughPy.Lite
