import Verif.Lie.ApplyLemmas
import Verif.Lie.Props
import Verif.Tensor.Props

set_option linter.unusedSectionVars false

/-!
# Properties of `lie_to_tensor` and `tensor_to_lie`

Vocabulary: `MapSpec.lean` (`HallTensors`, `lieValue`, `factor`); `Tensor/Dynkin.lean` (`rb`, the nested bracket
`[u₁, [u₂, … ]]` of a word); `Spec.lean` (`History`: the cache shared by all bases of the width, in any state it can
reach); `Tensor/Spec.lean` (`Primitive`).

All statements are for bases built by the constructor (`construct w d`), of positive width and depth, over a field of
characteristic zero, and for one vector (the code loops over the leading axes of the arrays).
-/

namespace RoughPy.Lie

open RoughPy.Tensor
open RoughPy.Tensor.Series (rb letter IsLie Primitive PrimUpTo GroupLike texp tlog EqUpTo)

attribute [local instance] LieRing.ofAssociativeRing

variable {K : Type} [Field K] [DecidableEq K]

theorem facts_of_construct {w d : ℕ} {b : Basis} (hd : 0 < d) (h : construct w d = some b) :
    b.width = w ∧ b.depth = d ∧ IsHallTable b := by
  obtain ⟨m, rfl, rfl⟩ := hall_of_construct hd h
  exact ⟨rfl, rfl, hallTable_isHall w m⟩

/-- The images of the keys in the tensor algebra exist and are unique. -/
theorem C66_hall_tensors {w d : ℕ} {b : Basis} (hd : 0 < d) (h : construct w d = some b) :
    (∃ e : ℕ → Series (Fin w) K, HallTensors b e) ∧
      ∀ e e' : ℕ → Series (Fin w) K, HallTensors b e → HallTensors b e' → ∀ k, 0 < k → k < b.data.length → e k = e' k := by
  obtain ⟨rfl, rfl, hb⟩ := facts_of_construct hd h
  refine ⟨⟨_, hallTensors_hallPoly hb⟩, fun e e' he he' k h1 h2 => ?_⟩
  obtain ⟨n, hn⟩ := hb.exists_degree h2
  have h0 := hb.degree_pos hn h1
  rw [HallTensors.eq hb he n k h0 hn, HallTensors.eq hb he' n k h0 hn]

/-- C66.  `lie_to_tensor(x)` is the tensor `∑ x_k e_k`, where the key `e_k` is a letter or the commutator of its
parents, times the scale factor if there is one. -/
theorem C66_lie_to_tensor {w d : ℕ} {b : Basis} (hw : 0 < w) (hd : 0 < d) (h : construct w d = some b)
    {e : ℕ → Series (Fin w) K} (he : HallTensors b e) (scale : Option K) {x : Buf K} (hx : some (x.size : ℤ) = b.size) :
    ∃ r, lieToTensor b (wordsBelow w (d + 1)) scale x = some r ∧
      DenseTensor.Represents ⟨r, w, d⟩ w d (factor scale • lieValue b e x) := by
  have hs := (C65_size hd h).1
  obtain ⟨rfl, rfl, hb⟩ := facts_of_construct hd h
  have h1 := hb.one_le_length
  rw [hs, Option.some.injEq] at hx
  obtain ⟨r, r1, r2, r3⟩ := lieToTensor_ok hb hw scale (x := x) (by omega)
  refine ⟨r, r1, rfl, rfl, r2, fun u _ => ?_⟩
  rw [HallTensors.lieValue_eq hb he]
  exact r3 u

/-- C66.  The result is the truncation of a Lie element. -/
theorem C66_lie_to_tensor_isLie {w d : ℕ} {b : Basis} (hw : 0 < w) (hd : 0 < d) (h : construct w d = some b) (scale : Option K)
    {x : Buf K} (hx : some (x.size : ℤ) = b.size) :
    ∃ r ℓ, lieToTensor b (wordsBelow w (d + 1)) scale x = some r ∧ IsLie ℓ ∧ DenseTensor.Represents ⟨r, w, d⟩ w d ℓ := by
  obtain ⟨⟨e, he⟩, -⟩ := C66_hall_tensors (K := K) hd h
  obtain ⟨r, r1, r2⟩ := C66_lie_to_tensor hw hd h he scale hx
  refine ⟨r, _, r1, ?_, r2⟩
  obtain ⟨rfl, rfl, hb⟩ := facts_of_construct hd h
  rw [HallTensors.lieValue_eq hb he]
  exact IsLie.smul _ (lieValue_isLie hb x)

/-- C66.  An array of any other size, or a tensor basis of any other size, is refused. -/
theorem C66_wrong_size {w d : ℕ} {b : Basis} (hw : 0 < w) (hd : 0 < d) (h : construct w d = some b) (scale : Option K)
    {x : Buf K} {N : ℕ} (hbad : some (x.size : ℤ) ≠ b.size ∨ N ≠ wordsBelow w (d + 1)) : lieToTensor b N scale x = none := by
  have hs := (C65_size hd h).1
  obtain ⟨rfl, rfl, hb⟩ := facts_of_construct hd h
  have h1 := hb.one_le_length
  rw [hs, ne_eq, Option.some.injEq] at hbad
  obtain ⟨m', cols, g1, g2, g3, g4, g5, g6, g7⟩ := l2tMatrix_ok (K := K) hb hw
  unfold lieToTensor
  rw [g1, Option.bind_eq_bind, Option.bind_some]
  unfold Sparse.applyChecked Sparse.chooseFormat
  rw [g5, g6]
  by_cases hN : N = wordsBelow b.width (b.depth + 1)
  · have : ¬ b.data.length - 1 = x.size := by omega
    rw [if_neg (by rw [hN]; exact fun h => h rfl), if_pos this]
    rfl
  · rw [if_pos (fun h => hN h.symm)]
    rfl

/-- C67.  `tensor_to_lie(t)` are the Hall coordinates of `∑_u t(u) / |u| · [u₁, [u₂, … ]]`, times the scale factor if
there is one; whatever products the process has looked up before. -/
theorem C67_tensor_to_lie [CharZero K] {w d : ℕ} {b : Basis} (hw : 0 < w) (hd : 0 < d) (h : construct w d = some b)
    {e : ℕ → Series (Fin w) K} (he : HallTensors b e) {cache : Cache} (hist : History (Standard w) cache) (scale : Option K)
    {t : Buf K} (ht : t.size = wordsBelow w (d + 1)) :
    ∃ n₀ cache' y, (∀ fuel, n₀ ≤ fuel → tensorToLie b fuel cache scale t = some (y, cache')) ∧ History (Standard w) cache' ∧
      some (y.size : ℤ) = b.size ∧
      lieValue b e y = factor scale • ∑ n ∈ Finset.range (d + 1),
        sumWords n fun u : List (Fin w) => (t.get (wordIndex u) / (n : K)) • rb K u := by
  have hs := (C65_size hd h).1
  have hstd : Standard w b := ⟨d, hd, h⟩
  obtain ⟨rfl, rfl, hb⟩ := facts_of_construct hd h
  have h1 := hb.one_le_length
  obtain ⟨n₀, cache', y, h2, h3, h4, h5⟩ := tensorToLie_ok hb hw hstd hist scale ht
  refine ⟨n₀, cache', y, h2, h3, ?_, ?_⟩
  · rw [hs, Option.some.injEq]
    omega
  · rw [HallTensors.lieValue_eq hb he]
    exact h5

/-- C67.  The coordinates are determined by the tensor they stand for (so the previous theorem determines the result). -/
theorem C67_coordinates_unique [CharZero K] {w d : ℕ} {b : Basis} (hd : 0 < d) (h : construct w d = some b)
    {e : ℕ → Series (Fin w) K} (he : HallTensors b e) {x y : Buf K} (hx : some (x.size : ℤ) = b.size)
    (hy : some (y.size : ℤ) = b.size) (heq : EqUpTo d (lieValue b e x) (lieValue b e y)) : x.toList = y.toList := by
  have hs := (C65_size hd h).1
  obtain ⟨rfl, rfl, hb⟩ := facts_of_construct hd h
  have h1 := hb.one_le_length
  rw [hs, Option.some.injEq] at hx hy
  have := coords_unique hb (x := x) (y := y) fun z hz => by
    rw [← HallTensors.lieValue_eq hb he, ← HallTensors.lieValue_eq hb he]
    exact heq z hz
  unfold Buf.toList
  have hxy : x.size = y.size := by omega
  rw [hxy]
  refine List.map_congr_left fun k hk => this k ?_
  rw [List.mem_range] at hk
  omega

/-- C23.  For the tensor of a Lie element (indeed for every primitive tensor) the coordinates returned by
`tensor_to_lie` stand for that tensor. -/
theorem C23_tensor_to_lie_primitive [CharZero K] {w d : ℕ} {b : Basis} (hw : 0 < w) (hd : 0 < d) (h : construct w d = some b)
    {e : ℕ → Series (Fin w) K} (he : HallTensors b e) {cache : Cache} (hist : History (Standard w) cache)
    {t : Buf K} {p : Series (Fin w) K} (hp : PrimUpTo d p) (ht : DenseTensor.Represents ⟨t, w, d⟩ w d p) :
    ∃ n₀ cache' y, (∀ fuel, n₀ ≤ fuel → tensorToLie b fuel cache none t = some (y, cache')) ∧ History (Standard w) cache' ∧
      some (y.size : ℤ) = b.size ∧ EqUpTo d (lieValue b e y) p := by
  obtain ⟨n₀, cache', y, h1, h2, h3, h4⟩ := C67_tensor_to_lie hw hd h he hist none ht.wf
  refine ⟨n₀, cache', y, h1, h2, h3, fun z hz => ?_⟩
  rw [h4]
  show factor (none : Option K) * _ = _
  rw [factor, one_mul]
  exact dynkin_fixes hp hz ht.coeff

/-- C23.  `lie_to_tensor(tensor_to_lie(t)) = t` for every tensor that holds a Lie element. -/
theorem C23_tensor_lie_tensor [CharZero K] {w d : ℕ} {b : Basis} (hw : 0 < w) (hd : 0 < d) (h : construct w d = some b)
    {cache : Cache} (hist : History (Standard w) cache)
    {t : Buf K} {p : Series (Fin w) K} (hp : PrimUpTo d p) (ht : DenseTensor.Represents ⟨t, w, d⟩ w d p) :
    ∃ n₀ cache' y r, (∀ fuel, n₀ ≤ fuel → tensorToLie b fuel cache none t = some (y, cache')) ∧ History (Standard w) cache' ∧
      lieToTensor b (wordsBelow w (d + 1)) none y = some r ∧ r.toList = t.toList := by
  obtain ⟨⟨e, he⟩, -⟩ := C66_hall_tensors (K := K) hd h
  obtain ⟨n₀, cache', y, h1, h2, h3, h4⟩ := C23_tensor_to_lie_primitive hw hd h he hist hp ht
  obtain ⟨r, r1, r2⟩ := C66_lie_to_tensor hw hd h he none h3
  refine ⟨n₀, cache', y, r, h1, h2, r1, toList_eq_of_represents r2 ht fun z hz => ?_⟩
  show factor (none : Option K) * _ = _
  rw [factor, one_mul]
  exact h4 z hz

/-- C23.  `tensor_to_lie(lie_to_tensor(x)) = x` for all coordinates. -/
theorem C23_lie_tensor_lie [CharZero K] {w d : ℕ} {b : Basis} (hw : 0 < w) (hd : 0 < d) (h : construct w d = some b)
    {cache : Cache} (hist : History (Standard w) cache) {x : Buf K} (hx : some (x.size : ℤ) = b.size) :
    ∃ r n₀ cache' y, lieToTensor b (wordsBelow w (d + 1)) none x = some r ∧
      (∀ fuel, n₀ ≤ fuel → tensorToLie b fuel cache none r = some (y, cache')) ∧ History (Standard w) cache' ∧
      y.toList = x.toList := by
  obtain ⟨⟨e, he⟩, -⟩ := C66_hall_tensors (K := K) hd h
  obtain ⟨r, r1, r2⟩ := C66_lie_to_tensor hw hd h he none hx
  have hlie : IsLie (lieValue b e x) := by
    obtain ⟨rfl, rfl, hb⟩ := facts_of_construct hd h
    rw [HallTensors.lieValue_eq hb he]
    exact lieValue_isLie hb x
  have h1 : (factor (none : Option K)) • lieValue b e x = lieValue b e x := one_smul ..
  rw [h1] at r2
  obtain ⟨n₀, cache', y, g1, g2, g3, g4⟩ := C23_tensor_to_lie_primitive hw hd h he hist (hlie.primitive d) r2
  exact ⟨r, n₀, cache', y, r1, g1, g2, C67_coordinates_unique hd h he g3 hx g4⟩

/-- C23.  `exp(lie_to_tensor(tensor_to_lie(log S))) = S` for the signature `S` of every sequence of Lie elements, given by
their Hall coordinates. -/
theorem C23_log_signature [CharZero K] {w d : ℕ} {b : Basis} (hw : 0 < w) (hd : 0 < d) (h : construct w d = some b)
    {cache : Cache} (hist : History (Standard w) cache) (xs : List (Buf K)) (hxs : ∀ x ∈ xs, some (x.size : ℤ) = b.size) :
    ∃ ts S L n₀ cache' y T E, xs.mapM (lieToTensor b (wordsBelow w (d + 1)) none) = some ts ∧
      pySignature w d (ts.map fun t => ⟨t, w, d⟩) = .ok S ∧
      pyFtLog S w d = .ok L ∧
      (∀ fuel, n₀ ≤ fuel → tensorToLie b fuel cache none L.data = some (y, cache')) ∧
      lieToTensor b (wordsBelow w (d + 1)) none y = some T ∧
      pyFtExp ⟨T, w, d⟩ w d = .ok E ∧ E.data.toList = S.data.toList := by
  have hts : ∃ ts, xs.mapM (lieToTensor b (wordsBelow w (d + 1)) none) = some ts ∧
      LieArrays w d (ts.map fun t => ⟨t, w, d⟩) := by
    clear hist
    induction xs with
    | nil => exact ⟨[], rfl, by intro x hx; simp at hx⟩
    | cons x xs ih =>
      obtain ⟨ts, h1, h2⟩ := ih fun y hy => hxs y (List.mem_cons_of_mem _ hy)
      obtain ⟨r, ℓ, r1, r2, r3⟩ := C66_lie_to_tensor_isLie hw hd h none (hxs x (List.mem_cons_self ..))
      refine ⟨r :: ts, ?_, ?_⟩
      · rw [List.mapM_cons, r1, h1]
        rfl
      · intro t ht
        rw [List.map_cons, List.mem_cons] at ht
        rcases ht with rfl | ht
        · exact ⟨ℓ, r2, r3⟩
        · exact h2 t ht
  obtain ⟨ts, h1, h2⟩ := hts
  obtain ⟨ls, g1, S, g2, hS⟩ := pySignature_rep _ h2
  have hg : GroupLike ((ls.map fun ℓ => texp ℓ).prod) := by
    clear g2 hS
    induction ls with
    | nil => simpa using Series.groupLike_one
    | cons ℓ ls ih =>
      rw [List.map_cons, List.prod_cons]
      exact GroupLike.mul (g1 ℓ (by simp)).primitive.groupLike_texp (ih fun y hy => g1 y (by simp [hy]))
  obtain ⟨L, e1, hL⟩ := C16_ft_log hS
  rw [one_add_noScalar_of_nil hg.1] at hL
  have hprim := hg.primitive_tlog
  have hLr : DenseTensor.Represents ⟨L.data, w, d⟩ w d (tlog ((ls.map fun ℓ => texp ℓ).prod)) := by
    obtain ⟨a1, a2, a3, a4⟩ := hL
    refine ⟨rfl, rfl, ?_, a4⟩
    unfold DenseTensor.WF at a3 ⊢
    rw [a3, a1, a2]
  obtain ⟨n₀, cache', y, T, f1, f2, f3, f4⟩ := C23_tensor_lie_tensor hw hd h hist (hprim d) hLr
  obtain ⟨⟨e, he⟩, -⟩ := C66_hall_tensors (K := K) hd h
  have hTr : DenseTensor.Represents ⟨T, w, d⟩ w d (tlog ((ls.map fun ℓ => texp ℓ).prod)) := by
    have hsz : T.size = L.data.size := by
      have := congrArg List.length f4
      simpa [Buf.toList] using this
    refine ⟨rfl, rfl, ?_, fun u hu => ?_⟩
    · unfold DenseTensor.WF
      have := hLr.wf
      unfold DenseTensor.WF at this
      exact hsz.trans this
    · rw [← hLr.coeff u hu]
      have hlt : wordIndex u < T.size := by
        rw [hsz]
        have := hLr.wf
        unfold DenseTensor.WF at this
        dsimp only at this
        rw [this]
        exact wordIndex_lt hu
      have := congrArg (fun l => l[wordIndex u]?) f4
      simp only [Buf.toList, List.getElem?_map] at this
      rw [List.getElem?_range hlt, List.getElem?_range (by omega)] at this
      simpa using this
  obtain ⟨E, e2, hE⟩ := C15_ft_exp hTr
  refine ⟨ts, S, L, n₀, cache', y, T, E, h1, g2, e1, f1, f3, e2, toList_eq_of_represents hE hS ?_⟩
  rw [noScalar_of_nil (hprim 0).1, Series.texp_tlog hg.1]
  exact EqUpTo.refl _ _

/-- Width 0 (accepted by the constructor): the matrix of `lie_to_tensor` has no frame, and finishing it looks at the frame
before the first one. -/
theorem C66_width_zero_reads_outside :
    ∃ b, construct 0 2 = some b ∧ (l2tMatrix (K := ℚ) b).isNone := by
  refine ⟨(construct 0 2).get (by decide +kernel), by decide +kernel, by decide +kernel⟩

/-! ## Concrete cases: width 2, depth 3 (keys 1, 2, [1,2], [1,[1,2]], [2,[1,2]]) -/

/-- `x = 2·e₁ + 3·e₂ + 5·[e₁,e₂] + 7·[e₁,[e₁,e₂]]`, scaled by 10. -/
example : (do
    let b ← construct 2 3
    let r ← lieToTensor b (wordsBelow 2 4) (some (10 : ℚ)) (Buf.ofList [2, 3, 5, 7, 0])
    some (b.size, r.toList)) =
    some (some 5, [0, 20, 30, 0, 50, -50, 0, 0, 70, -140, 0, 70, 0, 0, 0]) := by decide +kernel

/-- `tensor_to_lie` of this tensor gives back the coordinates; products have been added to the cache. -/
example : (do
    let b ← construct 2 3
    let r ← lieToTensor b (wordsBelow 2 4) (none : Option ℚ) (Buf.ofList [2, 3, 5, 7, 11])
    let y ← tensorToLie b 20 emptyCache none r
    some (y.1.toList, (y.2 (1, 2)).isSome, (y.2 (1, 1)).isSome)) =
    some ([2, 3, 5, 7, 11], true, false) := by decide +kernel

/-- A tensor that is not a Lie element: the word `e₁ e₂` goes to half the bracket. -/
example : (do
    let b ← construct 2 2
    let y ← tensorToLie b 20 emptyCache none (Buf.ofList [0, 0, 0, 0, (1 : ℚ), 0, 0])
    let t ← lieToTensor b (wordsBelow 2 3) none y.1
    some (y.1.toList, t.toList)) = some ([0, 0, 1/2], [0, 0, 0, 0, 1/2, -1/2, 0]) := by decide +kernel

/-- An element with the wrong number of coordinates is refused. -/
example : (do
    let b ← construct 2 2
    lieToTensor b (wordsBelow 2 3) (none : Option ℚ) (Buf.ofList [1, 2])).isNone := by decide +kernel

/-- The log-signature of `e₁` followed by `e₂` is `e₁ + e₂ + [e₁,e₂]/2`. -/
example : (do
    let b ← construct 2 2
    let t₁ ← lieToTensor b (wordsBelow 2 3) (none : Option ℚ) (Buf.ofList [1, 0, 0])
    let t₂ ← lieToTensor b (wordsBelow 2 3) none (Buf.ofList [0, 1, 0])
    match pySignature 2 2 [⟨t₁, 2, 2⟩, ⟨t₂, 2, 2⟩] |>.andThen fun s => pyFtLog s 2 2 with
    | .ok l => (tensorToLie b 20 emptyCache none l.data).map fun y => y.1.toList
    | _ => none) = some [1, 1, 1/2] := by decide +kernel

end RoughPy.Lie
