import Verif.Lite.ShuffleLemmas

set_option linter.unusedSectionVars false

/-! # Shuffle products of vectors -/

namespace RoughPy.Lite

open RoughPy.Tensor RoughPy.Tensor.Series
open RoughPy.Lie (Homog)

attribute [local instance] LieRing.ofAssociativeRing

variable {K T U : Type} [Field K] [DecidableEq K] {w depth : ℕ}

/-- `V` holds tensors: `ser v` is the tensor denoted by `v` -/
structure TensorVec (V : VecOps K T) (w depth : ℕ) (ser : T → Series (Fin w) K)
    (Good Blank : T → Prop) : Prop where
  blank_new : Blank V.new
  blank_setDegree : ∀ v d, Blank v → Blank (V.setDegree v d)
  blank : ∀ v, Blank v → Good v ∧ ser v = 0
  modify : ∀ v, Good v → ∀ u₀ : List (Fin w), u₀.length ≤ depth → ∀ f, ∃ v',
    V.modify v (wordKey u₀) f = some v' ∧ Good v' ∧
    ∀ u, u.length ≤ depth → ser v' u = if u = u₀ then f (ser v u₀) else ser v u
  items : ∀ v, Good v → ∃ l cf, V.items v = some l ∧ Items (ValidKey (wordsBelow w) depth) cf l ∧
    ∀ u : List (Fin w), u.length ≤ depth → cf (wordKey u) = ser v u
  degree : ∀ v, Good v → ∀ u : List (Fin w), u.length ≤ depth → ser v u ≠ 0 → u.length ≤ V.degree v
  empty : ∀ v, Good v → V.empty v = true → EqUpTo depth (ser v) 0
  clear : ∀ v, Good v → Good (V.clear v) ∧ EqUpTo depth (ser (V.clear v)) 0

theorem sparse_tensorVec (w depth : ℕ) :
    TensorVec (Sparse.ops : VecOps K (Sparse K)) w depth (Sparse.ser w) (Sparse.Tensor w depth)
      (fun v => v = []) := by
  have hA := sparseTensor_lawful (K := K) w depth
  exact
    { blank_new := rfl
      blank_setDegree := fun v d h => h
      blank := fun v h => by
        subst h
        exact ⟨⟨Sparse.good_nil, fun _ _ => rfl⟩, rfl⟩
      modify := hA.modify
      items := fun v hv => ⟨v, Sparse.read v, rfl, Sparse.items_of_goodOn hv, fun _ _ => rfl⟩
      degree := fun v hv u _ hne => Sparse.deg_le_degree hv.1 hne
      empty := hA.empty
      clear := hA.clear }

theorem dense_tensorVec (w : ℕ) {depth : ℕ} (hd : 1 ≤ depth) :
    TensorVec (Dense.ops (tensorBasis w depth) : VecOps K (Dense K)) w depth (Dense.ser w)
      (Dense.Whole w depth) (fun v => v.storage = []) := by
  have hA := denseTensor_lawful (K := K) w hd
  exact
    { blank_new := rfl
      blank_setDegree := fun v d h => h
      blank := fun v h => ⟨Or.inl h, funext fun u => Dense.ser_nil h u⟩
      modify := fun v hv u hu f => by
        obtain ⟨v', h1, h2, h3⟩ := hA.modify v hv u hu f
        exact ⟨v', h1, hA.good v' (hA.tight v' h2), h3⟩
      items := fun v hv => by
        obtain ⟨l, h1, h2, h3, h4⟩ := Dense.items_coef (K := K) (tensorBasis_lawful w depth)
          (by show 0 < wordsBelow w (depth + 1); rw [wordsBelow_succ']; omega) hv.length_le
        exact ⟨l, Dense.coef (wordsBelow w) v, h1, ⟨h2, h3, h4⟩, fun _ _ => rfl⟩
      degree := fun v hv u _ hne => by
        rcases hv with h | ⟨-, h⟩
        · exact absurd (Dense.ser_nil h u) hne
        · by_contra hcon
          exact hne (Dense.ser_eq_zero h.le (not_le.1 hcon))
      empty := hA.empty
      clear := hA.clear }

section
variable {V : VecOps K T} {ser : T → Series (Fin w) K} {Good Blank : T → Prop}
  {W : VecOps K U} {ser' : U → Series (Fin w) K} {Good' Blank' : U → Prop}

/-- `asp_helper` adds a multiple of a product -/
theorem asp_vec (hV : TensorVec V w depth ser Good Blank) {p : Product} {n : ℕ} (hn : n ≤ depth)
    (hp : WordKeys w n p) (s : K) {out : T} (hout : Good out) :
    ∃ r, aspHelper V out p s = some r ∧ Good r ∧
      EqUpTo depth (ser r) (ser out + s • Product.value (tser K w) p) := by
  obtain ⟨r, h1, h2, h3⟩ := loop_eqUpTo (D := depth) Good ser p
    (fun out t => V.modify out t.1 fun x => x + (t.2 : K) * s)
    (fun t => ((t.2 : K) * s) • tser K w t.1)
    (fun t ht v hv => by
      obtain ⟨u, hu, hut⟩ := hp t ht
      obtain ⟨v', e1, e2, e3⟩ := hV.modify v hv u (by omega) fun x => x + (t.2 : K) * s
      rw [← hut]
      refine ⟨v', e1, e2, fun z hz => ?_⟩
      rw [e3 z hz, Series.add_apply, Series.smul_apply, tser_wordKey]
      unfold word
      by_cases hzu : z = u
      · rw [if_pos hzu, if_pos hzu, mul_one, hzu]
      · rw [if_neg hzu, if_neg hzu, mul_zero, add_zero]) out hout
  refine ⟨r, h1, h2, ?_⟩
  have : (p.map fun t => ((t.2 : K) * s) • tser K w t.1).sum = s • Product.value (tser K w) p := by
    clear h1 h2 h3 hp
    unfold Product.value
    induction p with
    | nil => simp
    | cons t p ih =>
      rw [List.map_cons, List.sum_cons, ih, List.map_cons, List.sum_cons, smul_add, mul_comm, mul_smul,
        Int.cast_smul_eq_zsmul]
  rw [← this]
  exact h3

/-- the entries of a tensor add up to it -/
theorem items_value {cf : Key → K} {l : List (Key × K)}
    (hl : Items (ValidKey (wordsBelow w) depth) cf l) {f : Series (Fin w) K}
    (hf : ∀ u : List (Fin w), u.length ≤ depth → cf (wordKey u) = f u) :
    EqUpTo depth (l.map fun t => t.2 • tser K w t.1).sum f := by
  intro u hu
  rw [list_sum_apply, ← hf u hu, ← hl.sum_single (wordKey_valid hu) (F := fun x => x) rfl]
  refine sum_map_congr fun t _ => ?_
  rw [Series.smul_apply]
  unfold tser
  by_cases h : wordKey u = t.1
  · rw [if_pos h, if_pos h.symm, mul_one]
  · rw [if_neg h, if_neg fun h' => h h'.symm, mul_zero]

/-- a bilinear product of tensors that respects lengths -/
structure TensorProduct (star : Series (Fin w) K → Series (Fin w) K → Series (Fin w) K) : Prop where
  add_left : ∀ f f' g, star (f + f') g = star f g + star f' g
  add_right : ∀ f g g', star f (g + g') = star f g + star f g'
  smul_left : ∀ (c : K) f g, star (c • f) g = c • star f g
  smul_right : ∀ (c : K) f g, star f (c • g) = c • star f g
  homog : ∀ (u v z : List (Fin w)), z.length ≠ u.length + v.length → star (word K u) (word K v) z = 0
  congr : ∀ (D : ℕ) f f' g g', EqUpTo D f f' → EqUpTo D g g' → EqUpTo D (star f g) (star f' g')

variable {star : Series (Fin w) K → Series (Fin w) K → Series (Fin w) K}

theorem TensorProduct.sum_sum (hs : TensorProduct star) (l r : List (Key × K)) :
    (l.map fun x => (r.map fun y => (x.2 * y.2) • star (tser K w x.1) (tser K w y.1)).sum).sum =
      star (l.map fun x => x.2 • tser K w x.1).sum (r.map fun y => y.2 • tser K w y.1).sum := by
  have z1 : ∀ g, star 0 g = 0 := fun g => by
    have := hs.smul_left 0 0 g
    rwa [zero_smul, zero_smul] at this
  have z2 : ∀ f, star f 0 = 0 := fun f => by
    have := hs.smul_right 0 f 0
    rwa [zero_smul, zero_smul] at this
  have inner : ∀ x : Key × K,
      (r.map fun y => (x.2 * y.2) • star (tser K w x.1) (tser K w y.1)).sum =
        star (x.2 • tser K w x.1) (r.map fun y => y.2 • tser K w y.1).sum := by
    intro x
    induction r with
    | nil => simp [z2]
    | cons y r ih =>
      rw [List.map_cons, List.sum_cons, List.map_cons, List.sum_cons, ih, hs.add_right, hs.smul_right,
        hs.smul_left, hs.smul_left, smul_smul, mul_comm y.2]
  induction l with
  | nil => simp [z1]
  | cons x l ih =>
    rw [List.map_cons, List.sum_cons, List.map_cons, List.sum_cons, ih, inner, hs.add_left]

/-- What the product of keys must achieve, for states of the cache with `OK`. -/
def KeyProdSpec {C : Type} (OK : C → Prop) (depth : ℕ)
    (star : Series (Fin w) K → Series (Fin w) K → Series (Fin w) K) (prod : CachedKeyOp C) : Prop :=
  ∀ c (u v : List (Fin w)), OK c → u.length + v.length ≤ depth →
    ∃ p c', prod c (wordKey u) (wordKey v) = some (p, c') ∧ OK c' ∧
      WordKeys w (u.length + v.length) p ∧
      Product.value (tser K w) p = star (word K u) (word K v)

theorem cachedFma_spec {C : Type} {OK : C → Prop} {prod : CachedKeyOp C}
    (hV : TensorVec V w depth ser Good Blank) (hW : TensorVec W w depth ser' Good' Blank')
    (hs : TensorProduct star) (hprod : KeyProdSpec OK depth star prod) {cache : C} (hc : OK cache)
    {out lhs : T} {rhs : U} (hout : Blank out) (hl : Good lhs) (hr : Good' rhs) :
    ∃ r c', cachedFma V W depth prod cache out lhs rhs (fun s => s) = some (r, c') ∧ OK c' ∧ Good r ∧
      EqUpTo depth (ser r) (star (ser lhs) (ser' rhs)) := by
  obtain ⟨left, cl, hleft, il, el⟩ := hV.items lhs hl
  obtain ⟨right, cr, hright, ir, er⟩ := hW.items rhs hr
  unfold cachedFma
  rw [hright]
  simp only [Option.bind_eq_bind, Option.bind_some]
  rw [hleft]
  simp only [Option.bind_some]
  set D := min depth (V.degree lhs + W.degree rhs) with hD
  have hDb : D ≤ depth := by omega
  obtain ⟨o1, o2⟩ := hV.blank _ (hV.blank_setDegree out D hout)
  obtain ⟨⟨r, c'⟩, h1, ⟨h2, h2'⟩, h3⟩ := loop_eqUpTo (D := depth)
    (fun st : T × C => Good st.1 ∧ OK st.2) (fun st => ser st.1) left
    (fun (st : T × C) l =>
      loop (if l.1.deg ≤ D then right.takeWhile (fun r => decide (r.1.deg ≤ D - l.1.deg)) else [])
        st fun (st : T × C) (r : Key × K) =>
        (prod st.2 l.1 r.1).bind fun p =>
        (aspHelper V st.1 p.1 (l.2 * r.2)).bind fun out => some (out, p.2))
    (fun l => ((if l.1.deg ≤ D then
        right.takeWhile (fun r => decide (r.1.deg ≤ D - l.1.deg)) else []).map
        fun r : Key × K => (l.2 * r.2) • star (tser K w l.1) (tser K w r.1)).sum)
    (fun l hlm st hst => by
      refine loop_eqUpTo (D := depth) (fun st : T × C => Good st.1 ∧ OK st.2) (fun st => ser st.1) _ _
        (fun r : Key × K => (l.2 * r.2) • star (tser K w l.1) (tser K w r.1)) ?_ st hst
      rintro r hrm ⟨v, c⟩ ⟨hv, hc⟩
      have hmem : l.1.deg ≤ D ∧ r ∈ right ∧ r.1.deg ≤ D - l.1.deg := by
        by_cases hlD : l.1.deg ≤ D
        · rw [if_pos hlD] at hrm
          exact ⟨hlD, (List.takeWhile_sublist _).mem hrm,
            by simpa using List.mem_takeWhile_imp hrm⟩
        · rw [if_neg hlD] at hrm; simp at hrm
      obtain ⟨hlD, hrm, hrd⟩ := hmem
      obtain ⟨u, hu, hul⟩ := exists_wordKey (il.val l hlm).1
      obtain ⟨z, hz, hzr⟩ := exists_wordKey (ir.val r hrm).1
      rw [← hul, wordKey_deg] at hlD hrd
      rw [← hzr, wordKey_deg] at hrd
      obtain ⟨p, c1, p1, p2, p3, p4⟩ := hprod c u z hc (by omega)
      obtain ⟨v', q1, q2, q3⟩ := asp_vec hV (by omega) p3 (l.2 * r.2) hv
      refine ⟨(v', c1), ?_, ⟨q2, p2⟩, ?_⟩
      · dsimp only
        rw [← hul, ← hzr, p1]
        simp only [Option.bind_some]
        rw [q1]
        rfl
      · rw [p4] at q3
        rw [← hul, ← hzr, tser_wordKey, tser_wordKey]
        exact q3) (V.setDegree out D, cache) ⟨o1, hc⟩
  refine ⟨r, c', h1, h2', h2, ?_⟩
  dsimp only at h3
  rw [o2, zero_add] at h3
  refine h3.trans ?_
  refine EqUpTo.trans ?_ (hs.congr depth _ _ _ _ (items_value il el) (items_value ir er))
  rw [← hs.sum_sum]
  refine eqUpTo_list_sum fun l hlm => ?_
  have hpair : right.Pairwise fun a b =>
      decide (b.1.deg ≤ D - l.1.deg) = true → decide (a.1.deg ≤ D - l.1.deg) = true := by
    refine ir.sorted.imp fun {a b} hab hb => ?_
    have hb := of_decide_eq_true hb
    have hab' : a.1.deg ≤ b.1.deg := by
      rcases Key.lt_iff.1 hab with h | h
      · exact h.le
      · exact h.1.le
    exact decide_eq_true (by omega)
  -- the terms left out vanish up to the depth
  have hvan : ∀ x ∈ right, ¬ (l.1.deg ≤ D ∧ x.1.deg ≤ D - l.1.deg) →
      EqUpTo depth 0 ((l.2 * x.2) • star (tser K w l.1) (tser K w x.1)) := by
    intro x hx hnot y hy
    show 0 = l.2 * x.2 * star (tser K w l.1) (tser K w x.1) y
    by_cases hl0 : l.2 = 0
    · rw [hl0, zero_mul, zero_mul]
    by_cases hx0 : x.2 = 0
    · rw [hx0, mul_zero, zero_mul]
    obtain ⟨u, hu, hul⟩ := exists_wordKey (il.val l hlm).1
    obtain ⟨z, hz, hzr⟩ := exists_wordKey (ir.val x hx).1
    rw [← hul, ← hzr, wordKey_deg, wordKey_deg] at hnot
    have hld := hV.degree lhs hl u hu (by
      rw [← el u hu, hul, ← (il.val l hlm).2]; exact hl0)
    have hxd := hW.degree rhs hr z hz (by
      rw [← er z hz, hzr, ← (ir.val x hx).2]; exact hx0)
    rw [← hul, ← hzr, tser_wordKey, tser_wordKey, hs.homog u z y (by omega), mul_zero]
  by_cases hlD : l.1.deg ≤ D
  · rw [if_pos hlD, sum_takeWhile _ hpair]
    refine eqUpTo_list_sum fun x hx => ?_
    by_cases hxD : x.1.deg ≤ D - l.1.deg
    · rw [if_pos (decide_eq_true hxD)]
      exact EqUpTo.refl _ _
    · rw [if_neg (by simpa using hxD)]
      exact hvan x hx fun h => hxD h.2
  · rw [if_neg hlD, List.map_nil, List.sum_nil]
    have : EqUpTo depth ((right.map fun _ : Key × K => (0 : Series (Fin w) K)).sum)
        ((right.map fun x : Key × K => (l.2 * x.2) • star (tser K w l.1) (tser K w x.1)).sum) :=
      eqUpTo_list_sum fun x hx => hvan x hx fun h => hlD h.1
    rwa [sum_map_eq_zero fun _ _ => rfl] at this

theorem TensorProduct.zero_left (hs : TensorProduct star) (g : Series (Fin w) K) : star 0 g = 0 := by
  have := hs.smul_left 0 0 g
  rwa [zero_smul, zero_smul] at this

theorem TensorProduct.zero_right (hs : TensorProduct star) (f : Series (Fin w) K) : star f 0 = 0 := by
  have := hs.smul_right 0 f 0
  rwa [zero_smul, zero_smul] at this

end

/-! ## The three products -/

/-- a sum of words over the integers, in `K` -/
def castSer (K : Type) [CommRing K] (f : Series (Fin w) ℤ) : Series (Fin w) K := fun u => (f u : K)

theorem castSer_word (u : List (Fin w)) : castSer K (word ℤ u) = word K u := by
  funext z
  unfold castSer word
  split_ifs <;> simp

theorem castSer_shuffle (f g : Series (Fin w) ℤ) :
    castSer K (shuffle f g) = shuffle (castSer K f) (castSer K g) := by
  funext z
  induction z generalizing f g with
  | nil =>
    show ((shuffle f g [] : ℤ) : K) = _
    rw [shuffle_nil, shuffle_nil, Int.cast_mul]
    rfl
  | cons a z ih =>
    show ((shuffle f g (a :: z) : ℤ) : K) = _
    rw [shuffle_cons, shuffle_cons, Int.cast_add]
    exact congrArg₂ (· + ·) (ih (ld a f) g) (ih f (ld a g))

theorem castSer_leftHalf (f g : Series (Fin w) ℤ) :
    castSer K (Series.leftHalf f g) = Series.leftHalf (castSer K f) (castSer K g) := by
  funext z
  cases z with
  | nil => exact Int.cast_zero
  | cons a z => exact congrFun (castSer_shuffle (K := K) (ld a f) g) z

theorem castSer_rightHalf (f g : Series (Fin w) ℤ) :
    castSer K (Series.rightHalf f g) = Series.rightHalf (castSer K f) (castSer K g) := by
  funext z
  rcases List.eq_nil_or_concat' z with rfl | ⟨z, a, rfl⟩
  · exact Int.cast_zero
  · show ((Series.rightHalf f g (z ++ [a]) : ℤ) : K) = _
    rw [rightHalf_concat, rightHalf_concat]
    exact congrFun (castSer_shuffle (K := K) f (rd a g)) z

theorem value_castSer (p : Product) :
    Product.value (tser K w) p = castSer K (Product.value (tser ℤ w) p) :=
  funext fun z => value_cast p z

theorem tensorProduct_shuffle : TensorProduct (w := w) (K := K) Series.shuffle where
  add_left := shuffle_add_left
  add_right := shuffle_add_right
  smul_left := shuffle_smul_left
  smul_right := shuffle_smul_right
  homog := fun _ _ _ h => shuffle_word_eq_zero h
  congr := fun _ _ _ _ _ h h' => shuffle_congr h h'

theorem tensorProduct_left : TensorProduct (w := w) (K := K) Series.leftHalf where
  add_left := leftHalf_add_left
  add_right := leftHalf_add_right
  smul_left := leftHalf_smul_left
  smul_right := leftHalf_smul_right
  homog := fun u v z h => by
    cases u with
    | nil => rw [leftHalf_word_nil]; rfl
    | cons a u =>
      cases z with
      | nil => rfl
      | cons b z =>
        rw [leftHalf_cons, ld_word]
        dsimp only
        split_ifs
        · exact shuffle_word_eq_zero fun h' => h (by rw [List.length_cons, List.length_cons]; omega)
        · rw [shuffle_zero_left]; rfl
  congr := fun _ _ _ _ _ h h' => leftHalf_congr h h'

theorem keyProd_left {fuel : ℕ} (hf : depth < fuel) :
    KeyProdSpec (K := K) (w := w) (CacheOK (w := w) leftVal) depth Series.leftHalf (leftHalf w depth fuel) := by
  intro c u v hc hd
  obtain ⟨p, c', h1, h2, h3⟩ := leftHalf_spec w depth fuel c u v hc hd (by omega)
  refine ⟨p, c', h1, h2, h3.keys, ?_⟩
  rw [value_castSer, h3.value]
  unfold leftVal
  rw [castSer_leftHalf, castSer_word, castSer_word]

theorem keyProd_shuffle {fuel : ℕ} (hf : depth < fuel) :
    KeyProdSpec (K := K) (w := w) (CacheOK (w := w) leftVal) depth Series.shuffle (shuffleProd w depth fuel) := by
  intro c u v hc hd
  obtain ⟨p, c', h1, h2, h3⟩ := shuffleProd_spec (fuel := fuel) hc hd (by omega)
  refine ⟨p, c', h1, h2, h3.keys, ?_⟩
  rw [value_castSer, h3.value]
  unfold shuffleVal
  rw [castSer_shuffle, castSer_word, castSer_word]

theorem noScalar_nil (f : Series (Fin w) K) : noScalar f [] = 0 := if_pos rfl

theorem noScalar_cons (f : Series (Fin w) K) (a : Fin w) (u : List (Fin w)) :
    noScalar f (a :: u) = f (a :: u) := if_neg (by simp)

theorem noScalar_word (u : List (Fin w)) : noScalar (word K u) = if u = [] then 0 else word K u := by
  funext z
  by_cases hu : u = []
  · subst hu
    rw [if_pos rfl]
    cases z with
    | nil => exact noScalar_nil _
    | cons a z => rw [noScalar_cons, word_nil_one, one_cons]; rfl
  · rw [if_neg hu]
    cases z with
    | nil => rw [noScalar_nil, word_nil_apply hu]
    | cons a z => rw [noScalar_cons]

/-- what the code computes as the right half shuffle of tensors -/
def rightStar (f g : Series (Fin w) K) : Series (Fin w) K :=
  Series.rightHalf (noScalar f) (noScalar g) + g [] • noScalar f

theorem rightStar_of {f g : Series (Fin w) K} (hf : f [] = 0) (hg : g [] = 0) :
    rightStar f g = Series.rightHalf f g := by
  have : ∀ f : Series (Fin w) K, f [] = 0 → noScalar f = f := by
    intro f hf
    funext u
    unfold noScalar
    split_ifs with h
    · rw [h, hf]
    · rfl
  unfold rightStar
  rw [this f hf, this g hg, hg, zero_smul, add_zero]

theorem noScalar_add (f g : Series (Fin w) K) : noScalar (f + g) = noScalar f + noScalar g := by
  funext u
  rw [Series.add_apply]
  cases u with
  | nil => rw [noScalar_nil, noScalar_nil, noScalar_nil, add_zero]
  | cons a u => rw [noScalar_cons, noScalar_cons, noScalar_cons, Series.add_apply]

theorem noScalar_smul (c : K) (f : Series (Fin w) K) : noScalar (c • f) = c • noScalar f := by
  funext u
  rw [Series.smul_apply]
  cases u with
  | nil => rw [noScalar_nil, noScalar_nil, mul_zero]
  | cons a u => rw [noScalar_cons, noScalar_cons, Series.smul_apply]

theorem noScalar_congr {D : ℕ} {f g : Series (Fin w) K} (h : EqUpTo D f g) :
    EqUpTo D (noScalar f) (noScalar g) := by
  intro u hu
  unfold noScalar
  rw [h u hu]

theorem rightStar_word (u v : List (Fin w)) :
    rightStar (word K u) (word K v) = castSer K (rightVal u v) := by
  unfold rightStar rightVal
  rw [noScalar_word, noScalar_word]
  by_cases hu : u = []
  · rw [if_pos hu, if_pos hu, smul_zero, add_zero]
    funext z
    rcases List.eq_nil_or_concat' z with rfl | ⟨z, a, rfl⟩
    · exact Int.cast_zero.symm
    · rw [rightHalf_concat, shuffle_zero_left]
      exact Int.cast_zero.symm
  · rw [if_neg hu, if_neg hu]
    by_cases hv : v = []
    · rw [if_pos hv, if_pos hv, castSer_word, hv]
      have h0 : Series.rightHalf (word K u) 0 = 0 := by
        funext z
        rcases List.eq_nil_or_concat' z with rfl | ⟨z, a, rfl⟩
        · rfl
        · rw [rightHalf_concat]
          exact congrFun (shuffle_zero_right (word K u)) z
      rw [h0, zero_add, word_nil_one, one_nil, one_smul]
    · rw [if_neg hv, if_neg hv, word_nil_apply hv, zero_smul, add_zero, castSer_rightHalf,
        castSer_word, castSer_word]

theorem tensorProduct_right : TensorProduct (w := w) (K := K) rightStar where
  add_left := fun f f' g => by
    unfold rightStar
    rw [noScalar_add, rightHalf_add_left, smul_add]
    exact add_add_add_comm _ _ _ _
  add_right := fun f g g' => by
    unfold rightStar
    rw [noScalar_add, rightHalf_add_right, Series.add_apply, add_smul]
    exact add_add_add_comm _ _ _ _
  smul_left := fun c f g => by
    unfold rightStar
    rw [noScalar_smul, rightHalf_smul_left, smul_add, smul_comm]
  smul_right := fun c f g => by
    unfold rightStar
    rw [noScalar_smul, rightHalf_smul_right, smul_add, Series.smul_apply, mul_smul]
  homog := fun u v z h => by
    rw [rightStar_word]
    obtain ⟨p, c', h1, h2, h3⟩ := rightHalf_spec w (u.length + v.length) (u.length + v.length + 1)
      ShuffleCache.fresh u v (by intro u v p hp; cases hp) le_rfl (by omega)
    rw [← h3.value, ← value_castSer, value_apply]
    unfold Product.coefficient
    rw [sum_map_eq_zero, Int.cast_zero]
    intro t ht
    obtain ⟨y, hy, hyt⟩ := h3.keys t ht
    refine if_neg fun hk => h ?_
    rw [← hy, wordKey_inj (hyt.trans hk)]
  congr := fun D f f' g g' h h' => by
    unfold rightStar
    refine EqUpTo.add (rightHalf_congr (noScalar_congr h) (noScalar_congr h')) ?_
    rw [h' [] (Nat.zero_le _)]
    exact EqUpTo.smul _ (noScalar_congr h)

theorem keyProd_right {fuel : ℕ} (hf : depth < fuel) :
    KeyProdSpec (K := K) (w := w) (CacheOK (w := w) rightVal) depth rightStar (rightHalf w depth fuel) := by
  intro c u v hc hd
  obtain ⟨p, c', h1, h2, h3⟩ := rightHalf_spec w depth fuel c u v hc hd (by omega)
  refine ⟨p, c', h1, h2, h3.keys, ?_⟩
  rw [value_castSer, h3.value, rightStar_word]

/-! ## Stored tensors -/

section
variable {star : Series (Fin w) K → Series (Fin w) K → Series (Fin w) K}

theorem stored_multiplyWith (hd : 1 ≤ depth) {C : Type} {OK : C → Prop} {prod : CachedKeyOp C}
    (hs : TensorProduct star) (hprod : KeyProdSpec OK depth star prod) {cache : C} (hc : OK cache)
    {x y : Stored K} {f g : Series (Fin w) K} (hx : IsTensor w depth x f) (hy : IsTensor w depth y g) :
    ∃ r c', Stored.multiplyWith w depth prod cache x y = some (r, c') ∧ OK c' ∧
      r.vecType = x.vecType ∧ IsTensor w depth r (star f g) := by
  have hS := sparse_tensorVec (K := K) w depth
  have hD := dense_tensorVec (K := K) w hd
  cases x with
  | sparse a =>
    rw [isTensor_sparse] at hx
    cases y with
    | sparse b =>
      rw [isTensor_sparse] at hy
      obtain ⟨r, c', h1, h2, h3, h4⟩ := cachedFma_spec hS hS hs hprod hc hS.blank_new hx.1 hy.1
      refine ⟨.sparse r, c', ?_, h2, rfl, isTensor_sparse.2
        ⟨h3, h4.trans (hs.congr _ _ _ _ _ hx.2 hy.2)⟩⟩
      show (do let r ← cachedFma _ _ depth prod cache _ a b fun s => s; some (Stored.sparse r.1, r.2)) = _
      rw [h1]; rfl
    | dense b =>
      rw [isTensor_dense] at hy
      obtain ⟨r, c', h1, h2, h3, h4⟩ := cachedFma_spec hS hD hs hprod hc hS.blank_new hx.1 hy.1
      refine ⟨.sparse r, c', ?_, h2, rfl, isTensor_sparse.2
        ⟨h3, h4.trans (hs.congr _ _ _ _ _ hx.2 hy.2)⟩⟩
      show (do let r ← cachedFma _ _ depth prod cache _ a b fun s => s; some (Stored.sparse r.1, r.2)) = _
      rw [h1]; rfl
  | dense a =>
    rw [isTensor_dense] at hx
    cases y with
    | sparse b =>
      rw [isTensor_sparse] at hy
      obtain ⟨r, c', h1, h2, h3, h4⟩ := cachedFma_spec hD hS hs hprod hc hD.blank_new hx.1 hy.1
      refine ⟨.dense r, c', ?_, h2, rfl, isTensor_dense.2
        ⟨h3, h4.trans (hs.congr _ _ _ _ _ hx.2 hy.2)⟩⟩
      show (do let r ← cachedFma _ _ depth prod cache _ a b fun s => s; some (Stored.dense r.1, r.2)) = _
      rw [h1]; rfl
    | dense b =>
      rw [isTensor_dense] at hy
      obtain ⟨r, c', h1, h2, h3, h4⟩ := cachedFma_spec hD hD hs hprod hc hD.blank_new hx.1 hy.1
      refine ⟨.dense r, c', ?_, h2, rfl, isTensor_dense.2
        ⟨h3, h4.trans (hs.congr _ _ _ _ _ hx.2 hy.2)⟩⟩
      show (do let r ← cachedFma _ _ depth prod cache _ a b fun s => s; some (Stored.dense r.1, r.2)) = _
      rw [h1]; rfl

variable {V : VecOps K T} {ser : T → Series (Fin w) K} {Good Blank : T → Prop} {fuel : ℕ}
  {cache : ShuffleCache}

theorem keyProd_shuffle_history (hf : depth < fuel) :
    KeyProdSpec (K := K) (w := w) (ShuffleHistory w (shuffleProd w)) depth Series.shuffle
      (shuffleProd w depth fuel) := by
  intro c u v hc hd
  obtain ⟨p, c', h1, -, h3⟩ := keyProd_shuffle (K := K) hf c u v (shuffle_history hc) hd
  exact ⟨p, c', h1, .lookup u v hf hc h1, h3⟩

theorem shuffleMul_vec (hV : TensorVec V w depth ser Good Blank) (hf : depth < fuel)
    (hc : ShuffleHistory w (shuffleProd w) cache) {a b : T} (ha : Good a) (hb : Good b) :
    ∃ r c', shuffleMul V w depth fuel cache a b = some (r, c') ∧
      ShuffleHistory w (shuffleProd w) c' ∧
      Good r ∧ EqUpTo depth (ser r) (shuffle (ser a) (ser b)) := by
  have hs := tensorProduct_shuffle (w := w) (K := K)
  unfold shuffleMul
  by_cases he : (!V.empty a && !V.empty b) = true
  · rw [if_pos he]
    exact cachedFma_spec hV hV hs (keyProd_shuffle_history hf) hc hV.blank_new ha hb
  · rw [if_neg he]
    obtain ⟨b1, b2⟩ := hV.blank _ hV.blank_new
    refine ⟨_, _, rfl, hc, b1, ?_⟩
    rw [b2]
    have : V.empty a = true ∨ V.empty b = true := by
      rcases h1 : V.empty a with _ | _
      · rcases h2 : V.empty b with _ | _
        · rw [h1, h2] at he; exact absurd rfl he
        · exact Or.inr rfl
      · exact Or.inl rfl
    rcases this with h | h
    · have := hs.congr depth _ _ _ _ (hV.empty a ha h) (EqUpTo.refl depth (ser b))
      rw [hs.zero_left] at this
      exact this.symm
    · have := hs.congr depth _ _ _ _ (EqUpTo.refl depth (ser a)) (hV.empty b hb h)
      rw [hs.zero_right] at this
      exact this.symm

theorem shuffleMulInplace_vec (hV : TensorVec V w depth ser Good Blank) (hf : depth < fuel)
    (hc : ShuffleHistory w (shuffleProd w) cache) {a b : T} (ha : Good a) (hb : Good b) :
    ∃ r c', shuffleMulInplace V w depth fuel cache a b = some (r, c') ∧
      ShuffleHistory w (shuffleProd w) c' ∧
      Good r ∧ EqUpTo depth (ser r) (shuffle (ser a) (ser b)) := by
  have hs := tensorProduct_shuffle (w := w) (K := K)
  unfold shuffleMulInplace
  by_cases hbe : V.empty b = true
  · rw [if_pos hbe]
    obtain ⟨h1, h2⟩ := hV.clear a ha
    refine ⟨_, _, rfl, hc, h1, h2.trans ?_⟩
    have := hs.congr depth _ _ _ _ (EqUpTo.refl depth (ser a)) (hV.empty b hb hbe)
    rw [hs.zero_right] at this
    exact this.symm
  rw [if_neg hbe]
  by_cases hae : (!V.empty a) = true
  · rw [if_pos hae]
    unfold shuffleMultiplyInplace
    rw [if_pos (by rw [hae]; simpa using hbe)]
    exact cachedFma_spec hV hV hs (keyProd_shuffle_history hf) hc (hV.blank_setDegree _ _ hV.blank_new) ha hb
  · rw [if_neg hae]
    have hae : V.empty a = true := by simpa using hae
    refine ⟨_, _, rfl, hc, ha, (hV.empty a ha hae).trans ?_⟩
    have := hs.congr depth _ _ _ _ (hV.empty a ha hae) (EqUpTo.refl depth (ser b))
    rw [hs.zero_left] at this
    exact this.symm

end

end RoughPy.Lite
