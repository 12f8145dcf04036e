import Verif.Lite.ShuffleVec
import Verif.Lite.TensorAlg

set_option linter.unusedSectionVars false

/-!
# Properties of shuffle products

Vocabulary: `Verif/Lite/ShuffleSpec.lean`.  `KeyGives` and `VecGives` say that a product of words
or of tensors succeeds, for every state that the cache of the multiplication can have, with a result
of which something holds.  `Product.IsWords p l` says that `p` is the sum of the words in `l`.
-/

namespace RoughPy.Lite

open RoughPy.Tensor RoughPy.Tensor.Series

variable {K : Type} [Field K] [DecidableEq K] {w depth : ℕ}

/-! ## Helpers -/

theorem isWords_of {u v : List (Fin w)} {val : List (Fin w) → List (Fin w) → Series (Fin w) ℤ}
    {p : Product} (hp : HalfOK val u v p) {l : List (List (Fin w))}
    (h : ∀ z, val u v z = (l.count z : ℤ)) : p.IsWords l := by
  refine ⟨fun t ht => ?_, fun z => ?_⟩
  · obtain ⟨z, -, hz⟩ := hp.keys t ht
    exact ⟨z, hz.symm⟩
  · have := value_apply (K := ℤ) p z
    rw [Int.cast_id] at this
    rw [← this, hp.value, h]

theorem keyGives_of {op : ℕ → ℕ → CachedKeyOp ShuffleCache}
    {val val' : List (Fin w) → List (Fin w) → Series (Fin w) ℤ}
    (hhist : ∀ c, ShuffleHistory w op c → CacheOK val c)
    (hop : ∀ fuel c (u v : List (Fin w)), CacheOK val c → u.length + v.length ≤ depth →
      u.length + v.length < fuel → ∃ p c', op depth fuel c (wordKey u) (wordKey v) = some (p, c') ∧
        CacheOK val c' ∧ HalfOK val' u v p)
    {u v : List (Fin w)} (hd : u.length + v.length ≤ depth) {P : Product → Prop}
    (hP : ∀ p, HalfOK val' u v p → P p) : KeyGives w op depth u v P := by
  intro fuel hf c hc
  obtain ⟨p, c', h1, -, h3⟩ := hop fuel c u v (hhist c hc) hd (by omega)
  exact ⟨p, c', h1, .lookup u v hf hc h1, hP p h3⟩

theorem left_gives {u v : List (Fin w)} (hd : u.length + v.length ≤ depth) {P : Product → Prop}
    (hP : ∀ p, HalfOK leftVal u v p → P p) : KeyGives w (leftHalf w) depth u v P :=
  keyGives_of (fun _ => left_history) (leftHalf_spec w depth) hd hP

theorem right_gives {u v : List (Fin w)} (hd : u.length + v.length ≤ depth) {P : Product → Prop}
    (hP : ∀ p, HalfOK rightVal u v p → P p) : KeyGives w (rightHalf w) depth u v P :=
  keyGives_of (fun _ => right_history) (rightHalf_spec w depth) hd hP

theorem count_map_cons (a b : Fin w) (z : List (Fin w)) (l : List (List (Fin w))) :
    (l.map fun y => a :: y).count (b :: z) = if b = a then l.count z else 0 := by
  by_cases h : b = a
  · subst h
    rw [if_pos rfl]
    exact List.count_map_of_injective l _ (fun x y h => (List.cons.inj h).2) z
  · rw [if_neg h, List.count_eq_zero]
    intro hm
    obtain ⟨y, -, hy⟩ := List.mem_map.1 hm
    exact h (List.cons.inj hy).1.symm

theorem count_map_concat (a b : Fin w) (z : List (Fin w)) (l : List (List (Fin w))) :
    (l.map fun y => y ++ [a]).count (z ++ [b]) = if b = a then l.count z else 0 := by
  by_cases h : b = a
  · subst h
    rw [if_pos rfl]
    exact List.count_map_of_injective l (fun y => y ++ [b])
      (fun x y h => List.append_cancel_right h) z
  · rw [if_neg h, List.count_eq_zero]
    intro hm
    obtain ⟨y, -, hy⟩ := List.mem_map.1 hm
    exact h (by simpa using (List.append_inj' hy rfl).2.symm)

theorem shuffleVal_count (u v z : List (Fin w)) : shuffleVal u v z = ((shuffles u v).count z : ℤ) :=
  shuffle_word u v z

theorem leftVal_count (a : Fin w) (u v z : List (Fin w)) :
    leftVal (a :: u) v z = (((shuffles u v).map fun y => a :: y).count z : ℤ) := by
  cases z with
  | nil =>
    rw [List.count_eq_zero_of_not_mem]
    · rfl
    · intro h
      obtain ⟨y, -, hy⟩ := List.mem_map.1 h
      cases hy
  | cons b z =>
    unfold leftVal
    rw [leftHalf_word_cons, letter_mul_cons, count_map_cons]
    split_ifs
    · exact shuffleVal_count u v z
    · rfl

theorem rightVal_count {u : List (Fin w)} (hu : u ≠ []) (v : List (Fin w)) (a : Fin w)
    (z : List (Fin w)) :
    rightVal u (v ++ [a]) z = (((shuffles u v).map fun y => y ++ [a]).count z : ℤ) := by
  unfold rightVal
  rw [if_neg hu, if_neg (by simp)]
  rcases List.eq_nil_or_concat' z with rfl | ⟨z, b, rfl⟩
  · rw [List.count_eq_zero_of_not_mem]
    · rfl
    · intro h
      obtain ⟨y, -, hy⟩ := List.mem_map.1 h
      simp at hy
  · rw [rightHalf_word_concat, mul_letter_concat, count_map_concat]
    split_ifs
    · exact shuffleVal_count u v z
    · rfl

/-! ## C20: half shuffles of words -/

/-- The shuffle product of two words is the sum of their interleavings. -/
theorem C20_shuffle {u v : List (Fin w)} (hd : u.length + v.length ≤ depth) :
    KeyGives w (shuffleProd w) depth u v fun p => p.IsWords (shuffles u v) :=
  keyGives_of (fun _ => shuffle_history)
    (fun fuel _ _ _ hc hd hn => shuffleProd_spec (fuel := fuel) hc hd hn) hd
    fun _ hp => isWords_of hp fun z => shuffleVal_count u v z

/-- The left half shuffle of two words is the sum of the interleavings that start with the first
letter of the left word. -/
theorem C20_left {a : Fin w} {u v : List (Fin w)} (hd : (a :: u).length + v.length ≤ depth) :
    KeyGives w (leftHalf w) depth (a :: u) v fun p =>
      p.IsWords ((shuffles u v).map fun z => a :: z) :=
  left_gives hd fun _ hp => isWords_of hp fun z => leftVal_count a u v z

/-- `left(u, 1) = u` for words other than 1, and `left(1, v) = 0`. -/
theorem C20_left_one {u : List (Fin w)} (hd : u.length ≤ depth) :
    (u ≠ [] → KeyGives w (leftHalf w) depth u [] fun p => p.IsWords [u]) ∧
    KeyGives w (leftHalf w) depth [] u fun p => p.IsWords ([] : List (List (Fin w))) := by
  refine ⟨fun hu => ?_, left_gives (by simpa using hd) fun _ hp => isWords_of hp fun z => ?_⟩
  · cases u with
    | nil => exact absurd rfl hu
    | cons a u =>
      refine left_gives (by simpa using hd) fun _ hp => isWords_of hp fun z => ?_
      rw [leftVal_count]
      have : shuffles u [] = [u] := by cases u <;> simp [shuffles]
      rw [this]
      rfl
  · unfold leftVal
    rw [leftHalf_word_nil]
    rfl

/-- The right half shuffle of two non-empty words is the sum of the interleavings that end with the
last letter of the right word.

Missing: the values at the empty word that the property asks for; `C20_right_one_wrong` shows that
they do not hold.  Also missing: that left and right half shuffle of the same pair add up to the
shuffle; `C20_sum_wrong` shows that they do not, and `C20_sum` what holds instead. -/
theorem C20_right_partial {u v : List (Fin w)} {b : Fin w} (hu : u ≠ [])
    (hd : u.length + (v ++ [b]).length ≤ depth) :
    KeyGives w (rightHalf w) depth u (v ++ [b]) fun p =>
      p.IsWords ((shuffles u v).map fun z => z ++ [b]) :=
  right_gives hd fun _ hp => isWords_of hp fun z => rightVal_count hu v b z

/-- `right(1, v) = 0` instead of `v`, and `right(u, 1) = u` instead of 0, for all words other
than 1. -/
theorem C20_right_one_wrong {u : List (Fin w)} (hd : u.length ≤ depth) (hu : u ≠ []) :
    (KeyGives w (rightHalf w) depth [] u fun p => p.IsWords ([] : List (List (Fin w))) ∧
      ¬ p.IsWords [u]) ∧
    KeyGives w (rightHalf w) depth u [] fun p => p.IsWords [u] ∧
      ¬ p.IsWords ([] : List (List (Fin w))) := by
  have key : ∀ {p : Product}, p.IsWords ([] : List (List (Fin w))) → p.IsWords [u] → False := by
    intro p h1 h2
    have := (h1.2 u).symm.trans (h2.2 u)
    simp at this
  constructor
  · refine right_gives (by simpa using hd) fun p hp => ?_
    have h : p.IsWords ([] : List (List (Fin w))) := isWords_of hp fun z => by
      unfold rightVal
      rw [if_pos rfl]
      rfl
    exact ⟨h, fun h' => key h h'⟩
  · refine right_gives (by simpa using hd) fun p hp => ?_
    have h : p.IsWords [u] := isWords_of hp fun z => by
      unfold rightVal
      rw [if_neg hu, if_pos rfl, List.count_singleton]
      show (if z = u then (1 : ℤ) else 0) = _
      by_cases h : z = u
      · rw [if_pos h, h]; simp
      · rw [if_neg h, if_neg (by simpa using fun h' => h h'.symm)]; rfl
    exact ⟨h, fun h' => key h' h⟩

/-- Either half shuffle, taken in both orders, adds up to the shuffle product, for non-empty
words. -/
theorem C20_sum {u v : List (Fin w)} (hu : u ≠ []) (hv : v ≠ [])
    (hd : u.length + v.length ≤ depth) :
    (KeyGives w (leftHalf w) depth u v fun p => KeyGives w (leftHalf w) depth v u fun q =>
      (p.add q).IsWords (shuffles u v)) ∧
    KeyGives w (rightHalf w) depth u v fun p => KeyGives w (rightHalf w) depth v u fun q =>
      (p.add q).IsWords (shuffles u v) := by
  have key : ∀ {val : List (Fin w) → List (Fin w) → Series (Fin w) ℤ} {p q : Product},
      HalfOK val u v p → HalfOK val v u q → val u v + val v u = shuffleVal u v →
      (p.add q).IsWords (shuffles u v) := by
    intro val p q hp hq hs
    obtain ⟨h1, h2, h3⟩ := add_value hp.sorted hp.keys (Nat.add_comm v.length u.length ▸ hq.keys)
    exact isWords_of (val := shuffleVal) ⟨h1, h2, by rw [h3, hp.value, hq.value, hs]⟩
      fun z => shuffleVal_count u v z
  exact ⟨left_gives hd fun p hp => left_gives (by omega) fun q hq => key hp hq (leftVal_add hu),
    right_gives hd fun p hp => right_gives (by omega) fun q hq => key hp hq (rightVal_add hu hv)⟩

/-- The left and the right half shuffle of two different letters `a` and `b` are both `ab`: they add
up to `2 ab`, not to `ab + ba`. -/
theorem C20_sum_wrong {a b : Fin w} (hab : a ≠ b) (hd : 2 ≤ depth) :
    KeyGives w (leftHalf w) depth [a] [b] fun p => KeyGives w (rightHalf w) depth [a] [b] fun q =>
      p.IsWords [[a, b]] ∧ q.IsWords [[a, b]] ∧ (p.add q).IsWords [[a, b], [a, b]] ∧
        ¬ (p.add q).IsWords (shuffles [a] [b]) := by
  refine left_gives (by simpa using hd) fun p hp => right_gives (by simpa using hd) fun q hq => ?_
  have h1 : p.IsWords [[a, b]] := isWords_of hp fun z => by
    rw [leftVal_count]; simp [shuffles]
  have h2 : q.IsWords [[a, b]] := isWords_of hq fun z => by
    have := rightVal_count (u := [a]) (by simp) [] b z
    rw [List.nil_append] at this
    rw [this]; simp [shuffles]
  obtain ⟨s1, s2, s3⟩ := add_value hp.sorted hp.keys hq.keys
  have h3 : (p.add q).IsWords [[a, b], [a, b]] := by
    refine isWords_of (u := [a]) (v := [b]) (val := fun u v => leftVal u v + rightVal u v)
      ⟨s1, s2, by rw [s3, hp.value, hq.value]⟩ fun z => ?_
    rw [Series.add_apply]
    have e1 := h1.2 z
    have e2 := h2.2 z
    have f1 := value_apply (K := ℤ) p z
    have f2 := value_apply (K := ℤ) q z
    rw [Int.cast_id] at f1 f2
    rw [← hp.value, ← hq.value, f1, f2, e1, e2]
    rw [List.count_cons (l := [[a, b]]), List.count_singleton]
    split_ifs <;> simp
  refine ⟨h1, h2, h3, fun h4 => ?_⟩
  have := (h3.2 [b, a]).symm.trans (h4.2 [b, a])
  have hba : b ≠ a := fun h => hab h.symm
  simp [shuffles, hab, hba] at this

/-- Products of words that are too long for the basis are zero. -/
theorem C20_truncated {u v : List (Fin w)} (hd : depth < u.length + v.length) :
    (KeyGives w (leftHalf w) depth u v fun p => p = []) ∧
    (KeyGives w (rightHalf w) depth u v fun p => p = []) ∧
    KeyGives w (shuffleProd w) depth u v fun p => p = [] := by
  refine ⟨fun fuel hf c hc => ?_, fun fuel hf c hc => ?_, fun fuel hf c hc => ?_⟩
  · exact ⟨_, _, leftHalf_big (by omega) hd c, hc, rfl⟩
  · exact ⟨_, _, rightHalf_big (by omega) hd c, hc, rfl⟩
  · refine ⟨[], c, ?_, hc, rfl⟩
    unfold shuffleProd
    rw [if_pos (by rw [wordKey_deg, wordKey_deg]; omega)]

/-- The hypotheses of the theorems of C20 can be met. -/
example : ([0, 1] : List (Fin 2)) ≠ [] ∧ [0, 1].length + ([0] : List (Fin 2)).length ≤ 3 ∧
    ([0] : List (Fin 2)).length + ([1] ++ [0] : List (Fin 2)).length ≤ 3 := by decide

/-- The left half shuffle of `12` and `1` is `112 + 121`. -/
example : ((leftHalf 2 3 4 ShuffleCache.fresh (wordKey [(0 : Fin 2), 1]) (wordKey [(0 : Fin 2)])).map
    (·.1)) = some [(wordKey [(0 : Fin 2), 0, 1], 1), (wordKey [(0 : Fin 2), 1, 0], 1)] := by
  decide +kernel

/-! ## C77: shuffle products of tensors -/

theorem vecGives_of {op : ℕ → ℕ → CachedKeyOp ShuffleCache}
    {val : List (Fin w) → List (Fin w) → Series (Fin w) ℤ}
    {star : Series (Fin w) K → Series (Fin w) K → Series (Fin w) K}
    (hhist : ∀ c, ShuffleHistory w op c → CacheOK val c) (hs : TensorProduct star)
    (hprod : ∀ fuel, depth < fuel → KeyProdSpec (w := w) (CacheOK val) depth star (op depth fuel))
    (hd : 1 ≤ depth) {x y : Stored K} {f g : Series (Fin w) K} (hx : IsTensor w depth x f)
    (hy : IsTensor w depth y g) :
    VecGives w op depth (fun fuel c => Stored.multiplyWith w depth (op depth fuel) c x y) fun r =>
      r.vecType = x.vecType ∧ IsTensor w depth r (star f g) := by
  intro fuel hf c hc
  have hprod' : KeyProdSpec (w := w) (ShuffleHistory w op) depth star (op depth fuel) := by
    intro c u v hc hd
    obtain ⟨p, c', h1, -, h3⟩ := hprod fuel hf c u v (hhist c hc) hd
    exact ⟨p, c', h1, .lookup u v hf hc h1, h3⟩
  obtain ⟨r, c', h1, h2, h3, h4⟩ := stored_multiplyWith hd hs hprod' hc hx hy
  exact ⟨r, c', h1, h2, h3, h4⟩

/-- `shuffle_multiply` of tensors of any storage types computes their shuffle product, up to the
depth, in the storage type of the left factor. -/
theorem C77_shuffle_multiply (hd : 1 ≤ depth) {x y : Stored K} {f g : Series (Fin w) K}
    (hx : IsTensor w depth x f) (hy : IsTensor w depth y g) :
    VecGives w (shuffleProd w) depth (fun fuel c => shuffleMultiply w depth fuel c x y) fun r =>
      r.vecType = x.vecType ∧ IsTensor w depth r (f.shuffle g) :=
  vecGives_of (fun _ => shuffle_history) tensorProduct_shuffle (fun _ hf => keyProd_shuffle hf) hd hx hy

/-- `half_shuffle_multiply` computes the left half shuffle. -/
theorem C77_half_shuffle_multiply (hd : 1 ≤ depth) {x y : Stored K} {f g : Series (Fin w) K}
    (hx : IsTensor w depth x f) (hy : IsTensor w depth y g) :
    VecGives w (leftHalf w) depth (fun fuel c => halfShuffleMultiply w depth fuel c x y) fun r =>
      r.vecType = x.vecType ∧ IsTensor w depth r (f.leftHalf g) :=
  vecGives_of (fun _ => left_history) tensorProduct_left (fun _ hf => keyProd_left hf) hd hx hy

/-- `right_half_shuffle_multiply` computes the right half shuffle of tensors without constant
term. -/
theorem C77_right_half_shuffle_multiply_partial (hd : 1 ≤ depth) {x y : Stored K}
    {f g : Series (Fin w) K} (hx : IsTensor w depth x f) (hy : IsTensor w depth y g)
    (hf : f [] = 0) (hg : g [] = 0) :
    VecGives w (rightHalf w) depth (fun fuel c => rightHalfShuffleMultiply w depth fuel c x y) fun r =>
      r.vecType = x.vecType ∧ IsTensor w depth r (f.rightHalf g) := by
  rw [← rightStar_of hf hg]
  exact vecGives_of (fun _ => right_history) tensorProduct_right (fun _ hf => keyProd_right hf) hd hx hy

/-- `*` of shuffle tensors of the same storage type computes their shuffle product. -/
theorem C77_mul (hd : 1 ≤ depth) {x y : Stored K} {f g : Series (Fin w) K}
    (hx : IsTensor w depth x f) (hy : IsTensor w depth y g) (hxy : x.vecType = y.vecType) :
    VecGives w (shuffleProd w) depth (fun fuel c => Stored.shuffleMul w depth fuel c x y) fun r =>
      r.vecType = x.vecType ∧ IsTensor w depth r (f.shuffle g) := by
  intro fuel hf c hc
  cases x with
  | sparse a =>
    cases y with
    | dense b => cases hxy
    | sparse b =>
      rw [isTensor_sparse] at hx hy
      obtain ⟨r, c', h1, h2, h3, h4⟩ := shuffleMul_vec (sparse_tensorVec (K := K) w depth) hf hc
        hx.1 hy.1
      refine ⟨.sparse r, c', ?_, h2, rfl, isTensor_sparse.2 ⟨h3, h4.trans (shuffle_congr hx.2 hy.2)⟩⟩
      simp only [Stored.shuffleMul]
      rw [h1]
      rfl
  | dense a =>
    cases y with
    | sparse b => cases hxy
    | dense b =>
      rw [isTensor_dense] at hx hy
      obtain ⟨r, c', h1, h2, h3, h4⟩ := shuffleMul_vec (dense_tensorVec (K := K) w hd) hf hc
        hx.1 hy.1
      refine ⟨.dense r, c', ?_, h2, rfl, isTensor_dense.2 ⟨h3, h4.trans (shuffle_congr hx.2 hy.2)⟩⟩
      simp only [Stored.shuffleMul]
      rw [h1]
      rfl

/-- `*=` of shuffle tensors of the same storage type computes their shuffle product. -/
theorem C77_mul_inplace (hd : 1 ≤ depth) {x y : Stored K} {f g : Series (Fin w) K}
    (hx : IsTensor w depth x f) (hy : IsTensor w depth y g) (hxy : x.vecType = y.vecType) :
    VecGives w (shuffleProd w) depth (fun fuel c => Stored.shuffleMulInplace w depth fuel c x y)
      fun r => r.vecType = x.vecType ∧ IsTensor w depth r (f.shuffle g) := by
  intro fuel hf c hc
  cases x with
  | sparse a =>
    cases y with
    | dense b => cases hxy
    | sparse b =>
      rw [isTensor_sparse] at hx hy
      obtain ⟨r, c', h1, h2, h3, h4⟩ := shuffleMulInplace_vec (sparse_tensorVec (K := K) w depth) hf hc
        hx.1 hy.1
      refine ⟨.sparse r, c', ?_, h2, rfl, isTensor_sparse.2 ⟨h3, h4.trans (shuffle_congr hx.2 hy.2)⟩⟩
      simp only [Stored.shuffleMulInplace]
      rw [h1]
      rfl
  | dense a =>
    cases y with
    | sparse b => cases hxy
    | dense b =>
      rw [isTensor_dense] at hx hy
      obtain ⟨r, c', h1, h2, h3, h4⟩ := shuffleMulInplace_vec (dense_tensorVec (K := K) w hd) hf hc
        hx.1 hy.1
      refine ⟨.dense r, c', ?_, h2, rfl, isTensor_dense.2 ⟨h3, h4.trans (shuffle_congr hx.2 hy.2)⟩⟩
      simp only [Stored.shuffleMulInplace]
      rw [h1]
      rfl

/-! ## C78: laws -/

theorem agree_of (hd : 1 ≤ depth) {x y : Stored K} {f g : Series (Fin w) K}
    (hx : IsTensor w depth x f) (hy : IsTensor w depth y g) (h : EqUpTo depth f g) :
    Stored.Agree w depth x y := by
  refine ⟨⟨g, hx.congr h, hy⟩, fun ht => ?_⟩
  cases x with
  | sparse x =>
    cases y with
    | dense y => cases ht
    | sparse y =>
      rw [isTensor_sparse] at hx hy
      exact ((sparseTensor_lawful (K := K) w depth).beq x y hx.1 hy.1).2
        (hx.2.trans (h.trans hy.2.symm))
  | dense x =>
    cases y with
    | sparse y => cases ht
    | dense y =>
      rw [isTensor_dense] at hx hy
      exact ((denseTensor_lawful (K := K) w hd).beq x y hx.1 hy.1).2
        (hx.2.trans (h.trans hy.2.symm))

theorem VecGives.imp {op : ℕ → ℕ → CachedKeyOp ShuffleCache}
    {run : ℕ → ShuffleCache → Option (Stored K × ShuffleCache)} {P Q : Stored K → Prop}
    (h : VecGives w op depth run P) (hPQ : ∀ r, P r → Q r) : VecGives w op depth run Q :=
  fun fuel hf c hc => by
    obtain ⟨r, c', h1, h2, h3⟩ := h fuel hf c hc
    exact ⟨r, c', h1, h2, hPQ r h3⟩

/-- The shuffle product is commutative. -/
theorem C78_commutative (hd : 1 ≤ depth) {x y : Stored K} {f g : Series (Fin w) K}
    (hx : IsTensor w depth x f) (hy : IsTensor w depth y g) :
    VecGives w (shuffleProd w) depth (fun fuel c => shuffleMultiply w depth fuel c x y) fun r =>
    VecGives w (shuffleProd w) depth (fun fuel c => shuffleMultiply w depth fuel c y x) fun s =>
      Stored.Agree w depth r s :=
  (C77_shuffle_multiply hd hx hy).imp fun _ hr => (C77_shuffle_multiply hd hy hx).imp fun _ hs =>
    agree_of hd hr.2 hs.2 (shuffle_comm f g ▸ EqUpTo.refl _ _)

/-- The shuffle product is associative. -/
theorem C78_associative (hd : 1 ≤ depth) {x y z : Stored K} {f g h : Series (Fin w) K}
    (hx : IsTensor w depth x f) (hy : IsTensor w depth y g) (hz : IsTensor w depth z h) :
    VecGives w (shuffleProd w) depth (fun fuel c => shuffleMultiply w depth fuel c x y) fun xy =>
    VecGives w (shuffleProd w) depth (fun fuel c => shuffleMultiply w depth fuel c xy z) fun r =>
    VecGives w (shuffleProd w) depth (fun fuel c => shuffleMultiply w depth fuel c y z) fun yz =>
    VecGives w (shuffleProd w) depth (fun fuel c => shuffleMultiply w depth fuel c x yz) fun s =>
      Stored.Same (tensorBasis w depth) r s :=
  (C77_shuffle_multiply hd hx hy).imp fun _ h1 => (C77_shuffle_multiply hd h1.2 hz).imp fun _ h2 =>
  (C77_shuffle_multiply hd hy hz).imp fun _ h3 => (C77_shuffle_multiply hd hx h3.2).imp fun _ h4 =>
    (agree_of hd h2.2 h4.2 (shuffle_assoc f g h ▸ EqUpTo.refl _ _)).2
      (h2.1.trans (h1.1.trans h4.1.symm))

/-- The empty word is a unit. -/
theorem C78_unit (hd : 1 ≤ depth) {x one : Stored K} {f : Series (Fin w) K}
    (hx : IsTensor w depth x f) (hone : IsTensor w depth one (1 : Series (Fin w) K)) :
    (VecGives w (shuffleProd w) depth (fun fuel c => shuffleMultiply w depth fuel c x one) fun r =>
      Stored.Same (tensorBasis w depth) r x) ∧
    VecGives w (shuffleProd w) depth (fun fuel c => shuffleMultiply w depth fuel c one x) fun r =>
      Stored.Agree w depth r x :=
  ⟨(C77_shuffle_multiply hd hx hone).imp fun _ hr =>
      (agree_of hd hr.2 hx (by rw [shuffle_one]; exact EqUpTo.refl _ _)).2 hr.1,
    (C77_shuffle_multiply hd hone hx).imp fun _ hr =>
      agree_of hd hr.2 hx (by rw [shuffle_comm, shuffle_one]; exact EqUpTo.refl _ _)⟩

/-- For tensors of which one has no constant term, the half shuffles of the two orders add up to the
shuffle product. -/
theorem C78_halves (hd : 1 ≤ depth) {x y : Stored K} {f g : Series (Fin w) K}
    (hx : IsTensor w depth x f) (hy : IsTensor w depth y g) (h0 : f [] = 0 ∨ g [] = 0) :
    VecGives w (leftHalf w) depth (fun fuel c => halfShuffleMultiply w depth fuel c x y) fun a =>
    VecGives w (leftHalf w) depth (fun fuel c => halfShuffleMultiply w depth fuel c y x) fun b =>
    VecGives w (shuffleProd w) depth (fun fuel c => shuffleMultiply w depth fuel c x y) fun r =>
      ∃ p q : Series (Fin w) K, IsTensor w depth a p ∧ IsTensor w depth b q ∧
        IsTensor w depth r (p + q) :=
  (C77_half_shuffle_multiply hd hx hy).imp fun _ h1 =>
  (C77_half_shuffle_multiply hd hy hx).imp fun _ h2 =>
  (C77_shuffle_multiply hd hx hy).imp fun _ h3 =>
    ⟨_, _, h1.2, h2.2, by
      rw [leftHalf_add_swap_of (by rcases h0 with h | h <;> rw [h]; exacts [zero_mul _, mul_zero _])]
      exact h3.2⟩

/-- `half(half(x, y), z) = half(x, shuffle(y, z))`, as for iterated integrals. -/
theorem C78_half_half (hd : 1 ≤ depth) {x y z : Stored K} {f g h : Series (Fin w) K}
    (hx : IsTensor w depth x f) (hy : IsTensor w depth y g) (hz : IsTensor w depth z h) :
    VecGives w (leftHalf w) depth (fun fuel c => halfShuffleMultiply w depth fuel c x y) fun xy =>
    VecGives w (leftHalf w) depth (fun fuel c => halfShuffleMultiply w depth fuel c xy z) fun r =>
    VecGives w (shuffleProd w) depth (fun fuel c => shuffleMultiply w depth fuel c y z) fun yz =>
    VecGives w (leftHalf w) depth (fun fuel c => halfShuffleMultiply w depth fuel c x yz) fun s =>
      Stored.Same (tensorBasis w depth) r s :=
  (C77_half_shuffle_multiply hd hx hy).imp fun _ h1 =>
  (C77_half_shuffle_multiply hd h1.2 hz).imp fun _ h2 =>
  (C77_shuffle_multiply hd hy hz).imp fun _ h3 =>
  (C77_half_shuffle_multiply hd hx h3.2).imp fun _ h4 =>
    (agree_of hd h2.2 h4.2 (leftHalf_leftHalf f g h ▸ EqUpTo.refl _ _)).2
      (h2.1.trans (h1.1.trans h4.1.symm))

/-! ## C79: arithmetic with shuffle products -/

/-- Sums, differences and products of settled dense tensors are settled and stand for the sum,
difference and product. -/
theorem C79_settled_arithmetic (hd : 1 ≤ depth) {a b : Dense K} {f g : Series (Fin w) K}
    (ha : IsTensor w depth (.dense a) f) (hb : IsTensor w depth (.dense b) g)
    (sa : Stored.Settled (.dense a)) (sb : Stored.Settled (.dense b)) :
    (IsTensor w depth (.dense ((denseTensor w depth).add a b)) (f + g) ∧
      Stored.Settled (.dense ((denseTensor w depth).add a b))) ∧
    (IsTensor w depth (.dense ((denseTensor w depth).sub a b)) (f - g) ∧
      Stored.Settled (.dense ((denseTensor w depth).sub a b))) ∧
    ∃ r, (denseTensor w depth).mul a b = some r ∧ IsTensor w depth (.dense r) (f * g) ∧
      Stored.Settled (.dense r) := by
  have hA := denseTensor_lawful (K := K) w hd
  rw [isTensor_dense] at ha hb
  obtain ⟨p1, p2⟩ := hA.add a b ⟨ha.1, sa⟩ ⟨hb.1, sb⟩
  obtain ⟨q1, q2⟩ := hA.sub a b ⟨ha.1, sa⟩ ⟨hb.1, sb⟩
  obtain ⟨r, r1, r2, r3⟩ := hA.mul a b ha.1 hb.1
  exact ⟨⟨isTensor_dense.2 ⟨p1.1, p2.trans (ha.2.add hb.2)⟩, p1.2⟩,
    ⟨isTensor_dense.2 ⟨q1.1, q2.trans (ha.2.sub hb.2)⟩, q1.2⟩,
    r, r1, isTensor_dense.2 ⟨r2.1, r3.trans (ha.2.mul hb.2)⟩, r2.2⟩

theorem dense_modify_ne {v v' : Dense K} {k : Key} {f : K → K}
    (h : Dense.modify (tensorBasis w depth) v k f = some v') : v'.storage ≠ [] := by
  unfold Dense.modify at h
  simp only [Option.bind_eq_bind, Option.bind_eq_some_iff] at h
  obtain ⟨i, -, h⟩ := h
  unfold Dense.update at h
  simp only [Option.bind_eq_bind, Option.bind_eq_some_iff, Option.some.injEq] at h
  obtain ⟨x, hx, rfl⟩ := h
  intro hnil
  have hlen := congrArg List.length hnil
  simp only [List.length_set, List.length_nil] at hlen
  rw [List.eq_nil_of_length_eq_zero hlen] at hx
  simp at hx

theorem dense_asp_ne {p : Product} {s : K} {v v' : Dense K} (hp : p ≠ [] ∨ v.storage ≠ [])
    (h : aspHelper (Dense.ops (tensorBasis w depth)) v p s = some v') : v'.storage ≠ [] := by
  unfold aspHelper at h
  cases p with
  | nil =>
    rcases hp with hp | hp
    · exact absurd rfl hp
    · cases h
      exact hp
  | cons e p =>
    have h' : (Dense.modify (tensorBasis w depth) v e.1 fun x => x + (e.2 : K) * s).bind
        (fun v => loop p v fun out e => Dense.modify (tensorBasis w depth) out e.1
          fun x => x + (e.2 : K) * s) = some v' := h
    obtain ⟨u, hu, h'⟩ := Option.bind_eq_some_iff.1 h'
    exact loop_inv (fun v : Dense K => v.storage ≠ []) p _
      (fun e _ s s' hb _ => dense_modify_ne hb) u v' h' (dense_modify_ne hu)

/-- The first entry of a dense tensor belongs to the empty word. -/
theorem dense_items_cons {v : Dense K} (hv : v.storage ≠ []) {l : List (Key × K)}
    (h : Dense.items (tensorBasis w depth) v = some l) : ∃ x l', l = (⟨0, 0⟩, x) :: l' := by
  unfold Dense.items at h
  have h0 : (tensorBasis w depth).indexToKey 0 = some ⟨0, 0⟩ := by
    show tensorIndexToKey w depth 0 = _
    unfold tensorIndexToKey
    rw [if_pos rfl]
  rw [h0] at h
  simp only [Option.bind_eq_bind, Option.bind_some] at h
  cases hs : v.storage with
  | nil => exact absurd hs hv
  | cons x xs =>
    rw [hs, Dense.itemsFrom] at h
    simp only [Option.bind_eq_bind, Option.bind_eq_some_iff, Option.some.injEq] at h
    obtain ⟨k', -, rest, -, rfl⟩ := h
    exact ⟨x, rest, rfl⟩

theorem shuffle_fma_ne {fuel : ℕ} {c c' : ShuffleCache} {out a b r : Dense K}
    (ha : a.storage ≠ []) (hb : b.storage ≠ [])
    (h : cachedFma (Dense.ops (tensorBasis w depth)) (Dense.ops (tensorBasis w depth)) depth
      (shuffleProd w depth fuel) c out a b (fun s => s) = some (r, c')) : r.storage ≠ [] := by
  unfold cachedFma at h
  simp only [Option.bind_eq_bind, Option.bind_eq_some_iff] at h
  obtain ⟨right, hright, left, hleft, h⟩ := h
  obtain ⟨x, left, rfl⟩ := dense_items_cons ha hleft
  obtain ⟨y, right, rfl⟩ := dense_items_cons hb hright
  have step : ∀ (l r : Key × K) (s s' : Dense K × ShuffleCache),
      ((shuffleProd w depth fuel s.2 l.1 r.1).bind fun p =>
        (aspHelper (Dense.ops (tensorBasis w depth)) s.1 p.1 (l.2 * r.2)).bind fun out =>
          some (out, p.2)) = some s' → s.1.storage ≠ [] → s'.1.storage ≠ [] := by
    intro l r s s' hs hne
    obtain ⟨p, -, hs⟩ := Option.bind_eq_some_iff.1 hs
    obtain ⟨o, ho, hs⟩ := Option.bind_eq_some_iff.1 hs
    cases hs
    exact dense_asp_ne (.inr hne) ho
  generalize hD : min depth ((Dense.ops (tensorBasis w depth)).degree a +
    (Dense.ops (tensorBasis w depth)).degree b) = D at h
  obtain ⟨st, hst, h⟩ := Option.bind_eq_some_iff.1 (show (_ : Option _).bind _ = some (r, c') from h)
  refine loop_inv (fun s : Dense K × ShuffleCache => s.1.storage ≠ []) left _
    (fun l _ s s' hs hne => loop_inv (fun s : Dense K × ShuffleCache => s.1.storage ≠ []) _ _
      (fun r _ s s' hs hne => step l r s s' hs hne) s s' hs hne) st (r, c') h ?_
  dsimp only at hst
  rw [if_pos (Nat.zero_le _), List.takeWhile_cons_of_pos (by simp)] at hst
  obtain ⟨st1, hst1, hst⟩ := Option.bind_eq_some_iff.1 (show (_ : Option _).bind _ = some st from hst)
  refine loop_inv (fun s : Dense K × ShuffleCache => s.1.storage ≠ []) _ _
    (fun r _ s s' hs hne => step (⟨0, 0⟩, x) r s s' hs hne) st1 st hst ?_
  obtain ⟨p, hp, hst1⟩ := Option.bind_eq_some_iff.1 hst1
  obtain ⟨o, ho, hst1⟩ := Option.bind_eq_some_iff.1 hst1
  cases hst1
  refine dense_asp_ne (.inl ?_) ho
  have : shuffleProd w depth fuel c ⟨0, 0⟩ ⟨0, 0⟩ = some ([(⟨0, 0⟩, 1)], c) := by
    unfold shuffleProd shuffleKeys
    simp
  rw [this] at hp
  cases hp
  simp

/-- `shuffle_multiply` gives a settled tensor if the left factor is sparse, or if both factors are
dense and have entries.

Missing: dense tensors without entries; `C79_shuffle_zero_wrong` shows that their products are not
settled.  Half shuffle products; `C79_half_one_wrong`. -/
theorem C79_shuffle_partial (hd : 1 ≤ depth) {x y : Stored K} {f g : Series (Fin w) K}
    (hx : IsTensor w depth x f) (hy : IsTensor w depth y g)
    (hxy : x.vecType = .sparse ∨
      ∃ a b, x = .dense a ∧ y = .dense b ∧ a.storage ≠ [] ∧ b.storage ≠ []) :
    VecGives w (shuffleProd w) depth (fun fuel c => shuffleMultiply w depth fuel c x y)
      Stored.Settled := by
  intro fuel hf c hc
  obtain ⟨r, c', h1, h2, h3, -⟩ := C77_shuffle_multiply hd hx hy fuel hf c hc
  refine ⟨r, c', h1, h2, ?_⟩
  cases r with
  | sparse r => trivial
  | dense r =>
    rcases hxy with hxy | ⟨a, b, rfl, rfl, ha, hb⟩
    · rw [hxy] at h3
      cases h3
    · simp only [shuffleMultiply, Stored.multiplyWith, Option.bind_eq_bind,
        Option.bind_eq_some_iff, Option.some.injEq, Prod.mk.injEq, Stored.dense.injEq] at h1
      obtain ⟨⟨r', c1⟩, h1, h5, h6⟩ := h1
      subst h5
      exact fun hn => absurd hn (shuffle_fma_ne ha hb h1)

/-- `*` of two shuffle tensors of the same storage type always gives a settled tensor. -/
theorem C79_mul (hd : 1 ≤ depth) {x y : Stored K} {f g : Series (Fin w) K}
    (hx : IsTensor w depth x f) (hy : IsTensor w depth y g) (hxy : x.vecType = y.vecType) :
    VecGives w (shuffleProd w) depth (fun fuel c => Stored.shuffleMul w depth fuel c x y)
      Stored.Settled := by
  intro fuel hf c hc
  obtain ⟨r, c', h1, h2, h3, -⟩ := C77_mul hd hx hy hxy fuel hf c hc
  refine ⟨r, c', h1, h2, ?_⟩
  cases r with
  | sparse r => trivial
  | dense r =>
    cases x with
    | sparse a => cases h3
    | dense a =>
    cases y with
    | sparse b => cases hxy
    | dense b =>
      simp only [Stored.shuffleMul, Option.bind_eq_bind,
        Option.bind_eq_some_iff, Option.some.injEq, Prod.mk.injEq, Stored.dense.injEq] at h1
      obtain ⟨⟨r', c1⟩, h1, h5, h6⟩ := h1
      subst h5
      unfold RoughPy.Lite.shuffleMul at h1
      split_ifs at h1 with he
      · have he' : a.storage ≠ [] ∧ b.storage ≠ [] := by
          simpa [Dense.ops] using he
        exact fun hn => absurd hn (shuffle_fma_ne he'.1 he'.2 h1)
      · cases h1
        exact fun _ => rfl

/-- Dense tensors over the rationals of width and depth 2: the word `11` and the letter `1`. -/
def word11 : Dense ℚ := ⟨[0, 0, 0, 1, 0, 0, 0], 2⟩
/-- the letter `1` -/
def letter1 : Dense ℚ := ⟨[0, 1, 0], 1⟩
/-- the empty word -/
def word1 : Dense ℚ := ⟨[1], 0⟩

deriving instance DecidableEq for Stored

theorem isTensor_two {v : Dense ℚ} {f : Series (Fin 2) ℚ} (hw : Dense.Whole 2 2 v)
    (h0 : v.entry 0 = f []) (h1 : ∀ a : Fin 2, v.entry (wordIndex [a]) = f [a])
    (h2 : ∀ a b : Fin 2, v.entry (wordIndex [a, b]) = f [a, b]) : IsTensor 2 2 (.dense v) f := by
  refine isTensor_dense.2 ⟨hw, fun u hu => ?_⟩
  match u, hu with
  | [], _ => exact h0
  | [a], _ => exact h1 a
  | [a, b], _ => exact h2 a b
  | a :: b :: c :: u, hu => simp at hu

/-- `word11`, `letter1`, `word1` and the empty dense vector are tensors, and settled. -/
theorem C79_witnesses :
    IsTensor 2 2 (.dense word11) (Series.word ℚ [0, 0]) ∧ Stored.Settled (.dense word11) ∧
    IsTensor 2 2 (.dense letter1) (Series.word ℚ [0]) ∧ Stored.Settled (.dense letter1) ∧
    IsTensor 2 2 (.dense word1) (1 : Series (Fin 2) ℚ) ∧ Stored.Settled (.dense word1) ∧
    IsTensor 2 2 (.dense Dense.new) (0 : Series (Fin 2) ℚ) ∧
      Stored.Settled (.dense (Dense.new : Dense ℚ)) := by
  refine ⟨isTensor_two (.inr (by decide)) ?_ ?_ ?_, fun h => absurd h (by decide),
    isTensor_two (.inr (by decide)) ?_ ?_ ?_, fun h => absurd h (by decide),
    isTensor_two (.inr (by decide)) ?_ ?_ ?_, fun h => absurd h (by decide),
    isTensor_two (.inl rfl) ?_ ?_ ?_, fun _ => rfl⟩
  all_goals decide +kernel

/-- `shuffle_multiply` of the dense tensor 0 and the tensor `11` is zero but records degree 2.
Adding the letter `1` gives a tensor whose square reads outside its storage. -/
theorem C79_shuffle_zero_wrong :
    (shuffleMultiply 2 2 3 ShuffleCache.fresh (.dense Dense.new) (.dense word11)).map (·.1) =
      some (.dense ⟨[], 2⟩) ∧
    ¬ Stored.Settled (.dense (⟨[], 2⟩ : Dense ℚ)) ∧
    (denseTensor 2 2).add ⟨[], 2⟩ letter1 = ⟨[0, 1, 0], 2⟩ ∧
    (denseTensor 2 2).mul (⟨[0, 1, 0], 2⟩ : Dense ℚ) ⟨[0, 1, 0], 2⟩ = none := by
  refine ⟨by decide +kernel, fun h => absurd (h rfl) (by decide), by decide +kernel,
    by decide +kernel⟩

/-- The hypotheses of the theorems of C77, C78 and C79 can be met: `C79_witnesses` has tensors `11`
and `1`, of which the letter `1` is also a sparse
tensor; the letter `1` times itself is `2·11`. -/
example : letter1.storage ≠ [] ∧
    IsTensor 2 2 (.sparse [(⟨1, 0⟩, 1)]) (Series.word ℚ [(0 : Fin 2)]) ∧
    (shuffleMultiply 2 2 3 ShuffleCache.fresh (.dense letter1) (.sparse [(⟨1, 0⟩, 1)])).map (·.1) =
      some (.dense ⟨[0, 0, 0, 2, 0, 0, 0], 2⟩) :=
  ⟨by decide, ⟨by simp, fun p hp => ⟨[0], by simp, by
      rw [List.mem_singleton.1 hp]; decide +kernel, by decide +kernel⟩, fun u _ hf => by
      have : u = [0] := by
        by_contra h
        exact hf (if_neg h)
      subst this
      decide +kernel⟩, by decide +kernel⟩

/-- `half_shuffle_multiply` of the dense tensor 1 and the tensor `11` is zero but records degree 2;
see `C79_shuffle_zero_wrong`. -/
theorem C79_half_one_wrong :
    (halfShuffleMultiply 2 2 3 ShuffleCache.fresh (.dense word1) (.dense word11)).map (·.1) =
      some (.dense ⟨[], 2⟩) ∧
    ¬ Stored.Settled (.dense (⟨[], 2⟩ : Dense ℚ)) := by
  refine ⟨by decide +kernel, fun h => absurd (h rfl) (by decide)⟩

end RoughPy.Lite
