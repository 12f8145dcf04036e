import Verif.Tensor.HalfShuffle
import Verif.Lite.MapsVec
import Verif.Lite.ContextStored

set_option linter.unusedSectionVars false

/-! # Products of keys: half shuffles and shuffles, in every state of the cache -/

namespace RoughPy.Lite

open RoughPy.Tensor RoughPy.Tensor.Series
open RoughPy.Lie (Homog)

attribute [local instance] LieRing.ofAssociativeRing

variable {w depth : ℕ}

/-! ## Keys of words -/

theorem wordKey_deg (u : List (Fin w)) : (wordKey u).deg = u.length := rfl

theorem wordKey_nil_deg : (wordKey ([] : List (Fin w))).deg = 0 := rfl

theorem lparent_wordKey {a : Fin w} {u : List (Fin w)} (h : u.length + 1 ≤ depth) :
    lparent w depth (wordKey (a :: u)) = some (wordKey [a]) := by
  have hpos : w ^ u.length ≠ 0 := by have := wordOffset_lt u; omega
  unfold lparent
  rw [if_neg (by rw [wordKey_deg]; simp),
    show (wordKey (a :: u)).deg - 1 = u.length by rw [wordKey_deg]; simp,
    tensorPowers_get (by omega)]
  simp only [Option.bind_eq_bind, Option.bind_some]
  rw [if_neg hpos, (wordKey_cons a u).1]

theorem rparent_wordKey {a : Fin w} {u : List (Fin w)} (h : u.length + 1 ≤ depth) :
    rparent w depth (wordKey (a :: u)) = some (wordKey u) := by
  have hpos : w ^ u.length ≠ 0 := by have := wordOffset_lt u; omega
  unfold rparent
  rw [if_neg (by rw [wordKey_deg]; simp),
    show (wordKey (a :: u)).deg - 1 = u.length by rw [wordKey_deg]; simp,
    tensorPowers_get (by omega)]
  simp only [Option.bind_eq_bind, Option.bind_some]
  rw [if_neg hpos]
  have := (wordKey_cons a u).2
  rw [show (wordKey (a :: u)).deg - 1 = u.length by rw [wordKey_deg]; simp] at this
  rw [this]

theorem concatKeys_wordKey (u : List (Fin w)) {v : List (Fin w)} (h : v.length ≤ depth) :
    concatKeys w depth (wordKey u) (wordKey v) = some (wordKey (u ++ v)) := by
  unfold concatKeys
  rw [wordKey_deg, wordKey_deg, tensorPowers_get h]
  simp only [Option.bind_eq_bind, Option.bind_some]
  unfold wordKey
  rw [wordOffset_append, List.length_append]

theorem splitAtRight_wordKey (u : List (Fin w)) (a : Fin w) :
    splitAtRight w (wordKey (u ++ [a])) = some (wordKey u, wordKey [a]) := by
  unfold splitAtRight
  rw [wordKey_deg, List.length_append, List.length_singleton, if_neg (by omega)]
  by_cases hu : u = []
  · subst hu
    rw [if_pos (by simp)]
    rfl
  · have : u.length ≠ 0 := fun h => hu (List.length_eq_zero_iff.1 h)
    have hw : 0 < w := a.pos
    rw [if_neg (by omega), if_neg (by omega)]
    have hidx : (wordKey (u ++ [a])).idx = w * wordOffset u + a.val := by
      unfold wordKey
      rw [wordOffset_append, List.length_singleton, pow_one, wordOffset_singleton, mul_comm]
    rw [hidx, Nat.mul_add_div hw, Nat.div_eq_of_lt a.isLt, Nat.mul_add_mod, Nat.mod_eq_of_lt a.isLt]
    simp [wordKey, wordOffset_singleton]

/-! ## Products of keys as tensors -/

theorem zsmul_ser {K : Type} [CommRing K] (n : ℤ) (f : Series (Fin w) K) (z : List (Fin w)) :
    (n • f) z = (n : K) * f z := by
  have := map_zsmul ({ toFun := fun f : Series (Fin w) K => f z, map_zero' := rfl, map_add' := fun _ _ => rfl } :
    Series (Fin w) K →+ K) n f
  exact this.trans (zsmul_eq_mul ..)

theorem value_apply {K : Type} [CommRing K] (p : Product) (z : List (Fin w)) :
    Product.value (tser K w) p z = ((p.coefficient (wordKey z) : ℤ) : K) := by
  unfold Product.value Product.coefficient
  induction p with
  | nil => simp; rfl
  | cons t p ih =>
    rw [List.map_cons, List.sum_cons, List.map_cons, List.sum_cons, Int.cast_add, ← ih,
      Series.add_apply]
    congr 1
    show (t.2 • tser K w t.1 : Series (Fin w) K) z = _
    rw [zsmul_ser]
    unfold tser
    by_cases h : wordKey z = t.1
    · rw [if_pos h, if_pos h.symm, mul_one]
    · rw [if_neg h, if_neg fun h' => h h'.symm, mul_zero, Int.cast_zero]

theorem value_cast {K : Type} [CommRing K] (p : Product) (z : List (Fin w)) :
    Product.value (tser K w) p z = ((Product.value (tser ℤ w) p z : ℤ) : K) := by
  rw [value_apply, value_apply, Int.cast_id]

theorem add_value {lhs rhs : Product} {n : ℕ} (hl : SMap.Sorted lhs) (kl : WordKeys w n lhs)
    (kr : WordKeys w n rhs) :
    SMap.Sorted (lhs.add rhs) ∧ WordKeys w n (lhs.add rhs) ∧
      Product.value (tser ℤ w) (lhs.add rhs) =
        Product.value (tser ℤ w) lhs + Product.value (tser ℤ w) rhs := by
  unfold Product.add
  rw [Product.toMap_of_sorted hl]
  obtain ⟨h1, h2, h3⟩ := Product.foldl_accumulate (tser ℤ w)
    (P := fun k => ∃ u : List (Fin w), u.length = n ∧ wordKey u = k) rhs (fun t => t.2) lhs hl
  exact ⟨h1, h3 kl kr, h2⟩

/-- the result of a product of keys: sorted, of the right length, of the right value -/
structure HalfOK (val : List (Fin w) → List (Fin w) → Series (Fin w) ℤ) (u v : List (Fin w))
    (p : Product) : Prop where
  sorted : SMap.Sorted p
  keys : WordKeys w (u.length + v.length) p
  value : Product.value (tser ℤ w) p = val u v

/-- every entry of the cache is right -/
def CacheOK (val : List (Fin w) → List (Fin w) → Series (Fin w) ℤ) (c : ShuffleCache) : Prop :=
  ∀ u v p, c (wordKey u, wordKey v) = some p → HalfOK val u v p

/-- `op` is right on words of less than `n` letters together -/
def OpSpec (val : List (Fin w) → List (Fin w) → Series (Fin w) ℤ) (depth n : ℕ)
    (op : CachedKeyOp ShuffleCache) : Prop :=
  ∀ c u v, CacheOK val c → u.length + v.length ≤ depth → u.length + v.length < n →
    ∃ p c', op c (wordKey u) (wordKey v) = some (p, c') ∧ CacheOK val c' ∧ HalfOK val u v p

variable {val : List (Fin w) → List (Fin w) → Series (Fin w) ℤ} {n : ℕ}

theorem CacheOK.update {c : ShuffleCache} (h : CacheOK val c) {u v : List (Fin w)} {p : Product}
    (hp : HalfOK val u v p) : CacheOK val (Function.update c (wordKey u, wordKey v) (some p)) := by
  intro u' v' q hq
  by_cases he : (wordKey u', wordKey v') = (wordKey u, wordKey v)
  · rw [he, Function.update_self, Option.some.injEq] at hq
    rw [Prod.mk.injEq] at he
    rw [wordKey_inj he.1, wordKey_inj he.2, ← hq]
    exact hp
  · rw [Function.update_of_ne he] at hq
    exact h u' v' q hq

theorem lookup_spec {impl : CachedKeyOp ShuffleCache} (h : OpSpec val depth n impl) :
    OpSpec val depth n (halfLookup depth impl) := by
  intro c u v hc hd hn
  unfold halfLookup
  rw [if_neg (by rw [wordKey_deg, wordKey_deg]; omega)]
  rcases hx : c (wordKey u, wordKey v) with _ | p
  · dsimp only
    obtain ⟨p, c', h1, h2, h3⟩ := h c u v hc hd hn
    rw [h1]
    exact ⟨p, _, rfl, h2.update h3, h3⟩
  · exact ⟨p, c, rfl, hc, hc u v p hx⟩

theorem halfOK_single {u v z : List (Fin w)} (hz : z.length = u.length + v.length)
    (h : word ℤ z = val u v) : HalfOK val u v [(wordKey z, 1)] where
  sorted := by simp [SMap.Sorted]
  keys := by
    intro t ht
    rw [List.mem_singleton] at ht
    subst ht
    exact ⟨z, hz, rfl⟩
  value := by
    rw [Product.value_cons, Product.value_nil, add_zero, one_smul, tser_wordKey, h]

theorem halfOK_nil {u v : List (Fin w)} (h : val u v = 0) : HalfOK val u v [] where
  sorted := SMap.sorted_nil
  keys := by intro t ht; cases ht
  value := by rw [Product.value_nil, h]

theorem word_nil_one {α K : Type} [CommRing K] [DecidableEq α] :
    word K ([] : List α) = (1 : Series α K) := by
  funext z
  cases z with
  | nil => rw [one_nil]; rfl
  | cons a z => rw [one_cons]; exact if_neg (by simp)

theorem length_pos_of_ne {u : List (Fin w)} (h : u ≠ []) : (wordKey u).deg ≠ 0 := by
  rw [wordKey_deg]
  exact fun h' => h (List.length_eq_zero_iff.1 h')

/-- the shuffle of two words -/
def shuffleVal (u v : List (Fin w)) : Series (Fin w) ℤ := shuffle (word ℤ u) (word ℤ v)

theorem shuffleKeys_spec
    (hval : ∀ u v, u ≠ [] → v ≠ [] → val u v + val v u = shuffleVal u v)
    {op : CachedKeyOp ShuffleCache} (h : OpSpec val depth n op) {c : ShuffleCache} (hc : CacheOK val c)
    {u v : List (Fin w)} (hd : u.length + v.length ≤ depth) (hn : u.length + v.length < n) :
    ∃ p c', shuffleKeys op c (wordKey u) (wordKey v) = some (p, c') ∧ CacheOK val c' ∧
      HalfOK shuffleVal u v p := by
  unfold shuffleKeys
  by_cases hu : u = []
  · subst hu
    rw [if_pos (wordKey_nil_deg)]
    refine ⟨_, _, rfl, hc, halfOK_single (by simp) ?_⟩
    unfold shuffleVal
    rw [word_nil_one, shuffle_comm, shuffle_one]
  rw [if_neg (length_pos_of_ne hu)]
  by_cases hv : v = []
  · subst hv
    rw [if_pos (wordKey_nil_deg)]
    refine ⟨_, _, rfl, hc, halfOK_single (by simp) ?_⟩
    unfold shuffleVal
    rw [word_nil_one, shuffle_one]
  rw [if_neg (length_pos_of_ne hv)]
  obtain ⟨p, c1, p1, p2, p3⟩ := h c u v hc hd hn
  obtain ⟨q, c2, q1, q2, q3⟩ := h c1 v u p2 (by omega) (by omega)
  rw [p1]
  simp only [Option.bind_eq_bind, Option.bind_some]
  rw [q1]
  obtain ⟨r1, r2, r3⟩ := add_value p3.sorted p3.keys (Nat.add_comm v.length u.length ▸ q3.keys)
  exact ⟨_, _, rfl, q2, r1, r2, by rw [r3, p3.value, q3.value, hval u v hu hv]⟩

theorem concat_left_loop {part : Product} (x : List (Fin w)) {n : ℕ} (hk : WordKeys w n part)
    (hn : n ≤ depth) :
    ∃ p, (loop part ([] : SMap Key ℤ) fun m item => do
        let k ← concatKeys w depth (wordKey x) item.1
        some (Product.accumulate m k item.2)) = some p ∧
      SMap.Sorted p ∧ WordKeys w (x.length + n) p ∧
      Product.value (tser ℤ w) p = word ℤ x * Product.value (tser ℤ w) part := by
  obtain ⟨p, h1, ⟨h2, h3⟩, h4⟩ := loop_add
    (fun s : Product => SMap.Sorted s ∧ WordKeys w (x.length + n) s)
    (Product.value (tser ℤ w)) part
    (fun m item => (do
        let k ← concatKeys w depth (wordKey x) item.1
        some (Product.accumulate m k item.2)))
    (fun item => word ℤ x * (item.2 • tser ℤ w item.1))
    (fun item hi s hs => by
      obtain ⟨z, hz, hzi⟩ := hk item hi
      rw [← hzi, concatKeys_wordKey x (by omega)]
      refine ⟨_, rfl, ⟨Product.accumulate_sorted hs.1 _ _,
        Product.keys_accumulate (P := fun k => ∃ u : List (Fin w), u.length = x.length + n ∧ wordKey u = k)
          hs.2 ⟨x ++ z, by rw [List.length_append, hz], rfl⟩ _⟩, ?_⟩
      rw [Product.value_accumulate _ hs.1, tser_wordKey, tser_wordKey, ← word_mul, mul_smul_comm])
    [] ⟨SMap.sorted_nil, by intro t ht; cases ht⟩
  refine ⟨p, h1, h2, h3, ?_⟩
  rw [h4, Product.value_nil, zero_add]
  unfold Product.value
  clear h1 h2 h3 h4 hk
  induction part with
  | nil => simp
  | cons t part ih => rw [List.map_cons, List.sum_cons, ih, List.map_cons, List.sum_cons, mul_add]

theorem concat_right_loop {part : Product} (x : List (Fin w)) {n : ℕ} (hk : WordKeys w n part)
    (hn : x.length ≤ depth) :
    ∃ p, (loop part ([] : SMap Key ℤ) fun m item => do
        let k ← concatKeys w depth item.1 (wordKey x)
        some (Product.accumulate m k item.2)) = some p ∧
      SMap.Sorted p ∧ WordKeys w (n + x.length) p ∧
      Product.value (tser ℤ w) p = Product.value (tser ℤ w) part * word ℤ x := by
  obtain ⟨p, h1, ⟨h2, h3⟩, h4⟩ := loop_add
    (fun s : Product => SMap.Sorted s ∧ WordKeys w (n + x.length) s)
    (Product.value (tser ℤ w)) part
    (fun m item => (do
        let k ← concatKeys w depth item.1 (wordKey x)
        some (Product.accumulate m k item.2)))
    (fun item => (item.2 • tser ℤ w item.1) * word ℤ x)
    (fun item hi s hs => by
      obtain ⟨z, hz, hzi⟩ := hk item hi
      rw [← hzi, concatKeys_wordKey z hn]
      refine ⟨_, rfl, ⟨Product.accumulate_sorted hs.1 _ _,
        Product.keys_accumulate (P := fun k => ∃ u : List (Fin w), u.length = n + x.length ∧ wordKey u = k)
          hs.2 ⟨z ++ x, by rw [List.length_append, hz], rfl⟩ _⟩, ?_⟩
      rw [Product.value_accumulate _ hs.1, tser_wordKey, tser_wordKey, ← word_mul, smul_mul_assoc])
    [] ⟨SMap.sorted_nil, by intro t ht; cases ht⟩
  refine ⟨p, h1, h2, h3, ?_⟩
  rw [h4, Product.value_nil, zero_add]
  unfold Product.value
  clear h1 h2 h3 h4 hk
  induction part with
  | nil => simp
  | cons t part ih => rw [List.map_cons, List.sum_cons, ih, List.map_cons, List.sum_cons, add_mul]

/-! ## The left half shuffle -/

/-- the left half shuffle of two words -/
def leftVal (u v : List (Fin w)) : Series (Fin w) ℤ := Series.leftHalf (word ℤ u) (word ℤ v)

theorem leftVal_add {u v : List (Fin w)} (hu : u ≠ []) :
    leftVal u v + leftVal v u = shuffleVal u v := by
  unfold leftVal shuffleVal
  exact leftHalf_add_swap_of (by rw [word_nil_apply hu, zero_mul])

theorem leftImpl_spec {op : CachedKeyOp ShuffleCache} (h : OpSpec (w := w) leftVal depth n op) :
    OpSpec (w := w) leftVal depth (n + 1) (leftHalfImpl w depth op) := by
  intro c u v hc hd hn
  unfold leftHalfImpl
  rw [if_pos (by rw [wordKey_deg, wordKey_deg]; exact hd)]
  cases u with
  | nil =>
    rw [if_pos (wordKey_nil_deg)]
    exact ⟨_, _, rfl, hc, halfOK_nil (leftHalf_word_nil _)⟩
  | cons a u =>
    rw [if_neg (length_pos_of_ne (by simp))]
    have hval : leftVal (a :: u) v = letter ℤ a * shuffleVal u v := leftHalf_word_cons a u _
    have hlet : letter ℤ a = word ℤ [a] := rfl
    by_cases hv : v = []
    · subst hv
      rw [if_pos (wordKey_nil_deg)]
      refine ⟨_, _, rfl, hc, halfOK_single (by simp) ?_⟩
      rw [hval]
      unfold shuffleVal
      rw [word_nil_one, shuffle_one, hlet, word_mul]
      rfl
    · rw [if_neg (length_pos_of_ne hv)]
      rw [List.length_cons] at hd hn
      rw [lparent_wordKey (by omega), rparent_wordKey (by omega)]
      simp only [Option.bind_eq_bind, Option.bind_some]
      obtain ⟨part, c', p1, p2, p3⟩ := shuffleKeys_spec (val := leftVal) (fun _ _ h _ => leftVal_add h) h hc
        (u := u) (v := v) (by omega) (by omega)
      rw [p1]
      simp only [Option.bind_some]
      obtain ⟨p, q1, q2, q3, q4⟩ := concat_left_loop (depth := depth) [a] p3.keys (by omega)
      simp only [Option.bind_eq_bind] at q1
      rw [q1]
      refine ⟨_, _, rfl, p2, q2, ?_, ?_⟩
      · rw [List.length_singleton] at q3
        rw [List.length_cons, show u.length + 1 + v.length = 1 + (u.length + v.length) by omega]
        exact q3
      · rw [q4, p3.value, hval, hlet]

theorem leftHalf_spec (w depth : ℕ) : ∀ fuel, OpSpec (w := w) leftVal depth fuel (leftHalf w depth fuel)
  | 0 => fun _ _ _ _ _ h => absurd h (Nat.not_lt_zero _)
  | fuel + 1 => lookup_spec (leftImpl_spec (leftHalf_spec w depth fuel))

/-! ## The right half shuffle -/

/-- what the code computes as the right half shuffle of two words -/
def rightVal (u v : List (Fin w)) : Series (Fin w) ℤ :=
  if u = [] then 0 else if v = [] then word ℤ u else Series.rightHalf (word ℤ u) (word ℤ v)

theorem rightVal_add {u v : List (Fin w)} (hu : u ≠ []) (hv : v ≠ []) :
    rightVal u v + rightVal v u = shuffleVal u v := by
  unfold rightVal shuffleVal
  rw [if_neg hu, if_neg hv, if_neg hv, if_neg hu]
  exact rightHalf_add_swap_of (by rw [word_nil_apply hu, zero_mul])

theorem rightImpl_spec {op : CachedKeyOp ShuffleCache} (h : OpSpec (w := w) rightVal depth n op) :
    OpSpec (w := w) rightVal depth (n + 1) (rightHalfImpl w depth op) := by
  intro c u v hc hd hn
  unfold rightHalfImpl
  rw [if_pos (by rw [wordKey_deg, wordKey_deg]; exact hd)]
  by_cases hu : u = []
  · subst hu
    rw [if_pos (wordKey_nil_deg)]
    exact ⟨_, _, rfl, hc, halfOK_nil (if_pos rfl)⟩
  rw [if_neg (length_pos_of_ne hu)]
  rcases List.eq_nil_or_concat' v with rfl | ⟨v, b, rfl⟩
  · rw [if_pos (wordKey_nil_deg)]
    refine ⟨_, _, rfl, hc, halfOK_single (by simp) ?_⟩
    unfold rightVal
    rw [if_neg hu, if_pos rfl]
  · rw [if_neg (length_pos_of_ne (by simp)), splitAtRight_wordKey]
    rw [List.length_append, List.length_singleton] at hd hn
    simp only [Option.bind_eq_bind, Option.bind_some]
    obtain ⟨part, c', p1, p2, p3⟩ := shuffleKeys_spec (val := rightVal) (fun _ _ h h' => rightVal_add h h') h hc
      (u := u) (v := v) (by omega) (by omega)
    rw [p1]
    simp only [Option.bind_some]
    obtain ⟨p, q1, q2, q3, q4⟩ := concat_right_loop (depth := depth) [b] p3.keys
      (by rw [List.length_singleton]; omega)
    simp only [Option.bind_eq_bind] at q1
    rw [q1]
    refine ⟨_, _, rfl, p2, q2, ?_, ?_⟩
    · rw [List.length_append, ← Nat.add_assoc]
      exact q3
    · have hval : rightVal u (v ++ [b]) = shuffleVal u v * letter ℤ b := by
        unfold rightVal
        rw [if_neg hu, if_neg (by simp)]
        exact rightHalf_word_concat b v _
      rw [q4, p3.value, hval]
      rfl

theorem rightHalf_spec (w depth : ℕ) :
    ∀ fuel, OpSpec (w := w) rightVal depth fuel (rightHalf w depth fuel)
  | 0 => fun _ _ _ _ _ h => absurd h (Nat.not_lt_zero _)
  | fuel + 1 => lookup_spec (rightImpl_spec (rightHalf_spec w depth fuel))

theorem shuffleProd_spec {fuel : ℕ} {c : ShuffleCache} (hc : CacheOK (w := w) leftVal c) {u v : List (Fin w)}
    (hd : u.length + v.length ≤ depth) (hn : u.length + v.length < fuel) :
    ∃ p c', shuffleProd w depth fuel c (wordKey u) (wordKey v) = some (p, c') ∧
      CacheOK (w := w) leftVal c' ∧
      HalfOK shuffleVal u v p := by
  unfold shuffleProd
  rw [if_neg (by rw [wordKey_deg, wordKey_deg]; omega)]
  exact shuffleKeys_spec (val := leftVal) (fun _ _ h _ => leftVal_add h) (leftHalf_spec w depth fuel) hc hd hn

/-! ## Histories -/

theorem ShuffleHistory.ok {op : ℕ → ℕ → CachedKeyOp ShuffleCache}
    (hop : ∀ depth fuel c (u v : List (Fin w)), depth < fuel → CacheOK val c → ∀ p c',
      op depth fuel c (wordKey u) (wordKey v) = some (p, c') → CacheOK val c')
    {c : ShuffleCache} (h : ShuffleHistory w op c) : CacheOK val c := by
  induction h with
  | fresh => intro u v p hp; cases hp
  | lookup u v hf _ he ih => exact hop _ _ _ u v hf ih _ _ he

theorem OpSpec.cache {op : CachedKeyOp ShuffleCache} {fuel : ℕ} (h : OpSpec val depth fuel op)
    (hf : depth < fuel) {c c' : ShuffleCache} {p : Product} {u v : List (Fin w)} (hc : CacheOK val c)
    (hbig : depth < u.length + v.length → op c (wordKey u) (wordKey v) = some ([], c))
    (he : op c (wordKey u) (wordKey v) = some (p, c')) : CacheOK val c' := by
  by_cases hd : u.length + v.length ≤ depth
  · obtain ⟨p', c'', h1, h2, -⟩ := h c u v hc hd (by omega)
    rw [h1, Option.some.injEq, Prod.mk.injEq] at he
    exact he.2 ▸ h2
  · rw [hbig (by omega), Option.some.injEq, Prod.mk.injEq] at he
    exact he.2 ▸ hc

theorem leftHalf_big {fuel : ℕ} (hf : 0 < fuel) {u v : List (Fin w)} (h : depth < u.length + v.length)
    (c : ShuffleCache) : leftHalf w depth fuel c (wordKey u) (wordKey v) = some ([], c) := by
  obtain ⟨fuel, rfl⟩ := Nat.exists_eq_succ_of_ne_zero (by omega : fuel ≠ 0)
  show halfLookup depth _ c (wordKey u) (wordKey v) = _
  unfold halfLookup
  rw [if_pos (by rw [wordKey_deg, wordKey_deg]; omega)]

theorem rightHalf_big {fuel : ℕ} (hf : 0 < fuel) {u v : List (Fin w)} (h : depth < u.length + v.length)
    (c : ShuffleCache) : rightHalf w depth fuel c (wordKey u) (wordKey v) = some ([], c) := by
  obtain ⟨fuel, rfl⟩ := Nat.exists_eq_succ_of_ne_zero (by omega : fuel ≠ 0)
  show halfLookup depth _ c (wordKey u) (wordKey v) = _
  unfold halfLookup
  rw [if_pos (by rw [wordKey_deg, wordKey_deg]; omega)]

theorem left_history {c : ShuffleCache} (h : ShuffleHistory w (leftHalf w) c) :
    CacheOK (w := w) leftVal c :=
  h.ok fun depth fuel _ _ _ hf hc _ _ he => (leftHalf_spec w depth fuel).cache hf hc
    (fun hb => leftHalf_big (by omega) hb _) he

theorem right_history {c : ShuffleCache} (h : ShuffleHistory w (rightHalf w) c) :
    CacheOK (w := w) rightVal c :=
  h.ok fun depth fuel _ _ _ hf hc _ _ he => (rightHalf_spec w depth fuel).cache hf hc
    (fun hb => rightHalf_big (by omega) hb _) he

theorem shuffle_history {c : ShuffleCache} (h : ShuffleHistory w (shuffleProd w) c) :
    CacheOK (w := w) leftVal c :=
  h.ok fun depth fuel c u v hf hc p c' he => by
    by_cases hd : u.length + v.length ≤ depth
    · obtain ⟨p', c'', h1, h2, -⟩ := shuffleProd_spec (fuel := fuel) hc hd (by omega)
      rw [h1, Option.some.injEq, Prod.mk.injEq] at he
      exact he.2 ▸ h2
    · unfold shuffleProd at he
      rw [if_pos (by rw [wordKey_deg, wordKey_deg]; omega), Option.some.injEq, Prod.mk.injEq] at he
      exact he.2 ▸ hc

end RoughPy.Lite
