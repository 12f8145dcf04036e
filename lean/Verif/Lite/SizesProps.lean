import Verif.Lite.SizesModel
import Verif.Lite.LieBasis
import Verif.Lie.Dimension
import Mathlib.Data.Fintype.Sigma

set_option linter.unusedSectionVars false

/-!
# C50: the sizes of a context are the dimensions of the algebras

`lieSpace K w d` (`Verif/Lie/Dimension.lean`) is the free Lie algebra on `w` letters up to degree
`d`, as a space of tensors.  The tensor algebra up to degree `d` has the words of length at most `d`
as a basis.
-/

namespace RoughPy.Lite

open RoughPy.Tensor (loop degreesUp loop_nil loop_cons wordsBelow mem_degreesUp)
open RoughPy.Lie (lieSpace finrank_lieSpace hallTable hallTable_isHall mobiusFunc mobiusFunc_eq sum_degreesUp)
open ArithmeticFunction (moebius)

/-! ## Words -/

/-- The number of words of length at most `d` in `w` letters: the dimension of the tensor algebra up
to degree `d`. -/
noncomputable def wordCount (w d : ℕ) : ℕ := Nat.card {u : List (Fin w) // u.length ≤ d}

theorem wordCount_eq (w d : ℕ) : wordCount w d = wordsBelow w (d + 1) := by
  let e : {u : List (Fin w) // u.length ≤ d} ≃ Σ i : Fin (d + 1), List.Vector (Fin w) i :=
    { toFun := fun u => ⟨⟨u.1.length, by have := u.2; omega⟩, ⟨u.1, rfl⟩⟩
      invFun := fun v => ⟨v.2.1, by rw [v.2.2]; have := v.1.2; omega⟩
      left_inv := fun u => rfl
      right_inv := fun v => by
        obtain ⟨⟨i, hi⟩, ⟨u, hu⟩⟩ := v
        have key : ∀ i (hi : i < d + 1) (hu : u.length = i), (⟨⟨u.length, by omega⟩, ⟨u, rfl⟩⟩ :
            Σ i : Fin (d + 1), List.Vector (Fin w) i) = ⟨⟨i, hi⟩, ⟨u, hu⟩⟩ := by
          intro i hi hu
          subst hu
          rfl
        exact key i hi hu }
  unfold wordCount
  rw [Nat.card_congr e, Nat.card_eq_fintype_card, Fintype.card_sigma]
  simp only [card_vector, Fintype.card_fin]
  rw [Fin.sum_univ_eq_sum_range (fun i => w ^ i)]
  rfl

/-! ## Sizes of a `LiteContext` -/

theorem hallBasis_sizes {K : Type*} [Field K] (w depth : ℕ) : ∃ c, LiteCtx.new w depth = some c ∧
    c.width = w ∧ c.depth = depth ∧ ∀ d ≤ depth,
      c.lieBasis.sizes[d]? = some (Module.finrank K (lieSpace K w d)) := by
  cases depth with
  | zero =>
    refine ⟨⟨w, 0, HallSet.letters w, (HallSet.letters w).basis 0 0⟩, rfl, rfl, rfl, fun d hd => ?_⟩
    have : d = 0 := by omega
    subst this
    have h := finrank_lieSpace (K := K) (hallTable_isHall w 0) (d := 0) (by omega)
    rw [(hallTable_isHall w 0).start_one] at h
    rw [show (hallTable w 0).width = w from rfl] at h
    rw [h]
    rfl
  | succ m =>
    obtain ⟨hs, h1, hr, h2⟩ := hallBasis_eq w m
    refine ⟨⟨w, m + 1, hs, hs.basis (m + 1) ((hallTable w m).start (m + 2) - 1)⟩, ?_, rfl, rfl,
      fun d hd => ?_⟩
    · unfold LiteCtx.new
      rw [h2]
      rfl
    · show hs.sizes[d]? = _
      rw [hr.size_get (d := d) hd]
      have := finrank_lieSpace (K := K) (hallTable_isHall w m) (d := d) hd
      rw [show (hallTable w m).width = w from rfl] at this
      rw [this]

theorem readAt_map {l : List ℕ} {i n : ℕ} (h : l[i]? = some n) : readAt (l.map some) i = some n := by
  unfold readAt
  rw [List.getElem?_map, h]
  rfl

/-- What `lie_size` and `tensor_size` of a Python context return, given the sizes that they
read. -/
theorem pySize_eq {c : ContextSizes} {size : ℤ → Option ℕ} {dim : ℕ → ℕ}
    (h : ∀ d : ℕ, d ≤ c.depth → size d = some (dim d)) :
    (∀ d : ℕ, d ≤ c.depth → c.pySize size (some d) = some (.value (dim d))) ∧
    c.pySize size none = some (.value (dim c.depth)) ∧
    (∀ d : ℤ, d < 0 → c.pySize size (some d) = some (.value (dim c.depth))) ∧
    ∀ d : ℤ, c.depth < d → c.pySize size (some d) = some .valueError := by
  refine ⟨fun d hd => ?_, ?_, fun d hd => ?_, fun d hd => ?_⟩ <;>
    simp only [ContextSizes.pySize, Option.getD_some, Option.getD_none]
  · rw [if_neg (by omega), if_neg (by omega), h d hd]; rfl
  · rw [if_neg (by omega), if_neg (by omega), h _ le_rfl]; rfl
  · rw [if_pos hd, h _ le_rfl]; rfl
  · rw [if_neg (by omega), if_pos hd]

theorem clip_eq (c : ContextSizes) {d : ℕ} (hd : d ≤ c.depth) : c.clip d = d := by
  unfold ContextSizes.clip
  rw [if_neg (by omega), Int.toNat_natCast]

/-- For every width and depth: `lie_size(d)` and `tensor_size(d)` of a context are the dimensions of
the free Lie algebra and of the tensor algebra up to degree `d`, over every field; a missing or a
negative degree means the depth; degrees above the depth are rejected. -/
theorem C50_sizes (K : Type*) [Field K] (w depth fuel : ℕ) :
    ∃ c s, LiteCtx.new w depth = some c ∧ c.sizes fuel = some s ∧
      ((∀ d : ℕ, d ≤ depth → s.pyLieSize (some d) =
          some (.value (Module.finrank K (lieSpace K w d)))) ∧
        s.pyLieSize none = some (.value (Module.finrank K (lieSpace K w depth))) ∧
        (∀ d : ℤ, d < 0 → s.pyLieSize (some d) =
          some (.value (Module.finrank K (lieSpace K w depth)))) ∧
        ∀ d : ℤ, depth < d → s.pyLieSize (some d) = some .valueError) ∧
      (∀ d : ℕ, d ≤ depth → s.pyTensorSize (some d) = some (.value (wordCount w d))) ∧
      s.pyTensorSize none = some (.value (wordCount w depth)) ∧
      (∀ d : ℤ, d < 0 → s.pyTensorSize (some d) = some (.value (wordCount w depth))) ∧
      ∀ d : ℤ, depth < d → s.pyTensorSize (some d) = some .valueError := by
  obtain ⟨c, h1, rfl, rfl, h2⟩ := hallBasis_sizes (K := K) w depth
  refine ⟨c, ⟨c.width, c.depth, c.lieBasis.sizes.map some, c.tensorBasis.sizes.map some⟩, h1, rfl,
    pySize_eq (c := ⟨c.width, c.depth, _, _⟩) (dim := fun d => Module.finrank K (lieSpace K c.width d))
      fun d hd => ?_,
    pySize_eq (c := ⟨c.width, c.depth, _, _⟩) (dim := wordCount c.width) fun d hd => ?_⟩
  · unfold ContextSizes.lieSize
    rw [clip_eq _ hd]
    exact readAt_map (h2 d hd)
  · unfold ContextSizes.tensorSize
    rw [clip_eq _ hd]
    refine readAt_map ?_
    rw [wordCount_eq]
    exact tensorSizes_get (by have : d ≤ c.depth := hd; omega)

/-- The functions of the C++ interface: every degree outside `0, …, depth` counts as the depth. -/
theorem C50_cpp_sizes (K : Type*) [Field K] (w depth fuel : ℕ) :
    ∃ c s, LiteCtx.new w depth = some c ∧ c.sizes fuel = some s ∧ ∀ (deg : ℤ) (d : ℕ),
      (0 ≤ deg ∧ deg ≤ depth ∧ deg = d ∨ (deg < 0 ∨ depth < deg) ∧ d = depth) →
        s.lieSize deg = some (Module.finrank K (lieSpace K w d)) ∧
        s.tensorSize deg = some (wordCount w d) := by
  obtain ⟨c, h1, rfl, rfl, h2⟩ := hallBasis_sizes (K := K) w depth
  refine ⟨c, ⟨c.width, c.depth, c.lieBasis.sizes.map some, c.tensorBasis.sizes.map some⟩, h1, rfl, ?_⟩
  intro deg d h
  have hd : d ≤ c.depth := by omega
  have hc : ∀ x y, (ContextSizes.mk c.width c.depth x y).clip deg = d := by
    intro x y
    unfold ContextSizes.clip
    rcases h with ⟨g1, g2, g3⟩ | ⟨g1, g2⟩
    · rw [if_neg (by dsimp only; omega)]
      omega
    · rw [if_pos (by dsimp only; omega), g2]
  unfold ContextSizes.lieSize ContextSizes.tensorSize
  rw [hc]
  refine ⟨readAt_map (h2 d hd), readAt_map ?_⟩
  rw [wordCount_eq]
  exact tensorSizes_get (by omega)

/-- The sizes of the context of width 3 and depth 3. -/
example : ((LiteCtx.new 3 3).bind fun c => (c.sizes 0).map fun s =>
    (s.pyLieSize none, s.pyLieSize (some 2), s.pyTensorSize (some (-1)), s.pyTensorSize (some 4))) =
    some (some (.value 14), some (.value 6), some (.value 40), some .valueError) := by
  decide +kernel

/-! ## `HallSetSizeHelper` -/

theorem toDimn_cast (x : ℤ) : (toDimn x : ℤ) = x % 2 ^ 64 := by
  unfold toDimn
  rw [Int.toNat_of_nonneg (Int.emod_nonneg _ (by norm_num))]

theorem toDimn_congr {x y : ℤ} (h : x ≡ y [ZMOD 2 ^ 64]) : toDimn x = toDimn y := by
  unfold toDimn
  rw [h]

theorem toDimn_modEq (x : ℤ) : (toDimn x : ℤ) ≡ x [ZMOD 2 ^ 64] := by
  rw [toDimn_cast]
  exact Int.mod_modEq _ _

theorem toDimn_eq {n : ℕ} (h : n < 2 ^ 64) : toDimn n = n := by
  have := toDimn_cast n
  rw [Int.emod_eq_of_lt (by omega) (by exact_mod_cast h)] at this
  exact_mod_cast this

theorem hallPower_eq (w : ℕ) : ∀ fuel exp, 1 ≤ exp → exp < fuel →
    ∃ p, hallPower w fuel exp = some p ∧ (p : ℤ) ≡ (w : ℤ) ^ exp [ZMOD 2 ^ 64] := by
  intro fuel
  induction fuel with
  | zero => intro exp _ h; omega
  | succ fuel ih =>
    intro exp h1 h2
    rw [hallPower]
    by_cases he : exp = 1
    · rw [if_pos he]
      exact ⟨w, rfl, by rw [he, pow_one]⟩
    · rw [if_neg he]
      obtain ⟨p, hp, hm⟩ := ih (exp / 2) (by omega) (by omega)
      rw [hp]
      refine ⟨_, rfl, (toDimn_modEq _).trans ?_⟩
      have hsq := (hm.mul hm)
      rw [mul_assoc]
      by_cases ho : exp % 2 = 1
      · rw [if_pos ho]
        have : (w : ℤ) ^ exp = w * ((w : ℤ) ^ (exp / 2) * (w : ℤ) ^ (exp / 2)) := by
          rw [← pow_add, ← pow_succ']
          congr 1
          omega
        rw [this]
        exact (Int.ModEq.refl _).mul hsq
      · rw [if_neg ho]
        have : (w : ℤ) ^ exp = (w : ℤ) ^ (exp / 2) * (w : ℤ) ^ (exp / 2) := by
          rw [← pow_add]
          congr 1
          omega
        rw [this]
        simpa using hsq

theorem mobiusValues_eq {n : ℕ} (h0 : 0 < n) (h : n ≤ 50) : mobiusValues[n]? = some (moebius n) := by
  have key : ∀ n, n < 51 → 0 < n → mobiusValues[n]? = mobiusFunc n := by decide +kernel
  rw [key n (by omega) h0, mobiusFunc_eq h0]

theorem wrap_loop {l : List ℕ} {F : ℕ → ℤ} {body : ℕ → ℕ → Option ℕ}
    (h : ∀ s : ℤ, ∀ i ∈ l, body (toDimn s) i = some (toDimn (s + F i))) :
    ∀ s : ℤ, loop l (toDimn s) body = some (toDimn (s + (l.map F).sum)) := by
  induction l with
  | nil => intro s; rw [loop_nil, List.map_nil, List.sum_nil, add_zero]
  | cons i l ih =>
    intro s
    rw [loop_cons, h s i List.mem_cons_self, Option.bind_some,
      ih (fun s i hi => h s i (List.mem_cons_of_mem _ hi)), List.map_cons, List.sum_cons, add_assoc]

theorem hallSize_sum (w : ℕ) {k : ℕ} (hk : 0 < k) (hk' : k ≤ 50) :
    hallSize mobiusValues w k =
      some (toDimn (∑ x ∈ k.divisorsAntidiagonal, moebius x.1 * (w : ℤ) ^ x.2) / k) := by
  unfold hallSize
  have hl := wrap_loop (l := degreesUp 1 k)
    (F := fun i => if k % i = 0 then moebius (k / i) * (w : ℤ) ^ i else 0)
    (body := fun (result : ℕ) i =>
      if k % i = 0 then do
        let x ← mobiusValues[k / i]?
        let p ← hallPower w (k + 1) (k / (k / i))
        some (toDimn (result + toDimn (x * p)))
      else some result) (by
      intro s i hi
      rw [mem_degreesUp] at hi
      by_cases hm : k % i = 0
      · obtain ⟨j, rfl⟩ := Nat.dvd_of_mod_eq_zero hm
        have hj : 0 < j := Nat.pos_of_mul_pos_left hk
        have h1 : i * j / i = j := Nat.mul_div_cancel_left j (by omega)
        have h2 : i * j / j = i := Nat.mul_div_cancel i hj
        have h3 : j ≤ i * j := Nat.le_mul_of_pos_left j (by omega)
        rw [if_pos hm, if_pos hm, h1, h2, mobiusValues_eq hj (by omega)]
        obtain ⟨p, hp, hpm⟩ := hallPower_eq w (i * j + 1) i hi.1 (by omega)
        rw [hp]
        simp only [Option.bind_eq_bind, Option.bind_some, Option.some.injEq]
        apply toDimn_congr
        exact (toDimn_modEq s).add ((toDimn_modEq _).trans ((Int.ModEq.refl _).mul hpm))
      · rw [if_neg hm, if_neg hm, add_zero]) 0
  rw [show toDimn 0 = 0 from rfl] at hl
  rw [hl]
  simp only [Option.bind_eq_bind, Option.bind_some]
  rw [if_neg (by omega), zero_add, sum_degreesUp, ← Finset.sum_filter]
  have hset : (Finset.Icc 1 k).filter (fun d => k % d = 0) = k.divisors := by
    ext d
    rw [Finset.mem_filter, Finset.mem_Icc, Nat.mem_divisors]
    constructor
    · rintro ⟨_, h⟩
      exact ⟨Nat.dvd_of_mod_eq_zero h, by omega⟩
    · rintro ⟨h, _⟩
      exact ⟨⟨Nat.pos_of_dvd_of_pos h hk, Nat.le_of_dvd hk h⟩, Nat.mod_eq_zero_of_dvd h⟩
  rw [hset, Nat.sum_divisorsAntidiagonal' (fun d e => moebius d * (w : ℤ) ^ e)]

/-- The dimension of the part of degree `k` of the free Lie algebra on `w` letters. -/
noncomputable def lieDimension (K : Type*) [Field K] (w k : ℕ) : ℕ :=
  Module.finrank K (lieSpace K w k) - Module.finrank K (lieSpace K w (k - 1))

theorem lieDimension_table (K : Type*) [Field K] {w m k : ℕ} (hk : 0 < k) (hm : k ≤ m + 1) :
    lieDimension K w k = (hallTable w m).start (k + 1) - (hallTable w m).start k ∧
    Module.finrank K (lieSpace K w k) = Module.finrank K (lieSpace K w (k - 1)) + lieDimension K w k := by
  have hb := hallTable_isHall w m
  have h1 := finrank_lieSpace (K := K) hb (d := k) hm
  have h2 := finrank_lieSpace (K := K) hb (d := k - 1) (le_trans (Nat.sub_le _ _) hm)
  rw [Nat.sub_add_cancel hk] at h2
  rw [show (hallTable w m).width = w from rfl] at h1 h2
  have h3 := hb.start_mono (c := 1) (d := k) (by omega) (show k ≤ m + 2 by omega)
  have h4 := hb.start_mono (c := k) (d := k + 1) (by omega) (show k + 1 ≤ m + 2 by omega)
  rw [hb.start_one] at h3
  unfold lieDimension
  rw [h1, h2]
  omega

theorem witt_sum (K : Type*) [Field K] (w : ℕ) {k : ℕ} (hk : 0 < k) :
    ∑ x ∈ k.divisorsAntidiagonal, moebius x.1 * (w : ℤ) ^ x.2 = k * lieDimension K w k := by
  have hb := hallTable_isHall w k
  have h := (ArithmeticFunction.sum_eq_iff_sum_mul_moebius_eq_on (R := ℤ)
    (f := fun d => (d : ℤ) * ((hallTable w k).start (d + 1) - (hallTable w k).start d : ℕ))
    (g := fun n => (w : ℤ) ^ n)
    {n | 0 < n ∧ n ≤ k + 1} (by
      rintro m n hmn ⟨h1, h2⟩
      exact ⟨Nat.pos_of_dvd_of_pos hmn h1, le_trans (Nat.le_of_dvd h1 hmn) h2⟩)).1
    (fun n hn hm => hb.witt hn hm.2) k hk ⟨hk, by omega⟩
  simp only [Int.cast_id] at h
  rw [h, (lieDimension_table K (m := k) hk (by omega)).1]

/-- For contexts of depth at most 50, `HallSetSizeHelper` computes the dimension of the part of
degree `k` of the free Lie algebra, as long as `k` times this number fits into 64 bits. -/
theorem C50_helper (K : Type*) [Field K] {w depth k fuel : ℕ} (hd : depth ≤ 50) (h0 : 0 < k)
    (hk : k ≤ depth) (hfit : k * lieDimension K w k < 2 ^ 64) :
    (mobiusInit depth fuel).bind (fun mobius => hallSize mobius w k) = some (lieDimension K w k) := by
  unfold mobiusInit
  rw [if_neg (by have : mobiusValues.length = 51 := rfl; omega), Option.bind_some,
    hallSize_sum w h0 (by omega), witt_sum K w h0, ← Nat.cast_mul, toDimn_eq hfit,
    Nat.mul_div_cancel_left _ h0]

/-- The helper for the degrees 2 and 6 of width 2, and the width 3. -/
example : hallSize mobiusValues 2 2 = some 1 ∧ hallSize mobiusValues 2 6 = some 9 ∧
    hallSize mobiusValues 3 4 = some 18 := by decide +kernel

/-! ## Contexts without tables -/

theorem writeAt_some {S : Type} {l : List S} {i : ℕ} (h : i < l.length) (x : S) :
    writeAt l i x = some (l.set i x) := if_pos h

theorem readAt_set {l : List (Option ℕ)} {i : ℕ} (h : i < l.length) (x : ℕ) :
    readAt (l.set i (some x)) i = some x := by
  unfold readAt
  rw [List.getElem?_set_self (by simpa using h)]
  rfl

theorem readAt_set_ne {l : List (Option ℕ)} {i j : ℕ} (h : i ≠ j) (x : Option ℕ) :
    readAt (l.set i x) j = readAt l j := by
  unfold readAt
  rw [List.getElem?_set_ne h]

/-- Filling a table from the second entry on. -/
theorem fill_loop {depth lo : ℕ} {f : ℕ → ℕ} {next : ℕ → ℕ → Option ℕ} (hlo : 1 ≤ lo)
    (hnext : ∀ i, lo ≤ i → i ≤ depth → next i (f (i - 1)) = some (f i)) :
    ∀ sizes : List (Option ℕ), sizes.length = depth + 1 → (∀ j < lo, j ≤ depth → readAt sizes j = some (f j)) →
    ∀ n, lo + n ≤ depth + 1 → ∃ t, loop ((List.range n).map (lo + ·)) sizes (fun sizes i =>
      (readAt sizes (i - 1)).bind fun x => (next i x).bind fun y => writeAt sizes i (some y)) = some t ∧
      t.length = depth + 1 ∧ ∀ j < lo + n, j ≤ depth → readAt t j = some (f j) := by
  intro sizes hl h0 n
  induction n with
  | zero => intro _; exact ⟨sizes, rfl, hl, h0⟩
  | succ n ih =>
    intro hn
    obtain ⟨t, h1, h2, h3⟩ := ih (by omega)
    have hread := h3 (lo + n - 1) (by omega) (by omega)
    refine ⟨t.set (lo + n) (some (f (lo + n))), ?_, by rw [List.length_set, h2], fun j hj hjd => ?_⟩
    · rw [List.range_succ, List.map_append, RoughPy.Lie.loop_append_list, h1]
      simp only [List.map_cons, List.map_nil, Option.bind_some, loop_cons, loop_nil]
      rw [hread, Option.bind_some, hnext _ (by omega) (by omega), Option.bind_some,
        writeAt_some (by omega)]
      rfl
    · by_cases hjn : j = lo + n
      · subst hjn
        exact readAt_set (by omega) _
      · rw [readAt_set_ne (Ne.symm hjn)]
        exact h3 j (by omega) hjd

theorem degreesUp_eq (lo depth : ℕ) :
    degreesUp lo depth = (List.range (depth + 1 - lo)).map (lo + ·) := rfl

theorem default_start {depth : ℕ} (hd : 1 ≤ depth) (a b : ℕ) :
    ∃ t : List (Option ℕ), ((writeAt (List.replicate (1 + depth) none) 0 (some a)).bind fun t =>
      writeAt t 1 (some b)) = some t ∧ t.length = depth + 1 ∧ readAt t 0 = some a ∧
      readAt t 1 = some b := by
  refine ⟨((List.replicate (1 + depth) none).set 0 (some a)).set 1 (some b), ?_, ?_, ?_, ?_⟩
  · rw [writeAt_some (by simp), Option.bind_some, writeAt_some (by simp; omega)]
  · simp; omega
  · rw [readAt_set_ne (by omega), readAt_set (by simp)]
  · rw [readAt_set (by simp; omega)]

/-- Without a table of tensor sizes, the base of a context of depth at least 1 computes the sizes
modulo `2^64`. -/
theorem C50_default_tensor_size {w depth fuel : ℕ} (hd : 1 ≤ depth) (lie : List (Option ℕ)) :
    ∃ c, ContextSizes.new w depth fuel (some lie) none = some c ∧
      ∀ d : ℕ, d ≤ depth → c.tensorSize d = some (wordCount w d % 2 ^ 64) := by
  obtain ⟨t, h1, h2, h3, h4⟩ := default_start hd 1 (toDimn (1 + w))
  obtain ⟨s, g1, g2, g3⟩ := fill_loop (depth := depth) (lo := 1) (f := fun d => toDimn (wordCount w d))
    (next := fun _ x => some (toDimn (1 + x * w))) le_rfl (by
      intro i h1 h2
      rw [Option.some.injEq]
      apply toDimn_congr
      have : ((wordCount w i : ℕ) : ℤ) = 1 + wordCount w (i - 1) * w := by
        obtain ⟨j, rfl⟩ : ∃ j, i = j + 1 := ⟨i - 1, by omega⟩
        rw [Nat.add_sub_cancel, wordCount_eq, wordCount_eq, wordsBelow, Finset.sum_range_succ']
        simp only [wordsBelow, pow_succ, pow_zero]
        rw [← Finset.sum_mul]
        push_cast
        ring
      rw [this]
      exact (Int.ModEq.refl _).add ((toDimn_modEq _).mul (Int.ModEq.refl _)))
    t h2 (by
      intro j hj _
      have : j = 0 := by omega
      subst this
      rw [h3]
      congr 1
      rw [wordCount_eq]
      simp [wordsBelow]
      rfl) depth (by omega)
  refine ⟨⟨w, depth, lie, s⟩, ?_, fun d hd => ?_⟩
  · unfold ContextSizes.new defaultTensorSizes
    simp only [Option.bind_eq_bind, Option.elim] at h1 ⊢
    rw [← Option.bind_assoc, h1]
    simp only [Option.bind_some]
    rw [degreesUp_eq, Nat.add_sub_cancel]
    simp only [Option.bind_some] at g1
    rw [g1]
    rfl
  · unfold ContextSizes.tensorSize
    rw [clip_eq _ hd, g3 d (by omega) hd]
    congr 1

end RoughPy.Lite
