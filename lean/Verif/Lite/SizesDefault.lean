import Verif.Lite.SizesProps
import Verif.Lite.MapsLemmas

set_option linter.unusedSectionVars false

/-!
# C50: the tables of sizes that a context without tables computes

`LiteContext` gives its own tables to its base (`C50_sizes`), so the constructor below is never used
to compute the table of Lie sizes from Python.
-/

namespace RoughPy.Lite

open RoughPy.Tensor (loop degreesUp loop_nil loop_cons wordsBelow mem_degreesUp)
open RoughPy.Lie (lieSpace finrank_lieSpace hallTable hallTable_isHall mobiusFunc mobiusFunc_eq sum_degreesUp)
open ArithmeticFunction (moebius)

/-- what the helper returns for degree `n` -/
def helperValue (w n : ℕ) : ℕ :=
  toDimn (∑ x ∈ n.divisorsAntidiagonal, moebius x.1 * (w : ℤ) ^ x.2) / n

/-- what the constructor writes into the table of Lie sizes -/
def lieFill (w : ℕ) : ℕ → ℕ
  | 0 => 0
  | 1 => w
  | n + 2 => toDimn (helperValue w (n + 2) * lieFill w (n + 1))

theorem default_lie {w depth fuel : ℕ} (h1 : 1 ≤ depth) (h2 : depth ≤ 50) :
    ∃ t, defaultLieSizes w depth fuel = some t ∧ ∀ d ≤ depth, readAt t d = some (lieFill w d) := by
  obtain ⟨t, g1, g2, g3, g4⟩ := default_start h1 0 w
  obtain ⟨s, k1, k2, k3⟩ := fill_loop (depth := depth) (lo := 2) (f := lieFill w)
    (next := fun i x => (hallSize mobiusValues w i).bind fun n => some (toDimn (n * x))) (by omega) (by
      intro i hi hd
      obtain ⟨j, rfl⟩ : ∃ j, i = j + 2 := ⟨i - 2, by omega⟩
      rw [hallSize_sum w (by omega) (by omega), Option.bind_some, lieFill, helperValue,
        show j + 2 - 1 = j + 1 from rfl])
    t g2 (by
      intro j hj _
      rcases (show j = 0 ∨ j = 1 by omega) with rfl | rfl
      · exact g3
      · exact g4) (depth - 1) (by omega)
  refine ⟨s, ?_, fun d hd => k3 d (by omega) hd⟩
  unfold defaultLieSizes mobiusInit
  rw [if_neg (by have : mobiusValues.length = 51 := rfl; omega)]
  simp only [Option.bind_eq_bind, Option.bind_some] at g1 ⊢
  rw [← Option.bind_assoc, g1, Option.bind_some, degreesUp_eq,
    show depth + 1 - 2 = depth - 1 by omega]
  simpa only [Option.bind_assoc, Option.bind_some] using k1

theorem default_tensor {w depth : ℕ} (hd : 1 ≤ depth) : ∃ t, defaultTensorSizes w depth = some t := by
  obtain ⟨c, h, -⟩ := C50_default_tensor_size (w := w) (fuel := 0) hd []
  unfold ContextSizes.new at h
  simp only [Option.bind_eq_bind, Option.bind_eq_some_iff, Option.elim] at h
  obtain ⟨t, ht, -⟩ := h
  exact ⟨t, ht⟩

theorem lieSpace_two (K : Type*) [Field K] (w : ℕ) :
    Module.finrank K (lieSpace K w 0) = 0 ∧ Module.finrank K (lieSpace K w 1) = w ∧
    Module.finrank K (lieSpace K w 2) = w + lieDimension K w 2 ∧
      2 * lieDimension K w 2 + w = w * w := by
  have a1 := (lieDimension_table K (w := w) (m := 1) (k := 1) (by omega) (by omega)).2
  have a2 := (lieDimension_table K (w := w) (m := 1) (k := 2) (by omega) (by omega)).2
  have a1 : Module.finrank K (lieSpace K w 1) = Module.finrank K (lieSpace K w 0) + lieDimension K w 1 := a1
  have a2 : Module.finrank K (lieSpace K w 2) = Module.finrank K (lieSpace K w 1) + lieDimension K w 2 := a2
  have b1 := witt_sum K w (k := 1) (by omega)
  have b2 := witt_sum K w (k := 2) (by omega)
  have h0 := finrank_lieSpace (K := K) (hallTable_isHall w 0) (d := 0) (by omega)
  rw [(hallTable_isHall w 0).start_one, show (hallTable w 0).width = w from rfl] at h0
  have e2 : (2 : ℕ).divisorsAntidiagonal = {(1, 2), (2, 1)} := by decide
  rw [e2, Finset.sum_pair (by decide)] at b2
  simp [ArithmeticFunction.moebius_apply_prime Nat.prime_two] at b1 b2
  have c1 : w = lieDimension K w 1 := by exact_mod_cast b1
  refine ⟨by omega, by omega, by omega, ?_⟩
  have : (w : ℤ) * w = 2 * lieDimension K w 2 + w := by linarith [sq (w : ℤ)]
  exact_mod_cast this.symm

/-- Without a table of Lie sizes, the base of a context of depth between 2 and 50 computes the size
for degree 2 by a product instead of a sum: it is never the dimension of the Lie algebra.  The sizes
for degrees 0 and 1 are right. -/
theorem C50_default_lie_wrong (K : Type*) [Field K] {w depth fuel : ℕ} (hw : 1 ≤ w)
    (hw' : w < 2 ^ 20) (hd : 2 ≤ depth) (hd' : depth ≤ 50) :
    ∃ c, ContextSizes.new w depth fuel none none = some c ∧
      c.lieSize 0 = some (Module.finrank K (lieSpace K w 0)) ∧
      c.lieSize 1 = some (Module.finrank K (lieSpace K w 1)) ∧
      ∃ n, c.lieSize 2 = some n ∧ n ≠ Module.finrank K (lieSpace K w 2) := by
  obtain ⟨t, ht, hr⟩ := default_lie (w := w) (fuel := fuel) (by omega) hd'
  obtain ⟨t', ht'⟩ := default_tensor (w := w) (depth := depth) (by omega)
  obtain ⟨e0, e1, e2, e3⟩ := lieSpace_two K w
  refine ⟨⟨w, depth, t, t'⟩, ?_, ?_, ?_, lieFill w 2, ?_, ?_⟩
  · unfold ContextSizes.new
    simp only [Option.elim, ht, ht', Option.bind_eq_bind, Option.bind_some]
  · unfold ContextSizes.lieSize
    rw [show (0 : ℤ) = (0 : ℕ) from rfl, clip_eq _ (by omega), hr 0 (by omega), e0]
    rfl
  · unfold ContextSizes.lieSize
    rw [show (1 : ℤ) = (1 : ℕ) from rfl, clip_eq _ (show 1 ≤ depth by omega), hr 1 (by omega), e1]
    rfl
  · unfold ContextSizes.lieSize
    rw [show (2 : ℤ) = (2 : ℕ) from rfl, clip_eq _ (show 2 ≤ depth from hd), hr 2 hd]
  · rw [e2]
    set D := lieDimension K w 2 with hD
    have hww : w * w < 1099511627776 := by nlinarith
    have hDw : D * w < 18446744073709551616 := by nlinarith
    have hv : helperValue w 2 = D := by
      unfold helperValue
      rw [witt_sum K w (by omega), ← hD]
      have := toDimn_eq (n := 2 * D) (by norm_num; omega)
      push_cast at this ⊢
      rw [this]
      omega
    have hf : lieFill w 2 = D * w := by
      rw [lieFill, hv, lieFill]
      have := toDimn_eq (n := D * w) (by norm_num; omega)
      push_cast at this ⊢
      exact this
    rw [hf]
    intro h
    rcases (show w = 1 ∨ w = 2 ∨ 3 ≤ w by omega) with rfl | rfl | h3
    · omega
    · omega
    · have : w ≤ D := by nlinarith
      nlinarith

theorem fixedLoop_none {S : Type} {depth m : ℕ} (h : m ≤ depth) (body : S → Option S) :
    ∀ fuel s, fixedLoop depth m body fuel s = none
  | 0, _ => rfl
  | fuel + 1, s => by
    rw [fixedLoop, if_pos h, Option.bind_eq_bind, Option.bind_eq_none_iff]
    exact fun s' _ => fixedLoop_none h body fuel s'

theorem loop_none {ι S : Type} {l : List ι} {body : S → ι → Option S} {x : ι} (hx : x ∈ l)
    (h : ∀ s, body s x = none) : ∀ s, loop l s body = none := by
  induction l with
  | nil => cases hx
  | cons y l ih =>
    intro s
    rw [loop_cons, Option.bind_eq_none_iff]
    intro s' h'
    rcases List.mem_cons.mp hx with rfl | hx
    · rw [h] at h'
      cases h'
    · exact ih hx s'

theorem two_mem_sieve {bound : ℕ} (hb : 3 ≤ bound) {primes : List ℕ}
    (h : sievePrimes bound = some primes) : 2 ∈ primes := by
  unfold sievePrimes at h
  simp only [Option.bind_eq_bind, Option.bind_eq_some_iff] at h
  obtain ⟨t, h1, t', h2, h3⟩ := h
  have g1 : t[2]? = some true := by
    unfold writeAt at h1
    rw [if_pos (by simp; omega)] at h1
    injection h1 with h1
    rw [← h1, List.getElem?_set_ne (by omega), List.getElem?_replicate, if_pos (by omega)]
  have g2 : t'[2]? = some true := by
    refine loop_inv (fun t : List Bool => t[2]? = some true) _ _ ?_ t t' h2 g1
    intro i hi s s' hs hs2
    refine loop_inv (fun t : List Bool => t[2]? = some true) _ _ ?_ s s' hs hs2
    intro j hj s s' hs hs2
    rw [mem_degreesUp] at hi
    rw [List.mem_filter, mem_degreesUp] at hj
    unfold writeAt at hs
    split at hs
    · injection hs with hs
      have : 4 ≤ i * j := Nat.mul_le_mul hi.1 hj.1.1
      rw [← hs, List.getElem?_set_ne (by omega), hs2]
    · cases hs
  rw [show degreesUp 2 (bound - 1) = 2 :: degreesUp 3 (bound - 1) by
    obtain ⟨n, rfl⟩ : ∃ n, bound = n + 3 := ⟨bound - 3, by omega⟩
    unfold degreesUp
    rw [show n + 3 - 1 + 1 - 2 = n + 1 by omega, show n + 3 - 1 + 1 - 3 = n by omega, List.range_succ_eq_map,
      List.map_cons, List.map_map]
    congr 1
    apply List.map_congr_left
    intro a _
    simp; omega, loop_cons, g2] at h3
  simp only [Option.bind_some, if_true, List.nil_append] at h3
  refine loop_inv (fun l : List ℕ => 2 ∈ l) _ _ ?_ _ _ h3 (by simp)
  intro i _ s s' hs hs2
  simp only [Option.bind_eq_some_iff, Option.some.injEq] at hs
  obtain ⟨p, -, hs⟩ := hs
  split at hs
  · rw [← hs]
    exact List.mem_append_left _ hs2
  · rw [← hs]
    exact hs2


theorem default_lie_zero (w fuel : ℕ) : defaultLieSizes w 0 fuel = none := by
  unfold defaultLieSizes
  rw [Option.bind_eq_bind, Option.bind_eq_none_iff]
  intro t _
  rfl

theorem hallSize_51 (w : ℕ) : hallSize mobiusValues w 51 = none := by
  unfold hallSize
  rw [loop_none (x := 1) (by rw [mem_degreesUp]; omega)]
  · rfl
  · intro s
    have : mobiusValues[51 / 1]? = none := rfl
    rw [if_pos (by decide), this]
    rfl

theorem default_lie_51 {w depth : ℕ} (hd : depth = 51) (fuel : ℕ) :
    defaultLieSizes w depth fuel = none := by
  have hm : mobiusInit depth fuel = some mobiusValues := by
    unfold mobiusInit
    rw [if_neg (by have : mobiusValues.length = 51 := rfl; omega)]
  have hs : hallSize mobiusValues w depth = none := by rw [hd, hallSize_51]
  unfold defaultLieSizes
  rw [hm]
  simp only [Option.bind_eq_bind, Option.bind_some, Option.bind_eq_none_iff]
  intro t _ t' _
  apply loop_none (x := depth) (by rw [mem_degreesUp]; omega)
  intro s
  cases readAt s (depth - 1) with
  | none => rw [Option.bind_none]
  | some x => rw [Option.bind_some, hs, Option.bind_none]

theorem mobiusInit_large {depth : ℕ} (h : 52 ≤ depth) (fuel : ℕ) : mobiusInit depth fuel = none := by
  have hl : mobiusValues.length = 51 := rfl
  unfold mobiusInit
  rw [hl, if_pos (by omega), Option.bind_eq_bind, Option.bind_eq_none_iff]
  intro primes hp
  dsimp only
  rw [loop_none (x := 2) (two_mem_sieve (by omega) hp)]
  · rfl
  · intro s
    rw [fixedLoop_none (by omega)]
    rfl

/-- Without a table of Lie sizes the constructor writes outside an array if the depth is 0, reads
outside an array if it is 51, and does not return if it is larger. -/
theorem C50_default_fails {w depth : ℕ} (hd : depth = 0 ∨ 51 ≤ depth) (fuel : ℕ)
    (tensor : Option (List (Option ℕ))) : ContextSizes.new w depth fuel none tensor = none := by
  have key : defaultLieSizes w depth fuel = none := by
    rcases (show depth = 0 ∨ depth = 51 ∨ 52 ≤ depth by omega) with rfl | h | h
    · exact default_lie_zero w fuel
    · exact default_lie_51 h fuel
    · unfold defaultLieSizes
      rw [mobiusInit_large h]
      rfl
  unfold ContextSizes.new
  rw [Option.bind_eq_bind, Option.bind_eq_none_iff]
  intro t _
  simp only [Option.elim, key]
  rfl

/-- width 2, depth 3: the constructor succeeds, but the size for degree 2 is 2 instead of 3 -/
example : (ContextSizes.new 2 3 5 none none).bind (fun c => c.lieSize 2) = some 2 := by
  decide +kernel

end RoughPy.Lite
