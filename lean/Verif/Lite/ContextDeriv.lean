import Verif.Lite.ContextProps

set_option linter.unusedSectionVars false

/-!
# The derivative of signatures (C46)

`sig_derivative` should give the derivative of `exp(X₁ + t Y₁) ⋯ exp(X_n + t Y_n)` at `t = 0`.  It
does for lists in which only the first perturbation is not zero, in particular for one interval;
it does not for two intervals.
-/

namespace RoughPy.Lite

open RoughPy.Tensor RoughPy.Tensor.Series

variable {K : Type} [Field K] [DecidableEq K] {w depth : ℕ} {c : LiteCtx}
  {e : Key → Series (Fin w) K}

section
variable [CharZero K]

theorem hasDerivative_of {α : Type*} {F : K → Series α K} {P D : Series α K} (h : IsDeriv F P D) :
    HasDerivative F D := fun u => by
  obtain ⟨p, h1, -, h3⟩ := h u
  exact ⟨p, h1, h3⟩

theorem HasDerivative.unique {α : Type*} {F : K → Series α K} {D D' : Series α K}
    (h : HasDerivative F D) (h' : HasDerivative F D') : D = D' := by
  funext u
  obtain ⟨p, h1, h2⟩ := h u
  obtain ⟨p', h1', h2'⟩ := h' u
  have : p = p' := Polynomial.funext fun t => by rw [← h1, h1']
  rw [← h2, ← h2', this]

theorem dexp_zero (x : Series (Fin w) K) : dexp x 0 = 0 := by
  have h1 := IsDeriv.texp x 0
  simp only [smul_zero, add_zero] at h1
  exact (h1.unique (IsDeriv.const (texp x))).2

theorem isDeriv_foldl (fs : List (Series (Fin w) K × Series (Fin w) K)) (h0 : ∀ p ∈ fs, p.2 = 0)
    {F : K → Series (Fin w) K} {P D : Series (Fin w) K} (hF : IsDeriv F P D) :
    ∃ P', IsDeriv (fun t => F t * (fs.map fun p => texp (p.1 + t • p.2)).prod) P'
      (fs.foldl derivStep D) := by
  induction fs generalizing F P D with
  | nil =>
    refine ⟨P, ?_⟩
    simp only [List.map_nil, List.prod_nil, mul_one, List.foldl_nil]
    exact hF
  | cons p fs ih =>
    have hp := h0 p List.mem_cons_self
    have h1 := hF.mul (IsDeriv.texp p.1 p.2)
    rw [hp, show P * dexp p.1 0 = dexp p.1 0 by rw [dexp_zero, mul_zero]] at h1
    obtain ⟨P', h2⟩ := ih (fun q hq => h0 q (List.mem_cons_of_mem _ hq)) h1
    refine ⟨P', ?_⟩
    have : derivStep D p = D * texp p.1 + dexp p.1 0 := by rw [derivStep, hp]
    rw [List.foldl_cons, this]
    simp only [List.map_cons, List.prod_cons, ← mul_assoc, hp]
    exact h2

/-- `sig_derivative` is the derivative of the signature if only the first interval is perturbed.
Full claim: the same without `h0`; it is false, see `C46_two_intervals`. -/
theorem C46_derivative_partial (hw : 1 ≤ w) (hd : 1 ≤ depth) (h : LiteCtx.new w depth = some c)
    (he : HallElems c.hs e) {vt : VecType} {info : List (Stored K × Stored K)}
    {fs : List (Series (Fin w) K × Series (Fin w) K)}
    (hvt : ∀ p ∈ info, p.1.vecType = vt ∧ p.2.vecType = vt)
    (hl : List.Forall₂ (fun p f => IsLieElem c e p.1 f.1 ∧ IsLieElem c e p.2 f.2) info fs)
    (h0 : ∀ p ∈ fs.tail, p.2 = 0) :
    c.Computes (fun fuel st => c.sigDerivative fuel st info vt) fun r => r.vecType = vt ∧
      ∃ D, HasDerivative (fun t => (fs.map fun p => texp (p.1 + t • p.2)).prod) D ∧
        IsTensor w depth r D := by
  obtain ⟨m, rfl, hc, -⟩ := ctx_facts hd h
  refine computes_of hc fun fuel hf st hst => ?_
  obtain ⟨r, st', h1, h2, h3, h4⟩ := sigDerivative_stored hw hc he hf hvt hl hst
  refine ⟨r, st', h1, h2, h3, _, ?_, h4⟩
  cases fs with
  | nil =>
    simp only [List.map_nil, List.prod_nil, List.foldl_nil]
    exact hasDerivative_of (IsDeriv.const 1)
  | cons p fs =>
    obtain ⟨P', h5⟩ := isDeriv_foldl fs h0 (IsDeriv.texp p.1 p.2)
    have : derivStep 0 p = dexp p.1 p.2 := by rw [derivStep, zero_mul, zero_add]
    rw [List.foldl_cons, this]
    simp only [List.map_cons, List.prod_cons]
    exact hasDerivative_of h5

/-- What is computed in general: with `Dᵢ` the derivative of `exp(Xᵢ + t Yᵢ)`, the sum of
`Dᵢ exp(Xᵢ₊₁) ⋯ exp(X_n)`.  The factors `exp(X₁) ⋯ exp(Xᵢ₋₁)` are missing. -/
theorem C46_computed (hw : 1 ≤ w) (hd : 1 ≤ depth) (h : LiteCtx.new w depth = some c)
    (he : HallElems c.hs e) {vt : VecType} {info : List (Stored K × Stored K)}
    {fs : List (Series (Fin w) K × Series (Fin w) K)}
    (hvt : ∀ p ∈ info, p.1.vecType = vt ∧ p.2.vecType = vt)
    (hl : List.Forall₂ (fun p f => IsLieElem c e p.1 f.1 ∧ IsLieElem c e p.2 f.2) info fs) :
    ∃ D : Series (Fin w) K × Series (Fin w) K → Series (Fin w) K,
      (∀ p, HasDerivative (fun t => texp (p.1 + t • p.2)) (D p)) ∧
      c.Computes (fun fuel st => c.sigDerivative fuel st info vt) fun r => r.vecType = vt ∧
        IsTensor w depth r
          ((fs.tails.map fun l => match l with
            | [] => 0
            | p :: rest => D p * (rest.map fun q => texp q.1).prod).sum) := by
  obtain ⟨m, rfl, hc, -⟩ := ctx_facts hd h
  refine ⟨fun p => dexp p.1 p.2, fun p => hasDerivative_of (IsDeriv.texp p.1 p.2),
    computes_of hc fun fuel hf st hst => ?_⟩
  obtain ⟨r, st', h1, h2, h3, h4⟩ := sigDerivative_stored hw hc he hf hvt hl hst
  refine ⟨r, st', h1, h2, h3, ?_⟩
  have key : ∀ (l : List (Series (Fin w) K × Series (Fin w) K)) (D : Series (Fin w) K),
      l.foldl derivStep D = D * (l.map fun q => texp q.1).prod +
        ((l.tails.map fun l => match l with
            | [] => 0
            | p :: rest => dexp p.1 p.2 * (rest.map fun q => texp q.1).prod).sum) := by
    intro l
    induction l with
    | nil => intro D; simp
    | cons p l ih =>
      intro D
      rw [List.foldl_cons, ih, derivStep, List.tails_cons, List.map_cons, List.map_cons,
        List.prod_cons, List.sum_cons, add_mul, mul_assoc, add_assoc]
  rw [key, zero_mul, zero_add] at h4
  exact h4

end

/-! ## Refutation -/

theorem dexp_left_zero [CharZero K] (y : Series (Fin w) K) (u : List (Fin w)) (hu : u ≠ []) :
    dexp 0 y u = y u := by
  have hd : ∀ n, dpow 0 y n = if n = 1 then y else 0 := by
    intro n
    match n with
    | 0 => rfl
    | 1 => rw [dpow, dpow, zero_mul, pow_zero, one_mul, zero_add]; rfl
    | n + 2 =>
      rw [dpow, mul_zero, pow_succ, mul_zero, zero_mul, zero_add, if_neg (by omega)]
  show ∑ n ∈ Finset.range (u.length + 1), _ = _
  rw [Finset.sum_eq_single 1]
  · rw [hd, if_pos rfl, Nat.factorial_one, Nat.cast_one, inv_one, one_mul]
  · intro n _ hn
    rw [hd, if_neg hn]
    exact mul_zero _
  · intro hn
    exact absurd (Finset.mem_range.2 (by have := List.length_pos_iff.2 hu; omega)) hn

/-- The claim fails for two intervals of which only the second is perturbed: on one letter and at
depth 2, for `X₁ = e₁`, `Y₁ = 0`, `X₂ = 0`, `Y₂ = e₁`, the result is `e₁`, but the derivative of
`exp(e₁) exp(t e₁)` is not. -/
theorem C46_two_intervals : ∃ c, LiteCtx.new 1 2 = some c ∧
    (((LiteCtx.new 1 2).bind fun c =>
      c.sigDerivative 9 ⟨fun _ => none, fun _ => none, LieCache.fresh⟩
        [(.sparse [(⟨1, 0⟩, (1 : ℚ))], .sparse []), (.sparse [], .sparse [(⟨1, 0⟩, 1)])] .sparse).bind
          fun r => match r.1 with | .sparse v => some v | .dense _ => none) = some [(⟨1, 0⟩, 1)] ∧
    ∀ D : Series (Fin 1) ℚ, HasDerivative (fun t =>
        ([(letter ℚ 0, 0), (0, letter ℚ 0)].map fun p : Series (Fin 1) ℚ × Series (Fin 1) ℚ =>
          texp (p.1 + t • p.2)).prod) D →
      ¬ IsTensor 1 2 (.sparse [(⟨1, 0⟩, 1)]) D := by
  refine ⟨_, rfl, by decide +kernel, fun D hD hT => ?_⟩
  have h1 := (IsDeriv.texp (letter ℚ (0 : Fin 1)) 0).mul (IsDeriv.texp 0 (letter ℚ (0 : Fin 1)))
  have h2 : D = _ := hD.unique (D' := dexp (letter ℚ 0) 0 * texp 0 +
    texp (letter ℚ 0) * dexp 0 (letter ℚ 0)) (by
      simp only [List.map_cons, List.map_nil, List.prod_cons, List.prod_nil, mul_one]
      exact hasDerivative_of h1)
  have h3 : dexp 0 (letter ℚ (0 : Fin 1)) = letter ℚ 0 := by
    funext u
    by_cases hu : u = []
    · subst hu
      show ∑ n ∈ Finset.range 1, _ = _
      rw [Finset.sum_range_one]
      exact mul_zero _
    · exact dexp_left_zero _ _ hu
  have h4 : D [0, 0] = 1 := by
    rw [h2, dexp_zero, zero_mul, zero_add, h3]
    have := mul_letter_concat (K := ℚ) (0 : Fin 1) 0 (texp (letter ℚ 0)) [0]
    refine this.trans ?_
    rw [if_pos rfl, texp_apply]
    show ∑ n ∈ Finset.range 2, _ = _
    rw [Finset.sum_range_succ, Finset.sum_range_one, pow_zero, pow_one]
    simp [letter]
    rfl
  obtain ⟨-, -, h5⟩ := hT
  have h6 := h5 [0, 0] (by decide) (by rw [h4]; exact one_ne_zero)
  rw [h4] at h6
  exact absurd h6 (by decide)

/-! ## A concrete case -/

/-- One interval with two letters at depth 2: `X = e₁`, `Y = e₂`.  The derivative of
`exp(e₁ + t e₂)` is `e₂ + (e₁ e₂ + e₂ e₁) / 2`. -/
example : (((LiteCtx.new 2 2).bind fun c =>
      c.sigDerivative 9 ⟨fun _ => none, fun _ => none, LieCache.fresh⟩
        [(.sparse [(⟨1, 0⟩, (1 : ℚ))], .sparse [(⟨1, 1⟩, 1)])] .sparse).bind
          fun r => match r.1 with | .sparse v => some v | .dense _ => none) =
    some [(⟨1, 1⟩, 1), (⟨2, 1⟩, 1 / 2), (⟨2, 2⟩, 1 / 2)] := by decide +kernel

end RoughPy.Lite
