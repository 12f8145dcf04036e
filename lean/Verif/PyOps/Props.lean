import Verif.PyOps.Spec
import Verif.Lite.HandleProps
import Mathlib.Tactic.Ring
import Mathlib.Tactic.Linarith
import Mathlib.Tactic.FieldSimp
import Mathlib.Data.Nat.Prime.Int

/-!
# Properties of arithmetic written in Python

Vocabulary: `Verif/PyOps/Spec.lean`.
-/

namespace RoughPy.PyOps

open RoughPy.Handles RoughPy.Lite RoughPy.Tensor RoughPy.Tensor.Series

variable {K F V : Type} [Field K] [DecidableEq K] {w depth : ℕ} {c : LiteCtx} {fl : Floats K F}

/-! ## Helper lemmas -/

omit [DecidableEq K] in
theorem cast_long {b : Bool} {n : ℤ} (h : (Number.int n : Number K F).Plain) :
    cast fl b .longLong (.num (.int n)) = some (.num (n : K)) :=
  if_pos h

omit [DecidableEq K] in
theorem cast_int_skip {n : ℤ} : cast fl false .scalar (.num (.int n)) = none ∧
    cast fl false .elem (.num (.int n)) = none ∧ cast fl false .double (.num (.int n)) = none :=
  ⟨rfl, rfl, rfl⟩

omit [DecidableEq K] in
/-- A covered statement is the statement of the library with the same meaning. -/
theorem covered_compile {mul : Series (Fin w) K → Series (Fin w) K → Series (Fin w) K}
    {clears : VecType → Prop} {σ : ℕ → Var w K} {i : PyStmt K F}
    (h : i.Covered fl.value depth clears σ) :
    ∃ j, i.compile fl = some j ∧ j.target = i.assigns ∧
      i.meaning fl.value mul σ = some (j.meaning mul σ) ∧ j.Safe depth clears σ := by
  cases i with
  | neg x y => exact ⟨_, rfl, rfl, rfl, trivial⟩
  | bin op x y a =>
    cases op <;> rcases a with z | n
    · exact ⟨_, rfl, rfl, rfl, fun h' => absurd h' h.1⟩
    · exact h.elim
    · exact ⟨_, rfl, rfl, rfl, fun h' => absurd h' h.1⟩
    · exact h.elim
    · exact ⟨_, rfl, rfl, rfl, ⟨fun h' => absurd h' h.1, fun h' => absurd h' h.2⟩⟩
    · obtain ⟨hy, hn⟩ := h
      cases n with
      | scalar s => exact ⟨_, rfl, rfl, rfl, trivial⟩
      | float a => exact ⟨_, rfl, rfl, rfl, trivial⟩
      | int n =>
        refine ⟨.smul x y n, ?_, rfl, rfl, trivial⟩
        simp [PyStmt.compile, call, resolve, forward, cast_long hn, cast_int_skip, invoke]
      | fraction q => exact hn.elim
      | other => exact hn.elim
    · exact h.elim
    · obtain ⟨hy, hn, hs, h0⟩ := h
      cases n with
      | scalar s => exact (hs trivial).elim
      | float a => exact ⟨_, rfl, rfl, rfl, fun _ h' => h0 (congrArg some h')⟩
      | int n =>
        refine ⟨.sdiv x y n, ?_, rfl, rfl, fun _ h' => h0 (congrArg some h')⟩
        simp [PyStmt.compile, call, resolve, forward, cast_long hn, cast_int_skip, invoke]
      | fraction q => exact hn.elim
      | other => exact hn.elim
  | rbin op x n y =>
    cases op with
    | add => exact h.elim
    | sub => exact h.elim
    | div => exact h.elim
    | mul =>
      obtain ⟨hy, hn, hs⟩ := h
      cases n with
      | scalar s => exact (hs trivial).elim
      | float a => exact ⟨_, rfl, rfl, rfl, trivial⟩
      | int n =>
        refine ⟨.smul x y n, ?_, rfl, rfl, trivial⟩
        simp [PyStmt.compile, resolve, reflected, scalarForward, cast_long hn, cast_int_skip, invoke]
      | fraction q => exact hn.elim
      | other => exact hn.elim
  | inp op x a =>
    cases op <;> rcases a with z | n
    · exact ⟨_, rfl, rfl, rfl, fun h' => absurd h' h.1⟩
    · exact h.elim
    · exact ⟨_, rfl, rfl, rfl, ⟨fun h' => absurd h' h.1, h.2.2⟩⟩
    · exact h.elim
    · exact ⟨_, rfl, rfl, rfl, ⟨⟨fun h' => absurd h' h.1, fun h' => absurd h' h.2.1⟩, h.2.2⟩⟩
    · obtain ⟨hy, hn⟩ := h
      cases n with
      | scalar s => exact ⟨_, rfl, rfl, rfl, trivial⟩
      | float a => exact ⟨_, rfl, rfl, rfl, trivial⟩
      | int n =>
        refine ⟨.smulIn x n, ?_, rfl, rfl, trivial⟩
        simp [PyStmt.compile, resolve, inPlace, cast_long hn, cast_int_skip, invoke]
      | fraction q => exact hn.elim
      | other => exact hn.elim
    · exact h.elim
    · obtain ⟨hy, hn, h0⟩ := h
      cases n with
      | scalar s => exact ⟨_, rfl, rfl, rfl, fun _ h' => h0 (congrArg some h')⟩
      | float a => exact ⟨_, rfl, rfl, rfl, fun _ h' => h0 (congrArg some h')⟩
      | int n =>
        refine ⟨.sdivIn x n, ?_, rfl, rfl, fun _ h' => h0 (congrArg some h')⟩
        simp [PyStmt.compile, resolve, inPlace, cast_long hn, cast_int_skip, invoke]
      | fraction q => exact hn.elim
      | other => exact hn.elim

/-- A covered program is a program of the library with the same meaning. -/
theorem covered_program {mul : Series (Fin w) K → Series (Fin w) K → Series (Fin w) K}
    {clears : VecType → Prop} (W : Contexts K V) : ∀ (p : List (PyStmt K F)) {τ : ℕ → Var w K},
    PyCovered fl.value mul depth clears p τ → ∃ q : List (Stmt K),
      (∀ σ : Store V, runPy fl W p σ = Handles.run W q σ) ∧ Safe mul depth clears q τ ∧
      pyMeaning fl.value mul p τ = some (meaning mul q τ)
  | [], _, _ => ⟨[], fun _ => rfl, trivial, rfl⟩
  | i :: p, τ, h => by
    obtain ⟨j, hj, ht, hm, hs⟩ := covered_compile (mul := mul) h.1
    obtain ⟨q, hq, hqs, hqm⟩ := covered_program W p (h.2 _ hm)
    refine ⟨j :: q, fun σ => ?_, ⟨hs, by rw [ht]; exact hqs⟩, ?_⟩
    · simp only [runPy, hj, Handles.run]
      congr 1
      funext σ'
      exact hq σ'
    · simp only [pyMeaning, hm, meaning, ht]
      exact hqm

/-! ## C160: arithmetic written in Python computes what is written -/

/-- A Python program on free tensors of one context computes in the truncated tensor algebra:
operators between tensors, and with scalars, `float`s and `int`s.  Missing (`PyCovered`): `y / s`
and `s * y` for an `rp.Scalar` `s`, fractions and large integers, all refuted below, and the cases
missing in C111. -/
theorem C160_tensor_partial [CharZero K] (hw : 1 ≤ w) (hd : 1 ≤ depth)
    (h : LiteCtx.new w depth = some c) {W : Contexts K (Stored K)} {i : ℕ}
    (hW : W.vectors i = tensorVectors c) (p : List (PyStmt K F)) {σ : Store (Stored K)}
    {τ : ℕ → Var w K} (hσ : ∀ x, Holds Stored.vecType (IsNormalTensor w depth) i (σ x) (τ x))
    (hp : PyCovered fl.value (· * ·) depth TensorClears p τ) :
    ∃ σ' τ', runPy fl W p σ = .ok σ' ∧ pyMeaning fl.value (· * ·) p τ = some τ' ∧
      ∀ x, Holds Stored.vecType (IsNormalTensor w depth) i (σ' x) (τ' x) := by
  obtain ⟨q, hq, hs, hm⟩ := covered_program (fl := fl) W p hp
  obtain ⟨σ', h1, h2⟩ := C111_tensor_run_partial hw hd h hW q hσ hs
  exact ⟨σ', _, (hq σ).trans h1, hm, h2⟩

/-- The same for Lie elements, where the product is the bracket. -/
theorem C160_lie_partial [CharZero K] (hw : 1 ≤ w) (hd : 1 ≤ depth)
    (h : LiteCtx.new w depth = some c) {e : Key → Series (Fin w) K} (he : HallElems c.hs e) :
    ∃ n₀, ∀ fuel ≥ n₀, ∀ cache st, LieHistory w cache → MapsHistory w depth c.hs st →
    ∀ {W : Contexts K (Stored K)} {i : ℕ}, W.vectors i = lieVectors c fuel cache st →
    ∀ (p : List (PyStmt K F)) {σ : Store (Stored K)} {τ : ℕ → Var w K},
    (∀ x, Holds Stored.vecType (IsLieElem c e) i (σ x) (τ x)) →
    PyCovered fl.value (fun f g => ⁅f, g⁆) depth LieClears p τ →
    ∃ σ' τ', runPy fl W p σ = .ok σ' ∧ pyMeaning fl.value (fun f g => ⁅f, g⁆) p τ = some τ' ∧
      ∀ x, Holds Stored.vecType (IsLieElem c e) i (σ' x) (τ' x) := by
  obtain ⟨n₀, hn⟩ := C111_lie_run_partial (K := K) hw hd h he
  refine ⟨n₀, fun fuel hf cache st hca hst W i hW p σ τ hσ hp => ?_⟩
  obtain ⟨q, hq, hs, hm⟩ := covered_program (fl := fl) W p hp
  obtain ⟨σ', h1, h2⟩ := hn fuel hf cache st hca hst hW q hσ hs
  exact ⟨σ', _, (hq σ).trans h1, hm, h2⟩

/-- binary fractions, rounded down to 52 places -/
def exampleFloats : Floats ℚ (ℤ × ℕ) :=
  ⟨fun a => a.1 / 2 ^ a.2, fun q => (⌊q * 2 ^ 52⌋, 52)⟩

/-- the outcome in one variable -/
def outcomeAt {V : Type} (x : ℕ) : Handles.Outcome (Store V) → Option (Handle V)
  | .ok σ => some (σ x)
  | _ => none

/-- The hypotheses: `y = 3 * (a + b)` and `y /= Scalar(2)`, where `a = 2 e₁` and
`b = 1 + 2 e₁ + 3 e₂`, then `y *= 0.5`. -/
example : PyCovered exampleFloats.value (· * ·) 2 TensorClears
      [.bin .add 2 0 (.elem 1), .rbin .mul 3 (.int 3) 2, .inp .div 3 (.num (.scalar 2)),
        .inp .mul 3 (.num (.float (1, 1)))] exampleVars ∧
    ((LiteCtx.new 2 2).bind fun c => outcomeAt 3
      (runPy exampleFloats ⟨fun _ => c.width, fun _ => tensorVectors c⟩
        [.bin .add 2 0 (.elem 1), .rbin .mul 3 (.int 3) 2, .inp .div 3 (.num (.scalar 2)),
          .inp .mul 3 (.num (.float (1, 1)))] exampleStore)) =
      some (some ⟨0, .sparse [(⟨0, 0⟩, 3 / 4), (⟨1, 0⟩, 3), (⟨1, 1⟩, 9 / 4)]⟩) := by
  refine ⟨?_, by decide +kernel⟩
  simp [PyCovered, PyStmt.Covered, PyStmt.meaning, PyStmt.assigns, operate, Number.exact,
    Number.Plain, Number.IsScalar, Var.combine, Var.change, Function.update, exampleVars]

/-- What is not an operation raises and changes nothing: sums with numbers, quotients by elements,
`n + y`, `n - y` and `n / y`, and all operators with objects that are not numbers. -/
theorem C160_refuses {mul : Series (Fin w) K → Series (Fin w) K → Series (Fin w) K}
    (W : Contexts K V) (τ : ℕ → Var w K) (i : PyStmt K F) (p : List (PyStmt K F)) (σ : Store V)
    (h : i.meaning fl.value mul τ = none) : runPy fl W (i :: p) σ = .refused := by
  have hc : i.compile fl = none := by
    cases i with
    | neg x y => cases h
    | bin op x y a =>
      rcases a with z | n
      · cases op <;> first | rfl | cases h
      · cases op <;> cases n <;> first | rfl | cases h
    | rbin op x n y => cases op <;> cases n <;> first | rfl | cases h
    | inp op x a =>
      rcases a with z | n
      · cases op <;> first | rfl | cases h
      · cases op <;> cases n <;> first | rfl | cases h
  simp only [runPy, hc]

/-- The hypothesis: `x = y + 1` and `x = 1 / y`. -/
example (mul : Series (Fin 2) ℚ → Series (Fin 2) ℚ → Series (Fin 2) ℚ) (τ : ℕ → Var 2 ℚ) :
    (PyStmt.bin .add 0 1 (.num (.int 1)) : PyStmt ℚ (ℤ × ℕ)).meaning exampleFloats.value mul τ =
      none ∧
    (PyStmt.rbin .div 0 (.int 1) 1 : PyStmt ℚ (ℤ × ℕ)).meaning exampleFloats.value mul τ = none :=
  ⟨rfl, rfl⟩

/-- Refuted: that `y / s` divides if `s` is an `rp.Scalar`: it multiplies by `s`, for all `y` and
`s`. -/
theorem C160_divide_refuted (fl : Floats K F) (W : Contexts K V) (x y : ℕ) (s : K) (σ : Store V) :
    runPy fl W [.bin .div x y (.num (.scalar s))] σ =
      .ok (Function.update σ x (Handle.smul W s (σ y))) :=
  rfl

/-- An instance: `2 e₁` divided by the scalar 2 is `4 e₁`, and divided by the `int` 2 it is `e₁`;
dividing by the scalar 0 is not refused. -/
theorem C160_divide_example :
    ((LiteCtx.new 2 2).bind fun c => outcomeAt 2
      (runPy exampleFloats ⟨fun _ => c.width, fun _ => tensorVectors c⟩
        [.bin .div 2 0 (.num (.scalar 2))] exampleStore)) = some (some ⟨0, .sparse [(⟨1, 0⟩, 4)]⟩) ∧
    ((LiteCtx.new 2 2).bind fun c => outcomeAt 2
      (runPy exampleFloats ⟨fun _ => c.width, fun _ => tensorVectors c⟩
        [.bin .div 2 0 (.num (.int 2))] exampleStore)) = some (some ⟨0, .sparse [(⟨1, 0⟩, 1)]⟩) ∧
    ((LiteCtx.new 2 2).bind fun c => outcomeAt 2
      (runPy exampleFloats ⟨fun _ => c.width, fun _ => tensorVectors c⟩
        [.bin .div 2 0 (.num (.scalar 0))] exampleStore)) = some (some ⟨0, .sparse []⟩) := by
  decide +kernel

/-- Refuted: that `s * y` is `y * s` for an `rp.Scalar` `s`: it raises a `TypeError`, for all `y`
and `s`. -/
theorem C160_scalar_left_refuted (fl : Floats K F) (W : Contexts K V) (x y : ℕ) (s : K)
    (σ : Store V) :
    runPy fl W [.rbin .mul x (.scalar s) y] σ = .refused ∧
    runPy fl W [.bin .mul x y (.num (.scalar s))] σ =
      .ok (Function.update σ x (Handle.smul W s (σ y))) :=
  ⟨rfl, rfl⟩

/-- Refuted: that fractions are exact.  If no `double` equals `q`, then multiplying with or dividing
by the `Fraction` `q` uses another number. -/
theorem C160_fraction_refuted (fl : Floats K F) (W : Contexts K V) (x y : ℕ) (q : ℚ) (σ : Store V)
    (h : ∀ a, fl.value a ≠ (q : K)) : ∃ s : K, s ≠ q ∧
      runPy fl W [.bin .mul x y (.num (.fraction q))] σ =
        .ok (Function.update σ x (Handle.smul W s (σ y))) ∧
      runPy fl W [.bin .div x y (.num (.fraction q))] σ =
        ((Handle.sdiv W s (σ y)) >>= fun r => .ok (Function.update σ x r)) := by
  refine ⟨fl.value (fl.round q), h _, rfl, ?_⟩
  show (Handles.step W σ (.sdiv x y (fl.value (fl.round q))) >>= fun σ' => Handles.Outcome.ok σ') = _
  unfold Handles.step
  simp only [Stmt.result, Stmt.target]
  cases Handle.sdiv W (fl.value (fl.round q)) (σ y) <;> rfl

/-- The hypothesis: one third is not a binary fraction. -/
example (a : ℤ × ℕ) : exampleFloats.value a ≠ ((1 / 3 : ℚ) : ℚ) := by
  intro h
  have h2 : (2 : ℚ) ^ a.2 ≠ 0 := pow_ne_zero _ (by norm_num)
  have h3 : (a.1 : ℚ) * 3 = 2 ^ a.2 := by
    have : (a.1 : ℚ) / 2 ^ a.2 = 1 / 3 := by simpa [exampleFloats] using h
    field_simp at this
    linarith
  have h4 : a.1 * 3 = 2 ^ a.2 := by exact_mod_cast h3
  have h5 : (3 : ℤ) ∣ 2 ^ a.2 := ⟨a.1, by rw [← h4, mul_comm]⟩
  have h6 := Int.prime_three.dvd_of_dvd_pow h5
  exact absurd h6 (by decide)

/-- Refuted: that integers are exact.  An `int` of more than 64 bits is rounded to a `double`. -/
theorem C160_large_refuted (fl : Floats K F) (W : Contexts K V) (x y : ℕ) (n : ℤ) (σ : Store V)
    (hn : n < -2 ^ 63 ∨ 2 ^ 63 ≤ n) :
    runPy fl W [.bin .mul x y (.num (.int n))] σ =
      .ok (Function.update σ x (Handle.smul W (fl.value (fl.round n)) (σ y))) := by
  have h : ¬ (-2 ^ 63 ≤ n ∧ n < 2 ^ 63) := by omega
  have h1 : cast fl false .longLong (.num (.int n)) = none := if_neg h
  have h2 : cast fl true .scalar (.num (.int n)) = none := rfl
  have h3 : cast fl true .elem (.num (.int n)) = none := rfl
  have h4 : cast fl true .double (.num (.int n)) = some (.num (fl.value (fl.round n))) := rfl
  have h5 : (PyStmt.bin .mul x y (.num (.int n))).compile fl =
      some (.smul x y (fl.value (fl.round n))) := by
    simp [PyStmt.compile, call, resolve, forward, h1, h2, h3, h4, cast_int_skip, invoke]
  simp only [runPy, h5]
  rfl

/-! ### Objects -/

/-- `x op= a` with an element or a scalar keeps the object, so that all names of it see the
change. -/
theorem C160_in_place_partial {W : Contexts K V} {s s' : Objects V} {op : Op} {x : ℕ}
    {a : Arg K F} (ha : ∀ n, a = .num n → n.IsScalar) (h : s.inPlace fl W op x a = .ok s') :
    s'.env = s.env ∧ s'.next = s.next ∧ ∀ o, o ≠ s.env x → s'.heap o = s.heap o := by
  have key : ∀ j : Stmt K, j.target = s.env x →
      (Handles.step W s.heap j >>= fun heap => Handles.Outcome.ok { s with heap := heap }) = .ok s' →
      s'.env = s.env ∧ s'.next = s.next ∧ ∀ o, o ≠ s.env x → s'.heap o = s.heap o := by
    intro j hj h
    unfold Handles.step at h
    cases hr : j.result W s.heap with
    | ok r =>
      rw [hr] at h
      cases h
      refine ⟨rfl, rfl, fun o ho => ?_⟩
      rw [hj]
      exact Function.update_of_ne ho _ _
    | refused => rw [hr] at h; cases h
    | undefined => rw [hr] at h; cases h
  rcases a with z | n
  · cases op with
    | add => exact key (.addIn (s.env x) (s.env z)) rfl h
    | sub => exact key (.subIn (s.env x) (s.env z)) rfl h
    | mul => exact key (.mulIn (s.env x) (s.env z)) rfl h
    | div => cases h
  · cases n with
    | scalar t =>
      cases op with
      | add => cases h
      | sub => cases h
      | mul => exact key (.smulIn (s.env x) t) rfl h
      | div => exact key (.sdivIn (s.env x) t) rfl h
    | float a => exact (ha _ rfl).elim
    | int a => exact (ha _ rfl).elim
    | fraction a => exact (ha _ rfl).elim
    | other => exact (ha _ rfl).elim

/-- variables 0 and 2 name the object `2 e₁`, variables 1 and 3 the object `1 + 2 e₁ + 3 e₂` -/
def exampleObjects : Objects (Stored ℚ) := ⟨fun x => x % 2, exampleStore, 2⟩

/-- The hypotheses: `x += z`, where `y` names the same object as `x`. -/
example : ((LiteCtx.new 2 2).bind fun c =>
      match exampleObjects.inPlace exampleFloats ⟨fun _ => c.width, fun _ => tensorVectors c⟩ .add 0
        (.elem 1) with
      | .ok s => some (s.env 2, s.heap (s.env 2))
      | _ => none) =
    some (0, some ⟨0, .sparse [(⟨0, 0⟩, 1), (⟨1, 0⟩, 4), (⟨1, 1⟩, 3)]⟩) := by
  decide +kernel

/-- Refuted: that `x op= a` changes the object `x` names.  With a `float`, `x` names a new object
afterwards: if `y` was the same object, then it is not any more, and later changes of `x` do not
reach `y`. -/
theorem C160_identity_refuted (fl : Floats K F) (W : Contexts K V) (s : Objects V) (x y z : ℕ)
    (a : F) (hxy : x ≠ y) (hn : s.env x ≠ s.next) (s' s'' : Objects V)
    (h : (s.alias y x).inPlace fl W .mul x (.num (.float a)) = .ok s')
    (h' : s'.inPlace fl W .add x (.elem z : Arg K F) = .ok s'') :
    (s.alias y x).env y = (s.alias y x).env x ∧ s'.env y ≠ s'.env x ∧
    s'.heap (s'.env y) = s'.heap (s'.env x) ∧ s''.heap (s''.env y) = s'.heap (s'.env y) := by
  have hx : (s.alias y x).env x = s.env x := Function.update_of_ne hxy _ _
  have hy : (s.alias y x).env y = s.env x := Function.update_self _ _ _
  have h1 : (Handles.step W s.heap (.smulIn (s.env x) (fl.value a)) >>= fun heap =>
      Handles.Outcome.ok (⟨Function.update (s.alias y x).env x s.next,
        Function.update heap s.next (heap (s.env x)), s.next + 1⟩ : Objects V)) = .ok s' := by
    rw [← hx]
    exact h
  unfold Handles.step at h1
  simp only [Stmt.result, Stmt.target] at h1
  have h2 : s' = ⟨Function.update (s.alias y x).env x s.next,
      Function.update (Function.update s.heap (s.env x)
        (Handle.smulIn W (s.heap (s.env x)) (fl.value a))) s.next
        ((Function.update s.heap (s.env x)
          (Handle.smulIn W (s.heap (s.env x)) (fl.value a))) (s.env x)), s.next + 1⟩ := by
    cases h1
    rfl
  have ex : s'.env x = s.next := by rw [h2]; exact Function.update_self _ _ _
  have ey : s'.env y = s.env x := by
    rw [h2]
    exact (Function.update_of_ne (Ne.symm hxy) _ _).trans hy
  have hne : s'.env y ≠ s'.env x := by rw [ex, ey]; exact hn
  refine ⟨hy.trans hx.symm, hne, ?_, ?_⟩
  · rw [ex, ey, h2]
    refine (Function.update_of_ne hn _ _).trans ?_
    simp
  · obtain ⟨h3, -, h4⟩ := C160_in_place_partial (fun n hn => by cases hn) h'
    rw [h3]
    exact h4 _ hne

/-- The hypotheses: two names of `2 e₁`; after `x *= 0.5` and `x += z` the other name keeps
`e₁`. -/
example : exampleObjects.env 0 ≠ exampleObjects.next ∧
    ((LiteCtx.new 2 2).bind fun c =>
      let W : Contexts ℚ (Stored ℚ) := ⟨fun _ => c.width, fun _ => tensorVectors c⟩
      match (exampleObjects.alias 4 0).inPlace exampleFloats W .mul 0 (.num (.float (1, 1))) with
      | .ok s => match s.inPlace exampleFloats W .add 0 (.elem 1) with
        | .ok s => some (s.heap (s.env 0), s.heap (s.env 4))
        | _ => none
      | _ => none) =
    some (some ⟨0, .sparse [(⟨0, 0⟩, 1), (⟨1, 0⟩, 3), (⟨1, 1⟩, 3)]⟩,
      some ⟨0, .sparse [(⟨1, 0⟩, 1)]⟩) := by
  decide +kernel

/-! ### Scalars -/

/-- `s op n` and `n op s` for a scalar `s` compute in the field.  Missing: differences of two
scalars and all quotients, which are refuted below, fractions and large integers. -/
theorem C160_scalar_partial (fl : Floats K F) (op : Op) (s : K) (n : Number K F) (hn : n.Plain)
    (hop : op ≠ .div) :
    ((n.IsScalar → op ≠ .sub) →
      ∃ t r, n.exact fl.value = some t ∧ op.apply s t = some r ∧ scalarOp fl op s n = .ok r) ∧
    (¬ n.IsScalar →
      ∃ t r, n.exact fl.value = some t ∧ op.apply t s = some r ∧ scalarROp fl op n s = .ok r) := by
  cases n with
  | scalar t =>
    refine ⟨fun h => ?_, fun h => (h trivial).elim⟩
    cases op with
    | add => exact ⟨_, _, rfl, rfl, rfl⟩
    | sub => exact (h trivial rfl).elim
    | mul => exact ⟨_, _, rfl, rfl, rfl⟩
    | div => exact (hop rfl).elim
  | float a =>
    cases op with
    | add => exact ⟨fun _ => ⟨_, _, rfl, rfl, rfl⟩, fun _ => ⟨_, _, rfl, rfl, rfl⟩⟩
    | sub => exact ⟨fun _ => ⟨_, _, rfl, rfl, rfl⟩, fun _ => ⟨_, _, rfl, rfl, rfl⟩⟩
    | mul => exact ⟨fun _ => ⟨_, _, rfl, rfl, rfl⟩, fun _ => ⟨_, _, rfl, rfl, rfl⟩⟩
    | div => exact (hop rfl).elim
  | int n =>
    refine ⟨fun _ => ⟨n, ?_⟩, fun _ => ⟨n, ?_⟩⟩ <;>
    · cases op <;> first
        | exact (hop rfl).elim
        | (refine ⟨_, rfl, rfl, ?_⟩
           simp [scalarOp, scalarROp, resolve, scalarForward, scalarReflected, cast_long hn,
             cast_int_skip, scalarFn])
  | fraction q => exact hn.elim
  | other => exact hn.elim

/-- The hypotheses: `Scalar(2) - 3` and `3 - Scalar(2)`. -/
example : (Number.int 3 : Number ℚ (ℤ × ℕ)).Plain ∧ Op.sub ≠ .div ∧
    ¬ (Number.int 3 : Number ℚ (ℤ × ℕ)).IsScalar ∧
    scalarOp exampleFloats .sub 2 (.int 3) = .ok (-1) ∧
    scalarROp exampleFloats .sub (.int 3) 2 = .ok 1 :=
  ⟨by simp [Number.Plain], by decide, id, by decide +kernel, by decide +kernel⟩

/-- Refuted: that scalars can be subtracted and divided.  `s - t` and `s / n` and `n / s` raise a
`TypeError`, whatever the scalars and numbers. -/
theorem C160_scalar_refuted (fl : Floats K F) (s t : K) (n : Number K F) :
    scalarOp fl .sub s (.scalar t) = .refused ∧ scalarOp fl .div s n = .refused ∧
    scalarROp fl .div n s = .refused :=
  ⟨rfl, rfl, rfl⟩

end RoughPy.PyOps
