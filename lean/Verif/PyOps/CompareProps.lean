import Verif.PyOps.Compare
import Verif.PyOps.Props

/-!
# Properties of `==` and `!=` in Python

Vocabulary: `Verif/PyOps/Spec.lean`.
-/

namespace RoughPy.PyOps

variable {K F : Type} [Field K] [DecidableEq K]

/-! ## Helper lemmas -/

theorem scalarCompare_plain (fl : Floats K F) (ne : Bool) (s t : K) (n : Number K F) (hn : n.Plain)
    (ht : n.exact fl.value = some t) :
    scalarCompare fl ne (.num (.scalar s)) (.num n) = .answer (decide (s = t) != ne) := by
  cases n with
  | scalar u =>
    cases ht
    rfl
  | float a =>
    cases ht
    rfl
  | int m =>
    cases ht
    have h1 : cast fl false .longLong (.num (.int m)) = some (.num (m : K)) := cast_long hn
    have h2 : cast2 fl false (.num (.scalar s)) (.num (.int m)) (.scalar, .longLong) = some (s, (m : K)) := by
      unfold cast2
      rw [h1]
      rfl
    unfold scalarCompare eqOverloads
    rw [List.findSome?_cons, show cast2 fl false (.num (.scalar s)) (.num (.int m)) (.scalar, .scalar) = none
      from rfl]
    simp only
    rw [List.findSome?_cons, show cast2 fl false (.num (.scalar s)) (.num (.int m)) (.scalar, .double) = none
      from rfl]
    simp only
    rw [List.findSome?_cons, show cast2 fl false (.num (.scalar s)) (.num (.int m)) (.double, .scalar) = none
      from rfl]
    simp only
    rw [List.findSome?_cons, h2]
    rfl
  | fraction q => exact hn.elim
  | other => exact hn.elim

/-! ## The property -/

/-- C164, the part that holds: scalars compare with scalars, `float`s and `int`s of 64 bits, on either
side, as their values do, and `!=` is the opposite of `==`. -/
theorem C164_scalar_partial (fl : Floats K F) (same : ℕ → ℕ → Bool) (ne : Bool) (s : K)
    (n : Number K F) (hn : n.Plain) :
    pyCompare fl same ne (.num (.scalar s)) (.num n) =
      some (equalValues fl.value same (.num (.scalar s)) (.num n) != ne) ∧
    pyCompare fl same ne (.num n) (.num (.scalar s)) =
      some (equalValues fl.value same (.num n) (.num (.scalar s)) != ne) := by
  obtain ⟨t, ht⟩ : ∃ t, n.exact fl.value = some t := by
    cases n <;> first | exact ⟨_, rfl⟩ | exact hn.elim
  have h := scalarCompare_plain fl ne s t n hn ht
  have hs : (Number.scalar s : Number K F).exact fl.value = some s := rfl
  have e1 : equalValues fl.value same (.num (.scalar s)) (.num n) = decide (s = t) := by
    simp only [equalValues, hs, ht]
  have e2 : equalValues fl.value same (.num n) (.num (.scalar s)) = decide (s = t) := by
    simp only [equalValues, hs, ht]
    exact decide_eq_decide.2 eq_comm
  rw [e1, e2]
  refine ⟨by simp only [pyCompare, compareSlot, h], ?_⟩
  cases n with
  | scalar u =>
    cases ht
    have h' := scalarCompare_plain fl ne t s (.scalar s) trivial rfl
    simp only [pyCompare, compareSlot, h', eq_comm]
  | float a => simp only [pyCompare, compareSlot, Number.IsPlainPython, h]; rfl
  | int m => simp only [pyCompare, compareSlot, Number.IsPlainPython, h]; rfl
  | fraction q => exact hn.elim
  | other => exact hn.elim

/-- C164, the part that holds: an element compares with elements as their values do, and is not equal to
anything else but scalars, on either side; nothing is raised. -/
theorem C164_element_partial (fl : Floats K F) (same : ℕ → ℕ → Bool) (ne : Bool) (x : ℕ) (a : Arg K F)
    (ha : ∀ s, a ≠ .num (.scalar s)) :
    pyCompare fl same ne (.elem x) a = some (equalValues fl.value same (.elem x) a != ne) ∧
    pyCompare fl same ne a (.elem x) = some (equalValues fl.value same a (.elem x) != ne) := by
  cases a with
  | elem y => exact ⟨rfl, rfl⟩
  | num n =>
    cases n with
    | scalar s => exact (ha s rfl).elim
    | _ => cases ne <;> exact ⟨rfl, rfl⟩

/-- The hypotheses: `Scalar(1/2) == 0.5`, `2 != Scalar(1/2)`; `x == None` for an element. -/
example : (Number.float (1, 1) : Number ℚ (ℤ × ℕ)).Plain ∧
    pyCompare exampleFloats (fun _ _ => false) false (.num (.scalar (1 / 2))) (.num (.float (1, 1))) =
      some true ∧
    pyCompare exampleFloats (fun _ _ => false) true (.num (.int 2)) (.num (.scalar (1 / 2))) = some true ∧
    pyCompare exampleFloats (fun _ _ => false) false (.elem 0) (.num .other) = some false :=
  ⟨trivial, by decide +kernel, by decide +kernel, by decide +kernel⟩

/-- Refuted: that everything can be compared.  A scalar compared with an element or with an object that
is no number, such as `None`, raises a `TypeError`, on either side. -/
theorem C164_raises_refuted (fl : Floats K F) (same : ℕ → ℕ → Bool) (ne : Bool) (s : K) (x : ℕ) :
    pyCompare fl same ne (.num (.scalar s)) (.num .other) = none ∧
    pyCompare fl same ne (.num .other) (.num (.scalar s)) = none ∧
    pyCompare fl same ne (.num (.scalar s)) (.elem x) = none ∧
    pyCompare fl same ne (.elem x) (.num (.scalar s)) = none :=
  ⟨rfl, rfl, rfl, rfl⟩

/-- Refuted: that a scalar equals the fraction of the same value.  If no `double` equals `q`, then
`s == q` is false for every such scalar, and true for another. -/
theorem C164_fraction_refuted (fl : Floats K F) (same : ℕ → ℕ → Bool) (q : ℚ)
    (h : ∀ a, fl.value a ≠ (q : K)) :
    pyCompare fl same false (.num (.scalar (q : K))) (.num (.fraction q)) = some false ∧
    ∃ s : K, s ≠ q ∧ pyCompare fl same false (.num (.scalar s)) (.num (.fraction q)) = some true := by
  have key : ∀ s : K, pyCompare fl same false (.num (.scalar s)) (.num (.fraction q)) =
      some (decide (s = fl.value (fl.round q)) != false) := fun s => rfl
  refine ⟨?_, fl.value (fl.round q), h _, ?_⟩
  · rw [key, decide_eq_false (Ne.symm (h _))]
    rfl
  · rw [key, decide_eq_true rfl]
    rfl

/-- Refuted: that a scalar equals the integer of the same value.  Integers of more than 64 bits are
rounded to a `double` first, so if the `double` is another number, they are not equal to it. -/
theorem C164_large_refuted (fl : Floats K F) (same : ℕ → ℕ → Bool) (n : ℤ)
    (hn : n < -2 ^ 63 ∨ 2 ^ 63 ≤ n) (h : fl.value (fl.round n) ≠ (n : K)) :
    pyCompare fl same false (.num (.scalar (n : K))) (.num (.int n)) = some false := by
  have h0 : ¬ (-2 ^ 63 ≤ n ∧ n < 2 ^ 63) := by omega
  have h1 : cast fl false .longLong (.num (.int n)) = none := if_neg h0
  have h2 : scalarCompare fl false (.num (.scalar (n : K))) (.num (.int n)) =
      .answer (decide ((n : K) = fl.value (fl.round n)) != false) := by
    have h2 : cast2 fl false (.num (.scalar (n : K))) (.num (.int n)) (.scalar, .longLong) = none := by
      unfold cast2
      rw [h1]
      rfl
    unfold scalarCompare
    rw [show eqOverloads.findSome? (cast2 fl false (.num (.scalar (n : K))) (.num (.int n))) = none by
      rw [List.findSome?_eq_none_iff]
      intro o ho
      simp only [eqOverloads, List.mem_cons, List.not_mem_nil, or_false] at ho
      rcases ho with rfl | rfl | rfl | rfl | rfl
      · rfl
      · rfl
      · rfl
      · exact h2
      · rfl]
    rfl
  simp only [pyCompare, compareSlot, h2, decide_eq_false (Ne.symm h)]
  rfl

/-- The hypotheses: a number which `exampleFloats` would round if it had fewer places -/
example : ∃ fl : Floats ℚ (ℤ × ℕ), fl.value (fl.round (2 ^ 70 + 1 : ℤ)) ≠ ((2 ^ 70 + 1 : ℤ) : ℚ) ∧
    (2 : ℤ) ^ 63 ≤ 2 ^ 70 + 1 :=
  ⟨⟨fun a => a.1 / 2 ^ a.2, fun q => (⌊q / 2 ^ 20⌋ * 2 ^ 20, 0)⟩, by decide +kernel, by decide⟩

end RoughPy.PyOps
