import Verif.PyOps.Model
import Verif.Lite.HandleSpec

/-!
# What arithmetic written in Python should compute

Elements are added, subtracted and multiplied with elements, and multiplied with and divided by
numbers, which stand for their exact values.  `Var` and `Holds`: `Verif/Lite/HandleSpec.lean`.
-/

namespace RoughPy.PyOps

open RoughPy.Handles RoughPy.Lite RoughPy.Tensor RoughPy.Tensor.Series

variable {K F : Type} [Field K] {w : ℕ}

/-- The value of a number: `value` gives those of `float`s. -/
def Number.exact (value : F → K) : Number K F → Option K
  | .scalar s => some s
  | .float a => some (value a)
  | .int n => some (n : K)
  | .fraction q => some (q : K)
  | .other => none

/-- `f op a` for an element `f`; nothing if this is not an operation. -/
def operate (value : F → K)
    (mul : Series (Fin w) K → Series (Fin w) K → Series (Fin w) K) (σ : ℕ → Var w K) (op : Op)
    (f : Var w K) (a : Arg K F) : Option (Var w K) :=
  match op, a with
  | .add, .elem z => some (f.combine (fun f g => f + g) (σ z))
  | .sub, .elem z => some (f.combine (fun f g => f - g) (σ z))
  | .mul, .elem z => some (f.combine mul (σ z))
  | .mul, .num n => (n.exact value).map fun s => f.change fun f => s • f
  | .div, .num n => (n.exact value).map fun s => f.change fun f => s⁻¹ • f
  | _, _ => none

/-- The variable a statement assigns. -/
def PyStmt.assigns : PyStmt K F → ℕ
  | .neg x _ | .bin _ x _ _ | .rbin _ x _ _ | .inp _ x _ => x

/-- What a statement assigns; nothing if it is not an operation. -/
def PyStmt.meaning (value : F → K)
    (mul : Series (Fin w) K → Series (Fin w) K → Series (Fin w) K) (σ : ℕ → Var w K) :
    PyStmt K F → Option (Var w K)
  | .neg _ y => some ((σ y).change fun f => -f)
  | .bin op _ y a => operate value mul σ op (σ y) a
  | .rbin .mul _ n y => operate value mul σ .mul (σ y) (.num n)
  | .rbin _ _ _ _ => none
  | .inp op x a => operate value mul σ op (σ x) a

/-- The numbers that are passed on as they are: scalars, `float`s and `int`s of 64 bits. -/
def Number.Plain : Number K F → Prop
  | .scalar _ | .float _ => True
  | .int n => -2 ^ 63 ≤ n ∧ n < 2 ^ 63
  | .fraction _ | .other => False

/-- The number is an `rp.Scalar`. -/
def Number.IsScalar : Number K F → Prop
  | .scalar _ => True
  | _ => False

/-- A number of Python itself -/
def Number.IsPlainPython : Number K F → Bool
  | .float _ | .int _ | .fraction _ => true
  | .scalar _ | .other => false

/-- Two objects are equal: the same element, or numbers with the same value. -/
def equalValues [DecidableEq K] (value : F → K) (same : ℕ → ℕ → Bool) : Arg K F → Arg K F → Bool
  | .elem x, .elem y => same x y
  | .num n, .num m =>
    match n.exact value, m.exact value with
    | some p, some q => decide (p = q)
    | _, _ => false
  | _, _ => false

/-- When a statement is covered.
* Sums and products need both elements set.
* Numbers are plain and meet an element that is set; divisors are not zero.
* No `y / s` and no `s * y` for an `rp.Scalar` `s`; `x /= s` is covered.
* `x -= x` needs dense storage.
* An in-place product by zero needs `clears`. -/
def PyStmt.Covered (value : F → K) (depth : ℕ) (clears : VecType → Prop) (σ : ℕ → Var w K) :
    PyStmt K F → Prop
  | .neg _ _ => True
  | .bin .div _ y (.num n) =>
      σ y ≠ none ∧ n.Plain ∧ ¬ n.IsScalar ∧ n.exact value ≠ some 0
  | .bin .mul _ y (.num n) => σ y ≠ none ∧ n.Plain
  | .bin .div _ _ (.elem _) => False
  | .bin _ _ y (.elem z) => σ y ≠ none ∧ σ z ≠ none
  | .bin _ _ _ (.num _) => False
  | .rbin .mul _ n y => σ y ≠ none ∧ n.Plain ∧ ¬ n.IsScalar
  | .rbin _ _ _ _ => False
  | .inp .div x (.num n) => σ x ≠ none ∧ n.Plain ∧ n.exact value ≠ some 0
  | .inp .mul x (.num n) => σ x ≠ none ∧ n.Plain
  | .inp .add x (.elem z) => σ x ≠ none ∧ σ z ≠ none
  | .inp .sub x (.elem z) => σ x ≠ none ∧ σ z ≠ none ∧ (x = z → ∀ f, σ x ≠ some (.sparse, f))
  | .inp .mul x (.elem z) => σ x ≠ none ∧ σ z ≠ none ∧
      ∀ t f, σ x = some (t, f) → clears t ∨ ¬ EqUpTo depth (σ z).value 0
  | .inp _ _ _ => False

/-- A program in the algebra: nothing once a statement is not an operation. -/
def pyMeaning (value : F → K) (mul : Series (Fin w) K → Series (Fin w) K → Series (Fin w) K) :
    List (PyStmt K F) → (ℕ → Var w K) → Option (ℕ → Var w K)
  | [], σ => some σ
  | i :: p, σ => do
    let r ← i.meaning value mul σ
    pyMeaning value mul p (Function.update σ i.assigns r)

/-- Every statement is covered when it is reached. -/
def PyCovered (value : F → K) (mul : Series (Fin w) K → Series (Fin w) K → Series (Fin w) K)
    (depth : ℕ) (clears : VecType → Prop) : List (PyStmt K F) → (ℕ → Var w K) → Prop
  | [], _ => True
  | i :: p, σ => i.Covered value depth clears σ ∧
      ∀ r, i.meaning value mul σ = some r →
        PyCovered value mul depth clears p (Function.update σ i.assigns r)

/-- The operators on numbers. -/
def Op.apply [DecidableEq K] : Op → K → K → Option K
  | .add, a, b => some (a + b)
  | .sub, a, b => some (a - b)
  | .mul, a, b => some (a * b)
  | .div, a, b => if b = 0 then none else some (a / b)

end RoughPy.PyOps
