import Verif.Lite.HandleModel
import Verif.Lite.ContextSpec

/-!
# What programs on elements should compute

A program is read in the algebra: a variable is unset or holds a storage type and a value.  An unset
variable counts as zero; a result takes the storage type of the left operand.
-/

namespace RoughPy.Handles

open RoughPy.Lite RoughPy.Tensor RoughPy.Tensor.Series

variable {K V : Type} [Field K] {w : ℕ}

/-- A variable of the specification. -/
abbrev Var (w : ℕ) (K : Type) := Option (VecType × Series (Fin w) K)

/-- The value of a variable; unset stands for zero. -/
def Var.value : Var w K → Series (Fin w) K
  | none => 0
  | some (_, f) => f

/-- A result of type and value from a left operand `a` and the value of the right operand `b`. -/
def Var.combine (op : Series (Fin w) K → Series (Fin w) K → Series (Fin w) K) (a b : Var w K) :
    Var w K :=
  match a, b with
  | some (t, f), _ => some (t, op f b.value)
  | none, some (t, g) => some (t, op 0 g)
  | none, none => none

/-- the value changed, the storage type kept -/
def Var.change (op : Series (Fin w) K → Series (Fin w) K) : Var w K → Var w K
  | some (t, f) => some (t, op f)
  | none => none

/-- The variable a statement assigns gets this, where `mul` is the product of the algebra. -/
def Stmt.meaning (mul : Series (Fin w) K → Series (Fin w) K → Series (Fin w) K)
    (σ : ℕ → Var w K) : Stmt K → Var w K
  | .copy _ y => σ y
  | .neg _ y => (σ y).change fun f => -f
  | .add _ y z => (σ y).combine (fun f g => f + g) (σ z)
  | .sub _ y z => (σ y).combine (fun f g => f - g) (σ z)
  | .mul _ y z => (σ y).combine mul (σ z)
  | .smul _ y s => (σ y).change fun f => s • f
  | .sdiv _ y s => (σ y).change fun f => s⁻¹ • f
  | .addIn x y => (σ x).combine (fun f g => f + g) (σ y)
  | .subIn x y => (σ x).combine (fun f g => f - g) (σ y)
  | .mulIn x y => (σ x).combine mul (σ y)
  | .smulIn x s => (σ x).change fun f => s • f
  | .sdivIn x s => (σ x).change fun f => s⁻¹ • f
  | .addScalMul x y s => (σ x).combine (fun f g => f + s • g) (σ y)
  | .subScalMul x y s => (σ x).combine (fun f g => f - s • g) (σ y)
  | .addScalDiv x y s => (σ x).combine (fun f g => f + s⁻¹ • g) (σ y)
  | .subScalDiv x y s => (σ x).combine (fun f g => f - s⁻¹ • g) (σ y)
  | .addMul x y z => (σ x).change fun f => f + mul (σ y).value (σ z).value
  | .subMul x y z => (σ x).change fun f => f - mul (σ y).value (σ z).value
  | .mulSmul x y s => (σ x).change fun f => mul f (s • (σ y).value)
  | .mulSdiv x y s => (σ x).change fun f => mul f (s⁻¹ • (σ y).value)

/-- When a statement is covered.  `clears t`: multiplying by zero is harmless for storage type
`t`.
* A sum or difference needs its left operand set, unless the right one is unset too.
* A product needs its operands both set or both unset.
* Divisors are not zero.
* `x -= x` needs dense storage.
* An in-place product by zero needs `clears`. -/
def Stmt.Safe (depth : ℕ) (clears : VecType → Prop) (σ : ℕ → Var w K) : Stmt K → Prop
  | .copy _ _ | .neg _ _ | .smul _ _ _ | .smulIn _ _ => True
  | .add _ y z | .sub _ y z => σ y = none → σ z = none
  | .mul _ y z => σ y = none ↔ σ z = none
  | .sdiv _ y s => σ y ≠ none → s ≠ 0
  | .addIn x y => σ x = none → σ y = none
  | .subIn x y => (σ x = none → σ y = none) ∧ (x = y → ∀ f, σ x ≠ some (.sparse, f))
  | .mulIn x y => (σ x = none ↔ σ y = none) ∧
      ∀ t f, σ x = some (t, f) → clears t ∨ ¬ EqUpTo depth (σ y).value 0
  | .sdivIn x s => σ x ≠ none → s ≠ 0
  | .addScalMul x y _ | .subScalMul x y _ => σ x = none → σ y = none
  | .addScalDiv x y s | .subScalDiv x y s => (σ x = none → σ y = none) ∧ (σ y ≠ none → s ≠ 0)
  | .addMul x y z | .subMul x y z => σ x = none → σ y = none ∨ σ z = none
  | .mulSmul x y s => (σ x = none → σ y = none ∨ s = 0) ∧
      ∀ t f, σ x = some (t, f) → clears t ∨ ¬ EqUpTo depth (s • (σ y).value) 0
  | .mulSdiv x y s => (σ x = none → σ y = none) ∧ (σ y ≠ none → s ≠ 0) ∧
      ∀ t f, σ x = some (t, f) → clears t ∨ ¬ EqUpTo depth (σ y).value 0

/-- A program in the algebra. -/
def meaning (mul : Series (Fin w) K → Series (Fin w) K → Series (Fin w) K) :
    List (Stmt K) → (ℕ → Var w K) → ℕ → Var w K
  | [], σ => σ
  | i :: p, σ => meaning mul p (Function.update σ i.target (i.meaning mul σ))

/-- Every statement is covered when it is reached. -/
def Safe (mul : Series (Fin w) K → Series (Fin w) K → Series (Fin w) K) (depth : ℕ)
    (clears : VecType → Prop) : List (Stmt K) → (ℕ → Var w K) → Prop
  | [], _ => True
  | i :: p, σ => i.Safe depth clears σ ∧
      Safe mul depth clears p (Function.update σ i.target (i.meaning mul σ))

/-- A variable of the program holds what the specification says: `den` relates vectors and
values. -/
def Holds (storage : V → VecType) (den : V → Series (Fin w) K → Prop) (ctx : ℕ) :
    Handle V → Var w K → Prop
  | none, none => True
  | some a, some (t, f) => a.ctx = ctx ∧ storage a.val = t ∧ den a.val f
  | _, _ => False

/-- A tensor of depth `depth` with value `f`, as all operations but `clear` leave it: a dense tensor
without coefficients has degree zero. -/
def IsNormalTensor (w depth : ℕ) (x : Stored K) (f : Series (Fin w) K) : Prop :=
  IsTensor w depth x f ∧ ∀ v, x = .dense v → v.storage = [] → v.degree = 0

/-- multiplying by zero is harmless for sparse tensors -/
def TensorClears (t : VecType) : Prop := t = .sparse

/-- multiplying by zero is harmless for Lie elements -/
def LieClears (_ : VecType) : Prop := True

/-! ## Contexts, coefficients and pairings -/

/-- The variables whose values a statement combines. -/
def Stmt.operands : Stmt K → List ℕ
  | .copy _ y | .neg _ y | .smul _ y _ | .sdiv _ y _ => [y]
  | .smulIn x _ | .sdivIn x _ => [x]
  | .add _ y z | .sub _ y z | .mul _ y z => [y, z]
  | .addIn x y | .subIn x y | .mulIn x y | .addScalMul x y _ | .subScalMul x y _
  | .addScalDiv x y _ | .subScalDiv x y _ | .mulSmul x y _ | .mulSdiv x y _ => [x, y]
  | .addMul x y z | .subMul x y z => [x, y, z]

/-- The statement multiplies by the scalar zero as it adds, subtracts or multiplies. -/
def Stmt.FusedZero : Stmt K → Prop
  | .addScalMul _ _ s | .subScalMul _ _ s | .mulSmul _ _ s => s = 0
  | _ => False

/-- The statement divides by zero. -/
def Stmt.DividesByZero : Stmt K → Prop
  | .sdiv _ _ s | .sdivIn _ s | .addScalDiv _ _ s | .subScalDiv _ _ s | .mulSdiv _ _ s => s = 0
  | _ => False

/-- `c` is the context of a width and a depth. -/
def IsContext (c : LiteCtx) : Prop :=
  1 ≤ c.width ∧ 1 ≤ c.depth ∧ LiteCtx.new c.width c.depth = some c

/-- Free tensors in the contexts `c 0`, `c 1`, …. -/
def TensorContexts [DecidableEq K] (c : ℕ → LiteCtx) (W : Contexts K (Stored K)) : Prop :=
  ∀ i, IsContext (c i) ∧ W.width i = (c i).width ∧ W.vectors i = tensorVectors (c i)

/-- Lie elements in the contexts `c 0`, `c 1`, …, with recursions bounded by `n₀ i` or more in
context `i`; what was computed before does not matter. -/
def LieContexts [DecidableEq K] (c : ℕ → LiteCtx) (n₀ : ℕ → ℕ) (W : Contexts K (Stored K)) : Prop :=
  ∀ i, W.width i = (c i).width ∧ ∃ fuel ≥ n₀ i, ∃ cache st, LieHistory (c i).width cache ∧
    MapsHistory (c i).width (c i).depth (c i).hs st ∧ W.vectors i = lieVectors (c i) fuel cache st

/-- The words of length up to `depth`. -/
def wordsUpTo (w depth : ℕ) : Finset (List (Fin w)) :=
  (Finset.range (depth + 1)).biUnion fun n =>
    Finset.univ.image fun v : Fin n → Fin w => List.ofFn v

/-- The tensor `arg` stores a coefficient, possibly zero, for each that `shuf` stores. -/
def Covers (w : ℕ) : Stored K → Stored K → Prop
  | .sparse _, _ => True
  | .dense v, .dense s => s.storage.length ≤ v.storage.length
  | .dense v, .sparse s => ∀ t ∈ s, ∀ u : List (Fin w), (⟨u.length, wordOffset u⟩ : Key) = t.1 →
      wordIndex u < v.storage.length

end RoughPy.Handles
