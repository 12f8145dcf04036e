import Verif.Streams.Spec
import Mathlib.Tactic.Ring
import Mathlib.Tactic.FieldSimp
import Mathlib.Algebra.Group.Defs

/-!
# A concrete Lie library

Width 2, depth 1 and 2: Lie elements `x·e₁ + y·e₂ + z·[e₁,e₂]` with rational coefficients, the
Campbell–Baker–Hausdorff product `u * v = u + v + ½[u, v]`, truncated to degree 1 for depth 1.
Used for the witnesses and for showing that the hypotheses of the stream theorems can be met
by a non-commutative algebra.
-/

namespace RoughPy.Streams

/-- A Lie element of width 2 and depth 2. -/
structure Heis where
  x : ℚ
  y : ℚ
  z : ℚ
deriving DecidableEq, Repr

namespace Heis

@[ext] theorem ext' {a b : Heis} (h1 : a.x = b.x) (h2 : a.y = b.y) (h3 : a.z = b.z) : a = b := by
  cases a; cases b; simp_all

/-- The CBH product. -/
def mul (a b : Heis) : Heis := ⟨a.x + b.x, a.y + b.y, a.z + b.z + (a.x * b.y - a.y * b.x) / 2⟩

instance : Monoid Heis where
  mul := mul
  one := ⟨0, 0, 0⟩
  mul_assoc a b c := by
    show mul (mul a b) c = mul a (mul b c)
    ext <;> simp only [mul] <;> ring
  one_mul a := by
    show mul ⟨0, 0, 0⟩ a = a
    ext <;> simp [mul]
  mul_one a := by
    show mul a ⟨0, 0, 0⟩ = a
    ext <;> simp [mul]

theorem mul_def (a b : Heis) : a * b = mul a b := rfl

/-- Drop what the depth does not hold. -/
def trunc (depth : ℕ) (a : Heis) : Heis :=
  if depth ≥ 2 then a else if depth = 1 then ⟨a.x, a.y, 0⟩ else ⟨0, 0, 0⟩

/-- The Lie library at a given depth. -/
def ops (depth : ℕ) : LieOps Heis where
  zero := ⟨0, 0, 0⟩
  isZero := fun a => decide (trunc depth a = ⟨0, 0, 0⟩)
  cbh := fun ls => trunc depth (ls.foldl mul ⟨0, 0, 0⟩)

theorem foldl_mul (ls : List Heis) (a : Heis) : ls.foldl mul a = a * ls.prod := by
  induction ls generalizing a with
  | nil => simp
  | cons b ls ih =>
    rw [List.foldl_cons, ih, List.prod_cons, ← mul_assoc]
    rfl

/-- At depth 2 the signature map can be taken to be the identity (a Lie element stands for its
exponential). -/
theorem interprets : Interprets (ops 2) (fun a : Heis => a) where
  zero := rfl
  isZero a h := by
    show a = ⟨0, 0, 0⟩
    simpa [ops, trunc] using h
  cbh ls := by
    simp only [ops, trunc, ge_iff_le, le_refl, if_true, List.map_id']
    rw [foldl_mul]
    exact one_mul _

example : (⟨1, 0, 0⟩ : Heis) * ⟨0, 1, 0⟩ ≠ ⟨0, 1, 0⟩ * ⟨1, 0, 0⟩ := by decide +kernel

end Heis

end RoughPy.Streams
