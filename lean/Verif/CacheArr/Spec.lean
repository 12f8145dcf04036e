import Verif.CacheArr.Model
import Mathlib.Logic.Function.Basic

/-! What an array is: a size and what was last written to each element since it got that size. -/

namespace RoughPy.CacheArr

variable {α : Type}

/-- A size and the elements written -/
structure Content (α : Type) where
  size : ℕ
  at_ : ℕ → Option α

/-- A new array has the size asked for and nothing is written. -/
def Content.new (α : Type) (n : ℕ) : Content α := ⟨n, fun _ => none⟩

/-- Giving a new size forgets the elements; writing changes one. -/
def Content.step (c : Content α) : Op α → Content α
  | .resize n => .new α n
  | .set i x => ⟨c.size, Function.update c.at_ i (some x)⟩

/-- The history only writes to elements that exist. -/
def InRange : Content α → List (Op α) → Prop
  | _, [] => True
  | c, .resize n :: os => InRange (c.step (.resize n)) os
  | c, .set i x :: os => i < c.size ∧ InRange (c.step (.set i x)) os

/-- The history only gives sizes that are larger than the inline buffer and the size before. -/
def Grows (N : ℕ) : ℕ → List (Op α) → Prop
  | _, [] => True
  | s, .resize n :: os => N < n ∧ s < n ∧ Grows N n os
  | s, .set _ _ :: os => Grows N s os

end RoughPy.CacheArr
