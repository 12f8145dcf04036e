import Verif.Launch.Model

/-! What launch parameters mean: a box of work items, cut into groups of equal size. -/

namespace RoughPy.Launch

/-- One of the three directions -/
inductive Dir | x | y | z
deriving DecidableEq, Repr

def Dim3.at (d : Dim3) : Dir → ℕ
  | .x => d.x
  | .y => d.y
  | .z => d.z

/-- Directions are used in order: a direction has a size only if the ones before have. -/
def Dim3.Ordered (d : Dim3) : Prop := (0 < d.z → 0 < d.y) ∧ (0 < d.y → 0 < d.x)

/-- The number of items in a box; a direction that is not used counts once. -/
def Dim3.volume (d : Dim3) : ℕ := d.x * max d.y 1 * max d.z 1

/-- The number of directions with a size -/
def Dim3.used (d : Dim3) : ℕ := ([d.x, d.y, d.z].filter (0 < ·)).length

/-- `n` groups of `g` items are the fewest that hold `w` items. -/
def Fewest (n g w : ℕ) : Prop := w ≤ n * g ∧ ∀ m, w ≤ m * g → n ≤ m

/-- How many bits are set in a word -/
def bitsSet (w : BitVec 64) : ℕ := ((List.range 64).filter (fun i => w.getLsbD i)).length

/-- How many bits are set in a mask -/
def maskSet (l : List (BitVec 64)) : ℕ := (l.map bitsSet).sum

end RoughPy.Launch
