import Verif.HostMem.Model

/-! What the properties of memory on the host device are about. -/

namespace RoughPy.HostMem

/-- The memory holds exactly the values `xs`: it says it has that many elements, it has a block, the
block is large enough, and the first elements in it are those values. -/
def Holds {α : Type} (m : Mem α) (xs : List α) : Prop :=
  m.n = xs.length ∧ ∃ b, m.data = some b ∧ xs.length * m.ty.size ≤ b.cap ∧
    ∃ rest, b.cells = xs.map some ++ rest

/-- The number is a power of two -/
def PowerOfTwo (a : ℕ) : Prop := ∃ k, a = 2 ^ k

end RoughPy.HostMem
