import Mathlib.Data.List.Basic

/-!
Model of `CacheArray` (`roughpy_compute/common/cache_array.hpp`), the scratch arrays of the dense kernels
and of the loops over NumPy arrays.  `N` is the template parameter `InlineSize`.  Each array has its own
list of blocks, those it allocated; copies (which the class does not forbid and nobody makes) are not
modelled, nor is running out of memory.
-/

namespace RoughPy.CacheArr

/-- Result of a call: it returns or the behaviour is undefined. -/
inductive Out (α : Type) where
  | ok (a : α)
  | ub
  deriving DecidableEq, Repr

def Out.bind {α β : Type} : Out α → (α → Out β) → Out β
  | .ok a, f => f a
  | .ub, _ => .ub

/-- A block of the allocator: its elements, `none` where nothing was written, and whether it is still
allocated. -/
structure Block (α : Type) where
  cells : List (Option α)
  live : Bool
  deriving DecidableEq, Repr

/-- The members of `CacheArray` (`cache_array.hpp:30-35`): `ptr_` is `none` at the inline buffer or the
number of a block.  `alloc_` shares its bytes with the inline buffer; it is read only when
`is_inline()` is false, and the buffer is used only when `ptr_` points to it. -/
structure Arr (α : Type) where
  inl : List (Option α)
  blocks : List (Block α)
  ptr : Option ℕ
  size : ℕ
  alloc : ℕ
  deriving DecidableEq, Repr

variable {α : Type}

/-- `is_inline` (`cache_array.hpp:37-39`) -/
def Arr.isInline (N : ℕ) (a : Arr α) : Bool := decide (a.size ≤ N)

/-- `Traits::allocate`: the number of the new block and the blocks with it -/
def allocate (blocks : List (Block α)) (n : ℕ) : ℕ × List (Block α) :=
  (blocks.length, blocks ++ [⟨List.replicate n none, true⟩])

/-- `Traits::deallocate`: undefined unless the block is allocated and has that many elements -/
def deallocate (blocks : List (Block α)) (ptr : Option ℕ) (n : ℕ) : Out (List (Block α)) :=
  match ptr with
  | none => .ub
  | some k =>
    match blocks[k]? with
    | none => .ub
    | some b =>
      if b.live = true ∧ b.cells.length = n then .ok (blocks.set k ⟨b.cells, false⟩) else .ub

/-- The constructor (`cache_array.hpp:43-50`) -/
def make (α : Type) (N size : ℕ) : Arr α :=
  if N < size then
    ⟨List.replicate N none, (allocate [] size).2, some (allocate ([] : List (Block α)) size).1, size,
      size⟩
  else ⟨List.replicate N none, [], none, size, 0⟩

/-- `resize` (`cache_array.hpp:94-111`) -/
def Arr.resize (N : ℕ) (a : Arr α) (n : ℕ) : Out (Arr α) :=
  if a.isInline N then
    if N < n then
      .ok ⟨a.inl, (allocate a.blocks n).2, some (allocate a.blocks n).1, n, n⟩
    else .ok a
  else if a.alloc < n then
    (deallocate a.blocks a.ptr a.alloc).bind fun bs =>
      .ok ⟨a.inl, (allocate bs n).2, some (allocate bs n).1, n, n⟩
  else .ok { a with size := n }

/-- Reading through `operator[]` (`cache_array.hpp:59-68`) in a build without assertions -/
def Arr.get (a : Arr α) (i : ℕ) : Out α :=
  match a.ptr with
  | none =>
    match a.inl[i]? with
    | some (some x) => .ok x
    | _ => .ub
  | some k =>
    match a.blocks[k]? with
    | some b =>
      if b.live then
        match b.cells[i]? with
        | some (some x) => .ok x
        | _ => .ub
      else .ub
    | none => .ub

/-- Writing through `operator[]` (`cache_array.hpp:65-68`) in a build without assertions -/
def Arr.set (a : Arr α) (i : ℕ) (x : α) : Out (Arr α) :=
  match a.ptr with
  | none =>
    if i < a.inl.length then .ok { a with inl := a.inl.set i (some x) } else .ub
  | some k =>
    match a.blocks[k]? with
    | some b =>
      if b.live = true ∧ i < b.cells.length then
        .ok { a with blocks := a.blocks.set k ⟨b.cells.set i (some x), b.live⟩ }
      else .ub
    | none => .ub

/-- `capacity` (`cache_array.hpp:74-76`) -/
def Arr.capacity (N : ℕ) (a : Arr α) : ℕ := if a.isInline N then N else a.alloc

/-- The destructor (`cache_array.hpp:52-56`): the blocks afterwards -/
def Arr.destroy (N : ℕ) (a : Arr α) : Out (List (Block α)) :=
  if a.isInline N then .ok a.blocks else deallocate a.blocks a.ptr a.size

/-- One use of an array -/
inductive Op (α : Type) where
  | resize (n : ℕ)
  | set (i : ℕ) (x : α)

/-- One use of an array -/
def Arr.step (N : ℕ) (a : Arr α) : Op α → Out (Arr α)
  | .resize n => a.resize N n
  | .set i x => a.set i x

/-- A sequence of uses -/
def Arr.run (N : ℕ) (a : Arr α) : List (Op α) → Out (Arr α)
  | [] => .ok a
  | o :: os => (a.step N o).bind fun b => b.run N os

end RoughPy.CacheArr
