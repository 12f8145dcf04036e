import Mathlib.Logic.Function.Basic
import Mathlib.Data.List.Basic

/-!
# Arrays of values of run-time type

`generics::Array` (`platform/src/generics/array.cpp`, `platform/include/roughpy/generics/array.h`).  An
array keeps its elements in a block of memory that it owns; the elements are made, copied and destroyed
by the type it is given when it is made.

Memory is modelled as blocks of cells that are never allocated again.  A cell holds an object or is
uninitialised.  Behaviour that C++ leaves undefined is the outcome `none`.  Not modelled: running out of
memory, the alignment, products of a capacity and an object size beyond 64 bits, and the reference count of
the type.
-/

namespace RoughPy.GenArr

variable {V : Type}

/-- Element types fall in two kinds.  `plain`: numbers of the machine, whose constructors and destructors
do nothing (`builtin_types/builtin_type_methods.h:105-150`).  `managed`: integers, fractions and floating
point numbers of arbitrary precision and polynomials, which own memory
(`multiprecision_types/integer_type.cpp:97-160`, `rational_type.cpp:95-159`, `float_type.cpp:78-143`,
`polynomial_type/polynomial_type.cpp:87-133`). -/
inductive Kind where
  | plain
  | managed
  deriving DecidableEq

/-- one place for an element -/
inductive Cell (V : Type) where
  | raw
  | live (v : V)
  deriving DecidableEq

def Cell.isLive : Cell V → Bool
  | .raw => false
  | .live _ => true

/-- A block of memory.  The kind of its elements is used only to count lost objects. -/
structure Block (V : Type) where
  cap : ℕ
  kind : Kind
  cells : ℕ → Cell V
  freed : Bool

/-- Memory: the blocks below `next` have been allocated; `lost` counts objects that own memory and whose
storage was freed or overwritten without destroying them. -/
structure Heap (V : Type) where
  next : ℕ
  block : ℕ → Block V
  lost : ℕ

/-- `mem::aligned_alloc` (`platform/src/alloc.cpp:17-20`).  For no bytes it is a block without cells. -/
def Heap.alloc (h : Heap V) (k : Kind) (cap : ℕ) : Heap V × ℕ :=
  (⟨h.next + 1, Function.update h.block h.next ⟨cap, k, fun _ => .raw, false⟩, h.lost⟩, h.next)

/-- The cell at a place, if the place is in a block in use. -/
def Heap.cell (h : Heap V) (b i : ℕ) : Option (Cell V) :=
  if b < h.next ∧ (h.block b).freed = false ∧ i < (h.block b).cap then some ((h.block b).cells i) else none

def Heap.setCell (h : Heap V) (b i : ℕ) (c : Cell V) : Heap V :=
  let B := h.block b
  ⟨h.next, Function.update h.block b ⟨B.cap, B.kind, Function.update B.cells i c, B.freed⟩, h.lost⟩

/-- reading an object; reading an uninitialised one is undefined -/
def Heap.read (h : Heap V) (b i : ℕ) : Option V :=
  match h.cell b i with
  | some (.live v) => some v
  | _ => none

/-- `mem::aligned_free` (`platform/src/alloc.cpp:22-26`); for the null pointer it does nothing.  The objects
still in the block are lost if they own memory. -/
def Heap.free (h : Heap V) : Option ℕ → Option (Heap V)
  | none => some h
  | some b =>
    let B := h.block b
    if b < h.next ∧ B.freed = false then
      some ⟨h.next, Function.update h.block b ⟨B.cap, B.kind, B.cells, true⟩,
        h.lost + if B.kind = .managed then
          ((List.range B.cap).filter fun i => (B.cells i).isLive).length else 0⟩
    else none

/-- One step of `copy_or_fill`.  For the machine's numbers the flag `uninit` makes no difference
(`builtin_type_methods.h:105-142`).  For the others `uninit` makes a new object (`mpz_init`, then `mpz_set`;
`uninitialized_copy_n`), so that an object already there is lost; otherwise the object there is assigned to
(`mpz_set`; `copy_n`), which is undefined if there is none. -/
def Heap.put (h : Heap V) (k : Kind) (uninit : Bool) (b i : ℕ) (v : V) : Option (Heap V) :=
  match h.cell b i, k, uninit with
  | none, _, _ => none
  | some _, .plain, _ => some (h.setCell b i (.live v))
  | some .raw, .managed, true => some (h.setCell b i (.live v))
  | some (.live _), .managed, true =>
    let h' := h.setCell b i (.live v)
    some ⟨h'.next, h'.block, h'.lost + 1⟩
  | some .raw, .managed, false => none
  | some (.live _), .managed, false => some (h.setCell b i (.live v))

/-- The loop of `copy_or_fill` from the `j`-th element on: `n` elements are written at `doff` and further. -/
def putLoop (k : Kind) (uninit : Bool) (b doff : ℕ) (source : ℕ → Heap V → Option V) :
    ℕ → ℕ → Heap V → Option (Heap V)
  | _, 0, h => some h
  | j, n + 1, h =>
    (source j h).bind fun v => (h.put k uninit b (doff + j) v).bind fun h =>
      putLoop k uninit b doff source (j + 1) n h

/-- `Type::copy_or_fill(dst, src, count, uninit)`: without a source the range is filled with zeros.  The
built-in types return at once for no destination, the others do not look (in a release build).  The value
is read before the destination is touched; the types of arbitrary precision initialise first, which
differs only if source and destination are the same. -/
def copyOrFill (zero : V) (k : Kind) (h : Heap V) (dst : Option ℕ) (doff : ℕ) (src : Option ℕ)
    (count : ℕ) (uninit : Bool) : Option (Heap V) :=
  if count = 0 then some h
  else
    match dst, k with
    | none, .plain => some h
    | none, .managed => none
    | some b, k =>
      match src with
      | none => putLoop k uninit b doff (fun _ _ => some zero) 0 count h
      | some s => putLoop k uninit b doff (fun j h => h.read s j) 0 count h

/-- the loop of `destroy_range` for the types that own memory (`mpz_clear`, `destroy_n`) -/
def clearLoop (b off : ℕ) : ℕ → Heap V → Option (Heap V)
  | 0, h => some h
  | n + 1, h =>
    match h.cell b off with
    | some (.live _) => clearLoop b (off + 1) n (h.setCell b off .raw)
    | _ => none

/-- `Type::destroy_range`; nothing for the machine's numbers (`builtin_type_methods.h:144-150`). -/
def destroyRange (k : Kind) (h : Heap V) (data : Option ℕ) (off count : ℕ) : Option (Heap V) :=
  match k with
  | .plain => some h
  | .managed =>
    if count = 0 then some h
    else
      match data with
      | none => none
      | some b => clearLoop b off count h

/-- the members of an array (`array.h:19-23`) -/
structure Arr where
  type : Option Kind
  size : ℕ
  cap : ℕ
  data : Option ℕ
  deriving DecidableEq

/-- `Array()` (`array.h:26`) -/
def Arr.empty : Arr := ⟨none, 0, 0, none⟩

/-- `Array(type, size)` (`array.cpp:25-35`) -/
def Arr.make (zero : V) (h : Heap V) (k : Kind) (size : ℕ) : Option (Heap V × Arr) :=
  if size ≠ 0 then
    let (h, b) := h.alloc k size
    (copyOrFill zero k h (some b) 0 none size true).map fun h => (h, ⟨some k, size, size, some b⟩)
  else some (h, ⟨some k, size, size, none⟩)

/-- `~Array()` (`array.cpp:37-44`) -/
def Arr.destroy (h : Heap V) (a : Arr) : Option (Heap V) :=
  match a.type with
  | some k =>
    if a.size ≠ 0 then (destroyRange k h a.data 0 a.size).bind fun h => h.free a.data
    else h.free a.data
  | none => h.free a.data

/-- `Array::copy_from` (`array.cpp:107-115`).  The members are overwritten, whatever they were; for an array
without a type the null pointer is followed.  `same`: the other array is this one, so that its data is
read from the new block. -/
def Arr.copyFrom (zero : V) (h : Heap V) (other : Arr) (same : Bool) : Option (Heap V × Arr) :=
  match other.type with
  | none => none
  | some k =>
    let (h, b) := h.alloc k other.cap
    (copyOrFill zero k h (some b) 0 (if same then some b else other.data) other.size true).map fun h =>
      (h, ⟨some k, other.size, other.cap, some b⟩)

/-- `Array::reserve` for an array with a type (`array.cpp:91-105`): the old elements are copied as if there
were elements in the new block, and are not destroyed. -/
def Arr.reserve (zero : V) (h : Heap V) (k : Kind) (a : Arr) (capacity : ℕ) : Option (Heap V × Arr) :=
  if capacity > a.cap then
    let (h, b) := h.alloc k capacity
    (copyOrFill zero k h (some b) 0 a.data a.size false).bind fun h =>
      (h.free a.data).map fun h => (h, { a with cap := capacity, data := some b })
  else some (h, a)

/-- `Array::resize` for an array with a type (`array.cpp:67-89`) -/
def Arr.resize (zero : V) (h : Heap V) (k : Kind) (a : Arr) (size : ℕ) : Option (Heap V × Arr) :=
  if size < a.size then
    (destroyRange k h a.data size (a.size - size)).map fun h => (h, { a with size := size })
  else if size > a.size then
    (a.reserve zero h k size).bind fun (h, a) =>
      (copyOrFill zero k h a.data a.size none (size - a.size) true).map fun h =>
        (h, { a with size := size })
  else some (h, { a with size := size })

/-- What a program does with its variables.  A constructor first ends the life of the object that the
variable held. -/
inductive Op (V : Type) where
  | clear (x : ℕ)
  | make (x : ℕ) (k : Kind) (size : ℕ)
  | copyNew (x y : ℕ)
  | moveNew (x y : ℕ)
  | copyAssign (x y : ℕ)
  | moveAssign (x y : ℕ)
  | resize (x n : ℕ)
  | reserve (x n : ℕ)
  | write (x i : ℕ) (v : V)
  | read (x i : ℕ)
  | get (x i : ℕ)
  | size (x : ℕ)

/-- what a program sees of a step -/
inductive Out (V : Type) where
  | done
  | value (v : V)
  | absent
  | number (n : ℕ)
  | noType
  | badIndex
  deriving DecidableEq

structure State (V : Type) where
  heap : Heap V
  vars : ℕ → Arr

/-- all variables hold `Array()` -/
def State.init (zero : V) : State V :=
  ⟨⟨0, fun _ => ⟨0, .plain, fun _ => .live zero, true⟩, 0⟩, fun _ => Arr.empty⟩

def State.set (s : State V) (x : ℕ) (r : Heap V × Arr) : State V :=
  ⟨r.1, Function.update s.vars x r.2⟩

/-- the members after `Array(Array&&)` or `operator=(Array&&)` (`array.cpp:13-23`, `52-65`): those of `y` go
to `x`, then `y` is left without data.  The pointer to the type is moved, which for the same variable leaves
it in place (`boost::intrusive_ptr`). -/
def State.moveMembers (s : State V) (x y : ℕ) : State V :=
  let a := s.vars y
  let vars := Function.update s.vars x a
  ⟨s.heap, Function.update vars y ⟨if x = y then a.type else none, 0, 0, none⟩⟩

/-- `validate_idx` (`array.cpp:117-126`), then `f` -/
def State.at (s : State V) (x i : ℕ) (f : Kind → Option (State V × Out V)) : Option (State V × Out V) :=
  match (s.vars x).type with
  | none => some (s, .noType)
  | some k => if i ≥ (s.vars x).size then some (s, .badIndex) else f k

/-- the element at an index of an array (`ptr_at_unsafe`, `array.h:136-150`) -/
def State.element (s : State V) (x i : ℕ) : Option V :=
  (s.vars x).data.bind fun b => s.heap.read b i

/-- One operation.  `read` and `write` are `operator[]` followed by reading or assigning to the reference
(`array.h:77-91`); assigning a value of the same type is `copy_or_fill` of one element
that exists; `get` is `get(i)` (`array.h:93-101`). -/
def step (zero : V) (s : State V) : Op V → Option (State V × Out V)
  | .clear x => ((s.vars x).destroy s.heap).map fun h => (s.set x (h, Arr.empty), .done)
  | .make x k n => ((s.vars x).destroy s.heap).bind fun h =>
      (Arr.make zero h k n).map fun r => (s.set x r, .done)
  | .copyNew x y => ((s.vars x).destroy s.heap).bind fun h =>
      ((s.vars y).copyFrom zero h false).map fun r => (s.set x r, .done)
  | .moveNew x y => ((s.vars x).destroy s.heap).map fun h =>
      (State.moveMembers ⟨h, s.vars⟩ x y, .done)
  | .copyAssign x y =>
      ((s.vars y).copyFrom zero s.heap (x = y)).map fun r => (s.set x r, .done)
  | .moveAssign x y => some (s.moveMembers x y, .done)
  | .resize x n =>
      match (s.vars x).type with
      | none => some (s, .noType)
      | some k => ((s.vars x).resize zero s.heap k n).map fun r => (s.set x r, .done)
  | .reserve x n =>
      match (s.vars x).type with
      | none => some (s, .noType)
      | some k => ((s.vars x).reserve zero s.heap k n).map fun r => (s.set x r, .done)
  | .write x i v => s.at x i fun k =>
      (s.vars x).data.bind fun b => (s.heap.put k false b i v).map fun h => (⟨h, s.vars⟩, .done)
  | .read x i => s.at x i fun _ => (s.element x i).map fun v => (s, .value v)
  | .get x i =>
      if (s.vars x).type.isSome ∧ i < (s.vars x).size then
        (s.element x i).map fun v => (s, .value v)
      else some (s, .absent)
  | .size x => some (s, .number (s.vars x).size)

/-- a program, and what it sees -/
def run (zero : V) : List (Op V) → State V → Option (State V × List (Out V))
  | [], s => some (s, [])
  | op :: ops, s => (step zero s op).bind fun (s, o) =>
      (run zero ops s).map fun (s, os) => (s, o :: os)

end RoughPy.GenArr
