import Verif.Arrays.Model
import Verif.Scalars.Spec

/-!
# What the properties of arrays are stated with
-/

namespace RoughPy.Arrays

open RoughPy.Args (Out)
open RoughPy.Scalars (Ty Val FP TRef conv Fits)

/-- Where the first element of an array is: the block and the position in it. -/
def Arr.place (w : World) (a : Arr) : Option (ℕ × ℕ) :=
  match a.mode, a.word with
  | .owned, .impl k => (w.bufs[k]?).map fun B => (B.block, 0)
  | .owned, _ => none
  | _, .data b o => some (b, o)
  | _, _ => none

/-- The memory of an array has not been given back. -/
def Arr.Alive (w : World) (a : Arr) : Prop :=
  ∀ b o, a.place w = some (b, o) → ∃ C, w.blocks[b]? = some C ∧ C.alive = true

/-- The array has memory. -/
def Arr.HasMemory (w : World) (a : Arr) : Prop := (a.place w).isSome

/-- The array `i` is alive, and its element `k` is `v`. -/
def Holds (s : St) (i k : ℕ) (v : Val) : Prop := ∃ a, s.var i = some a ∧ get s.world a k = .ok v

/-- The element `k` of `i` and the element `l` of `j` are one. -/
def Shared (s : St) (i k j l : ℕ) : Prop :=
  ∃ a b m o p, s.var i = some a ∧ s.var j = some b ∧ a.place s.world = some (m, o) ∧
    b.place s.world = some (m, p) ∧ o + k = p + l

/-- A program starts without arrays, with memory of the user only, all of it filled. -/
structure Initial (s : St) : Prop where
  vars : s.vars = []
  bufs : s.world.bufs = []
  blocks : ∀ C ∈ s.world.blocks, C.alive = true

/-- The `n` elements from `o` on in a block of the user hold numbers that can be read as the type. -/
def UserMemory (s : St) (t : Ty) (b o n : ℕ) : Prop :=
  (∀ (k : ℕ) (B : Buf), s.world.bufs[k]? = some B → B.block ≠ b) ∧
  ∃ C, s.world.blocks[b]? = some C ∧ o + n ≤ C.cells.length ∧
    ∀ i < n, ∃ v, C.cells[o + i]? = some (some v) ∧ Fits t v

/-- What an array over memory of the user can be made of: a scalar type, or the type info of a type
that can be read back. -/
def Elements (r : TRef) (t : Ty) : Prop :=
  (r = .ptr t ∧ t.IsScalarType) ∨ ∃ u, r = .info u ∧ u.Real ∧ t = u.readBack ∧ t.Real

/-- The array is one that other arrays can be assigned: it has no type, or it owns memory with
numbers of one of the two floating types. -/
def Assignable (a : Arr) : Prop :=
  a.typeNull = true ∨ (a.mode = .owned ∧ a.word ≠ .null ∧ (a.ty = .ptr .f32 ∨ a.ty = .ptr .f64))

/-- The precondition of a statement, in which the known defects are excluded: the arrays live, memory
that is looked at has not been given back, memory of the user is what the program says it is, no array
is made with a type info and a size, an array without a type is not indexed, an array that has been
moved from is not written to, slices begin before they end, only arrays that own floating numbers are
assigned from, and a converting copy goes between two arrays of one size in different memory without
a conversion that is undefined. -/
def Safe (P : FP) (s : St) : Stmt → Prop
  | .empty => True
  | .typed t _ => t.IsScalarType
  | .untyped _ _ => False
  | .borrow _ r b o n =>
    ∃ t, Elements r t ∧ UserMemory s t b o n
  | .copy i => ∃ a, s.var i = some a
  | .move i => ∃ a, s.var i = some a
  | .assign i j => ∃ a b, s.var i = some a ∧ s.var j = some b ∧ (i = j ∨ Assignable b)
  | .moveAssign i j => ∃ a b, s.var i = some a ∧ s.var j = some b
  | .get i _ => ∃ a, s.var i = some a ∧ a.ty ≠ .null ∧ a.Alive s.world
  | .set i k v =>
    ∃ a, s.var i = some a ∧ a.ty ≠ .null ∧ a.Alive s.world ∧
      (a.HasMemory s.world ∨ a.mode = .constB ∨ a.size ≤ k) ∧
      ∀ t, a.info = .ok t → conv P t v ≠ .ub
  | .slice _ i b e => ∃ a, s.var i = some a ∧ b ≤ e ∧ e < 2 ^ 64
  | .view _ i => ∃ a, s.var i = some a
  | .convert t i j =>
    ∃ a b, s.var i = some a ∧ s.var j = some b ∧ t.IsScalarType ∧ a.size = b.size ∧
      a.Alive s.world ∧ b.Alive s.world ∧ a.HasMemory s.world ∧ b.HasMemory s.world ∧
      (∀ m o n p, a.place s.world = some (m, o) → b.place s.world = some (n, p) → m ≠ n) ∧
      ∀ d k v, a.info = .ok d → get s.world b k = .ok v → conv P d v ≠ .ub
  | .drop i => ∃ a, s.var i = some a

/-- The precondition of a program: that of every statement in the state it is run in. -/
def SafeRun (P : FP) (junk : ℕ → ℕ) : St → List Stmt → Prop
  | _, [] => True
  | s, c :: cs => Safe P s c ∧
      ∀ s', step P junk s c = .ok s' ∨ step P junk s c = .raised s' → SafeRun P junk s' cs

/-- The array `i` owns its memory, and has some. -/
def Owns (s : St) (i b : ℕ) : Prop :=
  ∃ a, s.var i = some a ∧ a.mode = .owned ∧ a.place s.world = some (b, 0)

/-- Memory of the library: it was not there before the program. -/
def Library (s₀ s : St) (b : ℕ) : Prop :=
  s₀.world.blocks.length ≤ b ∧ b < s.world.blocks.length

/-- Memory that has not been given back. -/
def Live (s : St) (b : ℕ) : Prop := ∃ C, s.world.blocks[b]? = some C ∧ C.alive = true

/-- The statement writes to the place `p` of the block `m`. -/
def WritesAt (s : St) (m p : ℕ) : Stmt → Prop
  | .set i k _ => ∃ a o, s.var i = some a ∧ a.place s.world = some (m, o) ∧ p = o + k
  | .convert _ i _ =>
    ∃ a o, s.var i = some a ∧ a.place s.world = some (m, o) ∧ o ≤ p ∧ p < o + a.size
  | _ => False

/-- The statement writes to the element `l` of the array `j`. -/
def Writes (s : St) (c : Stmt) (j l : ℕ) : Prop :=
  ∃ a m o, s.var j = some a ∧ a.place s.world = some (m, o) ∧ WritesAt s m (o + l) c

/-- The statement makes the array `j` another array, or none. -/
def Replaces (j : ℕ) : Stmt → Prop
  | .move i => i = j
  | .assign i _ => i = j
  | .moveAssign i k => i = j ∨ k = j
  | .drop i => i = j
  | _ => False

/-- The state can be reached by a program that meets its preconditions, from memory of the user, when
the counts of new buffers start at zero. -/
def Reaches (P : FP) (s₀ s : St) : Prop :=
  Initial s₀ ∧ ∃ prog, prog.length + 1 < 2 ^ 64 ∧ SafeRun P (fun _ => 0) s₀ prog ∧
    run P (fun _ => 0) s₀ prog = .ok s

/-- The statement has been carried out, or has raised. -/
def Leaves (P : FP) (s : St) (c : Stmt) (s' : St) : Prop :=
  step P (fun _ => 0) s c = .ok s' ∨ step P (fun _ => 0) s c = .raised s'

/-- The array is of constants. -/
def IsConst (s : St) (i : ℕ) : Prop := ∃ a, s.var i = some a ∧ a.mode = .constB

/-- The array has the type and the size. -/
def Has (s : St) (i : ℕ) (t : Ty) (n : ℕ) : Prop := ∃ a, s.var i = some a ∧ a.info = .ok t ∧ a.size = n

/-- The array can be looked at: it lives, it has a type, and its memory has not been given back. -/
def Usable (s : St) (i : ℕ) : Prop := ∃ a, s.var i = some a ∧ a.ty ≠ .null ∧ a.Alive s.world

/-- The array has memory. -/
def Backed (s : St) (i : ℕ) : Prop := ∃ a, s.var i = some a ∧ a.HasMemory s.world

end RoughPy.Arrays
