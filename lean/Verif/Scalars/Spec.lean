import Verif.Scalars.Model
import Verif.Poly.Spec

/-!
# What the properties of scalars are stated with
-/

namespace RoughPy.Scalars

open RoughPy.Args (Out TypeInfo)
open RoughPy.Polys

/-- The types for which the library has a scalar type object. -/
def Ty.IsScalarType (t : Ty) : Prop := t = .f32 ∨ t = .f64 ∨ t = .rat ∨ t = .poly

/-- The types a number in a program can have. -/
def Ty.Real : Ty → Prop
  | .int b => b = 1 ∨ b = 2 ∨ b = 4 ∨ b = 8
  | .uint b => b = 1 ∨ b = 2 ∨ b = 4 ∨ b = 8
  | .other => False
  | _ => True

/-- The memory can be read as the type. -/
def Fits (t : Ty) (v : Val) : Prop := ∃ w, v.as t = .ok w

/-- The addresses a scalar has to free. -/
def Obj.owns (o : Obj) : List ℕ := if o.mode = .owned then o.addr.toList else []

/-- A scalar that is in order: no interface; a number of the right type in the inline bytes; an
owned pointer, unless null, to a living object of its scalar type in the table of that type; a
reference, unless null, to a living object that belongs to somebody else. -/
structure Obj.Good (h : Heap) (o : Obj) : Prop where
  noIface : o.mode ≠ .iface
  inline : o.mode = .trivial → o.ty = .null ∨
    ((∀ t, o.ty = .ptr t → t.IsScalarType) ∧
      ∃ t, o.info = .ok t ∧ t.fundamental = true ∧ Fits t o.bytes)
  owned : o.mode = .owned → ∃ t, t.IsScalarType ∧ o.ty = .ptr t ∧
    ∀ a, o.addr = some a → ∃ c, h.cell a = some c ∧ c.owner = some t ∧ c.val.ty = t
  reference : o.mode = .ref ∨ o.mode = .constRef → ∃ t, o.info = .ok t ∧
    ((t.IsScalarType ∧ o.ty = .ptr t) ∨ (t.fundamental = true ∧ ∃ t', o.ty = .info t')) ∧
    ∀ a, o.addr = some a → ∃ c, h.cell a = some c ∧ c.owner = none ∧ Fits t c.val

/-- A state that is in order: every living scalar is, no two scalars own one object, and every
object in a table of allocations is owned by a living scalar. -/
structure Good (s : St) : Prop where
  objs : ∀ i o, s.var i = some o → o.Good s.heap
  unique : ∀ i j o p a, s.var i = some o → s.var j = some p → a ∈ o.owns → a ∈ p.owns → i = j
  noLeak : ∀ a c t, s.heap.cell a = some c → c.owner = some t →
    ∃ i o, s.var i = some o ∧ a ∈ o.owns

/-- The statements of a program make scalars of types that exist. -/
def Stmt.Valid : Stmt → Prop
  | .num v => v.ty.Real
  | .set _ v => v.ty.Real
  | .typed t => t.IsScalarType
  | .untyped t => t.Real
  | _ => True

/-- The scalar `i` has the type and the value. -/
def Holds (s : St) (i : ℕ) (t : Ty) (v : Val) : Prop :=
  ∃ o, s.var i = some o ∧ o.info = .ok t ∧ (o.read s.heap).bind (fun w => w.as t) = .ok v

/-- The scalar `i` is a reference to memory of somebody else. -/
def IsRef (s : St) (i : ℕ) : Prop :=
  ∃ o, s.var i = some o ∧ (o.mode = .ref ∨ o.mode = .constRef)

/-- No object is left in the tables of allocations. -/
def Clean (h : Heap) : Prop := ∀ a c, h.cell a = some c → c.owner = none

/-- A state before any scalar has been made: memory of somebody else only. -/
def Initial (s : St) : Prop := s.vars = [] ∧ Clean s.heap

/-- The scalar a statement writes to. -/
def Stmt.target : Stmt → List ℕ
  | .move i => [i]
  | .assign i _ => [i]
  | .moveAssign i j => [i, j]
  | .set i _ => [i]
  | .arith _ i _ => [i]
  | .drop i => [i]
  | _ => []

/-- The scalar `i` is a reference that cannot be written to. -/
def IsConst (s : St) (i : ℕ) : Prop := ∃ o, s.var i = some o ∧ o.mode = .constRef

/-- The scalar `i` has its number in its own bytes. -/
def Inline (s : St) (i : ℕ) : Prop := ∃ o, s.var i = some o ∧ o.mode = .trivial

/-- The number or polynomial that a value stands for; the special floating numbers stand for
nothing. -/
def Val.Is : Val → Laurent → Prop
  | .int b n, x => wrapS b n = n ∧ x = const n
  | .uint b n, x => wrapU b n = n ∧ x = const n
  | .f32 (.fin q), x => x = const q
  | .f32 .negZero, x => x = const 0
  | .f64 (.fin q), x => x = const q
  | .f64 .negZero, x => x = const 0
  | .rat q, x => x = const q
  | .poly p, x => p.WF ∧ p.val = x
  | _, _ => False

/-- How general a type is. -/
def Ty.rank : Ty → ℕ
  | .int b => b
  | .uint b => b
  | .f32 => 10
  | .f64 => 11
  | .rat => 12
  | .poly => 13
  | .other => 0

/-- The more general of two types. -/
def Ty.join (t u : Ty) : Ty := if u.rank ≤ t.rank then t else u

/-- A value as an operand of a calculation in a type: converted, unless it has the type. -/
def Operand (P : FP) (t : Ty) (v w : Val) : Prop :=
  (v.ty = t ∧ w = v) ∨ (v.ty ≠ t ∧ conv P t v = .ok w)

end RoughPy.Scalars
