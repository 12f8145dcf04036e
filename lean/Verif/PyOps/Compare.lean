import Verif.PyOps.Model
import Verif.PyOps.Spec

/-!
# `==` and `!=` in Python on elements and scalars

`roughpy/src/scalars/scalars.cpp:215-245` registers overloads without `py::is_operator()`, so that a
mismatch is a `TypeError`; `setup_algebra_type.h:225-226` registers operators of elements, for which a
mismatch is `NotImplemented`.  Casters, overloads and numbers: `Verif/PyOps/Model.lean`.
-/

namespace RoughPy.PyOps

variable {K F : Type} [Field K] [DecidableEq K] (fl : Floats K F)

/-- What a comparison method of a class answers. -/
inductive Slot
  | answer (b : Bool)
  | notImplemented
  | typeError
deriving DecidableEq, Repr

/-- The types of both parameters of the overloads of `__eq__` of `Scalar`, and of those of `__ne__`
(`scalars.cpp:215-229`, `:231-245`) -/
def eqOverloads : List (Sig × Sig) :=
  [(.scalar, .scalar), (.scalar, .double), (.double, .scalar), (.scalar, .longLong),
    (.longLong, .scalar)]

/-- Both arguments cast -/
def cast2 (convert : Bool) (self other : Arg K F) (o : Sig × Sig) : Option (K × K) :=
  match cast fl convert o.1 self, cast fl convert o.2 other with
  | some (.num s), some (.num t) => some (s, t)
  | _, _ => none

/-- `__eq__` (`ne = false`) and `__ne__` of `Scalar`.  The operators of the C++ class
(`Verif/Scalars/Model.lean`) are simplified to the field. -/
def scalarCompare (ne : Bool) (self other : Arg K F) : Slot :=
  match (eqOverloads.findSome? (cast2 fl false self other)).or
      (eqOverloads.findSome? (cast2 fl true self other)) with
  | some (s, t) => .answer (decide (s = t) != ne)
  | none => .typeError

/-- The method of the class of the left operand.  `same` says which elements `operator==` finds equal.
Python's own numbers know each other and nothing of scalars and elements; they are compared exactly. -/
def compareSlot (same : ℕ → ℕ → Bool) (ne : Bool) : Arg K F → Arg K F → Slot
  | .elem x, .elem y => .answer (same x y != ne)
  | .elem _, _ => .notImplemented
  | .num (.scalar s), a => scalarCompare fl ne (.num (.scalar s)) a
  | .num n, .num m =>
    if n.IsPlainPython ∧ m.IsPlainPython then
      match n.exact fl.value, m.exact fl.value with
      | some p, some q => .answer (decide (p = q) != ne)
      | _, _ => .notImplemented
    else .notImplemented
  | .num _, .elem _ => .notImplemented

/-- `a == b` and `a != b` for two distinct objects: the method of the left operand is asked, then that of
the right operand, and then the objects are compared by identity. Nothing is a `TypeError`. -/
def pyCompare (same : ℕ → ℕ → Bool) (ne : Bool) (a b : Arg K F) : Option Bool :=
  match compareSlot fl same ne a b with
  | .answer r => some r
  | .typeError => none
  | .notImplemented =>
    match compareSlot fl same ne b a with
    | .answer r => some r
    | .typeError => none
    | .notImplemented => some ne

end RoughPy.PyOps
