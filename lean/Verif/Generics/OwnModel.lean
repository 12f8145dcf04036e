import Verif.Generics.Model
import Mathlib.Logic.Function.Basic

/-!
# Values that are stored on the heap

`Value` (`/repo/platform/include/roughpy/generics/values.h:210-268, 270-400`,
`/repo/platform/src/generics/value.cpp`) when all values are of one type that is not stored inline, such as
multiprecision integers.  An object that is freed is never allocated again, so that every use of it can be
told.  Failures of allocation are left out.
-/

namespace RoughPy.Generics.Own

/-- A `Value`: whether `p_type` is set, and the pointer in `m_storage`. -/
structure HVal where
  typed : Bool
  ptr : Option ℕ
  deriving DecidableEq

/-- the variables of a program and the objects that are allocated -/
structure HState where
  vals : ℕ → Option HVal
  heap : ℕ → Option ℤ
  next : ℕ

/-- no variables, no objects -/
def HState.init : HState := ⟨fun _ => none, fun _ => none, 0⟩

/-- what a program can do with its variables -/
inductive Act where
  /-- `Value a;` -/
  | declare (a : ℕ)
  /-- `Value a(n);` -/
  | make (a : ℕ) (n : ℤ)
  /-- `Value a(b);` -/
  | copy (a b : ℕ)
  /-- `Value a(std::move(b));` -/
  | move (a b : ℕ)
  /-- `a = b;` -/
  | assign (a b : ℕ)
  /-- `a = std::move(b);` -/
  | moveAssign (a b : ℕ)
  /-- `Ref(a).data() := n` -/
  | write (a : ℕ) (n : ℤ)
  /-- the end of the scope of `a` -/
  | drop (a : ℕ)
  deriving DecidableEq

/-- the variable `a` becomes `v` -/
def HState.put (s : HState) (a : ℕ) (v : Option HVal) : HState := { s with vals := Function.update s.vals a v }

/-- the object at `p` becomes `n`, or is freed -/
def HState.store (s : HState) (p : ℕ) (n : Option ℤ) : HState := { s with heap := Function.update s.heap p n }

/-- `allocate_data` (`value.cpp:18-29`) for a value without data, after which the number is put in -/
def HState.alloc (s : HState) (a : ℕ) (n : ℤ) : HState :=
  { (s.put a (some ⟨true, some s.next⟩)).store s.next (some n) with next := s.next + 1 }

/-- the number of a value that has a type; nothing if there is no object -/
def HState.read (s : HState) (v : HVal) : Option ℤ := v.ptr.bind s.heap

/-- `copy_assign_value` of the type of the values (`value.cpp:31-46`): a value that has a pointer keeps
it -/
def copyAssignValue (s : HState) (a : ℕ) (v : HVal) (n : ℤ) : Res HState :=
  match v.ptr with
  | none => .ok (s.alloc a n)
  | some p =>
    match s.heap p with
    | none => .undefined
    | some _ => .ok ((s.put a (some ⟨true, some p⟩)).store p (some n))

/-- `Value(const Value&)` (`value.cpp:90-105`) -/
def copyValue (s : HState) (a : ℕ) (w : HVal) : Res HState :=
  if w.typed then
    match s.read w with
    | none => .undefined
    | some n => .ok (s.alloc a n)
  else .ok (s.put a (some ⟨false, none⟩))

/-- `operator=(const Value&)` (`value.cpp:171-186`) -/
def assignValue (s : HState) (a b : ℕ) (v w : HVal) : Res HState :=
  if a = b then .ok s
  else if !w.typed then (if v.typed then .throws else .ok s)
  else
    match s.read w with
    | none => .undefined
    | some n => copyAssignValue s a v n

/-- `operator=(Value&&)` (`value.cpp:188-215`, `values.h:228-233`): the pointer is copied, and stays in the
value that is moved from -/
def moveAssignValue (s : HState) (a b : ℕ) (v w : HVal) : Res HState :=
  if a = b then .ok s
  else if !v.typed then .ok ((s.put a (some ⟨w.typed, w.ptr⟩)).put b (some ⟨false, w.ptr⟩))
  else if !w.typed then .throws
  else .ok (s.put a (some ⟨true, w.ptr⟩))

/-- `~Value` (`value.cpp:163-169`) -/
def dropValue (s : HState) (a : ℕ) (v : HVal) : Res HState :=
  if v.typed then
    match v.ptr with
    | none => .undefined
    | some p =>
      match s.heap p with
      | none => .undefined
      | some _ => .ok ((s.put a none).store p none)
  else .ok (s.put a none)

/-- a write to the object of a value through a reference -/
def writeValue (s : HState) (v : HVal) (n : ℤ) : Res HState :=
  match v.ptr with
  | none => .undefined
  | some p =>
    match s.heap p with
    | none => .undefined
    | some _ => .ok (s.store p (some n))

/-- One action.  A variable that does not exist is never used by a program that compiles. -/
def act (s : HState) : Act → Res HState
  | .declare a => .ok (s.put a (some ⟨false, none⟩))
  | .make a n => .ok (s.alloc a n)
  | .copy a b => (s.vals b).elim .undefined (copyValue s a)
  | .move a b => (s.vals b).elim .undefined fun w => .ok ((s.put a (some w)).put b (some ⟨false, none⟩))
  | .assign a b =>
    (s.vals a).elim .undefined fun v => (s.vals b).elim .undefined fun w => assignValue s a b v w
  | .moveAssign a b =>
    (s.vals a).elim .undefined fun v => (s.vals b).elim .undefined fun w => moveAssignValue s a b v w
  | .write a n => (s.vals a).elim .undefined fun v => writeValue s v n
  | .drop a => (s.vals a).elim .undefined (dropValue s a)

/-- an action that throws leaves everything as it was -/
def step (s : HState) (c : Act) : Res HState :=
  match act s c with
  | .throws => .ok s
  | r => r

/-- a program -/
def run (s : HState) : List Act → Res HState
  | [] => .ok s
  | c :: cs => (step s c).bind fun s => run s cs

end RoughPy.Generics.Own
