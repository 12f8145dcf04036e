import Verif.Lite.HandleModel
import Mathlib.Data.Rat.Cast.Defs

/-!
# Arithmetic written in Python on elements and scalars

`roughpy/src/algebra/setup_algebra_type.h:109-204` and `roughpy/src/scalars/scalars.cpp:109-213`
register overloads of the operators; `pybind11` chooses one by the types of the arguments and Python
turns `NotImplemented` into the reflected operator or a `TypeError`.  What the chosen member of an
element does is modelled in `Verif/Lite/HandleModel.lean`.

Simplified: coefficients are in a field `K` and a scalar object is its value; conversions of scalars
between coefficient types are exact.  Numbers too large for a `double` are left out, and so are
NumPy arrays on the left of an operator.
-/

namespace RoughPy.PyOps

open RoughPy.Handles

/-- The `double`s: their values, and the one `PyFloat_AsDouble` picks for another number. -/
structure Floats (K F : Type) where
  value : F → K
  round : ℚ → F

/-- A Python object other than an element. -/
inductive Number (K F : Type)
  /-- an `rp.Scalar`; the class has no `__float__` and no `__index__` -/
  | scalar (s : K)
  /-- a `float` -/
  | float (a : F)
  /-- an `int` -/
  | int (n : ℤ)
  /-- a `fractions.Fraction`: it has `__float__` and `__int__` but no `__index__` -/
  | fraction (q : ℚ)
  /-- anything that is not a number -/
  | other

/-- An operand: an element, by variable, or something else. -/
inductive Arg (K F : Type)
  | elem (z : ℕ)
  | num (n : Number K F)

/-- The type of the second parameter of an overload. -/
inductive Sig
  | elem
  | scalar
  | double
  | longLong
deriving DecidableEq, Repr

/-- What an overload receives. -/
inductive Operand (K : Type)
  | elem (z : ℕ)
  | num (s : K)
deriving DecidableEq, Repr

variable {K F V : Type} [Field K] (fl : Floats K F)

/-- The argument casters of `pybind11`: instances of classes must be of the class, as no implicit
conversion is registered; a `double` is made of a `float`, or when converting of any number with
`__float__`; a `long long` is made of an `int` that fits, or when converting of a number with
`__int__` that is no `float`. -/
def cast (convert : Bool) : Sig → Arg K F → Option (Operand K)
  | .elem, .elem z => some (.elem z)
  | .scalar, .num (.scalar s) => some (.num s)
  | .double, .num (.float a) => some (.num (fl.value a))
  | .double, .num (.int n) => if convert then some (.num (fl.value (fl.round n))) else none
  | .double, .num (.fraction q) => if convert then some (.num (fl.value (fl.round q))) else none
  | .longLong, .num (.int n) => if -2 ^ 63 ≤ n ∧ n < 2 ^ 63 then some (.num n) else none
  | .longLong, .num (.fraction q) =>
    if convert then some (.num ((q.num.tdiv q.den : ℤ) : K)) else none
  | _, _ => none

/-- The member of an element an overload calls. -/
inductive Fn
  | add | sub | mul | smul | sdiv | addIn | subIn | mulIn | smulIn | sdivIn
deriving DecidableEq, Repr

/-- An overload.  `copies`: it is a lambda whose result is an element by value, not a member function
returning a reference to the element. -/
structure Overload where
  sig : Sig
  fn : Fn
  copies : Bool
deriving DecidableEq, Repr

/-- Overload resolution of `pybind11`: the first overload that takes the argument as it is, else the
first that takes it converted. -/
def resolve {α : Type} (sig : α → Sig) (table : List α) (a : Arg K F) : Option (α × Operand K) :=
  (table.findSome? fun o => (cast fl false (sig o) a).map (o, ·)).or
    (table.findSome? fun o => (cast fl true (sig o) a).map (o, ·))

/-- The binary operators. -/
inductive Op
  | add | sub | mul | div
deriving DecidableEq, Repr

/-- `__add__`, `__sub__`, `__mul__` and `__truediv__` of elements, in the order of registration
(`setup_algebra_type.h:111-115,124-130,138-144,152-165`) -/
def forward : Op → List Overload
  | .add => [⟨.elem, .add, true⟩]
  | .sub => [⟨.elem, .sub, true⟩]
  | .mul => [⟨.scalar, .smul, true⟩, ⟨.elem, .mul, true⟩, ⟨.double, .smul, true⟩,
      ⟨.longLong, .smul, true⟩]
  | .div => [⟨.scalar, .smul, true⟩, ⟨.double, .sdiv, true⟩, ⟨.longLong, .sdiv, true⟩]

/-- `__rmul__` of elements (`setup_algebra_type.h:116-123,131-137,145-151`); the other reflected
operators do not exist. -/
def reflected : Op → List Overload
  | .mul => [⟨.scalar, .smul, true⟩, ⟨.double, .smul, true⟩, ⟨.longLong, .smul, true⟩]
  | _ => []

/-- `__iadd__`, `__isub__`, `__imul__` and `__itruediv__` of elements
(`setup_algebra_type.h:167-204`) -/
def inPlace : Op → List Overload
  | .add => [⟨.elem, .addIn, false⟩]
  | .sub => [⟨.elem, .subIn, false⟩]
  | .mul => [⟨.scalar, .smulIn, false⟩, ⟨.elem, .mulIn, false⟩, ⟨.double, .smulIn, true⟩,
      ⟨.longLong, .smulIn, true⟩]
  | .div => [⟨.scalar, .sdivIn, false⟩, ⟨.double, .sdivIn, true⟩, ⟨.longLong, .sdivIn, true⟩]

/-- The call of a member, `x` the variable assigned and `y` the element it is called on. -/
def invoke (x y : ℕ) : Fn → Operand K → Option (Stmt K)
  | .add, .elem z => some (.add x y z)
  | .sub, .elem z => some (.sub x y z)
  | .mul, .elem z => some (.mul x y z)
  | .smul, .num s => some (.smul x y s)
  | .sdiv, .num s => some (.sdiv x y s)
  | .addIn, .elem z => some (.addIn x z)
  | .subIn, .elem z => some (.subIn x z)
  | .mulIn, .elem z => some (.mulIn x z)
  | .smulIn, .num s => some (.smulIn x s)
  | .sdivIn, .num s => some (.sdivIn x s)
  | _, _ => none

/-- A statement in Python. -/
inductive PyStmt (K F : Type)
  /-- `x = -y` -/
  | neg (x y : ℕ)
  /-- `x = y op a` -/
  | bin (op : Op) (x y : ℕ) (a : Arg K F)
  /-- `x = n op y`, where `n` is not an element -/
  | rbin (op : Op) (x : ℕ) (n : Number K F) (y : ℕ)
  /-- `x op= a` -/
  | inp (op : Op) (x : ℕ) (a : Arg K F)

/-- `x = y op a`: the operators of elements are registered with `py::is_operator()`, so that a
mismatch is `NotImplemented`; then `a` has no operator for elements either. -/
def call (op : Op) (x y : ℕ) (a : Arg K F) : Option (Stmt K) := do
  let (o, v) ← resolve fl Overload.sig (forward op) a
  invoke x y o.fn v

/-- The operators of `Scalar` that Python 3 calls, by the types they take
(`scalars.cpp:123-210`): division is registered as `__div__`, which Python 3 does not know.  They are
registered without `py::is_operator()`, so that a mismatch is a `TypeError` at once. -/
def scalarForward : Op → List Sig
  | .add => [.scalar, .double, .longLong]
  | .sub => [.double, .longLong]
  | .mul => [.scalar, .double, .longLong]
  | .div => []

/-- The reflected operators of `Scalar` (`scalars.cpp:132-137,155-160,176-181`) -/
def scalarReflected : Op → List Sig
  | .div => []
  | _ => [.double, .longLong]

/-- The statement of the library a Python statement amounts to; nothing is a `TypeError`.  The left
operand of `n op y` is asked first: a scalar that has the operator raises, other numbers answer
`NotImplemented`.  `x op= a` falls back to `x = x op a`. -/
def PyStmt.compile : PyStmt K F → Option (Stmt K)
  | .neg x y => some (.neg x y)
  | .bin op x y a => call fl op x y a
  | .rbin op x n y =>
    match n, scalarForward op with
    | .scalar _, _ :: _ => none
    | n, _ => do
      let (o, v) ← resolve fl Overload.sig (reflected op) (.num n)
      invoke x y o.fn v
  | .inp op x a =>
    match resolve fl Overload.sig (inPlace op) a with
    | some (o, v) => invoke x x o.fn v
    | none => call fl op x x a

variable [DecidableEq K]

/-- A Python program on variables that each own their element, up to the first exception. -/
def runPy (W : Contexts K V) : List (PyStmt K F) → Store V → Outcome (Store V)
  | [], σ => .ok σ
  | i :: p, σ =>
    match i.compile fl with
    | none => .refused
    | some j => do
      let σ' ← step W σ j
      runPy W p σ'

/-! ## Objects -/

/-- Variables name objects and objects hold elements; `next` is the object made next. -/
structure Objects (V : Type) where
  env : ℕ → ℕ
  heap : Store V
  next : ℕ

/-- `x = y` between variables -/
def Objects.alias (s : Objects V) (x y : ℕ) : Objects V :=
  { s with env := Function.update s.env x (s.env y) }

/-- `x op= a`: the element of the object changes.  A member function returns a reference to it, for
which `pybind11` finds the Python object there is; an overload that returns an element by value
makes a new object, which `x` names afterwards. -/
def Objects.inPlace (W : Contexts K V) (s : Objects V) (op : Op) (x : ℕ) (a : Arg K F) :
    Outcome (Objects V) :=
  let a' : Arg K F := match a with
    | .elem z => .elem (s.env z)
    | n => n
  match resolve fl Overload.sig (PyOps.inPlace op) a' with
  | none => .refused
  | some (o, v) =>
    match invoke (s.env x) (s.env x) o.fn v with
    | none => .refused
    | some i => do
      let heap ← step W s.heap i
      if o.copies then
        .ok ⟨Function.update s.env x s.next, Function.update heap s.next (heap (s.env x)),
          s.next + 1⟩
      else .ok { s with heap := heap }

/-! ## Scalars -/

/-- The operators of the C++ class, simplified to the field. -/
def scalarFn : Op → K → K → Outcome K
  | .add, a, b => .ok (a + b)
  | .sub, a, b => .ok (a - b)
  | .mul, a, b => .ok (a * b)
  | .div, a, b => if b = 0 then .refused else .ok (a / b)

/-- `s op n` for a scalar `s`, and `s op= n`, which computes the same
(`scalars.cpp:123-131,138-154,161-175,182-190`) -/
def scalarOp (op : Op) (s : K) (n : Number K F) : Outcome K :=
  match resolve fl id (scalarForward op) (.num n) with
  | some (_, .num t) => scalarFn op s t
  | _ => .refused

/-- `n op s` for a scalar `s` and a number `n` that is no scalar
(`scalars.cpp:132-137,155-160,176-181`) -/
def scalarROp (op : Op) (n : Number K F) (s : K) : Outcome K :=
  match resolve fl id (scalarReflected op) (.num n) with
  | some (_, .num t) => scalarFn op t s
  | _ => .refused

end RoughPy.PyOps
