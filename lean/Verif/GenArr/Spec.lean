import Verif.GenArr.Model

/-!
# What arrays are for

A variable holds nothing, or a list of values with their type.  This is the whole state; copying copies the
list, and there is no memory to speak of.
-/

namespace RoughPy.GenArr

variable {V : Type}

/-- what every variable holds -/
abbrev Values (V : Type) := ℕ → Option (Kind × List V)

/-- the list with the given length: cut off, or continued with zeros -/
def toLength (zero : V) (l : List V) (n : ℕ) : List V := l.take n ++ List.replicate (n - l.length) zero

/-- what an operation does and shows -/
def specStep (zero : V) (s : Values V) : Op V → Values V × Out V
  | .clear x => (Function.update s x none, .done)
  | .make x k n => (Function.update s x (some (k, List.replicate n zero)), .done)
  | .copyNew x y => (Function.update s x (s y), .done)
  | .copyAssign x y => (Function.update s x (s y), .done)
  | .moveNew x y => (Function.update (Function.update s x (s y)) y none, .done)
  | .moveAssign x y => (Function.update (Function.update s x (s y)) y none, .done)
  | .resize x n =>
    match s x with
    | none => (s, .noType)
    | some (k, l) => (Function.update s x (some (k, toLength zero l n)), .done)
  | .reserve x _ =>
    match s x with
    | none => (s, .noType)
    | some _ => (s, .done)
  | .write x i v =>
    match s x with
    | none => (s, .noType)
    | some (k, l) =>
      if i < l.length then (Function.update s x (some (k, l.set i v)), .done) else (s, .badIndex)
  | .read x i =>
    match s x with
    | none => (s, .noType)
    | some (_, l) => (s, (l[i]?).elim .badIndex .value)
  | .get x i =>
    match s x with
    | none => (s, .absent)
    | some (_, l) => (s, (l[i]?).elim .absent .value)
  | .size x => (s, .number ((s x).elim 0 fun p => p.2.length))

def specRun (zero : V) : List (Op V) → Values V → Values V × List (Out V)
  | [], s => (s, [])
  | op :: ops, s =>
    let r := specStep zero s op
    let t := specRun zero ops r.1
    (t.1, r.2 :: t.2)

/-- The operations for which the claim holds: a copy is taken from an array with a type and to another
variable, an array is moved to another variable, and an array that holds elements which own memory is not
made larger than its capacity. -/
def Allowed (s : State V) : Op V → Prop
  | .copyNew x y => x ≠ y ∧ (s.vars y).type ≠ none
  | .copyAssign x y => x ≠ y ∧ (s.vars y).type ≠ none
  | .moveNew x y => x ≠ y
  | .moveAssign x y => x ≠ y
  | .resize x n => (s.vars x).type = some .managed → (s.vars x).size = 0 ∨ n ≤ (s.vars x).cap
  | .reserve x n => (s.vars x).type = some .managed → (s.vars x).size = 0 ∨ n ≤ (s.vars x).cap
  | _ => True

/-- Arrays are assigned only to variables that hold no memory. -/
def Tidy (s : State V) : Op V → Prop
  | .copyAssign x _ => (s.vars x).data = none
  | .moveAssign x _ => (s.vars x).data = none
  | _ => True

/-- all operations of a program meet a condition when their turn comes -/
def Always (P : State V → Op V → Prop) (zero : V) : List (Op V) → State V → Prop
  | [], _ => True
  | op :: ops, s => P s op ∧ ∀ s' o, step zero s op = some (s', o) → Always P zero ops s'

end RoughPy.GenArr
