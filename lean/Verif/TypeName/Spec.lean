import Verif.TypeName.Model

/-! The names of the scalar types -/

namespace RoughPy.TypeName

/-- The name each type says it has (`id()`) -/
def Kind.name : Kind → List Char
  | .half => ['f', '1', '6']
  | .single => ['f', '3', '2']
  | .double => ['f', '6', '4']
  | .bfloat => ['b', 'f', '1', '6']
  | .rational => ['R', 'a', 't', 'i', 'o', 'n', 'a', 'l']
  | .poly => ['R', 'a', 't', 'i', 'o', 'n', 'a', 'l', 'P', 'o', 'l', 'y']

/-- How many bits a number of the types with a number in their name has -/
def Kind.bits : Kind → Option ℕ
  | .half => some 16
  | .single => some 32
  | .double => some 64
  | .bfloat => some 16
  | .rational => none
  | .poly => none

/-- The number some digits stand for -/
def number (ds : List Char) : ℕ := ds.foldl (fun n c => 10 * n + (c.toNat - '0'.toNat)) 0

/-- All characters are digits -/
def AllDigits (ds : List Char) : Prop := ∀ c ∈ ds, '0'.toNat ≤ c.toNat ∧ c.toNat ≤ '9'.toNat

end RoughPy.TypeName
