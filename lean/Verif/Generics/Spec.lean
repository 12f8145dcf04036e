import Verif.Generics.Model

/-!
# What the conversions between number types and the values built from them should do
-/

namespace RoughPy.Generics

/-- the smallest exponent of a floating-point type -/
def Ty.expMin : Ty → ℤ
  | .f32 => -149
  | _ => -1074

/-- the largest exponent of a floating-point type -/
def Ty.expMax : Ty → ℤ
  | .f32 => 104
  | _ => 971

/-- `q` is a number of the floating-point type `t`. -/
def Rep (t : Ty) (q : ℚ) : Prop :=
  ∃ m e : ℤ, |m| < 2 ^ t.digits ∧ t.expMin ≤ e ∧ e ≤ t.expMax ∧ q = m * (2 : ℚ) ^ e

/-- an integer of an integer type -/
def IntIn (t : Ty) (n : ℤ) : Prop := t.isInt = true ∧ t.lo ≤ n ∧ n ≤ t.hi

/-- a number of a floating-point type -/
def FltIn (t : Ty) : Flt → Prop
  | .fin q => t.isInt = false ∧ Rep t q
  | _ => t.isInt = false

/-- the object is one of the type -/
def InType (t : Ty) : Num → Prop
  | .int n => IntIn t n
  | .flt x => FltIn t x

/-- two objects stand for the same number (or the same infinity, or both for no number) -/
def SameNumber : Num → Num → Prop
  | .int m, .int n => m = n
  | .int m, .flt x => x = .fin m
  | .flt x, .int n => x = .fin n
  | .flt x, .flt y => x = y

/-- What is assumed of the machine: rounding leaves the numbers of a type as they are and gives numbers of
the type, and the representation of a number can be read back. -/
structure Env.Ieee (E : Env) : Prop where
  keep : ∀ t q, t.isInt = false → Rep t q → E.round t q = .fin q
  rep : ∀ t q, t.isInt = false → FltIn t (E.round t q)
  op : ∀ o t x y, t.isInt = false → FltIn t (E.op o t x y)
  dec_enc : ∀ t x, FltIn t x → E.dec t (E.enc t x) = x
  enc_lt : ∀ t x, FltIn t x → E.enc t x < 2 ^ (8 * t.size)

/-- from an integer type to another of the same signedness that is no larger -/
def SameSignNotWider (src dst : Ty) : Prop :=
  src.isInt = true ∧ dst.isInt = true ∧ src.isSigned = dst.isSigned ∧ dst.size ≤ src.size

/-- from an integer type to a smaller one of the same signedness -/
def SameSignNarrower (src dst : Ty) : Prop :=
  src.isInt = true ∧ dst.isInt = true ∧ src.isSigned = dst.isSigned ∧ dst.size < src.size

/-- every number of one type is a number of the other -/
def Embeds (src dst : Ty) : Prop := ∀ v, InType src v → ∃ w, InType dst w ∧ SameNumber v w

end RoughPy.Generics
