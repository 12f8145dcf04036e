import Verif.Scalars.Spec

/-!
# What the properties of comparison and division of scalars are stated with
-/

namespace RoughPy.Scalars

open RoughPy.Args (Out TypeInfo)
open RoughPy.Polys

/-- `x == y` for the scalars `i` and `j` of a program. -/
def areEqual (P : FP) (s : St) (i j : ℕ) : Out Bool :=
  withVar s i fun o => withVar s j fun p => equal P s.heap o p

/-- `x /= y` for the scalars `i` and `j` of a program. -/
def divideBy (P : FP) (s : St) (i j : ℕ) : Out St :=
  withVar s i fun o => withVar s j fun p => (divide P s.heap o p).bind fun ho => .ok (s.put i ho)

/-- The integers that a `float` (a `double`) can express without gaps are converted exactly. -/
def FP.Exact (P : FP) : Prop :=
  ∀ n : ℤ, (|n| < 2 ^ 24 → P.rnd false n = .fin n) ∧ (|n| < 2 ^ 53 → P.rnd true n = .fin n)

/-- An integer that is compared with a floating number is one of those that the floating type can
express without gaps. -/
def Small : Val → Val → Prop
  | .int _ n, .f32 _ => |n| < 2 ^ 24
  | .f32 _, .int _ n => |n| < 2 ^ 24
  | .int _ n, .f64 _ => |n| < 2 ^ 53
  | .f64 _, .int _ n => |n| < 2 ^ 53
  | _, _ => True

/-- The negative zero. -/
def Val.NegZero (v : Val) : Prop := v = .f32 .negZero ∨ v = .f64 .negZero

/-- No indeterminate with exponent zero is listed. -/
def Val.Proper : Val → Prop
  | .poly p => p.Proper
  | _ => True

end RoughPy.Scalars
