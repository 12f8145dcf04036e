import Verif.Lite.Model

/-!
# Sequences of vector operations

A client holds any number of vectors of one type in numbered variables and applies operations
to them in any order.  `step` runs the modelled code, `Coeffs.step` is the specification: a
vector is a function from keys to scalars and every operation acts coefficient by coefficient.
-/

namespace RoughPy.Lite

variable {K T : Type}

/-- One call on vectors; the natural numbers name variables. -/
inductive Act (K : Type) where
  /-- `dst = src` -/
  | copy (dst src : ℕ)
  /-- `dst = vector(basis)` -/
  | new (dst : ℕ)
  /-- `dst = vector(basis, k, s)` -/
  | single (dst : ℕ) (k : Key) (s : K)
  /-- `dst[k] = s` -/
  | setCoef (dst : ℕ) (k : Key) (s : K)
  /-- `dst[k] += s` -/
  | addCoef (dst : ℕ) (k : Key) (s : K)
  /-- `dst.clear()` -/
  | clear (dst : ℕ)
  /-- `dst = -a` -/
  | neg (dst a : ℕ)
  /-- `dst = a * c` -/
  | smul (dst a : ℕ) (c : K)
  /-- `dst = a / c` -/
  | sdiv (dst a : ℕ) (c : K)
  /-- `dst = a + b` -/
  | add (dst a b : ℕ)
  /-- `dst = a - b` -/
  | sub (dst a b : ℕ)
  /-- `a *= c` -/
  | smulInplace (a : ℕ) (c : K)
  /-- `a /= c` -/
  | sdivInplace (a : ℕ) (c : K)
  /-- `a += b` -/
  | addInplace (a b : ℕ)
  /-- `a -= b` -/
  | subInplace (a b : ℕ)
  /-- `a.add_scal_prod(b, c)` -/
  | addScalProd (a b : ℕ) (c : K)
  /-- `a.sub_scal_prod(b, c)` -/
  | subScalProd (a b : ℕ) (c : K)
  /-- `a.add_scal_div(b, c)` -/
  | addScalDiv (a b : ℕ) (c : K)
  /-- `a.sub_scal_div(b, c)` -/
  | subScalDiv (a b : ℕ) (c : K)

section step
variable [Field K] [DecidableEq K]

/-- `a ⊙= b` through `inplace_binary_op`: `a` and `b` may be the same object. -/
def inplaceStep (V : VecOps K T) (s : ℕ → T) (op : K → K → K) (a b : ℕ) : Option (ℕ → T) :=
  if a = b then do
    let v ← V.binarySelf op (s a)
    some (Function.update s a v)
  else some (Function.update s a (V.binaryInplace op (s a) (s b)))

/-- One operation of the modelled code (the definitions of `Verif/Lite/Model.lean`). -/
def step (V : VecOps K T) (s : ℕ → T) : Act K → Option (ℕ → T)
  | .copy dst src => some (Function.update s dst (s src))
  | .new dst => some (Function.update s dst V.new)
  | .single dst k x => do
    let v ← V.single k x
    some (Function.update s dst v)
  | .setCoef dst k x => do
    let v ← V.modify (s dst) k fun _ => x
    some (Function.update s dst v)
  | .addCoef dst k x => do
    let v ← V.modify (s dst) k fun y => y + x
    some (Function.update s dst v)
  | .clear dst => some (Function.update s dst (V.clear (s dst)))
  | .neg dst a => some (Function.update s dst (V.neg (s a)))
  | .smul dst a c => some (Function.update s dst (V.smul (s a) c))
  | .sdiv dst a c => do
    let v ← V.sdiv (s a) c
    some (Function.update s dst v)
  | .add dst a b => some (Function.update s dst (V.add (s a) (s b)))
  | .sub dst a b => some (Function.update s dst (V.sub (s a) (s b)))
  | .smulInplace a c => some (Function.update s a (V.smulInplace (s a) c))
  | .sdivInplace a c => do
    let v ← V.sdivInplace (s a) c
    some (Function.update s a v)
  | .addInplace a b => inplaceStep V s (fun l r => l + r) a b
  | .subInplace a b => inplaceStep V s (fun l r => l - r) a b
  | .addScalProd a b c => inplaceStep V s (fun l r => l + r * c) a b
  | .subScalProd a b c => inplaceStep V s (fun l r => l - r * c) a b
  | .addScalDiv a b c => if c = 0 then none else inplaceStep V s (fun l r => l + r / c) a b
  | .subScalDiv a b c => if c = 0 then none else inplaceStep V s (fun l r => l - r / c) a b

/-- A sequence of operations, starting from empty vectors. -/
def run (V : VecOps K T) (acts : List (Act K)) : Option (ℕ → T) :=
  acts.foldlM (step V) fun _ => V.new

end step

/-! ## Specification -/

/-- the coefficients of a vector -/
abbrev Coeffs (K : Type) := Key → K

section spec
variable [Field K]

/-- The effect of an operation on the coefficients, written without reference to how vectors
are stored. -/
def Coeffs.step (f : ℕ → Coeffs K) : Act K → ℕ → Coeffs K
  | .copy dst src => Function.update f dst (f src)
  | .new dst => Function.update f dst 0
  | .single dst k x => Function.update f dst (fun j => if j = k then x else 0)
  | .setCoef dst k x => Function.update f dst (fun j => if j = k then x else f dst j)
  | .addCoef dst k x => Function.update f dst (fun j => if j = k then f dst j + x else f dst j)
  | .clear dst => Function.update f dst 0
  | .neg dst a => Function.update f dst (fun j => -f a j)
  | .smul dst a c => Function.update f dst (fun j => f a j * c)
  | .sdiv dst a c => Function.update f dst (fun j => f a j / c)
  | .add dst a b => Function.update f dst (fun j => f a j + f b j)
  | .sub dst a b => Function.update f dst (fun j => f a j - f b j)
  | .smulInplace a c => Function.update f a (fun j => f a j * c)
  | .sdivInplace a c => Function.update f a (fun j => f a j / c)
  | .addInplace a b => Function.update f a (fun j => f a j + f b j)
  | .subInplace a b => Function.update f a (fun j => f a j - f b j)
  | .addScalProd a b c => Function.update f a (fun j => f a j + f b j * c)
  | .subScalProd a b c => Function.update f a (fun j => f a j - f b j * c)
  | .addScalDiv a b c => Function.update f a (fun j => f a j + f b j / c)
  | .subScalDiv a b c => Function.update f a (fun j => f a j - f b j / c)

/-- the coefficients after a sequence of operations, starting from zero vectors -/
def Coeffs.run (acts : List (Act K)) : ℕ → Coeffs K := acts.foldl Coeffs.step fun _ => 0

/-- the key an operation addresses, if any, satisfies `p` -/
def Act.KeyIn (p : Key → Prop) : Act K → Prop
  | .single _ k _ => p k
  | .setCoef _ k _ => p k
  | .addCoef _ k _ => p k
  | _ => True

/-- the operation does not divide by zero -/
def Act.Divides : Act K → Prop
  | .sdiv _ _ c => c ≠ 0
  | .sdivInplace _ c => c ≠ 0
  | .addScalDiv _ _ c => c ≠ 0
  | .subScalDiv _ _ c => c ≠ 0
  | _ => True

/-- The operation is not an in-place operation of a vector with itself, other than `a += a`. -/
def Act.NoAlias : Act K → Prop
  | .subInplace a b => a ≠ b
  | .addScalProd a b _ => a ≠ b
  | .subScalProd a b _ => a ≠ b
  | .addScalDiv a b _ => a ≠ b
  | .subScalDiv a b _ => a ≠ b
  | _ => True

/-- a fused multiply-add has a non-zero multiplier -/
def Act.NonzeroScale : Act K → Prop
  | .addScalProd _ _ c => c ≠ 0
  | .subScalProd _ _ c => c ≠ 0
  | _ => True

end spec

end RoughPy.Lite
