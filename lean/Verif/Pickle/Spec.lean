import Verif.Pickle.Model

/-! # What pickling should do -/

namespace RoughPy.Pickle

open RoughPy.Lite RoughPy.Intervals
open RoughPy.Handles (Outcome)

/-- A point strictly between the ends. -/
def Interior (b : RealInterval) (x : ℚ) : Prop := b.inf < x ∧ x < b.sup

/-- The format of this scalar type stores this number exactly. -/
def Representable (F : Formats) : CType → ℚ → Prop
  | .f32, x => F.f32.dec (F.f32.enc x) = x
  | .f64, x => F.f64.dec (F.f64.enc x) = x
  | .rational, _ => True

/-- the coefficients a dense vector holds; those beyond its end are zero -/
def denseCoef (l : List ℚ) (i : ℕ) : ℚ :=
  match l[i]? with
  | some x => x
  | none => 0

/-- Two elements agree: they have the same context, scalar type and storage type, and the same
coefficient for every key. -/
def Agree (x y : Elem) : Prop :=
  x.ctx = y.ctx ∧ x.ctype = y.ctype ∧
  match x.val, y.val with
  | .dense v, .dense u => ∀ i, denseCoef v.storage i = denseCoef u.storage i
  | .sparse v, .sparse u => ∀ k, SMap.find v k = SMap.find u k
  | _, _ => False

/-- An element of a context: the context was made for a width and a depth, and a dense vector has at
most as many entries as the basis has keys. -/
structure Held (a : AlgType) (x : Elem) : Prop where
  made : LiteCtx.new x.ctx.width x.ctx.depth = some x.ctx
  width : 1 ≤ x.ctx.width ∧ x.ctx.width < 2 ^ 31
  depth : 1 ≤ x.ctx.depth ∧ x.ctx.depth < 2 ^ 31
  fits : ∀ v, x.val = .dense v → v.storage.length ≤ (basisOf x.ctx a).maxDim

/-- The number of coefficients and the number of bytes they are stored in are numbers of 64 bits. -/
structure Small (F : Formats) (x : Elem) : Prop where
  dense : ∀ v, x.val = .dense v → v.storage.length < 2 ^ 64 ∧ (toRaw F x.ctype v.storage).length < 2 ^ 64
  sparse : ∀ v, x.val = .sparse v → v.length < 2 ^ 64

/-- Every coefficient of a dense element is stored exactly. -/
def Exact (F : Formats) (x : Elem) : Prop :=
  ∀ v, x.val = .dense v → ∀ q ∈ v.storage, Representable F x.ctype q

end RoughPy.Pickle
