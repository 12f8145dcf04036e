import Verif.Query.Metadata
import Verif.Schema.Lemmas

/-!
# What the arguments of queries and constructors mean

Written from the documentation of the methods, without the functions of the model.
-/

namespace RoughPy.Query

open RoughPy.Intervals RoughPy.Schema

/-! ### Queries -/

/-- A number: a Python `float` or `int`. -/
inductive Num where
  | float (x : ℚ)
  | int (n : ℤ)

/-- Its value. -/
def Num.val : Num → ℚ
  | .float x => x
  | .int n => n

/-- The Python object. -/
def Num.obj : Num → Obj
  | .float x => .float x
  | .int n => .int n

/-- The value is a double: always so for floats, for integers up to `2 ^ 53`. -/
def Num.Exact : Num → Prop
  | .float _ => True
  | .int n => n.natAbs ≤ 2 ^ 53

/-- A resolution asked for: a level of the dyadic grid, or the accuracy to be reached. -/
inductive Res where
  | level (n : ℤ)
  | accuracy (x : ℚ)

/-- The Python object. -/
def Res.obj : Res → Obj
  | .level n => .int n
  | .accuracy x => .float x

/-- Levels are 32-bit numbers. -/
def Res.Fits : Res → Prop
  | .level n => -2 ^ 31 ≤ n ∧ n < 2 ^ 31
  | .accuracy _ => True

/-- `r` is the level asked for, or the coarsest level (of those not coarser than 32) whose intervals
are no longer than the accuracy. -/
def Res.Met : Res → ℤ → Prop
  | .level n, r => r = n
  | .accuracy x, r => 32 ≤ x ∧ r = -5 ∨
    0 < x ∧ x < 32 ∧ (2 : ℚ) ^ (-r) ≤ x ∧ ∀ r', (2 : ℚ) ^ (-r') ≤ x → r ≤ r'

/-- An accuracy is positive. -/
def Res.Positive : Res → Prop
  | .level _ => True
  | .accuracy x => 0 < x

/-- Over what a query is made: the whole stream, two end points, or an interval object. -/
inductive Place where
  | whole
  | ends (a b : Num)
  | real (i : RealInterval)
  | dyadic (d : DyadicInterval)
  | interval (i : RealInterval)

/-- The interval that is meant. -/
def Place.interval' (support : RealInterval) : Place → RealInterval
  | .whole => support
  | .ends a b => ⟨a.val, b.val, .clopen⟩
  | .real i => i
  | .dyadic d => ⟨d.inf, d.sup, d.type⟩
  | .interval i => i

/-- End points are in order and are doubles. -/
def Place.Proper : Place → Prop
  | .ends a b => a.Exact ∧ b.Exact ∧ a.val ≤ b.val
  | _ => True

/-- Not given, or given as `None`. -/
def Absent (o : Option Obj) : Prop := o = none ∨ o = some .none

/-- What an argument says about the resolution. -/
inductive SaysRes : Option Obj → Option Res → Prop
  | absent {o : Option Obj} (h : Absent o) : SaysRes o none
  | given (r : Res) : SaysRes (some r.obj) (some r)

/-- The interval objects. -/
inductive IsInterval : Obj → Place → Prop
  | real (i : RealInterval) : IsInterval (.real i) (.real i)
  | dyadic (d : DyadicInterval) : IsInterval (.dyadic d) (.dyadic d)
  | interval (i : RealInterval) : IsInterval (.interval i) (.interval i)

/-- What the first three arguments of `signature` and `log_signature` say: `()`, `(level)`,
`(inf, sup)`, `(interval)`, `(interval, resolution)`, all but the second and the last with or
without a keyword `resolution`. -/
inductive Says : SigIn → Place → Option Res → Prop
  | whole {a : SigIn} {r : Option Res} (h1 : Absent a.first) (h2 : a.sup = none)
      (h3 : SaysRes a.resolution r) : Says a .whole r
  | level {a : SigIn} (n : ℤ) (h1 : a.first = some (.int n)) (h2 : a.sup = none)
      (h3 : Absent a.resolution) : Says a .whole (some (.level n))
  | ends {a : SigIn} {r : Option Res} (x y : Num) (h1 : a.first = some x.obj)
      (h2 : a.sup = some y.obj) (h3 : SaysRes a.resolution r) : Says a (.ends x y) r
  | over {a : SigIn} {r : Option Res} {o : Obj} {p : Place} (hi : IsInterval o p)
      (h1 : a.first = some o) (h2 : Absent a.sup) (h3 : SaysRes a.resolution r) : Says a p r
  | overAt {a : SigIn} {o : Obj} {p : Place} (r : Res) (hi : IsInterval o p) (h1 : a.first = some o)
      (h2 : a.sup = some r.obj) (h3 : Absent a.resolution) : Says a p (some r)

/-- Arguments that contradict each other or leave one without a meaning: a second argument without a
first one; two resolutions. -/
def Contradictory (a : SigIn) : Prop :=
  (Absent a.first ∧ a.sup ≠ none) ∨
  (∃ n, a.first = some (.int n) ∧ a.sup = none ∧ ¬ Absent a.resolution) ∨
  (∃ o p, a.first = some o ∧ IsInterval o p ∧ ¬ Absent a.sup ∧ ¬ Absent a.resolution)

/-- The scalar type that is meant by the argument `dtype`. -/
def DType.Means : DType → CType → Prop
  | .scalar t, t' => t' = t
  | .str k, t' => k = some t'
  | .npy k, t' => k = some t'
  | .other, _ => False

/-- The context that is meant: the one given; else that of the stream with the depth and the scalar
type replaced by those given. -/
def WantsCtx (stream : Ctx) (a : SigIn) (c : Ctx) : Prop :=
  match a.ctx with
  | some g => g = some c
  | none => c.width = stream.width ∧
    (match a.depth with | none => c.depth = stream.depth | some o => o = .int c.depth) ∧
    (match a.dtype with | none => c.ctype = stream.ctype | some d => d.Means c.ctype)

/-- The scalar types there are contexts for. -/
def Supported : CType → Prop
  | .other _ => False
  | _ => True

/-! ### Derivatives -/

/-- A pair of an interval and a perturbation as a Python tuple. -/
def pairObj (p : RealInterval × ℕ) : DObj := .tuple [.interval p.1, .lie p.2]

/-- The second argument is not given or is a resolution. -/
def NoPerturbation (o : Option DObj) : Prop := o = none ∨ ∃ n, o = some (.int n)

/-- What the first two arguments of `signature_derivative` say: `(interval, perturbation)`, a pair,
or a sequence of pairs. -/
inductive DSays : DerivIn → List (RealInterval × ℕ) → Prop
  | two {a : DerivIn} (i : RealInterval) (l : ℕ) (h1 : a.arg = .interval i)
      (h2 : a.second = some (.lie l)) : DSays a [(i, l)]
  | pair {a : DerivIn} (p : RealInterval × ℕ) (h1 : a.arg = pairObj p) (h2 : NoPerturbation a.second) :
      DSays a [p]
  | seq {a : DerivIn} (ps : List (RealInterval × ℕ)) (h1 : a.arg = .seq (ps.map pairObj))
      (h2 : NoPerturbation a.second) : DSays a ps
  | tuple {a : DerivIn} (ps : List (RealInterval × ℕ)) (h1 : a.arg = .tuple (ps.map pairObj))
      (h2 : NoPerturbation a.second) : DSays a ps

/-- The resolution that is meant: a number as second argument, the keyword, or that of the stream. -/
def DWantsRes (md : Meta) (a : DerivIn) (r : ℤ) : Prop :=
  match a.second with
  | some (.int n) => r = n
  | _ =>
    match a.resolution with
    | some o => o = .int r
    | none => r = md.resolution

/-- The context that is meant: that of the stream, with the depth given. -/
def DWantsCtx (stream : Ctx) (depth : Option Obj) (c : Ctx) : Prop :=
  c.width = stream.width ∧ c.ctype = stream.ctype ∧
    (match depth with | none => c.depth = stream.depth | some o => o = .int c.depth)

/-! ### Metadata -/

/-- Width, context and scalar type of the metadata belong together. -/
def PyMeta.Consistent (m : PyMeta) : Prop :=
  ∃ t, m.ctype = some t ∧ m.ctx = some ⟨m.width, m.depth, t⟩

/-- No label is a decimal number at least as large as the number of channels (such a number is the
default label of a channel still to come). -/
def NoDefaultLabels (s : Schema) : Prop :=
  ∀ c ∈ s.channels, ∀ k, s.channels.length ≤ k → ¬ Matches c.1 (toStr k)

/-- The names of the scalar types — scalars/src/types/*/*_type.cpp. -/
def CType.name : CType → Option Str
  | .f64 => some "f64".toList
  | .f32 => some "f32".toList
  | .rational => some "Rational".toList
  | _ => none

/-- What the keyword arguments `dtype`, `ctype` and `coeffs` mean. -/
def KDType.Means (d : KDType) (t : CType) : Prop :=
  match d with
  | .scalar t' => t' = t
  | .str id => t.name = some id
  | .npy (some t') => t' = t
  | .npy none => False
  | .other => False

/-- The context the keyword arguments ask for: the one given, else one with the width, the depth and the
scalar type given. -/
def KW.Wants (k : KW) (c : Ctx) : Prop :=
  match k.ctx with
  | some g => c = g
  | none =>
    (∀ w, k.width = some w → c.width = w) ∧ (∀ d, k.depth = some d → c.depth = d) ∧
      ∀ d t, k.dtype = some d → d.Means t → c.ctype = t

end RoughPy.Query
