import Verif.Streams.Spec
import Verif.Streams.ValueStream

/-!
# Specification vocabulary for tensor valued streams

Histories of operations on value streams that share an increment stream, what it means for an
operation to give a result after such a history, and what it means for the tensor library to be
consistent.
-/

namespace RoughPy.Streams

open RoughPy.Intervals

variable {T L : Type}

/-- The tensor library is consistent with the Lie library: multiplication is the product of the
monoid `T`; the exponential map takes Campbell–Baker–Hausdorff products to products; on the
group-like elements `GL` the antipode is a right inverse and the logarithm is undone by the
exponential map. -/
structure TensorInterprets [Monoid T] (A : TensorOps T L) (ops : LieOps L) (depth : ℕ)
    (GL : Set T) : Prop where
  mul : ∀ x y, A.mul x y = x * y
  lie : Interprets ops (A.fromLog depth)
  antipode : ∀ x ∈ GL, x * A.antipode x = 1
  closed : ∀ x ∈ GL, ∀ y ∈ GL, A.antipode x * y ∈ GL
  log : ∀ x ∈ GL, A.fromLog depth (A.toLog depth x) = x
  exp : ∀ l, A.fromLog depth l ∈ GL

/-- The operations of a value stream, and queries to its increment stream with any support. -/
inductive VOp where
  | value (t : ℚ)
  | terminal
  | query (i : RealInterval)
  | signature (i : Option RealInterval) (res : Option ℤ) (ctx : ℕ)
  | increments (support : RealInterval) (q : Query)

/-- The cache of the increment stream after one operation. -/
def VOp.cache (A : TensorOps T L) (fuel : ℕ) (v : ValueStream T L) (o : VOp) (c : Cache L) :
    Cache L :=
  match o with
  | .value t => match v.valueAt A fuel t with
    | none => c
    | some p => (p.run v.inc c).2
  | .terminal => ((v.terminal A fuel).run v.inc c).2
  | .query i => match v.query A fuel i with
    | none => c
    | some p => (p.run v.inc c).2
  | .signature i res ctx => ((v.signature A fuel i res ctx).run v.inc c).2
  | .increments support q => (((⟨v.inc, support⟩ : Stream L).ask fuel q).run v.inc c).2

/-- The cache of the increment stream after a history, starting from the empty cache. -/
def cacheAfter (A : TensorOps T L) (fuel : ℕ) (hist : List (ValueStream T L × VOp)) : Cache L :=
  hist.foldl (fun c p => p.2.cache A fuel p.1 c) Cache.empty

/-- A history of operations on streams sharing the increment stream `S` (that is: `v` itself, streams
obtained from it by queries, and so on). Direct queries to the increment stream use its default
context; all other operations may use any. -/
def History (S : Impl L) (hist : List (ValueStream T L × VOp)) : Prop :=
  ∀ p ∈ hist, p.1.inc = S ∧ ∀ support q, p.2 = .increments support q → q.ctx = S.defaultDepth

/-- After the history, the value of `v` at `t` is `x`. -/
def ValueIs (A : TensorOps T L) (v : ValueStream T L) (hist : List (ValueStream T L × VOp)) (t : ℚ)
    (x : T) : Prop :=
  Returns (fun fuel => (v.valueAt A fuel t).bind fun p => (p.run v.inc (cacheAfter A fuel hist)).1) x

/-- After the history, the terminal value of `v` is `x`. -/
def TerminalIs (A : TensorOps T L) (v : ValueStream T L) (hist : List (ValueStream T L × VOp))
    (x : T) : Prop :=
  Returns (fun fuel => ((v.terminal A fuel).run v.inc (cacheAfter A fuel hist)).1) x

/-- After the history, the query gives the stream `w`. -/
def QueryIs (A : TensorOps T L) (v : ValueStream T L) (hist : List (ValueStream T L × VOp))
    (i : RealInterval) (w : ValueStream T L) : Prop :=
  Returns (fun fuel => (v.query A fuel i).bind fun p => (p.run v.inc (cacheAfter A fuel hist)).1) w

/-- After the history, the signature is `x`. -/
def SignatureIs (A : TensorOps T L) (v : ValueStream T L) (hist : List (ValueStream T L × VOp))
    (i : Option RealInterval) (res : Option ℤ) (ctx : ℕ) (x : T) : Prop :=
  Returns (fun fuel => ((v.signature A fuel i res ctx).run v.inc (cacheAfter A fuel hist)).1) x

/-- `sort` behaves like `std::sort` by time. -/
def Sorts (sort : List (ℚ × T) → List (ℚ × T)) : Prop :=
  ∀ l, (sort l).Perm l ∧ (sort l).Pairwise fun a b => a.1 ≤ b.1

/-- `x` is the value in force just before `u`: that of the latest sample before `u`, or that of the
first sample if there is none. -/
def InForce (samples : List (ℚ × T)) (u : ℚ) (x : T) : Prop :=
  ∃ s ∈ samples, s.2 = x ∧
    ((s.1 < u ∧ ∀ s' ∈ samples, s'.1 < u → s'.1 ≤ s.1) ∨
      ((∀ s' ∈ samples, u ≤ s'.1) ∧ ∀ s' ∈ samples, s.1 ≤ s'.1))

/-- The samples an item list stands for: Lie elements are exponentiated. -/
def samplesOf (A : TensorOps T L) (depth : ℕ) : List (Item T L) → List (ℚ × T)
  | [] => []
  | .tensor t _ x :: rest => (t, x) :: samplesOf A depth rest
  | .lie t _ x :: rest => (t, A.fromLog depth x) :: samplesOf A depth rest
  | .other :: rest => samplesOf A depth rest

/-- The item is a pair of a time and a tensor or Lie element with the given width and scalar type. -/
def Item.Fits (s : CtxShape) : Item T L → Prop
  | .tensor _ s' _ => s' = s
  | .lie _ s' _ => s' = s
  | .other => False

/-- Input to `from_values` with which nothing is wrong: a context is given, there is at least one
item, every item is a pair of a time and a tensor or Lie element of that context, the tensors are
group-like, and no time occurs twice. -/
structure GoodInput (A : TensorOps T L) (depth : ℕ) (GL : Set T) (md : PathMd)
    (items : List (Item T L)) : Prop where
  nonempty : items ≠ []
  shape : ∃ s, md.ctx = some s ∧ md.width = s.width ∧ ∀ it ∈ items, it.Fits s
  grouplike : ∀ r ∈ samplesOf A depth items, r.2 ∈ GL
  distinct : ((samplesOf A depth items).map Prod.fst).Nodup

end RoughPy.Streams
