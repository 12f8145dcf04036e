import Verif.Streams.Model

/-!
# Model of tensor valued streams

`TensorValuedStream` (streams/src/tensor_valued_stream.{h,cpp}) and its construction from a list of
values (`stvs_from_values`, roughpy/src/streams/tensor_valued_stream.cpp:285-465).

Times are rational numbers. All values of one stream belong to contexts of one depth; values of
different depths in one list are not modelled.
-/

namespace RoughPy.Streams

open RoughPy.Intervals

/-- What the value streams use of `algebra::FreeTensor` and of the context of depth `d`:
`FreeTensor::mul`, `FreeTensor::antipode`, `ctx->tensor_to_lie(x.log())` and
`ctx.lie_to_tensor(l).exp()`. -/
structure TensorOps (T L : Type) where
  mul : T → T → T
  antipode : T → T
  toLog : ℕ → T → L
  fromLog : ℕ → L → T

/-- `TensorValuedStream` (tensor_valued_stream.h:22-60): domain, stream of increments, initial value.
`depth` is the depth of `m_initial_value.context()`. -/
structure ValueStream (T L : Type) where
  domain : RealInterval
  inc : Impl L
  initial : T
  depth : ℕ

/-- `StreamInterface::log_signature(interval, ctx)` (stream_base.cpp:63-69), overridden in
`DyadicCachingLayer` (dyadic_caching_layer.cpp:155-160). The check `ctx.width() == md.width` of
line 139 is not modelled: the width is fixed. -/
def plainLogSig {L : Type} (S : Impl L) (ctx fuel : ℕ) (i : RealInterval) : Prog L L :=
  if S.caching then intervalQuery S ctx fuel i S.defaultRes else .ret (S.impl ctx i)

namespace ValueStream

variable {T L : Type}

/-- `m_initial_value.mul(p_increment_stream->signature(interval, ctx))` with `signature` from
stream_base.cpp:97-103 (dyadic_caching_layer.cpp:161-166 for cached streams). The conversion to the
storage type of the initial value does not change the value. -/
def moved (A : TensorOps T L) (v : ValueStream T L) (fuel : ℕ) (i : RealInterval) : Prog L T :=
  (plainLogSig v.inc v.depth fuel i).bind fun l => .ret (A.mul v.initial (A.fromLog v.depth l))

/-- `TensorValuedStream::value_at` (tensor_valued_stream.cpp:65-81); `none` is the exception for a
parameter outside of the domain. -/
def valueAt (A : TensorOps T L) (v : ValueStream T L) (fuel : ℕ) (t : ℚ) : Option (Prog L T) :=
  if t < v.domain.inf ∨ t > v.domain.sup then none
  else if t = v.domain.inf then some (.ret v.initial)
  else some (v.moved A fuel (RealInterval.mk' v.domain.inf t))

/-- `TensorValuedStream::terminal_value` (tensor_valued_stream.cpp:88-94). -/
def terminal (A : TensorOps T L) (v : ValueStream T L) (fuel : ℕ) : Prog L T :=
  v.moved A fuel v.domain

/-- `TensorValuedStream::query` (tensor_valued_stream.cpp:48-60); `none` is an exception. -/
def query (A : TensorOps T L) (v : ValueStream T L) (fuel : ℕ) (i : RealInterval) :
    Option (Prog L (ValueStream T L)) :=
  if v.domain.intersectsWith i then
    let q := v.domain.intersection i
    (v.valueAt A fuel q.inf).map fun p => p.bind fun x => .ret ⟨q, v.inc, x, v.depth⟩
  else none

/-- `StreamInterface::log_signature(interval, resolution, ctx)` (stream_base.cpp:81-96) for a value
stream, whose `log_signature_impl` asks the increment stream (tensor_valued_stream.cpp:36-41). The
interval is not trimmed to the domain. -/
def logSignatureAt (v : ValueStream T L) (fuel : ℕ) (i : RealInterval) (res : ℤ) (ctx : ℕ) :
    Prog L L :=
  match toDyadicIntervals fuel i.inf i.sup res .clopen with
  | none => .fail
  | some ds =>
    (Prog.forEach (fun d => plainLogSig v.inc ctx fuel (asInterval d)) ds).bind fun ls =>
      .ret ((v.inc.ops ctx).cbh ls)

/-- `stvs_signature` (roughpy/src/streams/tensor_valued_stream.cpp:189-227): the interval defaults to
the domain and the resolution to the one of the increment stream (the metadata is copied from it,
tensor_valued_stream.cpp:23). -/
def signature (A : TensorOps T L) (v : ValueStream T L) (fuel : ℕ) (i : Option RealInterval)
    (res : Option ℤ) (ctx : ℕ) : Prog L T :=
  (v.logSignatureAt fuel (i.getD v.domain) (res.getD v.inc.defaultRes) ctx).bind fun l =>
    .ret (A.fromLog ctx l)

/-- `TensorValuedStream::empty` (tensor_valued_stream.cpp:28-34). -/
def empty (v : ValueStream T L) (i : RealInterval) : Bool :=
  if !v.domain.intersectsWith i then true else v.inc.empty (v.domain.intersection i)

end ValueStream

/-! ## Construction from values -/

/-- What is checked about the context of a tensor or Lie element: width and scalar type. -/
structure CtxShape where
  width : ℕ
  ctype : ℕ
  deriving DecidableEq, Repr

/-- An item of the list given to `from_values`: a pair of a parameter and a free tensor or a Lie
element, or anything else. -/
inductive Item (T L : Type) where
  | tensor (t : ℚ) (s : CtxShape) (x : T)
  | lie (t : ℚ) (s : CtxShape) (x : L)
  | other

/-- The part of `PyStreamMetaData` that is used. -/
structure PathMd where
  width : ℕ
  ctx : Option CtxShape
  resolution : Option ℤ
  support : Option RealInterval

/-- What the C++ standard leaves open: the result of `std::sort` for equal keys and the exponent
`std::frexp` stores for infinity. -/
structure Platform (T : Type) where
  sort : List (ℚ × T) → List (ℚ × T)
  infExp : ℤ

/-- The checks of one item against the context found so far
(roughpy/src/streams/tensor_valued_stream.cpp:351-369). -/
def checkCtxShape (ctx : Option CtxShape) (s : CtxShape) : Option CtxShape :=
  match ctx with
  | none => some s
  | some c => if c.width = s.width ∧ c.ctype = s.ctype then some c else none

/-- The loop over the items (roughpy/src/streams/tensor_valued_stream.cpp:338-376). -/
def decode {T L : Type} (A : TensorOps T L) (depth : ℕ) :
    Option CtxShape → List (Item T L) → Option (Option CtxShape × List (ℚ × T))
  | c, [] => some (c, [])
  | c, .tensor t s x :: rest =>
    (checkCtxShape c s).bind fun c' => (decode A depth (some c') rest).map fun (r, l) => (r, (t, x) :: l)
  | c, .lie t s x :: rest =>
    (checkCtxShape c s).bind fun c' =>
      (decode A depth (some c') rest).map fun (r, l) => (r, (t, A.fromLog depth x) :: l)
  | _, .other :: _ => none

/-- The increments between neighbouring values
(roughpy/src/streams/tensor_valued_stream.cpp:400-418). -/
def increments {T L : Type} (A : TensorOps T L) (depth : ℕ) (previous : T) :
    List (ℚ × T) → List (ℚ × L)
  | [] => []
  | (t, x) :: rest =>
    (t, A.toLog depth (A.mul (A.antipode previous) x)) :: increments A depth x rest

/-- The smallest difference of neighbouring parameters (`none`: infinity)
(roughpy/src/streams/tensor_valued_stream.cpp:399-405). -/
def minDifference : List ℚ → Option ℚ
  | a :: b :: rest =>
    match minDifference (b :: rest) with
    | none => some (b - a)
    | some m => some (min (b - a) m)
  | _ => none

/-- `python::param_to_resolution` (roughpy/src/args/kwargs_to_path_metadata.cpp:224-229). -/
def pyParamToResolution (infExp : ℤ) (accuracy : Option ℚ) : ℤ :=
  -(min 5 ((match accuracy with | none => infExp | some x => frexpExp x) - 1))

/-- What `from_values` ends with: an exception; a stream; or a stream whose increment stream has no
default context (`path_md.ctx` is null when only the width is given), so that every further
computation dereferences a null pointer. -/
inductive FromValues (T L : Type) where
  | error
  | noContext
  | stream (v : ValueStream T L)

/-- The end of `stvs_from_values` (roughpy/src/streams/tensor_valued_stream.cpp:384-460), from the
sorted values on. -/
def buildSorted {T L : Type} (A : TensorOps T L) (ops : ℕ → LieOps L) (depth : ℕ) (infExp : ℤ)
    (md : PathMd) : List (ℚ × T) → FromValues T L
  | [] => .error
  | (t₀, x₀) :: rest =>
    let incs := increments A depth x₀ rest
    let times := t₀ :: rest.map Prod.fst
    let res := match md.resolution with
      | some r => r
      | none => pyParamToResolution infExp (minDifference times) + 1
    let support := match md.support with
      | some s => s
      | none => RealInterval.mk' t₀ ((rest.map Prod.fst).getLastD t₀ + 1 / 2 ^ res)
    match md.ctx with
    | none => .noContext
    | some _ => .stream ⟨support, lieIncrementStream ops (incrementData incs) res depth, x₀, depth⟩

/-- `stvs_from_values` (roughpy/src/streams/tensor_valued_stream.cpp:285-465) after the arguments have
been taken apart. -/
def fromValues {T L : Type} (P : Platform T) (A : TensorOps T L) (ops : ℕ → LieOps L) (depth : ℕ)
    (md : PathMd) (items : List (Item T L)) : FromValues T L :=
  if items.isEmpty then .error
  else match decode A depth md.ctx items with
    | none => .error
    | some (none, _) => .error
    | some (some c, data) =>
      if md.width = c.width then buildSorted A ops depth P.infExp md (P.sort data) else .error

end RoughPy.Streams
