import Verif.Intervals.Model
import Mathlib.Data.Int.Log
import Mathlib.Data.Rat.Floor

/-!
# Model of `streams/` : `Stream`, `StreamInterface`, `DyadicCachingLayer`,
`LieIncrementStream`, `PiecewiseAbelianStream`, `ArrivalStream`

`param_t` (`double`) is `ℚ`, `resolution_t` (`int`) is `ℤ`.  The algebra library is abstract:
the functions used by the streams (`Context::zero_lie`, `Lie::is_zero`, `Context::cbh`) are the
fields of `LieOps`.  A context is identified by its depth (its width is fixed by the stream:
`RPY_CHECK(ctx.width() == md.width)`).
-/

namespace RoughPy.Streams

open RoughPy.Intervals

/-- What the streams use of an `algebra::Context` and of `algebra::Lie`:
`ctx.zero_lie`, `lie.is_zero()`, `ctx.cbh(lies)` — algebra/src/context.cpp:169-216. -/
structure LieOps (L : Type) where
  zero : L
  isZero : L → Bool
  cbh : List L → L

/-- A `DyadicInterval` passed as a `const Interval&` (its virtual `inf`, `sup`, `type`). -/
def asInterval (d : DyadicInterval) : RealInterval := ⟨d.inf, d.sup, d.type⟩

/-- A computation that may consult the shared cache of a `DyadicCachingLayer`.
`cell ctx d k` is the critical section of dyadic_caching_layer.cpp:97-105: look up `m_cache[d]`,
computing it with `log_signature_impl(d, ctx)` if there is no entry, and carry on with the
entry.  `fail` is an exception or a loop that did not finish within its fuel. -/
inductive Prog (L α : Type) : Type where
  | ret (a : α) : Prog L α
  | fail : Prog L α
  | cell (ctx : ℕ) (d : DyadicInterval) (k : L → Prog L α) : Prog L α

namespace Prog

variable {L α β : Type}

/-- Sequencing. -/
def bind : Prog L α → (α → Prog L β) → Prog L β
  | ret a, f => f a
  | fail, _ => fail
  | cell c d k, f => cell c d fun x => (k x).bind f

/-- `for (x : xs) ys.push_back(f(x))`. -/
def forEach (f : β → Prog L α) : List β → Prog L (List α)
  | [] => ret []
  | x :: xs => (f x).bind fun y => (forEach f xs).bind fun ys => ret (y :: ys)

end Prog

/-- Everything a `Stream` holds except its support: the virtual functions `log_signature_impl`
and `empty` of the implementation, the metadata (`default_resolution`, depth of
`default_context`) — stream_base.h:85-135 — the affine parameterization of the schema
(parametrization.h:47-48), and whether the implementation derives from `DyadicCachingLayer` or
directly from `StreamInterface`. -/
structure Impl (L : Type) where
  ops : ℕ → LieOps L
  impl : ℕ → RealInterval → L
  empty : RealInterval → Bool
  defaultRes : ℤ
  defaultDepth : ℕ
  caching : Bool
  offset : ℚ := 0
  scaling : ℚ := 1

/-- `class Stream` — stream.h:55-100: shared implementation and support. -/
structure Stream (L : Type) where
  impl : Impl L
  support : RealInterval

/-- `DyadicCachingLayer::log_signature(DyadicInterval, resolution, ctx)` —
dyadic_caching_layer.cpp:86-130.  The parameter `resolution` is only passed on.  The null
`Lie()` of line 114 is only ever tested with `is_zero` or returned; it is represented by the
zero element. -/
def layerQuery {L : Type} (S : Impl L) (ctx : ℕ) : ℕ → DyadicInterval → Prog L L
  | 0, _ => .fail
  | fuel + 1, d =>
    if S.empty (asInterval d) then .ret (S.ops ctx).zero
    else if d.n = S.defaultRes then .cell ctx d .ret
    else if d.n > S.defaultRes then
      match d.expand (d.n - S.defaultRes) with
      | none => .fail
      | some tmp =>
        if tmp.toDyadic.rationalEquals d.toDyadic then layerQuery S ctx fuel tmp
        else .ret (S.ops ctx).zero
    else
      match d.shrinkLeft 1, d.shrinkRight with
      | some l, some r =>
        (layerQuery S ctx fuel l).bind fun lhs =>
        (layerQuery S ctx fuel r).bind fun rhs =>
          if (S.ops ctx).isZero lhs then .ret rhs
          else if (S.ops ctx).isZero rhs then .ret lhs
          else .ret ((S.ops ctx).cbh [lhs, rhs])
      | _, _ => .fail

/-- recursion depth of `layerQuery` -/
def layerFuel {L : Type} (S : Impl L) (d : DyadicInterval) : ℕ := (S.defaultRes - d.n).natAbs + 2

/-- `StreamInterface::log_signature(DyadicInterval, resolution, ctx)` — stream_base.cpp:72-80,
overridden by `DyadicCachingLayer`. -/
def dyadicQuery {L : Type} (S : Impl L) (ctx : ℕ) (d : DyadicInterval) : Prog L L :=
  if S.caching then layerQuery S ctx (layerFuel S d) d
  else .ret (S.impl ctx (asInterval d))

/-- `Stream::log_signature_impl` — stream.cpp:107-123.  `to_dyadic_intervals` is called
without an interval type, so the dissection is clopen whatever the type of the query. -/
def logSigImpl {L : Type} (S : Impl L) (ctx : ℕ) (fuel : ℕ) (query : RealInterval) (res : ℤ) :
    Prog L L :=
  match toDyadicIntervals fuel query.inf query.sup res .clopen with
  | none => .fail
  | some ds =>
    (Prog.forEach (dyadicQuery S ctx) ds).bind fun results =>
      .ret ((S.ops ctx).cbh (results.filter fun x => !(S.ops ctx).isZero x))

/-- `DyadicCachingLayer::log_signature(Interval, resolution, ctx)` and
`StreamInterface::log_signature(Interval, resolution, ctx)` —
dyadic_caching_layer.cpp:131-154, stream_base.cpp:81-96. -/
def intervalQuery {L : Type} (S : Impl L) (ctx : ℕ) (fuel : ℕ) (query : RealInterval) (res : ℤ) :
    Prog L L :=
  match toDyadicIntervals fuel query.inf query.sup res .clopen with
  | none => .fail
  | some ds =>
    if S.caching ∧ ctx = S.defaultDepth then
      (Prog.forEach (fun d => layerQuery S ctx (layerFuel S d) d) ds).bind fun results =>
        .ret ((S.ops ctx).cbh (results.filter fun x => !(S.ops ctx).isZero x))
    else .ret ((S.ops ctx).cbh (ds.map fun d => S.impl ctx (asInterval d)))

/-- The exponent returned by `std::frexp(x, &e)`: `x = m·2^e` with `1/2 ≤ |m| < 1`; `0` for
`x = 0`. -/
def frexpExp (x : ℚ) : ℤ := if x = 0 then 0 else Int.log 2 |x| + 1

/-- `param_to_resolution` — stream_base.h:73-83. -/
def paramToResolution (arg : ℚ) : ℤ := -(min 0 (frexpExp arg - 1))

/-- `StreamSchema::adjust_interval`, `Parameterization::convert_parameter_interval` —
schema.cpp:256-260, parametrization.cpp:42-47. -/
def adjustInterval {L : Type} (S : Impl L) (i : RealInterval) : RealInterval :=
  RealInterval.mk' (S.offset + S.scaling * i.inf) (S.offset + S.scaling * i.sup) i.type

/-- `Stream::check_support_and_trim` — stream.cpp:37-52. -/
def checkSupportAndTrim (support domain : RealInterval) : Option RealInterval :=
  if domain.sup < support.inf ∨ domain.inf > support.sup then none
  else some (RealInterval.mk' (max domain.inf support.inf) (min domain.sup support.sup)
    domain.type)

namespace Stream

variable {L : Type}

/-- `Stream::refine_interval` — stream.cpp:54-71. -/
def refineInterval (s : Stream L) (original : RealInterval) : Option (RealInterval × ℤ) :=
  match checkSupportAndTrim s.support (adjustInterval s.impl original) with
  | none => none
  | some query =>
    let length := query.sup - query.inf
    if length = 0 then none
    else some (query, max s.impl.defaultRes (paramToResolution length + 2))

/-- `Stream::restrict_to`, `Stream::restrict` — stream.cpp:73-88. -/
def restrict (s : Stream L) (i : RealInterval) : Stream L :=
  { s with support := adjustInterval s.impl i }

/-- `Stream::log_signature(interval, ctx)` — stream.cpp:125-135. -/
def logSignature (s : Stream L) (fuel : ℕ) (i : RealInterval) (ctx : ℕ) : Prog L L :=
  match s.refineInterval i with
  | none => .ret (s.impl.ops ctx).zero
  | some (q, res) => logSigImpl s.impl ctx fuel q res

/-- `Stream::log_signature(interval, resolution, ctx)` — stream.cpp:145-155. -/
def logSignatureAt (s : Stream L) (fuel : ℕ) (i : RealInterval) (res : ℤ) (ctx : ℕ) : Prog L L :=
  match s.refineInterval i with
  | none => .ret (s.impl.ops ctx).zero
  | some (q, _) => logSigImpl s.impl ctx fuel q res

end Stream

/-! ### Executing programs against the cache -/

/-- `std::map<DyadicInterval, Lie> m_cache` — dyadic_caching_layer.h:46-60.  All keys are
clopen, so that equivalence under `operator<` is equality (`C08_order`). -/
abbrev Cache (L : Type) := DyadicInterval → Option L

/-- A fresh stream has an empty cache. -/
def Cache.empty {L : Type} : Cache L := fun _ => none

/-- One critical section — dyadic_caching_layer.cpp:97-105: the value seen and the cache
afterwards.  The key does not contain the context. -/
def cellStep {L : Type} (S : Impl L) (ctx : ℕ) (d : DyadicInterval) (c : Cache L) :
    L × Cache L :=
  match c d with
  | some x => (x, c)
  | none =>
    let x := S.impl ctx (asInterval d)
    (x, Function.update c d (some x))

/-- Run a program to completion. -/
def Prog.run {L α : Type} (S : Impl L) : Prog L α → Cache L → Option α × Cache L
  | .ret a, c => (some a, c)
  | .fail, c => (none, c)
  | .cell ctx d k, c => let (x, c') := cellStep S ctx d c; (k x).run S c'

/-- One user query. -/
structure Query where
  interval : RealInterval
  res : Option ℤ
  ctx : ℕ

/-- The method called for a query: with or without an explicit resolution. -/
def Stream.ask {L : Type} (s : Stream L) (fuel : ℕ) (q : Query) : Prog L L :=
  match q.res with
  | none => s.logSignature fuel q.interval q.ctx
  | some r => s.logSignatureAt fuel q.interval r q.ctx

/-- A session: queries one after the other, sharing the cache; list of answers. -/
def session {L : Type} (s : Stream L) (fuel : ℕ) : List Query → Cache L → List (Option L) × Cache L
  | [], c => ([], c)
  | q :: qs, c =>
    let (a, c₁) := (s.ask fuel q).run s.impl c
    let (as, c₂) := session s fuel qs c₁
    (a :: as, c₂)

/-! ### Concurrent sessions -/

/-- Thread `i` performs its next critical section (the mutex makes it atomic); nothing
happens if the thread has finished. -/
def threadStep {L α : Type} (S : Impl L) (i : ℕ) (st : List (Prog L α) × Cache L) :
    List (Prog L α) × Cache L :=
  match st.1[i]? with
  | some (.cell ctx d k) =>
    let (x, c') := cellStep S ctx d st.2
    (st.1.set i (k x), c')
  | _ => st

/-- Execute a schedule (a list of thread numbers). -/
def runSchedule {L α : Type} (S : Impl L) (sched : List ℕ) (st : List (Prog L α) × Cache L) :
    List (Prog L α) × Cache L :=
  sched.foldl (fun st i => threadStep S i st) st

/-! ### `LieIncrementStream` -/

/-- `boost::container::flat_map<param_t, Lie>::emplace` / `try_emplace`: insert keeping keys
sorted; an existing key keeps its old value (lie_increment_stream.cpp:92-93, 138-139, 166-168). -/
def emplace {L : Type} (t : ℚ) (x : L) : List (ℚ × L) → List (ℚ × L)
  | [] => [(t, x)]
  | (s, y) :: m =>
    if t < s then (t, x) :: (s, y) :: m
    else if s < t then (s, y) :: emplace t x m
    else (s, y) :: m

/-- The constructor from time-stamped Lie elements — lie_increment_stream.cpp:157-172. -/
def incrementData {L : Type} (rows : List (ℚ × L)) : List (ℚ × L) :=
  rows.foldl (fun m r => emplace r.1 r.2 m) []

/-- The loop of the constructors that add a time channel — lie_increment_stream.cpp:117-153
(and 85-107): `setTime x v` is `x[param_slot] = v`.  `previous_param` is updated even if the
row was not inserted. -/
def incrementDataTime {L : Type} (setTime : L → ℚ → L) (rows : List (ℚ × L)) : List (ℚ × L) :=
  (rows.foldl (fun (st : List (ℚ × L) × ℚ) r =>
    (emplace r.1 (setTime r.2 (r.1 - st.2)) st.1, r.1)) ([], 0)).1

/-- `m_data.lower_bound(x)`: index of the first key `≥ x`. -/
def lowerBound {L : Type} (m : List (ℚ × L)) (x : ℚ) : ℕ := m.findIdx fun r => decide (x ≤ r.1)

/-- `m_data.upper_bound(x)`: index of the first key `> x`. -/
def upperBound {L : Type} (m : List (ℚ × L)) (x : ℚ) : ℕ := m.findIdx fun r => decide (x < r.1)

/-- The iterator range `[begin, end)` used by `log_signature_impl` and `empty` —
lie_increment_stream.cpp:180-186, 203-209. -/
def incrementRange {L : Type} (m : List (ℚ × L)) (i : RealInterval) : List (ℚ × L) :=
  let b := match i.type with
    | .opencl => upperBound m i.inf
    | .clopen => lowerBound m i.inf
  let e := match i.type with
    | .opencl => upperBound m i.sup
    | .clopen => lowerBound m i.sup
  (m.take e).drop b

/-- `LieIncrementStream::log_signature_impl` — lie_increment_stream.cpp:174-199. -/
def lieIncrementLogSig {L : Type} (ops : ℕ → LieOps L) (m : List (ℚ × L)) (ctx : ℕ)
    (i : RealInterval) : L :=
  let r := incrementRange m i
  if r.isEmpty then (ops ctx).zero else (ops ctx).cbh (r.map Prod.snd)

/-- `class LieIncrementStream : DyadicCachingLayer`; `empty` is lie_increment_stream.cpp:200-212. -/
def lieIncrementStream {L : Type} (ops : ℕ → LieOps L) (m : List (ℚ × L)) (res : ℤ)
    (depth : ℕ) : Impl L where
  ops := ops
  impl := lieIncrementLogSig ops m
  empty := fun i => (incrementRange m i).isEmpty
  defaultRes := res
  defaultDepth := depth
  caching := true

/-! ### `PiecewiseAbelianStream` -/

/-- `to_multiplier_upper` — piecewise_abelian_stream.h:54-61. -/
def toMultiplierUpper (piece : RealInterval) (param : ℚ) : ℚ :=
  (piece.sup - param) / (piece.sup - piece.inf)

/-- `to_multiplier_lower` — piecewise_abelian_stream.h:62-69. -/
def toMultiplierLower (piece : RealInterval) (param : ℚ) : ℚ :=
  (param - piece.inf) / (piece.sup - piece.inf)

/-- The loop of `PiecewiseAbelianStream::log_signature_impl` —
piecewise_abelian_stream.cpp:155-186: the list `lies`. -/
def piecewiseLies {L : Type} (smul : L → ℚ → L) (a b : ℚ) : List (RealInterval × L) → List L
  | [] => []
  | (p, x) :: rest =>
    if p.inf ≥ b then []
    else if p.sup ≤ a then piecewiseLies smul a b rest
    else if p.inf ≥ a ∧ p.sup ≤ b then x :: piecewiseLies smul a b rest
    else if p.sup ≤ p.sup then
      smul x (toMultiplierUpper p a) :: piecewiseLies smul a b rest
    else if p.inf ≥ a ∧ p.sup > b then
      smul x (toMultiplierLower p b) :: piecewiseLies smul a b rest
    else piecewiseLies smul a b rest

/-- `PiecewiseAbelianStream::log_signature_impl` — piecewise_abelian_stream.cpp:155-189. -/
def piecewiseLogSig {L : Type} (ops : ℕ → LieOps L) (smul : L → ℚ → L)
    (pieces : List (RealInterval × L)) (ctx : ℕ) (i : RealInterval) : L :=
  (ops ctx).cbh (piecewiseLies smul i.inf i.sup pieces)

/-! ### `ArrivalStream` -/

/-- The range of `ArrivalStream::log_signature_impl` and `empty` — arrival_stream.cpp:16-37. -/
def arrivalRange {L : Type} (m : List (ℚ × L)) (i : RealInterval) : List (ℚ × L) :=
  (m.take (upperBound m i.sup)).drop (lowerBound m i.inf)

end RoughPy.Streams
