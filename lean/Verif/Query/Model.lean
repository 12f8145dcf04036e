import Verif.Args.Increments
import Verif.Streams.Model

/-!
# Model of the arguments of stream queries

`roughpy/src/streams/signature_arguments.cpp` and the methods `signature`, `log_signature`,
`signature_derivative` and `simplify` of `roughpy/src/streams/stream.cpp`: which query is made for
which Python arguments.

`param_t` (`double`) is `ℚ`: only finite floats are modelled.  Type tests by `Py_TYPE(o) == …` are
tests of the exact type: an instance of a subclass of `float` or `int` (`numpy.float64`, `bool`) is
`Obj.other`.
-/

namespace RoughPy.Query

open RoughPy.Intervals RoughPy.Streams

/-- What a call does instead of giving a result.  `type`, `value`, `system`, `overflow`: the Python
exceptions `TypeError`, `ValueError`, `SystemError`, `OverflowError`.  `pending`: an error was set
and the code went on; the call raises when it returns (which exception is not modelled, nor is what
happens in between). -/
inductive Exc where
  | type | value | system | overflow | pending
deriving DecidableEq, Repr

/-- Result of a call.  `terminated`: a C++ exception leaves a function called by the interpreter
(`std::terminate`).  `undefined`: undefined behaviour. -/
inductive Out (α : Type) where
  | ok (a : α)
  | raised (e : Exc)
  | terminated
  | undefined
deriving DecidableEq, Repr

namespace Out

variable {α β : Type}

/-- Sequencing. -/
def bind : Out α → (α → Out β) → Out β
  | ok a, f => f a
  | raised e, _ => raised e
  | terminated, _ => terminated
  | undefined, _ => undefined

end Out

/-- `const scalars::ScalarType*`: the four types contexts are made for
(algebra/src/lite_context.cpp:49-53) and all others (half precision, integers). -/
inductive CType where
  | f64 | f32 | rational | poly
  | other (n : ℕ)
deriving DecidableEq, Repr

/-- `context_pointer`: contexts are cached by width, depth and scalar type
(lite_context.cpp:44-47, 114-124), so that equal triples are the same context. -/
structure Ctx where
  width : ℤ
  depth : ℤ
  ctype : CType
deriving DecidableEq, Repr

/-- `get_context` — algebra/src/context.cpp:259-296 with the single maker of lite_context.cpp:66-90:
`none` is an exception (`std::invalid_argument`): no maker for this scalar type (a null scalar type
included).  The sizes are not looked at.  (The constructors of the bases are not followed for
negative sizes.) -/
def getContext (width depth : ℤ) : Option CType → Option Ctx
  | none => none
  | some (.other _) => none
  | some t => some ⟨width, depth, t⟩

/-- A Python object as an argument of a query. `interval` is an object whose type is `Interval`
itself. -/
inductive Obj where
  | none
  | float (x : ℚ)
  | int (n : ℤ)
  | real (i : RealInterval)
  | dyadic (d : DyadicInterval)
  | interval (i : RealInterval)
  | other
deriving DecidableEq, Repr

/-- The argument `dtype` of a query: a RoughPy scalar type; a string, with the type
`scalars::get_type` finds for it; an object whose type is `numpy.dtype` itself, with the type
`npy_dtype_to_ctype` finds for it; anything else. -/
inductive DType where
  | scalar (t : CType)
  | str (known : Option CType)
  | npy (known : Option CType)
  | other
deriving DecidableEq, Repr

/-- What the queries use of `StreamMetadata` — streams/include/roughpy/streams/stream_base.h:62-70.
The context and the scalar type are pointers, `none` is null. -/
structure Meta where
  width : ℤ
  ctx : Option Ctx
  dataType : Option CType
  resolution : ℤ
deriving DecidableEq, Repr

/-- Conversion of a 64-bit `long` to the 32-bit `resolution_t` (core/types.hpp:63). -/
def wrap32 (n : ℤ) : ℤ := (n + 2 ^ 31) % 2 ^ 32 - 2 ^ 31

/-- `PyLong_AsLong`, stored in a `resolution_t`; the error for a number that does not fit in 64 bits
is not looked at — signature_arguments.cpp:37, 107-108, stream.cpp:313. -/
def asResolution (n : ℤ) : Out ℤ :=
  if -2 ^ 63 ≤ n ∧ n < 2 ^ 63 then .ok (wrap32 n) else .raised .pending

/-- The format `i` of `PyArg_ParseTupleAndKeywords`: an `int`.  (Objects with `__index__` are not
distinguished from `int` objects.) -/
def asInt : Obj → Out ℤ
  | .int n => if -2 ^ 31 ≤ n ∧ n < 2 ^ 31 then .ok n else .raised .overflow
  | _ => .raised .type

/-- Nearest multiple of `2 ^ s`, ties to the even multiple. -/
def roundTo (s a : ℕ) : ℕ :=
  let q := a / 2 ^ s
  let r := a % 2 ^ s
  if 2 * r < 2 ^ s then q * 2 ^ s
  else if 2 ^ s < 2 * r then (q + 1) * 2 ^ s
  else if q % 2 = 0 then q * 2 ^ s else (q + 1) * 2 ^ s

/-- `PyLong_AsDouble`: rounding to 53 bits; the error for a number too large is not looked at. -/
def asDouble (n : ℤ) : Out ℚ :=
  let a := roundTo (Nat.log 2 n.natAbs - 52) n.natAbs
  if a < 2 ^ 1024 then .ok (if n < 0 then -(a : ℚ) else a) else .raised .pending

/-- `resolution_converter` — signature_arguments.cpp:31-52, acting on the optional resolution. -/
def resolutionConverter (o : Obj) (old : Option ℤ) : Out (Option ℤ) :=
  match o with
  | .float x => .ok (some (Args.resolutionOf x))
  | .int n => (asResolution n).bind fun r => .ok (some r)
  | .none => .ok old
  | _ => .raised .type

/-- The arguments of `signature` and `log_signature` — signature_arguments.cpp:63-91; `none` is an
argument that is not given.  `ctx := some none` is an object that is not a `Context`. -/
structure SigIn where
  first : Option Obj := none
  sup : Option Obj := none
  resolution : Option Obj := none
  ctx : Option (Option Ctx) := none
  depth : Option Obj := none
  dtype : Option DType := none
deriving DecidableEq, Repr

/-- `struct SigArgs` — roughpy/src/streams/signature_arguments.h. -/
structure SigArgs where
  interval : Option RealInterval
  resolution : Option ℤ
  ctx : Option Ctx
deriving DecidableEq, Repr

/-- The second of two numbers that give an interval — signature_arguments.cpp:121-131. -/
def supValue : Obj → Out ℚ
  | .float x => .ok x
  | .int n => asDouble n
  | _ => .raised .type

/-- Lines 112-140: both end points. -/
def fromEnds (inf : ℚ) (sup : Obj) (res : Option ℤ) : Out (Option RealInterval × Option ℤ) :=
  (supValue sup).bind fun b =>
    if inf > b then .raised .value else .ok (some (RealInterval.mk' inf b), res)

/-- Lines 142-176: an interval object; a second argument is the resolution. -/
def fromInterval (i : RealInterval) (sup : Option Obj) (res : Option ℤ) :
    Out (Option RealInterval × Option ℤ) :=
  match sup with
  | none => .ok (some i, res)
  | some o => (resolutionConverter o res).bind fun r => .ok (some i, r)

/-- Lines 94-183 of `parse_sig_args`: interval and resolution. -/
def parseInterval (a : SigIn) (res : Option ℤ) : Out (Option RealInterval × Option ℤ) :=
  match a.first with
  | none => .ok (none, res)
  | some .none => .ok (none, res)
  | some (.float x) =>
    match a.sup with
    | none => .raised .type
    | some s => fromEnds x s res
  | some (.int n) =>
    match a.sup with
    | none => (asResolution n).bind fun r => .ok (none, some r)
    | some s => (asDouble n).bind fun x => fromEnds x s res
  | some (.real i) => fromInterval i a.sup res
  | some (.dyadic d) => fromInterval (asInterval d) a.sup res
  | some (.interval i) => fromInterval i a.sup res
  | some .other => .raised .type

/-- Lines 193-230: the scalar type named by `dtype`.  The test of the string is the wrong way
round; an empty optional is dereferenced for an unknown name. -/
def parseDType (old : Option CType) : Option DType → Out (Option CType)
  | none => .ok old
  | some (.scalar t) => .ok (some t)
  | some (.str (some _)) => .raised .type
  | some (.str none) => .undefined
  | some (.npy (some t)) => .ok (some t)
  | some (.npy none) => .raised .value
  | some .other => .raised .type

/-- Lines 185-238: the context.  `get_alike` (lite_context.h:754-767) may throw, and nothing catches
the exception. -/
def parseContext (md : Meta) (ctx : Option Ctx) (depth : ℤ) (dtype : Option DType) :
    Out (Option Ctx) :=
  match ctx with
  | some c => .ok (some c)
  | none =>
    if depth = 0 ∧ dtype = none then .ok md.ctx
    else
      (parseDType md.dataType dtype).bind fun t =>
        match md.ctx with
        | none => .undefined
        | some c =>
          match getContext c.width depth t with
          | none => .terminated
          | some c' => .ok (some c')

/-- An optional argument read by a converter. -/
def optional {α : Type} (f : Obj → Out α) (dflt : α) : Option Obj → Out α
  | none => .ok dflt
  | some o => f o

/-- The checks of `PyArg_ParseTupleAndKeywords` with the formats `O&`, `O!`, `i` — lines 78-92:
resolution, context and depth. -/
def parseTuple (a : SigIn) : Out (Option ℤ × Option Ctx × ℤ) :=
  (optional (resolutionConverter · none) none a.resolution).bind fun res =>
    match a.ctx with
    | some none => .raised .type
    | some (some c) => (optional asInt 0 a.depth).bind fun d => .ok (res, some c, d)
    | none => (optional asInt 0 a.depth).bind fun d => .ok (res, none, d)

/-- `parse_sig_args` — signature_arguments.cpp:56-241. -/
def parseSigArgs (md : Meta) (a : SigIn) : Out SigArgs :=
  (parseTuple a).bind fun t =>
    (parseInterval a t.1).bind fun ir =>
      (parseContext md t.2.1 t.2.2 a.dtype).bind fun c => .ok ⟨ir.1, ir.2, c⟩

/-- A query of the C++ `Stream`: interval, resolution (if one is passed) and context. -/
structure Call where
  interval : RealInterval
  resolution : Option ℤ
  ctx : Ctx
deriving DecidableEq, Repr

/-- The four cases of the methods `signature` and `log_signature` — stream.cpp:197-219, 243-265, and
the overloads they select (streams/include/roughpy/streams/stream.h:137-156, 166-185): without an
interval the support of the stream is used.  A null context is dereferenced. -/
def dispatch (support : RealInterval) (s : SigArgs) : Out Call :=
  match s.ctx with
  | none => .undefined
  | some c =>
    match s.interval with
    | some i => .ok ⟨i, s.resolution, c⟩
    | none => .ok ⟨support, s.resolution, c⟩

/-- `stream.signature(…)` and `stream.log_signature(…)` up to the query they make. -/
def signatureCall (md : Meta) (support : RealInterval) (a : SigIn) : Out Call :=
  (parseSigArgs md a).bind (dispatch support)

/-! ### `signature_derivative` -/

/-- A Python object as an argument of `signature_derivative`; `lie l` is the Lie element number `l`
(elements are only passed on).  `tuple`: a tuple; `seq`: another sequence. -/
inductive DObj where
  | int (n : ℤ)
  | interval (i : RealInterval)
  | lie (l : ℕ)
  | tuple (items : List DObj)
  | seq (items : List DObj)
  | other

/-- The arguments of `signature_derivative` — stream.cpp:280-300. -/
structure DerivIn where
  arg : DObj
  second : Option DObj := none
  resolution : Option Obj := none
  depth : Option Obj := none

/-- What `Stream::signature_derivative` is called with: the pairs, the resolution and the context. -/
structure DerivCall where
  pairs : List (RealInterval × ℕ)
  resolution : ℤ
  ctx : Ctx
deriving DecidableEq, Repr

/-- `PyArg_ParseTuple(o, "O!O!", interval_type, …, lie_type, …)` on a sequence of length two: not a
tuple is a `SystemError` — stream.cpp:337-345, 376-384. -/
def parsePair : DObj → Out (RealInterval × ℕ)
  | .tuple [.interval i, .lie l] => .ok (i, l)
  | .tuple _ => .raised .type
  | _ => .raised .system

/-- One item of the sequence — stream.cpp:361-391. -/
def parseItem : DObj → Out (RealInterval × ℕ)
  | .tuple items => if items.length = 2 then parsePair (.tuple items) else .raised .type
  | .seq items => if items.length = 2 then parsePair (.seq items) else .raised .type
  | _ => .raised .type

/-- The loop of stream.cpp:361-392. -/
def parseItems : List DObj → Out (List (RealInterval × ℕ))
  | [] => .ok []
  | o :: os => (parseItem o).bind fun p => (parseItems os).bind fun ps => .ok (p :: ps)

/-- The cases of stream.cpp:317-401. -/
def parsePairs (arg : DObj) (second : Option DObj) : Out (List (RealInterval × ℕ)) :=
  match arg, second with
  | .interval i, some (.lie l) => .ok [(i, l)]
  | .tuple items, _ =>
    if items.length = 2 then (parsePair (.tuple items)).bind fun p => .ok [p]
    else if items.length > 0 then parseItems items
    else .raised .value
  | .seq items, _ => if items.length > 0 then parseItems items else .raised .value
  | _, _ => .raised .value

/-- Lines 312-315: a number as second argument is the resolution. -/
def secondArg (second : Option DObj) (res : ℤ) : Out (Option DObj × ℤ) :=
  match second with
  | some (.int n) => (asResolution n).bind fun r => .ok (none, r)
  | s => .ok (s, res)

/-- `sig_deriv` — stream.cpp:278-404.  The resolution is that of the metadata unless one is given; a
depth of `-1` is the same as none. -/
def derivCall (md : Meta) (a : DerivIn) : Out DerivCall :=
  (optional asInt md.resolution a.resolution).bind fun res =>
    (optional asInt (-1) a.depth).bind fun depth =>
      match md.ctx with
      | none => .undefined
      | some c =>
        match (if depth = -1 then some c else getContext c.width depth (some c.ctype)) with
        | none => .terminated
        | some ctx =>
          (secondArg a.second res).bind fun sr =>
            (parsePairs a.arg sr.1).bind fun ps => .ok ⟨ps, sr.2, ctx⟩

/-! ### `simplify` -/

/-- The arguments of `simplify` — stream.cpp:412-431.  `pieces` are the intervals of the partition
(`partition[0]`, …, `partition[size - 1]`). -/
structure SimplifyIn where
  pieces : List RealInterval
  resolution : Option Obj := none
  ctx : Option (Option Ctx) := none
  depth : Option Obj := none

/-- `Stream::simplify` — streams/src/stream.cpp:232-258: the query made for every piece, the metadata
of the new stream and its support (that of the metadata: stream.h:274-277). -/
structure SimplifyCall where
  pieces : List (RealInterval × Call)
  md : Meta
  support : RealInterval
deriving DecidableEq, Repr

/-- `Stream::simplify(partition, resolution, ctx)`; `effective` is the support in the metadata. -/
def simplifyWith (md : Meta) (effective : RealInterval) (pieces : List RealInterval) (res : ℤ)
    (ctx : Ctx) : SimplifyCall :=
  ⟨pieces.map fun i => (i, ⟨i, some res, ctx⟩), { md with ctx := some ctx, resolution := res }, effective⟩

/-- `simplify_stream` — stream.cpp:409-469. -/
def simplifyCall (md : Meta) (effective : RealInterval) (a : SimplifyIn) : Out SimplifyCall :=
  (optional asInt md.resolution a.resolution).bind fun res =>
    match a.ctx with
    | some none => .raised .type
    | some (some c) =>
      (optional asInt 0 a.depth).bind fun _ =>
        if c.width ≠ md.width then .raised .value
        else if some c.ctype ≠ md.dataType then .raised .value
        else .ok (simplifyWith md effective a.pieces res c)
    | none =>
      (optional asInt 0 a.depth).bind fun depth =>
        match md.ctx with
        | none => .undefined
        | some c =>
          if depth ≠ 0 then
            match getContext c.width depth (some c.ctype) with
            | none => .terminated
            | some ctx => .ok (simplifyWith md effective a.pieces res ctx)
          else .ok (simplifyWith md effective a.pieces res c)

/-! ### What the queries compute -/

/-- The answer to a query by the model of `Stream` (`Verif/Streams/Model.lean`); `num` numbers the
contexts. -/
def Call.ask {L : Type} (s : Stream L) (fuel : ℕ) (num : Ctx → ℕ) (c : Call) : Prog L L :=
  s.ask fuel ⟨c.interval, c.resolution, num c.ctx⟩

/-- The log signatures `Stream::signature_derivative(perturbations, resolution, ctx)` computes —
streams/src/stream.cpp:202-230: at the resolution given. -/
def DerivCall.queries (d : DerivCall) : List Call :=
  d.pairs.map fun p => ⟨p.1, some d.resolution, d.ctx⟩

end RoughPy.Query
