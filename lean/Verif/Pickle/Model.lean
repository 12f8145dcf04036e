import Verif.Partition.Model
import Verif.Lite.HandleModel

/-!
# Model of pickling: intervals, partitions and elements

Pickles of intervals are tuples (`roughpy/src/intervals/*.cpp`).  Pickles of free tensors, shuffle
tensors and Lie elements are byte strings written and read by `cereal`'s binary archives
(`roughpy/src/algebra/setup_algebra_type.h:236-262`).

Simplified throughout: coefficients are rational numbers, whatever their scalar type; those of type
`float` and `double` are the ones their format can represent, so infinities and NaN are left out.
The class version numbers `cereal` writes in front of each class are left out of the byte strings:
they are written and read in pairs and never used.  Numbers are stored little-endian, as on the
platforms supported.  Polynomial coefficients and backends other than `libalgebra_lite` are left
out.
-/

namespace RoughPy.Pickle

open RoughPy.Lite RoughPy.Intervals
open RoughPy.Handles (Outcome)

/-! ## Intervals -/

/-- `Dyadic.__getstate__` (`roughpy/src/intervals/dyadic.cpp:86-90`). -/
def dyadicState (d : Intervals.Dyadic) : ℤ × ℤ := (d.k, d.n)

/-- `Dyadic.__setstate__` (`dyadic.cpp:91-100`) of a tuple of two. -/
def dyadicOfState (s : ℤ × ℤ) : Intervals.Dyadic := ⟨s.1, s.2⟩

/-- `DyadicInterval.__getstate__` (`dyadic_interval.cpp:93-98`). -/
def dyadicIntervalState (i : DyadicInterval) : IType × Intervals.Dyadic := (i.type, ⟨i.k, i.n⟩)

/-- `DyadicInterval.__setstate__` (`dyadic_interval.cpp:99-108`), with the constructor
`DyadicInterval(Dyadic, IntervalType)` (`dyadic_interval.h:67-69`). -/
def dyadicIntervalOfState (s : IType × Intervals.Dyadic) : DyadicInterval := ⟨s.2.k, s.2.n, s.1⟩

/-- `RealInterval.__getstate__` (`real_interval.cpp:70-76`). -/
def realState (i : RealInterval) : IType × ℚ × ℚ := (i.type, i.inf, i.sup)

/-- `RealInterval.__setstate__` (`real_interval.cpp:77-87`). -/
def realOfState (s : IType × ℚ × ℚ) : RealInterval := RealInterval.mk' s.2.1 s.2.2 s.1

/-- `Partition.__getstate__` (`partition.cpp:95-102`). -/
def partitionState (p : Partition.Partition) : IType × ℚ × ℚ × List ℚ :=
  (p.base.type, p.base.inf, p.base.sup, p.pts)

/-- `Partition.__setstate__` (`partition.cpp:103-114`). -/
def partitionOfState (s : IType × ℚ × ℚ × List ℚ) : Partition.Partition :=
  Partition.Partition.ofPoints (RealInterval.mk' s.2.1 s.2.2.1 s.1) s.2.2.2

/-! ## Bytes -/

abbrev Bytes := List UInt8

/-- `BinaryOutputArchive::saveBinary` of an unsigned number of `w` bytes. -/
def le : ℕ → ℕ → Bytes
  | 0, _ => []
  | w + 1, n => UInt8.ofNat n :: le w (n / 256)

/-- the number stored in these bytes -/
def ofLe : Bytes → ℕ
  | [] => 0
  | b :: bs => b.toNat + 256 * ofLe bs

/-- Reading from an archive: what is read, and the bytes left. -/
def Reader (α : Type) := Bytes → Outcome (α × Bytes)

namespace Reader

def run {α : Type} (r : Reader α) (s : Bytes) : Outcome (α × Bytes) := r s

def bind {α β : Type} (r : Reader α) (f : α → Reader β) : Reader β := fun s =>
  (r s).bind fun p => f p.1 p.2

instance : Monad Reader where
  pure a := fun s => .ok (a, s)
  bind := bind

/-- a computation that reads nothing -/
def lift {α : Type} (o : Outcome α) : Reader α := fun s => o.bind fun a => .ok (a, s)

/-- `BinaryInputArchive::loadBinary`: throws if there are not enough bytes. -/
def take (n : ℕ) : Reader Bytes := fun s =>
  if n ≤ s.length then .ok (s.take n, s.drop n) else .refused

/-- an unsigned number of `w` bytes -/
def num (w : ℕ) : Reader ℕ := do return ofLe (← take w)

/-- `std::string` and `std::vector<byte>`: the size, in 8 bytes, and the bytes -/
def vec : Reader Bytes := do
  let n ← num 8
  take n

end Reader

/-- `std::string` and `std::vector<byte>` -/
def vec (b : Bytes) : Bytes := le 8 b.length ++ b

/-! ## Coefficients -/

/-- How a `float` or `double` is stored. -/
structure Format where
  /-- `sizeof` -/
  width : ℕ
  enc : ℚ → Bytes
  dec : Bytes → ℚ
  length_enc : ∀ x, (enc x).length = width

/-- The scalar types of contexts modelled. -/
inductive CType
  | f32
  | f64
  | rational
deriving DecidableEq, Repr

/-- The formats of the platform. -/
structure Formats where
  f32 : Format
  f64 : Format
  width32 : f32.width = 4
  width64 : f64.width = 8
  /-- conversion to a scalar type -/
  cast : CType → ℚ → ℚ

/-- `ScalarType::id` of the types (`scalars/src/types/float_type.cpp`, `double_type.cpp`,
`aprational_type.cpp`): `"f32"`, `"f64"`, `"Rational"`. -/
def CType.id : CType → Bytes
  | .f32 => [102, 51, 50]
  | .f64 => [102, 54, 52]
  | .rational => [82, 97, 116, 105, 111, 110, 97, 108]

/-- `TypeInfo` (`device/type_info`: code, bytes, alignment, lanes); the type code of rationals is
15 (`TypeCode::ArbitraryPrecisionRational`) and their size and alignment that of the class. -/
def CType.info : CType → Bytes
  | .f32 => [2, 4, 4, 1]
  | .f64 => [2, 8, 8, 1]
  | .rational => [15, 64, 8, 1]

/-- the decimal number at the front, as `std::from_chars` reads it; `none` if there is no digit -/
def decimal : Bytes → Option ℕ → Option ℕ
  | [], acc => acc
  | b :: bs, acc =>
    if 48 ≤ b.toNat ∧ b.toNat ≤ 57 then
      decimal bs (some (10 * (match acc with | none => 0 | some n => n) + (b.toNat - 48)))
    else acc

/-- `get_type` (`scalar_type.cpp:190-207`), with `parse_id_to_type_info` (`:149-187`), of an id that
is not empty.  The result `none` stands for an exception or an empty `optional`, which
`from_context_spec` refuses.  Types that no `LiteContext` accepts are `none`. -/
def getType : Bytes → Option CType
  | [] => none
  | b :: bs =>
    if b = 102 then
      match decimal bs none with
      | none => none
      | some bits => if bits / 8 % 256 = 4 then some .f32 else if bits / 8 % 256 = 8 then some .f64 else none
    else if b :: bs = CType.rational.id then some .rational
    else none

/-- `scalar_type_of(TypeInfo)` (`scalar_type_of.cpp:24-31`): the code and the size decide; it throws
for other types.  Integer types, which no context has, are left out. -/
def typeOf (info : Bytes) : Outcome CType :=
  match info with
  | [code, bytes, _, _] =>
    if code = 2 ∧ bytes = 4 then .ok .f32
    else if code = 2 ∧ bytes = 8 then .ok .f64
    else if code = 15 then .ok .rational
    else .refused
  | _ => .refused

/-- Storing trivially copyable scalars (`raw_bytes.cpp`, `to_raw_bytes` of arithmetic types):
`memcpy`. -/
def floatsToRaw (f : Format) (l : List ℚ) : Bytes := l.flatMap f.enc

/-- `count` scalars of `f.width` bytes -/
def floatsOf (f : Format) : ℕ → Bytes → List ℚ
  | 0, _ => []
  | n + 1, b => f.dec (b.take f.width) :: floatsOf f n (b.drop f.width)

/-- `from_raw_bytes` of arithmetic types (`raw_bytes.cpp:147-156`): checks the size, then `memcpy`. -/
def floatsFromRaw (f : Format) (count : ℕ) (b : Bytes) : Outcome (List ℚ) :=
  if b.length ≥ count * f.width then .ok (floatsOf f count b) else .refused

/-- the number of 64-bit limbs of a number -/
def limbCount (m : ℕ) : ℕ := if m = 0 then 0 else m.log2 / 64 + 1

/-- Writing an integer (`raw_bytes.cpp:36-52`, `to_raw_bytes_impl_helper`): a record of `1 + 8 + 8 L` bytes for `L`
limbs, initially zero; the sign byte, then ONE byte of `L`, then the first `L` bytes of the limbs
(`memcpy` is given the number of limbs). -/
def writeInt (neg : Bool) (m : ℕ) : Bytes :=
  let L := limbCount m
  [if neg then 1 else 0, UInt8.ofNat L] ++ (le (8 * L) m).take L ++ List.replicate (7 + 8 * L - L) 0

/-- numerator and denominator of a rational -/
def writeRat (q : ℚ) : Bytes := writeInt (decide (q < 0)) q.num.natAbs ++ writeInt false q.den

/-- `to_raw_bytes` of rationals (`raw_bytes.cpp:55-80`): the loop over the entries writes `data->backend()`,
which is the first, every time. -/
def ratsToRaw : List ℚ → Bytes
  | [] => []
  | q :: qs => (List.replicate (qs.length + 1) (writeRat q)).flatten

/-- Reading an integer (`raw_bytes.cpp:158-183`): the sign byte, 8 bytes of a number of BYTES, which is
checked against the size, then that many bytes copied into limbs.  If it is not a multiple of 8 the
rest of the last limb is uninitialised.  The result is the integer and the rest of the bytes. -/
def readInt (s : Bytes) : Outcome (ℤ × Bytes) :=
  if s.length ≤ 9 then .refused
  else
    let count := ofLe ((s.drop 1).take 8)
    if s.length ≤ (9 + count) % 2 ^ 64 then .refused
    else if s.length < 9 + count ∨ count % 8 ≠ 0 then .undefined
    else
      let m := ofLe ((s.drop 9).take count)
      .ok (if s.head? = some 0 then m else -m, s.drop (9 + count))

/-- Reading a rational: the backend then holds these two integers as they are; using it is undefined
if they do not form a fraction in lowest terms with positive denominator. -/
def readRat (s : Bytes) : Outcome (ℚ × Bytes) := do
  let (n, s) ← readInt s
  let (d, s) ← readInt s
  if 0 < d ∧ Int.gcd n d = 1 then .ok ((n : ℚ) / (d : ℚ), s) else .undefined

/-- `from_raw_bytes` of rationals (`raw_bytes.cpp:185-222`): one after another. -/
def ratsFromRaw : ℕ → Bytes → Outcome (List ℚ)
  | 0, _ => .ok []
  | n + 1, s => do
    let (q, s) ← readRat s
    let qs ← ratsFromRaw n s
    .ok (q :: qs)

variable (F : Formats)

/-- `dtl::to_raw_bytes` -/
def toRaw : CType → List ℚ → Bytes
  | .f32, l => floatsToRaw F.f32 l
  | .f64, l => floatsToRaw F.f64 l
  | .rational, l => ratsToRaw l

/-- `dtl::from_raw_bytes` -/
def fromRaw : CType → ℕ → Bytes → Outcome (List ℚ)
  | .f32, n, b => floatsFromRaw F.f32 n b
  | .f64, n, b => floatsFromRaw F.f64 n b
  | .rational, n, b => ratsFromRaw n b

/-- `ScalarArray::save` (`scalar_array.h:267-273`). -/
def saveArray (t : CType) (l : List ℚ) : Bytes := t.info ++ le 8 l.length ++ vec (toRaw F t l)

/-- `ScalarArray::load` (`scalar_array.h:275-282`), `from_raw_bytes` (`scalar_array.cpp:476-494`). -/
def loadArray : Reader (CType × List ℚ) := do
  let info ← Reader.take 4
  let count ← Reader.num 8
  let raw ← Reader.vec
  let t ← Reader.lift (typeOf info)
  let l ← Reader.lift (fromRaw F t count raw)
  return (t, l)

/-- `Scalar::save` (`scalar.h:528-534`). -/
def saveScalar (t : CType) (x : ℚ) : Bytes := t.info ++ vec (toRaw F t [x])

/-- `Scalar::load` (`scalar.h:536-541`), `from_raw_bytes` (`scalar.cpp:481-505`). -/
def loadScalar : Reader (CType × List ℚ) := do
  let info ← Reader.take 4
  let raw ← Reader.vec
  let t ← Reader.lift (typeOf info)
  let l ← Reader.lift (fromRaw F t 1 raw)
  return (t, l)

/-! ## Elements -/

/-- The classes of elements that can be pickled. -/
inductive AlgType
  | freeTensor
  | shuffleTensor
  | lie
deriving DecidableEq, Repr

/-- `AlgebraType` (`algebra_fwd.h`). -/
def AlgType.code : AlgType → ℕ
  | .freeTensor => 0
  | .shuffleTensor => 1
  | .lie => 2

/-- `VectorType` -/
def vecCode : VecType → ℕ
  | .dense => 0
  | .sparse => 1

/-- An element: its context is made of the bases and the scalar type. -/
structure Elem where
  ctx : LiteCtx
  ctype : CType
  val : Stored ℚ

/-- `"libalgebra_lite"` (`lite_context.h`, `backend()`) -/
def backend : Bytes := [108, 105, 98, 97, 108, 103, 101, 98, 114, 97, 95, 108, 105, 116, 101]

/-- the basis of the elements of a class -/
def basisOf (c : LiteCtx) : AlgType → Basis
  | .lie => c.lieBasis
  | _ => c.tensorBasis

/-- the number by which iteration shows a key: tensor keys by their index
(`tensor_basis_info.h:71-77`), Lie keys from 1 (`lie_basis_info.h:73-78`) -/
def keyNumber (c : LiteCtx) (a : AlgType) (k : Key) : Option ℕ :=
  match a with
  | .lie => (c.lieBasis.keyToIndex k).map (1 + ·)
  | _ => c.tensorBasis.keyToIndex k

/-- the key with this number -/
def numberKey (c : LiteCtx) (a : AlgType) (n : ℕ) : Option Key :=
  match a with
  | .lie => if n = 0 then none else c.lieBasis.indexToKey (n - 1)
  | _ => c.tensorBasis.indexToKey n

/-- what `save` writes in front of the values (`algebra_base_impl.h:738-748`) -/
def header (a : AlgType) (w d : ℕ) (id be : Bytes) (v : VecType) (values : Bool) : Bytes :=
  le 4 w ++ le 4 d ++ vec id ++ vec be ++ le 2 a.code ++ le 2 (vecCode v) ++ [if values then 1 else 0]

/-- the pairs of a sparse element (`algebra_base_impl.h:755-762`) -/
def saveEntries (a : AlgType) (x : Elem) : Sparse ℚ → Option Bytes
  | [] => some []
  | (k, q) :: v => do
    let n ← keyNumber x.ctx a k
    let rest ← saveEntries a x v
    some (le 8 n ++ saveScalar F x.ctype q ++ rest)

/-- `AlgebraBase::save` (`algebra_base_impl.h:730-765`) of an element of class `a`; an unset element
has no context (`get_context_spec`, `context.cpp:45-52`) and storage type `Sparse`
(`algebra_base_impl.h:266-270`). -/
def save (a : AlgType) : Option Elem → Outcome Bytes
  | none => .ok (header a 0 0 [] [] .sparse false)
  | some x =>
    match x.val with
    | .dense v =>
      .ok (header a x.ctx.width x.ctx.depth x.ctype.id backend .dense true ++ saveArray F x.ctype v.storage)
    | .sparse v => do
      let entries ← Outcome.ofOption (saveEntries F a x v)
      .ok (header a x.ctx.width x.ctx.depth x.ctype.id backend .sparse true ++ le 8 v.length ++ entries)

/-- `from_context_spec` (`context.cpp:54-69`) with `get_context` and
`LiteContextMaker::get_context` (`lite_context.cpp:68-119`): an empty or unknown scalar type and any
other backend are refused.  Numbers of 31 bits and more are negative widths and depths; those are
left out. -/
def contextOfSpec (w d : ℕ) (id be : Bytes) : Outcome (LiteCtx × CType) :=
  match getType id with
  | none => .refused
  | some t =>
    if be ≠ backend then .refused
    else if w ≥ 2 ^ 31 ∨ d ≥ 2 ^ 31 then .undefined
    else (Outcome.ofOption (LiteCtx.new w d)).bind fun c => .ok (c, t)

/-- The algebra type of an archive, as `LiteContext::construct` (`lite_context.h:912-927`) switches
on it: bundles are not implemented and throw, numbers that are no enumerator reach
`RPY_UNREACHABLE`. -/
def algTypeOf (n : ℕ) : Outcome AlgType :=
  match n with
  | 0 => .ok .freeTensor
  | 1 => .ok .shuffleTensor
  | 2 => .ok .lie
  | 3 | 4 | 5 => .refused
  | _ => .undefined

/-- `LiteContext::construct` (`lite_context.h:844-865`, `:912-927`) of a class; shuffle tensors are
constructed like free tensors. -/
def construct (c : LiteCtx) (a : AlgType) (data : KeyScalars ℚ) (v : VecType) : Option (Stored ℚ) :=
  match a with
  | .lie => c.constructLie data v
  | _ => c.constructTensor data v

/-- the loop of `load` over the pairs of a sparse element (`algebra_base_impl.h:809-813`): each pair
is read, then assigned to `get_mut(key)`.  That is a scalar holding an interface
(`SparseMutableRefScalarImpl`), and `Scalar::operator=(const Scalar&)` (`scalar.cpp:257-308`) asks
it for a mutable pointer, which throws (`scalar.cpp:421-432`). -/
def loadEntries (c : LiteCtx) (a : AlgType) : ℕ → Reader Unit
  | 0 => pure ()
  | _ + 1 => do
    let n ← Reader.num 8
    let _ ← loadScalar F
    let _ ← Reader.lift (Outcome.ofOption (numberKey c a n))
    Reader.lift .refused

/-- `AlgebraBase::load` (`algebra_base_impl.h:767-815`) into an object of class `a`: a vector of the
class the archive names is constructed and then taken for one of class `a`
(`downcast_interface_ptr`), which is undefined if they differ. -/
def load (a : AlgType) : Reader (Option Elem) := do
  let w ← Reader.num 4
  let d ← Reader.num 4
  let id ← Reader.vec
  let be ← Reader.vec
  let (c, t) ← Reader.lift (contextOfSpec w d id be)
  let atype ← Reader.num 2
  let vtype ← Reader.num 2
  let values ← Reader.num 1
  if values = 0 then return none
  else if vtype = 0 then do
    let (t', l) ← loadArray F
    let b ← Reader.lift (algTypeOf atype)
    let r ← Reader.lift (Outcome.ofOption (construct c b ⟨none, if t' = t then l else l.map (F.cast t)⟩ .dense))
    if b = a then return some ⟨c, t, r⟩ else Reader.lift .undefined
  else do
    let b ← Reader.lift (algTypeOf atype)
    let size ← Reader.num 8
    if b = a then do
      loadEntries F c b size
      return some ⟨c, t, .sparse []⟩
    else Reader.lift .undefined

/-- `__setstate__` (`setup_algebra_type.h:248-260`): the archive is read from the start of the bytes,
and what is left is ignored. -/
def unpickle (a : AlgType) (s : Bytes) : Outcome (Option Elem) := do
  let (r, _) ← (load F a).run s
  .ok r

/-- Pickling and unpickling. -/
def roundTrip (a : AlgType) (x : Option Elem) : Outcome (Option Elem) := do
  unpickle F a (← save F a x)

end RoughPy.Pickle
