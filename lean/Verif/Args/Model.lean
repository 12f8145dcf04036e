import Mathlib.Data.List.Basic
import Mathlib.Data.Nat.Basic
import Mathlib.Data.Int.Basic

/-!
# Array arguments

The part of `roughpy/src/args` that turns an array object handed over by Python (through the DLPack
or the buffer protocol) into rows of scalars, together with the type tags that travel with the data.
-/

namespace RoughPy.Args

/-- The outcome of a call: a value, a raised exception, or undefined behaviour (a read outside the
memory of the array, a read of the shape or strides past their end). -/
inductive Out (α : Type) where
  | ok (a : α)
  | err
  | ub
  deriving DecidableEq, Repr

namespace Out
variable {α β : Type}

/-- Sequencing: the first exception or undefined step decides. -/
def bind : Out α → (α → Out β) → Out β
  | .ok a, f => f a
  | .err, _ => .err
  | .ub, _ => .ub

/-- Applies a function to the value of a call that returns. -/
def map (f : α → β) : Out α → Out β
  | .ok a => .ok (f a)
  | .err => .err
  | .ub => .ub

/-- Runs the calls of a list in order and collects their values. -/
def all : List (Out α) → Out (List α)
  | [] => .ok []
  | x :: xs => bind x fun a => bind (all xs) fun as => .ok (a :: as)

end Out

/-! ## Type tags -/

/-- `devices::TypeInfo` (platform/include/roughpy/platform/devices/core.h:244-256): four bytes, the
code first.  `operator==` (core.h:328-338) leaves out the alignment; here all four are compared, which
is the same for the types the library makes. -/
structure TypeInfo where
  code : ℕ
  bytes : ℕ
  alignment : ℕ
  lanes : ℕ
  deriving DecidableEq, Repr

/-- `devices::TypeCode` (core.h:214-242). -/
abbrev cInt : ℕ := 0
abbrev cUInt : ℕ := 1
abbrev cFloat : ℕ := 2
abbrev cOpaque : ℕ := 3
abbrev cBFloat : ℕ := 4
abbrev cComplex : ℕ := 5
abbrev cBool : ℕ := 6
abbrev cRational : ℕ := 15
abbrev cPoly : ℕ := 16

/-- The four bytes of a `TypeInfo` read as one number (`bit_cast<uint32_t>`, little endian). -/
def TypeInfo.word (i : TypeInfo) : ℕ :=
  i.code + 2 ^ 8 * i.bytes + 2 ^ 16 * i.alignment + 2 ^ 24 * i.lanes

/-- `bit_cast<type_info_t>(uint32_t)`. -/
def TypeInfo.ofWord (w : ℕ) : TypeInfo :=
  ⟨w % 2 ^ 8, w / 2 ^ 8 % 2 ^ 8, w / 2 ^ 16 % 2 ^ 8, w / 2 ^ 24 % 2 ^ 8⟩

/-- `PackedScalarTypePointer(type_info_t, enumeration_type)`
(scalars/include/roughpy/scalars/packed_scalar_type_ptr.h:93-97): `MaxEnumBits` is 3, `ModeMask` is 8
and `EnumMask` is 7, because `min_scalar_type_alignment` is 16. -/
def packInfo (i : TypeInfo) (e : ℕ) : ℕ :=
  (i.word <<< 3) ||| 8 ||| (e &&& 7)

/-- `PackedScalarTypePointer(const ScalarType*, enumeration_type)`
(packed_scalar_type_ptr.h:88-91). -/
def packPtr (p : ℕ) (e : ℕ) : ℕ := p ||| e

/-- `is_pointer` (packed_scalar_type_ptr.h:99-102). -/
def isPtr (d : ℕ) : Bool := d &&& 8 == 0

/-- `get_pointer` (packed_scalar_type_ptr.h:106-111): `PointerMask` keeps the bits 4 to 63. -/
def getPtr (d : ℕ) : ℕ := d &&& ((2 ^ 60 - 1) <<< 4)

/-- `get_enumeration` (packed_scalar_type_ptr.h:113-116). -/
def getEnum (d : ℕ) : ℕ := d &&& 7

/-- `get_type_info` (packed_scalar_type_ptr.h:118-123): `TypeInfoMask` keeps the bits 4 to 35, the
shift is by `MaxEnumBits`, 3. -/
def getInfo (d : ℕ) : TypeInfo :=
  TypeInfo.ofWord (((d &&& ((2 ^ 32 - 1) <<< 4)) >>> 3) % 2 ^ 32)

/-- `update_enumeration` (packed_scalar_type_ptr.h:148-152). -/
def updateEnum (d e : ℕ) : ℕ :=
  (d &&& (((2 ^ 60 - 1) <<< 4) ||| 8)) ||| (e &&& 7)

/-- What `ScalarArray::type_info()` answers for an array made from a type info
(scalars/src/scalar_array.cpp:124-128 and 251-255; `BorrowConst` is the first storage mode). -/
def readBack (i : TypeInfo) : TypeInfo := getInfo (packInfo i 0)

/-! ## Promotion -/

/-- `traits::is_integral` (scalars/include/roughpy/scalars/traits.h:53-57). -/
def TypeInfo.isIntegral (i : TypeInfo) : Bool := i.code == cInt || i.code == cUInt

/-- `traits::is_floating_point` (traits.h:47-51). -/
def TypeInfo.isFloating (i : TypeInfo) : Bool := i.code == cFloat || i.code == cBFloat

/-- `devices::type_info<float>()`. -/
def float32 : TypeInfo := ⟨cFloat, 4, 4, 1⟩
/-- `devices::type_info<double>()`. -/
def float64 : TypeInfo := ⟨cFloat, 8, 8, 1⟩
/-- `devices::type_info<int>()`. -/
def int32 : TypeInfo := ⟨cInt, 4, 4, 1⟩

/-- `compute_int_promotion` (scalars/src/scalar/type_promotion.cpp:19-53), for a source that is
signed or unsigned integral. -/
def intPromotion (dst src : TypeInfo) : TypeInfo :=
  if src.isIntegral then
    let i : TypeInfo :=
      ⟨dst.code, max dst.bytes src.bytes, max dst.alignment src.alignment, 1⟩
    if src.code ≠ i.code then
      if src.code = cInt then { i with code := src.code }
      else if i.bytes ≤ src.bytes ∧ i.bytes < 8 then
        { i with bytes := i.bytes * 2, alignment := i.bytes * 2 }
      else i
    else i
  else src

/-- `compute_float_promotion` (type_promotion.cpp:55-78). -/
def floatPromotion (dst src : TypeInfo) : TypeInfo :=
  if src.isIntegral then dst
  else if src.isFloating then
    if dst.bytes < src.bytes then ⟨cFloat, src.bytes, src.alignment, 1⟩ else dst
  else src

/-- `compute_bfloat_promotion` (type_promotion.cpp:80-97). -/
def bfloatPromotion (dst src : TypeInfo) : TypeInfo :=
  if src.isIntegral then
    if src.bytes = 1 then dst
    else if src.bytes ≤ 4 then float32 else float64
  else src

/-- `compute_aprational_promotion` (type_promotion.cpp:99-110). -/
def rationalPromotion (dst src : TypeInfo) : TypeInfo :=
  if src.code = cPoly then src else dst

/-- `compute_type_promotion` (type_promotion.cpp:133-158). -/
def promotion (left right : TypeInfo) : Out TypeInfo :=
  if left = right then .ok left
  else if right.code = cInt ∨ right.code = cUInt then .ok (intPromotion right left)
  else if right.code = cFloat then .ok (floatPromotion right left)
  else if right.code = cBFloat then .ok (bfloatPromotion right left)
  else if right.code = cRational then .ok (rationalPromotion right left)
  else if right.code = cPoly then .ok right
  else .err

/-- The scalar types of the library that `ScalarType::for_info` can name. -/
inductive Target where
  | float
  | double
  | rational
  | poly
  deriving DecidableEq, Repr

/-- `ScalarType::type_info()` of the two trivial types; the other two are never equal to the type of
an array. -/
def Target.info : Target → TypeInfo
  | .float => float32
  | .double => float64
  | .rational => ⟨cRational, 32, 8, 1⟩
  | .poly => ⟨cPoly, 56, 8, 1⟩

/-- `ScalarType::for_info` (scalars/src/scalar_type.cpp:47-78). A floating type of another size falls
through to the exception. -/
def forInfo (i : TypeInfo) : Out Target :=
  if i.code = cInt ∨ i.code = cUInt then .ok .double
  else if i.code = cFloat then
    if i.bytes = 4 then .ok .float else if i.bytes = 8 then .ok .double else .err
  else if i.code = cPoly then .ok .poly
  else if i.code ∈ [7, 8, 9, 10, 13, 15] then .ok .rational
  else .err

/-- The loop of `ConversionManager::compute_scalar_type`
(roughpy/src/args/parse_data_argument.cpp:644-648). -/
def promoteAll : TypeInfo → List TypeInfo → Out TypeInfo
  | i, [] => .ok i
  | i, l :: ls => (promotion i l).bind fun j => promoteAll j ls

/-- `ConversionManager::compute_scalar_type` (parse_data_argument.cpp:640-651). -/
def computeScalarType (requested : Option Target) (leaves : List TypeInfo) : Out Target :=
  match requested with
  | some t => .ok t
  | none => (promoteAll int32 leaves).bind forInfo

/-! ## Reading values -/

/-- The conversions into the scalar type of the result that the C++ casts perform: from an integer,
from the bits of an IEEE number of the given size, from the bits of a bfloat16. They are parameters
of the model. -/
structure Conv (R : Type) where
  ofInt : ℤ → R
  ofFloat : ℕ → ℕ → R
  ofBFloat : ℕ → R
  zero : R

/-- Two's complement reading of the bits of a number of the given size. -/
def signedOf (bytes raw : ℕ) : ℤ :=
  if 2 * raw < 2 ^ (8 * bytes) then (raw : ℤ) else (raw : ℤ) - 2 ^ (8 * bytes)

/-- `scalar_convert_copy` for one element (scalars/src/scalar/casts.cpp:177-189 with the dispatch of
do_macro.h:35-77): an element of an unsupported type makes the conversion fail. A number whose code
says that it is a rational or a polynomial is read as such an object, which is undefined for the bits
of an array. -/
def decode {R : Type} (C : Conv R) (i : TypeInfo) (raw : ℕ) : Out R :=
  if i.code = cInt then
    if i.bytes = 1 ∨ i.bytes = 2 ∨ i.bytes = 4 ∨ i.bytes = 8 then .ok (C.ofInt (signedOf i.bytes raw))
    else .err
  else if i.code = cUInt then
    if i.bytes = 1 ∨ i.bytes = 2 ∨ i.bytes = 4 ∨ i.bytes = 8 then .ok (C.ofInt raw) else .err
  else if i.code = cFloat then
    if i.bytes = 2 ∨ i.bytes = 4 ∨ i.bytes = 8 then .ok (C.ofFloat i.bytes raw) else .err
  else if i.code = cBFloat then
    if i.bytes = 2 then .ok (C.ofBFloat raw) else .err
  else if i.code = cRational ∨ i.code = cPoly then .ub
  else .err

/-- The memory an array gives access to: the bits of the element that starts at a byte offset from
the data pointer, `none` where no element of the array starts. -/
abbrev Mem := ℤ → Option ℕ

/-- Reads `n` consecutive elements of the given type from a byte offset: the loop of `write_result`
(casts.cpp:41-50). -/
def readRun {R : Type} (C : Conv R) (mem : Mem) (i : TypeInfo) (off : ℤ) (n : ℕ) : Out (List R) :=
  Out.all ((List.range n).map fun (j : ℕ) =>
    match mem (off + i.bytes * (j : ℤ)) with
    | none => .ub
    | some raw => decode C i raw)

/-! ## Strided copies -/

/-- The loop of `get_compressed_dims` (roughpy/src/args/strided_copy.cpp:111-118) over the shape and
the strides from the last dimension to the first. -/
def compressedFrom : ℤ → List ℕ → List ℤ → ℕ
  | cs, n :: shape, s :: strides =>
    if s ≠ cs then 0 else 1 + compressedFrom (cs * n) shape strides
  | _, _, _ => 0

/-- `get_compressed_dims` (strided_copy.cpp:102-119). -/
def compressedDims (bytes : ℕ) (shape : List ℕ) (strides : Option (List ℤ)) : ℕ :=
  match strides with
  | none => shape.length
  | some st => compressedFrom bytes shape.reverse st.reverse

/-- `src_offset` (strided_copy.cpp:148-154): over the uncompressed dimensions. -/
def srcOffset : List ℤ → List ℕ → ℤ
  | s :: st, i :: ix => s * i + srcOffset st ix
  | _, _ => 0

/-- The sum of `dst_offset` (strided_copy.cpp:158-160): `shape[i] * index[i-1]` for `i ≥ 1`. -/
def dstSum : List ℕ → List ℕ → ℕ
  | n :: sh, i :: ix => n * i + dstSum sh ix
  | _, _ => 0

/-- `dst_offset` (strided_copy.cpp:156-162); `shape` and `index` are cut to the uncompressed
dimensions. -/
def dstOffset (shape index : List ℕ) : ℕ :=
  index.getLast?.getD 0 + dstSum (shape.drop 1) index

/-- `advance_index` (strided_copy.cpp:164-173) on the lists from the last dimension to the first: a
dimension other than the first wraps around and carries. -/
def advanceRev : List ℕ → List ℕ → List ℕ
  | n :: m :: sh, i :: ix => if n ≤ i + 1 then 0 :: advanceRev (m :: sh) ix else (i + 1) :: ix
  | [_], [i] => [i + 1]
  | _, ix => ix

/-- The loop of `stride_copy` (strided_copy.cpp:182): the indices it visits, from the last dimension to
the first, as long as the first index is below the first extent. The first argument bounds the number
of turns; `Lemmas.visit_stops` shows that the loop always ends by its own condition within the bound
used in `strideCopy`. -/
def visit (shapeRev : List ℕ) : ℕ → List ℕ → List (List ℕ)
  | 0, _ => []
  | fuel + 1, ix =>
    match ix.getLast?, shapeRev.getLast? with
    | some i, some n =>
      if i < n then ix :: visit shapeRev fuel (advanceRev shapeRev ix) else []
    | _, _ => []

/-- The number of turns the loop may need: a dimension of extent zero counts as one. -/
def turns (shape : List ℕ) : ℕ := (shape.map fun n => max n 1).prod

/-- Writes a run into the output: the slice is checked against the size of the array
(scalars/src/scalar_array.cpp:380-388). -/
def writeRun {R : Type} (out : List R) (d : ℕ) (vals : List R) : Out (List R) :=
  if d + vals.length ≤ out.length then .ok (out.take d ++ vals ++ out.drop (d + vals.length))
  else .err

/-- The body of the loop of `stride_copy` (strided_copy.cpp:182-191) over the visited indices. The
slice of the output is taken before the source is read. -/
def copyAll {R : Type} (C : Conv R) (mem : Mem) (i : TypeInfo) (shape : List ℕ) (strides : List ℤ)
    (comp : ℕ) : List (List ℕ) → List R → Out (List R)
  | [], out => .ok out
  | ix :: rest, out =>
    if dstOffset shape ix + comp ≤ out.length then
      (readRun C mem i (srcOffset strides ix) comp).bind fun vals =>
        (writeRun out (dstOffset shape ix) vals).bind fun out' =>
          copyAll C mem i shape strides comp rest out'
    else .err

/-- `stride_copy` for scalar arrays (strided_copy.cpp:123-193). `out` is freshly allocated and holds
zeros; the element type is what the input array answers for its type, that is the type read back from
the packed pointer. `ndim`, `shape` and `strides` are passed separately, as in the code, and the
lists are cut to `ndim` entries: reading past their end is undefined. -/
def strideCopy {R : Type} (C : Conv R) (mem : Mem) (info : TypeInfo) (size : ℕ) (ndim : ℕ)
    (shape : List ℕ) (strides : Option (List ℤ)) (out : List R) : Out (List R) :=
  if ndim = 0 then .ok out
  else if shape.length < ndim ∨ (∃ st, strides = some st ∧ st.length < ndim) then .ub
  else
    let i := readBack info
    let shape := shape.take ndim
    let strides := strides.map (List.take ndim)
    let c := compressedDims i.bytes shape strides
    if c = ndim then
      -- `convert_copy(out, in)`: both have `size` elements
      if out.length < size then .err else readRun C mem i 0 out.length
    else
      let u := ndim - c
      let st := (strides.getD []).take u
      let sh := shape.take u
      let comp := (shape.drop u).prod
      copyAll C mem i sh st comp
        ((visit sh.reverse (turns sh + 1) (List.replicate u 0)).map List.reverse) out

instance {st : Option (List ℤ)} {n : ℕ} : Decidable (∃ s, st = some s ∧ s.length < n) :=
  match st with
  | none => .isFalse (by simp)
  | some s => if h : s.length < n then .isTrue ⟨s, rfl, h⟩ else .isFalse (by simpa using h)

/-! ## DLPack arrays -/

/-- The fields of a `DLTensor` that matter: where the data lives, its element type (`dtype`), its
shape and its strides (in elements, `none` for the null pointer), the byte offset of the first element
from the data pointer, and the memory behind the data pointer. -/
structure DL where
  onHost : Bool
  code : ℕ
  bits : ℕ
  lanes : ℕ
  shape : List ℕ
  strides : Option (List ℤ)
  byteOffset : ℤ
  mem : Mem

/-- `convert_from_dl_datatype` (roughpy/src/args/dlpack_helpers.h:67-75). -/
def DL.info (T : DL) : TypeInfo :=
  ⟨T.code, T.bits / 8 % 256, (T.bits + 7) / 8 % 256, T.lanes % 256⟩

/-- The loop of `is_C_contiguous` (roughpy/src/args/strided_copy.h:94-98) from the last dimension to
the first. -/
def contiguousFrom : ℤ → List ℕ → List ℤ → Bool
  | cs, n :: shape, s :: strides => s == cs && contiguousFrom (cs * n) shape strides
  | _, _, _ => true

/-- `is_C_contiguous` (strided_copy.h:80-100). The sum of the strides is accumulated in an `int`, so
it is zero when the sum is a multiple of `2^32`. -/
def isCContiguous (strides : Option (List ℤ)) (shape : List ℕ) (itemsize : ℕ) : Bool :=
  match strides with
  | none => true
  | some st =>
    if st.isEmpty then true
    else if st.sum % 2 ^ 32 = 0 then true
    else contiguousFrom itemsize shape.reverse st.reverse

/-- `ConversionManager::handle_dltensor_leaf` (parse_data_argument.cpp:283-331). The scalars of the
leaf: either the memory of the array taken over as it is, or a converted copy. A borrowed array is
modelled by what reading all its elements gives. The device of the tensor and its byte offset are
never looked at. -/
def DL.leaf {R : Type} (T : DL) (C : Conv R) (target : Target) : Out (List R) :=
  let mem : Mem := fun o => if T.onHost then T.mem o else none
  let size := T.shape.prod
  if isCContiguous T.strides T.shape T.info.bytes && target.info == T.info then
    readRun C mem target.info 0 size
  else
    let strides := T.strides.map (List.map (· * (T.info.bytes : ℤ)))
    let strides := if strides = some [] then none else strides
    strideCopy C mem T.info size T.shape.length T.shape strides (List.replicate size C.zero)

/-- Cuts a list into runs of `n`, the way `fill_ks_stream` does; the first argument bounds the number
of runs. -/
def chunks {R : Type} (n : ℕ) : ℕ → List R → List (List R)
  | 0, _ => []
  | fuel + 1, l => if l.isEmpty then [] else l.take n :: chunks n fuel (l.drop n)

/-- `ParsedData::fill_ks_stream` for an array leaf (parse_data_argument.cpp:694-706): `leaf.size` is
the product of the shape; `leaf.shape.back()` is undefined for an empty shape. -/
def arrayRows {R : Type} (shape : List ℕ) (data : List R) : Out (List (List R)) :=
  if shape.prod = 0 then .ok []
  else match shape with
    | [] => .ub
    | [_] => .ok [data]
    | n :: sh => .ok (chunks ((n :: sh).getLastD 0) data.length data)

/-- A DLPack array as the data of a stream: `check_dl_size` (parse_data_argument.cpp:411-432), the
scalar type, the leaf and its rows. `maxNested` is 2 for streams (context.cpp:184). -/
def DL.rows {R : Type} (T : DL) (C : Conv R) (target : Target) (maxNested : ℕ) :
    Out (List (List R)) :=
  if maxNested < T.shape.length then .err
  else (T.leaf C target).bind fun data => arrayRows T.shape data

/-! ## Buffers -/

/-- What the buffer protocol reports about an object without `__dlpack__`: element type, item size,
shape and strides (in bytes, always present with `PyBUF_FULL_RO`) and the memory. -/
structure Buf where
  info : TypeInfo
  itemsize : ℕ
  shape : List ℕ
  strides : List ℤ
  mem : Mem

/-- `PyBuffer_IsContiguous(view, 'A')`: row major or column major without gaps. -/
def Buf.contiguous (B : Buf) : Bool :=
  contiguousFrom B.itemsize B.shape.reverse B.strides.reverse ||
    contiguousFrom B.itemsize B.shape B.strides

/-- `BufferInfo::ndim` (roughpy/src/args/buffer_info.h:85-88): returns the size of an item. -/
def Buf.ndim (B : Buf) : ℕ := B.itemsize

/-- `ConversionManager::handle_buffer_leaf` (parse_data_argument.cpp:333-359). -/
def Buf.leaf {R : Type} (B : Buf) (C : Conv R) (target : Target) : Out (List R) :=
  let size := B.shape.prod
  if B.contiguous && target.info == B.info then
    readRun C B.mem target.info 0 size
  else
    strideCopy C B.mem B.info size B.ndim B.shape (some B.strides) (List.replicate size C.zero)

/-- A buffer as the data of a stream: `check_buffer_size` (parse_data_argument.cpp:434-454), the leaf
and its rows. -/
def Buf.rows {R : Type} (B : Buf) (C : Conv R) (target : Target) (maxNested : ℕ) :
    Out (List (List R)) :=
  if maxNested < B.shape.length then .err
  else (B.leaf C target).bind fun data => arrayRows B.shape data

/-- `buffer_to_indices` (roughpy/src/streams/lie_increment_stream.cpp:61-71): the time stamps of a
stream from a buffer. The strides of the buffer are not looked at. -/
def Buf.indices {R : Type} (B : Buf) (C : Conv R) : Out (List R) :=
  readRun C B.mem (readBack B.info) 0 B.shape.prod

end RoughPy.Args
