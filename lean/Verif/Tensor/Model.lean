import Mathlib.Algebra.Field.Basic
import Mathlib.Logic.Function.Basic
import Mathlib.Data.Int.Notation
import Mathlib.Order.Lattice

/-!
# Model of the dense tensor kernels (`/repo/roughpy_compute`)

Memory is explicit: an array is a `Buf` with a size; reading or writing outside it, or using
a degree outside the view, yields `none` ("undefined behaviour / failed assertion").  The C++
`for` loops become `List.foldlM` over the list of values taken by the loop variable, in the
same order.  Simplifications: scalars are exact elements of a commutative ring / field;
`int32_t` degrees and `ptrdiff_t` indices are unbounded integers; arrays passed for different
arguments do not overlap; the strided iterators are identified with plain indexing.
-/

namespace RoughPy.Tensor

/-! ## Memory -/

/-- A contiguous array of scalars.  Models the iterator range behind a
`DenseVectorView` (`roughpy_compute/dense/views.hpp:203-293`): `data_` together with the
(unchecked in C++) number of elements actually allocated. -/
structure Buf (K : Type) where
  size : ℕ
  get : ℕ → K

namespace Buf
variable {K : Type}

/-- `data_[i]` as an rvalue (`views.hpp:291`); `none` when out of bounds. -/
def read (b : Buf K) (i : ℕ) : Option K := if i < b.size then some (b.get i) else none

/-- `data_[i] = v` (`views.hpp:291`); `none` when out of bounds. -/
def write (b : Buf K) (i : ℕ) (v : K) : Option (Buf K) :=
  if i < b.size then some { b with get := Function.update b.get i v } else none

/-- `data_[i] += v`. -/
def addAt [Add K] (b : Buf K) (i : ℕ) (v : K) : Option (Buf K) := do
  let x ← b.read i
  b.write i (x + v)

/-- contents as a list (for examples only, not used by the kernels) -/
def toList (b : Buf K) : List K := (List.range b.size).map b.get

/-- array with the given contents (for examples only) -/
def ofList [Zero K] (l : List K) : Buf K := ⟨l.length, fun i => l[i]?.getD 0⟩

end Buf

/-! ## Views -/

/-- `construct_tensor_db` (`roughpy/compute/_src/tensor_basis.c:41-57`):
`data[0] = 0`, `data[i] = 1 + data[i-1]*width`. -/
def degreeBegin (w : ℕ) : ℕ → ℕ
  | 0 => 0
  | d + 1 => 1 + degreeBegin w d * w

/-- `DenseTensorView` without its data pointer (`views.hpp:203-316`): the basis
(`common/basis.hpp:8-17`; width, depth, and a `degree_begin` array with `depth + 2` entries)
and the degree bounds. -/
structure View where
  width : ℕ
  depth : ℕ
  minDeg : ℕ
  maxDeg : ℕ
deriving DecidableEq, Repr

/-- `DenseVectorFragment` (`views.hpp:172-200`): start offset and size. -/
structure Frag where
  start : ℕ
  size : ℕ
deriving DecidableEq, Repr

namespace View

/-- Full view of a basis: constructor with default bounds (`views.hpp:233-242`). -/
def full (w D : ℕ) : View := ⟨w, D, 0, D⟩

/-- `basis_.degree_begin[d]`; the array has `depth + 2` entries (`basis.hpp:13`). -/
def degBegin? (v : View) (d : ℕ) : Option ℕ :=
  if d ≤ v.depth + 1 then some (degreeBegin v.width d) else none

/-- `at_level` (`views.hpp:270-279`), including its assertion. -/
def atLevel (v : View) (d : ℕ) : Option Frag := do
  if v.minDeg ≤ d ∧ d ≤ v.maxDeg then
    let b ← v.degBegin? d
    let e ← v.degBegin? (d + 1)
    some ⟨b, e - b⟩
  else none

/-- `size` (`views.hpp:257-262`). -/
def size (v : View) : Option ℕ := do
  let e ← v.degBegin? (v.maxDeg + 1)
  let b ← v.degBegin? v.minDeg
  some (e - b)

/-- `DenseTensorView::truncate` (`views.hpp:305-315`). -/
def truncate (v : View) (newMax : ℕ) (newMin : ℕ := 0) : View :=
  { v with minDeg := max v.minDeg newMin, maxDeg := min v.maxDeg newMax }

end View

/-- `DenseVectorFragment::operator[]` (`views.hpp:192-197`): absolute position of element `i`,
`none` if the assertion fails. -/
def Frag.at (f : Frag) (i : ℕ) : Option ℕ := if i < f.size then some (f.start + i) else none

/-- The values of `d` in `for (Degree d = hi; d >= lo; --d)`, in order.  Every use has
`lo ≥ 0`, so the values are natural numbers. -/
def degreesDown (hi lo : ℤ) : List ℕ :=
  (List.range (hi + 1 - lo).toNat).map fun i : ℕ => (hi - i).toNat

/-- The values of `d` in `for (Degree d = lo; d <= hi; ++d)`, in order (`lo ≥ 0`). -/
def degreesUp (lo hi : ℕ) : List ℕ := (List.range (hi + 1 - lo)).map fun i => lo + i

/-- A counted C++ `for` loop: run `body` on the listed values of the loop variable in order,
stopping at the first undefined outcome. -/
def loop {σ ι : Type} (l : List ι) (s : σ) (body : σ → ι → Option σ) : Option σ :=
  l.foldlM body s

variable {K : Type}

/-! ## Free tensor multiplication -/

section ring
variable [CommRing K]

/-- The innermost double loop shared by `ft_fma`
(`dense/basic/free_tensor_fma.hpp:40-45`) and `ft_inplace_mul`
(`dense/basic/free_tensor_inplace_mul.hpp:63-68`):
`out_frag[i * rhs_frag.size() + j] += op(lhs_frag[i] * rhs_frag[j])`.
`readL` reads the left operand: from a separate array for `ft_fma`, from the array being
updated for `ft_inplace_mul`. -/
def mulAccumulate (op : K → K) (fo fl fr : Frag) (readL : Buf K → ℕ → Option K) (rhs : Buf K)
    (out : Buf K) : Option (Buf K) :=
  loop (List.range fl.size) out fun out i =>
    loop (List.range fr.size) out fun out j => do
      let a ← readL out (← fl.at i)
      let b ← rhs.read (← fr.at j)
      out.addAt (← fo.at (i * fr.size + j)) (op (a * b))

/-- `ft_fma` (`dense/basic/free_tensor_fma.hpp:14-53`). -/
def ftFma (op : K → K) (vo vl vr : View) (out lhs rhs : Buf K) : Option (Buf K) := do
  let out ← loop (degreesDown vo.maxDeg (max 1 vo.minDeg : ℕ)) out fun out od => do
    let lhsMax : ℤ := min (vl.maxDeg : ℤ) ((od : ℤ) - vr.minDeg)
    let lhsMin : ℤ := max (vl.minDeg : ℤ) ((od : ℤ) - vr.maxDeg)
    let fo ← vo.atLevel od
    loop (degreesDown lhsMax lhsMin) out fun out ld => do
      let fl ← vl.atLevel ld
      let fr ← vr.atLevel (od - ld)
      mulAccumulate op fo fl fr (fun _ i => lhs.read i) rhs out
  if vo.minDeg = 0 ∧ vl.minDeg = 0 ∧ vr.minDeg = 0 then
    let a ← lhs.read 0
    let b ← rhs.read 0
    out.addAt 0 (op (a * b))
  else some out

/-- First loop of `ft_inplace_mul` for one output level
(`dense/basic/free_tensor_inplace_mul.hpp:45-55`): scale the level by the scalar part of
`rhs`, or clear it when that scalar part is implicitly zero. -/
def scaleLevel (op : K → K) (rhsMin : ℕ) (fo : Frag) (rhs : Buf K) (lhs : Buf K) :
    Option (Buf K) :=
  if rhsMin = 0 then
    loop (List.range fo.size) lhs fun lhs i => do
      let p ← fo.at i
      let x ← lhs.read p
      let r ← rhs.read 0
      lhs.write p (op (x * r))
  else
    loop (List.range fo.size) lhs fun lhs i => do
      lhs.write (← fo.at i) 0

/-- `ft_inplace_mul` (`dense/basic/free_tensor_inplace_mul.hpp:14-87`). -/
def ftInplaceMul (op : K → K) (vl vr : View) (lhs rhs : Buf K) : Option (Buf K) := do
  let lhs ← loop (degreesDown vl.maxDeg (max 1 vl.minDeg : ℕ)) lhs fun lhs od => do
    let lhsMin : ℤ := max (vl.minDeg : ℤ) ((od : ℤ) - vr.maxDeg)
    let lhsMax : ℤ := (od : ℤ) - max 1 (vr.minDeg : ℤ)
    let fo ← vl.atLevel od
    let lhs ← scaleLevel op vr.minDeg fo rhs lhs
    loop (degreesDown lhsMax lhsMin) lhs fun lhs ld => do
      let fl ← vl.atLevel ld
      let fr ← vr.atLevel (od - ld)
      mulAccumulate op fo fl fr (fun st i => st.read i) rhs lhs
  if vl.minDeg = 0 ∧ vr.minDeg = 0 then
    let a ← lhs.read 0
    let b ← rhs.read 0
    lhs.write 0 (op (a * b))
  else if vl.minDeg = 0 then lhs.write 0 0
  else some lhs

/-- `vector_inplace_addition` (`dense/basic/vector_inplace_addition.hpp:13-31`) with the
default `op = Identity`. -/
def vectorInplaceAddition (vl vr : View) (lhs rhs : Buf K) : Option (Buf K) := do
  let common := min (← vl.size) (← vr.size)
  loop (List.range common) lhs fun lhs i => do
    lhs.addAt i (← rhs.read i)

/-- `std::copy_n(multiplier.data(), common_size, out.data())`
(`dense/intermediate/free_tensor_fmexp.hpp:25-26`). -/
def copyN (n : ℕ) (src dst : Buf K) : Option (Buf K) :=
  loop (List.range n) dst fun dst i => do
    dst.write i (← src.read i)

end ring

/-! ## exp, log, fmexp -/

section field
variable [Field K]

/-- `ops::DivideBy` (`common/operations.hpp:45-52`): multiplication on the right by
`T{1} / factor`. -/
def divideBy (d : ℕ) (x : K) : K := x * (1 / (d : K))

/-- `ft_exp` (`dense/intermediate/free_tensor_exp.hpp:14-37`). -/
def ftExp (vo va : View) (out arg : Buf K) : Option (Buf K) := do
  let out ← out.write 0 1
  loop (degreesDown vo.maxDeg 1) out fun out deg => do
    let maxLevel := vo.maxDeg - deg + 1
    let out ← ftInplaceMul (divideBy deg) (vo.truncate maxLevel) (va.truncate maxLevel 1) out arg
    out.addAt 0 1

/-- `ft_log` (`dense/intermediate/free_tensor_log.hpp:13-39`). -/
def ftLog (vo va : View) (out arg : Buf K) : Option (Buf K) :=
  loop (degreesDown vo.maxDeg 1) out fun out deg => do
    let maxLevel := vo.maxDeg - deg + 1
    let out ← if deg % 2 = 0 then do
        let x ← out.read 0
        out.write 0 (x - 1 / (deg : K))
      else out.addAt 0 (1 / (deg : K))
    ftInplaceMul id (vo.truncate maxLevel) (va.truncate maxLevel 1) out arg

/-- `ft_fmexp` (`dense/intermediate/free_tensor_fmexp.hpp:16-40`). -/
def ftFmexp (vo vm vx : View) (out mul exponent : Buf K) : Option (Buf K) := do
  let common := min (← vo.size) (← vm.size)
  let out ← copyN common mul out
  loop (degreesDown vo.maxDeg 1) out fun out deg => do
    let maxLevel := vo.maxDeg - deg + 1
    let out ← ftInplaceMul (divideBy deg) (vo.truncate maxLevel) (vx.truncate maxLevel 1) out
      exponent
    vectorInplaceAddition vo vm out mul

end field

/-! ## Antipode -/

section ring
variable [CommRing K]

/-- `reverse_index` (`dense/basic/free_tensor_antipode.hpp:17-27`). -/
def reverseIndex (w : ℕ) : ℕ → ℕ → ℕ :=
  fun degree arg => ((List.range degree).foldl
    (fun (st : ℕ × ℕ) _ => (st.1 * w + st.2 % w, st.2 / w)) (0, arg)).1

/-- `DefaultSigner` (`free_tensor_antipode.hpp:29-43`). -/
def defaultSigner (degree : ℕ) (x : K) : K := if degree % 2 ≠ 0 then -x else x

/-- Degree 0 part of `ft_antipode` (`free_tensor_antipode.hpp:62-66`). -/
def antipodeScalar (minDeg : ℕ) (out arg : Buf K) : Option (Buf K) :=
  if minDeg = 0 then do
    out.write 0 (defaultSigner 0 (← arg.read 0))
  else some out

/-- Degree 1 part of `ft_antipode` (`free_tensor_antipode.hpp:68-76`). -/
def antipodeLetters (vo va : View) (minDeg : ℕ) (out arg : Buf K) : Option (Buf K) :=
  if minDeg ≤ 1 then do
    let fa ← va.atLevel 1
    let fo ← vo.atLevel 1
    loop (List.range fa.size) out fun out i => do
      let x ← arg.read (← fa.at i)
      out.write (← fo.at i) (defaultSigner 1 x)
  else some out

/-- `ft_antipode` with the default signer (`free_tensor_antipode.hpp:50-100`). -/
def ftAntipode (vo va : View) (out arg : Buf K) : Option (Buf K) := do
  let minDeg := max va.minDeg vo.minDeg
  let maxDeg := min va.maxDeg vo.maxDeg
  let out ← antipodeScalar minDeg out arg
  let out ← antipodeLetters vo va minDeg out arg
  loop (degreesUp (max 2 minDeg) maxDeg) out fun out degree => do
    let fa ← va.atLevel degree
    let fo ← vo.atLevel degree
    loop (List.range fa.size) out fun out i => do
      let x ← arg.read (← fa.at i)
      out.write (← fo.at (reverseIndex va.width degree i)) (defaultSigner degree x)

/-! ## Adjoint of left multiplication -/

/-- `ft_adj_lmul` (`dense/basic/free_tensor_adjoint_left_mul.hpp:11-77`). -/
def ftAdjLmul (vo vp va : View) (out op arg : Buf K) : Option (Buf K) :=
  let argMax : ℤ := min ((va.maxDeg : ℤ) - vp.minDeg) vo.maxDeg
  let argMin : ℤ := max ((va.minDeg : ℤ) - vp.maxDeg) vo.minDeg
  loop (degreesDown argMax argMin) out fun out ad => do
    let outMin : ℤ := max ((ad : ℤ) - vp.maxDeg) vo.minDeg
    let outMax : ℤ := min ((ad : ℤ) - vp.minDeg) vo.maxDeg
    let fa ← va.atLevel ad
    loop (degreesDown outMax outMin) out fun out od => do
      let fp ← vp.atLevel (ad - od)
      let fo ← vo.atLevel od
      loop (List.range fp.size) out fun out opIdx => do
        let v ← op.read (← fp.at opIdx)
        loop (List.range fo.size) out fun out i => do
          let x ← arg.read (← fa.at (i + opIdx * fo.size))
          out.addAt (← fo.at i) (v * x)

/-! ## Shuffle product -/

/-- `TensorBasis::unpack_index_to_letters` (`common/basis.hpp:35-47`): least significant
letter first. -/
def unpackIndexToLetters (w : ℕ) : ℕ → ℕ → List ℕ
  | 0, _ => []
  | d + 1, index => (index % w) :: unpackIndexToLetters w d (index / w)

/-- `BitMask::operator[]` (`common/bitmask.hpp:23-27`). -/
def maskBit (mask idx : ℕ) : Bool := mask / 2 ^ idx % 2 = 1

/-- state `(lhs_deg, lhs_idx, rhs_deg, rhs_idx)` of `pack_masked_index` -/
structure Packed where
  lhsDeg : ℕ
  lhsIdx : ℕ
  rhsDeg : ℕ
  rhsIdx : ℕ
deriving DecidableEq, Repr

/-- `TensorBasis::pack_masked_index` (`common/basis.hpp:49-61`), started from zeros: loop from
`degree - 1` down to `0`; `none` if a letter outside the array would be read. -/
def packMaskedIndex (w : ℕ) (letters : List ℕ) (degree : ℕ) (mask : ℕ) : Option Packed :=
  loop (List.range degree).reverse (⟨0, 0, 0, 0⟩ : Packed) fun st d => do
    let l ← letters[d]?
    if maskBit mask d then some { st with lhsDeg := st.lhsDeg + 1, lhsIdx := st.lhsIdx * w + l }
    else some { st with rhsDeg := st.rhsDeg + 1, rhsIdx := st.rhsIdx * w + l }

/-- `v1::st_fma` (`dense/basic/shuffle_tensor_product.hpp:26-87`).  The masks run from `0` to
`2^out_deg - 1` inclusive.  The scratch array of letters has `out.max_degree()` entries. -/
def stFma (op : K → K) (vo vl vr : View) (out lhs rhs : Buf K) : Option (Buf K) := do
  let a ← lhs.read 0
  let b ← rhs.read 0
  let out ← out.addAt 0 (op (a * b))
  loop (degreesUp 1 vl.maxDeg) out fun out od => do
    let fo ← vo.atLevel od
    loop (List.range (vo.width ^ od)) out fun out i => do
      if od ≤ vo.maxDeg then
        let letters := unpackIndexToLetters vo.width od i
        let acc ← loop (List.range (2 ^ od)) (0 : K) fun acc mask => do
          let p ← packMaskedIndex vo.width letters od mask
          let fl ← vl.atLevel p.lhsDeg
          let fr ← vr.atLevel p.rhsDeg
          let x ← lhs.read (← fl.at p.lhsIdx)
          let y ← rhs.read (← fr.at p.rhsIdx)
          some (acc + x * y)
        out.addAt (← fo.at i) (op acc)
      else none

/-- `st_adj_mul` (`dense/basic/shuffle_tensor_adjoint_mul.hpp:13-70`).  The scratch array of
letters has `out.max_degree()` entries. -/
def stAdjMul (vo vp va : View) (out op arg : Buf K) : Option (Buf K) :=
  loop (degreesUp 0 va.maxDeg) out fun out fd => do
    let ff ← va.atLevel fd
    loop (List.range ff.size) out fun out i => do
      if fd ≤ vo.maxDeg then
        let letters := unpackIndexToLetters vo.width fd i
        let scalar ← arg.read (← ff.at i)
        loop (List.range (2 ^ fd)) out fun out mask => do
          let p ← packMaskedIndex vo.width letters fd mask
          let fp ← vp.atLevel p.lhsDeg
          let fo ← vo.atLevel p.rhsDeg
          let x ← op.read (← fp.at p.lhsIdx)
          out.addAt (← fo.at p.rhsIdx) (scalar * x)
      else none

end ring

end RoughPy.Tensor
