import Verif.Tensor.Compute

/-!
# The compute functions on arrays with leading dimensions

The functions of `roughpy.compute` take numpy arrays of any number of dimensions.  The last dimension
holds the coefficients of one tensor, the others number the tensors of a batch.  This file models the
loops over the batch (`/repo/roughpy/compute/_src/py_binary_array_fn.hpp`, `py_ternary_array_fn.hpp`,
`check_dims.hpp`) and the iterators handed to the kernels
(`/repo/roughpy_compute/dense/views.hpp:24-170`).

Memory is a partial map from addresses, in bytes, to scalars: the scalar that starts there; an access
anywhere else is undefined.  The scalars are exact, there is no rounding.  Addresses do not wrap.
-/

namespace RoughPy.Batch

open RoughPy.Tensor

/-! ## Kernels as programs -/

/-- A kernel: a program that reads from its operands and writes to the first of them, the output.  An
element is named as the kernels name it: `data_ + start` of `at_level` (`views.hpp:270-279`) and then
`[i]`.  `fail` is a failed assertion. -/
inductive Prog (K α : Type) where
  | done (a : α)
  | fail
  | read (arr start i : ℕ) (k : K → Prog K α)
  | write (start i : ℕ) (v : K) (k : Prog K α)

namespace Prog
variable {K α β : Type}

/-- one program after another -/
def bind : Prog K α → (α → Prog K β) → Prog K β
  | done a, f => f a
  | fail, _ => fail
  | read arr s i k, f => read arr s i fun v => (k v).bind f
  | write s i v k, f => write s i v (k.bind f)

instance : Monad (Prog K) where
  pure := done
  bind := bind

/-- a value that may be missing because of a failed assertion -/
def lift : Option α → Prog K α
  | some a => done a
  | none => fail

/-- `fragment[i]` of operand `arr` as an rvalue (`views.hpp:192-197`) -/
def get (arr : ℕ) (f : Frag) (i : ℕ) : Prog K K :=
  if i < f.size then read arr f.start i done else fail

/-- `fragment[i] = v` of the output -/
def put (f : Frag) (i : ℕ) (v : K) : Prog K Unit :=
  if i < f.size then write f.start i v (done ()) else fail

/-- `fragment[i] += v` of the output -/
def add [Add K] (f : Frag) (i : ℕ) (v : K) : Prog K Unit := do
  let x ← get 0 f i
  put f i (x + v)

/-- `view[i]` of operand `arr` as an rvalue (`views.hpp:290-291`) -/
def get0 (arr i : ℕ) : Prog K K := read arr 0 i done

/-- `view[i] = v` of the output -/
def put0 (i : ℕ) (v : K) : Prog K Unit := write 0 i v (done ())

/-- `view[i] += v` of the output -/
def add0 [Add K] (i : ℕ) (v : K) : Prog K Unit := do
  let x ← get0 0 i
  put0 i (x + v)

/-- a counted `for` loop -/
def each {ι : Type} (l : List ι) (body : ι → Prog K Unit) : Prog K Unit :=
  l.foldr (fun x p => (body x).bind fun _ => p) (done ())

/-- The program on arrays of its own: `none` if it leaves one of them. -/
def onRow (args : List (Buf K)) : Prog K α → Buf K → Option (Buf K × α)
  | done a, out => some (out, a)
  | fail, _ => none
  | read 0 s i k, out => (out.read (s + i)).bind fun v => (k v).onRow args out
  | read (j + 1) s i k, out =>
    args[j]?.bind fun b => (b.read (s + i)).bind fun v => (k v).onRow args out
  | write s i v k, out => (out.write (s + i) v).bind fun out' => k.onRow args out'

end Prog

/-! ## The kernels -/

section kernels
variable {K : Type} [CommRing K]

open Prog

/-- the inner loops of `ft_fma` (`dense/basic/free_tensor_fma.hpp:40-45`) and `ft_inplace_mul`
(`dense/basic/free_tensor_inplace_mul.hpp:63-68`) -/
def mulAccProg (op : K → K) (fo fl fr : Frag) (la ra : ℕ) : Prog K Unit :=
  each (List.range fl.size) fun i =>
    each (List.range fr.size) fun j => do
      let a ← get la fl i
      let b ← get ra fr j
      add fo (i * fr.size + j) (op (a * b))

/-- `ft_fma` (`dense/basic/free_tensor_fma.hpp:14-53`); the operands are the output, `lhs` and `rhs` -/
def ftFmaProg (op : K → K) (vo vl vr : View) : Prog K Unit := do
  each (degreesDown vo.maxDeg (max 1 vo.minDeg : ℕ)) fun od => do
    let fo ← lift (vo.atLevel od)
    each (degreesDown (min (vl.maxDeg : ℤ) ((od : ℤ) - vr.minDeg))
        (max (vl.minDeg : ℤ) ((od : ℤ) - vr.maxDeg))) fun ld => do
      let fl ← lift (vl.atLevel ld)
      let fr ← lift (vr.atLevel (od - ld))
      mulAccProg op fo fl fr 1 2
  if vo.minDeg = 0 ∧ vl.minDeg = 0 ∧ vr.minDeg = 0 then
    let a ← get0 1 0
    let b ← get0 2 0
    add0 0 (op (a * b))
  else done ()

/-- first loop of `ft_inplace_mul` for one level
(`dense/basic/free_tensor_inplace_mul.hpp:45-55`) -/
def scaleProg (op : K → K) (rhsMin : ℕ) (fo : Frag) (ra : ℕ) : Prog K Unit :=
  if rhsMin = 0 then
    each (List.range fo.size) fun i => do
      let x ← get 0 fo i
      let r ← get0 ra 0
      put fo i (op (x * r))
  else each (List.range fo.size) fun i => put fo i 0

/-- `ft_inplace_mul` (`dense/basic/free_tensor_inplace_mul.hpp:14-87`); `lhs` is the output and `rhs` the
operand `ra` -/
def ftInplaceMulProg (op : K → K) (vl vr : View) (ra : ℕ) : Prog K Unit := do
  each (degreesDown vl.maxDeg (max 1 vl.minDeg : ℕ)) fun od => do
    let fo ← lift (vl.atLevel od)
    scaleProg op vr.minDeg fo ra
    each (degreesDown ((od : ℤ) - max 1 (vr.minDeg : ℤ))
        (max (vl.minDeg : ℤ) ((od : ℤ) - vr.maxDeg))) fun ld => do
      let fl ← lift (vl.atLevel ld)
      let fr ← lift (vr.atLevel (od - ld))
      mulAccProg op fo fl fr 0 ra
  if vl.minDeg = 0 ∧ vr.minDeg = 0 then
    let a ← get0 0 0
    let b ← get0 ra 0
    put0 0 (op (a * b))
  else if vl.minDeg = 0 then put0 0 0
  else done ()

/-- degree 0 part of `ft_antipode` (`dense/basic/free_tensor_antipode.hpp:62-66`) -/
def antipodeScalarProg (minDeg : ℕ) : Prog K Unit :=
  if minDeg = 0 then do
    let x ← get0 1 0
    put0 0 (defaultSigner 0 x)
  else done ()

/-- degree 1 part of `ft_antipode` (`dense/basic/free_tensor_antipode.hpp:68-76`) -/
def antipodeLettersProg (vo va : View) (minDeg : ℕ) : Prog K Unit :=
  if minDeg ≤ 1 then do
    let fa ← lift (va.atLevel 1)
    let fo ← lift (vo.atLevel 1)
    each (List.range fa.size) fun i => do
      let x ← get 1 fa i
      put fo i (defaultSigner 1 x)
  else done ()

/-- `ft_antipode` with the default signer (`dense/basic/free_tensor_antipode.hpp:50-100`) -/
def ftAntipodeProg (vo va : View) : Prog K Unit := do
  antipodeScalarProg (max va.minDeg vo.minDeg)
  antipodeLettersProg vo va (max va.minDeg vo.minDeg)
  each (degreesUp (max 2 (max va.minDeg vo.minDeg)) (min va.maxDeg vo.maxDeg)) fun degree => do
    let fa ← lift (va.atLevel degree)
    let fo ← lift (vo.atLevel degree)
    each (List.range fa.size) fun i => do
      let x ← get 1 fa i
      put fo (reverseIndex va.width degree i) (defaultSigner degree x)

/-- `ft_adj_lmul` (`dense/basic/free_tensor_adjoint_left_mul.hpp:11-77`); the operands are the output,
`op` and `arg` -/
def ftAdjLmulProg (vo vp va : View) : Prog K Unit :=
  each (degreesDown (min ((va.maxDeg : ℤ) - vp.minDeg) vo.maxDeg)
      (max ((va.minDeg : ℤ) - vp.maxDeg) vo.minDeg)) fun ad => do
    let fa ← lift (va.atLevel ad)
    each (degreesDown (min ((ad : ℤ) - vp.minDeg) vo.maxDeg)
        (max ((ad : ℤ) - vp.maxDeg) vo.minDeg)) fun od => do
      let fp ← lift (vp.atLevel (ad - od))
      let fo ← lift (vo.atLevel od)
      each (List.range fp.size) fun opIdx => do
        let v ← get 1 fp opIdx
        each (List.range fo.size) fun i => do
          let x ← get 2 fa (i + opIdx * fo.size)
          add fo i (v * x)

/-- the sum over the masks in `st_fma` (`dense/basic/shuffle_tensor_product.hpp:57-80`) -/
def shuffleSumProg (w : ℕ) (vl vr : View) (letters : List ℕ) (od : ℕ) : List ℕ → K → Prog K K
  | [], acc => done acc
  | mask :: masks, acc => do
    let p ← lift (packMaskedIndex w letters od mask)
    let fl ← lift (vl.atLevel p.lhsDeg)
    let fr ← lift (vr.atLevel p.rhsDeg)
    let x ← get 1 fl p.lhsIdx
    let y ← get 2 fr p.rhsIdx
    shuffleSumProg w vl vr letters od masks (acc + x * y)

/-- `v1::st_fma` (`dense/basic/shuffle_tensor_product.hpp:26-87`) -/
def stFmaProg (op : K → K) (vo vl vr : View) : Prog K Unit := do
  let a ← get0 1 0
  let b ← get0 2 0
  add0 0 (op (a * b))
  each (degreesUp 1 vl.maxDeg) fun od => do
    let fo ← lift (vo.atLevel od)
    each (List.range (vo.width ^ od)) fun i => do
      if od ≤ vo.maxDeg then
        let acc ← shuffleSumProg vo.width vl vr (unpackIndexToLetters vo.width od i) od
          (List.range (2 ^ od)) 0
        add fo i (op acc)
      else fail

end kernels

section fieldKernels
variable {K : Type} [Field K]

open Prog

/-- `ft_exp` (`dense/intermediate/free_tensor_exp.hpp:14-37`) -/
def ftExpProg (vo va : View) : Prog K Unit := do
  put0 0 1
  each (degreesDown vo.maxDeg 1) fun deg => do
    ftInplaceMulProg (divideBy deg) (vo.truncate (vo.maxDeg - deg + 1))
      (va.truncate (vo.maxDeg - deg + 1) 1) 1
    add0 0 1

/-- the change of the scalar part in `ft_log` (`dense/intermediate/free_tensor_log.hpp:27-31`) -/
def logUnitProg (deg : ℕ) : Prog K Unit :=
  if deg % 2 = 0 then do
    let x ← get0 0 0
    put0 0 (x - 1 / (deg : K))
  else add0 0 (1 / (deg : K))

/-- `ft_log` (`dense/intermediate/free_tensor_log.hpp:13-39`) -/
def ftLogProg (vo va : View) : Prog K Unit :=
  each (degreesDown vo.maxDeg 1) fun deg => do
    logUnitProg deg
    ftInplaceMulProg id (vo.truncate (vo.maxDeg - deg + 1)) (va.truncate (vo.maxDeg - deg + 1) 1) 1

/-- `std::copy_n` from the first argument to the output
(`dense/intermediate/free_tensor_fmexp.hpp:25-26`), which moves the iterators by their strides -/
def copyProg (n : ℕ) : Prog K Unit :=
  each (List.range n) fun i => do
    let x ← get0 1 i
    put0 i x

/-- `vector_inplace_addition` of the first argument
(`dense/basic/vector_inplace_addition.hpp:13-31`) -/
def addVectorProg (vl vr : View) : Prog K Unit := do
  let sl ← lift vl.size
  let sr ← lift vr.size
  each (List.range (min sl sr)) fun i => do
    let x ← get0 1 i
    add0 i x

/-- `ft_fmexp` (`dense/intermediate/free_tensor_fmexp.hpp:16-40`); the operands are the output, the
multiplier and the exponent -/
def ftFmexpProg (vo vm vx : View) : Prog K Unit := do
  let so ← lift vo.size
  let sm ← lift vm.size
  copyProg (min so sm)
  each (degreesDown vo.maxDeg 1) fun deg => do
    ftInplaceMulProg (divideBy deg) (vo.truncate (vo.maxDeg - deg + 1))
      (vx.truncate (vo.maxDeg - deg + 1) 1) 2
    addVectorProg vo vm

end fieldKernels

/-! ## Memory and iterators -/

/-- the scalars in memory, by the address of their first byte -/
abbrev Mem (K : Type) := ℤ → Option K

/-- What a kernel gets for an operand: a raw pointer (stride 1) or a `StridedDenseIterator`
(`views.hpp:24-52`); the stride counts scalars. -/
structure Iter where
  base : ℤ
  stride : ℤ

/-- The address of `(iter + start)[i]` for scalars of `size` bytes: `operator+` moves the base by
`start` scalars and not by `start` strides (`views.hpp:51-54, 97-111`), `operator[]` multiplies by the
stride (`views.hpp:63-67`). -/
def Iter.addr (it : Iter) (size start i : ℕ) : ℤ := it.base + (start + i * it.stride) * size

/-- A kernel run on memory; `none` is an access outside the scalars there. -/
def Prog.onMem {K α : Type} (size : ℕ) (its : List Iter) : Prog K α → Mem K → Option (Mem K × α)
  | .done a, m => some (m, a)
  | .fail, _ => none
  | .read j s i k, m =>
    its[j]?.bind fun it => (m (it.addr size s i)).bind fun v => (k v).onMem size its m
  | .write s i v k, m =>
    its[0]?.bind fun it =>
      if (m (it.addr size s i)).isSome then
        k.onMem size its (Function.update m (it.addr size s i) (some v))
      else none

/-! ## Arrays -/

/-- the element types the loops tell apart; the number is numpy's for any other type -/
inductive DType where
  | float32
  | float64
  | other (num : ℕ)
  deriving DecidableEq

/-- `sizeof(Scalar)` of the supported types -/
def DType.size? : DType → Option ℕ
  | .float32 => some 4
  | .float64 => some 8
  | .other _ => none

/-- A numpy array: where its data starts, its shape, its strides in bytes, its element type and whether
it may be written to. -/
structure Arr where
  data : ℤ
  shape : List ℕ
  strides : List ℤ
  dtype : DType
  writeable : Bool
  deriving DecidableEq

/-- what is passed for an operand -/
inductive Obj where
  | array (a : Arr)
  | other

/-- `PyArray_GetPtr` (numpy): the start of the data plus index times stride for every dimension -/
def getPtr (data : ℤ) : List ℕ → List ℤ → ℤ
  | i :: idx, s :: strides => getPtr (data + i * s) idx strides
  | _, _ => data

/-- `PyArray_STRIDE(arr, ndims - 1) / sizeof(Scalar)` (`py_binary_array_fn.hpp:41-42`,
`py_ternary_array_fn.hpp:41-43`): the size is unsigned, so the division is one of unsigned numbers of 64
bits.  `none` if there is no dimension. -/
def coreStride (a : Arr) (size : ℕ) : Option ℤ := a.strides.getLast?.map fun s => s % 2 ^ 64 / size

/-- `advance` (`py_binary_array_fn.hpp:34-39`, `py_ternary_array_fn.hpp:34-39`) on the positions of the
batch dimensions, which are visited from the last to the first; whether the loop gets past them all. -/
def advance : List ℕ → List ℕ → List ℕ × Bool
  | n :: shape, i :: idx =>
    let r := advance shape idx
    if r.2 then
      if i + 1 < n then ((i + 1) :: r.1, false) else (0 :: r.1, true)
    else (i :: r.1, false)
  | _, _ => ([], true)

/-- one turn of the loop (`py_binary_array_fn.hpp:44-59`, `py_ternary_array_fn.hpp:45-66`): the kernel
on the operands at one index of the batch.  The index of the core dimension is 0. -/
def oneRow {K : Type} (size : ℕ) (ops : List Arr) (p : Prog K Unit) (idx : List ℕ) (m : Mem K) :
    Option (Mem K) := do
  let strides ← ops.mapM fun a => coreStride a size
  let its := List.zipWith (fun (a : Arr) s => (⟨getPtr a.data (idx ++ [0]) a.strides, s⟩ : Iter)) ops
    strides
  let r ← p.onMem size its m
  some r.1

/-- the loop over the batch: `n` more elements, starting with `idx` -/
def rows {K : Type} (size : ℕ) (ops : List Arr) (p : Prog K Unit) (lead : List ℕ) :
    ℕ → List ℕ → Mem K → Option (Mem K)
  | 0, _, m => some m
  | n + 1, idx, m => do
    let m' ← oneRow size ops p idx m
    rows size ops p lead n (advance lead idx).1 m'

/-- `outer_loop_binary` (`py_binary_array_fn.hpp:13-62`), `outer_loop_ternary`
(`py_ternary_array_fn.hpp:12-69`); the output is the first operand. -/
def outerLoop {K : Type} (size : ℕ) (out : Arr) (args : List Arr) (p : Prog K Unit) (m : Mem K) :
    Option (Mem K) :=
  rows size (out :: args) p out.shape.dropLast out.shape.dropLast.prod
    (out.shape.dropLast.map fun _ => 0) m

/-- how a call ends -/
inductive Res (K : Type) where
  | ok (m : Mem K)
  | typeError
  | valueError
  | undefined

/-- `check_dims` (`check_dims.hpp:9-24`) without the core dimensions -/
def checkDims (s t : List ℕ) : Bool := s.length == t.length && s.dropLast == t.dropLast

/-- the checks of the operands other than the output (`py_binary_array_fn.hpp:108-129`,
`py_ternary_array_fn.hpp:100-143`), one after the other -/
def checkArgs {K : Type} (out : Arr) (k : List Arr → Res K) : List Obj → Res K
  | [] => k []
  | .other :: _ => .typeError
  | .array a :: objs =>
    if a.dtype ≠ out.dtype then .typeError
    else if !checkDims a.shape out.shape then .valueError
    else checkArgs out (fun as => k (a :: as)) objs

/-- `binary_function_outer` (`py_binary_array_fn.hpp:64-145`), `ternary_function_outer`
(`py_ternary_array_fn.hpp:72-161`).  The kernel is `none` if `update_algebra_params` rejects the degree
bounds. -/
def functionOuter {K : Type} (kernel : Option (Prog K Unit)) (out : Obj) (args : List Obj) (m : Mem K) :
    Res K :=
  match kernel, out with
  | none, _ => .valueError
  | some _, .other => .typeError
  | some p, .array o =>
    if o.shape.length < 1 then .valueError
    else
      checkArgs o (fun as =>
        match o.dtype.size? with
        | none => .typeError
        | some size =>
          match outerLoop size o as p m with
          | some m' => .ok m'
          | none => .undefined) args

/-! ## The functions -/

section calls
variable {K : Type} [CommRing K]

/-- `py_dense_ft_fma` (`dense_basic.cpp:85-147`) -/
def npFtFma (out lhs rhs : Obj) (w depth : ℕ) (outDepth lhsDepth rhsDepth : ℤ) (m : Mem K) : Res K :=
  functionOuter (do
    let o ← resolveDegree depth outDepth
    let l ← resolveDegree depth lhsDepth
    let r ← resolveDegree depth rhsDepth
    some (ftFmaProg id (argView w depth o) (argView w depth l) (argView w depth r))) out [lhs, rhs] m

/-- `py_dense_ft_inplace_mul` (`dense_basic.cpp:196-237`) -/
def npFtInplaceMul (lhs rhs : Obj) (w depth : ℕ) (outDepth rhsDepth : ℤ) (m : Mem K) : Res K :=
  functionOuter (do
    let o ← resolveDegree depth outDepth
    let r ← resolveDegree depth rhsDepth
    some (ftInplaceMulProg id (argView w depth o) (argView w depth r) 1)) lhs [rhs] m

/-- `py_dense_antipode` (`dense_basic.cpp:295-335`) without depths -/
def npFtAntipode (out arg : Obj) (w depth : ℕ) (m : Mem K) : Res K :=
  functionOuter (do
    let o ← resolveDegree depth (-1)
    some (ftAntipodeProg (argView w depth o) (argView w depth o))) out [arg] m

/-- `py_dense_ft_adj_lmul` (`dense_basic.cpp:387-441`) -/
def npFtAdjLmul (out op arg : Obj) (w depth : ℕ) (outDepth opDepth argDepth : ℤ) (m : Mem K) : Res K :=
  functionOuter (do
    let o ← resolveDegree depth outDepth
    let p ← resolveDegree depth opDepth
    let a ← resolveDegree depth argDepth
    some (ftAdjLmulProg (argView w depth o) (argView w depth p) (argView w depth a))) out [op, arg] m

/-- `py_dense_st_fma` (`dense_basic.cpp:492-534`) -/
def npStFma (out lhs rhs : Obj) (w depth : ℕ) (m : Mem K) : Res K :=
  functionOuter (do
    let o ← resolveDegree depth (-1)
    some (stFmaProg id (argView w depth o) (argView w depth o) (argView w depth o))) out [lhs, rhs] m

end calls

section fieldCalls
variable {K : Type} [Field K]

/-- `py_dense_ft_exp` (`dense_intermediate.cpp:62-103`) without depths -/
def npFtExp (out arg : Obj) (w depth : ℕ) (m : Mem K) : Res K :=
  functionOuter (do
    let o ← resolveDegree depth (-1)
    some (ftExpProg (argView w depth o) (argView w depth o))) out [arg] m

/-- `py_dense_ft_log` (`dense_intermediate.cpp:254-294`) without depths -/
def npFtLog (out arg : Obj) (w depth : ℕ) (m : Mem K) : Res K :=
  functionOuter (do
    let o ← resolveDegree depth (-1)
    some (ftLogProg (argView w depth o) (argView w depth o))) out [arg] m

/-- `py_dense_ft_fmexp` (`dense_intermediate.cpp:153-205`) without depths -/
def npFtFmexp (out mul ex : Obj) (w depth : ℕ) (m : Mem K) : Res K :=
  functionOuter (do
    let o ← resolveDegree depth (-1)
    some (ftFmexpProg (argView w depth o) (argView w depth o) (argView w depth o))) out [mul, ex] m

end fieldCalls

end RoughPy.Batch
