import Verif.Lite.MapsModel

/-!
# Model of the `libalgebra_lite` context
(`/repo/algebra/src/lite_context.h`, `/repo/algebra/src/context.cpp`)

Functions the code writes as templates over the storage type take a `Kind`, the operations of the
tensors and Lie elements of one storage type.  The dispatching functions take vectors of either
storage type (`Stored`).  Every context has its own maps, whose state is passed along.

Simplifications: the arguments are elements of contexts with the scalar type of this one, so that no scalars are
converted; elements are not null; the tests that throw an exception for contexts of another width are left out;
`data` that is null is an array without entries.
-/

namespace RoughPy.Lite

open RoughPy.Tensor (loop)

variable {K T : Type}

/-- `VectorType` (`context_fwd.h`). -/
inductive VecType
  | sparse
  | dense
deriving DecidableEq, Repr

/-- An element together with its storage type, as held by `FreeTensor` and `Lie`. -/
inductive Stored (K : Type)
  | sparse (v : Sparse K)
  | dense (v : Dense K)

namespace Stored

/-- `storage_type()` (`algebra_impl.h`). -/
def vecType : Stored K → VecType
  | sparse _ => .sparse
  | dense _ => .dense

/-- `dimension()` (`algebra_impl.h:437-440`, `sparse_vector.h:350-353`, `dense_vector.h:187`): the
number of entries stored, zero or not. -/
def dimension : Stored K → ℕ
  | sparse v => v.length
  | dense v => v.storage.length

end Stored

/-- The bases of a context (`LiteContext`, `lite_context.h:85-235`, `:707-727`). -/
structure LiteCtx where
  width : ℕ
  depth : ℕ
  /-- the Hall set of `p_lbasis` -/
  hs : HallSet
  /-- `p_lbasis` -/
  lieBasis : Basis

namespace LiteCtx

/-- The constructor (`lite_context.h:707-727`). -/
def new (w depth : ℕ) : Option LiteCtx := do
  let r ← hallBasis w depth
  some ⟨w, depth, r.1, r.2⟩

/-- `p_tbasis` -/
def tensorBasis (c : LiteCtx) : Basis := Lite.tensorBasis c.width c.depth

end LiteCtx

/-- The vectors of one storage type: `free_tensor_t<VType>` and `lie_t<VType>`. -/
structure Kind (K T : Type) where
  tensor : AlgOps K T
  lie : VecOps K T

namespace LiteCtx
variable [Field K] [DecidableEq K]

/-- `VType` is `Sparse` -/
def sparseKind (c : LiteCtx) : Kind K (Sparse K) := ⟨sparseTensor c.width c.depth, Sparse.ops⟩

/-- `VType` is `Dense` -/
def denseKind (c : LiteCtx) : Kind K (Dense K) := ⟨denseTensor c.width c.depth, Dense.ops c.lieBasis⟩

end LiteCtx

/-! ## Construction and conversion -/

/-- `KeyScalarArray`: scalars, with or without keys. -/
structure KeyScalars (K : Type) where
  keys : Option (List ℕ)
  vals : List K

/-- the key of an entry, which is its position if there are no keys (`lite_context.h:465-482`) -/
def KeyScalars.index (data : KeyScalars K) (i : ℕ) : Option ℕ :=
  match data.keys with
  | some keys => keys[i]?
  | none => some i

/-- `construct_impl<OutType>` (`lite_context.h:441-485`): keys are taken as indices of the basis,
and at most as many entries are read as the basis has keys. -/
def constructImpl (V : VecOps K T) (B : Basis) (data : KeyScalars K) : Option T :=
  loop (List.range (min data.vals.length B.maxDim)) V.new fun result i => do
    let index ← data.index i
    let k ← B.indexToKey index
    let x ← data.vals[i]?
    V.modify result k fun _ => x

/-- `tensor_populate_vcd` (`lite_context.h:365-387`) for a tensor of the context `src`; iteration
shows the keys of tensors as indices (`tensor_basis_info.h:71-77`). -/
def tensorData (src : LiteCtx) : Stored K → Option (KeyScalars K)
  | .dense v => some ⟨none, v.storage⟩
  | .sparse v => do
    let keys ← loop v [] fun keys (t : Key × K) => do
      let i ← src.tensorBasis.keyToIndex t.1
      some (keys ++ [i])
    some ⟨some keys, v.map (·.2)⟩

namespace LiteCtx
variable [Field K] [DecidableEq K] (c : LiteCtx) (fuel : ℕ)

/-- `convert_impl<VType>(FreeTensor)` (`lite_context.h:391-408`) of a tensor of the context
`src`. -/
def convertTensorImpl (k : Kind K T) (src : LiteCtx) (arg : Stored K) : Option T := do
  let data ← tensorData src arg
  constructImpl k.tensor.toVecOps c.tensorBasis data

/-- `convert(FreeTensor, vtype)` (`lite_context.h:795-805`). -/
def convertTensor (src : LiteCtx) (arg : Stored K) : VecType → Option (Stored K)
  | .sparse => do some (.sparse (← c.convertTensorImpl c.sparseKind src arg))
  | .dense => do some (.dense (← c.convertTensorImpl c.denseKind src arg))

/-- `construct_free_tensor` (`lite_context.h:831-842`). -/
def constructTensor (data : KeyScalars K) : VecType → Option (Stored K)
  | .sparse => do some (.sparse (← constructImpl (c.sparseKind (K := K)).tensor.toVecOps c.tensorBasis data))
  | .dense => do some (.dense (← constructImpl (c.denseKind (K := K)).tensor.toVecOps c.tensorBasis data))

/-- What iteration over a Lie element shows: the keys, numbered from 1, and the coefficients
(`algebra_iterator_impl.h:70-75`, `lie_basis_info.h:73-78`). -/
def lieShown (x : Stored K) : Option (KeyScalars K) := do
  let l ← match x with
    | .sparse v => (Sparse.ops : VecOps K (Sparse K)).items v
    | .dense v => (Dense.ops c.lieBasis : VecOps K (Dense K)).items v
  let keys ← l.mapM fun t => (c.lieBasis.keyToIndex t.1).map (1 + ·)
  some ⟨some keys, l.map fun t => t.2⟩

/-- `construct_lie` (`lite_context.h:857-865`). -/
def constructLie (data : KeyScalars K) : VecType → Option (Stored K)
  | .sparse => do some (.sparse (← constructImpl (c.sparseKind (K := K)).lie c.lieBasis data))
  | .dense => do some (.dense (← constructImpl (c.denseKind (K := K)).lie c.lieBasis data))

/-! ## Maps -/

/-- `lie_to_tensor_impl<VType>` (`lite_context.h:486-499`) of an element of this context that has
this storage type. -/
def lieToTensorImpl (k : Kind K T) (st : MapsState) (arg : T) : Option (T × MapsState) := do
  let l ← k.lie.items arg
  Lite.lieToTensor c.width c.depth c.hs fuel k.tensor.toVecOps st c.depth l

/-- `tensor_to_lie_impl<VType>` (`lite_context.h:508-520`) of a tensor of this context that has
this storage type. -/
def tensorToLieImpl (k : Kind K T) (st : MapsState) (arg : T) : Option (T × MapsState) := do
  let l ← k.tensor.items arg
  Lite.tensorToLie c.width c.depth c.hs fuel k.lie st c.depth l

/-- `lie_to_tensor` (`lite_context.h:876-882`) of an element of this context. -/
def lieToTensor (st : MapsState) : Stored K → Option (Stored K × MapsState)
  | .sparse v => do
    let r ← c.lieToTensorImpl fuel c.sparseKind st v
    some (.sparse r.1, r.2)
  | .dense v => do
    let r ← c.lieToTensorImpl fuel c.denseKind st v
    some (.dense r.1, r.2)

/-- `tensor_to_lie` (`lite_context.h:884-890`) of a tensor of this context. -/
def tensorToLie (st : MapsState) : Stored K → Option (Stored K × MapsState)
  | .sparse v => do
    let r ← c.tensorToLieImpl fuel c.sparseKind st v
    some (.sparse r.1, r.2)
  | .dense v => do
    let r ← c.tensorToLieImpl fuel c.denseKind st v
    some (.dense r.1, r.2)

/-- `lie_to_tensor` (`lite_context.h:876-882`, `:499-507`) of an element of the other context `src`
of the same width; `st` is what the maps of `src` remember. -/
def lieToTensorFrom (src : LiteCtx) (st : MapsState) (arg : Stored K) :
    Option (Stored K × MapsState) := do
  let t ← src.lieToTensor fuel st arg
  let r ← c.convertTensor src t.1 arg.vecType
  some (r, t.2)

/-- `tensor_to_lie` (`lite_context.h:884-890`, `:520-527`) of a tensor of the other context `src` of
the same width. -/
def tensorToLieFrom (src : LiteCtx) (st : MapsState) (arg : Stored K) :
    Option (Stored K × MapsState) := do
  let t ← c.convertTensor src arg arg.vecType
  c.tensorToLie fuel st t

/-- `convert(Lie, vtype)` (`lite_context.h:819-829`, `:423-439`) of an element of this context. -/
def convertLie (st : MapsState) (arg : Stored K) (vt : VecType) : Option (Stored K × MapsState) := do
  let t ← c.lieToTensor fuel st arg
  let u ← c.convertTensor c t.1 vt
  c.tensorToLie fuel t.2 u

/-- `convert(Lie, vtype)` (`lite_context.h:819-829`, `:423-439`) of an element of the other context
`src`; `srcSt` is what the maps of `src` remember and `st` what the maps of this context do. -/
def convertLieFrom (src : LiteCtx) (srcSt st : MapsState) (arg : Stored K) (vt : VecType) :
    Option (Stored K × MapsState × MapsState) := do
  let t ← src.lieToTensor fuel srcSt arg
  let u ← c.convertTensor src t.1 vt
  let r ← c.tensorToLie fuel st u
  some (r.1, t.2, r.2)

/-! ## Signatures and the Campbell-Baker-Hausdorff formula -/

/-- `FreeTensor::exp` (`free_tensor.cpp:49-57`). -/
def exp : Stored K → Option (Stored K)
  | .sparse v => do some (.sparse (← c.sparseKind.tensor.exp v))
  | .dense v => do some (.dense (← c.denseKind.tensor.exp v))

/-- `FreeTensor::log` (`free_tensor.cpp:58-62`). -/
def log : Stored K → Option (Stored K)
  | .sparse v => do some (.sparse (← c.sparseKind.tensor.log v))
  | .dense v => do some (.dense (← c.denseKind.tensor.log v))

/-- `FreeTensor::fmexp` (`free_tensor.cpp:68-72`, `free_tensor_impl.h:125-132`): an argument of the
other storage type is converted (`algebra_impl.h:659-673`). -/
def fmexp : Stored K → Stored K → Option (Stored K)
  | .sparse v, .sparse x => do some (.sparse (← c.sparseKind.tensor.fmexp v x))
  | .sparse v, .dense x => do
    let y ← c.convertTensorImpl c.sparseKind c (.dense x)
    some (.sparse (← c.sparseKind.tensor.fmexp v y))
  | .dense v, .dense x => do some (.dense (← c.denseKind.tensor.fmexp v x))
  | .dense v, .sparse x => do
    let y ← c.convertTensorImpl c.denseKind c (.sparse x)
    some (.dense (← c.denseKind.tensor.fmexp v y))

/-- `to_signature` (`context.cpp:156-159`). -/
def toSignature (st : MapsState) (arg : Stored K) : Option (Stored K × MapsState) := do
  let t ← c.lieToTensor fuel st arg
  some (← c.exp t.1, t.2)

/-- `zero_free_tensor(vtype)` (`context.cpp:144-147`) followed by `collector[0] = 1`; key 0 of a
tensor is the empty word (`tensor_basis_info.h:79-85`). -/
def unitTensor (vt : VecType) : Option (Stored K) := do
  let z ← c.constructTensor (K := K) ⟨none, []⟩ vt
  let k ← c.tensorBasis.indexToKey 0
  match z with
  | .sparse v => some (.sparse (← c.sparseKind.tensor.modify v k fun _ => 1))
  | .dense v => some (.dense (← c.denseKind.tensor.modify v k fun _ => 1))

/-- `cbh_fallback` (`context.cpp:169-186`). -/
def cbhFallback (st : MapsState) (collector : Stored K) (lies : List (Stored K)) :
    Option (Stored K × MapsState) :=
  loop lies (collector, st) fun (s : Stored K × MapsState) lie =>
    if lie.dimension ≠ 0 then do
      let t ← c.lieToTensor fuel s.2 lie
      some (← c.fmexp s.1 t.1, t.2)
    else some s

/-- `cbh(lies, vtype)` (`context.cpp:187-208`) for elements of this context. -/
def cbh (st : MapsState) (lies : List (Stored K)) (vt : VecType) : Option (Stored K × MapsState) :=
  match lies with
  | [x] => c.convertLie fuel st x vt
  | _ => do
    let collector ← c.unitTensor vt
    let s ← c.cbhFallback fuel st collector lies
    c.tensorToLie fuel s.2 (← c.log s.1)

/-- `cbh(left, right, vtype)` (`context.cpp:210-216`) for elements of this context; `vtype` is not
used. -/
def cbhPair (st : MapsState) (left right : Stored K) (_vt : VecType) :
    Option (Stored K × MapsState) := do
  let l ← c.lieToTensor fuel st left
  let tmp ← c.exp l.1
  let r ← c.lieToTensor fuel l.2 right
  let tmp ← c.fmexp tmp r.1
  c.tensorToLie fuel r.2 (← c.log tmp)

/-- `compute_signature<VType>` (`lite_context.h:542-562`); `rows` are the rows of the data. -/
def computeSignature (k : Kind K T) (st : MapsState) (rows : List (KeyScalars K)) :
    Option (T × MapsState) := do
  let result ← k.tensor.modify k.tensor.new ⟨0, 0⟩ fun _ => 1
  loop rows (result, st) fun (s : T × MapsState) row => do
    let lieRow ← constructImpl k.lie c.lieBasis row
    let t ← c.lieToTensorImpl fuel k s.2 lieRow
    some (← k.tensor.fmexp s.1 t.1, t.2)

/-- `signature(data)` (`lite_context.h:891-897`). -/
def signature (st : MapsState) (rows : List (KeyScalars K)) : VecType → Option (Stored K × MapsState)
  | .sparse => do
    let r ← c.computeSignature fuel c.sparseKind st rows
    some (.sparse r.1, r.2)
  | .dense => do
    let r ← c.computeSignature fuel c.denseKind st rows
    some (.dense r.1, r.2)

/-- `log_signature(data)` (`lite_context.h:898-902`). -/
def logSignature (st : MapsState) (rows : List (KeyScalars K)) (vt : VecType) :
    Option (Stored K × MapsState) := do
  let s ← c.signature fuel st rows vt
  c.tensorToLie fuel s.2 (← c.log s.1)

/-! ## The derivative of a signature -/

/-- `derive_series_compute<VType>` (`lite_context.h:575-600`).  The factor is a rational number;
dividing by one that is zero in the field is undefined. -/
def deriveSeries (k : Kind K T) (increment perturbation : T) : Option T := do
  let ad ← k.tensor.commutator increment perturbation
  let s ← loop (List.range c.depth) (perturbation, ad, (1 : K)) fun (s : T × T × K) i => do
    let d := i + 1
    let factor := s.2.2 * ((d + 1 : ℕ) : K)
    let result ← if d % 2 = 0 then k.tensor.addScalDiv s.1 s.2.1 factor
      else k.tensor.subScalDiv s.1 s.2.1 factor
    let ad ← k.tensor.commutator increment s.2.1
    some (result, ad, factor)
  some s.1

/-- `sig_derivative_impl<VType>` (`lite_context.h:602-636`) with `sig_derivative_single`; the
entries are the log-signature of an interval and its perturbation, elements of this context that
have this storage type. -/
def sigDerivativeImpl (k : Kind K T) (st : MapsState) (info : List (T × T)) : Option (T × MapsState) :=
  loop info (k.tensor.new, st) fun (s : T × MapsState) data => do
    let incr ← c.lieToTensorImpl fuel k s.2 data.1
    let pert ← c.lieToTensorImpl fuel k incr.2 data.2
    let sig ← k.tensor.exp incr.1
    let result ← k.tensor.mulInplace s.1 sig
    let series ← c.deriveSeries k incr.1 pert.1
    let single ← k.tensor.mul sig series
    some (k.tensor.addInplace result single, pert.2)

end LiteCtx

/-- `algebra_cast<lie_t<Sparse>>` (`lite_context.h:496`): a cast without a check of the storage type;
for an element of the other type the behaviour is undefined. -/
def Stored.castSparse : Stored K → Option (Sparse K)
  | .sparse v => some v
  | .dense _ => none

/-- `algebra_cast<lie_t<Dense>>` (`lite_context.h:496`); see `castSparse`. -/
def Stored.castDense : Stored K → Option (Dense K)
  | .dense v => some v
  | .sparse _ => none

/-- `sig_derivative(info, vtype)` (`lite_context.h:903-912`) for elements of this context. -/
def LiteCtx.sigDerivative [Field K] [DecidableEq K] (c : LiteCtx) (fuel : ℕ) (st : MapsState)
    (info : List (Stored K × Stored K)) : VecType → Option (Stored K × MapsState)
  | .sparse => do
    let info ← info.mapM fun p => do some (← p.1.castSparse, ← p.2.castSparse)
    let r ← c.sigDerivativeImpl fuel c.sparseKind st info
    some (.sparse r.1, r.2)
  | .dense => do
    let info ← info.mapM fun p => do some (← p.1.castDense, ← p.2.castDense)
    let r ← c.sigDerivativeImpl fuel c.denseKind st info
    some (.dense r.1, r.2)

end RoughPy.Lite
