import Verif.Lite.AntipodeModel

/-!
# The adjoint of left multiplication

Model of `left_free_tensor_multiply_adjoint` (`vendored/libalgebra_lite/free_tensor.h:1117-1123`,
class `left_ftm_adjoint` `:939-1112`), and of the function `adjoint_to_free_multiply` of Python that
calls it (`roughpy/src/algebra/free_multiply_funcs.cpp:181-230`,
`algebra/src/lite_context.h:958-974`, `:1016-1029`).  `none` is a read or a write outside an array.
-/

namespace RoughPy.Lite

open RoughPy.Tensor (loop)

variable {K : Type}

/-- `data[i] += x` for an array -/
def increaseAt [Add K] (data : List K) (i : ℕ) (x : K) : Option (List K) := do
  let y ← data[i]?
  some (data.set i (y + x))

section dense
variable [CommRing K] [DecidableEq K]

/-- The body of the loop over the degrees of `eval_single_dense` (`free_tensor.h:1093-1107`), the
`k`-th time around, when `result_deg` is `k`.  The state is the output and the distances of `aptr`
and `dst` from the beginning of their storages; `p` is that of `pptr`. -/
def adjDegree (powers : List ℕ) (arg mul : List K) (p paramDeg : ℕ) (st : List K × ℕ × ℕ) (k : ℕ) :
    Option (List K × ℕ × ℕ) := do
  let n ← powers[paramDeg]?
  let m ← powers[k]?
  let out ← loop (List.range n) st.1 fun out pidx => do
    let val ← mul[p + pidx]?
    loop (List.range m) out fun out aidx => do
      let x ← arg[st.2.1 + pidx * m + aidx]?
      increaseAt out (st.2.2 + aidx) (val * x)
  let s ← powers[paramDeg + k]?
  some (out, st.2.1 + s, st.2.2 + m)

/-- `eval_single_dense` (`free_tensor.h:1077-1109`); `a` and `p` are the distances of `aptr` and
`pptr` from the beginning of their storages. -/
def adjSingle (powers : List ℕ) (arg mul : List K) (a p paramDeg argDeg : ℕ) (out : List K) :
    Option (List K) :=
  if paramDeg = argDeg then do
    let n ← powers[paramDeg]?
    loop (List.range n) out fun out i => do
      let x ← mul[p + i]?
      let y ← arg[a + i]?
      increaseAt out 0 (x * y)
  else do
    let st ← loop (List.range (argDeg + 1 - paramDeg)) (out, a, 0)
      (adjDegree powers arg mul p paramDeg)
    some st.1

/-- The body of the loop over the prefix degrees `k + 1` (`free_tensor.h:1042-1049`). -/
def adjPrefix (powers : List ℕ) (arg mul : List K) (argDeg : ℕ) (st : List K × ℕ × ℕ) (k : ℕ) :
    Option (List K × ℕ × ℕ) := do
  let s ← powers[k]?
  let out ← adjSingle powers arg mul (st.2.1 + s) (st.2.2 + s) (k + 1) argDeg st.1
  some (out, st.2.1 + s, st.2.2 + s)

/-- The multiples of the argument by the scalar term (`free_tensor.h:1034-1038`). -/
def adjUnit (arg : List K) (unit : K) (out : List K) : Option (List K) :=
  if unit ≠ 0 then
    loop (List.range arg.length) out fun out i => do
      let x ← arg[i]?
      assignAt out i (unit * x)
  else some out

/-- `eval` for a dense argument and a dense multiplier (`free_tensor.h:1010-1050`).  `resize_exact`
is called without a degree, which sets the degree of the result to 0 (`dense_vector.h:129-133`). -/
def adjDenseDense (w depth : ℕ) (arg mul : Dense K) : Option (Dense K) := do
  let n ← (tensorSizes w depth)[arg.degree]?
  let result := (Dense.new : Dense K).resizeExact n 0
  let unit ← mul.storage[0]?
  let out ← adjUnit arg.storage unit result.storage
  let st ← loop (List.range (min arg.degree mul.degree)) (out, 0, 0)
    (adjPrefix (tensorPowers w depth) arg.storage mul.storage arg.degree)
  some ⟨st.1, result.degree⟩

/-- `eval` for a dense argument and a sparse multiplier (`free_tensor.h:978-1008`).  `iptr` is set
to a multiple of the size of the suffixes from the beginning of the storage, not of the degree. -/
def adjDenseSparse (w depth : ℕ) (arg : Dense K) (mul : Sparse K) : Option (Dense K) := do
  let n ← (tensorSizes w depth)[arg.degree]?
  let result := (Dense.new : Dense K).resizeExact n 0
  let out ← loop mul result.storage fun out t =>
    loop (List.range (arg.degree + 1 - t.1.deg)) out fun out suffix => do
      let start ← tensorStart w depth suffix
      let m ← (tensorPowers w depth)[suffix]?
      loop (List.range m) out fun out i => do
        let x ← arg.storage[t.1.idx * m + i]?
        increaseAt out (start + i) (t.2 * x)
  some ⟨out, result.degree⟩

end dense

/-! ## Sparse arguments -/

/-- `index_key(degree, index)` (`index_key.h:42-49`) from 64-bit integers: a large index changes the
degree. -/
def wrapKey (degree index : ℕ) : Key :=
  let raw := (degree * 2 ^ 56 + index) % 2 ^ 64
  ⟨raw / 2 ^ 56, raw % 2 ^ 56⟩

/-- `tensor_basis::parents` (`tensor_basis.h:59-68`), whose second parent has the index
`tmp - letter * m_width`, in unsigned 64-bit arithmetic. -/
def keyParents (w depth : ℕ) (k : Key) : Option (Key × Key) :=
  if k.deg = 0 then some (⟨0, 0⟩, ⟨0, 0⟩)
  else do
    let p ← (tensorPowers w depth)[k.deg - 1]?
    if p = 0 then none
    else
      let letter := k.idx / p
      some (wrapKey 1 letter,
        wrapKey (k.deg - 1) ((k.idx + 2 ^ 64 - letter * w % 2 ^ 64) % 2 ^ 64))

section sparse
variable [CommRing K] [DecidableEq K]

/-- The loop over the terms in `shift_down` (`free_tensor.h:1064-1071`). -/
def shiftOnce (w depth : ℕ) (first : Key) (result : Sparse K) : Option (Sparse K) :=
  loop result ([] : Sparse K) fun working t => do
    let ps ← keyParents w depth t.1
    if t.1.deg > 0 ∧ ps.1 = first then some (working.modify ps.2 fun _ => Sparse.read result t.1)
    else some working

/-- The loop of `shift_down` (`free_tensor.h:1060-1074`), at most `fuel` times around. -/
def shiftDown (w depth : ℕ) : ℕ → Sparse K → Key → Option (Sparse K)
  | 0, _, _ => none
  | fuel + 1, result, word =>
    if word.deg = 0 then some result
    else do
      let ps ← keyParents w depth word
      shiftDown w depth fuel (← shiftOnce w depth ps.1 result) ps.2

/-- `eval` for a sparse argument (`free_tensor.h:965-976`); `mul` are the terms of the multiplier.
The function passed to `inplace_binary_op` returns the new coefficient, but
`inplace_binary_op` (`sparse_vector.h:456-483`) ignores what it returns: it leaves the coefficient as
it is.  The degree of a word drops by one in each round of `shift_down`, or wraps around to 255, in
which case the next round reads outside `m_powers`: 300 rounds are enough for depths below 255;
greater depths are not modelled. -/
def adjSparse (w depth : ℕ) (arg : Sparse K) (mul : List (Key × K)) : Option (Sparse K) :=
  loop mul ([] : Sparse K) fun result t => do
    some (result.binaryInplace (fun l _ => l) (← shiftDown w depth 300 arg t.1))

/-- `left_free_tensor_multiply_adjoint` (`free_tensor.h:1117-1123`).  The basis is that of the
argument, `w` and `depth`; the multiplier belongs to a basis of its own, used by its iterators. -/
def leftMulAdjoint (w depth : ℕ) (B : Basis) : Stored K → Stored K → Option (Stored K)
  | .dense mul, .dense arg => do some (.dense (← adjDenseDense w depth arg mul))
  | .sparse mul, .dense arg => do some (.dense (← adjDenseSparse w depth arg mul))
  | .sparse mul, .sparse arg => do some (.sparse (← adjSparse w depth arg mul))
  | .dense mul, .sparse arg => do some (.sparse (← adjSparse w depth arg (← Dense.items B mul)))

end sparse

/-! ## `adjoint_to_free_multiply` -/

/-- `FreeTensor` and `ShuffleTensor` -/
inductive TensorKind
  | free
  | shuffle
deriving DecidableEq, Repr

/-- A tensor held by Python: the class of the Python object, the kind of the implementation it
points to, the context, and the coefficients.  Contexts differ in width, depth and scalar type; the
coefficients of all scalar types are in `K` here. -/
structure PyTensor (K : Type) where
  kind : TensorKind
  impl : TensorKind
  width : ℕ
  depth : ℕ
  ctype : ℕ
  value : Stored K

/-- The objects passed: tensors, tensors that were never set (`p_impl` is null), others. -/
inductive PyOperand (K : Type)
  | tensor (t : PyTensor K)
  | unset (kind : TensorKind)
  | other

/-- What a call comes to: an exception, undefined behaviour, a result. -/
inductive CallOutcome (R : Type)
  | raised
  | undefined
  | returned (r : R)
deriving DecidableEq, Repr

/-- `adjoint_to_free_multiply` (`free_multiply_funcs.cpp:181-230`).  The class of the result is that
of the multiplier, and its context; the implementation is that of the argument
(`lite_context.h:958-974`), reinterpreted without a check (`algebra_base.h:106-108`).  The
coefficients of the argument are read as those of the context of the multiplier
(`algebra_type_caster.h:121-127`).  Calls with an object whose class is not that of its
implementation count as undefined. -/
def adjointToFreeMultiply [CommRing K] [DecidableEq K] (multiplier arg : PyOperand K) :
    CallOutcome (PyTensor K) :=
  match multiplier, arg with
  | .other, _ => .raised
  | _, .other => .raised
  | .unset _, _ => .raised
  | .tensor _, .unset _ => .undefined
  | .tensor m, .tensor a =>
    if m.kind ≠ m.impl ∨ a.kind ≠ a.impl ∨ m.ctype ≠ a.ctype then .undefined
    else
      match leftMulAdjoint a.width a.depth (tensorBasis m.width m.depth) m.value a.value with
      | none => .undefined
      | some r => .returned ⟨m.kind, a.impl, m.width, m.depth, m.ctype, r⟩

end RoughPy.Lite
