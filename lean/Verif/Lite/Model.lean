import Verif.Lite.Map
import Verif.Tensor.Model
import Mathlib.Data.Prod.Lex
import Mathlib.Data.Int.Cast.Defs

/-!
# Model of the vectors and free tensors of libalgebra_lite (`/repo/vendored/libalgebra_lite`)

Reading or writing outside an array, using an invalidated iterator and dividing by zero give
`none`.  Simplifications: scalars are exact elements of a field; degrees and indices are
unbounded (an `index_key` has 8 bits of degree and 56 bits of index); copying and moving a
vector copies its value.
-/

namespace RoughPy.Lite

open RoughPy.Tensor

/-! ## Keys -/

/-- `index_key<>` (`index_key.h:20-122`): the degree in the top bits, the index below, so that
the integer order is the lexicographic order. -/
structure Key where
  deg : ℕ
  idx : ℕ
deriving DecidableEq, Repr

/-- position in the lexicographic order -/
def Key.lex (k : Key) : ℕ ×ₗ ℕ := toLex (k.deg, k.idx)

theorem Key.lex_injective : Function.Injective Key.lex := by
  rintro ⟨a, b⟩ ⟨c, d⟩ h
  have := toLex.injective h
  simp only [Prod.mk.injEq] at this
  rw [this.1, this.2]

/-- `index_key::operator<` (`index_key.h:67-74`). -/
instance : LinearOrder Key := LinearOrder.lift' Key.lex Key.lex_injective

/-! ## Bases -/

/-- What the vectors use of a graded basis (`tensor_basis.h:22-133`, `hall_set.h:137-211`). -/
structure Basis where
  /-- `depth()` -/
  depth : ℕ
  /-- `sizes()` -/
  sizes : List ℕ
  /-- `size(-1)`, the `max_dimension` of `basis_traits.h:79` -/
  maxDim : ℕ
  /-- the index of the first key of a degree, as used by `key_to_index` -/
  startOf : ℕ → Option ℕ
  /-- `index_to_key` -/
  indexToKey : ℕ → Option Key
  /-- `size_of_degree`, the bound used by `advance_key` -/
  levelSize : ℕ → Option ℕ

namespace Basis

/-- `key_to_index` (`basis/tensor_basis.cpp:27-30`, `basis/hall_set.cpp:177-181`). -/
def keyToIndex (B : Basis) (k : Key) : Option ℕ := do
  let s ← B.startOf k.deg
  some (s + k.idx)

/-- `advance_key` (`basis/tensor_basis.cpp:82-88`, `basis/hall_set.cpp:221-228`). -/
def advanceKey (B : Basis) (k : Key) : Option Key := do
  let bound ← B.levelSize k.deg
  if k.idx + 1 ≥ bound then some ⟨k.deg + 1, 0⟩ else some ⟨k.deg, k.idx + 1⟩

/-- `get_next_dimension` (`basis_traits.h:93-103`).  The sizes increase, so the binary search
`lower_bound(…, dim, less_equal)` finds the first size greater than `dim`. -/
def nextDimension (B : Basis) (dim : ℕ) : ℕ × ℕ :=
  match B.sizes.findIdx? (fun s => decide (dim < s)) with
  | none => (B.maxDim, 0)
  | some i =>
    match B.sizes[i]? with
    | some s => (s, i)
    | none => (B.maxDim, 0)

end Basis

/-- state of the loop in the constructor of `tensor_basis` -/
structure BasisTables where
  powers : List ℕ
  lastPower : ℕ
  sizes : List ℕ
  lastSize : ℕ

/-- The loop `for (d = 1; d <= depth; ++d)` of the constructor
(`basis/tensor_basis.cpp:15-23`). -/
def tensorTables (w depth : ℕ) : BasisTables :=
  (List.range depth).foldl (fun st _ =>
    { powers := st.powers ++ [st.lastPower * w]
      lastPower := st.lastPower * w
      sizes := st.sizes ++ [1 + w * st.lastSize]
      lastSize := 1 + w * st.lastSize })
    ⟨[1], 1, [1], 1⟩

/-- `powers()` (`tensor_basis.h:107`). -/
def tensorPowers (w depth : ℕ) : List ℕ := (tensorTables w depth).powers

/-- `sizes()` after the constructor (`basis/tensor_basis.cpp:12-25`): one more entry than the
depth asks for. -/
def tensorSizes (w depth : ℕ) : List ℕ :=
  (tensorTables w depth).sizes ++ [1 + w * (tensorTables w depth).lastSize]

/-- `tensor_basis::start_of_degree` (`tensor_basis.h:87-94`). -/
def tensorStart (w depth : ℕ) : ℕ → Option ℕ
  | 0 => some 0
  | d + 1 => (tensorSizes w depth)[d]?

/-- `tensor_basis::index_to_key` (`basis/tensor_basis.cpp:31-46`). -/
def tensorIndexToKey (w depth : ℕ) (arg : ℕ) : Option Key :=
  if arg = 0 then some ⟨0, 0⟩
  else
    match (tensorSizes w depth).findIdx? (fun s => decide (arg < s)) with
    | none => some ⟨0, 0⟩
    | some 0 => none
    | some (i + 1) => do
      let before ← (tensorSizes w depth)[i]?
      some ⟨i + 1, arg - before⟩

/-- `tensor_basis` (`tensor_basis.h:22-133`). -/
def tensorBasis (w depth : ℕ) : Basis where
  depth := depth
  sizes := tensorSizes w depth
  maxDim := (tensorTables w depth).lastSize
  startOf := tensorStart w depth
  indexToKey := tensorIndexToKey w depth
  levelSize := fun d => (tensorPowers w depth)[d]?

variable {K T : Type}

/-! ## The operations the algebra templates require of a vector type -/

/-- Member functions of `sparse_vector` and `dense_vector_base` used by `vector.h`, `algebra.h`
and `free_tensor.h`. -/
structure VecOps (K T : Type) where
  /-- constructor from a basis -/
  new : T
  /-- constructor from a basis, a key and a scalar -/
  single : Key → K → Option T
  /-- `operator[]` on a `const` vector -/
  read : T → Key → Option K
  /-- `operator[]` on a mutable vector, followed by an assignment -/
  modify : T → Key → (K → K) → Option T
  /-- `empty()` -/
  empty : T → Bool
  /-- `clear()` -/
  clear : T → T
  /-- `unary_op` -/
  unary : (K → K) → T → T
  /-- `inplace_unary_op` -/
  unaryInplace : (K → K) → T → T
  /-- `binary_op` -/
  binary : (K → K → K) → T → T → T
  /-- `inplace_binary_op` on two different vectors -/
  binaryInplace : (K → K → K) → T → T → T
  /-- `inplace_binary_op` of a vector with itself -/
  binarySelf : (K → K → K) → T → Option T
  /-- `operator==` -/
  beq : T → T → Bool
  /-- iteration over a `const` vector -/
  items : T → Option (List (Key × K))
  /-- `size()` -/
  size : T → ℕ
  /-- `degree()` -/
  degree : T → ℕ
  /-- `update_degree` -/
  setDegree : T → ℕ → T
  /-- `free_tensor::resize_to_degree` -/
  resizeToDegree : T → ℕ → Option T

/-! ## Sparse vectors -/

/-- `sparse_vector` (`sparse_vector.h:293-499`).  The member `m_degree` is left out: it is
written but never read. -/
abbrev Sparse (K : Type) := SMap Key K

namespace Sparse
variable [Zero K] [DecidableEq K]

/-- `operator[]` const (`sparse_vector.h:379-384`). -/
def read (m : Sparse K) (k : Key) : K :=
  match SMap.find m k with
  | some v => v
  | none => 0

/-- Mutable `operator[]` (`sparse_vector.h:386-389`): a `sparse_mutable_reference` is made
(`:87-91`), its value changed, and written back by its destructor (`:93-104`). -/
def modify (m : Sparse K) (k : Key) (f : K → K) : Sparse K :=
  match SMap.find m k with
  | some v => if f v ≠ 0 then SMap.set m k (f v) else SMap.erase m k
  | none => if f 0 ≠ 0 then SMap.set m k (f 0) else m

/-- constructor from key and scalar (`sparse_vector.h:333-342`) -/
def single (k : Key) (s : K) : Sparse K := if s ≠ 0 then [(k, s)] else []

/-- `unary_op` (`sparse_vector.h:418-429`). -/
def unary (op : K → K) (m : Sparse K) : Sparse K :=
  m.filterMap fun e => if op e.2 ≠ 0 then some (e.1, op e.2) else none

/-- one step of `inplace_binary_op` (`sparse_vector.h:465-480`) -/
def combine (op : K → K → K) (m : Sparse K) (e : Key × K) : Sparse K :=
  match SMap.find m e.1 with
  | some v => if op v e.2 = 0 then SMap.erase m e.1 else SMap.set m e.1 (op v e.2)
  | none => SMap.set m e.1 (op 0 e.2)

/-- `inplace_binary_op` (`sparse_vector.h:456-483`) when `rhs` is another vector; `binary_op`
(`:443-454`) is the same on a copy. -/
def binaryInplace (op : K → K → K) (m rhs : Sparse K) : Sparse K := rhs.foldl (combine op) m

/-- `inplace_binary_op` (`sparse_vector.h:456-483`) when `rhs` is the vector itself: every key
is found; erasing an entry invalidates the iterator of the loop. -/
def binarySelf (op : K → K → K) : Sparse K → Option (Sparse K)
  | [] => some []
  | (k, v) :: m =>
    if op v v = 0 then none
    else do
      let m' ← binarySelf op m
      some ((k, op v v) :: m')

/-- `operator==` (`sparse_vector.h:485-498`). -/
def beq (a b : Sparse K) : Bool :=
  decide (a.length = b.length) && b.all fun e => decide (SMap.find a e.1 = some e.2)

/-- `degree()` (`sparse_vector.h:355-363`). -/
def degree (m : Sparse K) : ℕ := m.foldl (fun d e => if e.1.deg > d then e.1.deg else d) 0

/-- `sparse_vector` as a vector type; `update_degree` only writes the unused member, and so does
`resize_to_degree` (`free_tensor.h:788-794`). -/
def ops : VecOps K (Sparse K) where
  new := []
  single := fun k s => some (single k s)
  read := fun m k => some (read m k)
  modify := fun m k f => some (modify m k f)
  empty := List.isEmpty
  clear := fun _ => []
  unary := unary
  unaryInplace := unary
  binary := binaryInplace
  binaryInplace := binaryInplace
  binarySelf := binarySelf
  beq := beq
  items := some
  size := List.length
  degree := degree
  setDegree := fun m _ => m
  resizeToDegree := fun m _ => some m

end Sparse

/-! ## Dense vectors -/

/-- `dense_vector_base` (`dense_vector.h:42-311`). -/
structure Dense (K : Type) where
  storage : List K
  degree : ℕ
deriving DecidableEq, Repr

namespace Dense
variable [Zero K] [DecidableEq K]

/-- `resize_exact` (`dense_vector.h:129-133`). -/
def resizeExact (v : Dense K) (n degree : ℕ) : Dense K :=
  ⟨v.storage.take n ++ List.replicate (n - v.storage.length) 0, degree⟩

/-- `resize` (`dense_vector.h:146-150`). -/
def resize (B : Basis) (v : Dense K) (n : ℕ) : Dense K :=
  v.resizeExact (B.nextDimension n).1 (B.nextDimension n).2

/-- const `operator[]` (`dense_vector.h:198-202`): unchecked. -/
def read (B : Basis) (v : Dense K) (k : Key) : Option K := do
  let i ← B.keyToIndex k
  v.storage[i]?

/-- `m_storage[i]` replaced -/
def update (v : Dense K) (i : ℕ) (f : K → K) : Option (Dense K) := do
  let x ← v.storage[i]?
  some { v with storage := v.storage.set i (f x) }

/-- mutable `operator[]` (`dense_vector.h:190-196`) and an assignment -/
def modify (B : Basis) (v : Dense K) (k : Key) (f : K → K) : Option (Dense K) := do
  let i ← B.keyToIndex k
  let v := if i ≥ v.storage.length then v.resize B i else v
  v.update i f

/-- constructor from a basis -/
def new : Dense K := ⟨[], 0⟩

/-- constructor from key and scalar (`dense_vector.h:69-75`) -/
def single (B : Basis) (k : Key) (s : K) : Option (Dense K) := do
  let i ← B.keyToIndex k
  ((new : Dense K).resize B i).update i fun _ => s

/-- `clear` (`dense_vector.h:207`) -/
def clear (v : Dense K) : Dense K := { v with storage := [] }

/-- `unary_op` (`dense_vector.h:211-225`), `inplace_unary_op` (`:227-234`) -/
def unary (op : K → K) (v : Dense K) : Dense K := { v with storage := v.storage.map op }

/-- `binary_op` (`dense_vector.h:236-264`) -/
def binary (op : K → K → K) (a b : Dense K) : Dense K :=
  let mid := min a.storage.length b.storage.length
  { storage := List.zipWith op a.storage b.storage ++ (a.storage.drop mid).map (fun x => op x 0)
      ++ (b.storage.drop mid).map (fun x => op 0 x)
    degree := max a.degree b.degree }

/-- the loops of `inplace_binary_op` (`dense_vector.h:278-286`) on storage `a` that is at least
as long as `b`; `mid` is the smaller of the original lengths -/
def combine (op : K → K → K) (a b : List K) (mid lhsSize : ℕ) : List K :=
  List.zipWith op (a.take mid) b
    ++ ((a.drop mid).take (lhsSize - mid)).map (fun x => op x 0)
    ++ List.zipWith op (a.drop (max mid lhsSize)) (b.drop mid)

/-- `inplace_binary_op` (`dense_vector.h:266-289`); the loops read each position of `rhs` before
writing the same position, so that `rhs` may be the vector itself. -/
def binaryInplace (op : K → K → K) (a b : Dense K) : Dense K :=
  let n := a.storage.length
  let m := b.storage.length
  let a := if m > n then a.resizeExact m b.degree else a
  { a with storage := combine op a.storage b.storage (min n m) n }

/-- `operator==` (`dense_vector.h:291-310`) -/
def beq (a b : Dense K) : Bool :=
  let mid := min a.storage.length b.storage.length
  decide (a.storage.take mid = b.storage.take mid)
    && (a.storage.drop mid).all (fun x => decide (x = 0))
    && (b.storage.drop mid).all (fun x => decide (x = 0))

/-- iteration with `dense_vector_const_iterator` from key `k` (`dense_vector.h:401-456`) -/
def itemsFrom (B : Basis) : List K → Key → Option (List (Key × K))
  | [], _ => some []
  | x :: xs, k => do
    let k' ← B.advanceKey k
    let rest ← itemsFrom B xs k'
    some ((k, x) :: rest)

/-- iteration over a const vector (`dense_vector.h:161-176`, `:427-430`) -/
def items (B : Basis) (v : Dense K) : Option (List (Key × K)) := do
  let k ← B.indexToKey 0
  itemsFrom B v.storage k

/-- `size()` (`dense_vector.h:178-185`): the number of non-zero entries -/
def size (v : Dense K) : ℕ := v.storage.countP fun x => decide (x ≠ 0)

/-- `free_tensor::resize_to_degree` for dense vectors (`free_tensor.h:771-786`) -/
def resizeToDegree (B : Basis) (v : Dense K) (degree : ℕ) : Option (Dense K) := do
  let s ← B.sizes[degree]?
  some { v.resize B (s - 1) with degree := degree }

/-- `dense_vector` as a vector type -/
def ops (B : Basis) : VecOps K (Dense K) where
  new := new
  single := single B
  read := read B
  modify := modify B
  empty := fun v => v.storage.isEmpty
  clear := clear
  unary := unary
  unaryInplace := unary
  binary := binary
  binaryInplace := binaryInplace
  binarySelf := fun op v => some (binaryInplace op v v)
  beq := beq
  items := items B
  size := size
  degree := degree
  setDegree := fun v d => { v with degree := d }
  resizeToDegree := resizeToDegree B

end Dense

/-! ## Vector arithmetic (`vector.h`) -/

namespace VecOps
variable [Field K] [DecidableEq K] (V : VecOps K T)

/-- `operator-(v)` (`vector.h:500-506`) -/
def neg (v : T) : T := V.unary (fun s => -s) v
/-- `v * s` (`vector.h:508-519`) -/
def smul (v : T) (c : K) : T := V.unary (fun s => s * c) v
/-- `v / s` (`vector.h:534-541`) -/
def sdiv (v : T) (c : K) : Option T := if c = 0 then none else some (V.unary (fun s => s / c) v)
/-- `a + b` (`vector.h:543-553`) -/
def add (a b : T) : T := V.binary (fun l r => l + r) a b
/-- `a - b` (`vector.h:555-562`) -/
def sub (a b : T) : T := V.binary (fun l r => l - r) a b
/-- `v *= s` (`vector.h:580-586`) -/
def smulInplace (v : T) (c : K) : T := V.unaryInplace (fun s => s * c) v
/-- `v /= s` (`vector.h:588-594`) -/
def sdivInplace (v : T) (c : K) : Option T :=
  if c = 0 then none else some (V.unaryInplace (fun s => s / c) v)
/-- `a += b` (`vector.h:596-602`) -/
def addInplace (a b : T) : T := V.binaryInplace (fun l r => l + r) a b
/-- `a -= b` (`vector.h:604-610`) -/
def subInplace (a b : T) : T := V.binaryInplace (fun l r => l - r) a b
/-- `a.add_scal_prod(b, s)` (`vector.h:353-360`) -/
def addScalProd (a b : T) (c : K) : T := V.binaryInplace (fun l r => l + r * c) a b
/-- `a.sub_scal_prod(b, s)` (`vector.h:369-376`) -/
def subScalProd (a b : T) (c : K) : T := V.binaryInplace (fun l r => l - r * c) a b
/-- `a.add_scal_div(b, s)` (`vector.h:361-368`) -/
def addScalDiv (a b : T) (c : K) : Option T :=
  if c = 0 then none else some (V.binaryInplace (fun l r => l + r / c) a b)
/-- `a.sub_scal_div(b, s)` (`vector.h:377-384`) -/
def subScalDiv (a b : T) (c : K) : Option T :=
  if c = 0 then none else some (V.binaryInplace (fun l r => l - r / c) a b)

end VecOps

/-! ## Multiplication -/

/-- An algebra: a vector type with the `fma` of its multiplication,
`fma out lhs rhs fn max_degree`. -/
structure AlgOps (K T : Type) extends VecOps K T where
  /-- `basis().depth()` -/
  depth : ℕ
  /-- `mult.fma(out, lhs, rhs, fn, max_deg)` -/
  fma : T → T → T → (K → K) → ℕ → Option T

/-- `asp_helper` (`algebra.h:476-485`): add a product of keys to the output. -/
def aspHelper [Ring K] (V : VecOps K T) (out : T) (keyProd : List (Key × ℤ)) (s : K) :
    Option T :=
  loop keyProd out fun out e => V.modify out e.1 fun x => x + (e.2 : K) * s

/-- The graded `base_multiplication::fma` (`algebra.h:540-575`) with the helper of
`algebra.h:268-320`.  Iteration visits the keys of `rhs` in increasing order already, so the sort
leaves them alone; `degree_range d` is the initial part up to the first key of degree above `d`,
and is empty for negative `d`.  The argument `max_deg` is not used. -/
def gradedFma [Ring K] (V : VecOps K T) (depth : ℕ)
    (prod : Key → Key → Option (List (Key × ℤ))) (out lhs rhs : T) (fn : K → K) (_maxDeg : ℕ) :
    Option T := do
  let right ← V.items rhs
  let outDeg := min depth (V.degree lhs + V.degree rhs)
  let out := V.setDegree out outDeg
  let left ← V.items lhs
  loop left out fun out l =>
    loop (if l.1.deg ≤ outDeg then right.takeWhile (fun r => decide (r.1.deg ≤ outDeg - l.1.deg))
        else []) out fun out r => do
      let p ← prod l.1 r.1
      aspHelper V out p (fn (l.2 * r.2))

/-- `free_tensor_multiplier::operator()` (`algebra/free_tensor_multiplier.cpp:13-25`) with
`concat_product` (`free_tensor.h:278-287`). -/
def concatProduct (w depth : ℕ) (l r : Key) : Option (List (Key × ℤ)) :=
  if l.deg + r.deg ≤ depth then do
    let shift ← (tensorPowers w depth)[r.deg]?
    some [(⟨l.deg + r.deg, l.idx * shift + r.idx⟩, 1)]
  else some []

/-- `fma_dense_traditional` (`free_tensor.h:320-351`); the output pointer advances through
`i * range_sizes.second + j`. -/
def fmaDenseTraditional [CommRing K] (w depth : ℕ) (lhsDeg rhsDeg : ℕ) (fn : K → K)
    (outDegree : ℕ) (out lhs rhs : Buf K) : Option (Buf K) :=
  loop (degreesDown outDegree 0) out fun out od => do
    let lhsMin : ℤ := max 0 ((od : ℤ) - rhsDeg)
    let lhsMax : ℤ := min od lhsDeg
    let o ← tensorStart w depth od
    loop (degreesDown lhsMax lhsMin) out fun out ld => do
      let l ← tensorStart w depth ld
      let r ← tensorStart w depth (od - ld)
      let ls ← (tensorPowers w depth)[ld]?
      let rs ← (tensorPowers w depth)[od - ld]?
      mulAccumulate fn ⟨o, ls * rs⟩ ⟨l, ls⟩ ⟨r, rs⟩ (fun _ i => lhs.read i) rhs out

/-- `free_tensor_multiplication::fma` for dense vectors (`free_tensor.h:509-537`).  The helper
(`free_tensor.h:104-128`) reads `powers[1]`. -/
def denseFma [CommRing K] [DecidableEq K] (w depth : ℕ) (out lhs rhs : Dense K) (fn : K → K)
    (maxDegree : ℕ) : Option (Dense K) := do
  let maxDegree := if maxDegree ≥ depth then depth else maxDegree
  let outDegree := min maxDegree (lhs.degree + rhs.degree)
  let outSize ← (tensorSizes w depth)[outDegree]?
  let out := if out.size < outSize then out.resize (tensorBasis w depth) (outSize - 1) else out
  let _ ← (tensorPowers w depth)[1]?
  let b ← fmaDenseTraditional w depth lhs.degree rhs.degree fn outDegree (Buf.ofList out.storage)
    (Buf.ofList lhs.storage) (Buf.ofList rhs.storage)
  some { out with storage := b.toList }

/-- free tensors on sparse vectors -/
def sparseTensor [CommRing K] [DecidableEq K] (w depth : ℕ) : AlgOps K (Sparse K) where
  toVecOps := Sparse.ops
  depth := depth
  fma := gradedFma Sparse.ops depth (concatProduct w depth)

/-- free tensors on dense vectors -/
def denseTensor [CommRing K] [DecidableEq K] (w depth : ℕ) : AlgOps K (Dense K) where
  toVecOps := Dense.ops (tensorBasis w depth)
  depth := depth
  fma := denseFma w depth

namespace AlgOps
variable [Field K] [DecidableEq K] (A : AlgOps K T)

/-- `base_multiplication::multiply_inplace` with a maximal degree (`algebra.h:588-602`). -/
def multiplyInplace (left right : T) (op : K → K) (maxDeg : ℕ) : Option T :=
  if !A.empty left && !A.empty right then
    A.fma (A.setDegree A.new (min (A.degree left + A.degree right) maxDeg)) left right op maxDeg
  else some (A.clear left)

/-- `lhs * rhs` (`algebra.h:894-911`). -/
def mul (lhs rhs : T) : Option T :=
  if !A.empty lhs && !A.empty rhs then A.fma A.new lhs rhs (fun s => s) A.depth else some A.new

/-- `lhs *= rhs` (`algebra.h:913-932`). -/
def mulInplace (lhs rhs : T) : Option T :=
  if A.empty rhs then some (A.clear lhs)
  else if !A.empty lhs then A.multiplyInplace lhs rhs (fun s => s) A.depth
  else some lhs

/-- `commutator` (`algebra.h:934-954`). -/
def commutator (lhs rhs : T) : Option T :=
  if !A.empty lhs && !A.empty rhs then do
    let r ← A.fma A.new lhs rhs (fun s => s) A.depth
    A.fma r rhs lhs (fun s => -s) A.depth
  else some A.new

/-- the free function `multiply` (`algebra.h:958-966`) -/
def multiplyFree (lhs rhs : T) : Option T := A.fma A.new lhs rhs (fun s => s) A.depth

/-- `out.add_mul(lhs, rhs)` (`algebra.h:746-754`). -/
def addMul (out lhs rhs : T) : Option T := A.fma out lhs rhs (fun s => s) A.depth

/-- `out.sub_mul(lhs, rhs)` (`algebra.h:755-763`). -/
def subMul (out lhs rhs : T) : Option T := A.fma out lhs rhs (fun s => -s) A.depth

/-- `lhs.mul_scal_prod(rhs, s)` (`algebra.h:765-773`). -/
def mulScalProd (lhs rhs : T) (c : K) : Option T :=
  A.multiplyInplace lhs rhs (fun s => s * c) A.depth

/-- `lhs.mul_scal_div(rhs, s, degree)` (`algebra.h:774-793`). -/
def mulScalDiv (lhs rhs : T) (c : K) (degree : ℕ) : Option T :=
  if c = 0 then none else A.multiplyInplace lhs rhs (fun s => s / c) degree

/-! ## Free tensors -/

/-- `free_tensor::fmexp_inplace` (`free_tensor.h:823-837`); `fmexp` (`:839-854`) does the same
on a copy. -/
def fmexp (self arg : T) : Option T := do
  let x ← A.modify arg ⟨0, 0⟩ fun _ => 0
  let result ← A.resizeToDegree self A.depth
  loop (degreesDown A.depth 1) result fun result i => do
    let result ← A.mulScalDiv result x (i : K) (A.depth - i + 1)
    some (A.addInplace result self)

/-- `exp` (`free_tensor.h:856-871`). -/
def exp (arg : T) : Option T := do
  let result ← A.single ⟨0, 0⟩ 1
  let one ← A.single ⟨0, 0⟩ 1
  let result ← A.resizeToDegree result A.depth
  loop (degreesDown A.depth 1) result fun result i => do
    let result ← A.mulScalDiv result arg (i : K) A.depth
    some (A.addInplace result one)

/-- `log` (`free_tensor.h:873-894`). -/
def log (arg : T) : Option T := do
  let x ← A.modify arg ⟨0, 0⟩ fun _ => 0
  let result ← A.resizeToDegree A.new A.depth
  let one ← A.single ⟨0, 0⟩ 1
  loop (degreesDown A.depth 1) result fun result i => do
    let result ← if i % 2 = 0 then A.subScalDiv result one (i : K)
      else A.addScalDiv result one (i : K)
    A.mulInplace result x

/-- `inverse` (`free_tensor.h:896-915`). -/
def inverse (arg : T) : Option T := do
  let a ← A.read arg ⟨0, 0⟩
  if a = 0 then none
  else
    let x ← A.modify arg ⟨0, 0⟩ fun _ => 0
    let aInverse ← A.single ⟨0, 0⟩ (1 / a)
    let result ← A.resizeToDegree aInverse A.depth
    let z ← A.sdiv x a
    loop (List.range A.depth) result fun result _ => do
      let p ← A.mul z result
      some (A.add aInverse p)

end AlgOps

end RoughPy.Lite
