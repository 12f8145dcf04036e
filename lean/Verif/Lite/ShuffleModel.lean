import Verif.Lite.ContextModel

/-!
# Model of the shuffle products of libalgebra_lite
(`/repo/vendored/libalgebra_lite/shuffle_tensor.h`, `algebra/half_shuffle_multiplier.cpp`,
`algebra/shuffle_multiplier.cpp`)

Each multiplication keeps the products of keys in a cache that belongs to the width: all bases of
that width, of any depth, share it.  Recursion is bounded by a parameter `fuel`; running out of it
gives `none`, like reading outside an array or dividing by zero.  Simplification: the integer
coefficients are unbounded; calls are not interrupted by other threads (the code declares a lock
and does not take it).
-/

namespace RoughPy.Lite

open RoughPy.Tensor (loop)

variable {K T U : Type}

/-! ## Products of keys -/

/-- The multiplication of two keys, changing a cache of type `C`. -/
abbrev CachedKeyOp (C : Type) := C → Key → Key → Option (Product × C)

/-- `m_cache` (`shuffle_tensor.h:306-308`, `:341-343`).  Entries are looked up with `find`, so an
entry can be present and empty. -/
abbrev ShuffleCache := Key × Key → Option Product

/-- the cache of a new multiplier -/
def ShuffleCache.fresh : ShuffleCache := fun _ => none

/-- `add` (`algebra.h:351-359`). -/
def Product.add (lhs rhs : Product) : Product :=
  rhs.foldl (fun m e => Product.accumulate m e.1 e.2) lhs.toMap

/-- `tensor_basis::lparent` (`tensor_basis.h:44-49`). -/
def lparent (w depth : ℕ) (k : Key) : Option Key :=
  if k.deg = 0 then some ⟨0, 0⟩
  else do
    let p ← (tensorPowers w depth)[k.deg - 1]?
    if p = 0 then none else some ⟨1, k.idx / p⟩

/-- `tensor_basis::rparent` (`tensor_basis.h:50-55`). -/
def rparent (w depth : ℕ) (k : Key) : Option Key :=
  if k.deg = 0 then some ⟨0, 0⟩
  else do
    let p ← (tensorPowers w depth)[k.deg - 1]?
    if p = 0 then none else some ⟨k.deg - 1, k.idx % p⟩

/-- `concat_product` (`free_tensor.h:278-287`). -/
def concatKeys (w depth : ℕ) (l r : Key) : Option Key := do
  let shift ← (tensorPowers w depth)[r.deg]?
  some ⟨l.deg + r.deg, l.idx * shift + r.idx⟩

/-- `split_at_right` (`half_shuffle_multiplier.cpp:101-119`). -/
def splitAtRight (w : ℕ) (k : Key) : Option (Key × Key) :=
  if k.deg = 0 then some (k, k)
  else if k.deg = 1 then some (⟨0, 0⟩, k)
  else if w = 0 then none
  else some (⟨k.deg - 1, k.idx / w⟩, ⟨1, k.idx % w⟩)

/-- `shuffle` of either half shuffle (`half_shuffle_multiplier.cpp:28-47`, `:152-169`), where `op`
is `operator()`.  The order of evaluation of the two arguments of `add` is unspecified; here the
first comes first. -/
def shuffleKeys (op : CachedKeyOp ShuffleCache) : CachedKeyOp ShuffleCache := fun cache lhs rhs =>
  if lhs.deg = 0 then some ([(rhs, 1)], cache)
  else if rhs.deg = 0 then some ([(lhs, 1)], cache)
  else do
    let l ← op cache lhs rhs
    let r ← op l.2 rhs lhs
    some (l.1.add r.1, r.2)

/-- `left_half_shuffle_tensor_multiplier::key_prod_impl` (`half_shuffle_multiplier.cpp:49-79`). -/
def leftHalfImpl (w depth : ℕ) (op : CachedKeyOp ShuffleCache) : CachedKeyOp ShuffleCache :=
  fun cache lhs rhs =>
  if lhs.deg + rhs.deg ≤ depth then
    if lhs.deg = 0 then some ([], cache)
    else if rhs.deg = 0 then some ([(lhs, 1)], cache)
    else do
      let lp ← lparent w depth lhs
      let rp ← rparent w depth lhs
      let part ← shuffleKeys op cache rp rhs
      let tmp ← loop part.1 ([] : SMap Key ℤ) fun m item => do
        let k ← concatKeys w depth lp item.1
        some (Product.accumulate m k item.2)
      some (tmp, part.2)
  else some ([], cache)

/-- `right_half_shuffle_tensor_multiplier::key_prod_impl`
(`half_shuffle_multiplier.cpp:121-151`). -/
def rightHalfImpl (w depth : ℕ) (op : CachedKeyOp ShuffleCache) : CachedKeyOp ShuffleCache :=
  fun cache lhs rhs =>
  if lhs.deg + rhs.deg ≤ depth then
    if lhs.deg = 0 then some ([], cache)
    else if rhs.deg = 0 then some ([(lhs, 1)], cache)
    else do
      let parents ← splitAtRight w rhs
      let part ← shuffleKeys op cache lhs parents.1
      let tmp ← loop part.1 ([] : SMap Key ℤ) fun m item => do
        let k ← concatKeys w depth item.1 parents.2
        some (Product.accumulate m k item.2)
      some (tmp, part.2)
  else some ([], cache)

/-- `operator()` of either half shuffle (`half_shuffle_multiplier.cpp:82-99`, `:171-189`), where
`impl` is `key_prod_impl`. -/
def halfLookup (depth : ℕ) (impl : CachedKeyOp ShuffleCache) : CachedKeyOp ShuffleCache :=
  fun cache lhs rhs =>
  if lhs.deg + rhs.deg > depth then some ([], cache)
  else
    match cache (lhs, rhs) with
    | some p => some (p, cache)
    | none => do
      let r ← impl cache lhs rhs
      some (r.1, Function.update r.2 (lhs, rhs) (some r.1))

/-- `left_half_shuffle_tensor_multiplier::operator()` -/
def leftHalf (w depth : ℕ) : ℕ → CachedKeyOp ShuffleCache
  | 0 => fun _ _ _ => none
  | fuel + 1 => halfLookup depth (leftHalfImpl w depth (leftHalf w depth fuel))

/-- `right_half_shuffle_tensor_multiplier::operator()` -/
def rightHalf (w depth : ℕ) : ℕ → CachedKeyOp ShuffleCache
  | 0 => fun _ _ _ => none
  | fuel + 1 => halfLookup depth (rightHalfImpl w depth (rightHalf w depth fuel))

/-- `shuffle_tensor_multiplier::operator()` (`shuffle_multiplier.cpp:40-52`), which inherits the
left half shuffle with a cache of its own. -/
def shuffleProd (w depth fuel : ℕ) : CachedKeyOp ShuffleCache := fun cache lhs rhs =>
  if lhs.deg + rhs.deg > depth then some ([], cache)
  else shuffleKeys (leftHalf w depth fuel) cache lhs rhs

/-! ## Products of vectors -/

/-- The graded `base_multiplication::fma` (`algebra.h:540-575`), see `gradedFma`; the products of
keys read and fill the cache.  The right factor may be of another vector type. -/
def cachedFma [Ring K] {C : Type} (V : VecOps K T) (W : VecOps K U) (depth : ℕ)
    (prod : CachedKeyOp C) (cache : C) (out lhs : T) (rhs : U) (fn : K → K) : Option (T × C) := do
  let right ← W.items rhs
  let outDeg := min depth (V.degree lhs + W.degree rhs)
  let out := V.setDegree out outDeg
  let left ← V.items lhs
  loop left (out, cache) fun (st : T × C) l =>
    loop (if l.1.deg ≤ outDeg then right.takeWhile (fun r => decide (r.1.deg ≤ outDeg - l.1.deg))
        else []) st fun (st : T × C) r => do
      let p ← prod st.2 l.1 r.1
      let out ← aspHelper V st.1 p.1 (fn (l.2 * r.2))
      some (out, p.2)

/-- `multiply` (`algebra.h:958-966`): the product in a new vector like the left factor. -/
def multiplyWith [Ring K] {C : Type} (V : VecOps K T) (W : VecOps K U) (depth : ℕ)
    (prod : CachedKeyOp C) (cache : C) (lhs : T) (rhs : U) : Option (T × C) :=
  cachedFma V W depth prod cache V.new lhs rhs fun s => s

/-- A product of a kind of shuffle tensors (`shuffle_tensor.h:406-424`): `lhs * rhs`
(`algebra.h:894-911`). -/
def shuffleMul [Ring K] (V : VecOps K T) (w depth fuel : ℕ) (cache : ShuffleCache) (lhs rhs : T) :
    Option (T × ShuffleCache) :=
  if !V.empty lhs && !V.empty rhs then
    cachedFma V V depth (shuffleProd w depth fuel) cache V.new lhs rhs fun s => s
  else some (V.new, cache)

/-- `base_multiplication::multiply_inplace` (`algebra.h:588-602`) of shuffle tensors. -/
def shuffleMultiplyInplace [Ring K] (V : VecOps K T) (w depth fuel : ℕ) (cache : ShuffleCache)
    (left right : T) (op : K → K) : Option (T × ShuffleCache) :=
  if !V.empty left && !V.empty right then
    cachedFma V V depth (shuffleProd w depth fuel) cache
      (V.setDegree V.new (min (V.degree left + V.degree right) depth)) left right op
  else some (V.clear left, cache)

/-- `lhs *= rhs` (`algebra.h:913-932`) of shuffle tensors. -/
def shuffleMulInplace [Ring K] (V : VecOps K T) (w depth fuel : ℕ) (cache : ShuffleCache)
    (lhs rhs : T) : Option (T × ShuffleCache) :=
  if V.empty rhs then some (V.clear lhs, cache)
  else if !V.empty lhs then shuffleMultiplyInplace V w depth fuel cache lhs rhs fun s => s
  else some (lhs, cache)

/-! ## The functions of the context -/

variable [CommRing K] [DecidableEq K]

/-- `UnspecifiedFunctionInvoker::eval` (`unspecified_algebra_binary_op.h`) on two tensors: the
function is called on vectors of their storage types; the result is like the first.
Simplification: free tensors and shuffle tensors hold the same vectors and are not told apart. -/
def Stored.multiplyWith {C : Type} (w depth : ℕ) (prod : CachedKeyOp C) (cache : C) :
    Stored K → Stored K → Option (Stored K × C)
  | .sparse a, .sparse b => do
    let r ← RoughPy.Lite.multiplyWith (Sparse.ops : VecOps K _) (Sparse.ops : VecOps K _) depth prod
      cache a b
    some (.sparse r.1, r.2)
  | .sparse a, .dense b => do
    let r ← RoughPy.Lite.multiplyWith (Sparse.ops : VecOps K _) (Dense.ops (tensorBasis w depth))
      depth prod cache a b
    some (.sparse r.1, r.2)
  | .dense a, .sparse b => do
    let r ← RoughPy.Lite.multiplyWith (Dense.ops (tensorBasis w depth)) (Sparse.ops : VecOps K _)
      depth prod cache a b
    some (.dense r.1, r.2)
  | .dense a, .dense b => do
    let r ← RoughPy.Lite.multiplyWith (Dense.ops (tensorBasis w depth))
      (Dense.ops (tensorBasis w depth)) depth prod cache a b
    some (.dense r.1, r.2)

/-- `LiteContext::shuffle_multiply` (`lite_context.h:989-1002`) with `shuffle_multiply`
(`shuffle_tensor.h:457-464`). -/
def shuffleMultiply (w depth fuel : ℕ) (cache : ShuffleCache) (l r : Stored K) :
    Option (Stored K × ShuffleCache) :=
  Stored.multiplyWith w depth (shuffleProd w depth fuel) cache l r

/-- `LiteContext::half_shuffle_multiply` (`lite_context.h:1003-1015`) with `half_shuffle_multiply`
(`shuffle_tensor.h:448-455`), the left half shuffle (`:389`). -/
def halfShuffleMultiply (w depth fuel : ℕ) (cache : ShuffleCache) (l r : Stored K) :
    Option (Stored K × ShuffleCache) :=
  Stored.multiplyWith w depth (leftHalf w depth fuel) cache l r

/-- `right_half_shuffle_multiply` (`shuffle_tensor.h:438-446`). -/
def rightHalfShuffleMultiply (w depth fuel : ℕ) (cache : ShuffleCache) (l r : Stored K) :
    Option (Stored K × ShuffleCache) :=
  Stored.multiplyWith w depth (rightHalf w depth fuel) cache l r

/-- `lhs * rhs` of two shuffle tensors of the same storage type.  Simplification: for different
storage types the right factor is converted first; not modelled. -/
def Stored.shuffleMul (w depth fuel : ℕ) (cache : ShuffleCache) :
    Stored K → Stored K → Option (Stored K × ShuffleCache)
  | .sparse a, .sparse b => do
    let r ← RoughPy.Lite.shuffleMul (Sparse.ops : VecOps K _) w depth fuel cache a b
    some (.sparse r.1, r.2)
  | .dense a, .dense b => do
    let r ← RoughPy.Lite.shuffleMul (Dense.ops (tensorBasis w depth)) w depth fuel cache a b
    some (.dense r.1, r.2)
  | _, _ => none

/-- `lhs *= rhs` of two shuffle tensors of the same storage type. -/
def Stored.shuffleMulInplace (w depth fuel : ℕ) (cache : ShuffleCache) :
    Stored K → Stored K → Option (Stored K × ShuffleCache)
  | .sparse a, .sparse b => do
    let r ← RoughPy.Lite.shuffleMulInplace (Sparse.ops : VecOps K _) w depth fuel cache a b
    some (.sparse r.1, r.2)
  | .dense a, .dense b => do
    let r ← RoughPy.Lite.shuffleMulInplace (Dense.ops (tensorBasis w depth)) w depth fuel cache a b
    some (.dense r.1, r.2)
  | _, _ => none

end RoughPy.Lite
