import Verif.Lite.HallModel

/-!
# Model of the Lie product of libalgebra_lite (`/repo/vendored/libalgebra_lite/lie.h`,
`algebra/lie_multiplier.cpp`, `algebra.h`)

The products of keys are kept in a cache that belongs to the width: all bases of that width, of
any depth, share it.  Recursion is bounded by a parameter `fuel`; running out of it gives `none`,
like reading outside an array.  Simplification: the integer coefficients are unbounded; calls are
not interrupted by other threads (a lock is held).
-/

namespace RoughPy.Lite

open RoughPy.Tensor (loop degreesUp)

/-- `product_type` (`algebra.h:338`): keys with integer coefficients. -/
abbrev Product := List (Key × ℤ)

/-- `m_cache` (`lie.h:41-43`).  Looking a pair up creates an empty entry, and an empty entry counts
as missing (`algebra/lie_multiplier.cpp:58-61`), so a missing entry is an empty one. -/
abbrev LieCache := Key × Key → Product

/-- the cache of a new multiplier -/
def LieCache.fresh : LieCache := fun _ => []

namespace Product

/-- `uminus` (`algebra.h:341-349`). -/
def uminus (p : Product) : Product := p.map fun e => (e.1, -e.2)

/-- `tmp[key] += value` on a `std::map<key_type, int>`: zeros are kept. -/
def accumulate (m : SMap Key ℤ) (k : Key) (v : ℤ) : SMap Key ℤ :=
  match SMap.find m k with
  | some x => SMap.set m k (x + v)
  | none => SMap.set m k v

/-- `tmp.insert(begin, end)` on an empty `std::map`: the first entry of a key is kept. -/
def toMap (p : Product) : SMap Key ℤ :=
  p.foldl (fun m e => match SMap.find m e.1 with
    | some _ => m
    | none => SMap.set m e.1 e.2) []

/-- `sub` (`algebra.h:361-369`). -/
def sub (lhs rhs : Product) : Product :=
  rhs.foldl (fun m e => accumulate m e.1 (-e.2)) lhs.toMap

end Product

/-- The multiplication of two keys, changing the cache. -/
abbrev KeyOp := LieCache → Key → Key → Option (Product × LieCache)

/-- `mul(basis, reference, key)` (`algebra.h:371-383`).  The reference into the cache stays valid
and unchanged: only missing entries are written. -/
def mulKey (op : KeyOp) (cache : LieCache) (lhs : Product) (rhs : Key) :
    Option (Product × LieCache) :=
  loop lhs (([] : Product), cache) fun (st : Product × LieCache) outer => do
    let p ← op st.2 outer.1 rhs
    some (p.1.foldl (fun m inner => Product.accumulate m inner.1 (outer.2 * inner.2)) st.1, p.2)

/-- `mul(basis, reference, reference)` (`algebra.h:399-415`), which is `multiply_generic`
(`algebra.h:511-516`). -/
def mulProducts (op : KeyOp) (cache : LieCache) (lhs rhs : Product) :
    Option (Product × LieCache) :=
  loop lhs (([] : Product), cache) fun (st : Product × LieCache) l =>
    loop rhs st fun (st : Product × LieCache) r => do
      let p ← op st.2 l.1 r.1
      some (p.1.foldl (fun m inner => Product.accumulate m inner.1 (inner.2 * l.2 * r.2)) st.1,
        p.2)

/-- `lie_multiplier::key_prod_impl` (`algebra/lie_multiplier.cpp:17-45`); `lparent` and `rparent`
are the two parents (`hall_set.h:196-197`). -/
def keyProdImpl (hs : HallSet) (depth : ℕ) (op : KeyOp) (cache : LieCache) (lhs rhs : Key) :
    Option (Product × LieCache) :=
  if rhs < lhs then do
    let r ← op cache rhs lhs
    some (r.1.uminus, r.2)
  else if lhs.deg + rhs.deg > depth then some ([], cache)
  else
    match hs.find (lhs, rhs) with
    | some k => some ([(k, 1)], cache)
    | none => do
      let pr ← hs.parents rhs
      let l ← op cache lhs pr.1
      let resultLeft ← mulKey op l.2 l.1 pr.2
      let r ← op resultLeft.2 lhs pr.2
      let resultRight ← mulKey op r.2 r.1 pr.1
      some (resultLeft.1.sub resultRight.1, resultRight.2)

/-- `lie_multiplier::operator()` (`algebra/lie_multiplier.cpp:48-67`). -/
def lieProd (hs : HallSet) (depth : ℕ) : ℕ → KeyOp
  | 0 => fun _ _ _ => none
  | fuel + 1 => fun cache lhs rhs =>
    if lhs = rhs then some ([], cache)
    else if cache (lhs, rhs) ≠ [] then some (cache (lhs, rhs), cache)
    else do
      let r ← keyProdImpl hs depth (lieProd hs depth fuel) cache lhs rhs
      some (r.1, Function.update r.2 (lhs, rhs) r.1)

variable {K T : Type}

/-- A Lie algebra: vectors on the Hall basis with the graded `base_multiplication::fma` of
`lie_multiplication` (`lie.h:55-59`). -/
structure LieOps (K T : Type) extends VecOps K T where
  /-- `basis().depth()` -/
  depth : ℕ
  /-- the multiplier -/
  prod : KeyOp

namespace LieOps

/-- The graded `base_multiplication::fma` (`algebra.h:540-575`), see `gradedFma`; the products of
keys read and fill the cache. -/
def fma [Ring K] (A : LieOps K T) (cache : LieCache) (out lhs rhs : T) (fn : K → K)
    (_maxDeg : ℕ) : Option (T × LieCache) := do
  let right ← A.items rhs
  let outDeg := min A.depth (A.degree lhs + A.degree rhs)
  let out := A.setDegree out outDeg
  let left ← A.items lhs
  loop left (out, cache) fun (st : T × LieCache) l =>
    loop (if l.1.deg ≤ outDeg then right.takeWhile (fun r => decide (r.1.deg ≤ outDeg - l.1.deg))
        else []) st fun (st : T × LieCache) r => do
      let p ← A.prod st.2 l.1 r.1
      let out ← aspHelper A.toVecOps st.1 p.1 (fn (l.2 * r.2))
      some (out, p.2)

variable [Field K] [DecidableEq K] (A : LieOps K T)

/-- `base_multiplication::multiply_inplace` with a maximal degree (`algebra.h:588-602`). -/
def multiplyInplace (cache : LieCache) (left right : T) (op : K → K) (maxDeg : ℕ) :
    Option (T × LieCache) :=
  if !A.empty left && !A.empty right then
    A.fma cache (A.setDegree A.new (min (A.degree left + A.degree right) maxDeg)) left right op
      maxDeg
  else some (A.clear left, cache)

/-- `lhs * rhs` (`algebra.h:894-911`). -/
def mul (cache : LieCache) (lhs rhs : T) : Option (T × LieCache) :=
  if !A.empty lhs && !A.empty rhs then A.fma cache A.new lhs rhs (fun s => s) A.depth
  else some (A.new, cache)

/-- `lhs *= rhs` (`algebra.h:913-932`). -/
def mulInplace (cache : LieCache) (lhs rhs : T) : Option (T × LieCache) :=
  if A.empty rhs then some (A.clear lhs, cache)
  else if !A.empty lhs then A.multiplyInplace cache lhs rhs (fun s => s) A.depth
  else some (lhs, cache)

/-- `commutator` (`algebra.h:934-954`). -/
def commutator (cache : LieCache) (lhs rhs : T) : Option (T × LieCache) :=
  if !A.empty lhs && !A.empty rhs then do
    let r ← A.fma cache A.new lhs rhs (fun s => s) A.depth
    A.fma r.2 r.1 rhs lhs (fun s => -s) A.depth
  else some (A.new, cache)

/-- `out.add_mul(lhs, rhs)` (`algebra.h:746-754`). -/
def addMul (cache : LieCache) (out lhs rhs : T) : Option (T × LieCache) :=
  A.fma cache out lhs rhs (fun s => s) A.depth

/-- `out.sub_mul(lhs, rhs)` (`algebra.h:755-763`). -/
def subMul (cache : LieCache) (out lhs rhs : T) : Option (T × LieCache) :=
  A.fma cache out lhs rhs (fun s => -s) A.depth

/-- `lhs.mul_scal_prod(rhs, s)` (`algebra.h:765-773`). -/
def mulScalProd (cache : LieCache) (lhs rhs : T) (c : K) : Option (T × LieCache) :=
  A.multiplyInplace cache lhs rhs (fun s => s * c) A.depth

/-- `lhs.mul_scal_div(rhs, s)` (`algebra.h:774-783`). -/
def mulScalDiv (cache : LieCache) (lhs rhs : T) (c : K) : Option (T × LieCache) :=
  if c = 0 then none else A.multiplyInplace cache lhs rhs (fun s => s / c) A.depth

end LieOps

/-- Lie elements on sparse vectors -/
def sparseLie [Field K] [DecidableEq K] (hs : HallSet) (depth fuel : ℕ) :
    LieOps K (Sparse K) where
  toVecOps := Sparse.ops
  depth := depth
  prod := lieProd hs depth fuel

/-- Lie elements on dense vectors -/
def denseLie [Field K] [DecidableEq K] (hs : HallSet) (B : Basis) (fuel : ℕ) :
    LieOps K (Dense K) where
  toVecOps := Dense.ops B
  depth := B.depth
  prod := lieProd hs B.depth fuel

end RoughPy.Lite
