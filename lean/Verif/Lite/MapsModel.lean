import Verif.Lite.LieModel

/-!
# Model of the maps between Lie elements and tensors of libalgebra_lite
(`/repo/vendored/libalgebra_lite/maps.h`, `maps.cpp`, `hall_set.h`)

A `maps` object remembers the expansions of Lie keys and the bracketings of tensor keys it has
computed; the products of Lie keys are remembered by the multiplier of the width, which all
contexts of that width share.  Recursion is bounded by `fuel`; running out of it gives `none`, like
reading outside an array or dividing by zero.

Simplifications: integer coefficients are unbounded; calls are not interrupted by other threads (locks
are held); the two recursive calls in one argument list are made from left to right (C++ leaves the order open);
the test that the widths agree is left out; allocation does not fail.
-/

namespace RoughPy.Lite

open RoughPy.Tensor (loop)

variable {K T : Type}

/-- Expansions or bracketings computed so far: `hall_extension::m_cache` (`hall_set.h:127`) or the
entries of `m_rbracketing_cache` that are `set` (`maps.h:41-45`, `:73-74`). -/
abbrev Memo := Key → Option Product

/-- What a `maps` object and the Lie multiplier remember. -/
structure MapsState where
  /-- `m_expand.m_cache` -/
  expanded : Memo
  /-- `m_rbracketing_cache` -/
  bracketed : Memo
  /-- the cache of the Lie multiplier of the width -/
  lie : LieCache

/-- `generic_commutator::operator()` (`maps.cpp:26-43`). -/
def genericCommutator (w depth : ℕ) (lhs rhs : Product) : Option Product :=
  loop lhs ([] : Product) fun m l =>
    loop rhs m fun m r => do
      let p ← concatProduct w depth l.1 r.1
      let m := p.foldl (fun m inner => Product.accumulate m inner.1 (inner.2 * l.2 * r.2)) m
      let q ← concatProduct w depth r.1 l.1
      some (q.foldl (fun m inner => Product.accumulate m inner.1 (-(inner.2 * r.2 * l.2))) m)

/-- `maps_implementation::expand` (`maps.cpp:76-80`), which is `hall_extension::operator()`
(`hall_set.h:224-243`) for `expand_letter` (`maps.cpp:45-48`) and `generic_commutator`; the letter
of a key of degree one is its index plus one (`basis/hall_set.cpp:143-146`).  The assertion that
the degree is not zero is not compiled in. -/
def expand (w depth : ℕ) (hs : HallSet) : ℕ → Memo → Key → Option (Product × Memo)
  | 0 => fun _ _ => none
  | fuel + 1 => fun memo key =>
    match memo key with
    | some p => some (p, memo)
    | none =>
      if key.deg = 1 then
        some ([(⟨1, key.idx + 1 - 1⟩, 1)], Function.update memo key (some [(⟨1, key.idx + 1 - 1⟩, 1)]))
      else do
        let parents ← hs.parents key
        let l ← expand w depth hs fuel memo parents.1
        let r ← expand w depth hs fuel l.2 parents.2
        let p ← genericCommutator w depth l.1 r.1
        some (p, Function.update r.2 key (some p))

/-- `maps_implementation::rbracketing` (`maps.cpp:49-75`), with `tensor_basis::lparent` and
`rparent` (`tensor_basis.h:44-55`). -/
def rbracketing (w depth : ℕ) (hs : HallSet) (op : KeyOp) :
    ℕ → Memo × LieCache → Key → Option (Product × Memo × LieCache)
  | 0 => fun _ _ => none
  | fuel + 1 => fun st key =>
    if key.deg = 0 then some ([], st)
    else
      match st.1 key with
      | some p => some (p, st)
      | none =>
        if key.deg = 1 then
          some ([(⟨1, key.idx⟩, 1)], Function.update st.1 key (some [(⟨1, key.idx⟩, 1)]), st.2)
        else do
          let power ← (tensorPowers w depth)[key.deg - 1]?
          if power = 0 then none
          else
            let l ← rbracketing w depth hs op fuel st ⟨1, key.idx / power⟩
            let r ← rbracketing w depth hs op fuel l.2 ⟨key.deg - 1, key.idx % power⟩
            let p ← mulProducts op r.2.2 l.1 r.1
            some (p.1, Function.update r.2.1 key (some p.1), p.2)

/-- `maps::lie_to_tensor` (`maps.h:126-168`) for an element of a Lie algebra of depth `argDepth`
whose iteration yields `items`; `add_scal_prod(key, s)` adds to the coefficient of the key
(`vector.h:322-328`). -/
def lieToTensor [Ring K] (w depth : ℕ) (hs : HallSet) (fuel : ℕ) (V : VecOps K T) (st : MapsState)
    (argDepth : ℕ) (items : List (Key × K)) : Option (T × MapsState) :=
  loop items (V.new, st) fun (s : T × MapsState) outer =>
    if argDepth ≤ depth ∨ outer.1.deg ≤ depth then do
      let x ← expand w depth hs fuel s.2.expanded outer.1
      let out ← aspHelper V s.1 x.1 outer.2
      some (out, { s.2 with expanded := x.2 })
    else some s

/-- `maps::tensor_to_lie` (`maps.h:170-221`) for a tensor of depth `argDepth` whose iteration
yields `items`. -/
def tensorToLie [Field K] (w depth : ℕ) (hs : HallSet) (fuel : ℕ) (V : VecOps K T) (st : MapsState)
    (argDepth : ℕ) (items : List (Key × K)) : Option (T × MapsState) :=
  loop items (V.new, st) fun (s : T × MapsState) outer =>
    if 0 < outer.1.deg ∧ (argDepth ≤ depth ∨ outer.1.deg ≤ depth) then do
      let x ← rbracketing w depth hs (lieProd hs depth fuel) fuel (s.2.bracketed, s.2.lie) outer.1
      let out ← aspHelper V s.1 x.1 (outer.2 / (outer.1.deg : K))
      some (out, { s.2 with bracketed := x.2.1, lie := x.2.2 })
    else some s

end RoughPy.Lite
