import Verif.Lite.ContextModel

/-!
# Model of the sizes of a context

`/repo/algebra/src/context.cpp:91-139`, `/repo/algebra/src/hall_set_size.h`,
`/repo/algebra/src/hall_set_size.cpp` and the methods `lie_size`, `tensor_size` of Python contexts
(`/repo/roughpy/src/algebra/context.cpp:48-114`).

`none` stands for reading or writing outside an array, reading a value that was not written, and
for code that does not return.  The arithmetic of `dimn_t` is that of unsigned 64-bit numbers;
degrees are unbounded.
-/

namespace RoughPy.Lite

open RoughPy.Tensor (loop degreesUp)

/-- conversion to `dimn_t` -/
def toDimn (x : ℤ) : ℕ := (x % 2 ^ 64).toNat

/-! ## `HallSetSizeHelper` -/

/-- `m_mobius` (`hall_set_size.h:56-60`) -/
def mobiusValues : List ℤ :=
  [0,
    1, -1, -1, 0, -1, 1, -1, 0, 0, 1, -1, 0, -1, 1, 1, 0, -1,
    0, -1, 0, 1, 1, -1, 0, 0, 1, 0, 0, -1, -1, -1, 0, 1, 1,
    1, 0, -1, 1, 1, 0, -1, -1, -1, 0, 0, 1, -1, 0, 0, 0]

/-- A loop `for (i = …, m = i * c; m <= depth; ++i)` (`hall_set_size.cpp:72-79`): `m` is not changed
by the loop. -/
def fixedLoop {S : Type} (depth m : ℕ) (body : S → Option S) : ℕ → S → Option S
  | 0, _ => none
  | fuel + 1, s => if m ≤ depth then do fixedLoop depth m body fuel (← body s) else some s

/-- assignment to an element of an array -/
def writeAt {S : Type} (l : List S) (i : ℕ) (x : S) : Option (List S) :=
  if i < l.length then some (l.set i x) else none

/-- The sieve (`hall_set_size.cpp:44-58`): the numbers below `bound` that are not crossed out. -/
def sievePrimes (bound : ℕ) : Option (List ℕ) := do
  let tmp ← writeAt (List.replicate bound true) 0 false
  let tmp ← loop (degreesUp 2 (bound - 1)) tmp fun tmp i =>
    loop ((degreesUp 2 (bound - 1)).filter fun j => decide (i * j < bound)) tmp fun tmp j =>
      writeAt tmp (i * j) false
  loop (degreesUp 2 (bound - 1)) [] fun primes i => do
    let p ← tmp[i]?
    some (if p then primes ++ [i] else primes)

/-- The constructor (`hall_set_size.cpp:40-88`): the values of the Möbius function it prepares. -/
def mobiusInit (depth fuel : ℕ) : Option (List ℤ) :=
  if depth > mobiusValues.length then do
    let primes ← sievePrimes (depth / 2)
    let oldSize := mobiusValues.length
    let mobius := mobiusValues ++ List.replicate (depth + 1 - oldSize) 1
    let mobius ← loop primes mobius fun mobius prime => do
      let m := (oldSize / prime + 1) * prime
      let mobius ← fixedLoop depth m (fun (mobius : List ℤ) => do
        writeAt mobius m ((← mobius[m]?) * -prime)) fuel mobius
      let m := (oldSize / (prime * prime) + 1) * (prime * prime)
      fixedLoop depth m (fun (mobius : List ℤ) => writeAt mobius m 0) fuel mobius
    loop (degreesUp (oldSize + 1) depth) mobius fun mobius i => do
      let x ← mobius[i]?
      let x := if x.natAbs ≠ i then -x else x
      writeAt mobius i x.sign
  else some mobiusValues

/-- `power` (`hall_set_size.cpp:95-100`). -/
def hallPower (base : ℕ) : ℕ → ℕ → Option ℕ
  | 0, _ => none
  | fuel + 1, exp =>
    if exp = 1 then some base
    else do
      let h ← hallPower base fuel (exp / 2)
      some (toDimn ((if exp % 2 = 1 then base else 1) * h * h))

/-- `operator()` (`hall_set_size.cpp:102-117`), where `mobius` is `m_mobius`.  The assertion of debug
builds is left out. -/
def hallSize (mobius : List ℤ) (w k : ℕ) : Option ℕ := do
  let result ← loop (degreesUp 1 k) 0 fun (result : ℕ) i =>
    if k % i = 0 then do
      let x ← mobius[k / i]?
      let p ← hallPower w (k + 1) (k / (k / i))
      some (toDimn (result + toDimn (x * p)))
    else some result
  if k = 0 then none else some (result / k)

/-! ## `ContextBase` -/

/-- `ContextBase` (`algebra/include/roughpy/algebra/context.h:72-94`). -/
structure ContextSizes where
  width : ℕ
  depth : ℕ
  /-- `p_lie_sizes`; elements that were not written are `none` -/
  lieSizes : List (Option ℕ)
  /-- `p_tensor_sizes` -/
  tensorSizes : List (Option ℕ)

/-- reading an element of an array -/
def readAt (l : List (Option ℕ)) (i : ℕ) : Option ℕ := do (← l[i]?)

/-- The table of tensor sizes (`context.cpp:102-112`). -/
def defaultTensorSizes (w depth : ℕ) : Option (List (Option ℕ)) := do
  let sizes ← writeAt (List.replicate (1 + depth) none) 0 (some 1)
  let sizes ← writeAt sizes 1 (some (toDimn (1 + w)))
  loop (degreesUp 1 depth) sizes fun sizes i => do
    let x ← readAt sizes (i - 1)
    writeAt sizes i (some (toDimn (1 + x * w)))

/-- The table of sizes of Lie algebras (`context.cpp:114-125`). -/
def defaultLieSizes (w depth fuel : ℕ) : Option (List (Option ℕ)) := do
  let mobius ← mobiusInit depth fuel
  let sizes ← writeAt (List.replicate (1 + depth) none) 0 (some 0)
  let sizes ← writeAt sizes 1 (some w)
  loop (degreesUp 2 depth) sizes fun sizes i => do
    let x ← readAt sizes (i - 1)
    let n ← hallSize mobius w i
    writeAt sizes i (some (toDimn (n * x)))

/-- The constructor of `ContextBase` (`context.cpp:91-126`): tables that are not given are
computed. -/
def ContextSizes.new (w depth fuel : ℕ) (lie tensor : Option (List (Option ℕ))) :
    Option ContextSizes := do
  let tensor ← tensor.elim (defaultTensorSizes w depth) some
  let lie ← lie.elim (defaultLieSizes w depth fuel) some
  some ⟨w, depth, lie, tensor⟩

namespace ContextSizes

/-- degrees outside `0, …, depth` count as `depth` -/
def clip (c : ContextSizes) (deg : ℤ) : ℕ := if deg < 0 ∨ deg > c.depth then c.depth else deg.toNat

/-- `ContextBase::lie_size` (`context.cpp:130-134`). -/
def lieSize (c : ContextSizes) (deg : ℤ) : Option ℕ := readAt c.lieSizes (c.clip deg)

/-- `ContextBase::tensor_size` (`context.cpp:135-139`). -/
def tensorSize (c : ContextSizes) (deg : ℤ) : Option ℕ := readAt c.tensorSizes (c.clip deg)

/-- The outcome of a Python call: a number or a `ValueError`. -/
inductive PyResult where
  | value (n : ℕ)
  | valueError
deriving DecidableEq, Repr

/-- `RPyContext_lie_size` and `RPyContext_tensor_size`
(`roughpy/src/algebra/context.cpp:49-80`, `:83-114`), where `size` is the function they call.  The
argument is optional. -/
def pySize (c : ContextSizes) (size : ℤ → Option ℕ) (degree : Option ℤ) : Option PyResult :=
  let depth := degree.getD c.depth
  if depth < 0 then (size c.depth).map .value
  else if depth > c.depth then some .valueError
  else (size depth).map .value

/-- `Context.lie_size` -/
def pyLieSize (c : ContextSizes) (degree : Option ℤ) : Option PyResult := c.pySize c.lieSize degree

/-- `Context.tensor_size` -/
def pyTensorSize (c : ContextSizes) (degree : Option ℤ) : Option PyResult :=
  c.pySize c.tensorSize degree

end ContextSizes

/-- The base of a `LiteContext` (`lite_context.h:707-715`): it gives the tables of its bases. -/
def LiteCtx.sizes (c : LiteCtx) (fuel : ℕ) : Option ContextSizes :=
  ContextSizes.new c.width c.depth fuel (some (c.lieBasis.sizes.map some))
    (some (c.tensorBasis.sizes.map some))

end RoughPy.Lite
