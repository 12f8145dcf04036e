import Verif.Tensor.Model

/-!
# Model of `LieBasis` and the Lie multiplication table (`/repo/roughpy/compute/_src`)

`npy_intp`, `int32_t` are unbounded integers here (sizes that overflow them cannot be allocated).
`none` stands for an access outside an array or to an uninitialised entry, a Python exception, and
for fuel that ran out in the recursive functions.
-/

namespace RoughPy.Lie

open RoughPy.Tensor (loop degreesUp)

/-! ## Dimensions -/

/-- `mobius_values_cache` — lie_basis.c:1722-1727. -/
def mobiusTable : List ℤ :=
  [0,
    1, -1, -1, 0, -1, 1, -1, 0, 0, 1,
    -1, 0, -1, 1, 1, 0, -1, 0, -1, 0,
    1, 1, -1, 0, 0, 1, 0, 0, -1, -1,
    -1]

/-- The loop over odd divisors in `mobius_func` and the two lines after it — lie_basis.c:1757-1772.
`fuel` bounds the number of iterations. -/
def mobiusLoop : ℕ → ℕ → ℕ → ℕ → Option ℤ
  | 0, _, _, _ => none
  | fuel + 1, n, d, factors =>
    if d * d ≤ n then
      if n % d = 0 then
        if n / d % d = 0 then some 0 else mobiusLoop fuel (n / d) (d + 2) (factors + 1)
      else mobiusLoop fuel n (d + 2) factors
    else
      let factors := if 1 < n then factors + 1 else factors
      some (if factors % 2 = 1 then -1 else 1)

/-- `mobius_func` — lie_basis.c:1730-1773. -/
def mobiusFunc (n : ℕ) : Option ℤ :=
  if n ≤ 0 then some 0
  else if n ≤ 31 then mobiusTable[n]?
  else if n % 2 = 0 then
    if n / 2 % 2 = 0 then some 0 else mobiusLoop (n / 2 + 1) (n / 2) 3 1
  else mobiusLoop (n + 1) n 3 0

/-- The loop of `int_pow` — lie_basis.c:1780-1784. -/
def intPowLoop : ℕ → ℤ → ℤ → ℕ → Option ℤ
  | 0, _, _, _ => none
  | fuel + 1, result, b, e =>
    if 0 < e then
      let result := if e % 2 = 1 then result * b else result
      let e := e / 2
      intPowLoop fuel result (if e ≠ 0 then b * b else b) e
    else some result

/-- `int_pow` — lie_basis.c:1775-1786. -/
def intPow (base : ℤ) (exp : ℕ) : Option ℤ := intPowLoop (exp + 1) 1 base exp

/-- `compute_lie_degree_dim` — lie_basis.c:1788-1803.  C division rounds towards zero. -/
def lieDegreeDim (width degree : ℕ) : Option ℤ :=
  if degree ≤ 0 then some 0
  else if degree = 1 then some width
  else do
    let sum ← loop (degreesUp 1 degree) (0 : ℤ) fun sum d => do
      if degree % d = 0 then
        let mu ← mobiusFunc d
        if mu ≠ 0 then
          let p ← intPow width (degree / d)
          some (sum + mu * p)
        else some sum
      else some sum
    some (sum.tdiv degree)

/-- `compute_lie_dim` — lie_basis.c:1804-1813. -/
def lieDim (width depth : ℕ) : Option ℤ :=
  loop (degreesUp 1 depth) (0 : ℤ) fun result d => do
    let n ← lieDegreeDim width d
    some (result + n)

/-! ## The Hall set -/

/-- A `LieBasis` object — lie_basis.c:19-29: `data` (the rows, pairs of parents) and
`degree_begin`. -/
structure Basis where
  width : ℕ
  depth : ℕ
  data : List (ℕ × ℕ)
  db : List ℕ
  deriving DecidableEq, Repr

/-- Write the next row of an array with `alloc` rows. -/
def push (alloc : ℕ) (data : List (ℕ × ℕ)) (row : ℕ × ℕ) : Option (List (ℕ × ℕ)) :=
  if data.length < alloc then some (data ++ [row]) else none

/-- The values of `i` in `for (i = lo; i < hi; ++i)`. -/
def upTo (lo hi : ℕ) : List ℕ := (List.range (hi - lo)).map fun i => lo + i

/-- The two inner loops of `construct_lie_basis` — lie_basis.c:271-280. -/
def pairLoop (alloc il iu jl ju : ℕ) (data : List (ℕ × ℕ)) : Option (List (ℕ × ℕ)) :=
  loop (upTo il iu) data fun data i =>
    loop (upTo (if jl < i + 1 then i + 1 else jl) ju) data fun data j => do
      let row ← data[j]?
      if row.1 ≤ i then push alloc data (i, j) else some data

/-- One value of `degree` in `construct_lie_basis` — lie_basis.c:263-283.  `degree_begin[degree+1]`
is written after every value of `left_degree`; the last write remains and none of them is read in
the loop. -/
def degreeStep (alloc : ℕ) (s : List (ℕ × ℕ) × List ℕ) (degree : ℕ) :
    Option (List (ℕ × ℕ) × List ℕ) := do
  let data ← loop (degreesUp 1 (degree / 2)) s.1 fun data left => do
    let il ← s.2[left]?
    let iu ← s.2[left + 1]?
    let jl ← s.2[degree - left]?
    let ju ← s.2[degree - left + 1]?
    pairLoop alloc il iu jl ju data
  some (data, s.2 ++ [data.length])

/-- The memory filled by `construct_lie_basis` — lie_basis.c:237-284 — in arrays of `alloc` rows and
`depth + 2` offsets.  For depth 0 `degree_begin[1]` is not written: the list has one entry. -/
def constructIn (alloc width depth : ℕ) : Option Basis := do
  let data ← push alloc [] (0, 0)
  if depth = 0 then some ⟨width, depth, data, [0]⟩
  else
    let data ← loop (degreesUp 1 width) data fun data letter => push alloc data (0, letter)
    let s ← loop (degreesUp 2 depth) (data, [0, 1, data.length]) (degreeStep alloc)
    some ⟨width, depth, s.1, s.2⟩

/-- `construct_lie_basis` — lie_basis.c:201-335. -/
def construct (width depth : ℕ) : Option Basis := do
  let n ← lieDim width depth
  constructIn (1 + n).toNat width depth

/-! ## Lookups -/

/-- `PyLieBasis_true_size` — lie_basis.c:618-623. -/
def Basis.trueSize (b : Basis) : Option ℕ := b.db[b.depth + 1]?

/-- `LieBasis.size()` — lie_basis.c:506-519. -/
def Basis.size (b : Basis) : Option ℤ := b.trueSize.map fun n => (n : ℤ) - 1

/-- The loop of `PyLieBasis_degree` — lie_basis.c:719-734. -/
def degreeLoop (db : List ℕ) (key : ℕ) : ℕ → ℕ → ℕ → Option ℕ
  | 0, _, _ => none
  | fuel + 1, pos, diff =>
    if 0 < diff then do
      let half := diff / 2
      let other := pos + half
      let d ← db[other]?
      if d ≤ key then degreeLoop db key fuel (other + 1) (diff - (half + 1))
      else degreeLoop db key fuel pos half
    else some pos

/-- `PyLieBasis_degree` — lie_basis.c:717-737. -/
def Basis.degree (b : Basis) (key : ℕ) : Option ℤ :=
  (degreeLoop b.db key (b.depth + 2) 0 (b.depth + 1)).map fun pos => (pos : ℤ) - 1

/-- `hall_word_less` — lie_basis.h:90-93. -/
def wordLess (a b : ℕ × ℕ) : Prop := a.1 < b.1 ∨ (a.1 = b.1 ∧ a.2 < b.2)

instance (a b : ℕ × ℕ) : Decidable (wordLess a b) := inferInstanceAs (Decidable (_ ∨ _))

/-- The loop of `PyLieBasis_find_word` — lie_basis.c:686-706: the position found, or the position
where the loop ends. -/
def findLoop (data : List (ℕ × ℕ)) (target : ℕ × ℕ) : ℕ → ℕ → ℕ → Option (ℕ ⊕ ℕ)
  | 0, _, _ => none
  | fuel + 1, pos, diff =>
    if 0 < diff then do
      let half := diff / 2
      let other := pos + half
      let test ← data[other]?
      if test = target then some (.inl other)
      else if wordLess test target then findLoop data target fuel (other + 1) (diff - (half + 1))
      else findLoop data target fuel pos half
    else some (.inr pos)

/-- `PyLieBasis_find_word` with a degree — lie_basis.c:661-715; the result -1 is `some none`.  The
row at the final position is read before the position is checked. -/
def Basis.findWord (b : Basis) (target : ℕ × ℕ) (degree : ℕ) : Option (Option ℕ) :=
  if b.depth < degree then some none
  else do
    let pos ← b.db[degree]?
    let stop ← b.db[degree + 1]?
    match ← findLoop b.data target (stop - pos + 1) pos (stop - pos) with
    | .inl k => some (some k)
    | .inr p =>
      let test ← b.data[p]?
      some (if p < stop ∧ test = target then some p else none)

/-- `PyLieBasis_get_parents` — lie_basis.c:645-659. -/
def Basis.parents (b : Basis) (key : ℕ) : Option (ℕ × ℕ) := do
  let n ← b.trueSize
  if key ≤ 0 ∨ n ≤ key then none else b.data[key]?

/-! ## The multiplication cache -/

/-- `LieMultiplicationCacheEntry` — lie_multiplication_cache.h: keys and integer coefficients. -/
abbrev Entry := List (ℕ × ℤ)

/-- `std::unordered_map<LieWord, LieCacheEntryPtr>` — lie_multiplication_cache.cpp:95-100; the inner
`none` is a null pointer (`operator[]` has inserted the key, the entry is being computed). -/
abbrev Cache := ℕ × ℕ → Option (Option Entry)

/-- `vals.emplace(key, 0)`, `+=`, `erase` if zero, on a `std::map` — lie_multiplication_cache.cpp:206-217. -/
def addVal : Entry → ℕ → ℤ → Entry
  | [], k, v => if v = 0 then [] else [(k, v)]
  | (k', v') :: r, k, v =>
    if k < k' then (if v = 0 then (k', v') :: r else (k, v) :: (k', v') :: r)
    else if k = k' then (if v' + v = 0 then r else (k', v' + v) :: r)
    else (k', v') :: addVal r k v

/-- `compute_bracket_half` — lie_multiplication_cache.cpp:178-221.  `get` is
`PyLieMultiplicationCache_get`. -/
def bracketHalf (get : Cache → ℕ × ℕ → Option (Entry × Cache)) (cache : Cache) (outer : ℕ × ℕ)
    (innerRight : ℕ) (sign : ℤ) (vals : Entry) : Option (Entry × Cache) := do
  let op ← get cache outer
  loop op.1 (vals, op.2) fun s term => do
    let ip ← get s.2 (term.1, innerRight)
    some (ip.1.foldl (fun vals t => addVal vals t.1 (sign * term.2 * t.2)) s.1, ip.2)

/-- `compute_bracket_slow` — lie_multiplication_cache.cpp:242-308 (memory of the entry not
modelled). -/
def bracketSlow (get : Cache → ℕ × ℕ → Option (Entry × Cache)) (b : Basis) (cache : Cache)
    (word : ℕ × ℕ) (sign : ℤ) : Option (Entry × Cache) := do
  let parents ← b.parents word.2
  let s ← if 0 < parents.1 ∧ word.1 ≠ parents.1 then
      bracketHalf get cache (word.1, parents.1) parents.2 sign []
    else some ([], cache)
  if word.1 ≠ parents.2 then bracketHalf get s.2 (word.1, parents.2) parents.1 (-sign) s.1
  else some s

/-- `compute_bracket` — lie_multiplication_cache.cpp:310-367. -/
def computeBracket (get : Cache → ℕ × ℕ → Option (Entry × Cache)) (b : Basis) (cache : Cache)
    (word : ℕ × ℕ) (degree : ℕ) : Option (Entry × Cache) := do
  let target := if word.2 < word.1 then (word.2, word.1) else word
  let sign : ℤ := if word.2 < word.1 then -1 else 1
  match ← b.findWord target degree with
  | some pos => if 0 < pos then some ([(pos, sign)], cache) else bracketSlow get b cache target sign
  | none => bracketSlow get b cache target sign

/-- `PyLieMultiplicationCache_get` — lie_multiplication_cache.cpp:369-434 (the cache belongs to the
width of the basis).  `fuel` bounds the depth of the recursion. -/
def get (b : Basis) : ℕ → Cache → ℕ × ℕ → Option (Entry × Cache)
  | 0, _, _ => none
  | fuel + 1, cache, word =>
    if word.1 = 0 ∨ word.2 = 0 then none
    else if word.1 = word.2 then some ([], cache)
    else do
      let ld ← b.degree word.1
      let rd ← b.degree word.2
      if (b.depth : ℤ) < ld + rd then some ([], cache)
      else
        let n ← b.trueSize
        if n ≤ word.1 ∨ n ≤ word.2 then some ([], cache)
        else
          match cache word with
          | some (some entry) => some (entry, cache)
          | _ =>
            let cache := Function.update cache word (some none)
            match cache (word.2, word.1) with
            | some (some entry) =>
              let entry := entry.map fun t => (t.1, -t.2)
              some (entry, Function.update cache word (some (some entry)))
            | some none => none
            | none => do
              let r ← computeBracket (get b fuel) b cache word (ld + rd).toNat
              some (r.1, Function.update r.2 word (some (some r.1)))

/-- A fresh cache. -/
def emptyCache : Cache := fun _ => none

end RoughPy.Lie
