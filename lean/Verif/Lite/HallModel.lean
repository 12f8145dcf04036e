import Verif.Lite.Model
import Verif.Lie.Model

/-!
# Model of the Hall set of libalgebra_lite (`/repo/vendored/libalgebra_lite/hall_set.h`,
`basis/hall_set.cpp`)

Reading outside an array gives `none`.  Simplifications: degrees and indices are unbounded; the
members `letters` and `l2k` are left out, they are written but never read.
-/

namespace RoughPy.Lite

open RoughPy.Tensor (loop degreesUp)
open RoughPy.Lie (upTo)

/-- `hall_set` (`hall_set.h:51-101`). -/
structure HallSet where
  /-- `current_degree` -/
  current : ℕ
  /-- `data`: the parents of every key, by position -/
  data : List (Key × Key)
  /-- `reverse_map`: the key of a pair of parents -/
  reverse : Key × Key → Option Key
  /-- `degree_ranges`: the positions of the keys of every degree -/
  ranges : List (ℕ × ℕ)
  /-- `m_sizes` -/
  sizes : List ℕ

/-- `flat_map::insert` (as used in `basis/hall_set.cpp:61`, `:100`): an entry that is present is
kept. -/
def insertNew (m : Key × Key → Option Key) (p : Key × Key) (k : Key) : Key × Key → Option Key :=
  match m p with
  | some _ => m
  | none => Function.update m p (some k)

/-- What the loops of `grow_up` change for one degree. -/
structure GrowState where
  data : List (Key × Key)
  reverse : Key × Key → Option Key
  /-- `k_index` -/
  next : ℕ

/-- A new key (`basis/hall_set.cpp:97-100`). -/
def GrowState.push (d : ℕ) (parents : Key × Key) (st : GrowState) : GrowState :=
  ⟨st.data ++ [parents], insertNew st.reverse parents ⟨d, st.next⟩, st.next + 1⟩

namespace HallSet

/-- The body of the loop over degrees in `grow_up` (`basis/hall_set.cpp:84-116`). -/
def growDegree (hs : HallSet) (d : ℕ) : Option HallSet := do
  let st ← loop (degreesUp 1 (d / 2)) ⟨hs.data, hs.reverse, 0⟩ fun (st : GrowState) e => do
    let ir ← hs.ranges[e]?
    let jr ← hs.ranges[d - e]?
    loop (upTo ir.1 ir.2) st fun st i =>
      loop (upTo (max jr.1 (i + 1)) jr.2) st fun st j => do
        let row ← st.data[j]?
        if row.1 ≤ (⟨e, i - ir.1⟩ : Key) then
          some (st.push d (⟨e, i - ir.1⟩, ⟨d - e, j - jr.1⟩))
        else some st
  let last ← hs.ranges[hs.current]?
  some
    { current := hs.current + 1
      data := st.data
      reverse := st.reverse
      ranges := hs.ranges ++ [(last.2, st.data.length)]
      sizes := hs.sizes ++ [st.data.length - 1] }

/-- `grow_up` (`basis/hall_set.cpp:81-118`). -/
def growUp (hs : HallSet) (depth : ℕ) : Option HallSet :=
  loop (degreesUp (hs.current + 1) depth) hs growDegree

/-- The constructor up to the letters (`basis/hall_set.cpp:42-75`). -/
def letters (w : ℕ) : HallSet where
  current := 1
  data := (⟨0, 0⟩, ⟨0, 0⟩) :: (degreesUp 1 w).map fun l => (⟨0, 0⟩, ⟨1, l - 1⟩)
  reverse := (degreesUp 1 w).foldl (fun m l => insertNew m (⟨0, 0⟩, ⟨1, l - 1⟩) ⟨1, l - 1⟩)
    fun _ => none
  ranges := [(0, 1), (1, 1 + w)]
  sizes := [0, w]

/-- The constructor (`basis/hall_set.cpp:42-79`). -/
def new (w depth : ℕ) : Option HallSet :=
  if depth > 1 then (letters w).growUp depth else some (letters w)

/-- `size(deg)` for `deg ≥ 0` (`basis/hall_set.cpp:124-133`): degrees that are not there count
like the last one. -/
def size (hs : HallSet) (deg : ℕ) : Option ℕ :=
  if deg < hs.sizes.length then hs.sizes[deg]? else hs.sizes.getLast?

/-- `size_of_degree` (`basis/hall_set.cpp:138-142`). -/
def sizeOfDegree (hs : HallSet) (deg : ℕ) : Option ℕ := do
  let r ← hs.ranges[deg]?
  some (r.2 - r.1)

/-- `find` (`basis/hall_set.cpp:147-153`). -/
def find (hs : HallSet) (parents : Key × Key) : Option Key := hs.reverse parents

/-- `operator[](key)` (`basis/hall_set.cpp:158-167`), the parents of a key. -/
def parents (hs : HallSet) (k : Key) : Option (Key × Key) := do
  let r ← hs.ranges[k.deg]?
  hs.data[k.idx + r.1]?

/-- `index_of_key` (`basis/hall_set.cpp:177-181`): for the root it adds `size(-1)`, the last
size. -/
def startOf (hs : HallSet) (deg : ℕ) : Option ℕ :=
  match deg with
  | 0 => hs.sizes.getLast?
  | d + 1 => hs.size d

/-- `key_of_index` (`basis/hall_set.cpp:182-197`).  The sizes increase, so the binary search
`lower_bound(++begin, end, index, less_equal)` finds the first size greater than `index`. -/
def keyOfIndex (hs : HallSet) (index : ℕ) : Option Key :=
  match (hs.sizes.drop 1).findIdx? (fun s => decide (index < s)) with
  | none => some ⟨0, 0⟩
  | some i => do
    let before ← hs.sizes[i]?
    some ⟨i + 1, index - before⟩

/-- `hall_basis` (`hall_set.h:137-211`) as a graded basis. -/
def basis (hs : HallSet) (depth maxDim : ℕ) : Basis where
  depth := depth
  sizes := hs.sizes
  maxDim := maxDim
  startOf := hs.startOf
  indexToKey := hs.keyOfIndex
  levelSize := hs.sizeOfDegree

end HallSet

/-- `hall_basis(width, depth)` (`hall_set.h:155-159`): the Hall set and the graded basis; the
largest dimension is `size(-1)` (`hall_set.h:182-185`). -/
def hallBasis (w depth : ℕ) : Option (HallSet × Basis) := do
  let hs ← HallSet.new w depth
  let n ← hs.size depth
  some (hs, hs.basis depth n)

end RoughPy.Lite
