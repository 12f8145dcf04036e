import Verif.Lite.ContextModel
import Verif.Tensor.Keys

/-!
# The antipode of a free tensor

Model of `antipode` (`vendored/libalgebra_lite/free_tensor.h:917-921`), which `FreeTensor.antipode()`
of Python calls (`algebra/src/libalgebra_lite_internal/free_tensor_impl.h:118`), and of
`antipode_helper` (`free_tensor.h:546-755`).  Dense tensors are treated level by level; from a
certain degree on by square tiles.  `none` is a read or a write outside an array.
-/

namespace RoughPy.Lite

open RoughPy.Tensor (reverseIdx loop)

variable {K : Type}

/-- `data[i] = x` for an array -/
def assignAt (data : List K) (i : ℕ) (x : K) : Option (List K) :=
  if i < data.length then some (data.set i x) else none

/-- `std::swap(tile[a], tile[b])` -/
def swapAt (data : List K) (p : ℕ × ℕ) : Option (List K) := do
  let x ← data[p.1]?
  let y ← data[p.2]?
  some ((data.set p.1 y).set p.2 x)

/-! ## `unpacked_tensor_word` -/

/-- `unpacked_tensor_word::advance` (`basis/unpacked_tensor_word.cpp:52-69`): the loop over the
positions from the last letter on, as a recursion.  Letters are of type `unsigned short`; the width
is at least 1 when there are letters. -/
def wordAdvance (w : ℕ) : List ℕ → ℕ → List ℕ
  | [], _ => []
  | l :: ls, number =>
    if (l + number) % 65536 ≥ w then
      ((l + number) % 65536 - (l + number) % 65536 / w * w) ::
        (if (l + number) % 65536 / w > 0 then wordAdvance w ls ((l + number) % 65536 / w) else ls)
    else (l + number) % 65536 :: ls

/-- `unpacked_tensor_word::to_reverse_index` (`basis/unpacked_tensor_word.cpp:103-111`). -/
def wordReverseIndex (w : ℕ) (data : List ℕ) : ℕ := data.foldl (fun r l => r * w + l) 0

/-! ## `antipode_helper` -/

/-- The members of `antipode_helper` (`free_tensor.h:555-562`) but for the buffer `tile`, of
`tileWidth * tileWidth` entries, and `do_signing`, which is always true. -/
structure AntipodeHelper where
  w : ℕ
  powers : List ℕ
  tileLetters : ℕ
  tileWidth : ℕ
  permute : List (ℕ × ℕ)

/-- The body of the loops that fill `permute` (`free_tensor.h:676-687`). -/
def permuteStep (w letters tileWidth i : ℕ) (st : List ℕ × List (ℕ × ℕ)) (j : ℕ) :
    List ℕ × List (ℕ × ℕ) :=
  let ri := reverseIdx w letters i
  let rj := reverseIdx w letters j
  let idx := i * tileWidth + j
  let ridx := rj * tileWidth + ri
  if ridx ≠ idx ∧ idx ∉ st.1 then (idx :: ridx :: st.1, st.2 ++ [(idx, ridx)]) else st

/-- `permute` and the set `seen` after the loops (`free_tensor.h:672-688`). -/
def permuteTable (w letters tileWidth : ℕ) : List ℕ × List (ℕ × ℕ) :=
  (List.range tileWidth).foldl (fun st i =>
    (List.range tileWidth).foldl (permuteStep w letters tileWidth i) st) ([], [])

/-- The constructor (`free_tensor.h:656-692`); `maxLetters` is `LAL_MAX_TILE_LETTERS`, or 3 if that
is not defined. -/
def AntipodeHelper.new (maxLetters w depth : ℕ) : Option AntipodeHelper :=
  if maxLetters = 0 then some ⟨w, tensorPowers w depth, 0, 0, []⟩
  else do
    let letters := min maxLetters (depth / 2)
    let tileWidth ← (tensorPowers w depth)[letters]?
    some ⟨w, tensorPowers w depth, letters, tileWidth,
      if tileWidth * tileWidth > 0 then (permuteTable w letters tileWidth).2 else []⟩

namespace AntipodeHelper
variable (h : AntipodeHelper)

/-- `read_tile` (`free_tensor.h:564-571`); `base` is the position of `src` in the storage. -/
def readTile (src : List K) (base stride : ℕ) (tile : List K) : Option (List K) :=
  loop (List.range h.tileWidth) tile fun tile i =>
    loop (List.range h.tileWidth) tile fun tile j => do
      let x ← src[base + (i * stride + j)]?
      assignAt tile (i * h.tileWidth + j) x

/-- `write_tile` (`free_tensor.h:573-580`).  The entries of the tile are moved from; each is
assigned to by `read_tile` before it is used again. -/
def writeTile (dst : List K) (base stride : ℕ) (tile : List K) : Option (List K) :=
  loop (List.range h.tileWidth) dst fun dst i =>
    loop (List.range h.tileWidth) dst fun dst j => do
      let x ← tile[i * h.tileWidth + j]?
      assignAt dst (base + (i * stride + j)) x

variable [Ring K]

/-- `handle_dense_untiled_level` (`free_tensor.h:582-611`). -/
def untiledLevel (src : List K) (base degree : ℕ) (dst : List K) : Option (List K) :=
  if degree = 0 then do
    let x ← src[base]?
    assignAt dst base x
  else if degree = 1 then
    loop (List.range h.w) dst fun dst i => do
      let x ← src[base + i]?
      assignAt dst (base + i) (-x)
  else do
    let n ← h.powers[degree]?
    loop (List.range n) dst fun dst i => do
      let x ← src[base + i]?
      assignAt dst (base + reverseIdx h.w degree i) (if degree % 2 ≠ 0 then -x else x)

/-- The body of the loop of `handle_dense_tiled_level` (`free_tensor.h:634-643`), with `sign_tile`
(`:620-623`) and `permute_tile` (`:613-618`). -/
def tileStep (src : List K) (base degree stride : ℕ) (st : List K × List K × List ℕ) (i : ℕ) :
    Option (List K × List K × List ℕ) := do
  let ridx := wordReverseIndex h.w st.2.2
  let tile ← h.readTile src (base + i * h.tileWidth) stride st.2.1
  let tile := if degree % 2 ≠ 0 then tile.map (fun x => -x) else tile
  let tile ← loop h.permute tile swapAt
  let dst ← h.writeTile st.1 (base + ridx * h.tileWidth) stride tile
  some (dst, tile, wordAdvance h.w st.2.2 1)

/-- `handle_dense_tiled_level` (`free_tensor.h:625-645`).  The tile is left with zeros at the start
of each level here; its contents do not matter. -/
def tiledLevel (src : List K) (base degree : ℕ) (dst : List K) : Option (List K) := do
  let middle := degree - 2 * h.tileLetters
  let stride ← h.powers[degree - h.tileLetters]?
  let n ← h.powers[middle]?
  let st ← loop (List.range n)
    (dst, List.replicate (h.tileWidth * h.tileWidth) 0, List.replicate middle 0)
    (h.tileStep src base degree stride)
  some st.1

/-- `untiled_levels` (`free_tensor.h:735-737`). -/
def untiledLevels (maxDegree : ℕ) : ℕ :=
  if h.tileLetters > 0 then min maxDegree (2 * h.tileLetters - 1) else maxDegree

/-- The body of the loops over the degrees (`free_tensor.h:739-752`): `base` is the distance of
`optr` and `iptr` from the beginning of the storages. -/
def levelStep (level : List K → ℕ → ℕ → List K → Option (List K)) (src : List K)
    (st : List K × ℕ) (deg : ℕ) : Option (List K × ℕ) := do
  let dst ← level src st.2 deg st.1
  let n ← h.powers[deg]?
  some (dst, st.2 + n)

/-- `handle_antipode` for dense vectors (`free_tensor.h:722-753`). -/
def dense [DecidableEq K] (arg : Dense K) : Option (Dense K) := do
  let result := (Dense.new : Dense K).resizeExact arg.storage.length 0
  let st ← loop (List.range (h.untiledLevels arg.degree + 1)) (result.storage, 0)
    (h.levelStep h.untiledLevel arg.storage)
  let st ← loop ((List.range (arg.degree - h.untiledLevels arg.degree)).map
      (· + (h.untiledLevels arg.degree + 1))) st
    (h.levelStep h.tiledLevel arg.storage)
  some ⟨st.1, arg.degree⟩

/-- `handle_antipode` for other vectors (`free_tensor.h:705-720`), with `reverse_key`
(`tensor_basis.h:126-132`). -/
def sparse [DecidableEq K] (arg : Sparse K) : Sparse K :=
  arg.foldl (fun result t =>
    let key : Key := ⟨t.1.deg, reverseIdx h.w t.1.deg t.1.idx⟩
    result.modify key fun _ => if key.deg % 2 ≠ 0 then -t.2 else t.2) []

end AntipodeHelper

/-- `antipode` (`free_tensor.h:917-921`) of a tensor of either storage type. -/
def antipode [Ring K] [DecidableEq K] (maxLetters w depth : ℕ) (x : Stored K) :
    Option (Stored K) := do
  let h ← AntipodeHelper.new maxLetters w depth
  match x with
  | .sparse v => some (.sparse (h.sparse v))
  | .dense v => do some (.dense (← h.dense v))

end RoughPy.Lite
