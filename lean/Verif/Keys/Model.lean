import Verif.Lite.HallModel

/-!
# Model of the keys of the Lie basis in Python (`/repo/roughpy/src/algebra/lie_key.cpp`,
`lie_letter.h`, `lie_key_iterator.cpp`, `basis.cpp`, and
`/repo/algebra/src/libalgebra_lite_internal/lie_basis_info.h`)

A key is an array of words, each of them a letter or the distance to a pair of words further on.
Reading outside the array and a recursion that does not end give `none`; recursions take an amount of
fuel.  Simplifications: an array has less than `2 ^ 63` words, so that distances fit into a word; the
basis that a key carries is that of the context, so `RPY_CHECK(basis)` passes.
-/

namespace RoughPy.Keys

open RoughPy.Lite (HallSet Key)

/-! ## Words of keys -/

/-- `PyLieLetter::from_letter` (`lie_letter.h:48-51`) -/
def ofLetter (l : ℕ) : ℕ := 1 + 2 * l

/-- `PyLieLetter::from_offset` (`lie_letter.h:53-56`) -/
def ofOffset (o : ℕ) : ℕ := 2 * o

/-- `is_offset` (`lie_letter.h:58`) -/
def isOffset (x : ℕ) : Bool := decide (x % 2 = 0)

/-- `operator let_t` (`lie_letter.h:60`, `core/types.hpp:55`): sixteen bits. -/
def letter (x : ℕ) : ℕ := (x / 2) % 2 ^ 16

/-- `operator dimn_t` (`lie_letter.h:62`) -/
def offset (x : ℕ) : ℕ := x / 2

/-! ## Writing a key as text -/

/-- The text of a letter. -/
def digits (n : ℕ) : List Char := Nat.toDigits 10 n

/-- The text of a pair (`print_walker::walk_pair`, `lie_key.cpp:105-112`). -/
def bracket (l r : List Char) : List Char := '[' :: (l ++ ',' :: (r ++ [']']))

/-- `print_walker::walk_single` (`lie_key.cpp:95-103`), with `walk_pair` in place. -/
def walkSingle (d : List ℕ) : ℕ → ℕ → Option (List Char)
  | 0, _ => none
  | f + 1, i => do
    let x ← d[i]?
    if isOffset x then do
      let l ← walkSingle d f (i + offset x)
      let r ← walkSingle d f (i + offset x + 1)
      some (bracket l r)
    else some (digits (letter x))

/-- `PyLieKey::to_string` (`lie_key.cpp:264-273`), which is `str(key)`. -/
def toStr (d : List ℕ) : Option (List Char) :=
  match d with
  | [x] => some (digits (letter x))
  | _ => do
    let l ← walkSingle d d.length 0
    let r ← walkSingle d d.length 1
    some (bracket l r)

/-! ## Keys from Python objects -/

/-- What a Python object is for `LieKey(...)`: an integer, a list of two objects, a list of another
length, anything else. -/
inductive Obj where
  | int (n : ℤ)
  | pair (l r : Obj)
  | list
  | other
  deriving DecidableEq

/-- The exceptions: `ValueError`, `TypeError`, and that of a failing `cast`. -/
inductive Err where
  | value
  | type
  | cast
  deriving DecidableEq

/-- `obj.cast<let_t>()` (`lie_key.cpp:332`, `:437`) -/
def castLetter (n : ℤ) : Except Err ℕ :=
  if 0 ≤ n ∧ n < 2 ^ 16 then .ok n.toNat else .error .cast

/-- The end of `ToLieKeyHelper::parse_pair` (`lie_key.cpp:346-369`). -/
def joinTrees (a b : List ℕ) : List ℕ :=
  let left : ℕ × ℕ × List ℕ := match a with
    | [x] => (0, x, [])
    | _ => (a.length, ofOffset 2, a)
  let right : ℕ × List ℕ := match b with
    | [y] => (y, [])
    | _ => (ofOffset (1 + left.1), b)
  left.2.1 :: right.1 :: (left.2.2 ++ right.2)

/-- `ToLieKeyHelper::parse_single`, `parse_list` and `parse_pair` (`lie_key.cpp:313-370`).  The member
`max_letter` is read by `get_width` only, which is not called. -/
def parseSingle : Obj → Except Err (List ℕ)
  | .int n => (castLetter n).map fun l => [ofLetter l]
  | .pair l r => do
    let a ← parseSingle l
    let b ← parseSingle r
    return joinTrees a b
  | .list => .error .value
  | .other => .error .type

/-- `LieKey(object, basis=...)` (`lie_key.cpp:404-449`) for a basis of the given width. -/
def makeKey (width : ℕ) : Obj → Except Err (List ℕ)
  | .int n => do
    let l ← castLetter n
    if width < l then .error .value else return [ofLetter l]
  | .pair l r => parseSingle (.pair l r)
  | .list => .error .value
  | .other => .error .type

/-! ## Keys from the basis -/

/-- `convert_to_impl` (`lie_basis_info.h:80-86`): the key number `0` becomes the index `2 ^ 64 - 1`. -/
def toImpl (hs : HallSet) (k : ℕ) : Option Key := hs.keyOfIndex (if k = 0 then 2 ^ 64 - 1 else k - 1)

/-- `convert_from_impl` (`lie_basis_info.h:72-78`, `hall_set.h:199`) -/
def fromImpl (hs : HallSet) (k : Key) : Option ℕ := (hs.startOf k.deg).map fun s => 1 + (k.idx + s)

/-- `dimension` (`lie_basis_info.h:103-106`) -/
def dimension (hs : HallSet) (depth : ℕ) : Option ℕ := hs.size depth

/-- `to_letter` (`lie_basis_info.h:198-200`, `hall_set.h:182-183`, `basis/hall_set.cpp:143-146`),
returned as `let_t`. -/
def toLetter (k : Key) : ℕ := (k.idx + 1) % 2 ^ 16

/-- `parents` (`lie_basis_info.h:164-170`) -/
def parents (hs : HallSet) (k : ℕ) : Option (ℕ × ℕ) := do
  let i ← toImpl hs k
  let p ← hs.parents i
  let l ← fromImpl hs p.1
  let r ← fromImpl hs p.2
  some (l, r)

/-- `child` (`lie_basis_info.h:173-190`) -/
def child (hs : HallSet) (l r : ℕ) : Option (Option ℕ) := do
  let a ← toImpl hs l
  let b ← toImpl hs r
  match hs.find (a, b) with
  | some k => (fromImpl hs k).map some
  | none => some none

/-- `parse_key` (`lie_key.cpp:196-249`) -/
def parseKey (hs : HallSet) : ℕ → ℕ → Option (List ℕ)
  | 0, _ => none
  | f + 1, k => do
    let i ← toImpl hs k
    if i.deg = 1 then some [ofLetter (toLetter i)]
    else do
      let p ← parents hs k
      let li ← toImpl hs p.1
      let ri ← toImpl hs p.2
      if li.deg = 1 ∧ ri.deg = 1 then some [ofLetter (toLetter li), ofLetter (toLetter ri)]
      else if li.deg = 1 then do
        let b ← parseKey hs f p.2
        some (ofLetter (toLetter li) :: ofOffset 1 :: b)
      else if ri.deg = 1 then do
        let a ← parseKey hs f p.1
        some (ofOffset 2 :: ofLetter (toLetter ri) :: a)
      else do
        let b ← parseKey hs f p.2
        let a ← parseKey hs f p.1
        some (ofOffset 2 :: ofOffset (1 + a.length) :: (a ++ b))

/-- `LieKey` of a key number (`lie_key.cpp:251-257`).  Every call has parents of smaller degree, so that
as many nested calls as there are degrees are enough, unless there are infinitely many. -/
def keyOf (hs : HallSet) (k : ℕ) : Option (List ℕ) := parseKey hs hs.sizes.length k

/-- `basis.index_to_key(index)` (`basis.cpp:64-71`, `lie_basis_info.h:115-118`) -/
def indexToKey (hs : HallSet) (index : ℕ) : Option (List ℕ) := do
  let i ← hs.keyOfIndex index
  let k ← fromImpl hs i
  keyOf hs k

/-- `basis.key_to_index(key)` (`basis.cpp:72-79`, `lie_basis_info.h:121-124`): the key is not used. -/
def keyToIndex (hs : HallSet) (_key : List ℕ) : Option ℕ := do
  let i ← toImpl hs 0
  let s ← hs.startOf i.deg
  some (i.idx + s)

/-- `basis.parents(key)` (`basis.cpp:81-86`): the key is not used. -/
def keyParents (hs : HallSet) (_key : List ℕ) : Option (ℕ × ℕ) := parents hs 0

/-! ## Iterating over the basis -/

/-- `PyLieKeyIterator` (`lie_key_iterator.h:44-57`) -/
structure Iter where
  current : ℕ
  stop : ℕ

/-- The constructor (`lie_key_iterator.cpp:43-52`) -/
def newIter (dim start stop : ℕ) : Iter := ⟨start, if dim < stop then dim else stop⟩

/-- `next` (`lie_key_iterator.cpp:54-60`): the key number that is returned, or the end of the
iteration. -/
def Iter.next (it : Iter) : Option (ℕ × Iter) :=
  if it.stop < it.current then none else some (it.current, ⟨(it.current + 1) % 2 ^ 64, it.stop⟩)

/-- The first `n` key numbers of the iteration, or all of them. -/
def Iter.take (it : Iter) : ℕ → List ℕ
  | 0 => []
  | n + 1 =>
    match it.next with
    | none => []
    | some (k, it') => k :: it'.take n

/-! ## The number of a key -/

/-- `to_internal_key_recurse` (`lie_key.cpp:479-495`) -/
def recurse (hs : HallSet) (d : List ℕ) : ℕ → ℕ → Option (Option ℕ)
  | 0, _ => none
  | f + 1, i => do
    let x ← d[i]?
    if isOffset x then do
      let l ← recurse hs d f (i + offset x)
      let r ← recurse hs d f (i + 1)
      match l, r with
      | some l, some r => child hs l r
      | _, _ => some none
    else some (some (offset x))

/-- `PyLieKey::operator key_type` (`lie_key.cpp:500-512`), with which `element[key]` looks up a
coefficient (`lie.cpp:171-173`) -/
def toKey (hs : HallSet) (d : List ℕ) : Option ℕ :=
  match d with
  | [x] => some (offset x)
  | _ => (recurse hs d d.length 0).map fun k => k.getD 0

/-! ## Parts of keys -/

/-- `degree` (`lie_key.cpp:282-288`) -/
def degree (d : List ℕ) : ℕ := d.countP fun x => !isOffset x

/-- `branches_equal` (`lie_key.cpp:72-87`) -/
def branchesEqual (d e : List ℕ) : ℕ → ℕ → ℕ → Option Bool
  | 0, _, _ => none
  | f + 1, i, j => do
    let x ← d[i]?
    let y ← e[j]?
    if isOffset x = false ∧ isOffset y = false then some (decide (letter x = letter y))
    else if isOffset x = true ∧ isOffset y = true then branchesEqual d e f (i + offset x) (j + offset y)
    else some false

/-- `equals` (`lie_key.cpp:289-294`) -/
def equals (d e : List ℕ) : Option Bool := do
  let a ← branchesEqual d e (d.length + 1) 0 0
  if a then branchesEqual d e (d.length + 1) 1 1 else some false

/-- What `trim_branch` builds (`lie_key.cpp:133-136`). -/
structure Trim where
  tree : List ℕ
  current : ℕ
  size : ℕ

/-- The visitor of `trim_branch` (`lie_key.cpp:138-152`) -/
def Trim.visit (st : Trim) (x : ℕ) : Trim :=
  if isOffset x then
    ⟨st.tree ++ [ofOffset (st.size + 2 - (st.current + 1))], st.current + 1, st.size + 2 + 1⟩
  else ⟨st.tree ++ [x], st.current + 1, st.size + 1⟩

/-- `walk_tree` (`lie_key.cpp:43-64`) with the visitor of `trim_branch` -/
def walkTree (d : List ℕ) : ℕ → ℕ → Trim → Option Trim
  | 0, _, _ => none
  | f + 1, p, st => do
    let l ← d[p]?
    let r ← d[p + 1]?
    let st2 := (st.visit l).visit r
    let st3 ← if isOffset l then walkTree d f (p + offset l) st2 else some st2
    if isOffset r then walkTree d f (p + 1 + offset r) st3 else some st3

/-- `trim_branch` (`lie_key.cpp:121-158`); `lparent` and `rparent` are `trimBranch d 0` and
`trimBranch d 1` (`lie_key.cpp:274-281`). -/
def trimBranch (d : List ℕ) (start : ℕ) : Option (List ℕ) :=
  match d with
  | [] => some []
  | [x] => some (if start = 0 then [] else [x])
  | _ => do
    let x ← d[start]?
    if d.length = 2 then some [x]
    else if isOffset x then (walkTree d d.length (start + offset x) ⟨[], 0, 0⟩).map Trim.tree
    else some [x]

/-! ## Texts of keys in the algebra -/

/-- The cache of `hall_extension` (`hall_set.h:127`) -/
abbrev Cache := Key → Option (List Char)

/-- `hall_extension::operator()` for the texts of keys (`hall_set.h:224-243`,
`basis/hall_set.cpp:199-206`).  The order in which the two arguments of `m_binop` are evaluated is not
specified; `leftFirst` says what the compiler has chosen. -/
def keyText (leftFirst : Bool) (hs : HallSet) : ℕ → Cache → Key → Option (List Char × Cache)
  | 0, _, _ => none
  | f + 1, c, k =>
    match c k with
    | some s => some (s, c)
    | none =>
      if k.deg = 1 then
        let s := digits (k.idx + 1)
        some (s, Function.update c k (some s))
      else do
        let p ← hs.parents k
        let r ← if leftFirst then do
            let a ← keyText leftFirst hs f c p.1
            let b ← keyText leftFirst hs f a.2 p.2
            some (a.1, b.1, b.2)
          else do
            let b ← keyText leftFirst hs f c p.2
            let a ← keyText leftFirst hs f b.2 p.1
            some (a.1, b.1, a.2)
        let s := bracket r.1 r.2.1
        some (s, Function.update r.2.2 k (some s))

/-- `key_to_string` (`lie_basis_info.h:95-100`, `basis/hall_set.cpp:215-218`) -/
def keyToString (leftFirst : Bool) (hs : HallSet) (c : Cache) (k : ℕ) : Option (List Char × Cache) := do
  let i ← toImpl hs k
  keyText leftFirst hs hs.sizes.length c i

end RoughPy.Keys
