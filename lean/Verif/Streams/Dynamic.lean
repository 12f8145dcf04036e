import Verif.Streams.Model

/-!
# Model of `DynamicallyConstructedStream` — streams/src/dynamically_constructed_stream.cpp

The tree `m_data_tree` is a `std::map` from dyadic intervals to nodes; it is modelled by a list
sorted by `operator<`.  Iterators are modelled by keys (`std::map` iterators stay valid under
insertion and nothing is ever erased); `none` is `m_data_tree.end()`.  The recursive mutex makes
every query atomic, so that queries are steps of a sequential history.  Dereferencing `end()`, a
null iterator or an assertion about `int` shifts is the outcome `none`, as is a loop that has not
finished within the fuel.
-/

namespace RoughPy.Streams

open RoughPy.Intervals

/-- `class DataIncrement` — dynamically_constructed_stream.h:41-90. -/
structure DNode (L : Type) where
  accuracy : ℤ
  lie : L
  sibling : Option DyadicInterval
  parent : Option DyadicInterval

/-- `std::map<DyadicInterval, DataIncrement>` — dynamically_constructed_stream.h:46. -/
abbrev Tree (L : Type) := List (DyadicInterval × DNode L)

/-- The virtual functions of the stream — dynamically_constructed_stream.cpp:379-413;
`FunctionStream` and `BrownianStream` override them.  Random numbers: each function is asked at
most once for each node of the tree, so that a random stream is given by the values drawn. -/
structure DynImpl (L : Type) where
  ops : LieOps L
  newRoot : DyadicInterval → L
  neighbour : DyadicInterval → L
  children : DyadicInterval → DyadicInterval → L → L × L

namespace Tree

variable {L : Type}

/-- `m_data_tree.find(d)` (all keys are clopen: equivalent keys are equal, `C08_order`). -/
def find (t : Tree L) (d : DyadicInterval) : Option (DNode L) :=
  (List.find? (fun e => decide (e.1 = d)) t).map Prod.snd

/-- `m_data_tree.begin()`. -/
def begin (t : Tree L) : Option DyadicInterval := t.head?.map Prod.fst

/-- `++it`: the next key in the order. -/
def next (t : Tree L) (d : DyadicInterval) : Option DyadicInterval :=
  (List.find? (fun e => d.lt e.1) t).map Prod.fst

/-- `m_data_tree.insert({d, node})`: an existing node is kept. -/
def insert (t : Tree L) (d : DyadicInterval) (nd : DNode L) : Tree L :=
  match t with
  | [] => [(d, nd)]
  | e :: t => if d.lt e.1 then (d, nd) :: e :: t else if e.1.lt d then e :: insert t d nd else e :: t

/-- Assignment through an iterator. -/
def modify (t : Tree L) (d : DyadicInterval) (f : DNode L → DNode L) : Tree L :=
  t.map fun e => if e.1 = d then (e.1, f e.2) else e

end Tree

/-- `DataIncrement::is_leaf` — dynamically_constructed_stream.h:85-89. -/
def DNode.isLeaf {L : Type} (d : DyadicInterval) (nd : DNode L) : Bool := decide (d.n = nd.accuracy)

/-- `dyadic_equals` — dyadic.h. -/
def sameDyadic (a b : DyadicInterval) : Bool := a.toDyadic.dyadicEquals b.toDyadic

variable {L : Type}

/-- The value given to a parent: `below` first if it is the left half —
dynamically_constructed_stream.cpp:194-204, 232-240. -/
def parentValue (S : DynImpl L) (aligned : Bool) (below sibling : L) : L :=
  if aligned then S.ops.cbh [below, sibling] else S.ops.cbh [sibling, below]

/-- `update_parent_accuracy` — dynamically_constructed_stream.cpp:179-211. -/
def updateParentAccuracy (S : DynImpl L) (t : Tree L) (below : DyadicInterval) : Option (Tree L) :=
  match t.find below with
  | none => none
  | some nb =>
    match nb.parent with
    | none => some t
    | some p =>
      match nb.sibling with
      | none => none
      | some s =>
        match t.find p, t.find s, below.aligned with
        | some np, some ns, some al =>
          let avail := min nb.accuracy ns.accuracy
          if np.accuracy < avail then
            some (t.modify p fun nd =>
              { nd with lie := parentValue S al nb.lie ns.lie, accuracy := avail })
          else some t
        | _, _, _ => none

/-- `update_parents` — dynamically_constructed_stream.cpp:213-246. -/
def updateParents (S : DynImpl L) : ℕ → Tree L → DyadicInterval → Option (Tree L)
  | 0, _, _ => none
  | fuel + 1, t, current =>
    if t.begin = some current then some t
    else
      match t.find current with
      | none => none
      | some nc =>
        match nc.parent, nc.sibling with
        | some p, some s =>
          match t.find p, t.find s, current.aligned with
          | some np, some ns, some al =>
            let avail := min nc.accuracy ns.accuracy
            if avail ≤ np.accuracy then some t
            else
              updateParents S fuel
                (t.modify p fun nd =>
                  { nd with lie := parentValue S al nc.lie ns.lie, accuracy := avail }) p
          | _, _, _ => none
        | _, _ => none

/-- `insert_children_and_refine` — dynamically_constructed_stream.cpp:248-286.  Returns the new
tree and the child that contains `interval`. -/
def insertChildren (S : DynImpl L) (fuel : ℕ) (t : Tree L) (leaf interval : DyadicInterval) :
    Option (Tree L × DyadicInterval) :=
  match t.find leaf, leaf.shrinkLeft 1, leaf.shrinkRight with
  | some nl, some l, some r =>
    let vals := S.children l r nl.lie
    let t₁ := t.insert l ⟨l.n, vals.1, none, none⟩
    let t₂ := t₁.insert r ⟨r.n, vals.2, none, none⟩
    let t₃ := t₂.modify l fun nd => { nd with sibling := some r, parent := some leaf }
    let t₄ := t₃.modify r fun nd => { nd with sibling := some l, parent := some leaf }
    match updateParents S fuel t₄ l with
    | none => none
    | some t₅ => some (t₅, if l.containsDyadic interval then l else r)
  | _, _, _ => none

/-- `expand_root_until_contains` — dynamically_constructed_stream.cpp:112-156. -/
def expandRoot (S : DynImpl L) (di : DyadicInterval) :
    ℕ → Tree L → DyadicInterval → Option (Tree L × DyadicInterval)
  | fuel, t, root =>
    if root.containsDyadic di then some (t, root)
    else match fuel with
      | 0 => none
      | fuel + 1 =>
        match root.expand, root.aligned with
        | some newRoot, some al =>
          match if al then newRoot.shrinkToOmittedEnd else newRoot.shrinkToContainedEnd with
          | none => none
          | some nb =>
            let t₁ := t.insert nb ⟨nb.n, S.neighbour nb, none, none⟩
            let t₂ := t₁.insert newRoot ⟨root.n, S.newRoot newRoot, none, none⟩
            match updateParentAccuracy S t₂ root with
            | none => none
            | some t₃ =>
              let t₄ := t₃.modify root fun nd =>
                { nd with parent := some newRoot, sibling := some nb }
              let t₅ := t₄.modify nb fun nd =>
                { nd with parent := some newRoot, sibling := some root }
              expandRoot S di fuel t₅ newRoot
        | _, _ => none

/-- Inner `while` of `refine_accuracy` and the descent loop of `log_signature`: insert children
until `target` is reached — dynamically_constructed_stream.cpp:85-89, 339-341. `exact` is the
additional test `contains_dyadic` of the former. -/
def descend (S : DynImpl L) (checkContains : Bool) (target : DyadicInterval) :
    ℕ → Tree L → DyadicInterval → Option (Tree L × DyadicInterval)
  | 0, _, _ => none
  | fuel + 1, t, cur =>
    if (checkContains && !cur.containsDyadic target) || sameDyadic cur target then some (t, cur)
    else
      match insertChildren S fuel t cur target with
      | none => none
      | some (t', cur') => descend S checkContains target fuel t' cur'

/-- The `for` loop over `refined_inc` — dynamically_constructed_stream.cpp:84-91. -/
def refineLoop (S : DynImpl L) (refinedEnd : DyadicInterval) :
    ℕ → Tree L → DyadicInterval → DyadicInterval → Option (Tree L × DyadicInterval)
  | 0, _, _, _ => none
  | fuel + 1, t, leafAbove, refined =>
    if refined.lt refinedEnd then
      match descend S true refined fuel t leafAbove with
      | none => none
      | some (t₁, la) =>
        match updateParents S fuel t₁ la with
        | none => none
        | some t₂ => refineLoop S refinedEnd fuel t₂ la refined.advance.advance
    else some (t, leafAbove)

/-- The outer loop of `refine_accuracy` — dynamically_constructed_stream.cpp:74-94.  `stop` is
the second iterator of `equal_range` (the map has unique keys: the range holds one element). -/
def refineOuter (S : DynImpl L) (increment : DyadicInterval) (desired : ℤ)
    (stop : Option DyadicInterval) : ℕ → Tree L → Option DyadicInterval → Option (Tree L)
  | 0, _, _ => none
  | fuel + 1, t, leafAbove =>
    if leafAbove = stop then some t
    else
      match leafAbove with
      | none => none
      | some la =>
        if la.n < desired then
          match t.find la with
          | none => none
          | some nl =>
            if !nl.isLeaf la then refineOuter S increment desired stop fuel t (t.next la)
            else
              let m := (desired - increment.n).toNat
              match increment.shrinkLeft m, increment.advance.shrinkLeft m with
              | some rInc, some rEnd =>
                match refineLoop S rEnd fuel t la rInc with
                | none => none
                | some (t₁, la₁) => refineOuter S increment desired stop fuel t₁ (t₁.next la₁)
              | _, _ => none
        else some t

/-- `refine_accuracy` — dynamically_constructed_stream.cpp:46-95. -/
def refineAccuracy (S : DynImpl L) (fuel : ℕ) (t : Tree L) (increment : DyadicInterval)
    (desired : ℤ) : Option (Tree L) :=
  refineOuter S increment desired (t.next increment) fuel t (some increment)

/-- Walk down the existing tree — dynamically_constructed_stream.cpp:324-335. -/
def walkDown (target : DyadicInterval) : ℕ → Tree L → DyadicInterval → Option DyadicInterval
  | 0, _, _ => none
  | fuel + 1, t, cur =>
    if sameDyadic cur target then some cur
    else
      match t.find cur with
      | none => none
      | some nc =>
        if nc.isLeaf cur then some cur
        else
          match t.next cur with
          | none => none
          | some left =>
            if left.containsDyadic target then walkDown target fuel t left
            else
              match t.find left with
              | none => none
              | some nl =>
                match nl.sibling with
                | none => none
                | some right => walkDown target fuel t right

/-- Lines 317-356 of `log_signature`: expand the root, walk down, insert, refine. -/
def queryFrom (S : DynImpl L) (fuel : ℕ) (t : Tree L) (root interval : DyadicInterval)
    (resolution : ℤ) : Option (L × Tree L) :=
  match expandRoot S interval fuel t root with
  | none => none
  | some (t₁, root₁) =>
    match walkDown interval fuel t₁ root₁ with
    | none => none
    | some cur =>
      match descend S false interval fuel t₁ cur with
      | none => none
      | some (t₂, cur₂) =>
        match t₂.find cur₂ with
        | none => none
        | some nd =>
          if resolution ≤ nd.accuracy then some (nd.lie, t₂)
          else
            match refineAccuracy S fuel t₂ cur₂ resolution with
            | none => none
            | some t₃ => (t₃.find cur₂).map fun nd => (nd.lie, t₃)

/-- `log_signature(DyadicInterval, resolution, ctx)` —
dynamically_constructed_stream.cpp:288-357.  The context of the query is not used. -/
def dynQuery (S : DynImpl L) (fuel : ℕ) (t : Tree L) (interval : DyadicInterval)
    (resolution : ℤ) : Option (L × Tree L) :=
  match t.find interval with
  | some nd =>
    if nd.accuracy < resolution then
      match refineAccuracy S fuel t interval resolution with
      | none => none
      | some t' => (t'.find interval).map fun nd => (nd.lie, t')
    else some (nd.lie, t)
  | none =>
    match t.begin with
    | none =>
      let t₁ := t.insert interval ⟨interval.n, S.newRoot interval, none, none⟩
      match t₁.find interval with
      | none => none
      | some nd =>
        if resolution ≤ nd.accuracy then some (nd.lie, t₁)
        else queryFrom S fuel t₁ interval interval resolution
    | some root => queryFrom S fuel t root interval resolution

/-- A history of queries on one stream: the answers and the final tree. -/
def dynSession (S : DynImpl L) (fuel : ℕ) :
    List (DyadicInterval × ℤ) → Tree L → Option (List L × Tree L)
  | [], t => some ([], t)
  | q :: qs, t =>
    match dynQuery S fuel t q.1 q.2 with
    | none => none
    | some (x, t₁) =>
      match dynSession S fuel qs t₁ with
      | none => none
      | some (xs, t₂) => some (x :: xs, t₂)

/-- `Stream::log_signature_impl` on a dynamically constructed stream — stream.cpp:107-123:
dissect the query interval `[a, b)`, ask for each piece, drop the zeros, combine. -/
def dynInterval (S : DynImpl L) (fuel : ℕ) (t : Tree L) (a b : ℚ) (res : ℤ) : Option (L × Tree L) :=
  match toDyadicIntervals fuel a b res .clopen with
  | none => none
  | some ds =>
    match dynSession S fuel (ds.map fun d => (d, res)) t with
    | none => none
    | some (xs, t') => some (S.ops.cbh (xs.filter fun x => !S.ops.isZero x), t')

/-- A history of interval queries `(a, b, resolution)`. -/
def dynIntervals (S : DynImpl L) (fuel : ℕ) : List (ℚ × ℚ × ℤ) → Tree L → Option (List L × Tree L)
  | [], t => some ([], t)
  | q :: qs, t =>
    match dynInterval S fuel t q.1 q.2.1 q.2.2 with
    | none => none
    | some (x, t₁) =>
      match dynIntervals S fuel qs t₁ with
      | none => none
      | some (xs, t₂) => some (x :: xs, t₂)

/-- `FunctionStream` — roughpy/src/streams/function_stream.cpp:54-86: all values come from the
user's function (`make_new_root_increment` etc. are those of the base class). -/
def functionStream (ops : LieOps L) (f : DyadicInterval → L) : DynImpl L where
  ops := ops
  newRoot := f
  neighbour := f
  children := fun l r _ => (f l, f r)

/-- `BrownianStream` — streams/src/brownian_stream.cpp:41-93; `gauss d` is the Gaussian increment
drawn when the node `d` is made (for a split: the perturbation drawn for the left half).  Not
modelled: the distribution of the draws. -/
def brownianStream (ops : LieOps L) (add sub : L → L → L) (half : L → L) (gauss : DyadicInterval → L) :
    DynImpl L where
  ops := ops
  newRoot := gauss
  neighbour := gauss
  children := fun l _ v => (add (half v) (gauss l), sub (half v) (gauss l))

/-! ## `store_cache` and `load_cache` — dynamically_constructed_stream.h:205-260 -/

/-- `struct DataIncrementSafe` — dynamically_constructed_stream.h:177-183. -/
structure SafeNode (L : Type) where
  interval : DyadicInterval
  resolution : ℤ
  content : L
  siblingIdx : ℤ
  parentIdx : ℤ

/-- `indices[d]` after the first loop of `store_cache` (`std::map::operator[]`: 0 if absent). -/
def indexOf (t : Tree L) (d : DyadicInterval) : ℤ :=
  match t.findIdx? (fun e => decide (e.1 = d)) with
  | some i => i
  | none => 0

/-- The index stored for a link: `-1` for `end()` — dynamically_constructed_stream.h:225-229. -/
def linkIndex (t : Tree L) : Option DyadicInterval → ℤ
  | some d => indexOf t d
  | none => -1

/-- `store_cache` — dynamically_constructed_stream.h:205-233. -/
def storeCache (t : Tree L) : List (SafeNode L) :=
  t.map fun e =>
    { interval := e.1
      resolution := e.2.accuracy
      content := e.2.lie
      siblingIdx := linkIndex t e.2.sibling
      parentIdx := linkIndex t e.2.parent }

/-- `m_data_tree[d]`: insert a default node if absent, and assign. -/
def upsert (t : Tree L) (d : DyadicInterval) (dflt : DNode L) (f : DNode L → DNode L) : Tree L :=
  (t.insert d dflt).modify d f

/-- The iterator `m_data_tree.find(linear_data[idx].interval)` or `end()`; an index out of range
is undefined behaviour (`none`). -/
def linkOf (t : Tree L) (xs : List (SafeNode L)) (idx : ℤ) : Option (Option DyadicInterval) :=
  if idx = -1 then some none
  else
    match xs[idx.toNat]? with
    | none => none
    | some x => some ((t.find x.interval).map fun _ => x.interval)

/-- First loop of `load_cache` — dynamically_constructed_stream.h:241-245. -/
def loadValues : List (SafeNode L) → Tree L → Tree L
  | [], t => t
  | x :: xs, t =>
    loadValues xs (upsert t x.interval ⟨-1, x.content, none, none⟩ fun nd =>
      { nd with accuracy := x.resolution, lie := x.content })

/-- Second loop of `load_cache` — dynamically_constructed_stream.h:247-259. -/
def loadLinks (all : List (SafeNode L)) : List (SafeNode L) → Tree L → Option (Tree L)
  | [], t => some t
  | x :: xs, t =>
    match linkOf t all x.parentIdx, linkOf t all x.siblingIdx with
    | some p, some s =>
      loadLinks all xs (t.modify x.interval fun nd => { nd with parent := p, sibling := s })
    | _, _ => none

/-- `load_cache` into a stream whose tree is empty — dynamically_constructed_stream.h:234-260. -/
def loadCache (xs : List (SafeNode L)) : Option (Tree L) :=
  loadLinks xs xs (loadValues xs [])

end RoughPy.Streams
