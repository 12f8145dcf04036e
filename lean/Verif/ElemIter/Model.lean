import Mathlib.Data.Nat.Notation

/-!
# Iterating over an element in Python

Models `__iter__` of Lie elements, free tensors and shuffle tensors, Python's `next` on what it gives and
the `key()` and `value()` methods of the items.

* `roughpy/src/algebra/setup_algebra_type.h:101-107` (`__iter__` with `keep_alive<0, 1>`)
* `roughpy/src/algebra/algebra_iterator.cpp:47-57` (the items in Python)
* `algebra/include/roughpy/algebra/algebra_base_impl.h:415-431` (`begin`, `end`)
* `algebra/include/roughpy/algebra/implementors/algebra_impl.h:565-590` (`begin`, `end`)
* `algebra/include/roughpy/algebra/algebra_iterator.h:40-220`
* `algebra/include/roughpy/algebra/algebra_iterator_impl.h:53-96`

The element is the list of what it stores, in the order of its storage, or has no storage at all. It is
not changed while the program runs.
-/

namespace RoughPy.ElemIter

variable {α : Type}

/-- What a Python program does. Iterators and items are numbered in the order they are handed out.

* `iter`: call `iter` on the element
* `next k`: call `next` on iterator `k`
* `read j`: call `key()` and `value()` on item `j`
* `dropElem`: the last name of the element goes away
* `dropIter k`: the last name of iterator `k` goes away

Simplified: items are never given up by the program. -/
inductive Op
  | iter
  | next (k : ℕ)
  | read (j : ℕ)
  | dropElem
  | dropIter (k : ℕ)
deriving DecidableEq, Repr

/-- What the program sees -/
inductive Seen (α : Type)
  /-- Nothing to see: `iter`, and names going away -/
  | done
  /-- A new item -/
  | item
  /-- `StopIteration` -/
  | stop
  /-- `RuntimeError` -/
  | error
  /-- The entry read from an item -/
  | entry (x : α)
  /-- There is no such name -/
  | noName
  /-- Undefined behaviour: a storage iterator is dereferenced at its end or after the storage is freed -/
  | undefined
deriving DecidableEq, Repr

/-- The state behind a Python iterator (`iterator_state` in pybind11's `make_iterator`): the two algebra
iterators and the flag `first_or_done`, and whether the program still has a name for it.

An algebra iterator is a shared pointer to an interface or null (`algebra_iterator.h:107-120`). The
interface of the first is the number of a cell with its position, the one of the last is never advanced
and never shared, so it is the position itself. Simplified: the tags are left out, both are the address of
the same storage (`algebra_impl.h:571-589`). -/
structure It where
  it : Option ℕ
  last : Option ℕ
  firstOrDone : Bool
  held : Bool
deriving DecidableEq, Repr

/-- The interfaces' positions, the iterators, the items (the number of the interface each one shares,
`algebra_iterator.h:73-98`) and whether the element has a name. -/
structure World where
  pos : List ℕ
  its : List It
  items : List ℕ
  named : Bool
deriving DecidableEq, Repr

/-- A program starts with the element and nothing else. -/
def start : World := ⟨[], [], [], true⟩

/-- The element is alive while it has a name or an iterator keeps it alive
(`setup_algebra_type.h:106`). -/
def World.alive (w : World) : Bool := w.named || w.its.any (·.held)

/-- `AlgebraBase::begin`, `AlgebraBase::end` (`algebra_base_impl.h:415-431`) and `py::make_iterator`: null
iterators if there is no storage, else a new interface at the first entry and one behind the last. -/
def iter (xs : Option (List α)) (w : World) : World × Seen α :=
  if w.named then
    match xs with
    | none => (⟨w.pos, w.its ++ [⟨none, none, true, true⟩], w.items, w.named⟩, .done)
    | some l =>
      (⟨w.pos ++ [0], w.its ++ [⟨some w.pos.length, some l.length, true, true⟩], w.items, w.named⟩, .done)
  else (w, .noName)

/-- `AlgebraIterator::operator++` (`algebra_iterator.h:175-180`) -/
def advance (pos : List ℕ) : Option ℕ → List ℕ
  | none => pos
  | some i => pos.modify i (· + 1)

/-- `AlgebraIterator::operator==` (`algebra_iterator.h:207-213`): false as soon as one of the two is null. -/
def same (pos : List ℕ) : Option ℕ → Option ℕ → Bool
  | some i, some e => pos[i]? == some e
  | _, _ => false

/-- `__next__` of pybind11's `make_iterator`: move on unless this is the first call or the end was reached;
at the end set the flag and raise `StopIteration`; else dereference, which shares the interface with the
item and raises an error if there is none (`algebra_iterator.h:188-197`). -/
def next (k : ℕ) (w : World) : World × Seen α :=
  match w.its[k]? with
  | none => (w, .noName)
  | some s =>
    if s.held then
      let pos := if s.firstOrDone then w.pos else advance w.pos s.it
      if same pos s.it s.last then
        (⟨pos, w.its.set k { s with firstOrDone := true }, w.items, w.named⟩, .stop)
      else
        match s.it with
        | none => (⟨pos, w.its.set k { s with firstOrDone := false }, w.items, w.named⟩, .error)
        | some i =>
          (⟨pos, w.its.set k { s with firstOrDone := false }, w.items ++ [i], w.named⟩, .item)
    else (w, .noName)

/-- `key()` and `value()` of an item (`algebra_iterator.cpp:53-56`, `algebra_iterator_impl.h:72-81`): they
dereference the storage iterator of the interface as it is now. -/
def read (xs : Option (List α)) (j : ℕ) (w : World) : Seen α :=
  match w.items[j]? with
  | none => .noName
  | some i =>
    match xs, w.pos[i]? with
    | some l, some p =>
      if w.alive then
        match l[p]? with
        | some x => .entry x
        | none => .undefined
      else .undefined
    | _, _ => .undefined

/-- The name of an iterator goes away. -/
def dropIter (k : ℕ) (w : World) : World × Seen α :=
  (⟨w.pos, w.its.modify k (fun s => { s with held := false }), w.items, w.named⟩, .done)

/-- One step of the program -/
def step (xs : Option (List α)) (w : World) : Op → World × Seen α
  | .iter => iter xs w
  | .next k => next k w
  | .read j => (w, read xs j w)
  | .dropElem => (⟨w.pos, w.its, w.items, false⟩, .done)
  | .dropIter k => dropIter k w

/-- What a program sees -/
def run (xs : Option (List α)) : World → List Op → List (Seen α)
  | _, [] => []
  | w, o :: os => (step xs w o).2 :: run xs (step xs w o).1 os

end RoughPy.ElemIter
