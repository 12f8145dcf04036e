import Verif.ElemIter.Model

/-! What iterating means in Python: an iterator hands out the entries one by one and then stops for good,
and an item is the entry it was handed out for. -/

namespace RoughPy.ElemIter

variable {α : Type}

/-- An item: the iterator it comes from, the entry it is, and whether that iterator has not been asked for
more since. -/
structure Handed (α : Type) where
  owner : ℕ
  entry : α
  fresh : Bool

/-- For each iterator how many entries it has handed out and whether it still has a name; the items; and
whether the element has a name. -/
structure Ideal (α : Type) where
  its : List (ℕ × Bool)
  items : List (Handed α)
  named : Bool

def Ideal.start (α : Type) : Ideal α := ⟨[], [], true⟩

/-- The items of an iterator are no longer fresh once it is asked for more. -/
def stale (k : ℕ) (l : List (Handed α)) : List (Handed α) :=
  l.map fun h => if h.owner = k then { h with fresh := false } else h

/-- One step of the program, for an element with these entries -/
def Ideal.step (l : List α) (w : Ideal α) : Op → Ideal α × Seen α
  | .iter => if w.named then (⟨w.its ++ [(0, true)], w.items, w.named⟩, .done) else (w, .noName)
  | .next k =>
    match w.its[k]? with
    | some (n, true) =>
      match l[n]? with
      | some x => (⟨w.its.set k (n + 1, true), stale k w.items ++ [⟨k, x, true⟩], w.named⟩, .item)
      | none => (⟨w.its, stale k w.items, w.named⟩, .stop)
    | _ => (w, .noName)
  | .read j =>
    match w.items[j]? with
    | some h => (w, .entry h.entry)
    | none => (w, .noName)
  | .dropElem => (⟨w.its, w.items, false⟩, .done)
  | .dropIter k => (⟨w.its.modify k (fun s => (s.1, false)), w.items, w.named⟩, .done)

/-- What a program should see -/
def Ideal.run (l : List α) : Ideal α → List Op → List (Seen α)
  | _, [] => []
  | w, o :: os => (w.step l o).2 :: Ideal.run l (w.step l o).1 os

/-- The program reads an item only before its iterator is asked for more, and while the element or one of
its iterators has a name. -/
def Prompt (l : List α) : Ideal α → List Op → Prop
  | _, [] => True
  | w, .read j :: os =>
    (∀ h, w.items[j]? = some h → h.fresh = true ∧ (w.named || w.its.any (·.2)) = true) ∧ Prompt l w os
  | w, o :: os => Prompt l (w.step l o).1 os

/-- `for item in element: … item.key() … item.value()` for an element with `n` entries, up to the end -/
def forLoop : ℕ → ℕ → List Op
  | 0, _ => [.next 0]
  | n + 1, j => .next 0 :: .read j :: forLoop n (j + 1)

end RoughPy.ElemIter
