import Verif.Keys.Model

/-! # What the properties of keys are stated with -/

namespace RoughPy.Keys

/-- A bracket of letters. -/
inductive Tree where
  | leaf (l : ℕ)
  | node (a b : Tree)
  deriving DecidableEq

namespace Tree

/-- How a bracket is written: `[1,[1,2]]`. -/
def text : Tree → List Char
  | leaf l => Nat.toDigits 10 l
  | node a b => ['['] ++ a.text ++ [','] ++ b.text ++ [']']

/-- A bracket as the Python object `[1, [1, 2]]`. -/
def obj : Tree → Obj
  | leaf l => .int l
  | node a b => .pair a.obj b.obj

/-- The number of letters. -/
def degree : Tree → ℕ
  | leaf _ => 1
  | node a b => a.degree + b.degree

/-- The letters. -/
def letters : Tree → List ℕ
  | leaf l => [l]
  | node a b => a.letters ++ b.letters

/-- All letters fit into sixteen bits. -/
def Small (t : Tree) : Prop := ∀ l ∈ t.letters, l < 2 ^ 16

/-- The order of brackets: by degree, then by the left parts, then by the right parts; letters by
number. -/
def lt : Tree → Tree → Prop
  | leaf l, leaf m => l < m
  | leaf _, node _ _ => True
  | node _ _, leaf _ => False
  | node a b, node c d => a.degree + b.degree < c.degree + d.degree ∨
      (a.degree + b.degree = c.degree + d.degree ∧ (lt a c ∨ (a = c ∧ lt b d)))

/-- How often one can go to the left part, and the letter found there. -/
def spine : Tree → ℕ × ℕ
  | leaf l => (0, l)
  | node a _ => (a.spine.1 + 1, a.spine.2)

/-- `1`, `[1,2]` and `[1,[2,3]]` for letters `1`, `2`, `3`. -/
def Flat (t : Tree) : Prop :=
  (∃ l, t = leaf l) ∨ (∃ l m, t = node (leaf l) (leaf m)) ∨
    ∃ l m n, t = node (leaf l) (node (leaf m) (leaf n))

end Tree

/-- The Hall set of the letters `1 … w`: the letters, and `[a,b]` for `a < b` unless `b = [c,d]` with
`a < c`. -/
inductive HallTree (w : ℕ) : Tree → Prop
  | leaf {l : ℕ} : 1 ≤ l → l ≤ w → HallTree w (.leaf l)
  | node {a b : Tree} : HallTree w a → HallTree w b → Tree.lt a b →
      (∀ c d, b = .node c d → ¬ Tree.lt a c) → HallTree w (.node a b)

/-- Texts of keys asked for one after the other, starting with an empty cache. -/
def textsOf (leftFirst : Bool) (hs : Lite.HallSet) : List ℕ → Option (List (List Char) × Cache)
  | [] => some ([], fun _ => none)
  | k :: ks => do
    let r ← textsOf leftFirst hs ks
    let s ← keyToString leftFirst hs r.2 k
    some (s.1 :: r.1, s.2)

end RoughPy.Keys
