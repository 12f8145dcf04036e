import Verif.Arrays.KeyModel

/-!
# What the properties of keyed arrays are stated with
-/

namespace RoughPy.Arrays

open RoughPy.Args (Out)
open RoughPy.Scalars (Ty Val FP TRef conv)

/-- The array `i` is alive and has keys, which are these: what `keys()` of a constant array points to,
`size()` of them. -/
def HasKeys (s : KSt) (i : ℕ) (l : List ℕ) : Prop :=
  ∃ a p, s.var i = some a ∧ a.keys = some p ∧ readKeys s.mem.keys (some p) a.base.size = some l

/-- The array `i` is alive and has no keys. -/
def NoKeys (s : KSt) (i : ℕ) : Prop := ∃ a, s.var i = some a ∧ a.keys = none

/-- The array `i` owns the keys in the block `b`. -/
def OwnsKeys (s : KSt) (i b : ℕ) : Prop :=
  ∃ a, s.var i = some a ∧ a.owns = true ∧ a.keys = some (b, 0)

/-- The keys in the block have not been given back. -/
def KeysLive (s : KSt) (b : ℕ) : Prop := ∃ B, s.mem.keys[b]? = some B ∧ B.alive = true

/-- A program starts without arrays, and with keys of the user only. -/
structure KInitial (s : KSt) : Prop where
  vars : s.vars = []
  keys : ∀ B ∈ s.mem.keys, B.user = true ∧ B.alive = true

/-- The precondition of a statement in which the known defects of the keys are excluded; `u` is the
number of blocks of keys of the user.  Nothing is asked of the scalars. -/
def KSafe (u : ℕ) (s : KSt) : KStmt → Prop
  -- keys handed over are keys of the user
  | .withKeys _ p => p.1 < u
  -- nothing is assigned from an array that owns keys, but has none any more or has no type
  | .assign _ j => ∀ b, s.var j = some b → b.owns = true →
      b.base.typeNull = false ∧ (b.keys = none → b.base.size = 0)
  -- no keys are allocated in place of keys of the user, or in place of own keys in a wrong number
  | .allocKeys i count => ∀ a p, s.var i = some a → a.keys = some p → count ≠ 0 →
      a.owns = true ∧ (count = -1 ∨ count = (a.base.size : ℤ))
  -- only keys that are there are read, and only own keys are written
  | .getKey i k => ∀ a, s.var i = some a → k < a.base.size ∧ ∃ l, HasKeys s i l
  | .setKey i k _ => ∀ a, s.var i = some a → k < a.base.size ∧ a.owns = true ∧ a.keys ≠ none
  -- `copy_or_move` is not used for keys that are not owned
  | .copyOrMove i => ∀ a, s.var i = some a → a.owns = true ∨ a.base.size = 0
  | _ => True

/-- The statement has been carried out, or has raised. -/
def KLeaves (P : FP) (junk : ℕ → ℕ) (s : KSt) (c : KStmt) (s' : KSt) : Prop :=
  kstep P junk s c = .ok s' ∨ kstep P junk s c = .raised s'

/-- The states that programs that meet their preconditions can get to. -/
inductive KReaches (P : FP) (junk : ℕ → ℕ) (s₀ : KSt) : KSt → Prop
  | start : KInitial s₀ → KReaches P junk s₀ s₀
  | step {s s' : KSt} {c : KStmt} : KReaches P junk s₀ s → KSafe s₀.mem.keys.length s c →
      KLeaves P junk s c s' → KReaches P junk s₀ s'

/-- The arrays a statement may change. -/
def KTouches (m : ℕ) : KStmt → Prop
  | .move i => m = i
  | .assign i _ => m = i
  | .moveAssign i j => m = i ∨ m = j
  | .assignScalars i _ => m = i
  | .moveScalars i j => m = i ∨ m = j
  | .allocScalars i _ => m = i
  | .allocKeys i _ => m = i
  | .setKey i _ _ => m = i
  | .copyOrMove i => m = i
  | .drop i => m = i
  | _ => False

end RoughPy.Arrays
