import Verif.Arrays.Spec

/-!
# Arrays of scalars with keys

The class `KeyScalarArray` (`/repo/scalars/include/roughpy/scalars/key_scalar_array.h`,
`/repo/scalars/src/key_scalar_array.cpp`), a `ScalarArray` with a pointer to keys.  The scalars are
those of `Verif.Arrays.Model`.  Undefined behaviour is told apart: `scalarUB` comes from the base
class, `keyUB` from the memory of the keys.

Not modelled: `load` and `save`, and functions of the base class that change its size behind the keys
(`convert_copy` into a keyed array).  Memory never runs out.
-/

namespace RoughPy.Arrays

open RoughPy.Args (Out)
open RoughPy.Scalars (Ty Val FP TRef conv)

/-! ## The memory of the keys -/

/-- A piece of memory with keys, of the user or of the library (`new key_type[count]`). -/
structure KBlock where
  cells : List ℕ
  user : Bool
  alive : Bool
  deriving DecidableEq

/-- A pointer to keys: a block and a position in it. -/
abbrev KPtr := ℕ × ℕ

/-- `delete[] p`: the pointer must be one that `new[]` gave and that has not been deleted. -/
def freeKeys (ks : List KBlock) (p : KPtr) : Option (List KBlock) :=
  match ks[p.1]? with
  | some B => if B.alive ∧ ¬ B.user ∧ p.2 = 0 then some (ks.set p.1 { B with alive := false }) else none
  | none => none

/-- `new key_type[n] {}` -/
def newKeys (ks : List KBlock) (n : ℕ) : List KBlock := ks ++ [⟨List.replicate n 0, false, true⟩]

/-- Reads `n` keys from a pointer on. -/
def readKeys (ks : List KBlock) (p : Option KPtr) (n : ℕ) : Option (List ℕ) :=
  if n = 0 then some []
  else
    match p with
    | some p =>
      match ks[p.1]? with
      | some B => if B.alive ∧ p.2 + n ≤ B.cells.length then some ((B.cells.drop p.2).take n) else none
      | none => none
    | none => none

/-- Writes keys from a pointer on. -/
def writeKeys (ks : List KBlock) (p : Option KPtr) (l : List ℕ) : Option (List KBlock) :=
  if l = [] then some ks
  else
    match p with
    | some p =>
      match ks[p.1]? with
      | some B =>
        if B.alive ∧ p.2 + l.length ≤ B.cells.length then
          some (ks.set p.1
            { B with cells := B.cells.take p.2 ++ l ++ B.cells.drop (p.2 + l.length) })
        else none
      | none => none
    | none => none

/-- `std::copy_n(src, n, dst)` -/
def copyKeys (ks : List KBlock) (src : Option KPtr) (n : ℕ) (dst : Option KPtr) :
    Option (List KBlock) :=
  (readKeys ks src n).bind fun l => writeKeys ks dst l

/-! ## Keyed arrays -/

/-- A keyed array (`key_scalar_array.h:48-51`) -/
structure KArr where
  base : Arr
  keys : Option KPtr
  owns : Bool
  deriving DecidableEq

/-- The memory of a program with keyed arrays. -/
structure KWorld where
  world : World
  keys : List KBlock
  deriving DecidableEq

/-- The outcome of a call that may leave something behind when it throws. -/
inductive KRes (α : Type) where
  | ok (a : α)
  | raised (a : α)
  | scalarUB
  | keyUB
  deriving DecidableEq

namespace KRes
variable {α β : Type}

/-- Applies a function to what a call leaves. -/
def map (f : α → β) : KRes α → KRes β
  | .ok a => .ok (f a)
  | .raised a => .raised (f a)
  | .scalarUB => .scalarUB
  | .keyUB => .keyUB

/-- A call of the base class that cannot throw. -/
def ofOut : Out α → KRes α
  | .ok a => .ok a
  | .err => .scalarUB
  | .ub => .scalarUB

/-- A call of the base class. -/
def ofRes : Res α → KRes α
  | .ok a => .ok a
  | .raised a => .raised a
  | .ub => .scalarUB

/-- An operation on the memory of keys. -/
def ofKeys : Option α → KRes α
  | some a => .ok a
  | none => .keyUB

end KRes

/-- `~KeyScalarArray()` (`key_scalar_array.cpp:36-41`), and then `~ScalarArray()`. -/
def kdtor (K : KWorld) (a : KArr) : KRes KWorld :=
  match (if a.owns then a.keys else none) with
  | none => (KRes.ofOut (dtor K.world a.base)).map fun w => ⟨w, K.keys⟩
  | some p =>
    match freeKeys K.keys p with
    | some ks => (KRes.ofOut (dtor K.world a.base)).map fun w => ⟨w, ks⟩
    | none => .keyUB

/-- `if (p_keys != nullptr) { delete[] p_keys; }` (`key_scalar_array.cpp:149`) -/
def freeOld (ks : List KBlock) : Option KPtr → Option (List KBlock)
  | some p => freeKeys ks p
  | none => some ks

/-- `allocate_keys(count)` (`key_scalar_array.cpp:147-161`): keys that are there are deleted whoever
owns them, and before the count is looked at; when the count is refused the pointer stays. -/
def allocKeys (K : KWorld) (a : KArr) (count : ℤ) : KRes (KWorld × KArr) :=
  if count = 0 then .ok (K, a)
  else
    match freeOld K.keys a.keys with
    | none => .keyUB
    | some ks =>
      if count = -1 ∨ count = (a.base.size : ℤ) then
        .ok (⟨K.world, newKeys ks a.base.size⟩, ⟨a.base, some (ks.length, 0), true⟩)
      else .raised (⟨K.world, ks⟩, a)

/-- `KeyScalarArray(const KeyScalarArray&)` (`key_scalar_array.cpp:42-51`): keys that are not owned are
not copied. -/
def kcopyCtor (K : KWorld) (a : KArr) : KRes (KWorld × KArr) :=
  match copyCtor K.world a.base with
  | .ok (w, b) =>
    match (if a.owns then a.keys else none) with
    | none => .ok (⟨w, K.keys⟩, ⟨b, none, false⟩)
    | some p =>
      (KRes.ofKeys (copyKeys (newKeys K.keys b.size) (some p) a.base.size (some (K.keys.length, 0)))).map
        fun ks => (⟨w, ks⟩, ⟨b, some (K.keys.length, 0), true⟩)
  | _ => .scalarUB

/-- `KeyScalarArray(KeyScalarArray&&)` (`key_scalar_array.cpp:52-57`): the new array and what is left
of the old one. -/
def kmoveCtor (a : KArr) : KArr × KArr :=
  (⟨(moveCtor a.base).1, a.keys, a.owns⟩, ⟨(moveCtor a.base).2, none, false⟩)

/-- What `this->~KeyScalarArray()` leaves of the members (`key_scalar_array.cpp:38-40`). -/
def KArr.destroyed (a : KArr) : KArr := ⟨a.base.destroyed, none, false⟩

/-- The second half of `operator=(const KeyScalarArray&)` (`key_scalar_array.cpp:93-100`): the keys. -/
def kassignKeys (K : KWorld) (b : Arr) (other : KArr) : KRes (KWorld × KArr) :=
  if other.owns then
    (KRes.ofKeys (copyKeys (newKeys K.keys b.size) other.keys other.base.size
        (some (K.keys.length, 0)))).map
      fun ks => (⟨K.world, ks⟩, ⟨b, some (K.keys.length, 0), true⟩)
  else .ok (K, ⟨b, other.keys, false⟩)

/-- `operator=(const KeyScalarArray&)` for another object (`key_scalar_array.cpp:88-104`): the array is
destroyed before its base is assigned to.  Keys that are not owned are shared. -/
def kcopyAssign (P : FP) (junk : ℕ → ℕ) (K : KWorld) (a other : KArr) : KRes (KWorld × KArr) :=
  match kdtor K a with
  | .ok K1 =>
    match copyAssign P junk K1.world a.destroyed.base other.base with
    | .ok (w, b) => kassignKeys ⟨w, K1.keys⟩ b other
    | .raised (w, b) => .raised (⟨w, K1.keys⟩, ⟨b, none, false⟩)
    | .ub => .scalarUB
  | .raised K1 => .raised (K1, a.destroyed)
  | .scalarUB => .scalarUB
  | .keyUB => .keyUB

/-- `operator=(const ScalarArray&)` for another object (`key_scalar_array.cpp:106-113`) -/
def kassignScalars (P : FP) (junk : ℕ → ℕ) (K : KWorld) (a : KArr) (other : Arr) :
    KRes (KWorld × KArr) :=
  match kdtor K a with
  | .ok K1 =>
    (KRes.ofRes (copyAssign P junk K1.world a.destroyed.base other)).map
      fun r => (⟨r.1, K1.keys⟩, ⟨r.2, none, false⟩)
  | .raised K1 => .raised (K1, a.destroyed)
  | .scalarUB => .scalarUB
  | .keyUB => .keyUB

/-- `operator=(KeyScalarArray&&)` for another object (`key_scalar_array.cpp:114-126`): the target and
what is left of the source, which still says that it owns keys. -/
def kmoveAssign (K : KWorld) (a other : KArr) : KRes (KWorld × KArr × KArr) :=
  match kdtor K a with
  | .ok K1 =>
    (KRes.ofOut (moveAssign K1.world a.destroyed.base other.base)).map
      fun r => (⟨r.1, K1.keys⟩, ⟨r.2.1, other.keys, other.owns⟩, ⟨r.2.2, none, other.owns⟩)
  | .raised K1 => .raised (K1, a.destroyed, other)
  | .scalarUB => .scalarUB
  | .keyUB => .keyUB

/-- `operator=(ScalarArray&&)` for another object (`key_scalar_array.cpp:127-134`): the target and what
is left of the source. -/
def kmoveScalars (K : KWorld) (a : KArr) (other : Arr) : KRes (KWorld × KArr × Arr) :=
  match kdtor K a with
  | .ok K1 =>
    (KRes.ofOut (moveAssign K1.world a.destroyed.base other)).map
      fun r => (⟨r.1, K1.keys⟩, ⟨r.2.1, none, false⟩, r.2.2)
  | .raised K1 => .raised (K1, a.destroyed, other)
  | .scalarUB => .scalarUB
  | .keyUB => .keyUB

/-- `ScalarType::allocate` (`standard_scalar_type.h:87-98`, `ap_rational_type.cpp:29-34`,
`ap_rat_poly_type.cpp:40-45`): the floating types refuse to allocate nothing. -/
def allocate (junk : ℕ → ℕ) (w : World) (t : Ty) (n : ℕ) : Option (World × Arr) :=
  if n = 0 ∧ t.fundamental then none
  else
    let r := w.alloc junk (List.replicate n (some (Val.zero t)))
    some (r.1, ⟨.ptr t, .owned, .impl r.2, n⟩)

/-- `allocate_scalars(count)` (`key_scalar_array.cpp:141-146`): the new scalars are assigned to the
array, which deletes its keys.  An array without a type has a null pointer as its type, which is
followed. -/
def allocScalars (junk : ℕ → ℕ) (K : KWorld) (a : KArr) (count : ℤ) : KRes (KWorld × KArr) :=
  match a.base.scalarType with
  | .ok none => .ok (K, a)
  | .ok (some t) =>
    if count < 0 then .ok (K, a)
    else
      match allocate junk K.world t count.toNat with
      | some r => (kmoveScalars ⟨r.1, K.keys⟩ a r.2).map fun r => (r.1, r.2.1)
      | none => .raised (K, a)
  | _ => if a.base.ty = .null ∧ count < 0 then .ok (K, a) else .scalarUB

/-- The member `keys()` of an array that is not constant (`key_scalar_array.cpp:135-140`): null for keys
that are not owned. -/
def KArr.mutKeys (a : KArr) : Option KPtr := if a.owns then a.keys else none

/-- The pointer to the key `k` after a pointer. -/
def shiftKey (p : Option KPtr) (k : ℕ) : Option KPtr := p.map fun p => (p.1, p.2 + k)

/-- `std::move(array).copy_or_move()` (`key_scalar_array.cpp:77-87`) for keys that are not owned: the
scalars of the result are those of `copy_or_clone()` (`scalar_array.cpp:242`), which always returns an
array without elements, but as many keys are copied as the array has elements. -/
def kclone (K : KWorld) (a : KArr) : KRes (KWorld × KArr) :=
  match allocKeys K ⟨Arr.empty, none, false⟩ (-1) with
  | .ok (K1, r) =>
    (KRes.ofKeys (copyKeys K1.keys a.keys a.base.size r.mutKeys)).map fun ks => (⟨K1.world, ks⟩, r)
  | _ => .keyUB

/-! ## Programs -/

/-- The memory and the keyed arrays of a program; a destroyed array leaves `none`. -/
structure KSt where
  mem : KWorld
  vars : List (Option KArr)
  deriving DecidableEq

/-- What a program can do with keyed arrays. -/
inductive KStmt where
  /-- `KeyScalarArray()` -/
  | empty
  /-- `KeyScalarArray(scalar_type, n)` (`key_scalar_array.cpp:64-69`) -/
  | typed (t : Ty) (n : ℕ)
  /-- `KeyScalarArray(array)` for an array over `n` elements of memory of the user
  (`key_scalar_array.cpp:58-60`, `:70-76`) -/
  | borrow (const : Bool) (r : TRef) (b o n : ℕ)
  /-- `KeyScalarArray(ScalarArray(i), keys)` (`key_scalar_array.cpp:61-63`) -/
  | withKeys (i : ℕ) (p : KPtr)
  /-- `KeyScalarArray(ScalarArray(i))` (`key_scalar_array.cpp:58-60`) -/
  | plain (i : ℕ)
  /-- a copy of an array -/
  | copy (i : ℕ)
  /-- an array made by moving from another -/
  | move (i : ℕ)
  /-- `i = j` -/
  | assign (i j : ℕ)
  /-- `i = std::move(j)` -/
  | moveAssign (i j : ℕ)
  /-- `i = static_cast<const ScalarArray&>(j)` -/
  | assignScalars (i j : ℕ)
  /-- `i = static_cast<ScalarArray&&>(j)` -/
  | moveScalars (i j : ℕ)
  /-- `i.allocate_scalars(count)` -/
  | allocScalars (i : ℕ) (count : ℤ)
  /-- `i.allocate_keys(count)` -/
  | allocKeys (i : ℕ) (count : ℤ)
  /-- reading `i.keys()[k]` of a constant array -/
  | getKey (i k : ℕ)
  /-- `i.keys()[k] = key` -/
  | setKey (i k x : ℕ)
  /-- an array made by `std::move(i).copy_or_move()` -/
  | copyOrMove (i : ℕ)
  /-- the end of the life of `i` -/
  | drop (i : ℕ)
  deriving DecidableEq

namespace KSt

/-- A living array. -/
def var (s : KSt) (i : ℕ) : Option KArr := (s.vars[i]?).join

/-- The state after a new array has been made. -/
def push (s : KSt) (r : KWorld × KArr) : KSt := ⟨r.1, s.vars ++ [some r.2]⟩

/-- The state after an array has changed. -/
def put (s : KSt) (i : ℕ) (r : KWorld × KArr) : KSt := ⟨r.1, s.vars.set i (some r.2)⟩

end KSt

/-- Runs a function on a living array; using another is undefined. -/
def withKVar (s : KSt) (i : ℕ) (f : KArr → KRes KSt) : KRes KSt :=
  match s.var i with
  | some a => f a
  | none => .scalarUB

/-- One statement.  Assigning an array to itself does nothing. -/
def kstep (P : FP) (junk : ℕ → ℕ) (s : KSt) : KStmt → KRes KSt
  | .empty => .ok (s.push (s.mem, ⟨Arr.empty, none, false⟩))
  | .typed t n =>
    .ok (s.push (⟨(typed junk s.mem.world t n).1, s.mem.keys⟩,
      ⟨(typed junk s.mem.world t n).2, none, false⟩))
  | .borrow c r b o n => .ok (s.push (s.mem, ⟨borrowed c r b o n, none, false⟩))
  | .withKeys i p => withKVar s i fun a =>
      (KRes.ofOut (copyCtor s.mem.world a.base)).map fun r =>
        s.push (⟨r.1, s.mem.keys⟩, ⟨r.2, some p, false⟩)
  | .plain i => withKVar s i fun a =>
      (KRes.ofOut (copyCtor s.mem.world a.base)).map fun r =>
        s.push (⟨r.1, s.mem.keys⟩, ⟨r.2, none, false⟩)
  | .copy i => withKVar s i fun a => (kcopyCtor s.mem a).map s.push
  | .move i => withKVar s i fun a =>
      .ok ((s.put i (s.mem, (kmoveCtor a).2)).push (s.mem, (kmoveCtor a).1))
  | .assign i j => withKVar s i fun a => withKVar s j fun b =>
      if i = j then .ok s else (kcopyAssign P junk s.mem a b).map (s.put i)
  | .moveAssign i j => withKVar s i fun a => withKVar s j fun b =>
      if i = j then .ok s
      else (kmoveAssign s.mem a b).map fun r => (s.put i (r.1, r.2.1)).put j (r.1, r.2.2)
  | .assignScalars i j => withKVar s i fun a => withKVar s j fun b =>
      if i = j then .ok s else (kassignScalars P junk s.mem a b.base).map (s.put i)
  | .moveScalars i j => withKVar s i fun a => withKVar s j fun b =>
      if i = j then .ok s
      else (kmoveScalars s.mem a b.base).map fun r =>
        (s.put i (r.1, r.2.1)).put j (r.1, ⟨r.2.2, b.keys, b.owns⟩)
  | .allocScalars i count => withKVar s i fun a => (allocScalars junk s.mem a count).map (s.put i)
  | .allocKeys i count => withKVar s i fun a => (allocKeys s.mem a count).map (s.put i)
  | .getKey i k => withKVar s i fun a =>
      (KRes.ofKeys (readKeys s.mem.keys (shiftKey a.keys k) 1)).map fun _ => s
  | .setKey i k x => withKVar s i fun a =>
      (KRes.ofKeys (writeKeys s.mem.keys (shiftKey a.mutKeys k) [x])).map fun ks =>
        ⟨⟨s.mem.world, ks⟩, s.vars⟩
  | .copyOrMove i => withKVar s i fun a =>
      if a.owns then .ok ((s.put i (s.mem, (kmoveCtor a).2)).push (s.mem, (kmoveCtor a).1))
      else (kclone s.mem a).map s.push
  | .drop i => withKVar s i fun a => (kdtor s.mem a).map fun K => ⟨K, s.vars.set i none⟩

/-- A run of a program, which goes on after a statement that throws. -/
def krun (P : FP) (junk : ℕ → ℕ) (s : KSt) : List KStmt → KRes KSt
  | [] => .ok s
  | c :: cs =>
    match kstep P junk s c with
    | .ok s' => krun P junk s' cs
    | .raised s' => krun P junk s' cs
    | .scalarUB => .scalarUB
    | .keyUB => .keyUB

end RoughPy.Arrays
