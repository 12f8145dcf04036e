import Verif.Scalars.Model

/-!
# Arrays of scalars

The class `ScalarArray` (`/repo/scalars/include/roughpy/scalars/scalar_array.h`,
`/repo/scalars/src/scalar_array.cpp`), the reference counted buffers behind it
(`/repo/platform/include/roughpy/platform/devices/device_object_base.h`,
`/repo/platform/src/devices/host/host_buffer.cpp`) and `convert_copy`
(`/repo/scalars/src/scalar_type.cpp:124-145`,
`/repo/scalars/src/scalar_helpers/standard_scalar_type.h:125-196`).

The outcome `ub` stands for undefined behaviour and for `std::terminate`.  Debug assertions are off,
as in a release build.

Simplifications: only the host device.  Memory is made of elements and not of bytes; looking at
memory through a type of another kind than the one it was made with is undefined.  Memory never runs
out.  The members of an array that is destroyed and then filled again inside an assignment keep what
the destructor wrote to them.
-/

namespace RoughPy.Arrays

open RoughPy.Args (Out)
open RoughPy.Scalars (Ty Val FP TRef conv)

/-! ## Memory -/

/-- A piece of memory: an element is `none` while no object has been made in it. -/
structure Block where
  cells : List (Option Val)
  alive : Bool
  deriving DecidableEq

/-- A `CPUBuffer` (`host_buffer.h:53-105`): the block it frees, and the reference count of
`RefCountBase` (`device_object_base.h:71-89`), a word of 64 bits. -/
structure Buf where
  block : ℕ
  count : ℕ
  alive : Bool
  deriving DecidableEq

/-- The memory outside the arrays: that of the user and that of the library, and the buffer
objects. -/
structure World where
  blocks : List Block
  bufs : List Buf
  deriving DecidableEq

/-- What a pointer to elements points to; `obj` is the object of a buffer. -/
inductive Ptr where
  | null
  | elem (b o : ℕ)
  | obj (k : ℕ)
  deriving DecidableEq

/-- Pointer arithmetic; a null pointer stays null (`scalar_array.cpp:271`, `:289`). -/
def Ptr.shift : Ptr → ℕ → Ptr
  | .elem b o, i => .elem b (o + i)
  | p, _ => p

namespace World

/-- The element at a place of a living block. -/
def cell (w : World) (b o : ℕ) : Option (Option Val) :=
  match w.blocks[b]? with
  | some B => if B.alive then B.cells[o]? else none
  | none => none

/-- Reads the object behind a pointer. -/
def read (w : World) : Ptr → Out Val
  | .elem b o =>
    match w.cell b o with
    | some (some v) => .ok v
    | _ => .ub
  | _ => .ub

/-- Sets an element. -/
def setCell (w : World) (b o : ℕ) (v : Val) : World :=
  match w.blocks[b]? with
  | some B => ⟨w.blocks.set b ⟨B.cells.set o (some v), B.alive⟩, w.bufs⟩
  | none => w

/-- Writes a value of a type through a pointer (`write_result`, `src/scalar/casts.cpp:40-84`): a
number is made in place, a rational number or polynomial is assigned to, for which an object must be
there. -/
def write (w : World) (t : Ty) (p : Ptr) (v : Val) : Out World :=
  match p with
  | .elem b o =>
    match w.cell b o with
    | some (some u) =>
      match u.as t with
      | .ok _ => .ok (w.setCell b o v)
      | _ => .ub
    | some none => if t.fundamental then .ok (w.setCell b o v) else .ub
    | none => .ub
  | _ => .ub

/-- `raw_alloc` (`host_device_impl.cpp:205-213`) and `Buffer(new CPUBuffer(…))`
(`device_object_base.h:123-126`): the count of the new buffer is not initialised, because
`std::atomic` has a trivial default constructor before C++20, so it is one more than the word `junk`
found in the memory. -/
def alloc (junk : ℕ → ℕ) (w : World) (cells : List (Option Val)) : World × ℕ :=
  (⟨w.blocks ++ [⟨cells, true⟩],
    w.bufs ++ [⟨w.blocks.length, (junk w.bufs.length + 1) % 2 ^ 64, true⟩]⟩, w.bufs.length)

/-- `inc_ref` (`device_object_base.h:165-168`) -/
def incRef (w : World) (k : ℕ) : Out World :=
  match w.bufs[k]? with
  | some B =>
    if B.alive then .ok ⟨w.blocks, w.bufs.set k ⟨B.block, (B.count + 1) % 2 ^ 64, B.alive⟩⟩
    else .ub
  | none => .ub

/-- Frees the memory of a buffer (`host_buffer.cpp:63-73`). -/
def freeBlock (w : World) (b : ℕ) : World :=
  match w.blocks[b]? with
  | some B => ⟨w.blocks.set b ⟨B.cells, false⟩, w.bufs⟩
  | none => w

/-- `~ObjectBase` for a pointer that is not null (`device_object_base.h:195-200`): the buffer is
deleted if the count was one. -/
def decRef (w : World) (k : ℕ) : Out World :=
  match w.bufs[k]? with
  | some B =>
    if B.alive then
      let B' : Buf := ⟨B.block, (B.count + (2 ^ 64 - 1)) % 2 ^ 64, decide (B.count ≠ 1)⟩
      let w' : World := ⟨w.blocks, w.bufs.set k B'⟩
      .ok (if B.count = 1 then w'.freeBlock B.block else w')
    else .ub
  | none => .ub

end World

/-! ## Arrays -/

/-- `ScalarArrayStorageModel` (`scalar_array.h:43-48`) -/
inductive Mode where
  | constB
  | mutB
  | owned
  deriving DecidableEq, Repr

/-- The word of the union (`scalar_array.h:66-71`): null, a pointer to elements, or the pointer of a
`Buffer` to its buffer object. -/
inductive Word where
  | null
  | data (b o : ℕ)
  | impl (k : ℕ)
  deriving DecidableEq

/-- A scalar array (`scalar_array.h:59-73`) -/
structure Arr where
  ty : TRef
  mode : Mode
  word : Word
  size : ℕ
  deriving DecidableEq

/-- `ScalarArray()` (`scalar_array.cpp:59`) -/
def Arr.empty : Arr := ⟨.null, .constB, .null, 0⟩

/-- `PackedScalarTypePointer::is_null` -/
def Arr.typeNull (a : Arr) : Bool := decide (a.ty = .null) && decide (a.mode = .constB)

/-- `is_null` (`scalar_array.h:157-160`) -/
def Arr.isNull (a : Arr) : Bool := a.typeNull && decide (a.size = 0)

/-- `type_info` (`scalar_array.cpp:251-255`): without a type a null pointer is followed. -/
def Arr.info (a : Arr) : Out Ty :=
  match a.ty with
  | .null => .ub
  | .ptr t => .ok t
  | .info t => .ok t.readBack

/-- The type of the scalar that `operator[]` makes (`scalar_array.cpp:357-382`): a type info is packed
a second time. -/
def Arr.elemInfo (a : Arr) : Out Ty :=
  match a.ty with
  | .null => .ub
  | .ptr t => .ok t
  | .info t => .ok t.readBack.readBack

/-- `raw_pointer()` (`scalar_array.cpp:257-270`): a borrowed pointer is taken from the union whatever
is in it. -/
def Arr.ptr (w : World) (a : Arr) : Out Ptr :=
  match a.mode, a.word with
  | _, .null => .ok .null
  | .owned, .impl k =>
    match w.bufs[k]? with
    | some B => if B.alive then .ok (.elem B.block 0) else .ub
    | none => .ub
  | .owned, .data _ _ => .ub
  | _, .data b o => .ok (.elem b o)
  | _, .impl k => .ok (.obj k)

/-- `pointer()` (`scalar_array.cpp:293-309`): a buffer without memory has no device, so this
throws. -/
def Arr.pointer (w : World) (a : Arr) : Out Ptr :=
  if a.mode = .owned ∧ a.word = .null then .err else a.ptr w

/-- `mut_pointer()` (`scalar_array.cpp:311-333`) -/
def Arr.mutPointer (w : World) (a : Arr) : Out Ptr :=
  if a.mode = .constB then .err else a.pointer w

/-- `check_for_ptr_access` (`scalar_array.cpp:441-450`): for an array without a type a null pointer is
followed. -/
def Arr.checkAccess (a : Arr) (change : Bool) : Out Unit :=
  if a.ty = .null then .ub else if change ∧ a.mode = .constB then .err else .ok ()

/-- Reading the number `array[i]` of a constant array (`scalar_array.cpp:357-366`); a scalar with a
null pointer is zero (`scalar.h:598-613`). -/
def get (w : World) (a : Arr) (i : ℕ) : Out Val :=
  (a.checkAccess false).bind fun _ =>
    if i < a.size then
      (a.ptr w).bind fun p => a.elemInfo.bind fun t =>
        if p = .null then .ok (Val.zero t) else (w.read (p.shift i)).bind fun v => v.as t
    else .err

/-- `array[i] = number` (`scalar_array.cpp:368-382`, `scalar.h:358-406`) -/
def set (P : FP) (w : World) (a : Arr) (i : ℕ) (v : Val) : Out World :=
  (a.checkAccess true).bind fun _ =>
    if i < a.size then
      (a.ptr w).bind fun p => a.elemInfo.bind fun t =>
        (conv P t v).bind fun u => w.write t (p.shift i) u
    else .err

/-- `ScalarArray(const ScalarType*, size)` (`scalar_array.cpp:93-105`), with `allocate`
(`standard_scalar_type.h:87-98`, `ap_rational_type.cpp:29-34`, `ap_rat_poly_type.cpp:40-45`): zeros. -/
def typed (junk : ℕ → ℕ) (w : World) (t : Ty) (n : ℕ) : World × Arr :=
  if n = 0 then (w, ⟨.ptr t, .constB, .null, 0⟩)
  else
    let r := w.alloc junk (List.replicate n (some (Val.zero t)))
    (r.1, ⟨.ptr t, .owned, .impl r.2, n⟩)

/-- `ScalarArray(TypeInfo, size)` (`scalar_array.cpp:107-116`): the union is not initialised, so the
assignment to the buffer (or, for no elements, the destructor) follows an arbitrary pointer. -/
def untyped (t : Ty) : Out (World × Arr) := if t.fundamental then .ub else .err

/-- The constructors from memory of the user (`scalar_array.cpp:118-140`). -/
def borrowed (const : Bool) (r : TRef) (b o n : ℕ) : Arr :=
  ⟨r, if const then .constB else .mutB, .data b o, n⟩

/-- `ScalarArray(const ScalarArray&)` (`scalar_array.cpp:61-77`): of a buffer a reference is taken. -/
def copyCtor (w : World) (a : Arr) : Out (World × Arr) :=
  match a.mode, a.word with
  | .owned, .impl k => (w.incRef k).map fun w' => (w', a)
  | .owned, .data _ _ => .ub
  | _, _ => .ok (w, a)

/-- `ScalarArray(ScalarArray&&)` (`scalar_array.cpp:79-97`): the new array and what is left of the
old one, which keeps its size. -/
def moveCtor (a : Arr) : Arr × Arr := (a, { a with word := .null })

/-- `~ScalarArray()` (`scalar_array.cpp:154-162`) -/
def dtor (w : World) (a : Arr) : Out World :=
  match a.mode, a.word with
  | .owned, .impl k => w.decRef k
  | .owned, .data _ _ => .ub
  | _, _ => .ok w

/-- What the destructor leaves of the members (`scalar_array.cpp:160-161`): the size stays. -/
def Arr.destroyed (a : Arr) : Arr := ⟨.null, .constB, .null, a.size⟩

/-- The outcome of a call that may leave something behind when it throws. -/
inductive Res (α : Type) where
  | ok (a : α)
  | raised (a : α)
  | ub
  deriving DecidableEq

/-- An outcome of which an exception leaves the given thing behind. -/
def Res.ofOut {α : Type} (left : α) : Out α → Res α
  | .ok a => .ok a
  | .err => .raised left
  | .ub => .ub

/-- Applies a function to what a call leaves. -/
def Res.map {α β : Type} (f : α → β) : Res α → Res β
  | .ok a => .ok (f a)
  | .raised a => .raised (f a)
  | .ub => .ub

/-! ## Converting copies -/

/-- The loop of `scalar_convert_copy` from the element `i` on (`src/scalar/casts.cpp:40-133`). -/
def copyLoop (P : FP) (dt st : Ty) (dst src : Ptr) : ℕ → ℕ → World → Res World
  | 0, _, w => .ok w
  | n + 1, i, w =>
    match ((w.read (src.shift i)).bind fun v => v.as st) with
    | .ok v =>
      match conv P dt v with
      | .ok u =>
        match w.write dt (dst.shift i) u with
        | .ok w' => copyLoop P dt st dst src n (i + 1) w'
        | _ => .ub
      | .err => .raised w
      | .ub => .ub
    | _ => .ub

/-- `ScalarType::convert_copy` (`src/scalar_type.cpp:124-145`): the number of elements is that of the
target. -/
def convertBase (P : FP) (w : World) (dst src : Arr) : Res World :=
  if dst.size < src.size then .raised w
  else if dst.mode = .owned ∧ dst.word = .null then .raised w
  else
    match dst.mutPointer w with
    | .ok p =>
      match dst.info with
      | .ok dt =>
        match src.pointer w with
        | .ok q =>
          match src.info with
          | .ok st =>
            if dt = .other ∨ st = .other then .raised w
            else copyLoop P dt st p q dst.size 0 w
          | _ => .ub
        | .err => .raised w
        | .ub => .ub
      | _ => .ub
    | .err => .raised w
    | .ub => .ub

/-- `capacity()` in elements (`scalar_array.cpp:452-461`) -/
def Arr.capacity (w : World) (a : Arr) : Out ℕ :=
  match a.mode, a.word with
  | .owned, .null => .ok 0
  | .owned, .impl k =>
    match w.bufs[k]? with
    | some B =>
      if B.alive then
        match w.blocks[B.block]? with
        | some C => .ok C.cells.length
        | none => .ub
      else .ub
    | none => .ub
  | .owned, .data _ _ => .ub
  | _, _ => .ok a.size

/-- `StandardScalarType::convert_copy` for the type of the target
(`standard_scalar_type.h:125-196`): a buffer that is too small is replaced, and one that is not gets
the size of its memory; a borrowed array cannot be replaced. -/
def convertStd (P : FP) (junk : ℕ → ℕ) (w : World) (t : Ty) (dst src : Arr) : Res (World × Arr) :=
  if src.size = 0 then .ok (w, dst)
  else if dst.mode = .constB then .raised (w, dst)
  else
    match dst.capacity w with
    | .ok cap =>
      if cap < src.size then
        if dst.mode = .owned then
          match dtor w dst with
          | .ok w1 =>
            let r := typed junk w1 t src.size
            (convertBase P r.1 r.2 src).map fun w' => (w', r.2)
          | _ => .ub
        else .raised (w, dst)
      else (convertBase P w { dst with size := cap } src).map fun w' => (w', { dst with size := cap })
    | _ => .ub

/-- `type()` (`scalar_array.cpp:244-249`, `scalar_type_of.cpp:24-31`): the integers have no scalar type;
for an unknown type info it throws, and it is `noexcept`; without a type it answers a null pointer,
which the callers follow. -/
def Arr.scalarType (a : Arr) : Out (Option Ty) :=
  match a.ty with
  | .null => .ub
  | .ptr t => .ok (some t)
  | .info t =>
    match t.readBack with
    | .int _ => .ok none
    | .uint _ => .ok none
    | .other => .ub
    | u => .ok (some u)

/-- `type->convert_copy(dst, src)` for a target of this type or without one. -/
def convertWith (P : FP) (junk : ℕ → ℕ) (w : World) (t : Ty) (dst src : Arr) : Res (World × Arr) :=
  if t.fundamental then convertStd P junk w t dst src
  else (convertBase P w dst src).map fun w' => (w', dst)

/-- `type->convert_copy(dst, src)` (`standard_scalar_type.h:125-158`, `ap_rational_type.cpp:51-55`,
`ap_rat_poly_type.cpp:64-68`): the types of the numbers pass the call on to the type of the target;
for a target without a type the type of the source copies first. -/
def convertCopy (P : FP) (junk : ℕ → ℕ) (w : World) (t : Ty) (dst src : Arr) : Res (World × Arr) :=
  if t.fundamental then
    if src.size = 0 then .ok (w, dst)
    else if dst.mode = .constB then .raised (w, dst)
    else
      match dst.scalarType with
      | .ok (some d) => convertWith P junk w d dst src
      | .ok none =>
        match src.scalarType with
        | .ok (some u) =>
          if u = t then convertStd P junk w t dst src
          else
            match convertWith P junk w u dst src with
            | .ok r => convertStd P junk r.1 t r.2 src
            | r => r
        | .ok none => convertStd P junk w t dst src
        | _ => .ub
      | _ => .ub
  else (convertBase P w dst src).map fun w' => (w', dst)

/-! ## Assignment -/

/-- The copy of the bytes of `n` elements (`std::memcpy`). -/
def memcpy (dst src : Ptr) : ℕ → ℕ → World → Res World
  | 0, _, w => .ok w
  | n + 1, i, w =>
    match w.read (src.shift i) with
    | .ok v =>
      match w.write v.ty (dst.shift i) v with
      | .ok w' => memcpy dst src n (i + 1) w'
      | _ => .ub
    | _ => .ub

/-- `operator=(const ScalarArray&)` for another object (`scalar_array.cpp:164-220`).  The destructor
has set the type to null, so type and storage mode are those of the source; the elements are put into
a new buffer in the union, whatever the storage mode is. -/
def copyAssign (P : FP) (junk : ℕ → ℕ) (w : World) (a other : Arr) : Res (World × Arr) :=
  if other.typeNull then .ok (w, a)
  else
    match dtor w a with
    | .ok w1 =>
      let a1 : Arr := { a.destroyed with ty := other.ty, mode := other.mode }
      match a1.info with
      | .ok t =>
        let r := w1.alloc junk (List.replicate other.size none)
        let a2 : Arr := ⟨other.ty, other.mode, .impl r.2, other.size⟩
        match other.ty with
        | .ptr u => convertCopy P junk r.1 u a2 other
        | _ =>
          if t.fundamental then
            match other.ptr r.1 with
            | .ok q =>
              (memcpy (.elem w1.blocks.length 0) q other.size 0 r.1).map fun w' => (w', a2)
            | _ => .ub
          else .raised (w1, a1)
      | _ => .ub
    | _ => .ub

/-- `operator=(ScalarArray&&)` for another object (`scalar_array.cpp:222-241`): the target and what is
left of the source, which keeps a borrowed pointer. -/
def moveAssign (w : World) (a other : Arr) : Out (World × Arr × Arr) :=
  (dtor w a).map fun w' =>
    (w', other, if other.mode = .owned then { other with word := .null } else other)

/-- The size of a slice, a subtraction of unsigned numbers. -/
def sliceSize (b e : ℕ) : ℕ := (e + (2 ^ 64 - b % 2 ^ 64)) % 2 ^ 64

/-- The word of a pointer to elements. -/
def Ptr.toWord : Ptr → Word
  | .null => .null
  | .elem b o => .data b o
  | .obj k => .impl k

/-- `array[{begin, end}]` (`scalar_array.cpp:384-439`), of a constant array or of one that can be
changed; whether `begin < end` is only asserted. -/
def slice (const : Bool) (w : World) (a : Arr) (b e : ℕ) : Out Arr :=
  if e ≤ a.size then
    if a.mode = .owned ∧ a.word = .null then .err
    else if ¬ const ∧ a.mode = .constB then .err
    else
      (a.ptr w).bind fun p =>
        .ok ⟨a.ty, if const then .constB else .mutB, (p.shift b).toWord, sliceSize b e⟩
  else .err

/-- `borrow()` and `borrow_mut()` (`scalar_array.cpp:497-505`) -/
def view (const : Bool) (w : World) (a : Arr) : Out Arr :=
  ((if const then a.pointer w else a.mutPointer w)).map fun p =>
    ⟨a.ty, if const then .constB else .mutB, p.toWord, a.size⟩

/-! ## Programs -/

/-- The memory and the arrays of a program; a destroyed array leaves `none`. -/
structure St where
  world : World
  vars : List (Option Arr)
  deriving DecidableEq

/-- What a program can do with arrays. -/
inductive Stmt where
  /-- `ScalarArray()` -/
  | empty
  /-- `ScalarArray(scalar_type, n)` -/
  | typed (t : Ty) (n : ℕ)
  /-- `ScalarArray(type_info, n)` -/
  | untyped (t : Ty) (n : ℕ)
  /-- an array over `n` elements of memory of the user -/
  | borrow (const : Bool) (r : TRef) (b o n : ℕ)
  /-- a copy of an array -/
  | copy (i : ℕ)
  /-- an array made by moving from another -/
  | move (i : ℕ)
  /-- `i = j` -/
  | assign (i j : ℕ)
  /-- `i = std::move(j)` -/
  | moveAssign (i j : ℕ)
  /-- reading `i[k]` -/
  | get (i k : ℕ)
  /-- `i[k] = number` -/
  | set (i k : ℕ) (v : Val)
  /-- `i[{b, e}]` -/
  | slice (const : Bool) (i b e : ℕ)
  /-- `i.borrow()`, `i.borrow_mut()` -/
  | view (const : Bool) (i : ℕ)
  /-- `type->convert_copy(i, j)` for a scalar type -/
  | convert (t : Ty) (i j : ℕ)
  /-- the end of the life of `i` -/
  | drop (i : ℕ)
  deriving DecidableEq

namespace St

/-- A living array. -/
def var (s : St) (i : ℕ) : Option Arr := (s.vars[i]?).join

/-- The state after a new array has been made. -/
def push (s : St) (r : World × Arr) : St := ⟨r.1, s.vars ++ [some r.2]⟩

/-- The state after an array has changed. -/
def put (s : St) (i : ℕ) (r : World × Arr) : St := ⟨r.1, s.vars.set i (some r.2)⟩

/-- The state after the memory has changed. -/
def mem (s : St) (w : World) : St := ⟨w, s.vars⟩

end St

/-- Runs a function on a living array; using another is undefined. -/
def withVar (s : St) (i : ℕ) (f : Arr → Res St) : Res St :=
  match s.var i with
  | some a => f a
  | none => .ub

/-- One statement.  Assigning an array to itself does nothing (`scalar_array.cpp:166`, `:224`). -/
def step (P : FP) (junk : ℕ → ℕ) (s : St) : Stmt → Res St
  | .empty => .ok (s.push (s.world, Arr.empty))
  | .typed t n => .ok (s.push (typed junk s.world t n))
  | .untyped t _ => .ofOut s ((untyped t).map s.push)
  | .borrow c r b o n => .ok (s.push (s.world, borrowed c r b o n))
  | .copy i => withVar s i fun a => .ofOut s ((copyCtor s.world a).map s.push)
  | .move i => withVar s i fun a =>
      .ok ((s.put i (s.world, (moveCtor a).2)).push (s.world, (moveCtor a).1))
  | .assign i j => withVar s i fun a => withVar s j fun b =>
      if i = j then .ok s else (copyAssign P junk s.world a b).map (s.put i)
  | .moveAssign i j => withVar s i fun a => withVar s j fun b =>
      if i = j then .ok s
      else .ofOut s ((moveAssign s.world a b).map fun r =>
        (s.put i (r.1, r.2.1)).put j (r.1, r.2.2))
  | .get i k => withVar s i fun a => .ofOut s ((get s.world a k).map fun _ => s)
  | .set i k v => withVar s i fun a => .ofOut s ((set P s.world a k v).map s.mem)
  | .slice c i b e => withVar s i fun a =>
      .ofOut s ((slice c s.world a b e).map fun r => s.push (s.world, r))
  | .view c i => withVar s i fun a =>
      .ofOut s ((view c s.world a).map fun r => s.push (s.world, r))
  | .convert t i j => withVar s i fun a => withVar s j fun b =>
      (convertCopy P junk s.world t a b).map (s.put i)
  | .drop i => withVar s i fun a =>
      .ofOut s ((dtor s.world a).map fun w => ⟨w, s.vars.set i none⟩)

/-- A run of a program, which goes on after a statement that throws. -/
def run (P : FP) (junk : ℕ → ℕ) (s : St) : List Stmt → Res St
  | [] => .ok s
  | c :: cs =>
    match step P junk s c with
    | .ok s' => run P junk s' cs
    | .raised s' => run P junk s' cs
    | .ub => .ub

end RoughPy.Arrays
