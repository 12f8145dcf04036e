import Mathlib.Data.List.Basic

/-!
Model of memory on the host device: `platform/include/roughpy/device/memory.h`,
`platform/src/device/memory.cpp`, `platform/src/device/host_address_memory.cpp`,
`platform/src/device/host_device.cpp` and `ScopedSafePtr` of
`platform/include/roughpy/platform/alloc.h`.

A block is a list of cells, one per element of the type it is used for; the bytes after the last whole
element are not represented.  `size_t` has 64 bits.  Memory of other devices is not modelled (the source
has no other device of this interface), nor are reference counts of memory and views.
-/

namespace RoughPy.HostMem

/-- Result of a call: it returns, it throws, or the behaviour is undefined. -/
inductive Out (α : Type) where
  | ok (a : α)
  | throws
  | ub
  deriving DecidableEq, Repr

/-- `MemoryMode` (`memory.h:26-31`) -/
inductive Mode where
  | readOnly
  | writeOnly
  | readWrite
  deriving DecidableEq, Repr

/-- What the code asks of a `generics::Type`: identity, `object_size` and whether it is one of the
builtin types (whose `copy_or_fill` ignores a null destination and whose elements need no
construction). -/
structure Ty where
  id : ℕ
  size : ℕ
  builtin : Bool
  deriving DecidableEq, Repr

/-- A block of the heap: its size in bytes and the elements in it, `none` where nothing has been
written. -/
structure Block (α : Type) where
  cap : ℕ
  cells : List (Option α)
  deriving DecidableEq, Repr

/-- The members of `HostAddressMemory` (`host_address_memory.h:19-24`); a null `p_data` is `none`.  The
device is always the host. -/
structure Mem (α : Type) where
  ty : Ty
  data : Option (Block α)
  n : ℕ
  bytes : ℕ
  mode : Mode
  deriving DecidableEq, Repr

/-- A power of two (`is_alignment`, `alloc.h:98-102`) -/
def isPow2 (a : ℕ) : Bool := decide (0 < a) && a &&& (a - 1) == 0

/-- `aligned_alloc(alignment, size)` (`platform/src/alloc.cpp:17-20`): Boost's version for POSIX raises
the alignment to that of a pointer and asks `posix_memalign`, which fails when the alignment is not a
power of two or the memory is exhausted.  `avail` is what the system can give.  Boost asserts that the
alignment is a power of two; the model is of a build without assertions. -/
def alignedAlloc (α : Type) (ty : Ty) (avail alignment size : ℕ) : Option (Block α) :=
  let a := if alignment < 8 then 8 else alignment
  if isPow2 a && decide (size ≤ avail) then some ⟨size, List.replicate (size / ty.size) none⟩ else none

/-- The constructor of `ScopedSafePtr` (`alloc.h:149-152`) -/
def scopedSafePtr (α : Type) (ty : Ty) (avail : ℕ) (size alignment : ℕ) : Option (Block α) :=
  alignedAlloc α ty avail alignment size

/-- The first `k` cells, if all have been written -/
def readCells {α : Type} (cells : List (Option α)) (k : ℕ) : Option (List α) :=
  if k ≤ cells.length then (cells.take k).mapM id else none

/-- `Type::copy_or_fill` (`builtin_type_methods.h:105-142`, `rational_type.cpp:95-131`): a null source
means zero; a null destination is ignored by builtin types only; writing past the block, reading what
was never written and assigning to an object which was never constructed are undefined. -/
def copyOrFill {α : Type} [Zero α] (ty : Ty) (dst : Option (Block α)) (src : Option (Block α))
    (count : ℕ) (uninit : Bool) : Out (Option (Block α)) :=
  match dst with
  | none => if ty.builtin || count == 0 then .ok none else .ub
  | some b =>
    if count = 0 then .ok (some b)
    else if b.cap < count * ty.size then .ub
    else if !ty.builtin && !uninit && (readCells b.cells count).isNone then .ub
    else
      match src with
      | none => .ok (some ⟨b.cap, List.replicate count (some 0) ++ b.cells.drop count⟩)
      | some s =>
        match readCells s.cells count with
        | none => .ub
        | some xs => .ok (some ⟨b.cap, xs.map some ++ b.cells.drop count⟩)

/-- `HostDeviceHandle::allocate_memory` (`host_device.cpp:44-74`).  The holder is constructed with
`safe_holder(alignment, bytes)` (`:55`), while the constructor takes the size first and the alignment
second. -/
def allocateMemory (α : Type) [Zero α] (avail : ℕ) (ty : Ty) (size alignment : ℕ) : Out (Mem α) :=
  let alignment := if alignment ≤ 16 then 16 else alignment
  let bytes := size * ty.size % 2 ^ 64
  let holder := scopedSafePtr α ty avail alignment bytes
  match copyOrFill ty holder none size true with
  | .ok d => .ok ⟨ty, d, size, bytes, .readWrite⟩
  | .throws => .throws
  | .ub => .ub

/-- `HostAddressMemory::data() const` (`host_address_memory.cpp:53-57`) -/
def Mem.constData {α : Type} (m : Mem α) : Out (Option (Block α)) :=
  if m.mode = .writeOnly then .throws else .ok m.data

/-- `HostAddressMemory::data()` (`host_address_memory.cpp:59-63`) -/
def Mem.mutData {α : Type} (m : Mem α) : Out (Option (Block α)) :=
  if m.mode = .readOnly then .throws else .ok m.data

/-- A view (`memory.h:88-177`): the element its pointer is at, counted from the start of the memory, and
the number of elements it says it has. -/
structure View where
  start : ℕ
  len : ℕ
  deriving DecidableEq, Repr

/-- `HostAddressMemory::map_memory` (`host_address_memory.cpp:74-88`); the mode is not looked at.  The
pointer is `offset * object_size` bytes from the start, element `offset`. -/
def Mem.mapMemory {α : Type} (m : Mem α) (offset npos : ℕ) : Out View :=
  if offset < m.n then
    if npos = 2 ^ 64 - 1 then .ok ⟨offset, m.n - offset⟩
    else if m.n < (offset + npos) % 2 ^ 64 then .ok ⟨offset, m.n - offset⟩
    else .ok ⟨offset, npos⟩
  else .throws

/-- `HostAddressMemory::map_const_memory` (`host_address_memory.cpp:89-103`) -/
def Mem.mapConstMemory {α : Type} (m : Mem α) (offset npos : ℕ) : Out View :=
  if offset < m.n then
    if npos = 2 ^ 64 - 1 then .ok ⟨offset, m.n - offset⟩
    else if m.n < (offset + npos) % 2 ^ 64 then .ok ⟨offset, m.n - offset⟩
    else .ok ⟨offset, npos⟩
  else .throws

/-- Reading element `i` of the span of a view (`memory.h:122-126`, `:172-176`); nothing is checked -/
def Mem.read {α : Type} (m : Mem α) (v : View) (i : ℕ) : Out α :=
  match m.data with
  | none => .ub
  | some b =>
    match b.cells[v.start + i]? with
    | some (some x) => .ok x
    | _ => .ub

/-- Writing element `i` of the span of a mutable view (`memory.h:172-176`); nothing is checked.
Assigning to an element of a type which is not builtin needs one to be there. -/
def Mem.write {α : Type} (m : Mem α) (v : View) (i : ℕ) (x : α) : Out (Mem α) :=
  match m.data with
  | none => .ub
  | some b =>
    match b.cells[v.start + i]? with
    | some c =>
      if m.ty.builtin || c.isSome then
        .ok { m with data := some ⟨b.cap, b.cells.set (v.start + i) (some x)⟩ }
      else .ub
    | none => .ub

/-- `HostDeviceHandle::copy_memory` (`host_device.cpp:75-97`) for two memories of the host; the two
branches for other devices are left out. -/
def copyMemory {α : Type} [Zero α] (dst src : Mem α) : Out (Mem α) :=
  if dst.ty.id ≠ src.ty.id then .throws
  else
    match dst.mutData, src.constData with
    | .ok d, .ok s =>
      if src.n ≤ dst.n then
        match copyOrFill dst.ty d s src.n false with
        | .ok d' => .ok { dst with data := d' }
        | .throws => .throws
        | .ub => .ub
      else .throws
    | _, _ => .throws

/-- `Memory::to` (`memory.cpp:37-48`) with the host as the device, which supports every type -/
def Mem.to {α : Type} [Zero α] (avail : ℕ) (m : Mem α) : Out (Mem α) :=
  match allocateMemory α avail m.ty m.n 16 with
  | .ok buffer => copyMemory buffer m
  | .throws => .throws
  | .ub => .ub

/-- `~HostAddressMemory` (`host_address_memory.cpp:34-39`) with `destroy_memory`
(`host_device.cpp:98-109`): whether the block was freed -/
def Mem.destroy {α : Type} (m : Mem α) : Out Bool :=
  match m.data with
  | none => .ok false
  | some b =>
    if m.mode = .readOnly then .ok false
    else if m.ty.builtin || (readCells b.cells m.n).isSome then .ok true
    else .ub

end RoughPy.HostMem
