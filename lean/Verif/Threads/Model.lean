import Mathlib.Data.Finset.Union
import Mathlib.Data.Finset.Range
import Mathlib.Data.Fintype.Basic
import Mathlib.Algebra.BigOperators.Group.Finset.Basic

/-!
# Counted pointers in several threads

The reference counts of `/repo/platform/include/roughpy/platform/reference_counting.h`
(`RefCountedMiddle`, `intrusive_ptr_add_ref`, `intrusive_ptr_release`; held by `boost::intrusive_ptr`,
`/repo/core/include/roughpy/core/smart_ptr.hpp`) and of
`/repo/platform/include/roughpy/platform/devices/device_object_base.h` (`RefCountBase`, `ObjectBase`).
The threads run in any order; a read-modify-write of the counter is one step, the deletion that may
follow it is another.

The memory model is that of C++ as far as these counters need it.  Every use of the object is an event.
A thread has a view, the events that happened before what it does next.  The counter carries the view
that was released to it; a relaxed read-modify-write leaves it (it continues the release sequence), one
with release semantics adds the view of the thread, one with acquire semantics adds it to the view of
the thread.  `delete` is a race unless all uses happened before it.
-/

namespace RoughPy.Threads

/-- The memory orders of a read-modify-write. -/
inductive Order where
  | relaxed
  | acquire
  | release
  | acqRel
  deriving DecidableEq

/-- Whether what was released to the variable happens before what comes next. -/
def Order.acquires : Order → Bool
  | .acquire => true
  | .acqRel => true
  | _ => false

/-- Whether what came before is released to the variable. -/
def Order.releases : Order → Bool
  | .release => true
  | .acqRel => true
  | _ => false

/-- An atomic word of 64 bits, with the events released to it. -/
structure Atomic where
  value : ℕ
  view : Finset ℕ
  deriving DecidableEq

/-- A read-modify-write by a thread with view `v`: the old value, the variable and the view of the
thread. -/
def Atomic.rmw (a : Atomic) (o : Order) (new : ℕ) (v : Finset ℕ) : ℕ × Atomic × Finset ℕ :=
  (a.value, ⟨new % 2 ^ 64, if o.releases then a.view ∪ v else a.view⟩,
    if o.acquires then v ∪ a.view else v)

/-- `fetch_add(k, order)` -/
def Atomic.fetchAdd (a : Atomic) (k : ℕ) (o : Order) (v : Finset ℕ) : ℕ × Atomic × Finset ℕ :=
  a.rmw o (a.value + k) v

/-- `fetch_sub(k, order)`, of 64 bits -/
def Atomic.fetchSub (a : Atomic) (k : ℕ) (o : Order) (v : Finset ℕ) : ℕ × Atomic × Finset ℕ :=
  a.rmw o (a.value + (2 ^ 64 - k)) v

/-- `inc_ref()` (`reference_counting.h:136-140`, `device_object_base.h:164-168`) -/
def incRef (a : Atomic) (v : Finset ℕ) : Atomic × Finset ℕ := (a.fetchAdd 1 .relaxed v).2

/-- `dec_ref()` (`reference_counting.h:141-145`, `device_object_base.h:169-174` with `:197`): whether the
object is to be deleted. -/
def decRef (a : Atomic) (v : Finset ℕ) : Bool × Atomic × Finset ℕ :=
  let r := a.fetchSub 1 .acqRel v
  (decide (r.1 = 1), r.2)

/-- `ref_count()` (`reference_counting.h:146-150`, `device_object_base.h:175-180`) -/
def refCount (a : Atomic) : ℕ := a.value

/-- A thread: the pointers to the object it holds, its view, and whether it is about to delete the
object. -/
structure Thr where
  pointers : ℕ
  view : Finset ℕ
  deleting : Bool
  deriving DecidableEq

/-- An object and the threads that may hold pointers to it: the counter, the number of uses so far, how
often the object was deleted. -/
structure Sys (n : ℕ) where
  count : Atomic
  events : ℕ
  destroyed : ℕ
  thr : Fin n → Thr

/-- What a thread can do.  A thread that is about to delete the object does nothing else before. -/
inductive Act (n : ℕ) where
  /-- `t` uses the object through one of its pointers -/
  | use (t : Fin n)
  /-- `u` copies a pointer of `t` -/
  | copy (t u : Fin n)
  /-- `t` moves one of its pointers to `u`, by a channel that synchronises the threads -/
  | give (t u : Fin n)
  /-- the threads synchronise in another way: what `t` has seen happens before what `u` does next -/
  | sync (t u : Fin n)
  /-- `t` drops one of its pointers: the counter is decreased
  (`intrusive_ptr_release`, `reference_counting.h:78-89`; `~ObjectBase`, `device_object_base.h:193-199`) -/
  | drop (t : Fin n)
  /-- the deletion that may follow -/
  | delete (t : Fin n)
  deriving DecidableEq

/-- What comes of an action. -/
inductive Res (n : ℕ) where
  /-- it is done -/
  | ok (s : Sys n)
  /-- the thread cannot do this now -/
  | disabled
  /-- memory that was freed is used or freed again -/
  | freed
  /-- the object is deleted while a use does not happen before -/
  | race

/-- The system with one thread changed. -/
def Sys.put {n : ℕ} (s : Sys n) (t : Fin n) (x : Thr) : Sys n :=
  { s with thr := Function.update s.thr t x }

/-- `intrusive_ptr<T>(new T)` in thread `t`: the constructor is the use number 0.  The counter starts with
`init`, which is 0 for `RefCountedMiddle` (`reference_counting.h:124`) and whatever is in memory for
`RefCountBase` (`device_object_base.h:81`: `std::atomic` is not initialised before C++20). -/
def start {n : ℕ} (init : ℕ) (t : Fin n) : Sys n :=
  let r := incRef ⟨init % 2 ^ 64, ∅⟩ {0}
  { count := r.1, events := 1, destroyed := 0
    thr := Function.update (fun _ => ⟨0, ∅, false⟩) t ⟨1, r.2, false⟩ }

/-- One step. -/
def step {n : ℕ} (s : Sys n) : Act n → Res n
  | .use t =>
    if (s.thr t).pointers = 0 ∨ (s.thr t).deleting then .disabled
    else if s.destroyed ≠ 0 then .freed
    else
      .ok { s.put t { s.thr t with view := insert s.events (s.thr t).view } with events := s.events + 1 }
  | .copy t u =>
    if (s.thr t).pointers = 0 ∨ (s.thr u).deleting then .disabled
    else if s.destroyed ≠ 0 then .freed
    else
      let r := incRef s.count (s.thr u).view
      .ok { s.put u { s.thr u with pointers := (s.thr u).pointers + 1, view := r.2 } with count := r.1 }
  | .give t u =>
    if (s.thr t).pointers = 0 ∨ (s.thr t).deleting ∨ (s.thr u).deleting ∨ t = u then .disabled
    else
      .ok ((s.put t { s.thr t with pointers := (s.thr t).pointers - 1 }).put u
        { s.thr u with pointers := (s.thr u).pointers + 1, view := (s.thr u).view ∪ (s.thr t).view })
  | .sync t u =>
    if (s.thr t).deleting ∨ (s.thr u).deleting then .disabled
    else .ok (s.put u { s.thr u with view := (s.thr u).view ∪ (s.thr t).view })
  | .drop t =>
    if (s.thr t).pointers = 0 ∨ (s.thr t).deleting then .disabled
    else if s.destroyed ≠ 0 then .freed
    else
      let r := decRef s.count (s.thr t).view
      .ok { s.put t ⟨(s.thr t).pointers - 1, r.2.2, r.1⟩ with count := r.2.1 }
  | .delete t =>
    if ¬ (s.thr t).deleting then .disabled
    else if s.destroyed ≠ 0 then .freed
    else if ¬ Finset.range s.events ⊆ (s.thr t).view then .race
    else .ok { s.put t { s.thr t with deleting := false } with destroyed := s.destroyed + 1 }

/-- A schedule: actions of the threads in any order; `none` if one of them is not possible. -/
def run {n : ℕ} (s : Sys n) : List (Act n) → Res n
  | [] => .ok s
  | a :: as =>
    match step s a with
    | .ok s' => run s' as
    | r => r

end RoughPy.Threads
