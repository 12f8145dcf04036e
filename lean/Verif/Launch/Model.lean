import Mathlib.Data.Nat.Notation

/-!
# Launch parameters of kernels

Models `platform/src/devices/kernel_launch_params.cpp:43-118`, the constructors in
`platform/include/roughpy/platform/devices/kernel.h:43-78`, `round_up_divide`
(`core/include/roughpy/core/helpers.hpp:98-102`) and `Kernel::construct_work_mask`
(`platform/src/devices/kernel.cpp:128-144`).

Sizes of the work are 64-bit numbers, group sizes and numbers of groups are 32-bit numbers
(`platform/include/roughpy/platform/devices/core.h:70,258-273`). Debug assertions are left out, as in a
release build.
-/

namespace RoughPy.Launch

/-- `BasicDim3` (`core.h:258-270`) -/
structure Dim3 where
  x : ℕ
  y : ℕ
  z : ℕ
deriving DecidableEq, Repr

/-- `KernelLaunchParams` (`kernel.h:43-78`). Simplified: the offsets are left out, nothing reads them. -/
structure Params where
  work : Dim3
  group : Dim3
deriving DecidableEq, Repr

/-- The constructor with the work only (`kernel.h:51-55`) -/
def Params.ofWork (w : Dim3) : Params := ⟨w, ⟨0, 0, 0⟩⟩

/-- `has_work` (`kernel_launch_params.cpp:49`) -/
def hasWork (p : Params) : Bool := 0 < p.work.x

/-- `total_work_size` (`kernel_launch_params.cpp:61-67`) -/
def totalWork (p : Params) : ℕ :=
  let r := p.work.x
  let r := if 0 < p.work.y then r * p.work.y % 2 ^ 64 else r
  if 0 < p.work.z then r * p.work.z % 2 ^ 64 else r

/-- `num_dims` (`kernel_launch_params.cpp:69-80`) -/
def numDims (p : Params) : ℕ :=
  if 0 < p.work.z then 3 else if 0 < p.work.y then 2 else 1

/-- `round_up_divide` on 64-bit numbers (`helpers.hpp:98-102`), for a divisor that is not zero: the sum
wraps around. -/
def roundUpDivide (v d : ℕ) : ℕ := (v + d + (2 ^ 64 - 1)) % 2 ^ 64 / d

/-- `num_work_groups` (`kernel_launch_params.cpp:82-95`): the quotients are cut to 32 bits. -/
def numGroups (p : Params) : Dim3 :=
  if 0 < p.group.x then
    let x := roundUpDivide p.work.x p.group.x % 2 ^ 32
    if 0 < p.group.y then
      let y := roundUpDivide p.work.y p.group.y % 2 ^ 32
      if 0 < p.group.z then
        ⟨x, y, roundUpDivide p.work.z p.group.z % 2 ^ 32⟩
      else ⟨x, y, 0⟩
    else ⟨x, 0, 0⟩
  else ⟨0, 0, 0⟩

/-- `underflow_of_groups` (`kernel_launch_params.cpp:97-118`) -/
def underflow (p : Params) : Dim3 :=
  if 0 < p.group.x then
    let x := p.group.x - p.work.x % p.group.x
    if 0 < p.group.y then
      let y := p.group.y - p.work.y % p.group.y
      if 0 < p.group.z then
        ⟨x, y, p.group.z - p.work.z % p.group.z⟩
      else ⟨x, y, 0⟩
    else ⟨x, 0, 0⟩
  else ⟨0, 0, 0⟩

/-- `Kernel::construct_work_mask` (`kernel.cpp:128-144`) with 64-bit words. `none` is undefined behaviour:
a shift by the width of the word. Simplified: without work the code asks for a vector of size -1, here it
is undefined behaviour too. -/
def workMask (p : Params) : Option (List (BitVec 64)) :=
  let total := totalWork p
  let numMasks := roundUpDivide total 64
  let under := numMasks * 64 - total
  if numMasks = 0 then none
  else if 64 ≤ under + 1 then none
  else some (List.replicate (numMasks - 1) (BitVec.allOnes 64) ++
    [~~~((1#64 <<< (under + 1)) - 1)])

end RoughPy.Launch
