import Verif.Args.Model
import Verif.Poly.Model
import Mathlib.Data.Rat.Floor

/-!
# Scalars

The class `Scalar` (`/repo/scalars/include/roughpy/scalars/scalar.h`, `/repo/scalars/src/scalar.cpp`)
with its copies, assignments, arithmetic (`src/scalar/arithmetic.cpp`), conversions
(`src/scalar/casts.cpp`) and comparison (`src/scalar/comparison.cpp`).

The outcome `ub` stands for undefined behaviour and for `std::terminate` (an exception leaving a
`noexcept` function).  Debug assertions are off, as in a release build.

Simplifications: `half` and `bfloat16` are left out.  Rounding and the arithmetic of the floating
types are parameters.  Rational numbers and polynomials are exact.  Memory never runs out.
-/

namespace RoughPy.Scalars

open RoughPy.Args (Out TypeInfo)
open RoughPy.Polys

/-! ## Types and values -/

/-- The types of `DO_FOR_EACH_X` (`src/scalar/do_macro.h:35-74`) without `half` and `bfloat16`;
`other` stands for every type info that the macro does not dispatch. -/
inductive Ty where
  /-- a signed integer of the given number of bytes: 1, 2, 4 or 8 -/
  | int (b : ℕ)
  /-- an unsigned integer -/
  | uint (b : ℕ)
  | f32
  | f64
  | rat
  | poly
  | other
  deriving DecidableEq, Repr

/-- The `TypeInfo` of a type (`platform/include/roughpy/platform/devices/core.h:244-256`); `other`
is represented by a code without a type. -/
def Ty.info : Ty → TypeInfo
  | .int b => ⟨Args.cInt, b, b, 1⟩
  | .uint b => ⟨Args.cUInt, b, b, 1⟩
  | .f32 => Args.float32
  | .f64 => Args.float64
  | .rat => ⟨Args.cRational, 32, 8, 1⟩
  | .poly => ⟨Args.cPoly, 56, 8, 1⟩
  | .other => ⟨14, 32, 8, 1⟩

/-- The dispatch of `DO_FOR_EACH_X` (`src/scalar/do_macro.h:35-74`). -/
def Ty.ofInfo (i : TypeInfo) : Ty :=
  if i.code = Args.cInt ∧ i.bytes ∈ [1, 2, 4, 8] then .int i.bytes
  else if i.code = Args.cUInt ∧ i.bytes ∈ [1, 2, 4, 8] then .uint i.bytes
  else if i.code = Args.cFloat ∧ i.bytes = 4 then .f32
  else if i.code = Args.cFloat ∧ i.bytes = 8 then .f64
  else if i.code = Args.cRational then .rat
  else if i.code = Args.cPoly then .poly
  else .other

/-- A floating number; `fin 0` is the positive zero. -/
inductive Fl where
  | fin (q : ℚ)
  | negZero
  | inf (negative : Bool)
  | nan
  deriving DecidableEq, Repr

/-- What can lie in memory. -/
inductive Val where
  | int (b : ℕ) (n : ℤ)
  | uint (b : ℕ) (n : ℤ)
  | f32 (x : Fl)
  | f64 (x : Fl)
  | rat (q : ℚ)
  | poly (p : Poly)
  deriving DecidableEq

/-- The type of an object in memory. -/
def Val.ty : Val → Ty
  | .int b _ => .int b
  | .uint b _ => .uint b
  | .f32 _ => .f32
  | .f64 _ => .f64
  | .rat _ => .rat
  | .poly _ => .poly

/-- The three operations of `src/scalar/arithmetic.cpp:106-128`. -/
inductive AOp where
  | add
  | sub
  | mul
  deriving DecidableEq, Repr

/-- The operation on numbers. -/
def AOp.on {R : Type} [Add R] [Sub R] [Mul R] : AOp → R → R → R
  | .add, a, b => a + b
  | .sub, a, b => a - b
  | .mul, a, b => a * b

/-- The floating arithmetic of the machine, a parameter of the model; the flag says `double`. -/
structure FP where
  /-- the conversion of an integer, or of a floating number of the other size -/
  rnd : Bool → ℚ → Fl
  /-- the conversion of a rational number -/
  ratTo : Bool → ℚ → Fl
  arith : Bool → AOp → Fl → Fl → Fl
  div : Bool → Fl → Fl → Fl

/-- The number a signed integer of `b` bytes holds after a conversion. -/
def wrapS (b : ℕ) (n : ℤ) : ℤ :=
  (n + 2 ^ (8 * b - 1)) % 2 ^ (8 * b) - 2 ^ (8 * b - 1)

/-- The number an unsigned integer of `b` bytes holds after a conversion. -/
def wrapU (b : ℕ) (n : ℤ) : ℤ := n % 2 ^ (8 * b)

/-- Rounding towards zero. -/
def trunc (q : ℚ) : ℤ := if 0 ≤ q then ⌊q⌋ else ⌈q⌉

/-- Reading the memory of an object as a type: integers of one size may be read with either
signedness, every other confusion is undefined. -/
def Val.as (v : Val) (t : Ty) : Out Val :=
  if v.ty = t then .ok v
  else
    match v, t with
    | .int b n, .uint b' => if b = b' then .ok (.uint b (wrapU b n)) else .ub
    | .uint b n, .int b' => if b = b' then .ok (.int b (wrapS b n)) else .ub
    | _, _ => .ub

/-- The value a default constructed or zeroed object holds. -/
def Val.zero : Ty → Val
  | .int b => .int b 0
  | .uint b => .uint b 0
  | .f32 => .f32 (.fin 0)
  | .f64 => .f64 (.fin 0)
  | .rat => .rat 0
  | .poly => .poly []
  | .other => .int 8 0

/-- Whether all the bits are zero. -/
def Val.zeroBits : Val → Bool
  | .int b n => wrapU b n == 0
  | .uint b n => wrapU b n == 0
  | .f32 x => decide (x = .fin 0)
  | .f64 x => decide (x = .fin 0)
  | .rat _ => false
  | .poly _ => false

/-! ## Conversions -/

/-- An integer of the type from a number that has been cut to an integer; out of range it is
undefined (for a rational number the library saturates or wraps, which is not modelled). -/
def toIntTy (t : Ty) (n : ℤ) : Out Val :=
  match t with
  | .int b => if wrapS b n = n then .ok (.int b n) else .ub
  | .uint b => if wrapU b n = n then .ok (.uint b n) else .ub
  | _ => .err

/-- The conversion of a floating number to another size. -/
def Fl.round (P : FP) (double : Bool) : Fl → Fl
  | .fin q => P.rnd double q
  | x => x

/-- The rational number of a floating number: `mpq_set_d`, which aborts for the others. -/
def Fl.toRat : Fl → Out ℚ
  | .fin q => .ok q
  | .negZero => .ok 0
  | _ => .ub

/-- `write_result` for a source that is not a polynomial (`src/scalar/casts.cpp:41-91`). -/
def convNum (P : FP) (t : Ty) (v : Val) : Out Val :=
  match t, v with
  | .other, _ => .err
  | _, .poly _ => .err
  | .int b, .int _ n => .ok (.int b (wrapS b n))
  | .int b, .uint _ n => .ok (.int b (wrapS b n))
  | .uint b, .int _ n => .ok (.uint b (wrapU b n))
  | .uint b, .uint _ n => .ok (.uint b (wrapU b n))
  | .int b, .f32 x => (x.toRat).bind fun q => toIntTy (.int b) (trunc q)
  | .int b, .f64 x => (x.toRat).bind fun q => toIntTy (.int b) (trunc q)
  | .int b, .rat q => toIntTy (.int b) (trunc q)
  | .uint b, .f32 x => (x.toRat).bind fun q => toIntTy (.uint b) (trunc q)
  | .uint b, .f64 x => (x.toRat).bind fun q => toIntTy (.uint b) (trunc q)
  | .uint b, .rat q => toIntTy (.uint b) (trunc q)
  | .f32, .int _ n => .ok (.f32 (P.rnd false n))
  | .f32, .uint _ n => .ok (.f32 (P.rnd false n))
  | .f32, .f32 x => .ok (.f32 x)
  | .f32, .f64 x => .ok (.f32 (x.round P false))
  | .f32, .rat q => .ok (.f32 (P.ratTo false q))
  | .f64, .int _ n => .ok (.f64 (P.rnd true n))
  | .f64, .uint _ n => .ok (.f64 (P.rnd true n))
  | .f64, .f32 x => .ok (.f64 x)
  | .f64, .f64 x => .ok (.f64 x)
  | .f64, .rat q => .ok (.f64 (P.ratTo true q))
  | .rat, .int _ n => .ok (.rat n)
  | .rat, .uint _ n => .ok (.rat n)
  | .rat, .f32 x => (x.toRat).bind fun q => .ok (.rat q)
  | .rat, .f64 x => (x.toRat).bind fun q => .ok (.rat q)
  | .rat, .rat q => .ok (.rat q)
  | .poly, .int _ n => .ok (.poly (Poly.ofScalar n))
  | .poly, .uint _ n => .ok (.poly (Poly.ofScalar n))
  | .poly, .f32 x => (x.toRat).bind fun q => .ok (.poly (Poly.ofScalar q))
  | .poly, .f64 x => (x.toRat).bind fun q => .ok (.poly (Poly.ofScalar q))
  | .poly, .rat q => .ok (.poly (Poly.ofScalar q))

/-- `scalar_convert_copy` of one value (`src/scalar/casts.cpp:93-189`): `err` stands for the answer
`false`, after which nothing has been written. -/
def conv (P : FP) (t : Ty) (v : Val) : Out Val :=
  match v with
  | .poly p =>
    match t with
    | .poly => .ok (.poly p)
    | .other => .err
    | t =>
      match p with
      | [] => convNum P t (.int 4 0)
      | [(m, c)] => if m = Mono.one then convNum P t (.rat c) else .err
      | _ => .err
  | v => convNum P t v

/-! ## Arithmetic on values -/

/-- `lhs op= rhs` on two objects of one type (`src/scalar/arithmetic.cpp:106-128`); `same` says that
the two are one object.  Signed overflow is undefined for the sizes that are not promoted to `int`
(the promotion of two byte unsigned factors to `int` is ignored). -/
def opVal (P : FP) (op : AOp) (same : Bool) : Val → Val → Out Val
  | .int b n, .int _ m =>
    if 4 ≤ b ∧ wrapS b (op.on n m) ≠ op.on n m then .ub
    else .ok (.int b (wrapS b (op.on n m)))
  | .uint b n, .uint _ m => .ok (.uint b (wrapU b (op.on n m)))
  | .f32 x, .f32 y => .ok (.f32 (P.arith false op x y))
  | .f64 x, .f64 y => .ok (.f64 (P.arith true op x y))
  | .rat q, .rat r => .ok (.rat (op.on q r))
  | .poly p, .poly q =>
    match op with
    | .add =>
      if same then
        match Poly.binarySelf (fun l r => l + r) p with
        | some r => .ok (.poly r)
        | none => .ub
      else .ok (.poly (Poly.add p q))
    | .sub =>
      if same then
        match Poly.binarySelf (fun l r => l - r) p with
        | some r => .ok (.poly r)
        | none => .ub
      else .ok (.poly (Poly.sub p q))
    | .mul => .ok (.poly (Poly.mulInplace p q))
  | _, _ => .ub

/-- `do_op` (`src/scalar/arithmetic.cpp:145-153`): both sides are read as the type. -/
def doOp (P : FP) (op : AOp) (same : Bool) (t : Ty) (a b : Val) : Out Val :=
  if t = .other then .err
  else (a.as t).bind fun a' => (b.as t).bind fun b' => opVal P op same a' b'

/-- `compute_type_promotion` (`src/scalar/type_promotion.cpp:133-158`). -/
def promote (left right : Ty) : Out Ty := (Args.promotion left.info right.info).map Ty.ofInfo

/-! ## Scalars in memory -/

/-- `PackedScalarTypePointer` (`scalars/include/roughpy/scalars/packed_scalar_type_ptr.h`): nothing,
a pointer to a scalar type, or the four bytes of a type info. -/
inductive TRef where
  | null
  | ptr (t : Ty)
  | info (t : Ty)
  deriving DecidableEq, Repr

/-- The type info that is read back from the packed bytes (`Args.readBack`): the lowest bit of the
code is lost, so an unsigned integer comes back signed and a rational number as an unknown type. -/
def Ty.readBack (t : Ty) : Ty := Ty.ofInfo (Args.readBack t.info)

/-- `ScalarContentType` (`scalar.h:60-84`); `ConstTrivialBytes` and `Interface` are never made. -/
inductive Mode where
  | trivial
  | ref
  | constRef
  | owned
  | iface
  deriving DecidableEq, Repr

/-- A scalar (`scalar.h:197-210`): the packed type, the mode, and the word of the union, which is
the bytes of a number in mode `trivial` and an address, possibly null, in the others (for an
interface: the address of the entry behind it). -/
structure Obj where
  ty : TRef
  mode : Mode
  bytes : Val
  addr : Option ℕ
  deriving DecidableEq

/-- A piece of memory: the object in it, and the scalar type whose table of allocations has it. -/
structure Cell where
  val : Val
  owner : Option Ty
  deriving DecidableEq

/-- The memory outside the scalars: addresses are positions, a freed one is `none`. -/
abbrev Heap := List (Option Cell)

namespace Heap

/-- The cell at an address. -/
def cell (h : Heap) (a : ℕ) : Option Cell := (h[a]?).join

/-- Writes the object at an address. -/
def write (h : Heap) (a : ℕ) (v : Val) : Heap :=
  match cell h a with
  | some c => List.set h a (some { c with val := v })
  | none => h

/-- Frees an address. -/
def free (h : Heap) (a : ℕ) : Heap := List.set h a none

/-- `allocate_single` (`src/types/aprational/ap_rational_type.cpp:35-41`,
`src/types/apratpoly/ap_rat_poly_type.cpp:47-53`,
`src/scalar_helpers/standard_scalar_type.h:101-108`): a default constructed object at a new
address, entered in the table of the type. -/
def alloc (h : Heap) (t : Ty) : Heap × ℕ := (h ++ [some ⟨Val.zero t, some t⟩], h.length)

end Heap

/-- `is_null` (`packed_scalar_type_ptr.h`): the whole word is zero, so an interface is not null. -/
def Obj.isNull (o : Obj) : Bool := decide (o.ty = .null) && decide (o.mode = .trivial)

/-- `integer_for_convenience == 0`. -/
def Obj.zeroWord (o : Obj) : Bool :=
  match o.mode with
  | .trivial => o.bytes.zeroBits
  | _ => o.addr.isNone

/-- `fast_is_zero` (`scalar.h:415-419`) -/
def Obj.fastIsZero (o : Obj) : Bool := o.isNull || o.zeroWord

/-- `type_info` (`src/scalar.cpp:456-462`): without a type a null pointer is followed. -/
def Obj.info (o : Obj) : Out Ty :=
  match o.ty with
  | .null => .ub
  | .ptr t => .ok t
  | .info t => .ok t.readBack

/-- The memory behind `pointer()` (`src/scalar.cpp:384-399`). -/
def Obj.read (h : Heap) (o : Obj) : Out Val :=
  match o.mode with
  | .trivial => .ok o.bytes
  | _ =>
    match o.addr with
    | none => .ub
    | some a =>
      match h.cell a with
      | none => .ub
      | some c => .ok c.val

/-- `mut_pointer` (`src/scalar.cpp:401-436`): whether it returns. -/
def Obj.mutPointer (o : Obj) : Out Unit :=
  if o.isNull then .err
  else
    match o.mode with
    | .trivial => .ok ()
    | .ref => if o.addr.isNone then .err else .ok ()
    | .owned => if o.addr.isNone then .err else .ok ()
    | .constRef => .err
    | .iface => .err

/-- Writing through `mut_pointer()` or through the pointer of the union. -/
def Obj.store (h : Heap) (o : Obj) (v : Val) : Out (Heap × Obj) :=
  match o.mode with
  | .trivial => .ok (h, { o with bytes := v })
  | _ =>
    match o.addr with
    | none => .ub
    | some a =>
      match h.cell a with
      | none => .ub
      | some _ => .ok (h.write a v, o)

/-- `scalar_convert_copy` from a scalar (`src/scalar/casts.cpp:164-175`). -/
def convFrom (P : FP) (t : Ty) (h : Heap) (o : Obj) : Out Val :=
  o.info.bind fun s =>
    if s = .other then .err
    else (o.read h).bind fun v => (v.as s).bind fun v => conv P t v

/-- A conversion of which the answer is ignored: it writes on success, and otherwise leaves the
target as it was. -/
def storeConv (h : Heap) (o : Obj) (r : Out Val) : Out (Heap × Obj) :=
  match r with
  | .ok v => o.store h v
  | .err => .ok (h, o)
  | .ub => .ub

/-- `Scalar()` (`src/scalar.cpp:109`) -/
def Obj.empty : Obj := ⟨.null, .trivial, .int 8 0, none⟩

/-- `traits::is_fundamental` together with the size test (`src/scalar.cpp:150`,
`scalars/include/roughpy/scalars/traits.h:47-66`). -/
def Ty.fundamental : Ty → Bool
  | .int b => decide (b ≤ 8)
  | .uint b => decide (b ≤ 8)
  | .f32 => true
  | .f64 => true
  | _ => false

/-- `content_type_of` (`scalar.h:110-140`) -/
def Ty.content : Ty → Mode
  | .rat => .owned
  | .poly => .owned
  | .other => .ref
  | _ => .trivial

/-- `allocate_data` (`src/scalar.cpp:48-62`): for a packed type info the scalar type is looked up,
but not stored, and the bytes of the type info are then used as a pointer.  There is no scalar type
for integers, and the look up throws for an unknown type. -/
def allocateData (h : Heap) (o : Obj) : Out (Heap × Obj) :=
  match o.ty with
  | .ptr t => .ok ((h.alloc t).1, { o with mode := .owned, addr := some (h.alloc t).2 })
  | .null => .ub
  | .info t =>
    match t.readBack with
    | .int _ => .err
    | .uint _ => .err
    | .other => .err
    | _ => .ub

/-- `Scalar(const ScalarType*)` (`src/scalar.cpp:88-96`) -/
def ofType (h : Heap) (t : Ty) : Heap × Obj :=
  if t.content = .owned then ((h.alloc t).1, ⟨.ptr t, .owned, Val.zero t, some (h.alloc t).2⟩)
  else (h, ⟨.ptr t, t.content, Val.zero t, none⟩)

/-- `Scalar(TypeInfo)` (`src/scalar.cpp:98-107`) -/
def ofInfo (h : Heap) (t : Ty) : Heap × Obj :=
  if t.content = .owned then ((h.alloc t).1, ⟨.ptr t, .owned, Val.zero t, some (h.alloc t).2⟩)
  else (h, ⟨.info t, t.content, Val.zero t, none⟩)

/-- `Scalar(const T&)` (`scalar.h:247-262`): a rational number or polynomial goes through
`allocate_data` with a packed type info. -/
def ofVal (h : Heap) (v : Val) : Out (Heap × Obj) :=
  match v with
  | .rat _ => allocateData h ⟨.info .rat, .trivial, Val.zero .rat, none⟩
  | .poly _ => allocateData h ⟨.info .poly, .trivial, Val.zero .poly, none⟩
  | v => .ok (h, ⟨.info v.ty, .trivial, v, none⟩)

/-- `copy_from_opaque_pointer` (`src/scalar.cpp:142-167`); `src` is the memory behind the pointer,
`info` its type. -/
def copyFromOpaque (P : FP) (h : Heap) (o : Obj) (info : Ty) (src : Out Val) : Out (Heap × Obj) :=
  let o1 : Obj := if o.isNull then { o with ty := .info info, mode := .trivial } else o
  o1.info.bind fun dst =>
    if dst.fundamental then
      src.bind fun v =>
        if info = dst then .ok (h, { o1 with mode := .trivial, bytes := v, addr := none })
        else
          match (v.as info).bind (conv P dst) with
          | .ok w => .ok (h, { o1 with mode := .trivial, bytes := w, addr := none })
          | .err => .ok (h, { o1 with mode := .trivial, addr := none })
          | .ub => .ub
    else
      (allocateData h o1).bind fun ho =>
        storeConv ho.1 ho.2 (src.bind fun v => (v.as info).bind (conv P dst))

/-- `Scalar(const Scalar&)` (`src/scalar.cpp:169-205`): of a fast zero only the packed type is
copied. -/
def copyCtor (P : FP) (h : Heap) (o : Obj) : Out (Heap × Obj) :=
  if o.fastIsZero then .ok (h, { o with addr := none })
  else
    o.info.bind fun t =>
      match o.mode with
      | .trivial => .ok (h, o)
      | .ref => copyFromOpaque P h { o with addr := none } t (o.read h)
      | .constRef => copyFromOpaque P h { o with addr := none } t (o.read h)
      | .iface => copyFromOpaque P h { o with addr := none } t (o.read h)
      | .owned =>
        (allocateData h o).bind fun ho =>
          storeConv ho.1 ho.2 ((o.read h).bind fun v => (v.as t).bind (conv P t))

/-- `Scalar(Scalar&&)` (`src/scalar.cpp:207-230`): the new scalar and what is left of the old. -/
def moveCtor (o : Obj) : Obj × Obj :=
  match o.mode with
  | .trivial => (o, o)
  | _ => (o, { o with addr := none })

/-- `free_single` (`ap_rational_type.cpp:42-49`, `ap_rat_poly_type.cpp:55-62`,
`standard_scalar_type.h:111-122`): an unknown address throws, and the destructor is `noexcept`. -/
def freeSingle (h : Heap) (t : Ty) (a : ℕ) : Out Heap :=
  match h.cell a with
  | none => .ub
  | some c => if c.owner = some t then .ok (h.free a) else .ub

/-- `~Scalar()` (`src/scalar.cpp:232-255`); deleting an interface frees the interface object, which
is not in this memory. -/
def dtor (h : Heap) (o : Obj) : Out Heap :=
  match o.mode with
  | .owned =>
    match o.addr with
    | none => .ok h
    | some a =>
      match o.ty with
      | .ptr t => freeSingle h t a
      | _ => .ub
  | _ => .ok h

/-- `operator=(const Scalar&)` for another object (`src/scalar.cpp:257-308`). -/
def copyAssign (P : FP) (h : Heap) (o src : Obj) : Out (Heap × Obj) :=
  if o.fastIsZero then
    let o1 : Obj := { o with ty := src.ty, mode := src.mode, addr := none }
    o1.info.bind fun t =>
      match src.mode with
      | .trivial => .ok (h, { o1 with bytes := src.bytes })
      | .ref => copyFromOpaque P h o1 t (src.read h)
      | .constRef => copyFromOpaque P h o1 t (src.read h)
      | .iface => copyFromOpaque P h o1 t (src.read h)
      | .owned =>
        (allocateData h o1).bind fun ho =>
          storeConv ho.1 ho.2 ((src.read h).bind fun v => (v.as t).bind (conv P t))
  else
    o.mutPointer.bind fun _ => o.info.bind fun t => storeConv h o (convFrom P t h src)

/-- `operator=(Scalar&&)` for another object (`src/scalar.cpp:310-321`), which is `noexcept`: the
memory, the target, and what is left of the source. -/
def moveAssign (P : FP) (h : Heap) (o src : Obj) : Out (Heap × Obj × Obj) :=
  if o.isNull then .ok (h, (moveCtor src).1, (moveCtor src).2)
  else
    match o.mutPointer with
    | .ok _ =>
      o.info.bind fun t =>
        (storeConv h o (convFrom P t h src)).bind fun ho => .ok (ho.1, ho.2, src)
    | _ => .ub

/-- The template `operator=(const T&)` (`scalar.h:358-406`): a conversion that fails throws. -/
def assignVal (P : FP) (h : Heap) (o : Obj) (v : Val) : Out (Heap × Obj) :=
  if o.isNull then ofVal h v
  else
    match o.mode with
    | .trivial => o.info.bind fun t => (conv P t v).bind fun w => o.store h w
    | .ref => o.info.bind fun t => (conv P t v).bind fun w => o.store h w
    | .owned => o.info.bind fun t => (conv P t v).bind fun w => o.store h w
    | .constRef => .err
    | .iface => (o.read h).bind fun c => (conv P c.ty v).bind fun w => o.store h w

/-- The value test of `is_pointer_zero` (`src/scalar/comparison.cpp:46-60`, `:294-305`). -/
def Val.isZero : Val → Bool
  | .int _ n => n == 0
  | .uint _ n => n == 0
  | .f32 x => decide (x = .fin 0 ∨ x = .negZero)
  | .f64 x => decide (x = .fin 0 ∨ x = .negZero)
  | .rat q => q == 0
  | .poly p => p.isEmpty

/-- `is_zero` (`src/scalar.cpp:323-344`) -/
def isZero (h : Heap) (o : Obj) : Out Bool :=
  if o.fastIsZero then .ok true
  else
    match o.mode with
    | .trivial => .ok o.bytes.zeroBits
    | _ =>
      o.info.bind fun t =>
        if t = .other then .ok true
        else (o.read h).bind fun v => (v.as t).bind fun v => .ok v.isZero

/-- `change_type` (`scalar.h:483-489`) -/
def changeType (P : FP) (h : Heap) (o : Obj) (t : Ty) : Out (Heap × Obj) :=
  let tmp := ofInfo h t
  tmp.2.mutPointer.bind fun _ =>
    (storeConv tmp.1 tmp.2 (convFrom P t tmp.1 o)).bind fun ho =>
      (dtor ho.1 o).bind fun h2 => .ok (h2, ho.2)

/-- `compute_dest_type` (`src/scalar/type_promotion.cpp:161-180`): for a reference the packed type
of the target is turned into a type info, which is only meaningful if it is one. -/
def destType (o : Obj) (dst src : Ty) : Out Ty :=
  match o.mode with
  | .trivial => promote src dst
  | .owned => promote src dst
  | _ =>
    match o.ty with
    | .info t => .ok t.readBack
    | _ => .ub

/-- Whether two scalars use one object behind their pointers. -/
def sameObject (o src : Obj) : Bool :=
  decide (o.mode ≠ .trivial) && decide (src.mode ≠ .trivial) && decide (o.addr = src.addr)

/-- `do_op` on the memory of a scalar (`src/scalar/arithmetic.cpp:145-153`). -/
def applyOp (P : FP) (op : AOp) (same : Bool) (h : Heap) (o : Obj) (t : Ty) (src : Out Val) :
    Out (Heap × Obj) :=
  (o.read h).bind fun a => src.bind fun b => (doOp P op same t a b).bind fun r => o.store h r

/-- `scalar_inplace_arithmetic` (`src/scalar/arithmetic.cpp:155-199`) -/
def inplace (P : FP) (op : AOp) (h : Heap) (o src : Obj) : Out (Heap × Obj) :=
  o.info.bind fun dst =>
    src.info.bind fun s =>
      if s = dst then
        o.mutPointer.bind fun _ => applyOp P op (sameObject o src) h o dst (src.read h)
      else
        (destType o dst s).bind fun out =>
          (if out ≠ dst then changeType P h o out else .ok (h, o)).bind fun ho =>
            ho.2.mutPointer.bind fun _ =>
              ho.2.info.bind fun d =>
                if s = d then applyOp P op (sameObject ho.2 src) ho.1 ho.2 d (src.read ho.1)
                else
                  let tmp := ofInfo ho.1 d
                  tmp.2.mutPointer.bind fun _ =>
                    (storeConv tmp.1 tmp.2 (convFrom P d tmp.1 src)).bind fun ht =>
                      (applyOp P op false ht.1 ho.2 d (ht.2.read ht.1)).bind fun hr =>
                        (dtor hr.1 ht.2).bind fun h3 => .ok (h3, hr.2)

/-- `operator+=`, `operator-=`, `operator*=` (`src/scalar/arithmetic.cpp:203-231`) -/
def arith (P : FP) (op : AOp) (h : Heap) (o src : Obj) : Out (Heap × Obj) :=
  match op with
  | .add => if !src.fastIsZero then inplace P .add h o src else .ok (h, o)
  | .sub => if !src.fastIsZero then inplace P .sub h o src else .ok (h, o)
  | .mul =>
    if !o.fastIsZero && !src.fastIsZero then inplace P .mul h o src
    else assignVal P h o (.int 4 0)

/-- `a + b`, `a - b`, `a * b` (`scalar.h:569-589`): on a copy of the left side. -/
def binary (P : FP) (op : AOp) (h : Heap) (o src : Obj) : Out (Heap × Obj) :=
  (copyCtor P h o).bind fun ho => arith P op ho.1 ho.2 src

/-- The result of `operator-()` on a scalar with a pointer (`src/scalar/arithmetic.cpp:74-85`):
`type()` (`src/scalar.cpp:446-454`) finds no scalar type for an integer, and ends the program for an
unknown type, because it is `noexcept`. -/
def negAlloc (h : Heap) (r : TRef) (t : Ty) : Out (Heap × Obj) :=
  match r with
  | .ptr s => allocateData h ⟨.ptr s, .owned, Val.zero s, none⟩
  | _ =>
    match t with
    | .int _ => .err
    | .uint _ => .err
    | .other => .ub
    | s => allocateData h ⟨.ptr s, .owned, Val.zero s, none⟩

/-- `operator-()` (`src/scalar/arithmetic.cpp:55-102`): `uminus_impl` has an empty body. -/
def neg (h : Heap) (o : Obj) : Out (Heap × Obj) :=
  o.info.bind fun t =>
    if o.fastIsZero then .ok (h, Obj.empty)
    else
      match o.mode with
      | .trivial => .ok (h, ⟨.info t, .trivial, Val.zero t, none⟩)
      | .iface => .ub
      | _ => negAlloc h o.ty t

/-! ## Division -/

/-- `*dst /= *divisor` (`src/scalar/arithmetic.cpp:242-266`) for the pairs of types of the two
sides; dividing a rational number by zero throws, dividing an integer by zero is undefined.  An
exception leaves a polynomial with some of its coefficients divided, which is not modelled. -/
def divVal (P : FP) : Val → Val → Out Val
  | .int b n, .int _ m => if m = 0 then .ub else toIntTy (.int b) (Int.tdiv n m)
  | .f32 x, .f32 y => .ok (.f32 (P.div false x y))
  | .f32 x, .int _ n => .ok (.f32 (P.div false x (P.rnd false n)))
  | .f64 x, .f64 y => .ok (.f64 (P.div true x y))
  | .f64 x, .f32 y => .ok (.f64 (P.div true x y))
  | .f64 x, .int _ n => .ok (.f64 (P.div true x (P.rnd true n)))
  | .rat q, .rat r => if r = 0 then .err else .ok (.rat (q / r))
  | .rat q, .int _ n => if n = 0 then .err else .ok (.rat (q / n))
  | .rat q, .f32 y => y.toRat.bind fun r => if r = 0 then .err else .ok (.rat (q / r))
  | .rat q, .f64 y => y.toRat.bind fun r => if r = 0 then .err else .ok (.rat (q / r))
  | .poly p, .rat r =>
    if r = 0 then (if p.isEmpty then .ok (.poly p) else .err) else .ok (.poly (Poly.sdiv p r))
  | .poly _, _ => .err
  | _, .rat _ => .err
  | _, .poly _ => .err
  | _, _ => .ub

/-- `operator/=` (`src/scalar/arithmetic.cpp:276-318`): the type of the left side is noted before
the left side is changed to the common type, and its memory is read as the noted type afterwards. -/
def divide (P : FP) (h : Heap) (o src : Obj) : Out (Heap × Obj) :=
  if src.fastIsZero then .err
  else
    o.info.bind fun num =>
      src.info.bind fun den =>
        (if num ≠ den then (destType o num den).bind fun t => changeType P h o t
          else .ok (h, o)).bind fun ho =>
          if num = .other then .ok ho
          else
            ho.2.mutPointer.bind fun _ =>
              if den = .other then .ok ho
              else
                (ho.2.read ho.1).bind fun a =>
                  (src.read ho.1).bind fun b =>
                    (a.as num).bind fun a =>
                      (b.as den).bind fun b => (divVal P a b).bind fun r => ho.2.store ho.1 r

/-! ## Comparison -/

/-- `==` of floating numbers. -/
def Fl.eq : Fl → Fl → Bool
  | .fin a, .fin b => a == b
  | .fin a, .negZero => a == 0
  | .negZero, .fin b => b == 0
  | .negZero, .negZero => true
  | .inf a, .inf b => a == b
  | _, _ => false

/-- The largest integer below which all integers are floating numbers: `unique_max`
(`src/scalar/comparison.cpp:120`, `:135`). -/
def uniqueMax (double : Bool) : ℤ := if double then 2 ^ 53 - 1 else 2 ^ 24 - 1

/-- An integer of `b` bytes against a floating number (`src/scalar/comparison.cpp:109-188`): the
range is only tested when the two have one size. -/
def eqIntFl (P : FP) (b : ℕ) (n : ℤ) (double : Bool) (x : Fl) : Bool :=
  if b = (if double then 8 else 4) then
    decide (n ≤ uniqueMax double ∧ -uniqueMax double ≤ n) && Fl.eq (P.rnd double n) x
  else Fl.eq (P.rnd double n) x

/-- A number against a rational number (`src/scalar/comparison.cpp:190-204`): `noexcept`, so a
floating number without a rational value ends the program. -/
def eqRat (v : Val) (r : ℚ) : Out Bool :=
  match v with
  | .int _ n => .ok (decide ((n : ℚ) = r))
  | .uint _ n => .ok (decide ((n : ℚ) = r))
  | .f32 x => x.toRat.bind fun q => .ok (decide (q = r))
  | .f64 x => x.toRat.bind fun q => .ok (decide (q = r))
  | .rat q => .ok (decide (q = r))
  | .poly _ => .ub

/-- A value that is not a polynomial against a polynomial (`src/scalar/comparison.cpp:205-225`). -/
def eqPoly (v : Val) (p : Poly) : Out Bool :=
  match p with
  | [] => .ok v.isZero
  | [(m, c)] => if m = Mono.one then eqRat v c else .ok false
  | _ => .ok false

/-- `eq_impl` (`src/scalar/comparison.cpp:265-290`); two integers of different types are compared as
numbers (`:87-107`, `:150-168`, and through rational numbers), and so are the two floating types. -/
def eqVal (P : FP) : Val → Val → Out Bool
  | .poly p, .poly q => .ok (Poly.beq p q)
  | v, .poly p => eqPoly v p
  | .poly p, v => eqPoly v p
  | v, .rat r => eqRat v r
  | .rat r, v => eqRat v r
  | .int _ n, .int _ m => .ok (n == m)
  | .int _ n, .uint _ m => .ok (n == m)
  | .uint _ n, .int _ m => .ok (n == m)
  | .uint _ n, .uint _ m => .ok (n == m)
  | .int b n, .f32 x => .ok (eqIntFl P b n false x)
  | .f32 x, .int b n => .ok (eqIntFl P b n false x)
  | .uint b n, .f32 x => .ok (eqIntFl P b n false x)
  | .f32 x, .uint b n => .ok (eqIntFl P b n false x)
  | .int b n, .f64 x => .ok (eqIntFl P b n true x)
  | .f64 x, .int b n => .ok (eqIntFl P b n true x)
  | .uint b n, .f64 x => .ok (eqIntFl P b n true x)
  | .f64 x, .uint b n => .ok (eqIntFl P b n true x)
  | .f32 x, .f32 y => .ok (Fl.eq x y)
  | .f64 x, .f64 y => .ok (Fl.eq x y)
  | .f32 x, .f64 y => x.toRat.bind fun q => y.toRat.bind fun r => .ok (decide (q = r))
  | .f64 x, .f32 y => x.toRat.bind fun q => y.toRat.bind fun r => .ok (decide (q = r))

/-- `operator==` (`src/scalar/comparison.cpp:307-313`) -/
def equal (P : FP) (h : Heap) (o src : Obj) : Out Bool :=
  if o.fastIsZero then isZero h src
  else if src.fastIsZero then isZero h o
  else
    o.info.bind fun t =>
      src.info.bind fun s =>
        if t = .other ∨ s = .other then .ok false
        else
          (o.read h).bind fun a =>
            (src.read h).bind fun b =>
              (a.as t).bind fun a => (b.as s).bind fun b => eqVal P a b

/-! ## Histories -/

/-- The memory and the scalars of a program; a destroyed scalar leaves `none`. -/
structure St where
  heap : Heap
  vars : List (Option Obj)
  deriving DecidableEq

/-- What a program can do with scalars. -/
inductive Stmt where
  /-- `Scalar()` -/
  | null
  /-- `Scalar(number)` -/
  | num (v : Val)
  /-- `Scalar(scalar_type)` -/
  | typed (t : Ty)
  /-- `Scalar(type_info)` -/
  | untyped (t : Ty)
  /-- a copy of a scalar -/
  | copy (i : ℕ)
  /-- a scalar made by moving from another -/
  | move (i : ℕ)
  /-- `i = j` -/
  | assign (i j : ℕ)
  /-- `i = std::move(j)` -/
  | moveAssign (i j : ℕ)
  /-- `i = number` -/
  | set (i : ℕ) (v : Val)
  /-- `i += j`, `i -= j`, `i *= j` -/
  | arith (op : AOp) (i j : ℕ)
  /-- `-i` -/
  | neg (i : ℕ)
  /-- the end of the life of `i` -/
  | drop (i : ℕ)
  deriving DecidableEq

namespace St

/-- A living scalar. -/
def var (s : St) (i : ℕ) : Option Obj := (s.vars[i]?).join

/-- The state after a new scalar has been made. -/
def push (s : St) (ho : Heap × Obj) : St := ⟨ho.1, s.vars ++ [some ho.2]⟩

/-- The state after a scalar has changed. -/
def put (s : St) (i : ℕ) (ho : Heap × Obj) : St := ⟨ho.1, s.vars.set i (some ho.2)⟩

end St

/-- Runs a function on a living scalar; using another is undefined. -/
def withVar {α : Type} (s : St) (i : ℕ) (f : Obj → Out α) : Out α :=
  match s.var i with
  | some o => f o
  | none => .ub

/-- One statement.  Assigning a scalar to itself does nothing (`src/scalar.cpp:259`, `:312`). -/
def step (P : FP) (s : St) : Stmt → Out St
  | .null => .ok (s.push (s.heap, Obj.empty))
  | .num v => (ofVal s.heap v).map s.push
  | .typed t => .ok (s.push (ofType s.heap t))
  | .untyped t => .ok (s.push (ofInfo s.heap t))
  | .copy i => withVar s i fun o => (copyCtor P s.heap o).map s.push
  | .move i => withVar s i fun o =>
      .ok ((s.put i (s.heap, (moveCtor o).2)).push (s.heap, (moveCtor o).1))
  | .assign i j => withVar s i fun o => withVar s j fun src =>
      if i = j then .ok s else (copyAssign P s.heap o src).map (s.put i)
  | .moveAssign i j => withVar s i fun o => withVar s j fun src =>
      if i = j then .ok s
      else (moveAssign P s.heap o src).map fun r => (s.put i (r.1, r.2.1)).put j (r.1, r.2.2)
  | .set i v => withVar s i fun o => (assignVal P s.heap o v).map (s.put i)
  | .arith op i j => withVar s i fun o => withVar s j fun src =>
      (arith P op s.heap o src).map (s.put i)
  | .neg i => withVar s i fun o => (neg s.heap o).map s.push
  | .drop i => withVar s i fun o => (dtor s.heap o).map fun h => ⟨h, s.vars.set i none⟩

/-- A run of a program: a statement that throws is abandoned and the program goes on with the state
from before it. -/
def run (P : FP) (s : St) : List Stmt → Out St
  | [] => .ok s
  | c :: cs =>
    match step P s c with
    | .ok s' => run P s' cs
    | .err => run P s cs
    | .ub => .ub

end RoughPy.Scalars
