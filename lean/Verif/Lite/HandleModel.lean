import Verif.Lite.ContextModel
import Verif.Lite.LieModel

/-!
# Elements as the user holds them

Model of `AlgebraBase` (`algebra/include/roughpy/algebra/algebra_base_impl.h`) over
`AlgebraImplementation` (`algebra/include/roughpy/algebra/implementors/algebra_impl.h`): an element
is either unset or owns a vector of one of the two storage types in a context.  The operators of
Python (`roughpy/src/algebra/setup_algebra_type.h:110-210`) call these functions.

Scalars are elements of the coefficient field: the casts of `scalars::Scalar` to the coefficient
type are left out.  So are borrowed elements.
-/

namespace RoughPy.Handles

open RoughPy.Lite RoughPy.Tensor

variable {K V : Type}

/-- What a call does. -/
inductive Outcome (α : Type)
  | ok (a : α)
  /-- an exception is thrown -/
  | refused
  /-- a null pointer is dereferenced, a vector is read out of bounds or changed while iterated -/
  | undefined
deriving DecidableEq, Repr

namespace Outcome

def bind {α β : Type} : Outcome α → (α → Outcome β) → Outcome β
  | ok a, f => f a
  | refused, _ => refused
  | undefined, _ => undefined

instance : Monad Outcome where
  pure := ok
  bind := bind

/-- the functions of the vector library are undefined where their model has no value -/
def ofOption {α : Type} : Option α → Outcome α
  | some a => ok a
  | none => undefined

end Outcome

/-- The vectors of one kind (tensors, Lie elements) in one context. -/
structure Backend (K V : Type) where
  /-- `storage_type()` -/
  storage : V → VecType
  /-- `context()->convert(arg, storage type)` -/
  convert : V → VecType → Option V
  /-- `alg_info::create_like` -/
  zeroLike : V → V
  clear : V → V
  /-- `data().size() == 0` (`algebra_impl.h:446-451`) -/
  isZero : V → Bool
  neg : V → V
  smul : V → K → V
  sdiv : V → K → Option V
  /-- on vectors of the same storage type, as are the following -/
  add : V → V → Option V
  sub : V → V → Option V
  mul : V → V → Option V
  smulIn : V → K → V
  sdivIn : V → K → Option V
  addIn : V → V → Option V
  subIn : V → V → Option V
  mulIn : V → V → Option V
  /-- `v += v` for one vector -/
  addSelf : V → Option V
  /-- `v -= v` for one vector -/
  subSelf : V → Option V
  beq : V → V → Option Bool

/-- The contexts there are, by address. -/
structure Contexts (K V : Type) where
  width : ℕ → ℕ
  vectors : ℕ → Backend K V

/-- A vector with its context: the object behind `p_impl`. -/
structure Elem (V : Type) where
  ctx : ℕ
  val : V
deriving DecidableEq, Repr

/-- `AlgebraBase`: null or an owned object. -/
abbrev Handle (V : Type) := Option (Elem V)

section
variable (W : Contexts K V)

/-- `check_contexts_compatible` (`algebra/src/algebra_base.cpp:87-94`), with `check_compatible`
(`context.cpp:140-143`); the context of an unset element is null (`algebra_base_impl.h:252-255`). -/
def checkContexts (ref other : Handle V) : Outcome Unit :=
  if ref.map (·.ctx) = other.map (·.ctx) then .ok ()
  else match ref, other with
    | some a, some b => if W.width a.ctx = W.width b.ctx then .ok () else .refused
    | _, _ => .undefined

/-! ## `AlgebraImplementation` -/

namespace Elem

/-- `convert_argument` (`algebra_impl.h:659-672`). -/
def convertArgument (self arg : Elem V) : Outcome V :=
  if self.ctx = arg.ctx then
    if (W.vectors self.ctx).storage self.val = (W.vectors self.ctx).storage arg.val then .ok arg.val
    else .ofOption ((W.vectors self.ctx).convert arg.val ((W.vectors self.ctx).storage self.val))
  else .refused

/-- `zero_like` (`algebra_impl.h:497-500`) -/
def zeroLike (self : Elem V) : Elem V := ⟨self.ctx, (W.vectors self.ctx).zeroLike self.val⟩

/-- `clear` (`algebra_impl.h:596-599`) -/
def clear (self : Elem V) : Elem V := ⟨self.ctx, (W.vectors self.ctx).clear self.val⟩

/-- `is_zero` (`algebra_impl.h:446-451`) -/
def isZero (self : Elem V) : Bool := (W.vectors self.ctx).isZero self.val

/-- `uminus` (`algebra_impl.h:907-910`) -/
def uminus (self : Elem V) : Elem V := ⟨self.ctx, (W.vectors self.ctx).neg self.val⟩

/-- `smul` (`algebra_impl.h:962-970`) -/
def smul (self : Elem V) (s : K) : Elem V := ⟨self.ctx, (W.vectors self.ctx).smul self.val s⟩

/-- `sdiv` (`algebra_impl.h:977-985`) -/
def sdiv (self : Elem V) (s : K) : Outcome (Elem V) := do
  .ok ⟨self.ctx, ← .ofOption ((W.vectors self.ctx).sdiv self.val s)⟩

/-- `add` (`algebra_impl.h:917-925`) -/
def add (self other : Elem V) : Outcome (Elem V) := do
  let v ← self.convertArgument W other
  .ok ⟨self.ctx, ← .ofOption ((W.vectors self.ctx).add self.val v)⟩

/-- `sub` (`algebra_impl.h:932-940`) -/
def sub (self other : Elem V) : Outcome (Elem V) := do
  let v ← self.convertArgument W other
  .ok ⟨self.ctx, ← .ofOption ((W.vectors self.ctx).sub self.val v)⟩

/-- `mul` (`algebra_impl.h:947-955`) -/
def mul (self other : Elem V) : Outcome (Elem V) := do
  let v ← self.convertArgument W other
  .ok ⟨self.ctx, ← .ofOption ((W.vectors self.ctx).mul self.val v)⟩

/-- `smul_inplace` (`algebra_impl.h:1043-1048`) -/
def smulIn (self : Elem V) (s : K) : Elem V := ⟨self.ctx, (W.vectors self.ctx).smulIn self.val s⟩

/-- `sdiv_inplace` (`algebra_impl.h:1054-1059`) -/
def sdivIn (self : Elem V) (s : K) : Outcome (Elem V) := do
  .ok ⟨self.ctx, ← .ofOption ((W.vectors self.ctx).sdivIn self.val s)⟩

/-- `add_inplace` of another element (`algebra_impl.h:1008-1014`) -/
def addIn (self other : Elem V) : Outcome (Elem V) := do
  let v ← self.convertArgument W other
  .ok ⟨self.ctx, ← .ofOption ((W.vectors self.ctx).addIn self.val v)⟩

/-- `sub_inplace` of another element (`algebra_impl.h:1020-1026`) -/
def subIn (self other : Elem V) : Outcome (Elem V) := do
  let v ← self.convertArgument W other
  .ok ⟨self.ctx, ← .ofOption ((W.vectors self.ctx).subIn self.val v)⟩

/-- `mul_inplace` (`algebra_impl.h:1032-1037`); the product is computed aside
(`vendored/libalgebra_lite/algebra.h:588-602`), so that `other` may be the element itself. -/
def mulIn (self other : Elem V) : Outcome (Elem V) := do
  let v ← self.convertArgument W other
  .ok ⟨self.ctx, ← .ofOption ((W.vectors self.ctx).mulIn self.val v)⟩

/-- `add_inplace` with the element itself: `convert_argument` returns a reference to its own data -/
def addSelf (self : Elem V) : Outcome (Elem V) := do
  .ok ⟨self.ctx, ← .ofOption ((W.vectors self.ctx).addSelf self.val)⟩

/-- `sub_inplace` with the element itself -/
def subSelf (self : Elem V) : Outcome (Elem V) := do
  .ok ⟨self.ctx, ← .ofOption ((W.vectors self.ctx).subSelf self.val)⟩

/-- `equals` (`algebra_impl.h:1190-1195`) -/
def equals (self other : Elem V) : Outcome Bool := do
  let v ← self.convertArgument W other
  .ofOption ((W.vectors self.ctx).beq self.val v)

end Elem

/-! ## `AlgebraBase` -/

namespace Handle

variable [Zero K] [DecidableEq K]

/-- `uminus` (`algebra_base_impl.h:445-449`) -/
def uminus : Handle V → Handle V
  | none => none
  | some a => some (a.uminus W)

/-- `smul` (`algebra_base_impl.h:454-460`) -/
def smul (s : K) : Handle V → Handle V
  | none => none
  | some a => if s = 0 then some (a.zeroLike W) else some (a.smul W s)

/-- `sdiv` (`algebra_base_impl.h:465-471`) -/
def sdiv (s : K) : Handle V → Outcome (Handle V)
  | none => .ok none
  | some a => if s = 0 then .refused else do .ok (some (← a.sdiv W s))

/-- `add` (`algebra_base_impl.h:288-298`) -/
def add (self rhs : Handle V) : Outcome (Handle V) :=
  match rhs with
  | none => .ok self
  | some b => do
    checkContexts W self rhs
    match self with
    | none => .ok (some b)
    | some a => .ok (some (← a.add W b))

/-- `sub` (`algebra_base_impl.h:303-314`) -/
def sub (self rhs : Handle V) : Outcome (Handle V) :=
  match rhs with
  | none => .ok self
  | some b => do
    checkContexts W self rhs
    match self with
    | none => .ok (some (b.uminus W))
    | some a => .ok (some (← a.sub W b))

/-- `mul` (`algebra_base_impl.h:319-330`) -/
def mul (self rhs : Handle V) : Outcome (Handle V) :=
  match rhs with
  | none => .ok self
  | some b => do
    checkContexts W self rhs
    match self with
    | none => .ok (some b)
    | some a => .ok (some (← a.mul W b))

/-- `smul_inplace` (`algebra_base_impl.h:513-517`) -/
def smulIn (self : Handle V) (s : K) : Handle V := self.map fun a => a.smulIn W s

/-- `sdiv_inplace` (`algebra_base_impl.h:522-531`) -/
def sdivIn (self : Handle V) (s : K) : Outcome (Handle V) :=
  match self with
  | none => .ok none
  | some a => if s = 0 then .refused else do .ok (some (← a.sdivIn W s))

/-- `add_inplace` (`algebra_base_impl.h:477-484`); an unset element is replaced by an unset one. -/
def addIn (self rhs : Handle V) : Outcome (Handle V) :=
  match rhs with
  | none => .ok self
  | some b => do
    checkContexts W self rhs
    match self with
    | none => .undefined
    | some a => .ok (some (← a.addIn W b))

/-- `sub_inplace` (`algebra_base_impl.h:489-496`) -/
def subIn (self rhs : Handle V) : Outcome (Handle V) :=
  match rhs with
  | none => .ok self
  | some b => do
    checkContexts W self rhs
    match self with
    | none => .undefined
    | some a => .ok (some (← a.subIn W b))

/-- `mul_inplace` (`algebra_base_impl.h:501-508`) -/
def mulIn (self rhs : Handle V) : Outcome (Handle V) :=
  match rhs with
  | none => .ok self
  | some b => do
    checkContexts W self rhs
    match self with
    | none => .undefined
    | some a => .ok (some (← a.mulIn W b))

/-- `x.add_inplace(x)`: the contexts agree -/
def addSelf : Handle V → Outcome (Handle V)
  | none => .ok none
  | some a => do .ok (some (← a.addSelf W))

/-- `x.sub_inplace(x)` -/
def subSelf : Handle V → Outcome (Handle V)
  | none => .ok none
  | some a => do .ok (some (← a.subSelf W))

/-- `rhs.sdiv(s)` in the fallbacks below, for an element that is set -/
def sdivElem (b : Elem V) (s : K) : Outcome (Elem V) :=
  if s = 0 then .refused else b.sdiv W s

/-- `rhs.smul(s)` in the fallbacks below, for an element that is set -/
def smulElem (b : Elem V) (s : K) : Elem V := if s = 0 then b.zeroLike W else b.smul W s

/-- `add_scal_mul` (`algebra_base_impl.h:537-551`).  The fused operations of the vectors are never
used: the test for them calls them without arguments (`algebra_impl.h:150-162`); the fallback
(`algebra_base_impl.h:120-127`) multiplies first and then adds. -/
def addScalMul (self lhs : Handle V) (s : K) : Outcome (Handle V) :=
  match lhs with
  | none => .ok self
  | some b =>
    if s = 0 then .ok self
    else do
      checkContexts W self lhs
      match self with
      | some a => .ok (some (← a.addIn W (smulElem W b s)))
      | none => .ok (smul W s lhs)

/-- `sub_scal_mul` (`algebra_base_impl.h:556-570`, fallback `:128-135`) -/
def subScalMul (self lhs : Handle V) (s : K) : Outcome (Handle V) :=
  match lhs with
  | none => .ok self
  | some b =>
    if s = 0 then .ok self
    else do
      checkContexts W self lhs
      match self with
      | some a => .ok (some (← a.subIn W (smulElem W b s)))
      | none => .ok (uminus W (smul W s lhs))

/-- `add_scal_div` (`algebra_base_impl.h:575-592`, fallback `:136-143`) -/
def addScalDiv (self lhs : Handle V) (s : K) : Outcome (Handle V) :=
  match lhs with
  | none => .ok self
  | some b => do
    checkContexts W self lhs
    if s = 0 then .refused
    else match self with
      | some a => do .ok (some (← a.addIn W (← sdivElem W b s)))
      | none => sdiv W s lhs

/-- `sub_scal_div` (`algebra_base_impl.h:597-614`, fallback `:144-151`) -/
def subScalDiv (self lhs : Handle V) (s : K) : Outcome (Handle V) :=
  match lhs with
  | none => .ok self
  | some b => do
    checkContexts W self lhs
    if s = 0 then .refused
    else match self with
      | some a => do .ok (some (← a.subIn W (← sdivElem W b s)))
      | none => do .ok (uminus W (← sdiv W s lhs))

/-- `lhs.mul(rhs)` in the fallbacks below, for elements that are set -/
def mulElem (b c : Elem V) : Outcome (Elem V) := do
  checkContexts W (some b) (some c)
  b.mul W c

/-- `add_mul` (`algebra_base_impl.h:619-633`, fallback `:152-159`) -/
def addMul (self lhs rhs : Handle V) : Outcome (Handle V) :=
  match lhs, rhs with
  | some b, some c => do
    checkContexts W self lhs
    checkContexts W self rhs
    match self with
    | none => .ok (some (← mulElem W b c))
    | some a => .ok (some (← a.addIn W (← mulElem W b c)))
  | _, _ => .ok self

/-- `sub_mul` (`algebra_base_impl.h:638-652`, fallback `:160-167`) -/
def subMul (self lhs rhs : Handle V) : Outcome (Handle V) :=
  match lhs, rhs with
  | some b, some c => do
    checkContexts W self lhs
    checkContexts W self rhs
    match self with
    | none => .ok (some ((← mulElem W b c).uminus W))
    | some a => .ok (some (← a.subIn W (← mulElem W b c)))
  | _, _ => .ok self

/-- `mul_smul` (`algebra_base_impl.h:657-668`, fallback `:168-175`) -/
def mulSmul (self lhs : Handle V) (s : K) : Outcome (Handle V) :=
  match lhs with
  | none => .ok (self.map (·.clear W))
  | some b =>
    if s = 0 then .ok (self.map (·.clear W))
    else do
      checkContexts W self lhs
      match self with
      | some a => .ok (some (← a.mulIn W (smulElem W b s)))
      | none => .ok none

/-- `mul_sdiv` (`algebra_base_impl.h:673-687`, fallback `:176-183`) -/
def mulSdiv (self lhs : Handle V) (s : K) : Outcome (Handle V) :=
  match lhs with
  | none => .ok (self.map (·.clear W))
  | some b => do
    checkContexts W self lhs
    if s = 0 then .refused
    else match self with
      | some a => do .ok (some (← a.mulIn W (← sdivElem W b s)))
      | none => .ok none

/-- `is_zero` (`algebra_base_impl.h:351-355`) -/
def isZero : Handle V → Bool
  | none => true
  | some a => a.isZero W

/-- `operator==` (`algebra_base_impl.h:692-703`) -/
def eq (self other : Handle V) : Outcome Bool :=
  match self, other with
  | none, none => .ok true
  | none, some b => .ok (b.isZero W)
  | some a, none => .ok (a.isZero W)
  | some a, some b =>
    if W.width a.ctx = W.width b.ctx then a.equals W b else .ok false

end Handle

/-! ## Programs -/

/-- Statements on variables, as in Python: `x = y + z`, `x += y`, `x.add_scal_mul(y, s)`, … -/
inductive Stmt (K : Type)
  | copy (x y : ℕ)
  | neg (x y : ℕ)
  | add (x y z : ℕ)
  | sub (x y z : ℕ)
  | mul (x y z : ℕ)
  | smul (x y : ℕ) (s : K)
  | sdiv (x y : ℕ) (s : K)
  | addIn (x y : ℕ)
  | subIn (x y : ℕ)
  | mulIn (x y : ℕ)
  | smulIn (x : ℕ) (s : K)
  | sdivIn (x : ℕ) (s : K)
  | addScalMul (x y : ℕ) (s : K)
  | subScalMul (x y : ℕ) (s : K)
  | addScalDiv (x y : ℕ) (s : K)
  | subScalDiv (x y : ℕ) (s : K)
  | addMul (x y z : ℕ)
  | subMul (x y z : ℕ)
  | mulSmul (x y : ℕ) (s : K)
  | mulSdiv (x y : ℕ) (s : K)

/-- The variables, each owning its element. -/
abbrev Store (V : Type) := ℕ → Handle V

variable [Zero K] [DecidableEq K]

/-- The variable a statement assigns. -/
def Stmt.target : Stmt K → ℕ
  | copy x _ | neg x _ | add x _ _ | sub x _ _ | mul x _ _ | smul x _ _ | sdiv x _ _ | addIn x _
  | subIn x _ | mulIn x _ | smulIn x _ | sdivIn x _ | addScalMul x _ _ | subScalMul x _ _
  | addScalDiv x _ _ | subScalDiv x _ _ | addMul x _ _ | subMul x _ _ | mulSmul x _ _
  | mulSdiv x _ _ => x

/-- What a statement assigns.  `x += x` and `x -= x` name one element twice; the other statements
build their result, or the operand of the in-place operation, aside. -/
def Stmt.result (σ : Store V) : Stmt K → Outcome (Handle V)
  | copy _ y => .ok (σ y)
  | neg _ y => .ok (Handle.uminus W (σ y))
  | add _ y z => Handle.add W (σ y) (σ z)
  | sub _ y z => Handle.sub W (σ y) (σ z)
  | mul _ y z => Handle.mul W (σ y) (σ z)
  | smul _ y s => .ok (Handle.smul W s (σ y))
  | sdiv _ y s => Handle.sdiv W s (σ y)
  | addIn x y => if x = y then Handle.addSelf W (σ x) else Handle.addIn W (σ x) (σ y)
  | subIn x y => if x = y then Handle.subSelf W (σ x) else Handle.subIn W (σ x) (σ y)
  | mulIn x y => Handle.mulIn W (σ x) (σ y)
  | smulIn x s => .ok (Handle.smulIn W (σ x) s)
  | sdivIn x s => Handle.sdivIn W (σ x) s
  | addScalMul x y s => Handle.addScalMul W (σ x) (σ y) s
  | subScalMul x y s => Handle.subScalMul W (σ x) (σ y) s
  | addScalDiv x y s => Handle.addScalDiv W (σ x) (σ y) s
  | subScalDiv x y s => Handle.subScalDiv W (σ x) (σ y) s
  | addMul x y z => Handle.addMul W (σ x) (σ y) (σ z)
  | subMul x y z => Handle.subMul W (σ x) (σ y) (σ z)
  | mulSmul x y s => Handle.mulSmul W (σ x) (σ y) s
  | mulSdiv x y s => Handle.mulSdiv W (σ x) (σ y) s

/-- One statement. -/
def step (σ : Store V) (i : Stmt K) : Outcome (Store V) := do
  let r ← i.result W σ
  .ok (Function.update σ i.target r)

/-- A program: statements one after the other, up to the first that is refused. -/
def run : List (Stmt K) → Store V → Outcome (Store V)
  | [], σ => .ok σ
  | i :: p, σ => do
    let σ' ← step W σ i
    run p σ'

end

/-! ## The vectors of the contexts of the library -/

/-- a function on vectors of the same storage type; the cast of another vector is undefined -/
def pairwise {β : Type} (s : Sparse K → Sparse K → Option β) (d : Dense K → Dense K → Option β) :
    Stored K → Stored K → Option β
  | .sparse a, .sparse b => s a b
  | .dense a, .dense b => d a b
  | _, _ => none

/-- a function on vectors of either storage type -/
def each {β : Type} (s : Sparse K → β) (d : Dense K → β) : Stored K → β
  | .sparse a => s a
  | .dense a => d a

/-- The operations of vectors of both storage types as listed in `Backend`, from their products. -/
def storedBackend [Field K] [DecidableEq K] (S : VecOps K (Sparse K)) (D : VecOps K (Dense K))
    (convert : Stored K → VecType → Option (Stored K))
    (mulS mulInS : Sparse K → Sparse K → Option (Sparse K))
    (mulD mulInD : Dense K → Dense K → Option (Dense K)) : Backend K (Stored K) where
  storage := Stored.vecType
  convert := convert
  zeroLike := each (fun _ => .sparse S.new) fun _ => .dense D.new
  clear := each (fun a => .sparse (S.clear a)) fun a => .dense (D.clear a)
  isZero := each (fun a => S.size a == 0) fun a => D.size a == 0
  neg := each (fun a => .sparse (S.neg a)) fun a => .dense (D.neg a)
  smul := fun x s => each (fun a => .sparse (S.smul a s)) (fun a => .dense (D.smul a s)) x
  sdiv := fun x s => each (fun a => (S.sdiv a s).map .sparse) (fun a => (D.sdiv a s).map .dense) x
  add := pairwise (fun a b => some (.sparse (S.add a b))) fun a b => some (.dense (D.add a b))
  sub := pairwise (fun a b => some (.sparse (S.sub a b))) fun a b => some (.dense (D.sub a b))
  mul := pairwise (fun a b => (mulS a b).map .sparse) fun a b => (mulD a b).map .dense
  smulIn := fun x s =>
    each (fun a => .sparse (S.smulInplace a s)) (fun a => .dense (D.smulInplace a s)) x
  sdivIn := fun x s =>
    each (fun a => (S.sdivInplace a s).map .sparse) (fun a => (D.sdivInplace a s).map .dense) x
  addIn := pairwise (fun a b => some (.sparse (S.addInplace a b)))
    fun a b => some (.dense (D.addInplace a b))
  subIn := pairwise (fun a b => some (.sparse (S.subInplace a b)))
    fun a b => some (.dense (D.subInplace a b))
  mulIn := pairwise (fun a b => (mulInS a b).map .sparse) fun a b => (mulInD a b).map .dense
  addSelf := each (fun a => (S.binarySelf (fun l r => l + r) a).map .sparse)
    fun a => (D.binarySelf (fun l r => l + r) a).map .dense
  subSelf := each (fun a => (S.binarySelf (fun l r => l - r) a).map .sparse)
    fun a => (D.binarySelf (fun l r => l - r) a).map .dense
  beq := pairwise (fun a b => some (S.beq a b)) fun a b => some (D.beq a b)

/-- The free tensors of a context: `free_tensor_t<VType>` (`algebra/src/lite_context.h`). -/
def tensorVectors [Field K] [DecidableEq K] (c : LiteCtx) : Backend K (Stored K) :=
  storedBackend c.sparseKind.tensor.toVecOps c.denseKind.tensor.toVecOps
    (fun x vt => c.convertTensor c x vt)
    c.sparseKind.tensor.mul c.sparseKind.tensor.mulInplace
    c.denseKind.tensor.mul c.denseKind.tensor.mulInplace

/-- The Lie elements of a context: `lie_t<VType>`.  `fuel` bounds recursions; `cache` and `st` are
what the products of keys and the maps remember at the time.  Simplification: what they learn is
not passed on; `C70_…` and `C74_convert_lie` show that results do not depend on it. -/
def lieVectors [Field K] [DecidableEq K] (c : LiteCtx) (fuel : ℕ) (cache : LieCache)
    (st : MapsState) : Backend K (Stored K) :=
  storedBackend Sparse.ops (Dense.ops c.lieBasis)
    (fun x vt => (c.convertLie fuel st x vt).map (·.1))
    (fun a b => ((sparseLie c.hs c.depth fuel).mul cache a b).map (·.1))
    (fun a b => ((sparseLie c.hs c.depth fuel).mulInplace cache a b).map (·.1))
    (fun a b => ((denseLie c.hs c.lieBasis fuel).mul cache a b).map (·.1))
    fun a b => ((denseLie c.hs c.lieBasis fuel).mulInplace cache a b).map (·.1)

/-! ## Reading coefficients -/

section
variable [Field K] [DecidableEq K]

/-- `t[i]` for a tensor that is set: `get` (`algebra_impl.h:530-540`) with
`tensor_basis_info::convert_to_impl` (`libalgebra_lite_internal/tensor_basis_info.h:80-85`). -/
def getTensor (c : LiteCtx) (x : Stored K) (i : ℕ) : Option K := do
  let k ← c.tensorBasis.indexToKey i
  match x with
  | .sparse v => Sparse.ops.read v k
  | .dense v => (Dense.ops c.tensorBasis).read v k

/-- `l[n]` for a Lie element that is set: keys are numbered from 1
(`libalgebra_lite_internal/lie_basis_info.h:80-86`), and 0 wraps around to the largest index. -/
def getLie (c : LiteCtx) (x : Stored K) (n : ℕ) : Option K := do
  let k ← c.lieBasis.indexToKey (if n = 0 then 2 ^ 64 - 1 else n - 1)
  match x with
  | .sparse v => Sparse.ops.read v k
  | .dense v => (Dense.ops c.lieBasis).read v k

/-- `operator[]` (`algebra_base_impl.h:401-408`); an unset element shows an empty scalar. -/
def Handle.get (read : Stored K → ℕ → Option K) : Handle (Stored K) → ℕ → Outcome K
  | none, _ => .ok 0
  | some a, i => .ofOption (read a.val i)

/-- iteration over a tensor that is set -/
def tensorItems (c : LiteCtx) : Stored K → Option (List (Key × K))
  | .sparse v => Sparse.ops.items v
  | .dense v => (Dense.ops c.tensorBasis).items v

/-- `shuffle @ tensor` (`roughpy/src/algebra/shuffle_tensor.cpp:208-218`): the coefficients are
paired by the number of the key; the contexts are not compared.  For an unset shuffle tensor the
type of the result is null. -/
def pair (c : ℕ → LiteCtx) (shuf arg : Handle (Stored K)) : Outcome K :=
  match shuf with
  | none => .undefined
  | some s => do
    let items ← .ofOption (tensorItems (c s.ctx) s.val)
    .ofOption (loop items 0 fun result t => do
      let i ← (c s.ctx).tensorBasis.keyToIndex t.1
      match arg with
      | none => some result
      | some a => some (result + t.2 * (← getTensor (c a.ctx) a.val i)))

end

end RoughPy.Handles
