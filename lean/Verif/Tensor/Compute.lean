import Verif.Tensor.Meaning

/-!
# Model of the Python compute functions (`/repo/roughpy/compute`)

The functions exported by `roughpy.compute` check the widths of their operands, choose the
basis and the degree bounds handed to the kernels and allocate the results.  A call ends in one
of three ways: it returns, it raises a Python exception, or the kernel reads or writes outside
the arrays it was given (undefined behaviour in C++).

Simplifications: one-dimensional arrays of one scalar type (the loops over leading dimensions
in `py_binary_array_fn.hpp:27-65` / `py_ternary_array_fn.hpp:28-74` and the `dtype` checks are
modelled in `Verif/Batch`); a basis is its width and depth (`degree_begin` is the one built by
`construct_tensor_db`).
-/

namespace RoughPy.Tensor

/-- How a call from Python ends. -/
inductive Outcome (α : Type) where
  /-- normal return -/
  | ok (a : α)
  /-- a Python exception -/
  | raised
  /-- an access outside an array (undefined behaviour) -/
  | undefined
deriving DecidableEq, Repr

/-- `DenseFreeTensor` / `DenseShuffleTensor` (`roughpy/compute/__init__.py:90-102`): a data array
and a basis. -/
structure DenseTensor (K : Type) where
  data : Buf K
  width : ℕ
  depth : ℕ

namespace DenseTensor
variable {K : Type}

/-- the data array has as many entries as the basis has elements -/
def WF (t : DenseTensor K) : Prop := t.data.size = wordsBelow t.width (t.depth + 1)

/-- The Python object `t` is a well-formed tensor over `w` letters of depth `D` whose coefficients
are those of the series `f` (up to degree `D`). -/
structure Represents [CommRing K] (t : DenseTensor K) (w D : ℕ) (f : Series (Fin w) K) : Prop where
  width_eq : t.width = w
  depth_eq : t.depth = D
  wf : t.WF
  coeff : ∀ u : List (Fin w), u.length ≤ D → t.data.get (wordIndex u) = f u

end DenseTensor

/-- `update_algebra_params` (`roughpy/compute/_src/call_config.cpp:10-31`) for one argument with
minimal degree 0: resolve the requested maximal degree; `none` is the `ValueError`. -/
def resolveDegree (depth : ℕ) (requested : ℤ) : Option ℕ :=
  let m : ℤ := if requested = -1 ∨ requested > depth then depth else requested
  if 0 > m then none else some m.toNat

/-- the view built from a basis and resolved degree bounds, e.g.
`roughpy/compute/_src/dense_basic.cpp:58-63` -/
def argView (w depth m : ℕ) : View := ⟨w, depth, 0, m⟩

variable {K : Type}

/-- turn the outcome of a kernel into the outcome of the call -/
def finish {α : Type} : Option α → Outcome α
  | some a => .ok a
  | none => .undefined

/-- continue after an expression that may raise -/
def orRaise {α β : Type} (x : Option α) (k : α → Outcome β) : Outcome β :=
  match x with
  | some a => k a
  | none => .raised

/-- sequencing of calls -/
def Outcome.andThen {α β : Type} (x : Outcome α) (k : α → Outcome β) : Outcome β :=
  match x with
  | .ok a => k a
  | .raised => .raised
  | .undefined => .undefined

/-- apply a function to the returned value -/
def Outcome.map {α β : Type} (f : α → β) (x : Outcome α) : Outcome β := x.andThen fun a => .ok (f a)

section ring
variable [CommRing K]

/-- `py_dense_ft_fma` (`dense_basic.cpp:85-147`). -/
def denseFtFma (out lhs rhs : Buf K) (w depth : ℕ) (outDepth : ℤ := -1) (lhsDepth : ℤ := -1)
    (rhsDepth : ℤ := -1) : Outcome (Buf K) :=
  orRaise (resolveDegree depth outDepth) fun o =>
  orRaise (resolveDegree depth lhsDepth) fun l =>
  orRaise (resolveDegree depth rhsDepth) fun r =>
  finish (ftFma id (argView w depth o) (argView w depth l) (argView w depth r) out lhs rhs)

/-- `py_dense_ft_inplace_mul` (`dense_basic.cpp:196-237`). -/
def denseFtInplaceMul (lhs rhs : Buf K) (w depth : ℕ) (outDepth : ℤ := -1) (rhsDepth : ℤ := -1) :
    Outcome (Buf K) :=
  orRaise (resolveDegree depth outDepth) fun o =>
  orRaise (resolveDegree depth rhsDepth) fun r =>
  finish (ftInplaceMul id (argView w depth o) (argView w depth r) lhs rhs)

/-- `py_dense_antipode` (`dense_basic.cpp:295-335`), called without the optional depths (with
them the format string `"OOO|ii"` has fewer output pointers than conversions). -/
def denseFtAntipode (out arg : Buf K) (w depth : ℕ) : Outcome (Buf K) :=
  orRaise (resolveDegree depth (-1)) fun o =>
  finish (ftAntipode (argView w depth o) (argView w depth o) out arg)

/-- `py_dense_ft_adj_lmul` (`dense_basic.cpp:387-441`). -/
def denseFtAdjLmul (out op arg : Buf K) (w depth : ℕ) (outDepth : ℤ := -1) (opDepth : ℤ := -1)
    (argDepth : ℤ := -1) : Outcome (Buf K) :=
  orRaise (resolveDegree depth outDepth) fun o =>
  orRaise (resolveDegree depth opDepth) fun p =>
  orRaise (resolveDegree depth argDepth) fun a =>
  finish (ftAdjLmul (argView w depth o) (argView w depth p) (argView w depth a) out op arg)

/-- `py_dense_st_fma` (`dense_basic.cpp:492-534`); no depth arguments. -/
def denseStFma (out lhs rhs : Buf K) (w depth : ℕ) : Outcome (Buf K) :=
  orRaise (resolveDegree depth (-1)) fun m =>
  finish (stFma id (argView w depth m) (argView w depth m) (argView w depth m) out lhs rhs)

/-- `_check_basis_compat` (`roughpy/compute/__init__.py:119-124`). -/
def compatible (out : ℕ) (others : List ℕ) : Bool := others.all (· == out)

/-- run `k` unless the widths are incompatible -/
def checked {α : Type} (out : ℕ) (others : List ℕ) (k : Outcome α) : Outcome α :=
  if compatible out others then k else .raised

/-- `ft_fma` (`__init__.py:128-145`): the basis is that of `b`, the *output* depth is set to the
depth of `c`. -/
def pyFtFma (a b c : DenseTensor K) : Outcome (DenseTensor K) :=
  checked a.width [b.width, c.width] <|
    (denseFtFma a.data b.data c.data b.width b.depth c.depth).map fun d => { a with data := d }

/-- `ft_mul` (`__init__.py:148-165`); `np.zeros_like(a.data)`. -/
def pyFtMul (a b : DenseTensor K) : Outcome (DenseTensor K) :=
  checked a.width [b.width] <|
    (denseFtFma ⟨a.data.size, fun _ => 0⟩ a.data b.data a.width a.depth (rhsDepth := b.depth)).map
      fun d => { a with data := d }

/-- `ft_inplace_mul` (`__init__.py:168-184`): the *output* depth is set to the depth of `b`. -/
def pyFtInplaceMul (a b : DenseTensor K) : Outcome (DenseTensor K) :=
  checked a.width [b.width] <|
    (denseFtInplaceMul a.data b.data a.width a.depth b.depth).map fun d => { a with data := d }

/-- `antipode` (`__init__.py:187-200`). -/
def pyAntipode (a : DenseTensor K) : Outcome (DenseTensor K) :=
  (denseFtAntipode ⟨a.data.size, fun _ => 0⟩ a.data a.width a.depth).map
    fun d => { a with data := d }

/-- `st_fma` (`__init__.py:203-216`). -/
def pyStFma (a b c : DenseTensor K) : Outcome (DenseTensor K) :=
  checked a.width [b.width, c.width] <|
    (denseStFma a.data b.data c.data a.width a.depth).map fun d => { a with data := d }

/-- `st_mul` (`__init__.py:219-232`). -/
def pyStMul (lhs rhs : DenseTensor K) : Outcome (DenseTensor K) :=
  checked lhs.width [rhs.width] <|
    (denseStFma ⟨lhs.data.size, fun _ => 0⟩ lhs.data rhs.data lhs.width lhs.depth).map
      fun d => { lhs with data := d }

/-- `ft_adjoint_left_mul` (`__init__.py:315-340`): the basis is that of `op`. -/
def pyFtAdjointLeftMul (op arg : DenseTensor K) : Outcome (DenseTensor K) :=
  checked op.width [arg.width] <|
    (denseFtAdjLmul ⟨arg.data.size, fun _ => 0⟩ op.data arg.data op.width op.depth
      arg.depth op.depth arg.depth).map fun d => { arg with data := d }

end ring

section field
variable [Field K]

/-- `py_dense_ft_exp` (`dense_intermediate.cpp:62-103`).  The view of the argument is built with
the degree bounds of the *output* (lines 50-55), so `argDepth` is only checked. -/
def denseFtExp (out arg : Buf K) (w depth : ℕ) (outDepth : ℤ := -1) (argDepth : ℤ := -1) :
    Outcome (Buf K) :=
  orRaise (resolveDegree depth outDepth) fun o =>
  orRaise (resolveDegree depth argDepth) fun _ =>
  finish (ftExp (argView w depth o) (argView w depth o) out arg)

/-- `py_dense_ft_fmexp` (`dense_intermediate.cpp:153-205`); again all views use the degree bounds
of the output (lines 124-141). -/
def denseFtFmexp (out mul ex : Buf K) (w depth : ℕ) (outDepth : ℤ := -1) (mulDepth : ℤ := -1)
    (exDepth : ℤ := -1) : Outcome (Buf K) :=
  orRaise (resolveDegree depth outDepth) fun o =>
  orRaise (resolveDegree depth mulDepth) fun _ =>
  orRaise (resolveDegree depth exDepth) fun _ =>
  finish (ftFmexp (argView w depth o) (argView w depth o) (argView w depth o) out mul ex)

/-- `py_dense_ft_log` (`dense_intermediate.cpp:254-294`). -/
def denseFtLog (out arg : Buf K) (w depth : ℕ) (outDepth : ℤ := -1) (argDepth : ℤ := -1) :
    Outcome (Buf K) :=
  orRaise (resolveDegree depth outDepth) fun o =>
  orRaise (resolveDegree depth argDepth) fun a =>
  finish (ftLog (argView w depth o) (argView w depth a) out arg)

/-- `ft_exp` (`__init__.py:235-258`); `out_basis` is given by its width and
depth (the default is the basis of `x`). -/
def pyFtExp (x : DenseTensor K) (outWidth outDepth : ℕ) : Outcome (DenseTensor K) :=
  checked outWidth [x.width] <|
    (denseFtExp (Buf.zeros outWidth outDepth) x.data outWidth outDepth).map
      fun d => ⟨d, outWidth, outDepth⟩

/-- `ft_log` (`__init__.py:261-284`). -/
def pyFtLog (x : DenseTensor K) (outWidth outDepth : ℕ) : Outcome (DenseTensor K) :=
  checked outWidth [x.width] <|
    (denseFtLog (Buf.zeros outWidth outDepth) x.data outWidth outDepth).map
      fun d => ⟨d, outWidth, outDepth⟩

/-- `ft_fmexp` (`__init__.py:287-312`). -/
def pyFtFmexp (a x : DenseTensor K) (outWidth outDepth : ℕ) : Outcome (DenseTensor K) :=
  checked outWidth [a.width, x.width] <|
    (denseFtFmexp (Buf.zeros outWidth outDepth) a.data x.data outWidth outDepth).map
      fun d => ⟨d, outWidth, outDepth⟩

end field

end RoughPy.Tensor
