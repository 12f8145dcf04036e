import Verif.Args.Tree
import Verif.Lite.ContextModel

/-!
# The constructors `FreeTensor(data, **kwargs)`, `ShuffleTensor(...)` and `Lie(...)` in Python

`construct_free_tensor` (roughpy/src/algebra/free_tensor.cpp:97-163), `construct_shuffle`
(roughpy/src/algebra/shuffle_tensor.cpp:126-190) and `construct_lie`
(roughpy/src/algebra/lie.cpp:111-155) up to the call of the context, which is modelled in
`Verif/Lite/ContextModel.lean` (`constructTensor`, `constructLie`).

Simplified: widths and depths are natural numbers; a context is its width, depth and scalar type, which
the library has for each of the four types.  Warnings are left out, and data that is itself a Lie element.
-/

namespace RoughPy.Args

open RoughPy.Lite (VecType KeyScalars)

variable {R : Type}

/-- The three classes. -/
inductive Cls where
  | freeTensor
  | shuffle
  | lie
  deriving DecidableEq, Repr

/-- The keyword arguments: a context (`ctx` or `context`), sizes, the first scalar type given, the
storage type, whether there is an argument `keys`, and whether there is one of another name. -/
structure Kwargs where
  ctx : Option (ℕ × ℕ × Target) := none
  width : Option ℕ := none
  depth : Option ℕ := none
  type : Option Target := none
  vtype : Option VecType := none
  keys : Option (List ℕ) := none
  excess : Bool := false

/-- `PyVectorConstructionHelper` (roughpy/src/args/kwargs_to_vector_construction.h:41-55) -/
structure Helper where
  ctx : Option (ℕ × ℕ × Target)
  width : ℕ
  depth : ℕ
  type : Option Target
  vtype : VecType
  vtypeRequested : Bool

/-- `kwargs_to_construction_data` (roughpy/src/args/kwargs_to_vector_construction.cpp:38-93), with
`parse_algebra_configuration`: a context takes priority.  `keys` is removed and not used (`:72-78`). -/
def helper (a : Kwargs) : Out Helper :=
  let h : Helper := match a.ctx with
    | some c => ⟨some c, c.1, c.2.1, some c.2.2, a.vtype.getD .dense, a.vtype.isSome⟩
    | none => ⟨none, a.width.getD 0, a.depth.getD 2, a.type, a.vtype.getD .dense, a.vtype.isSome⟩
  let ctx := match h.type with
    | some t => if h.width ≠ 0 ∧ h.depth ≠ 0 then some (h.width, h.depth, t) else h.ctx
    | none => h.ctx
  if a.excess then .err else .ok { h with ctx := ctx }

/-- `parse_data_argument` as the constructors call it: `max_nested` is 1, `None` is allowed, and so are
single numbers for tensors (not for Lie elements) and single pairs of a key and a number
(parse_data_argument.cpp:615-636, 672-680).  The result is the scalar type, null if it was and the data is
`None`, and the leaf, if there is one. -/
def parseSingle (C : Target → Conv R) (ofPoly : ℕ → R) (alt allowScalar : Bool)
    (requested : Option Target) : Option Py → Out (Option Target × Option (Row R))
  | none => .ok (requested, none)
  | some p =>
    if allowScalar && p.isScalar then
      p.typeInfo.bind fun i => (computeScalarType requested [i]).bind fun t =>
        (p.scalar C ofPoly t).map fun v => (some t, some (.dense [v]))
    else
      match p with
      | .tuple [a, b] =>
        if a.isKey alt then
          b.typeInfo.bind fun i => (computeScalarType requested [i]).bind fun t =>
            (pairRow C ofPoly t alt (a, b)).map fun kv => (some t, some (.sparse [kv]))
        else (parse C ofPoly alt requested 1 p).bind single
      | _ => (parse C ofPoly alt requested 1 p).bind single
where
  /-- `parsed_data.size() == 1`; otherwise the data is dropped -/
  single : Target × List (Row R) → Out (Option Target × Option (Row R))
    | (t, [r]) => .ok (some t, some r)
    | (t, _) => .ok (some t, none)

/-- `leaf.data`: a `KeyScalarArray` -/
def Row.buffer : Row R → KeyScalars R
  | .dense l => ⟨none, l⟩
  | .sparse l => ⟨some (l.map Prod.fst), l.map Prod.snd⟩

/-- What the context is asked for. -/
structure Request (R : Type) where
  width : ℕ
  depth : ℕ
  type : Target
  vtype : VecType
  data : KeyScalars R

/-- The three constructors.  `is_sparse` of free tensors and `has_keys()` of shuffle tensors agree; Lie
elements keep the storage type of the helper. -/
def construct (C : Target → Conv R) (ofPoly : ℕ → R) (cls : Cls) (a : Kwargs) (data : Option Py) :
    Out (Request R) :=
  (helper a).bind fun h =>
    (parseSingle C ofPoly (cls ≠ .lie) (cls ≠ .lie) h.type data).bind fun (type, row) =>
      let buffer := match row with
        | some r => r.buffer
        | none => ⟨none, []⟩
      let isSparse := buffer.keys.isSome
      match type with
      | none => .err
      | some t =>
        let width := if h.width = 0 ∧ 0 < buffer.vals.length then
            (if cls = .lie then buffer.vals.length else buffer.vals.length - 1)
          else h.width
        let ctx := match h.ctx with
          | some c => some c
          | none => if width = 0 ∨ h.depth = 0 then none else some (width, h.depth, t)
        let vtype := if h.vtypeRequested ∨ cls = .lie then h.vtype
          else if isSparse then .sparse else .dense
        match ctx with
        | none => .err
        | some (w, d, t') => .ok ⟨w, d, t', vtype, buffer⟩

end RoughPy.Args
