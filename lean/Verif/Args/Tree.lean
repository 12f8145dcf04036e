import Verif.Args.Model

/-!
# Data arguments made of Python lists, tuples, dictionaries and arrays

`parse_data_argument` (roughpy/src/args/parse_data_argument.cpp), as `from_increments` and
`compute_signature` call it: no scalar argument, no time stamps (`allow_timestamped` is never set by
any caller, the branches behind it are left out). Elements of the `Lie` class and `roughpy.Scalar`
objects are left out.
-/

namespace RoughPy.Args

/-- The numbers a data argument may hold: integers, floating point numbers (by their bits),
polynomials (by a name) and instances of `fractions.Fraction`. -/
inductive Num where
  | int (n : ℤ)
  | float (bits : ℕ)
  | poly (p : ℕ)
  | fraction
  deriving DecidableEq, Repr

/-- The Python objects the parser tells apart. `exact` says that the type of a number is `int` or
`float` itself and not a subclass such as `bool` or `numpy.float64`. `word` is an instance of the
alternative key type (a tensor or Lie word standing for a key). -/
inductive Py where
  | num (n : Num) (exact : Bool)
  | word (k : ℕ)
  | str
  | other
  | arr (T : DL)
  | list (l : List Py)
  | tuple (l : List Py)
  | dict (l : List (Py × Py))

/-- `ConversionManager::is_scalar` (parse_data_argument.cpp:119-136). -/
def Py.isScalar : Py → Bool
  | .num _ _ => true
  | _ => false

/-- `is_key` (roughpy/src/scalars/scalars.h:104-112); `alt` says that the caller accepts words. -/
def Py.isKey (alt : Bool) : Py → Bool
  | .num (.int _) _ => true
  | .word _ => alt
  | _ => false

/-- `ConversionManager::convert_key` (parse_data_argument.cpp:140-150): a cast to a 64 bit unsigned
number raises when the number does not fit. -/
def Py.key (alt : Bool) : Py → Out ℕ
  | .num (.int n) _ => if 0 ≤ n ∧ n < 2 ^ 64 then .ok n.toNat else .err
  | .word k => if alt then .ok k else .err
  | _ => .err

/-- `ConversionManager::type_info_from` (parse_data_argument.cpp:157-168) with `py_type_to_type`
(roughpy/src/scalars/pytype_conversion.cpp:55-76): the type of the object must be `int` or `float`
itself. -/
def Py.typeInfo : Py → Out TypeInfo
  | .num (.int _) true => .ok float64
  | .num (.float _) true => .ok float64
  | .num (.poly _) _ => .ok (Target.info .poly)
  | _ => .err

/-- `assign_py_object_to_scalar` (roughpy/src/scalars/scalars.cpp:60-84) into a scalar of the chosen
type: integers pass through 64 bit integers, a polynomial is only taken by the polynomial type and a
fraction by none. -/
def Py.scalar {R : Type} (C : Target → Conv R) (ofPoly : ℕ → R) (t : Target) : Py → Out R
  | .num (.int n) _ => if -2 ^ 63 ≤ n ∧ n < 2 ^ 63 then .ok ((C t).ofInt n) else .err
  | .num (.float b) _ => .ok ((C t).ofFloat 8 b)
  | .num (.poly p) _ => if t = .poly then .ok (ofPoly p) else .err
  | _ => .err

/-- `ValueType`. -/
inductive Kind where
  | value
  | pair
  deriving DecidableEq, Repr

/-- The predicate of `all_of` over the items of a sequence (parse_data_argument.cpp:527-578): raises
for mixtures of pairs and values and for strings; stops at the first item that cannot belong to a
leaf. The result says whether the sequence is a leaf and of which kind. -/
def scan (alt : Bool) : Option Kind → List Py → Out (Bool × Option Kind)
  | k, [] => .ok (true, k)
  | k, .tuple l :: rest =>
    if k = some .value then .err
    else match l with
      | [a, b] => if b.isScalar && a.isKey alt then scan alt (some .pair) rest
                  else .ok (false, some .pair)
      | _ => .ok (false, some .pair)
  | _, .str :: _ => .err
  | k, p :: rest =>
    if k = some .pair then .err
    else if p.isScalar then scan alt (some .value) rest
    else .ok (false, some .value)

/-- `LeafItem`: what is recorded about a leaf. -/
inductive Leaf where
  | values (items : List Py)
  | pairs (items : List Py)
  | dict (items : List (Py × Py))
  | arr (T : DL)

/-- The second entry of a pair. -/
def Py.second : Py → Out Py
  | .tuple [_, b] => .ok b
  | _ => .err

/-- `scalar_info` of a leaf, which is computed when the leaf is found: the type of the first number
only (parse_data_argument.cpp:498, 587-592). -/
def Leaf.info : Leaf → Out TypeInfo
  | .values (p :: _) => p.typeInfo
  | .pairs (p :: _) => p.second.bind Py.typeInfo
  | .dict ((_, v) :: _) => v.typeInfo
  | .arr T => .ok T.info
  | _ => .err

/-- Runs a check over the items of a sequence and appends what it finds. -/
def collect {α β : Type} (f : α → Out (List β)) : List α → Out (List β)
  | [] => .ok []
  | x :: xs => (f x).bind fun a => (collect f xs).bind fun b => .ok (a ++ b)

/-- The sequence branch of `check_size_and_type_recurse` (parse_data_argument.cpp:523-608); `deeper`
handles the items one level down. -/
def checkSeq (alt : Bool) (deeper : Py → Out (List Leaf)) (items : List Py) : Out (List Leaf) :=
  if items.isEmpty then .err
  else (scan alt none items).bind fun (leaf, k) =>
    if leaf then
      match k with
      | some .value => .ok [.values items]
      | some .pair => .ok [.pairs items]
      | none => .ub
    else collect deeper items

/-- `check_size_and_type_recurse` (parse_data_argument.cpp:456-614). The number counts the levels that
may still be entered, `max_nested - depth`. -/
def check (alt : Bool) : ℕ → Py → Out (List Leaf)
  | 0, _ => .err
  | fuel + 1, .arr T => if T.shape.length ≤ fuel + 1 then .ok [.arr T] else .err
  | _ + 1, .dict items =>
    if items.isEmpty then .err
    else if items.all fun kv => kv.2.isScalar && kv.1.isKey alt then .ok [.dict items]
    else .err
  | fuel + 1, .list items => checkSeq alt (check alt fuel) items
  | fuel + 1, .tuple items => checkSeq alt (check alt fuel) items
  | _ + 1, _ => .err

/-- `check_size_and_type` (parse_data_argument.cpp:615-638) without scalar arguments: a pair of a key
and something is taken for a single coefficient, which streams refuse (686-690). -/
def checkTop (alt : Bool) (maxNested : ℕ) : Py → Out (List Leaf)
  | .tuple [a, b] => if a.isKey alt then .err else check alt maxNested (.tuple [a, b])
  | p => check alt maxNested p

/-- The data of a leaf: scalars, or scalars with their keys. -/
inductive Row (R : Type) where
  | dense (vals : List R)
  | sparse (vals : List (ℕ × R))
  deriving DecidableEq, Repr

/-- `handle_key_scalar` and the loop of `handle_dict_leaf` (parse_data_argument.cpp:233-237,
364-368). -/
def pairRow {R : Type} (C : Target → Conv R) (ofPoly : ℕ → R) (t : Target) (alt : Bool)
    (kv : Py × Py) : Out (ℕ × R) :=
  (kv.1.key alt).bind fun k => (kv.2.scalar C ofPoly t).bind fun v => .ok (k, v)

/-- `do_conversion` for one leaf (parse_data_argument.cpp:360-408); the data of an array is cut into its
rows, which is done in `fill_ks_stream` (692-706). -/
def Leaf.rows {R : Type} (C : Target → Conv R) (ofPoly : ℕ → R) (t : Target) (alt : Bool) :
    Leaf → Out (List (Row R))
  | .values items => (Out.all (items.map (Py.scalar C ofPoly t))).map fun l => [.dense l]
  | .pairs items =>
    (Out.all (items.map fun p => match p with
      | .tuple [a, b] => pairRow C ofPoly t alt (a, b)
      | _ => .ub)).map fun l => [.sparse l]
  | .dict items => (Out.all (items.map (pairRow C ofPoly t alt))).map fun l => [.sparse l]
  | .arr T => (T.leaf (C t) t).bind fun data => (arrayRows T.shape data).map (List.map .dense)

/-- `parse_argument` (parse_data_argument.cpp:672-680): the scalar type and the data of the leaves. The
types of the leaves are looked at while they are found. -/
def parse {R : Type} (C : Target → Conv R) (ofPoly : ℕ → R) (alt : Bool) (requested : Option Target)
    (maxNested : ℕ) (arg : Py) : Out (Target × List (Row R)) :=
  (checkTop alt maxNested arg).bind fun leaves =>
    (Out.all (leaves.map Leaf.info)).bind fun infos =>
      (computeScalarType requested infos).bind fun t =>
        (collect (Leaf.rows C ofPoly t alt) leaves).map fun rows => (t, rows)

/-- The scalars of a row without their keys. -/
def Row.vals {R : Type} : Row R → List R
  | .dense l => l
  | .sparse l => l.map Prod.snd

/-- `parse_argument` followed by `fill_ks_stream` (parse_data_argument.cpp:682-716): the rows of the
stream. The rows are pushed as `leaf.data.borrow()`, a plain `ScalarArray`, and the pointer to the
keys that `KeyScalarStream::push_back` takes as its second argument
(scalars/include/roughpy/scalars/key_scalar_stream.h:54-58) is left at its default, null. -/
def streamRows {R : Type} (C : Target → Conv R) (ofPoly : ℕ → R) (requested : Option Target)
    (arg : Py) : Out (Target × List (List R)) :=
  (parse C ofPoly false requested 2 arg).map fun r => (r.1, r.2.map Row.vals)

end RoughPy.Args
