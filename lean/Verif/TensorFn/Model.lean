import Mathlib.Algebra.Field.Basic
import Mathlib.Data.List.Basic

/-!
# Model of `roughpy/tensor_functions.py`

Keys are words (lists of letters); the product of keys is the one of `TensorKey.__mul__`, which puts the
letters of the right factor in front (`Tensor.C55_mul_partial`).  A dictionary is the list of its entries in
the order of insertion.  A tensor is the list of its items; dense tensors may have items that are zero, sparse
ones do not (C48).  Scalars are the elements of a field.  `none` is an exception.

All tensors and keys are of one context, so that the assertions on contexts hold; the operators of tensors
compute in the algebra (C111).
-/

namespace RoughPy.TensorFn

variable {α κ K : Type} [DecidableEq α] [DecidableEq κ] [Field K] [DecidableEq K]

/-- A dictionary of scalars. -/
abbrev Dict (κ K : Type) := List (κ × K)

/-- `d.get(k, 0)`. -/
def Dict.val (d : Dict κ K) (k : κ) : K :=
  match d with
  | [] => 0
  | (k', v) :: d => if k' = k then v else Dict.val d k

/-- `d[k] = f(d[k])` if there is such an entry, otherwise `d[k] = v`. -/
def Dict.upsert (f : K → K) (v : K) (k : κ) : Dict κ K → Dict κ K
  | [] => [(k, v)]
  | (k', v') :: d => if k' = k then (k', f v') :: d else (k', v') :: Dict.upsert f v k d

/-- `d[k] += v`, for a `defaultdict` of zeros or with the test of tensor_functions.py:132-135. -/
def Dict.add (d : Dict κ K) (k : κ) (v : K) : Dict κ K := d.upsert (fun x => x + v) v k

/-- `{k: v for k, v in d.items() if v != 0}`. -/
def Dict.nonzero (d : Dict κ K) : Dict κ K := d.filter fun e => decide (e.2 ≠ 0)

/-- `TensorKey.__mul__` — tensor_key.cpp:207-223. -/
def keyMul (u v : List α) : List α := v ++ u

/-! ## `TensorTensorProduct` -/

/-- The attribute `data` — tensor_functions.py:49. -/
abbrev Prod2 (α K : Type) := Dict (List α × List α) K

/-- The items of a tensor. -/
abbrev Items (α K : Type) := Dict (List α) K

/-- `__init__` for a dictionary — tensor_functions.py:75-78. -/
def Prod2.ofDict (d : Prod2 α K) : Prod2 α K := d.nonzero

/-- The inner loop — tensor_functions.py:70-71. -/
def Prod2.pairRow (u : List α) (x : K) (b : Items α K) (d : Prod2 α K) : Prod2 α K :=
  b.foldl (fun d e => d.upsert (fun _ => x * e.2) (x * e.2) (u, e.1)) d

/-- `__init__` for a pair of tensors and a context — tensor_functions.py:54-71. -/
def Prod2.ofPair (a b : Items α K) : Prod2 α K :=
  a.foldl (fun d e => Prod2.pairRow e.1 e.2 b d) []

/-- `__init__` for a pair of tensors — tensor_functions.py:60-66: without a context, `data[2]`
raises, as the pair has two entries. -/
def Prod2.new (a b : Items α K) (ctx : Bool) : Option (Prod2 α K) :=
  if ctx then some (Prod2.ofPair a b) else none

/-- `__mul__` — tensor_functions.py:100-108. -/
def Prod2.smul (d : Prod2 α K) (s : K) : Prod2 α K :=
  if s = 0 then Prod2.ofDict [] else Prod2.ofDict (d.map fun e => (e.1, e.2 * s))

/-- `__add__` — tensor_functions.py:110-125. -/
def Prod2.plus (a b : Prod2 α K) : Prod2 α K :=
  Prod2.ofDict (Dict.nonzero (b.foldl (fun d e => Dict.add d e.1 e.2) (a.foldl (fun d e => Dict.add d e.1 e.2) [])))

/-- `add_scal_prod` — tensor_functions.py:127-139. -/
def Prod2.addScalProd (a b : Prod2 α K) (s : K) : Prod2 α K :=
  Dict.nonzero (b.foldl (fun d e => Dict.add d e.1 (e.2 * s)) a)

/-- `add_scal_div` — tensor_functions.py:141-149. -/
def Prod2.addScalDiv (a b : Prod2 α K) (s : K) : Prod2 α K :=
  b.foldl (fun d e => Dict.add d e.1 (e.2 / s)) a

/-- `sub_scal_div` — tensor_functions.py:151-159. -/
def Prod2.subScalDiv (a b : Prod2 α K) (s : K) : Prod2 α K :=
  b.foldl (fun d e => Dict.upsert (fun x => x - e.2 / s) (-e.2 / s) e.1 d) a

/-- The inner loop of `_concat_product` — tensor_functions.py:166-167. -/
def concatRow (k : List α × List α) (x : K) (b : Prod2 α K) (d : Prod2 α K) : Prod2 α K :=
  b.foldl (fun d e => Dict.add d (keyMul k.1 e.1.1, keyMul k.2 e.1.2) (x * e.2)) d

/-- `_concat_product` — tensor_functions.py:162-169. -/
def concatProduct (a b : Prod2 α K) : Prod2 α K :=
  Prod2.ofDict (Dict.nonzero (a.foldl (fun d e => concatRow e.1 e.2 b d) []))

/-- One entry of `letters_adj` — tensor_functions.py:180-183. -/
def letterAdj (a : α) : Prod2 α K := Prod2.ofDict [(([a], []), 1), (([], [a]), 1)]

/-- `_adjoint_of_word` — tensor_functions.py:173-184. -/
def adjointOfWord : List α → Prod2 α K
  | [] => Prod2.ofDict [(([], []), 1)]
  | a :: w => w.foldl (fun d b => concatProduct d (letterAdj b)) (letterAdj a)

/-- `_adjoint_of_shuffle` — tensor_functions.py:187-196. -/
def adjointOfShuffle (x : Items α K) : Prod2 α K :=
  x.foldl (fun d e => Prod2.addScalProd d (adjointOfWord e.1) e.2) (Prod2.ofDict [])

/-! ## Tensors -/

/-- `FreeTensor(data, ctx=ctx)` and `ShuffleTensor(data, ctx=ctx)` for a dictionary —
parse_data_argument.cpp:481-483: `RPY_CHECK(as_dict.size() > 0)`; the tensor is sparse. -/
def Items.ofDict (d : Items α K) : Option (Items α K) := if d = [] then none else some d.nonzero

/-- `FreeTensor((key, value), ctx=ctx)`. -/
def Items.ofPair (u : List α) (x : K) : Items α K := Dict.nonzero [(u, x)]

/-- `x - y`. -/
def Items.sub (x y : Items α K) : Items α K := Dict.nonzero (y.foldl (fun d e => Dict.add d e.1 (-e.2)) x)

/-- `x + y`. -/
def Items.plus (x y : Items α K) : Items α K := Dict.nonzero (y.foldl (fun d e => Dict.add d e.1 e.2) x)

/-- `x / i`. -/
def Items.sdiv (x : Items α K) (i : ℕ) : Items α K := x.map fun e => (e.1, e.2 / (i : K))

/-- `_concatenate` — tensor_functions.py:199-214. -/
def concatenate (a : Prod2 α K) : Option (Items α K) :=
  Items.ofDict (a.foldl (fun d e => Dict.add d (keyMul e.1.1 e.1.2) e.2) [])

/-- One step of the loop of `_tensor_product_functions` — tensor_functions.py:223-226. -/
def productStep (f g : Items α K → Option (Items α K)) (result : Prod2 α K) (e : (List α × List α) × K) :
    Option (Prod2 α K) :=
  (f (Items.ofPair e.1.1 1)).bind fun t1 =>
    (g (Items.ofPair e.1.2 1)).bind fun t2 => some (Prod2.addScalProd result (Prod2.ofPair t1 t2) e.2)

/-- The loop — tensor_functions.py:222-228. -/
def productLoop (f g : Items α K → Option (Items α K)) : Prod2 α K → Prod2 α K → Option (Prod2 α K)
  | result, [] => some result
  | result, e :: x => (productStep f g result e).bind fun r => productLoop f g r x

/-- `_convolve` — tensor_functions.py:233-239. -/
def convolve (f g : Items α K → Option (Items α K)) (x : Items α K) : Option (Items α K) :=
  (productLoop f g (Prod2.ofDict []) (adjointOfShuffle x)).bind concatenate

/-- `_remove_constant` — tensor_functions.py:242-247. -/
def removeConstant (x : Items α K) : Option (Items α K) := some (Items.sub x (Items.ofPair [] (Dict.val x [])))

/-- The loop of `Log` — tensor_functions.py:271-279: `n` more rounds, the next one with `i`. -/
def logLoop (x : Items α K) : ℕ → ℕ → Bool → (Items α K → Option (Items α K)) → Items α K → Option (Items α K)
  | 0, _, _, _, out => some out
  | n + 1, i, sign, fn, out =>
    let sign := !sign
    let fn' := convolve removeConstant fn
    (fn' x).bind fun y =>
      let tmp := Items.sdiv y i
      logLoop x n (i + 1) sign fn' (if sign then Items.sub out tmp else Items.plus out tmp)

/-- `Log` — tensor_functions.py:254-281. -/
def Log (depth : ℕ) (x : Items α K) : Option (Items α K) :=
  (removeConstant x).bind fun out => logLoop x (depth - 1) 2 false removeConstant out

end RoughPy.TensorFn
