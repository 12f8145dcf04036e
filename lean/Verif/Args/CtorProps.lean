import Verif.Args.Ctor
import Verif.Args.TreeProps
import Verif.Lite.ContextConvert

/-!
# Properties of the constructors of elements in Python

C161: an element constructed from data has the sizes asked for and the coefficients of the data.
-/

namespace RoughPy.Args

open RoughPy.Lite (VecType KeyScalars LiteCtx Stored IsTensor IsTensorData IsLieElem IsLieData Key)
open RoughPy.Tensor

variable {R : Type}

/-! ## What is asked for -/

/-- The coefficients a data argument stands for, and the type of its first number: a row (C95), a single
pair of a key and a number, or, for tensors, a single number. -/
inductive Given (C : Target → Conv R) (ofPoly : ℕ → R) (t : Target) (cls : Cls) :
    Py → Row R → TypeInfo → Prop
  | row (p : Py) (row : Row R) (i : TypeInfo) (hl : Lead p i)
      (h : Reads C ofPoly t (cls ≠ .lie) p row) (hp : p.isPair (cls ≠ .lie) = false) :
      Given C ofPoly t cls p row i
  | pair (a b : Py) (k : ℕ) (v : R) (i : TypeInfo) (ha : Names (cls ≠ .lie) a k)
      (hb : Means C ofPoly t b v) (hi : HasType b i) :
      Given C ofPoly t cls (.tuple [a, b]) (.sparse [(k, v)]) i
  | number (p : Py) (v : R) (i : TypeInfo) (hc : cls ≠ .lie) (hp : Means C ofPoly t p v)
      (hi : HasType p i) : Given C ofPoly t cls p (.dense [v]) i

/-- The values of a row with the indices of their keys. -/
def Row.asData : Row R → KeyScalars R
  | .dense l => ⟨none, l⟩
  | .sparse l => ⟨some (l.map fun kv => kv.1), l.map fun kv => kv.2⟩

/-- The scalar type asked for. -/
def Kwargs.asks (a : Kwargs) : Option Target :=
  match a.ctx with
  | some c => some c.2.2
  | none => a.type

/-- The sizes an element gets: those of the context, else those given; the default of the depth is 2, and
without a width the data is an array of degree one. -/
inductive Kwargs.Sizes (a : Kwargs) (cls : Cls) (row : Row R) : ℕ → ℕ → Prop
  | ctx (c : ℕ × ℕ × Target) (h : a.ctx = some c) : a.Sizes cls row c.1 c.2.1
  | given (w d : ℕ) (hc : a.ctx = none) (hw : a.width = some w) (hd : a.depth.getD 2 = d) :
      a.Sizes cls row w d
  | letters (w d : ℕ) (l : List R) (hc : a.ctx = none) (hw : a.width = none)
      (hd : a.depth.getD 2 = d) (hr : row = .dense l)
      (hl : l.length = if cls = .lie then w else w + 1) : a.Sizes cls row w d

/-- The storage type an element gets: the one asked for, else sparse for data with keys and dense for
data without. -/
def storage (a : Kwargs) : Row R → VecType
  | .dense _ => a.vtype.getD .dense
  | .sparse _ => a.vtype.getD .sparse

/-! ## Helper lemmas -/

theorem HasType.typeInfo {p : Py} {i : TypeInfo} (h : HasType p i) :
    p.typeInfo = .ok i ∧ p.isScalar = true := by
  cases h <;> exact ⟨rfl, rfl⟩

section
variable {C : Target → Conv R} {ofPoly : ℕ → R} {t : Target} {cls : Cls} {requested : Option Target}

theorem parseSingle_given {p : Py} {row : Row R} {i : TypeInfo} (h : Given C ofPoly t cls p row i)
    (ht : computeScalarType requested [i] = .ok t) :
    parseSingle C ofPoly (cls ≠ .lie) (cls ≠ .lie) requested (some p) = .ok (some t, some row) := by
  cases h with
  | row p row i hl h hp =>
    have hs : p.isScalar = false := by cases hl <;> rfl
    have h1 := C95_single_partial C ofPoly (cls ≠ .lie) requested 1 le_rfl p row i t hl ht h hp
    unfold parseSingle
    simp only [hs, Bool.and_false, Bool.false_eq_true, if_false]
    split
    · rename_i a b
      simp only [Py.isPair] at hp
      rw [hp, if_neg (by decide), h1]
      rfl
    · rw [h1]
      rfl
  | pair a b k v i ha hb hi =>
    unfold parseSingle
    simp only [Py.isScalar, Bool.and_false, Bool.false_eq_true, if_false, ha.key.1, if_true,
      hi.typeInfo.1, ht, Out.bind, pairRow, ha.key.2, hb.scalar.2, Out.map]
  | number p v i hc hp hi =>
    unfold parseSingle
    simp only [hi.typeInfo.2, hc, hi.typeInfo.1, ht, Out.bind, hp.scalar.2, Out.map, ne_eq,
      not_false_eq_true, decide_true, Bool.and_self, if_true]

/-- What the context is asked for. -/
theorem construct_given {a : Kwargs} {p : Py} {row : Row R} {i : TypeInfo} {w d : ℕ}
    (h : Given C ofPoly t cls p row i) (ht : computeScalarType a.asks [i] = .ok t)
    (hs : a.Sizes cls row w d) (hx : a.excess = false) (hw : w ≠ 0) (hd : d ≠ 0) :
    construct C ofPoly cls a (some p) =
      .ok ⟨w, d, t, if cls = .lie then a.vtype.getD .dense else storage a row, row.asData⟩ := by
  have hbuf : row.buffer = row.asData := by cases row <;> rfl
  have hst : (if a.vtype.isSome = true ∨ cls = .lie then a.vtype.getD .dense
      else if row.asData.keys.isSome = true then VecType.sparse else .dense) =
      if cls = .lie then a.vtype.getD .dense else storage a row := by
    cases hv : a.vtype <;> cases row <;> by_cases hc : cls = .lie <;>
      simp [hv, hc, storage, Row.asData]
  cases hs with
  | ctx c hc =>
    have hreq : a.asks = some c.2.2 := by rw [Kwargs.asks, hc]
    have htt : c.2.2 = t := by
      rw [hreq] at ht
      cases ht
      rfl
    rw [hreq] at ht
    have hp := parseSingle_given h ht
    have hh : helper a = .ok ⟨some c, c.1, c.2.1, some c.2.2, a.vtype.getD .dense,
        a.vtype.isSome⟩ := by
      simp [helper, hc, hx, hw, hd]
    unfold construct
    simp only [hh, Out.bind, hp, hbuf]
    rw [hst, htt]
  | given w d hc hw' hd' =>
    have hreq : a.asks = a.type := by rw [Kwargs.asks, hc]
    rw [hreq] at ht
    have hp := parseSingle_given h ht
    cases hty : a.type with
    | some t' =>
      have htt : t' = t := by
        rw [hty] at ht
        cases ht
        rfl
      subst htt
      have hh : helper a = .ok ⟨some (w, d, t'), w, d, some t', a.vtype.getD .dense,
          a.vtype.isSome⟩ := by
        simp [helper, hc, hx, hw, hd, hw', hd', hty]
      rw [hty] at hp
      unfold construct
      simp only [hh, Out.bind, hp, hbuf]
      rw [hst]
    | none =>
      have hh : helper a = .ok ⟨none, w, d, none, a.vtype.getD .dense, a.vtype.isSome⟩ := by
        simp [helper, hc, hx, hw', hd', hty]
      rw [hty] at hp
      unfold construct
      simp only [hh, Out.bind, hp, hbuf, hw, hd, false_and, if_false, or_self]
      rw [hst]
  | letters w d l hc hw' hd' hr hl =>
    have hreq : a.asks = a.type := by rw [Kwargs.asks, hc]
    rw [hreq] at ht
    have hp := parseSingle_given h ht
    have hh : helper a = .ok ⟨none, 0, d, a.type, a.vtype.getD .dense, a.vtype.isSome⟩ := by
      cases hty : a.type <;> simp [helper, hc, hx, hw', hd', hty]
    have hlen : row.asData.vals.length = l.length := by rw [hr]; rfl
    have hwd : (if cls = .lie then l.length else l.length - 1) = w := by
      by_cases hc : cls = .lie
      · rw [if_pos hc] at hl ⊢
        exact hl
      · rw [if_neg hc] at hl ⊢
        omega
    have hpos : 0 < l.length := by
      by_cases hc : cls = .lie
      · rw [if_pos hc] at hl
        omega
      · rw [if_neg hc] at hl
        omega
    unfold construct
    simp only [hh, Out.bind, hp, hbuf, hlen, hpos, and_self, if_true, hwd, hw, hd, or_self, if_false]
    rw [hst]

end

/-! ## C161: constructors give elements with the sizes and coefficients asked for -/

section
variable {K : Type} [Field K] [DecidableEq K] {C : Target → Conv K} {ofPoly : ℕ → K} {t : Target}
  {w d : ℕ} {c : LiteCtx}

/-- `FreeTensor(data, **kwargs)` has the width and depth asked for, the storage type asked for (by default
sparse for data with keys and dense for other data), and the coefficients of the data: the values at the
words with these indices.  The type of the coefficients is the one asked for, or found from the data (C94).
Missing: widths found from data with keys and the argument `keys`, both refuted below, and sizes that are
zero. -/
theorem C161_tensor_partial {a : Kwargs} {p : Py} {row : Row K} {i : TypeInfo}
    (h : Given C ofPoly t .freeTensor p row i) (ht : computeScalarType a.asks [i] = .ok t)
    (hs : a.Sizes .freeTensor row w d) (hx : a.excess = false) (hw : 1 ≤ w) (hd : 1 ≤ d)
    (hc : LiteCtx.new w d = some c) {f : Series (Fin w) K} (hf : IsTensorData w d row.asData f) :
    ∃ q r, construct C ofPoly .freeTensor a (some p) = .ok q ∧ q.width = w ∧ q.depth = d ∧
      q.type = t ∧ c.constructTensor q.data q.vtype = some r ∧ r.vecType = storage a row ∧
      IsTensor w d r f := by
  obtain ⟨r, h1, h2, h3⟩ := Lite.C74_construct_tensor hw hd hc hf (storage a row)
  exact ⟨_, r, construct_given h ht hs hx (by omega) (by omega), rfl, rfl, rfl, h1, h2, h3⟩

/-- `Lie(data, **kwargs)` has the width and depth asked for and the coefficients of the data, at the keys
with these indices, counted from zero.  Missing: as for tensors; the default of the storage type is dense
for all data, see below. -/
theorem C161_lie_partial {a : Kwargs} {p : Py} {row : Row K} {i : TypeInfo}
    (h : Given C ofPoly t .lie p row i) (ht : computeScalarType a.asks [i] = .ok t)
    (hs : a.Sizes .lie row w d) (hx : a.excess = false) (hw : 1 ≤ w) (hd : 1 ≤ d)
    (hc : LiteCtx.new w d = some c) {e : Key → Series (Fin w) K} {f : Series (Fin w) K}
    (hf : IsLieData c e row.asData f) :
    ∃ q r, construct C ofPoly .lie a (some p) = .ok q ∧ q.width = w ∧ q.depth = d ∧
      q.type = t ∧ c.constructLie q.data q.vtype = some r ∧ (∀ v, a.vtype = some v → r.vecType = v) ∧
      IsLieElem c e r f := by
  obtain ⟨r, h1, h2, h3⟩ := Lite.C74_construct_lie hw hd hc hf (a.vtype.getD .dense)
  refine ⟨_, r, construct_given h ht hs hx (by omega) (by omega), rfl, rfl, rfl, h1, ?_, h3⟩
  intro v hv
  rw [h2, hv]
  rfl

end

section
variable {C : Target → Conv R} {ofPoly : ℕ → R} {t : Target} {w d : ℕ}

/-- `ShuffleTensor(data, **kwargs)` asks the context for the same as `FreeTensor(data, **kwargs)`. -/
theorem C161_shuffle (a : Kwargs) (data : Option Py) :
    construct C ofPoly .shuffle a data = construct C ofPoly .freeTensor a data := by
  simp [construct]

/-- The hypotheses: the tensor `[1.0, 2.0, 3.0]` without a width. -/
example : Given keepAll .inr .double .freeTensor (.list [pyFloat 1, pyFloat 2, pyFloat 3])
      (.dense [.inr 1, .inr 2, .inr 3]) float64 ∧
    computeScalarType (Kwargs.asks {}) [float64] = .ok .double ∧
    Kwargs.Sizes {} .freeTensor (.dense [.inr 1, .inr 2, .inr 3] : Row (ℤ ⊕ ℕ)) 2 2 ∧
    (match construct keepAll .inr .freeTensor {} (some (.list [pyFloat 1, pyFloat 2, pyFloat 3])) with
      | .ok q => some (q.width, q.depth, q.type, q.vtype)
      | _ => none) = some (2, 2, .double, .dense) ∧
    (match construct keepAll .inr .freeTensor {} (some (.list [pyFloat 1, pyFloat 2, pyFloat 3])) with
      | .ok q => some (q.data.keys, q.data.vals)
      | _ => none) = some (none, [.inr 1, .inr 2, .inr 3]) :=
  ⟨.row _ _ _ (.list _ _ _ (.float 1)) (.list _ _ (by simp)
    (.cons (.float 1 true) (.cons (.float 2 true) (.cons (.float 3 true) .nil)))) rfl,
    by decide +kernel, .letters 2 2 _ rfl rfl rfl rfl rfl, by decide +kernel, by decide +kernel⟩

/-- The hypotheses for Lie elements: `Lie((2, 1.5), width=3, vector_type=sparse)`. -/
example : Given keepAll .inr .double .lie (.tuple [pyInt 2, pyFloat 1]) (.sparse [(2, .inr 1)]) float64 ∧
    Kwargs.Sizes { width := some 3, vtype := some .sparse } .lie
      (.sparse [(2, .inr 1)] : Row (ℤ ⊕ ℕ)) 3 2 ∧
    (match construct keepAll .inr .lie { width := some 3, vtype := some .sparse }
        (some (.tuple [pyInt 2, pyFloat 1])) with
      | .ok q => some (q.width, q.vtype, q.data.keys, q.data.vals)
      | _ => none) = some (3, .sparse, some [2], [.inr 1]) :=
  ⟨.pair _ _ 2 _ _ (.int 2 true (by decide)) (.float 1 true) (.float 1), .given 3 2 rfl rfl rfl,
    by decide +kernel⟩

/-- The hypotheses for data: `[1.0, 2.0]` at width 1 and depth 2 stands for `1 + 2 e₁`. -/
example : IsTensorData 1 2 (Row.dense [(1 : ℚ), 2]).asData
    (fun u => if u = [] then 1 else if u = [0] then 2 else 0) := by
  refine ⟨fun k hk => (by cases hk), by decide +kernel, fun u hu => ?_⟩
  have h : u = [] ∨ u = [0] ∨ u = [0, 0] := by
    match u, hu with
    | [], _ => exact .inl rfl
    | [a], _ => exact .inr (.inl (by rw [Subsingleton.elim a 0]))
    | [a, b], _ => exact .inr (.inr (by rw [Subsingleton.elim a 0, Subsingleton.elim b 0]))
  rcases h with rfl | rfl | rfl <;> decide +kernel

/-- `None` stands for zero in a context or with sizes and a type; without a type it is refused. -/
theorem C161_none (cls : Cls) (a : Kwargs) (hx : a.excess = false) :
    (∀ c : ℕ × ℕ × Target, a.ctx = some c → c.1 ≠ 0 → c.2.1 ≠ 0 →
      ∃ q, construct C ofPoly cls a none = .ok q ∧ q.width = c.1 ∧ q.depth = c.2.1 ∧
        q.type = c.2.2 ∧ q.data.vals = []) ∧
    (a.ctx = none → a.width = some w → w ≠ 0 → a.depth.getD 2 = d → d ≠ 0 → a.type = some t →
      ∃ q, construct C ofPoly cls a none = .ok q ∧ q.width = w ∧ q.depth = d ∧ q.type = t ∧
        q.data.vals = []) ∧
    (a.ctx = none → a.type = none → construct C ofPoly cls a none = .err) := by
  refine ⟨fun c hc h1 h2 => ?_, fun hc hw h1 hd h2 ht => ?_, fun hc ht => ?_⟩
  · refine ⟨⟨c.1, c.2.1, c.2.2, a.vtype.getD .dense, ⟨none, []⟩⟩, ?_, rfl, rfl, rfl, rfl⟩
    cases hv : a.vtype <;> simp [construct, helper, hc, hx, h1, h2, Out.bind, parseSingle, hv]
  · refine ⟨⟨w, d, t, a.vtype.getD .dense, ⟨none, []⟩⟩, ?_, rfl, rfl, rfl, rfl⟩
    cases hv : a.vtype <;>
      simp [construct, helper, hc, hx, h1, h2, Out.bind, parseSingle, hv, hw, hd, ht]
  · simp [construct, helper, hc, hx, ht, Out.bind, parseSingle]

/-- Refused: keyword arguments of other names, and a number as the data of a Lie element. -/
theorem C161_refuses (cls : Cls) (a : Kwargs) (data : Option Py) :
    (a.excess = true → construct C ofPoly cls a data = .err) ∧
    ∀ n e, construct C ofPoly .lie a (some (.num n e)) = .err := by
  refine ⟨fun hx => by simp [construct, helper, hx, Out.bind], fun n e => ?_⟩
  cases hh : helper a with
  | ok h => simp [construct, hh, Out.bind, parseSingle, (C95_other C ofPoly false h.type 1).2.2 n e]
  | err => simp [construct, hh, Out.bind]
  | ub =>
    unfold helper at hh
    dsimp only at hh
    split at hh <;> cases hh

/-- No element is returned for depth zero without a context, nor without a context, width and data. -/
theorem C161_zero_refused (cls : Cls) (a : Kwargs) (data : Option Py) (q : Request R)
    (hc : a.ctx = none) (hz : a.depth = some 0 ∨ (a.width.getD 0 = 0 ∧ data = none)) :
    construct C ofPoly cls a data ≠ .ok q := by
  intro h
  have hh : helper a = if a.excess then .err else .ok ⟨none, a.width.getD 0, a.depth.getD 2, a.type,
      a.vtype.getD .dense, a.vtype.isSome⟩ := by
    rcases hz with hz | hz <;> cases ht : a.type <;> simp [helper, hc, hz, ht]
  rw [construct, hh] at h
  cases hx : a.excess with
  | true => rw [hx] at h; cases h
  | false =>
    rw [hx] at h
    simp only [Bool.false_eq_true, if_false, Out.bind] at h
    rcases hz with hz | ⟨hw, hd⟩
    · cases hp : parseSingle C ofPoly (decide (cls ≠ .lie)) (decide (cls ≠ .lie)) a.type data with
      | ok r =>
        obtain ⟨ty, row⟩ := r
        rw [hp] at h
        cases ty with
        | none => cases h
        | some t => simp [hz] at h
      | err => rw [hp] at h; cases h
      | ub => rw [hp] at h; cases h
    · subst hd
      cases ht : a.type <;> simp [parseSingle, ht, hw] at h

/-- The hypotheses: `FreeTensor(data, depth=0)` and `FreeTensor(None)`. -/
example : ({ depth := some 0 } : Kwargs).depth = some 0 ∧ ({} : Kwargs).width.getD 0 = 0 := ⟨rfl, rfl⟩

/-- Refused: a list of lists, whatever is in it. -/
theorem C161_nested_refused (cls : Cls) (a : Kwargs) (l : List Py) (q : List Py)
    (hq : .list q ∈ l) : construct C ofPoly cls a (some (.list l)) = .err := by
  cases hh : helper a with
  | ok h =>
    have h1 := C95_depth C ofPoly (cls ≠ .lie) h.type 1 (.list l) (.succ 0 l _ hq (.zero q))
    unfold construct
    simp only [hh, Out.bind]
    have h2 : parseSingle C ofPoly (cls ≠ .lie) (cls ≠ .lie) h.type (some (.list l)) = .err := by
      unfold parseSingle
      simp only [Py.isScalar, Bool.and_false, Bool.false_eq_true, if_false, h1, Out.bind]
    rw [h2]
  | err => simp [construct, hh, Out.bind]
  | ub =>
    unfold helper at hh
    dsimp only at hh
    split at hh <;> cases hh

/-- The hypothesis: `[[1.0, 2.0], [3.0]]` -/
example : Py.list [pyFloat 3] ∈ [Py.list [pyFloat 1, pyFloat 2], .list [pyFloat 3]] := by simp

/-- Refuted: that `keys` says where the data goes: it is ignored, for all classes, data and other
arguments. -/
theorem C161_keys_refuted (cls : Cls) (a : Kwargs) (keys : List ℕ) (data : Option Py) :
    construct C ofPoly cls { a with keys := some keys } data = construct C ofPoly cls a data :=
  rfl

end

/-- Refuted: that a tensor made from data with keys has room for them.  `FreeTensor({1: x, 2: y})` gets width
one, where index 2 is the word `(1,1)`; `FreeTensor({2: x})` is refused for want of a width; and
`Lie({4: x})` gets width one, where there is one key only. -/
theorem C161_width_refuted :
    ((match construct keepAll .inr .freeTensor {} (some (.dict [(pyInt 1, pyFloat 5),
        (pyInt 2, pyFloat 6)])) with
      | .ok q => some (q.width, q.depth, q.vtype, q.data.keys)
      | _ => none) = some (1, 2, .sparse, some [1, 2])) ∧
    (match construct keepAll .inr .freeTensor {} (some (.dict [(pyInt 2, pyFloat 5)])) with
      | .err => true
      | _ => false) = true ∧
    ((match construct keepAll .inr .lie {} (some (.dict [(pyInt 4, pyFloat 5)])) with
      | .ok q => some (q.width, q.depth, q.data.keys)
      | _ => none) = some (1, 2, some [4])) := by
  decide +kernel

/-- Refuted: that Lie elements made from data with keys are sparse by default, as tensors are. -/
theorem C161_storage_refuted :
    ((match construct keepAll .inr .lie { width := some 2 } (some (.dict [(pyInt 1, pyFloat 5)])) with
      | .ok q => some q.vtype
      | _ => none) = some .dense) ∧
    ((match construct keepAll .inr .freeTensor { width := some 2 }
        (some (.dict [(pyInt 1, pyFloat 5)])) with
      | .ok q => some q.vtype
      | _ => none) = some .sparse) := by
  decide +kernel

/-- Refuted: that a pair of numbers is read as two coefficients: written as a tuple with an integer first it
is one coefficient, the second number at the index given by the first. -/
theorem C161_pair_refuted :
    ((match construct keepAll .inr .freeTensor { width := some 2 } (some (.tuple [pyInt 1, pyFloat 5])) with
      | .ok q => some (q.data.keys, q.data.vals)
      | _ => none) = some (some [1], [.inr 5])) ∧
    ((match construct keepAll .inr .freeTensor { width := some 2 } (some (.list [pyInt 1, pyFloat 5])) with
      | .ok q => some (q.data.keys, q.data.vals)
      | _ => none) = some (none, [.inl 1, .inr 5])) := by
  decide +kernel

end RoughPy.Args
