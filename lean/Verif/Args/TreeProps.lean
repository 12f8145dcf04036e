import Verif.Args.Tree
import Verif.Args.Props
import Mathlib.Data.List.Forall2

/-!
# Properties of nested data arguments

C95: lists, tuples, dictionaries and arrays of numbers are read row by row, in order, and everything
else raises.
-/

namespace RoughPy.Args

variable {R : Type}

/-! ## What a data argument means -/

/-- The scalar a number stands for in the chosen type. -/
inductive Means (C : Target → Conv R) (ofPoly : ℕ → R) (t : Target) : Py → R → Prop
  | int (n : ℤ) (e : Bool) (h : -2 ^ 63 ≤ n) (h' : n < 2 ^ 63) :
      Means C ofPoly t (.num (.int n) e) ((C t).ofInt n)
  | float (b : ℕ) (e : Bool) : Means C ofPoly t (.num (.float b) e) ((C t).ofFloat 8 b)
  | poly (p : ℕ) (e : Bool) (h : t = .poly) : Means C ofPoly t (.num (.poly p) e) (ofPoly p)

/-- The key an object stands for. -/
inductive Names (alt : Bool) : Py → ℕ → Prop
  | int (k : ℕ) (e : Bool) (h : k < 2 ^ 64) : Names alt (.num (.int k) e) k
  | word (k : ℕ) (h : alt = true) : Names alt (.word k) k

/-- A pair of a key and a number. -/
inductive Entry (C : Target → Conv R) (ofPoly : ℕ → R) (t : Target) (alt : Bool) :
    Py × Py → ℕ × R → Prop
  | mk (a b : Py) (k : ℕ) (v : R) (ha : Names alt a k) (hb : Means C ofPoly t b v) :
      Entry C ofPoly t alt (a, b) (k, v)

/-- The row an object stands for: a list or tuple of numbers, a list or tuple of pairs, a dictionary
from keys to numbers, or a one dimensional array within the conditions of `C90_vector_partial`. -/
inductive Reads (C : Target → Conv R) (ofPoly : ℕ → R) (t : Target) (alt : Bool) :
    Py → Row R → Prop
  | list (items : List Py) (vals : List R) (hne : items ≠ [])
      (h : List.Forall₂ (Means C ofPoly t) items vals) :
      Reads C ofPoly t alt (.list items) (.dense vals)
  | tuple (items : List Py) (vals : List R) (hne : items ≠ [])
      (h : List.Forall₂ (Means C ofPoly t) items vals) :
      Reads C ofPoly t alt (.tuple items) (.dense vals)
  | pairs (items : List (Py × Py)) (vals : List (ℕ × R)) (hne : items ≠ [])
      (h : List.Forall₂ (Entry C ofPoly t alt) items vals) :
      Reads C ofPoly t alt (.list (items.map fun kv => .tuple [kv.1, kv.2])) (.sparse vals)
  | pairsTuple (items : List (Py × Py)) (vals : List (ℕ × R)) (hne : items ≠ [])
      (h : List.Forall₂ (Entry C ofPoly t alt) items vals) :
      Reads C ofPoly t alt (.tuple (items.map fun kv => .tuple [kv.1, kv.2])) (.sparse vals)
  | dict (items : List (Py × Py)) (vals : List (ℕ × R)) (hne : items ≠ [])
      (h : List.Forall₂ (Entry C ofPoly t alt) items vals) :
      Reads C ofPoly t alt (.dict items) (.sparse vals)
  | arr (T : DL) (m : ℕ) (s : ℤ) (row : List R) (hp : T.Plain) (hu : T.Small)
      (hs : T.shape = [m]) (hm : 0 < m)
      (hst : T.strides = some [s] ∨ (T.strides = none ∧ s = 1))
      (hg : T.strides = none ∨ ¬ T.SameType t ∨ (s % 2 ^ 32 ≠ 0 ∧ s ≠ (T.bits / 8 : ℕ)))
      (hr : IsRow (C t) T.code (T.bits / 8) m (T.at1 s) row) :
      Reads C ofPoly t alt (.arr T) (.dense row)

/-- The type of a number that is an `int`, a `float` or a polynomial. -/
inductive HasType : Py → TypeInfo → Prop
  | int (n : ℤ) : HasType (.num (.int n) true) float64
  | float (b : ℕ) : HasType (.num (.float b) true) float64
  | poly (p : ℕ) (e : Bool) : HasType (.num (.poly p) e) (Target.info .poly)

/-- The type of the first number of a row, or the element type of an array. -/
inductive Lead : Py → TypeInfo → Prop
  | list (p : Py) (l : List Py) (i : TypeInfo) (h : HasType p i) : Lead (.list (p :: l)) i
  | tuple (p : Py) (l : List Py) (i : TypeInfo) (h : HasType p i) : Lead (.tuple (p :: l)) i
  | pairs (a b : Py) (l : List Py) (i : TypeInfo) (h : HasType b i) :
      Lead (.list (.tuple [a, b] :: l)) i
  | pairsTuple (a b : Py) (l : List Py) (i : TypeInfo) (h : HasType b i) :
      Lead (.tuple (.tuple [a, b] :: l)) i
  | dict (a b : Py) (l : List (Py × Py)) (i : TypeInfo) (h : HasType b i) :
      Lead (.dict ((a, b) :: l)) i
  | arr (T : DL) : Lead (.arr T) T.info

/-- Lists nested more than `n` deep. -/
inductive Deep : ℕ → Py → Prop
  | zero (l : List Py) : Deep 0 (.list l)
  | succ (n : ℕ) (l : List Py) (q : Py) (hq : q ∈ l) (h : Deep n q) : Deep (n + 1) (.list l)
  | arr (n : ℕ) (T : DL) (h : n < T.shape.length) : Deep n (.arr T)

/-- A tuple of two entries the first of which is a key: the form of an entry of a sparse row. -/
def Py.isPair (alt : Bool) : Py → Bool
  | .tuple [a, _] => a.isKey alt
  | _ => false

/-! ## Leaves -/

section
variable {C : Target → Conv R} {ofPoly : ℕ → R} {t : Target} {alt : Bool}

theorem Means.scalar {p : Py} {v : R} (h : Means C ofPoly t p v) :
    p.isScalar = true ∧ p.scalar C ofPoly t = .ok v := by
  cases h with
  | int n e h h' => exact ⟨rfl, by simp only [Py.scalar]; rw [if_pos ⟨h, h'⟩]⟩
  | float b e => exact ⟨rfl, rfl⟩
  | poly p e h => exact ⟨rfl, by simp [Py.scalar, h]⟩

theorem Names.key {p : Py} {k : ℕ} (h : Names alt p k) :
    p.isKey alt = true ∧ p.key alt = .ok k := by
  cases h with
  | int k e h =>
    refine ⟨rfl, ?_⟩
    simp only [Py.key]
    rw [if_pos ⟨by omega, by exact_mod_cast h⟩]
    simp
  | word k h => exact ⟨h, by simp [Py.key, h]⟩

theorem Entry.row {kv : Py × Py} {e : ℕ × R} (h : Entry C ofPoly t alt kv e) :
    kv.1.isKey alt = true ∧ kv.2.isScalar = true ∧ pairRow C ofPoly t alt kv = .ok e := by
  cases h with
  | mk a b k v ha hb =>
    refine ⟨ha.key.1, hb.scalar.1, ?_⟩
    simp [pairRow, ha.key.2, hb.scalar.2, Out.bind]

theorem forall₂_mem {α β : Type} {P : α → β → Prop} : ∀ {l : List α} {r : List β},
    List.Forall₂ P l r → ∀ a ∈ l, ∃ b, P a b
  | _, _, .cons h hs, a, ha => by
    rcases List.mem_cons.1 ha with rfl | ha
    · exact ⟨_, h⟩
    · exact forall₂_mem hs a ha

theorem all_forall₂ {α β : Type} (f : α → Out β) : ∀ (l : List α) (r : List β),
    List.Forall₂ (fun a b => f a = .ok b) l r → Out.all (l.map f) = .ok r
  | [], _, .nil => rfl
  | _ :: l, _ :: r, .cons h hs => by
    simp only [List.map_cons, Out.all, h, all_forall₂ f l r hs, Out.bind]

theorem scan_values (alt : Bool) : ∀ (items : List Py) (k : Option Kind), k ≠ some .pair →
    (∀ p ∈ items, p.isScalar = true) → items ≠ [] →
    scan alt k items = .ok (true, some .value)
  | [], _, _, _, h => absurd rfl h
  | p :: rest, k, hk, hs, _ => by
    have hp := hs p List.mem_cons_self
    cases p <;> simp [Py.isScalar] at hp
    rename_i n e
    simp only [scan, Py.isScalar, if_true]
    rw [if_neg hk]
    cases rest with
    | nil => rfl
    | cons q rest =>
      exact scan_values alt (q :: rest) _ (by simp) (fun p hp => hs p (by simp [hp])) (by simp)

theorem scan_pairs (alt : Bool) : ∀ (items : List (Py × Py)) (k : Option Kind),
    k ≠ some .value → (∀ kv ∈ items, kv.2.isScalar = true ∧ kv.1.isKey alt = true) →
    items ≠ [] →
    scan alt k (items.map fun kv => .tuple [kv.1, kv.2]) = .ok (true, some .pair)
  | [], _, _, _, h => absurd rfl h
  | kv :: rest, k, hk, hs, _ => by
    have hp := hs kv List.mem_cons_self
    simp only [List.map_cons, scan, hp.1, hp.2, Bool.and_self, if_true]
    rw [if_neg hk]
    cases rest with
    | nil => rfl
    | cons q rest =>
      exact scan_pairs alt (q :: rest) _ (by simp) (fun p hp => hs p (by simp [hp])) (by simp)

/-- What is found for a row. -/
theorem Reads.leaf {p : Py} {row : Row R} {i : TypeInfo} (h : Reads C ofPoly t alt p row)
    (hl : Lead p i) (fuel : ℕ) :
    ∃ leaf, check alt (fuel + 1) p = .ok [leaf] ∧ leaf.info = .ok i ∧
      leaf.rows C ofPoly t alt = .ok [row] := by
  have htype : ∀ {p : Py} {i : TypeInfo}, HasType p i → p.typeInfo = .ok i := by
    intro p i h; cases h <;> rfl
  have hvals : ∀ (items : List Py) (vals : List R), List.Forall₂ (Means C ofPoly t) items vals →
      (∀ p ∈ items, p.isScalar = true) ∧
        Leaf.rows C ofPoly t alt (.values items) = .ok [.dense vals] := by
    intro items vals h
    refine ⟨?_, ?_⟩
    · intro p hp
      obtain ⟨v, hv⟩ := forall₂_mem h p hp
      exact hv.scalar.1
    · simp only [Leaf.rows]
      rw [all_forall₂ _ _ _ (h.imp fun a b hab => hab.scalar.2)]
      rfl
  have hpairs : ∀ (items : List (Py × Py)) (vals : List (ℕ × R)),
      List.Forall₂ (Entry C ofPoly t alt) items vals →
      (∀ kv ∈ items, kv.2.isScalar = true ∧ kv.1.isKey alt = true) ∧
        Leaf.rows C ofPoly t alt (.pairs (items.map fun kv => .tuple [kv.1, kv.2])) =
          .ok [.sparse vals] ∧
        Leaf.rows C ofPoly t alt (.dict items) = .ok [.sparse vals] := by
    intro items vals h
    refine ⟨?_, ?_, ?_⟩
    · intro p hp
      obtain ⟨v, hv⟩ := forall₂_mem h p hp
      exact ⟨hv.row.2.1, hv.row.1⟩
    · simp only [Leaf.rows, List.map_map]
      change Out.map _ (Out.all (List.map (fun kv => pairRow C ofPoly t alt kv) items)) = _
      rw [all_forall₂ _ items vals (h.imp fun a b hab => hab.row.2.2)]
      rfl
    · simp only [Leaf.rows]
      rw [all_forall₂ _ items vals (h.imp fun a b hab => hab.row.2.2)]
      rfl
  cases h with
  | list items vals hne h =>
    obtain ⟨h1, h2⟩ := hvals items vals h
    refine ⟨.values items, ?_, ?_, h2⟩
    · simp only [check, checkSeq]
      rw [if_neg (by simpa using hne), scan_values alt items none (by simp) h1 hne]
      rfl
    · cases hl with
      | list p l i h => exact htype h
      | pairs a b l i _ => simpa [Py.isScalar] using h1 _ List.mem_cons_self
  | tuple items vals hne h =>
    obtain ⟨h1, h2⟩ := hvals items vals h
    refine ⟨.values items, ?_, ?_, h2⟩
    · simp only [check, checkSeq]
      rw [if_neg (by simpa using hne), scan_values alt items none (by simp) h1 hne]
      rfl
    · cases hl with
      | tuple p l i h => exact htype h
      | pairsTuple a b l i _ => simpa [Py.isScalar] using h1 _ List.mem_cons_self
  | pairs items vals hne h =>
    obtain ⟨h1, h2, -⟩ := hpairs items vals h
    refine ⟨.pairs (items.map fun kv => .tuple [kv.1, kv.2]), ?_, ?_, h2⟩
    · simp only [check, checkSeq]
      rw [if_neg (by simpa using hne), scan_pairs alt items none (by simp) h1 hne]
      rfl
    · cases items with
      | nil => exact absurd rfl hne
      | cons kv items =>
        cases hl with
        | list p l i h => cases h
        | pairs a b l i h => exact htype h
  | pairsTuple items vals hne h =>
    obtain ⟨h1, h2, -⟩ := hpairs items vals h
    refine ⟨.pairs (items.map fun kv => .tuple [kv.1, kv.2]), ?_, ?_, h2⟩
    · simp only [check, checkSeq]
      rw [if_neg (by simpa using hne), scan_pairs alt items none (by simp) h1 hne]
      rfl
    · cases items with
      | nil => exact absurd rfl hne
      | cons kv items =>
        cases hl with
        | tuple p l i h => cases h
        | pairsTuple a b l i h => exact htype h
  | dict items vals hne h =>
    obtain ⟨h1, -, h2⟩ := hpairs items vals h
    refine ⟨.dict items, ?_, ?_, h2⟩
    · simp only [check]
      rw [if_neg (by simpa using hne), if_pos]
      rw [List.all_eq_true]
      intro kv hkv
      simp [h1 kv hkv]
    · cases hl with
      | dict a b l i h => exact htype h
  | arr T m s row hp hu hs hm hst hg hr =>
    refine ⟨.arr T, ?_, ?_, ?_⟩
    · simp only [check]
      rw [if_pos (by rw [hs]; simp)]
    · cases hl; rfl
    · have he : ∀ j, j < m → (T.at1 s j).isSome := fun j hj => by
        obtain ⟨raw, h, -⟩ := hr.2 j hj
        simp [h]
      simp only [Leaf.rows]
      rw [leaf1 T (C t) t m s hp hu hs hst hg he]
      have hrow : row = (List.range m).map fun j =>
          valueOf (C t) T.code (T.bits / 8) ((T.at1 s j).getD 0) := by
        apply List.ext_getElem?
        intro j
        by_cases hj : j < m
        · obtain ⟨raw, h1, h2⟩ := hr.2 j hj
          rw [h2, List.getElem?_map, List.getElem?_range hj]
          simp [h1]
        · rw [List.getElem?_eq_none (by rw [hr.1]; omega), List.getElem?_eq_none (by simp; omega)]
      rw [hrow, hs]
      simp only [Out.bind, arrayRows, List.prod_cons, List.prod_nil, Nat.mul_one]
      rw [if_neg hm.ne']
      rfl

/-- The items of a list of rows. -/
theorem collect_rows (fuel : ℕ) : ∀ (items : List Py) (rows : List (Row R)) (infos : List TypeInfo),
    List.Forall₂ (Reads C ofPoly t alt) items rows → List.Forall₂ Lead items infos →
    ∃ leaves, collect (check alt (fuel + 1)) items = .ok leaves ∧
      Out.all (leaves.map Leaf.info) = .ok infos ∧
      collect (Leaf.rows C ofPoly t alt) leaves = .ok rows
  | [], _, _, .nil, .nil => ⟨[], rfl, rfl, rfl⟩
  | p :: items, row :: rows, i :: infos, .cons h hs, .cons hl hls => by
    obtain ⟨leaf, h1, h2, h3⟩ := h.leaf hl fuel
    obtain ⟨leaves, h4, h5, h6⟩ := collect_rows fuel items rows infos hs hls
    refine ⟨leaf :: leaves, ?_, ?_, ?_⟩
    · simp only [collect, h1, h4, Out.bind]; rfl
    · simp only [List.map_cons, Out.all, h2, h5, Out.bind]
    · simp only [collect, h3, h6, Out.bind]; rfl

/-- A row that is not a pair ends the search for a leaf. -/
theorem scan_row {p : Py} {row : Row R} (h : Reads C ofPoly t alt p row)
    (hp : p.isPair alt = false) (rest : List Py) :
    ∃ k, scan alt none (p :: rest) = .ok (false, k) := by
  cases h with
  | list items vals hne h => exact ⟨_, rfl⟩
  | dict items vals hne h => exact ⟨_, rfl⟩
  | arr T m s row hp hu hs hm hst hg hr => exact ⟨_, rfl⟩
  | pairs items vals hne h => exact ⟨_, rfl⟩
  | tuple items vals hne h =>
    match items, hp with
    | [], _ => exact ⟨_, rfl⟩
    | [_], _ => exact ⟨_, rfl⟩
    | [a, b], hp =>
      simp only [Py.isPair] at hp
      exact ⟨some .pair, by simp [scan, hp]⟩
    | _ :: _ :: _ :: _, _ => exact ⟨_, rfl⟩
  | pairsTuple items vals hne h =>
    match items with
    | [] => exact ⟨_, rfl⟩
    | [_] => exact ⟨_, rfl⟩
    | [a, b] => exact ⟨some .pair, by simp [scan, Py.isScalar]⟩
    | _ :: _ :: _ :: _ => exact ⟨_, rfl⟩

end

/-! ## The property -/

section
variable (C : Target → Conv R) (ofPoly : ℕ → R) (alt : Bool) (requested : Option Target)

/-- One row as the whole argument. `hpair` excludes a tuple of two whose first entry is a key, which
raises; `hl` asks that the first number is an `int`, a `float` or a polynomial. -/
theorem C95_single_partial (maxNested : ℕ) (hmax : 1 ≤ maxNested) (p : Py) (row : Row R)
    (i : TypeInfo) (t : Target) (hl : Lead p i) (ht : computeScalarType requested [i] = .ok t)
    (h : Reads C ofPoly t alt p row) (hpair : p.isPair alt = false) :
    parse C ofPoly alt requested maxNested p = .ok (t, [row]) := by
  obtain ⟨fuel, rfl⟩ : ∃ f, maxNested = f + 1 := ⟨maxNested - 1, by omega⟩
  obtain ⟨leaf, h1, h2, h3⟩ := h.leaf hl fuel
  have htop : checkTop alt (fuel + 1) p = .ok [leaf] := by
    rw [← h1]
    unfold checkTop
    split
    · rename_i a b
      simp only [Py.isPair] at hpair
      rw [hpair]; rfl
    · rfl
  simp only [parse, htop, Out.bind, List.map_cons, List.map_nil, Out.all, h2, ht, collect, h3]
  rfl

/-- A list or tuple of rows is read row by row, in order. `hfirst` excludes that the first row is a
tuple of two whose first entry is a key; the scalar type is the one computed from the types of the
first numbers of the rows. -/
theorem C95_rows_partial (maxNested : ℕ) (hmax : 2 ≤ maxNested) (arg p : Py) (items : List Py)
    (rows : List (Row R)) (infos : List TypeInfo) (t : Target)
    (harg : arg = .list (p :: items) ∨ arg = .tuple (p :: items))
    (hl : List.Forall₂ Lead (p :: items) infos)
    (ht : computeScalarType requested infos = .ok t)
    (h : List.Forall₂ (Reads C ofPoly t alt) (p :: items) rows)
    (hfirst : p.isPair alt = false) :
    parse C ofPoly alt requested maxNested arg = .ok (t, rows) := by
  obtain ⟨fuel, rfl⟩ : ∃ f, maxNested = f + 2 := ⟨maxNested - 2, by omega⟩
  obtain ⟨leaves, h4, h5, h6⟩ := collect_rows fuel (p :: items) rows infos h hl
  obtain ⟨row, hrow⟩ := forall₂_mem h p List.mem_cons_self
  obtain ⟨k, hk⟩ := scan_row hrow hfirst items
  have hseq : checkSeq alt (check alt (fuel + 1)) (p :: items) = .ok leaves := by
    simp only [checkSeq, List.isEmpty_cons, Bool.false_eq_true, if_false, hk, Out.bind]
    exact h4
  have hkey : p.isKey alt = false := by cases hrow <;> rfl
  have htop : checkTop alt (fuel + 2) arg = .ok leaves := by
    rcases harg with rfl | rfl
    · exact hseq
    · rw [← hseq]
      unfold checkTop
      split
      · rename_i a b heq
        injection heq with heq
        injection heq with h1 h2
        subst h1
        rw [hkey, ← h2]
        rfl
      · rfl
  simp only [parse, htop, Out.bind, h5, ht, h6]
  rfl

/-- Conversions that keep the number, for the examples. -/
def keepAll : Target → Conv (ℤ ⊕ ℕ) := fun _ => keep

/-- An integer and a number as they are written. -/
abbrev pyInt (n : ℤ) : Py := .num (.int n) true
abbrev pyFloat (b : ℕ) : Py := .num (.float b) true

/-- `[[1, 2], {1: 5}, [(2, 7)]]`. -/
def mixed : List Py :=
  [.list [pyInt 1, pyInt 2], .dict [(pyInt 1, pyInt 5)], .list [.tuple [pyInt 2, pyInt 7]]]

example : parse keepAll .inr false none 2 (.list mixed) =
    .ok (.double, [.dense [.inl 1, .inl 2], .sparse [(1, .inl 5)], .sparse [(2, .inl 7)]]) := by
  refine C95_rows_partial keepAll .inr false none 2 (by decide) _ (.list [pyInt 1, pyInt 2]) _ _
    [float64, float64, float64] .double (.inl rfl) ?_ (by decide) ?_ rfl
  · exact .cons (.list _ _ _ (.int 1)) (.cons (.dict _ _ _ _ (.int 5))
      (.cons (.pairs _ _ _ _ (.int 7)) .nil))
  · refine .cons (.list _ _ (by simp) (.cons (.int 1 true (by decide) (by decide))
      (.cons (.int 2 true (by decide) (by decide)) .nil))) (.cons (.dict _ _ (by simp)
      (.cons (.mk _ _ 1 _ (.int 1 true (by decide)) (.int 5 true (by decide) (by decide))) .nil))
      (.cons (.pairs [(pyInt 2, pyInt 7)] _ (by simp)
      (.cons (.mk _ _ 2 _ (.int 2 true (by decide)) (.int 7 true (by decide) (by decide))) .nil))
      .nil))

/-- An empty sequence or dictionary raises. -/
theorem C95_empty (maxNested : ℕ) :
    parse C ofPoly alt requested maxNested (.list []) = .err ∧
    parse C ofPoly alt requested maxNested (.tuple []) = .err ∧
    parse C ofPoly alt requested maxNested (.dict []) = .err := by
  cases maxNested <;> exact ⟨rfl, rfl, rfl⟩

/-- Strings and other objects raise. -/
theorem C95_other (maxNested : ℕ) :
    parse C ofPoly alt requested maxNested .str = .err ∧
    parse C ofPoly alt requested maxNested .other = .err ∧
    ∀ n e, parse C ofPoly alt requested maxNested (.num n e) = .err := by
  cases maxNested <;> exact ⟨rfl, rfl, fun _ _ => rfl⟩

theorem check_not_ub : ∀ (fuel : ℕ) (p : Py), check alt fuel p ≠ .ub := by
  have hscan : ∀ (items : List Py) (k : Option Kind), scan alt k items ≠ .ub ∧
      (items ≠ [] → scan alt k items ≠ .ok (true, none)) ∧
      (k ≠ none → scan alt k items ≠ .ok (true, none)) := by
    intro items
    induction items with
    | nil => intro k; simp [scan]
    | cons p rest ih =>
      intro k
      have hv := ih (some .value)
      have hp := ih (some .pair)
      cases p with
      | tuple l =>
        match l with
        | [] => simp only [scan]; split_ifs <;> simp
        | [_] => simp only [scan]; split_ifs <;> simp
        | [a, b] =>
          simp only [scan]
          split_ifs <;> simp_all
        | _ :: _ :: _ :: _ => simp only [scan]; split_ifs <;> simp
      | str => simp [scan]
      | num n e =>
        simp only [scan, Py.isScalar]
        split_ifs <;> simp_all
      | word k => simp only [scan, Py.isScalar]; split_ifs <;> simp_all
      | other => simp only [scan, Py.isScalar]; split_ifs <;> simp_all
      | arr T => simp only [scan, Py.isScalar]; split_ifs <;> simp_all
      | list l => simp only [scan, Py.isScalar]; split_ifs <;> simp_all
      | dict l => simp only [scan, Py.isScalar]; split_ifs <;> simp_all
  have hcollect : ∀ (f : Py → Out (List Leaf)), (∀ p, f p ≠ .ub) → ∀ l, collect f l ≠ .ub := by
    intro f hf l
    induction l with
    | nil => simp [collect]
    | cons p rest ih =>
      simp only [collect]
      cases hp : f p with
      | ok a =>
        cases hc : collect f rest with
        | ok b => simp [Out.bind]
        | err => simp [Out.bind]
        | ub => exact absurd hc ih
      | err => simp [Out.bind]
      | ub => exact absurd hp (hf p)
  have hseq : ∀ (f : Py → Out (List Leaf)), (∀ p, f p ≠ .ub) → ∀ l, checkSeq alt f l ≠ .ub := by
    intro f hf l
    unfold checkSeq
    split_ifs with he
    · simp
    · have h := hscan l none
      cases hs : scan alt none l with
      | ok r =>
        obtain ⟨b, k⟩ := r
        simp only [Out.bind]
        split_ifs with hb
        · subst hb
          rcases k with _ | _ | _
          · exact absurd hs (h.2.1 (by simpa using he))
          · simp
          · simp
        · exact hcollect f hf l
      | err => simp [Out.bind]
      | ub => exact absurd hs h.1
  intro fuel
  induction fuel with
  | zero => intro p; simp [check]
  | succ fuel ih =>
    intro p
    cases p with
    | arr T => simp only [check]; split_ifs <;> simp
    | dict l => simp only [check]; split_ifs <;> simp
    | list l => exact hseq _ ih l
    | tuple l => exact hseq _ ih l
    | num n e => simp [check]
    | word k => simp [check]
    | str => simp [check]
    | other => simp [check]

theorem collect_err (f : Py → Out (List Leaf)) (hf : ∀ p, f p ≠ .ub) (q : Py) (hq : f q = .err) :
    ∀ l, q ∈ l → collect f l = .err := by
  intro l
  induction l with
  | nil => simp
  | cons p rest ih =>
    intro hm
    simp only [collect]
    cases hp : f p with
    | ok a =>
      rcases List.mem_cons.1 hm with rfl | hm
      · rw [hq] at hp; simp at hp
      · rw [ih hm]; rfl
    | err => rfl
    | ub => exact absurd hp (hf p)

/-- Whatever else a list or tuple holds: if one item is neither a number nor a tuple and raises one
level down, the whole argument raises. -/
theorem C95_bad_item (fuel : ℕ) (items : List Py) (q : Py) (hm : q ∈ items)
    (hs : q.isScalar = false) (ht : ∀ l, q ≠ .tuple l) (hq : check alt fuel q = .err) :
    check alt (fuel + 1) (.list items) = .err ∧ check alt (fuel + 1) (.tuple items) = .err := by
  have hleaf : ∀ (l : List Py) (k : Option Kind), q ∈ l →
      ∀ k', scan alt k l ≠ .ok (true, k') := by
    intro l
    induction l with
    | nil => simp
    | cons p rest ih =>
      intro k hm k'
      rcases List.mem_cons.1 hm with rfl | hm
      · cases q with
        | tuple l => exact absurd rfl (ht l)
        | num n e => simp [Py.isScalar] at hs
        | str => simp [scan]
        | word k => simp only [scan, Py.isScalar]; split_ifs <;> simp_all
        | other => simp only [scan, Py.isScalar]; split_ifs <;> simp_all
        | arr T => simp only [scan, Py.isScalar]; split_ifs <;> simp_all
        | list l => simp only [scan, Py.isScalar]; split_ifs <;> simp_all
        | dict l => simp only [scan, Py.isScalar]; split_ifs <;> simp_all
      · have ih' := fun k => ih k hm k'
        cases p with
        | tuple l =>
          match l with
          | [] => simp only [scan]; split_ifs <;> simp
          | [_] => simp only [scan]; split_ifs <;> simp
          | [a, b] => simp only [scan]; split_ifs <;> simp [ih']
          | _ :: _ :: _ :: _ => simp only [scan]; split_ifs <;> simp
        | str => simp [scan]
        | num n e => simp only [scan, Py.isScalar]; split_ifs <;> simp_all
        | word k => simp only [scan, Py.isScalar]; split_ifs <;> simp_all
        | other => simp only [scan, Py.isScalar]; split_ifs <;> simp_all
        | arr T => simp only [scan, Py.isScalar]; split_ifs <;> simp_all
        | list l => simp only [scan, Py.isScalar]; split_ifs <;> simp_all
        | dict l => simp only [scan, Py.isScalar]; split_ifs <;> simp_all
  have hseq : checkSeq alt (check alt fuel) items = .err := by
    unfold checkSeq
    split_ifs with he
    · rfl
    · cases hsc : scan alt none items with
      | ok r =>
        obtain ⟨b, k⟩ := r
        cases b with
        | true => exact absurd hsc (hleaf items none hm k)
        | false =>
          simp only [Out.bind, Bool.false_eq_true, if_false]
          exact collect_err _ (check_not_ub alt fuel) q hq items hm
      | err => rfl
      | ub =>
        exfalso
        have := check_not_ub alt (fuel + 1) (.list items)
        simp only [check, checkSeq] at this
        rw [if_neg (by simpa using he), hsc] at this
        exact this rfl
  exact ⟨hseq, hseq⟩

/-- Lists nested deeper than allowed raise, whatever stands beside the inner lists; an array counts with
its dimensions. -/
theorem C95_depth (n : ℕ) (p : Py) (h : Deep n p) : parse C ofPoly alt requested n p = .err := by
  have key : ∀ (n : ℕ) (p : Py), Deep n p → ((∃ l, p = .list l) ∨ ∃ T, p = .arr T) ∧
      check alt n p = .err := by
    intro n p h
    induction h with
    | zero l => exact ⟨.inl ⟨l, rfl⟩, rfl⟩
    | arr n T h =>
      refine ⟨.inr ⟨T, rfl⟩, ?_⟩
      cases n with
      | zero => rfl
      | succ n => simp only [check]; rw [if_neg (by omega)]
    | succ n l q hq _ ih =>
      obtain ⟨h1, h2⟩ := ih
      refine ⟨.inl ⟨l, rfl⟩, ?_⟩
      rcases h1 with ⟨r, rfl⟩ | ⟨T, rfl⟩
      · exact (C95_bad_item alt n l (.list r) hq rfl (by simp) h2).1
      · exact (C95_bad_item alt n l (.arr T) hq rfl (by simp) h2).1
  obtain ⟨h1, h2⟩ := key n p h
  unfold parse
  have : checkTop alt n p = check alt n p := by
    rcases h1 with ⟨l, rfl⟩ | ⟨T, rfl⟩ <;> rfl
  rw [this, h2]
  rfl

example : Deep 2 (.list [pyInt 1, .list [.list [pyInt 1]]]) :=
  .succ 1 _ (.list [.list [pyInt 1]]) (by simp) (.succ 0 _ (.list [pyInt 1]) (by simp) (.zero _))

end

/-! ## Rows of streams -/

/-- The rows of a stream made from a list of dense rows, in order. The conditions are those of
`C95_rows_partial`; that a row is dense cannot be dropped. -/
theorem C95_stream_partial (C : Target → Conv R) (ofPoly : ℕ → R) (requested : Option Target)
    (p : Py) (items : List Py) (vals : List (List R)) (infos : List TypeInfo) (t : Target)
    (hl : List.Forall₂ Lead (p :: items) infos)
    (ht : computeScalarType requested infos = .ok t)
    (h : List.Forall₂ (Reads C ofPoly t false) (p :: items) (vals.map .dense))
    (hfirst : p.isPair false = false) :
    streamRows C ofPoly requested (.list (p :: items)) = .ok (t, vals) := by
  unfold streamRows
  rw [C95_rows_partial C ofPoly false requested 2 le_rfl _ p items _ infos t (.inl rfl) hl ht h
    hfirst]
  have hv : (vals.map Row.dense).map Row.vals = vals := by
    rw [List.map_map]
    conv_rhs => rw [← List.map_id vals]
    rfl
  simp only [Out.map, hv]

example : streamRows keepAll .inr none (.list [.list [pyInt 1, pyInt 2], .list [pyInt 3]]) =
    .ok (.double, [[.inl 1, .inl 2], [.inl 3]]) := by decide +kernel

/-- What a stream gets from rows of either kind: the numbers of each row in order, without keys. -/
theorem C95_stream_values (C : Target → Conv R) (ofPoly : ℕ → R) (requested : Option Target)
    (p : Py) (items : List Py) (rows : List (Row R)) (infos : List TypeInfo) (t : Target)
    (hl : List.Forall₂ Lead (p :: items) infos)
    (ht : computeScalarType requested infos = .ok t)
    (h : List.Forall₂ (Reads C ofPoly t false) (p :: items) rows)
    (hfirst : p.isPair false = false) :
    streamRows C ofPoly requested (.list (p :: items)) = .ok (t, rows.map fun r => match r with
      | .dense l => l
      | .sparse l => l.map fun kv => kv.2) := by
  unfold streamRows
  rw [C95_rows_partial C ofPoly false requested 2 le_rfl _ p items _ infos t (.inl rfl) hl ht h
    hfirst]
  simp only [Out.map]
  congr 2

example : streamRows keepAll .inr none (.list [.dict [(pyInt 7, pyFloat 5), (pyInt 3, pyFloat 6)]]) =
    .ok (.double, [[.inr 5, .inr 6]]) := by decide +kernel

/-- A stream made from sparse rows does not depend on the keys at all: the scalars are pushed without
them and become the first coordinates. -/
theorem C95_stream_keys_refuted (C : Target → Conv R) (ofPoly : ℕ → R)
    (requested : Option Target) (k : ℤ) (hk : 0 ≤ k) (hk' : k < 2 ^ 64) (b : ℕ) (t : Target)
    (ht : computeScalarType requested [float64] = .ok t) :
    streamRows C ofPoly requested (.list [.dict [(pyInt k, pyFloat b)]]) =
      .ok (t, [[(C t).ofFloat 8 b]]) ∧
    streamRows C ofPoly requested (.list [.list [pyFloat b]]) =
      .ok (t, [[(C t).ofFloat 8 b]]) := by
  constructor
  · obtain ⟨n, rfl⟩ := Int.eq_ofNat_of_zero_le hk
    unfold streamRows
    rw [C95_rows_partial C ofPoly false requested 2 le_rfl _ _ [] [.sparse [(n, (C t).ofFloat 8 b)]]
      [float64] t (.inl rfl) (.cons (.dict _ _ _ _ (.float b)) .nil) ht
      (.cons (.dict _ _ (by simp) (.cons (.mk _ _ n _ (.int n true (by exact_mod_cast hk'))
        (.float b true)) .nil)) .nil) rfl]
    rfl
  · exact C95_stream_partial C ofPoly requested _ [] [[(C t).ofFloat 8 b]] [float64] t
      (.cons (.list _ _ _ (.float b)) .nil) ht
      (.cons (.list _ _ (by simp) (.cons (.float b true) .nil)) .nil) rfl

/-- `[{2: 5.0}]` and `[{1: 5.0}]` give the same stream. -/
example : streamRows keepAll .inr none (.list [.dict [(pyInt 2, pyFloat 5)]]) =
    streamRows keepAll .inr none (.list [.dict [(pyInt 1, pyFloat 5)]]) := by decide +kernel

/-! ## Where it fails -/

/-- Two rows of two integers written as tuples are one sparse row; with floating point numbers, or
written as lists, they are two dense rows. -/
theorem C95_tuples_refuted :
    parse keepAll .inr false none 2
      (.list [.tuple [pyInt 1, pyInt 2], .tuple [pyInt 3, pyInt 4]]) =
        .ok (.double, [.sparse [(1, .inl 2), (3, .inl 4)]]) ∧
    parse keepAll .inr false none 2
      (.list [.tuple [pyFloat 1, pyFloat 2], .tuple [pyFloat 3, pyFloat 4]]) =
        .ok (.double, [.dense [.inr 1, .inr 2], .dense [.inr 3, .inr 4]]) ∧
    parse keepAll .inr false none 2
      (.list [.list [pyInt 1, pyInt 2], .list [pyInt 3, pyInt 4]]) =
        .ok (.double, [.dense [.inl 1, .inl 2], .dense [.inl 3, .inl 4]]) := by
  refine ⟨?_, ?_, ?_⟩ <;> decide +kernel

/-- The order of the rows decides whether data is accepted: a row written as a tuple of three numbers
may stand before a row written as a list, and a row of two integers may not. -/
theorem C95_order_refuted :
    parse keepAll .inr false none 2
      (.list [.list [pyInt 3, pyInt 4], .tuple [pyInt 1, pyInt 2]]) =
        .ok (.double, [.dense [.inl 3, .inl 4], .dense [.inl 1, .inl 2]]) ∧
    parse keepAll .inr false none 2
      (.list [.tuple [pyInt 1, pyInt 2], .list [pyInt 3, pyInt 4]]) = .err := by decide +kernel

/-- A row of two integers written as a tuple raises as the whole argument, a row of three does not. -/
theorem C95_pair_refuted :
    parse keepAll .inr false none 2 (.tuple [pyInt 1, pyInt 2]) = .err ∧
    parse keepAll .inr false none 2 (.tuple [pyInt 1, pyInt 2, pyInt 3]) =
      .ok (.double, [.dense [.inl 1, .inl 2, .inl 3]]) := by decide +kernel

/-- Only the first number of a row decides its type: a polynomial after a number raises, a number
after a polynomial does not. -/
theorem C95_type_refuted :
    parse keepAll .inr false none 2 (.list [pyFloat 1, .num (.poly 0) true]) = .err ∧
    parse keepAll .inr false none 2 (.list [.num (.poly 0) true, pyFloat 1]) =
      .ok (.poly, [.dense [.inr 0, .inr 1]]) := by decide +kernel

/-- The same for a number of a subclass, such as `True` or `numpy.float64(1.0)`: it raises as the
first number and is accepted later. -/
theorem C95_subclass_refuted :
    parse keepAll .inr false none 2 (.list [.num (.float 1) false, pyFloat 2]) = .err ∧
    parse keepAll .inr false none 2 (.list [pyFloat 2, .num (.float 1) false]) =
      .ok (.double, [.dense [.inr 2, .inr 1]]) := by decide +kernel

/-- A fraction counts as a number and is never converted, whatever the scalar type. -/
theorem C95_fraction_refuted (C : Target → Conv R) (ofPoly : ℕ → R) (alt e : Bool)
    (requested : Option Target) (maxNested : ℕ) :
    parse C ofPoly alt requested maxNested (.list [.num .fraction e]) = .err := by
  cases maxNested <;> rfl

end RoughPy.Args
