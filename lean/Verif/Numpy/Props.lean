import Verif.Numpy.Spec

/-!
# C158 — the numpy array of an element

`numpy.array(x)` has the coefficients of `x` in the order of the basis.
-/

namespace RoughPy.Numpy

variable {K : Type} [AddMonoid K]

theorem Native.typenum_eq {i : Info} {t : Npy} (h : Native i t) :
    typenum i = some t ∧ isFundamental i = true ∧ t ≠ .object := by
  cases h with
  | int b h => rcases h with rfl | rfl | rfl | rfl <;> exact ⟨rfl, rfl, by simp⟩
  | uint b h => rcases h with rfl | rfl | rfl | rfl <;> exact ⟨rfl, rfl, by simp⟩
  | float b h => rcases h with rfl | rfl | rfl <;> exact ⟨rfl, rfl, by simp⟩

theorem Objects.typenum_eq {i : Info} (h : Objects i) : typenum i = some .object ∧ isFundamental i = false := by
  obtain ⟨c, b⟩ := i
  rcases h with h | h <;> (dsimp only at h; subst h; exact ⟨rfl, rfl⟩)

/-- C158, dense elements: with numbers that numpy has, the array has the coefficients of the element, zero where
none is stored, and the type of the coefficients, whether or not a copy is asked for.

Partial: not for sparse elements (`C158_sparse_refuted`). -/
theorem C158_dense_partial (i : Info) (t : Npy) (hi : Native i t) (data : List K) (dim : ℕ)
    (hl : data.length ≤ dim) (copy : Bool) :
    ∃ a, toArray (.dense i data) dim copy = .ok a ∧ a.type = t ∧ a.Holds (.dense i data) dim := by
  obtain ⟨h1, h2, h3⟩ := hi.typenum_eq
  unfold toArray
  dsimp only
  rw [h1]
  dsimp only
  split
  · rename_i hc
    simp only [Bool.and_eq_true, beq_iff_eq] at hc
    refine ⟨_, rfl, rfl, by simpa using hc.2, fun n hn => ?_⟩
    have hn' : n < data.length := by omega
    exact ⟨.num data[n], by simp [hn'], Or.inl (by simp [Element.coeff, hn'])⟩
  · have hz : newZeroArray (K := K) i dim = .ok ⟨t, List.replicate dim (.num 0)⟩ := by
      unfold newZeroArray
      rw [h1]
      cases t <;> first | rfl | exact absurd rfl h3
    unfold denseToArray
    rw [hz]
    dsimp only
    rw [if_pos h2]
    unfold writeCells
    rw [if_pos (by simpa using hl)]
    refine ⟨_, rfl, rfl, by simp; omega, fun n hn => ?_⟩
    by_cases hn' : n < data.length
    · refine ⟨.num data[n], ?_, Or.inl (by simp [Element.coeff, hn'])⟩
      rw [List.getElem?_append_left (by simpa using hn')]
      simp [hn']
    · refine ⟨.num 0, ?_, Or.inl ?_⟩
      · rw [List.getElem?_append_right (by simpa using Nat.le_of_not_lt hn')]
        rw [List.getElem?_drop, List.getElem?_replicate, if_pos (by simp; omega)]
      · have : data[n]? = none := List.getElem?_eq_none (by omega)
        simp [Element.coeff, this]

/-- C158, dense elements with fractions or polynomials: if there is a coefficient for every key, the array has
Python objects with these coefficients.

Partial: with fewer coefficients the rest is `None` (`C158_padding_refuted`). -/
theorem C158_objects_partial (i : Info) (hi : Objects i) (data : List K) (dim : ℕ) (hl : data.length = dim)
    (copy : Bool) :
    ∃ a, toArray (.dense i data) dim copy = .ok a ∧ a.type = .object ∧ a.Holds (.dense i data) dim := by
  obtain ⟨h1, h2⟩ := hi.typenum_eq
  have hz : newZeroArray (K := K) i dim = .ok ⟨.object, List.replicate dim .pyNone⟩ := by
    unfold newZeroArray
    rw [h1]
  have hd : denseToArray i data dim = .ok ⟨.object, data.map .obj⟩ := by
    have hw : writeCells ((List.replicate dim (Cell.pyNone (K := K))).map fun _ => .pyNone) (data.map .obj) =
        some (data.map .obj) := by
      unfold writeCells
      rw [if_pos (by simp [hl])]
      simp [hl]
    unfold denseToArray
    rw [hz]
    dsimp only
    rw [if_neg (by simp [h2])]
    rcases hi with h | h <;> rw [h] <;> dsimp only <;> rw [hw]
  refine ⟨⟨.object, data.map .obj⟩, ?_, rfl, by simpa using hl, fun n hn => ?_⟩
  · unfold toArray
    dsimp only
    rw [h1]
    simp [hd]
  · have hn' : n < data.length := by omega
    exact ⟨.obj data[n], by simp [hn'], Or.inr (by simp [Element.coeff, hn'])⟩

/-- C158: entries of sparse elements are never written: the array of a sparse element is that of the element
without coefficients. -/
theorem C158_sparse_ignored (i : Info) (items : List (ℕ × K)) (dim : ℕ) (copy : Bool) :
    toArray (.sparse i items) dim copy = toArray (.sparse i []) dim copy := by
  have : ∀ (l : List (ℕ × K)) (a : NpArray K), l.foldl (fun a x => writeEntry a x.1 x.2) a = a := by
    intro l
    induction l with
    | nil => intro a; rfl
    | cons x l ih => intro a; exact ih a
  unfold toArray
  simp only [this, List.foldl_nil]

/-- C158: the array of a sparse element is wrong for every element with a coefficient that is not zero. -/
theorem C158_sparse_refuted (i : Info) (items : List (ℕ × K)) (dim : ℕ) (copy : Bool) (n : ℕ) (hn : n < dim)
    (hc : (Element.sparse i items).coeff n ≠ 0) (a : NpArray K)
    (h : toArray (.sparse i items) dim copy = .ok a) : ¬ a.Holds (.sparse i items) dim := by
  rw [C158_sparse_ignored] at h
  rintro ⟨_, hh⟩
  obtain ⟨c, h1, h2⟩ := hh n hn
  unfold toArray newZeroArray at h
  dsimp only at h
  have key : ∀ x : Cell K, a.cells = List.replicate dim x → c = x := by
    intro x hx
    rw [hx, List.getElem?_replicate, if_pos hn] at h1
    exact (Option.some.inj h1).symm
  have hcell : c = .pyNone ∨ c = .num 0 := by
    rcases ht : typenum i with _ | t
    · rw [ht] at h; cases h
    · rw [ht] at h
      cases t with
      | object =>
        simp only [List.foldl_nil, Res.ok.injEq] at h
        exact Or.inl (key _ (by rw [← h]))
      | _ =>
        simp only [List.foldl_nil, Res.ok.injEq] at h
        exact Or.inr (key _ (by rw [← h]))
  rcases hcell with rfl | rfl
  · rcases h2 with h2 | h2 <;> cases h2
  · rcases h2 with h2 | h2
    · exact hc (Cell.num.inj h2).symm
    · cases h2

/-- C158, sparse elements: what remains true is that zero has the array of zeros.

Partial: see `C158_sparse_refuted`. -/
theorem C158_zero_partial (i : Info) (t : Npy) (hi : Native i t) (items : List (ℕ × K)) (dim : ℕ) (copy : Bool)
    (hz : ∀ n, n < dim → (Element.sparse i items).coeff n = 0) :
    ∃ a, toArray (.sparse i items) dim copy = .ok a ∧ a.type = t ∧ a.Holds (.sparse i items) dim := by
  obtain ⟨h1, _, h3⟩ := hi.typenum_eq
  refine ⟨⟨t, List.replicate dim (.num 0)⟩, ?_, rfl, by simp, fun n hn => ⟨.num 0, ?_, Or.inl ?_⟩⟩
  · rw [C158_sparse_ignored]
    unfold toArray newZeroArray
    dsimp only
    rw [h1]
    cases t <;> first | rfl | exact absurd rfl h3
  · simp [hn]
  · rw [hz n hn]

/-- C158: bfloat16, complex numbers and booleans have no array. -/
theorem C158_types_refuted (i : Info) (hi : i.code = .bFloat ∨ i.code = .complex ∨ i.code = .bool) (e : Element K)
    (he : e.info = some i) (dim : ℕ) (copy : Bool) : toArray e dim copy = .throws := by
  have ht : typenum i = none := by
    unfold typenum
    rcases hi with h | h | h <;> rw [h]
  cases e with
  | unset => cases he
  | dense j data => cases he; unfold toArray; dsimp only; rw [ht]
  | sparse j items => cases he; unfold toArray; dsimp only; rw [ht]

/-- C158: the array of an element that was never set reads through a null pointer. -/
theorem C158_unset_refuted : toArray (Element.unset : Element ℤ) 3 false = .undefined := rfl

/-- C158: a dense element with fractions that ends before the last key has `None` instead of zeros. -/
theorem C158_padding_refuted :
    toArray (.dense ⟨.apRational, 32⟩ [(1 : ℤ), 2]) 4 false = .ok ⟨.object, [.obj 1, .obj 2, .pyNone, .pyNone]⟩ := by
  decide +kernel

/-- C158: a sparse element `5 e₁ + 7 e₃` of double precision has an array of zeros; one with fractions has an
array of `None`. -/
theorem C158_sparse_example :
    toArray (.sparse ⟨.float, 8⟩ [(1, (5 : ℤ)), (3, 7)]) 4 true = .ok ⟨.float 64, [.num 0, .num 0, .num 0, .num 0]⟩ ∧
    toArray (.sparse ⟨.apRational, 32⟩ [(1, (5 : ℤ)), (3, 7)]) 2 true = .ok ⟨.object, [.pyNone, .pyNone]⟩ := by
  constructor <;> decide +kernel

/-! ### The hypotheses can be met -/

example : Native ⟨.float, 8⟩ (.float 64) ∧ [(1 : ℤ), 2].length ≤ 4 ∧
    toArray (.dense ⟨.float, 8⟩ [(1 : ℤ), 2]) 4 false = .ok ⟨.float 64, [.num 1, .num 2, .num 0, .num 0]⟩ :=
  ⟨.float 8 (by decide), by decide, by decide +kernel⟩

example : Objects ⟨.apRationalPolynomial, 32⟩ ∧
    toArray (.dense ⟨.apRationalPolynomial, 32⟩ [(1 : ℤ), 2]) 2 false = .ok ⟨.object, [.obj 1, .obj 2]⟩ :=
  ⟨Or.inr rfl, by decide +kernel⟩

example : (Element.sparse ⟨.float, 8⟩ [(1, (5 : ℤ)), (3, 7)]).coeff 3 ≠ 0 ∧
    ∃ a, toArray (.sparse ⟨.float, 8⟩ [(1, (5 : ℤ)), (3, 7)]) 4 true = .ok a :=
  ⟨by decide +kernel, _, C158_sparse_example.1⟩

example : ∀ n, n < 4 → (Element.sparse ⟨.float, 8⟩ ([] : List (ℕ × ℤ))).coeff n = 0 := fun _ _ => rfl

end RoughPy.Numpy
