import Verif.TypeName.Spec

/-!
# Properties of finding a scalar type by its name

Vocabulary: `Verif/TypeName/Spec.lean`.
-/

namespace RoughPy.TypeName

/-! ## Helper lemmas -/

theorem digitsValue_eq {ds : List Char} (h : AllDigits ds) : ∀ acc,
    digitsValue acc ds = ds.foldl (fun n c => 10 * n + (c.toNat - '0'.toNat)) acc := by
  induction ds with
  | nil => intro acc; rfl
  | cons c cs ih =>
    intro acc
    have hc := h c (by simp)
    have : isDigit c = true := by
      simp only [isDigit, Bool.and_eq_true, decide_eq_true_eq]
      exact hc
    simp only [digitsValue, this, if_true, List.foldl_cons]
    exact ih (fun d hd => h d (by simp [hd])) _

theorem fromChars_digits {ds : List Char} (h : AllDigits ds) {n : ℕ} (hn : fromChars ds = some n) :
    n = number ds ∧ number ds < 2 ^ 64 := by
  cases ds with
  | nil => cases hn
  | cons c cs =>
    simp only [fromChars] at hn
    split at hn
    · split at hn
      · next hlt =>
        cases hn
        have e := digitsValue_eq h 0
        exact ⟨e, by rw [number, ← e]; exact hlt⟩
      · cases hn
    · cases hn

theorem parseByted_info {cs : List Char} {c d : Code} {n : ℕ} (h : parseByted cs c = .info d n) :
    d = c ∧ ∃ bits, fromChars cs = some bits ∧ n = bits / 8 % 256 := by
  unfold parseByted at h
  split at h
  · cases h
  · next bits hb =>
    dsimp only at h
    split at h
    · cases h
    · cases h
      exact ⟨rfl, bits, hb, rfl⟩

theorem bf_nothing (cs : List Char) (c : Code) : parseByted ('f' :: cs) c = .nothing := by
  have : fromChars ('f' :: cs) = none := by
    have hd : isDigit 'f' = false := by decide
    simp [fromChars, hd]
  simp [parseByted, this]

theorem parseId_info {id : List Char} {c : Code} {n : ℕ} (h : parseId id = .info c n) :
    c ≠ .bfloat ∧ (c = .float → ∃ cs, id = 'f' :: cs ∧ ∃ bits, fromChars cs = some bits ∧
      n = bits / 8 % 256) := by
  unfold parseId at h
  split at h
  · obtain ⟨rfl, _⟩ := parseByted_info h
    exact ⟨by decide, by intro h; cases h⟩
  · obtain ⟨rfl, _⟩ := parseByted_info h
    exact ⟨by decide, by intro h; cases h⟩
  · next cs =>
    obtain ⟨rfl, hb⟩ := parseByted_info h
    exact ⟨by decide, fun _ => ⟨cs, rfl, hb⟩⟩
  · obtain ⟨rfl, _⟩ := parseByted_info h
    exact ⟨by decide, by intro h; cases h⟩
  · cases h
  · rw [bf_nothing] at h
    cases h
  · cases h

/-- What is found -/
theorem found_cases {id : List Char} {t : Kind} (h : getType id = .found t) :
    (t = .rational ∧ id = Kind.rational.name) ∨ (t = .poly ∧ id = Kind.poly.name) ∨
    ∃ cs bits, id = 'f' :: cs ∧ fromChars cs = some bits ∧
      ((t = .half ∧ bits / 8 % 256 = 2) ∨ (t = .single ∧ bits / 8 % 256 = 4) ∨
        (t = .double ∧ bits / 8 % 256 = 8)) := by
  unfold getType at h
  split at h
  · cases h
  · split at h
    · next c n hp =>
      obtain ⟨hc, hf⟩ := parseId_info hp
      cases c with
      | int => simp only [scalarTypeOf] at h; split at h <;> cases h
      | uint => simp only [scalarTypeOf] at h; split at h <;> cases h
      | complex => simp only [scalarTypeOf] at h; cases h
      | bfloat => exact absurd rfl hc
      | float =>
        obtain ⟨cs, rfl, bits, hb, rfl⟩ := hf rfl
        refine Or.inr (Or.inr ⟨cs, bits, rfl, hb, ?_⟩)
        simp only [scalarTypeOf] at h
        split at h
        · next e => cases h; exact Or.inl ⟨rfl, e⟩
        · split at h
          · next e => cases h; exact Or.inr (Or.inl ⟨rfl, e⟩)
          · split at h
            · next e => cases h; exact Or.inr (Or.inr ⟨rfl, e⟩)
            · cases h
    · cases h
    · split at h
      · next e => cases h; exact Or.inl ⟨rfl, e⟩
      · split at h
        · next e => cases h; exact Or.inr (Or.inl ⟨rfl, e⟩)
        · cases h

/-! ## C167 -/

/-- **C167** (in part): each type is found by its name.

Missing: not bfloat16, see `C167_bfloat_refuted`. -/
theorem C167_found_partial (t : Kind) (h : t ≠ .bfloat) : getType t.name = .found t := by
  cases t
  · decide
  · decide
  · decide
  · exact absurd rfl h
  · decide
  · decide

example : getType ['f', '3', '2'] = .found .single := by decide

/-- **C167** (in part): a name that does not begin with `f` finds a type only if it is the name of that
type. -/
theorem C167_other_names_partial (id : List Char) (t : Kind) (hid : id.head? ≠ some 'f')
    (h : getType id = .found t) : id = t.name := by
  rcases found_cases h with ⟨rfl, e⟩ | ⟨rfl, e⟩ | ⟨cs, bits, rfl, _⟩
  · exact e
  · exact e
  · exact absurd rfl hid

example : Kind.poly.name.head? ≠ some 'f' ∧ getType Kind.poly.name = .found .poly ∧
    getType ['R', 'a', 't'] = .absent ∧ getType ['i', '3', '2'] = .absent ∧ getType ['c', '6', '4'] = .error := by
  decide

/-- **C167** (in part): `f` and a number finds only the floating-point type with that number of bits.

Missing: only for whole bytes and fewer than 256 of them, and only digits after the `f`, see
`C167_wrong_name_refuted`. -/
theorem C167_float_partial (ds : List Char) (t : Kind) (hd : AllDigits ds) (h8 : 8 ∣ number ds)
    (hn : number ds < 2048) (h : getType ('f' :: ds) = .found t) : t.bits = some (number ds) := by
  rcases found_cases h with ⟨rfl, e⟩ | ⟨rfl, e⟩ | ⟨cs, bits, e, hb, ht⟩
  · exact absurd (List.cons.inj e).1 (by decide)
  · exact absurd (List.cons.inj e).1 (by decide)
  · cases e
    obtain ⟨rfl, _⟩ := fromChars_digits hd hb
    rcases ht with ⟨rfl, e⟩ | ⟨rfl, e⟩ | ⟨rfl, e⟩ <;> simp only [Kind.bits, Option.some.injEq] <;> omega

example : AllDigits ['6', '4'] ∧ number ['6', '4'] = 64 ∧ getType ['f', '6', '4'] = .found .double := by
  refine ⟨?_, by decide, by decide⟩
  intro c hc
  simp only [List.mem_cons, List.not_mem_nil, or_false] at hc
  rcases hc with rfl | rfl <;> decide

/-- **C167** fails as stated: no name at all finds bfloat16. -/
theorem C167_bfloat_refuted : (∀ id, getType id ≠ .found .bfloat) ∧
    getType Kind.bfloat.name = .absent := by
  refine ⟨fun id h => ?_, by decide⟩
  rcases found_cases h with ⟨e, _⟩ | ⟨e, _⟩ | ⟨_, _, _, _, ⟨e, _⟩ | ⟨e, _⟩ | ⟨e, _⟩⟩ <;> cases e

/-- **C167** fails as stated: names that no type has find a type, because text after the number is ignored,
the number is rounded down to bytes and the number of bytes is cut to 8 bits. -/
theorem C167_wrong_name_refuted :
    getType ['f', '6', '4', 'x'] = .found .double ∧ getType ['f', '7', '1'] = .found .double ∧
    getType ['f', '2', '1', '1', '2'] = .found .double ∧ getType ['f', '0', '3', '2'] = .found .single := by
  decide

/-- **C167** fails as stated: some names are not refused but have undefined behaviour: a number of bits with
more than 128 bytes never ends, and `b` with one more character reads behind the name. -/
theorem C167_undefined_refuted :
    getType ['f', '1', '0', '4', '0'] = .undefined ∧ getType ['i', '2', '0', '4', '0'] = .undefined ∧
    ∀ c, getType ['b', c] = .undefined := by
  refine ⟨by decide, by decide, fun c => ?_⟩
  simp [getType, parseId]

/-- **C167** fails as stated: no string works as the `dtype` of a signature. The names of the types are
refused and unknown names have undefined behaviour. -/
theorem C167_signature_refuted : (∀ id t, signatureDtype id ≠ .found t) ∧
    (∀ t : Kind, t ≠ .bfloat → signatureDtype t.name = .error) ∧ signatureDtype ['x'] = .undefined := by
  refine ⟨fun id t h => ?_, fun t ht => ?_, by decide⟩
  · unfold signatureDtype at h
    split at h
    · cases h
    · cases h
    · next hne _ => exact hne t h
  · simp [signatureDtype, C167_found_partial t ht]

end RoughPy.TypeName
