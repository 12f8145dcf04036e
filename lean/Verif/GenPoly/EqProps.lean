import Verif.GenPoly.Props
import Mathlib.Algebra.MvPolynomial.Funext
import Mathlib.Algebra.Field.Rat
import Mathlib.Algebra.CharZero.Infinite

/-!
# C154 — equality and order of the generic polynomials

Polynomials in normal form are equal if and only if they are the same function; monomials are
totally ordered.
-/

namespace RoughPy.GenPoly

/-! ### Polynomials as functions -/

/-- The sum of the values at a key. -/
theorem sum_at_key {K M : Type} [DecidableEq K] [AddCommMonoid M] (l : List (K × M)) (k : K) (v : M)
    (hnd : (keys l).Nodup) (h : (k, v) ∈ l) : (l.map fun e => if e.1 = k then e.2 else 0).sum = v := by
  induction l with
  | nil => simp at h
  | cons e l ih =>
    rw [keys_cons, List.nodup_cons] at hnd
    rw [List.map_cons, List.sum_cons]
    rcases List.mem_cons.1 h with h | h
    · subst h
      have : (l.map fun e => if e.1 = k then e.2 else (0 : M)).sum = 0 := by
        apply List.sum_eq_zero
        intro x hx
        obtain ⟨e, he, rfl⟩ := List.mem_map.1 hx
        rw [if_neg]
        intro hek
        exact hnd.1 (hek ▸ List.mem_map.2 ⟨e, he, rfl⟩)
      simp [this]
    · have : e.1 ≠ k := fun hek => hnd.1 (hek ▸ List.mem_map.2 ⟨(k, v), h, rfl⟩)
      rw [if_neg this, zero_add, ih hnd.2 h]

theorem sum_no_key {K M : Type} [DecidableEq K] [AddCommMonoid M] (l : List (K × M)) (k : K)
    (h : k ∉ keys l) : (l.map fun e => if e.1 = k then e.2 else (0 : M)).sum = 0 := by
  apply List.sum_eq_zero
  intro x hx
  obtain ⟨e, he, rfl⟩ := List.mem_map.1 hx
  rw [if_neg]
  intro hek
  exact h (hek ▸ List.mem_map.2 ⟨e, he, rfl⟩)

/-- Two lists that are sorted by the same strict total order and have the same elements are equal. -/
theorem sorted_ext {K V : Type} (lt : K → K → Bool) (h : StrictTotal lt) (a b : List (K × V))
    (ha : Sorted lt a) (hb : Sorted lt b) (hab : ∀ e, e ∈ a ↔ e ∈ b) : a = b := by
  have hnd : ∀ l : List (K × V), Sorted lt l → l.Nodup := by
    intro l hl
    exact List.Nodup.of_map _ (sorted_nodup lt h l hl)
  have hp : a.Perm b := (List.perm_ext_iff_of_nodup (hnd a ha) (hnd b hb)).2 hab
  refine List.Perm.eq_of_pairwise (le := fun a b => lt a.1 b.1 = true) ?_ ha hb hp
  intro x y _ _ hxy hyx
  exact absurd hyx (by rw [h.asymm hxy]; decide)

/-- The exponents of a monomial. -/
noncomputable def expo (m : Mono) : Ind →₀ ℕ := (m.map fun e => Finsupp.single e.1 e.2).sum

theorem expo_apply (m : Mono) (k : Ind) : expo m k = (m.map fun e => if e.1 = k then e.2 else 0).sum := by
  induction m with
  | nil => rfl
  | cons e m ih =>
    unfold expo at ih ⊢
    rw [List.map_cons, List.sum_cons, Finsupp.add_apply, ih, List.map_cons, List.sum_cons,
      Finsupp.single_apply]

theorem indSorted (m : Mono) (h : MonoOk m) : Sorted indLt m :=
  h.sorted.imp (by intro a b h; simpa [indLt] using h)

theorem mem_mono_iff (m : Mono) (h : MonoOk m) (e : Ind × ℕ) : e ∈ m ↔ 0 < e.2 ∧ expo m e.1 = e.2 := by
  have hnd := sorted_nodup indLt indLt_total m (indSorted m h)
  constructor
  · intro he
    exact ⟨h.powers e he, by rw [expo_apply]; exact sum_at_key m e.1 e.2 hnd he⟩
  · rintro ⟨h0, h1⟩
    by_cases hk : e.1 ∈ keys m
    · obtain ⟨f, hf, hfe⟩ := List.mem_map.1 hk
      have := sum_at_key m f.1 f.2 hnd hf
      rw [hfe, ← expo_apply, h1] at this
      have hef : e = f := Prod.ext hfe.symm this
      rw [hef]
      exact hf
    · rw [expo_apply, sum_no_key m e.1 hk] at h1
      omega

theorem expo_inj (a b : Mono) (ha : MonoOk a) (hb : MonoOk b) (h : expo a = expo b) : a = b := by
  apply sorted_ext indLt indLt_total a b (indSorted a ha) (indSorted b hb)
  intro e
  rw [mem_mono_iff a ha, mem_mono_iff b hb, h]

/-- The polynomial of algebra. -/
noncomputable def toMv (p : List (Mono × ℚ)) : MvPolynomial Ind ℚ :=
  (p.map fun t => MvPolynomial.monomial (expo t.1) t.2).sum

theorem eval_expo (x : Ind → ℚ) (m : Mono) : ((expo m).prod fun n e => x n ^ e) = monoVal x m := by
  induction m with
  | nil => simp [expo, monoVal]
  | cons e m ih =>
    have : expo (e :: m) = Finsupp.single e.1 e.2 + expo m := by simp [expo]
    rw [this, Finsupp.prod_add_index' (by simp) (by intro a b c; exact pow_add _ _ _), ih,
      Finsupp.prod_single_index (by simp), monoVal_cons]

theorem eval_toMv (x : Ind → ℚ) (p : List (Mono × ℚ)) : MvPolynomial.eval x (toMv p) = polyVal x p := by
  induction p with
  | nil => simp [toMv, polyVal]
  | cons t p ih =>
    have : toMv (t :: p) = MvPolynomial.monomial (expo t.1) t.2 + toMv p := by simp [toMv]
    rw [this, map_add, ih, MvPolynomial.eval_monomial, eval_expo, polyVal_cons]

theorem coeff_toMv (p : List (Mono × ℚ)) (d : Ind →₀ ℕ) : (toMv p).coeff d =
    ((p.map fun t => (expo t.1, t.2)).map fun e => open Classical in if e.1 = d then e.2 else 0).sum := by
  classical
  induction p with
  | nil => simp [toMv]
  | cons t p ih =>
    have : toMv (t :: p) = MvPolynomial.monomial (expo t.1) t.2 + toMv p := by simp [toMv]
    rw [this, MvPolynomial.coeff_add, ih, MvPolynomial.coeff_monomial]
    simp only [List.map_cons, List.sum_cons]

theorem expo_nodup (p : List (Mono × ℚ)) (hp : PolyOk p) :
    (keys (p.map fun t => (expo t.1, t.2))).Nodup := by
  unfold keys
  rw [List.map_map, List.nodup_iff_pairwise_ne, List.pairwise_map]
  have hm := hp.monos
  have hs := hp.sorted
  rw [List.pairwise_iff_forall_sublist] at hs ⊢
  intro a b hab h
  have ha := hm a (hab.subset (by simp))
  have hb := hm b (hab.subset (by simp))
  have := expo_inj a.1 b.1 ha hb h
  have hlt := hs hab
  rw [this, monoLt_total.irrefl] at hlt
  exact absurd hlt (by decide)

theorem mem_of_toMv (p q : List (Mono × ℚ)) (hp : PolyOk p) (hq : PolyOk q) (h : toMv p = toMv q)
    (t : Mono × ℚ) (ht : t ∈ p) : t ∈ q := by
  classical
  have h1 : (toMv p).coeff (expo t.1) = t.2 := by
    rw [coeff_toMv]
    have := sum_at_key (p.map fun t => (expo t.1, t.2)) (expo t.1) t.2 (expo_nodup p hp)
      (List.mem_map.2 ⟨t, ht, rfl⟩)
    convert this
  rw [h] at h1
  by_cases hk : expo t.1 ∈ keys (q.map fun t => (expo t.1, t.2))
  · obtain ⟨e, he, hek⟩ := List.mem_map.1 hk
    obtain ⟨u, hu, rfl⟩ := List.mem_map.1 he
    have hut : u.1 = t.1 := expo_inj _ _ (hq.monos u hu) (hp.monos t ht) hek
    have h2 : (toMv q).coeff (expo u.1) = u.2 := by
      rw [coeff_toMv]
      have := sum_at_key (q.map fun t => (expo t.1, t.2)) (expo u.1) u.2 (expo_nodup q hq)
        (List.mem_map.2 ⟨u, hu, rfl⟩)
      convert this
    rw [hut, h1] at h2
    have : u = t := Prod.ext hut h2.symm
    rw [← this]
    exact hu
  · have h2 : (toMv q).coeff (expo t.1) = 0 := by
      rw [coeff_toMv]
      have := sum_no_key (q.map fun t => (expo t.1, t.2)) (expo t.1) hk
      convert this
    rw [h1] at h2
    exact absurd h2 (hp.coeffs t ht)

/-- Normal forms are unique. -/
theorem polyVal_inj (p q : List (Mono × ℚ)) (hp : PolyOk p) (hq : PolyOk q)
    (h : ∀ x, polyVal x p = polyVal x q) : p = q := by
  have hmv : toMv p = toMv q := by
    apply MvPolynomial.funext
    intro x
    rw [eval_toMv, eval_toMv, h]
  exact sorted_ext monoLt monoLt_total p q hp.sorted hq.sorted
    (fun t => ⟨mem_of_toMv p q hp hq hmv t, mem_of_toMv q p hq hp hmv.symm t⟩)

theorem polyEq_iff (p q : Poly) : polyEq p q = true ↔ p.data = q.data := by
  unfold polyEq
  generalize p.data = a
  generalize q.data = b
  induction a generalizing b with
  | nil => cases b <;> simp
  | cons s a ih =>
    cases b with
    | nil => simp
    | cons t b =>
      have := ih b
      by_cases hl : a.length = b.length
      · simp only [hl, ne_eq, not_true_eq_false, if_false] at this
        simp only [List.length_cons, hl, ne_eq, not_true_eq_false, if_false, List.zip_cons_cons,
          List.all_cons, Bool.and_eq_true, decide_eq_true_eq, this, List.cons.injEq]
        constructor
        · rintro ⟨⟨h1, h2⟩, h3⟩
          refine ⟨Prod.ext ?_ h2, h3⟩
          unfold monoEq at h1
          simp only [Bool.and_eq_true, beq_iff_eq] at h1
          exact h1.2
        · rintro ⟨rfl, h3⟩
          exact ⟨⟨by simp [monoEq], rfl⟩, h3⟩
      · have hne : a ≠ b := fun h => hl (by rw [h])
        simp [hl, hne]

/-! ### C154 -/

/-- C154: polynomials in normal form compare equal if and only if they have the same value
everywhere. -/
theorem C154_equal (p q : Poly) (hp : PolyOk p.data) (hq : PolyOk q.data) :
    polyEq p q = true ↔ ∀ x, polyVal x p.data = polyVal x q.data := by
  rw [polyEq_iff]
  exact ⟨fun h x => by rw [h], polyVal_inj _ _ hp hq⟩

/-- C154: a polynomial in normal form is zero if and only if its values are. -/
theorem C154_zero (p : Poly) (hp : PolyOk p.data) : isZero p = true ↔ ∀ x, polyVal x p.data = 0 := by
  unfold isZero
  rw [List.isEmpty_iff]
  constructor
  · intro h x; rw [h]; rfl
  · intro h
    exact polyVal_inj _ [] hp ⟨List.Pairwise.nil, by simp, by simp⟩ (fun x => by rw [h]; rfl)

/-- C154: a polynomial in normal form converts to a number if and only if it is constant, and then
to its value; numbers go there and back. -/
theorem C154_number (p : Poly) (hp : PolyOk p.data) (c : ℚ) :
    (toNumber p = some c ↔ ∀ x, polyVal x p.data = c) ∧ toNumber (ofNumber c) = some c ∧
      ∀ x, polyVal x (ofNumber c).data = c := by
  refine ⟨?_, by simp [toNumber, ofNumber, isConstant], fun x => by simp [ofNumber, polyVal, monoVal]⟩
  have hc : ∀ c : ℚ, c ≠ 0 → PolyOk [([], c)] := fun c h =>
    ⟨List.pairwise_singleton _ _, by
      intro t ht
      rw [List.mem_singleton.1 ht]
      exact ⟨List.Pairwise.nil, by simp⟩, by simpa using h⟩
  constructor
  · intro h x
    unfold toNumber isConstant at h
    rcases hd : p.data with _ | ⟨t, _ | ⟨u, l⟩⟩
    · simp only [hd] at h
      have := Option.some.inj h
      rw [← this]
      rfl
    · simp only [hd] at h
      split_ifs at h with h1
      have h2 := Option.some.inj h
      have h3 : t.1 = [] := List.isEmpty_iff.1 h1
      simp [polyVal, h3, monoVal, h2]
    · simp [hd] at h
  · intro h
    by_cases h0 : c = 0
    · have : p.data = [] := polyVal_inj _ [] hp ⟨List.Pairwise.nil, by simp, by simp⟩
        (fun x => by rw [h, h0]; rfl)
      unfold toNumber
      simp [this, h0]
    · have : p.data = [([], c)] := polyVal_inj _ _ hp (hc c h0)
        (fun x => by rw [h]; simp [polyVal, monoVal])
      unfold toNumber isConstant
      simp [this]

/-- C154: `<` is a strict total order on monomials, and two monomials are equal if and only if
neither is smaller. -/
theorem C154_order (a b c : Mono) :
    monoLt a a = false ∧ (monoLt a b = true → monoLt b c = true → monoLt a c = true) ∧
    (monoEq a b = true ↔ monoLt a b = false ∧ monoLt b a = false) := by
  refine ⟨monoLt_total.irrefl a, monoLt_total.trans a b c, ?_⟩
  have he : monoEq a b = true ↔ a = b := by
    unfold monoEq
    simp only [Bool.and_eq_true, beq_iff_eq]
    exact ⟨fun h => h.2, fun h => ⟨by rw [h], h⟩⟩
  rw [he]
  constructor
  · rintro rfl
    exact ⟨monoLt_total.irrefl _, monoLt_total.irrefl _⟩
  · rintro ⟨h1, h2⟩
    by_contra hne
    rcases monoLt_total.total a b hne with h | h
    · rw [h1] at h; exact absurd h (by decide)
    · rw [h2] at h; exact absurd h (by decide)

theorem degree_from (m : Mono) : ∀ k : ℕ, m.foldl (fun acc e => acc + e.2) k = k + (m.map fun e => e.2).sum := by
  induction m with
  | nil => intro k; simp
  | cons e m ih => intro k; simp [ih, Nat.add_assoc]

/-- C154: the degree of a monomial is the sum of its powers. -/
theorem C154_degree (m : Mono) : degree m = (m.map fun e => e.2).sum := by
  rw [degree, degree_from, Nat.zero_add]

example : degree [(mkInd 'x' 1, 2), (mkInd 'y' 1, 3)] = 5 := by decide

/-- C154: monomials of smaller degree come first. -/
theorem C154_order_degree (a b : Mono) (h : (a.map fun e => e.2).sum < (b.map fun e => e.2).sum) :
    monoLt a b = true := by
  have hd : ∀ (m : Mono) (n : ℕ), m.foldl (fun acc e => acc + e.2) n = n + (m.map fun e => e.2).sum := by
    intro m
    induction m with
    | nil => intro n; simp
    | cons e m ih => intro n; rw [List.foldl_cons, ih, List.map_cons, List.sum_cons]; omega
  unfold monoLt degree
  rw [if_pos (by rw [hd, hd]; omega)]

example : monoLt [(x1, 1)] [(x2, 1)] = true ∧ monoLt [(x2, 1)] [(x1, 1), (x2, 1)] = true ∧
    toNumber linear = none ∧ toNumber (ofNumber 3) = some 3 := by
  decide +kernel

/-! ### What does not hold -/

/-- C154, `<=`: `x1 x3 <= x1 x2`, although `x1 x2 < x1 x3`; hence `>` is wrong as well. -/
theorem C154_le_refuted : ∃ a b : Mono, MonoOk a ∧ MonoOk b ∧ monoLe a b = true ∧ monoLt b a = true :=
  ⟨[(x1, 1), (x3, 1)], [(x1, 1), (x2, 1)], ⟨by decide +kernel, by decide +kernel⟩,
    ⟨by decide +kernel, by decide +kernel⟩, by decide +kernel, by decide +kernel⟩

/-- C154, zero: the number 0 becomes a polynomial with one term, which is neither zero nor equal to
the zero polynomial. -/
theorem C154_zero_refuted : isZero (ofNumber 0) = false ∧ polyEq (ofNumber 0) emptyPoly = false := by
  decide +kernel

/-- C154, fractions: 2/4 and 1/2 are different coefficients. -/
theorem C154_fraction_refuted : mpqEqual (fromRational 2 4) (fromRational 1 2) = false := by
  decide

end RoughPy.GenPoly
