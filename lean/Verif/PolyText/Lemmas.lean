import Verif.PolyText.Spec
import Mathlib.Tactic.IntervalCases

/-! # Lemmas for C157 -/

namespace RoughPy.PolyText

open RoughPy.GenPoly

/-- no digit at the start -/
def NoDigit (r : List Char) : Prop := ∀ c r', r = c :: r' → c.isDigit = false

theorem noDigit_cons {c : Char} {r : List Char} (h : c.isDigit = false) : NoDigit (c :: r) := by
  intro d r' e; cases e; exact h

theorem strip_self (c : Char) (s : List Char) : strip c (c :: s) = some s := by simp [strip]

theorem strip_ne {c : Char} {s : List Char} (h : ∀ s', s ≠ c :: s') : strip c s = none := by
  cases s with
  | nil => rfl
  | cons d s =>
    have : d ≠ c := by rintro rfl; exact h s rfl
    simp [strip, this]

theorem strip_ne' {c d : Char} {s : List Char} (h : d ≠ c) : strip c (d :: s) = none := by simp [strip, h]

theorem take_digits {a r : List Char} (ha : ∀ c ∈ a, c.isDigit = true) (hr : NoDigit r) :
    (a ++ r).takeWhile (·.isDigit) = a ∧ (a ++ r).dropWhile (·.isDigit) = r := by
  induction a with
  | nil =>
    cases r with
    | nil => exact ⟨rfl, rfl⟩
    | cons c r =>
      have := hr c r rfl
      simp [List.takeWhile, List.dropWhile, this]
  | cons c a ih =>
    have h1 := ha c List.mem_cons_self
    obtain ⟨i1, i2⟩ := ih fun d hd => ha d (List.mem_cons_of_mem _ hd)
    simp only [List.cons_append, List.takeWhile_cons, List.dropWhile_cons, h1, if_true, i1, i2, and_self]

theorem dg_digit (n : ℕ) : ∀ c ∈ Nat.toDigits 10 n, c.isDigit = true :=
  fun _ h => Nat.isDigit_of_mem_toDigits (by decide) (by decide) h

theorem dg_head : ∀ n : ℕ, 1 ≤ n → ∃ c cs, Nat.toDigits 10 n = c :: cs ∧ (c != '0') = true := by
  intro n
  induction n using Nat.strong_induction_on with
  | _ n ih =>
    intro hn
    by_cases h : n < 10
    · rw [Nat.toDigits_of_lt_base h]
      refine ⟨_, [], rfl, ?_⟩
      interval_cases n <;> decide
    · rw [Nat.toDigits_of_base_le (by decide) (by omega)]
      obtain ⟨c, cs, e, hc⟩ := ih (n / 10) (by omega) (by omega)
      exact ⟨c, _, by rw [e]; rfl, hc⟩

theorem posNumber_dg {n : ℕ} (hn : 1 ≤ n) {r : List Char} (hr : NoDigit r) :
    posNumber (Nat.toDigits 10 n ++ r) = some (Nat.toDigits 10 n, r) := by
  obtain ⟨c, cs, e, hc⟩ := dg_head n hn
  have hd := dg_digit n
  rw [e] at hd ⊢
  have h1 := hd c List.mem_cons_self
  obtain ⟨i1, i2⟩ := take_digits (a := cs) (fun d hd' => hd d (List.mem_cons_of_mem _ hd')) hr
  simp only [List.cons_append, posNumber, h1, hc, Bool.and_self, if_true, i1, i2]

/-- what the pattern finds for a power -/
def Power.factor (x : Power) : Factor :=
  ⟨x.letter, Nat.toDigits 10 x.index, if x.power = 1 then none else some (Nat.toDigits 10 x.power)⟩

/-- what may follow a power -/
def NoPower (r : List Char) : Prop := NoDigit r ∧ ∀ r', r ≠ '^' :: r'

theorem factor_text {x : Power} (hx : x.Valid) {r : List Char} (hr : NoPower r) :
    PolyText.factor (x.text ++ r) = some (x.factor, r) := by
  unfold Power.text Power.factor
  by_cases hp : x.power = 1
  · simp only [hp, if_true, List.append_nil, List.cons_append]
    simp only [PolyText.factor, hx.letter_alpha, if_true]
    rw [posNumber_dg hx.index_pos hr.1]
    dsimp only
    rw [strip_ne hr.2]
    rfl
  · simp only [hp, if_false, List.append_assoc, List.cons_append]
    simp only [PolyText.factor, hx.letter_alpha, if_true]
    rw [posNumber_dg hx.index_pos (noDigit_cons (by decide))]
    dsimp only
    rw [strip_self, Option.bind_some, posNumber_dg hx.power_pos hr.1]

theorem text_letter (x : Power) (r : List Char) : ∃ t, x.text ++ r = x.letter :: t := by
  exact ⟨_, rfl⟩

theorem alpha_not_digit {c : Char} (h : c.isAlpha = true) : c.isDigit = false ∧ c ≠ '^' ∧ c ≠ ')' := by
  refine ⟨?_, ?_, ?_⟩
  · by_contra hd
    simp only [Bool.not_eq_false] at hd
    simp only [Char.isAlpha, Char.isUpper, Char.isLower, Char.isDigit, Bool.or_eq_true, Bool.and_eq_true,
      decide_eq_true_eq] at h hd
    have h1 := hd.2
    rw [UInt32.le_iff_toNat_le] at h1
    rcases h with ⟨h2, -⟩ | ⟨h2, -⟩
    · rw [ge_iff_le, UInt32.le_iff_toNat_le] at h2
      simp at h1 h2; omega
    · rw [ge_iff_le, UInt32.le_iff_toNat_le] at h2
      simp at h1 h2; omega
  · rintro rfl; revert h; decide
  · rintro rfl; revert h; decide

theorem noPower_alpha {c : Char} (h : c.isAlpha = true) (r : List Char) : NoPower (c :: r) := by
  obtain ⟨h1, h2, -⟩ := alpha_not_digit h
  exact ⟨noDigit_cons h1, fun r' e => h2 (List.cons.inj e).1⟩

theorem noPower_close (r : List Char) : NoPower (')' :: r) :=
  ⟨noDigit_cons (by decide), fun r' e => absurd (List.cons.inj e).1 (by decide)⟩

theorem factors_text : ∀ (xs : List Power), (∀ x ∈ xs, x.Valid) → ∀ (r : List Char) (n : ℕ), xs.length ≤ n →
    factors n (xs.flatMap Power.text ++ ')' :: r) = (xs.map Power.factor, ')' :: r)
  | [], _, r, n, _ => by
    cases n with
    | zero => rfl
    | succ n =>
      have : PolyText.factor (')' :: r) = none := by
        have hf : (')' : Char).isAlpha = false := by decide
        simp [PolyText.factor, hf]
      simp [factors, this]
  | x :: xs, h, r, n, hn => by
    cases n with
    | zero => simp at hn
    | succ n =>
      have hx := h x List.mem_cons_self
      have ih := factors_text xs (fun y hy => h y (List.mem_cons_of_mem _ hy)) r n (by simpa using hn)
      have hr : NoPower (xs.flatMap Power.text ++ ')' :: r) := by
        cases xs with
        | nil => exact noPower_close r
        | cons y ys =>
          have hy := h y (by simp)
          exact noPower_alpha hy.letter_alpha _
      rw [List.flatMap_cons, List.append_assoc, factors, factor_text hx hr]
      simp only [ih, List.map_cons]

theorem flatMap_text_length (xs : List Power) : xs.length ≤ (xs.flatMap Power.text).length := by
  induction xs with
  | nil => simp
  | cons x xs ih =>
    rw [List.flatMap_cons, List.length_append, List.length_cons]
    have : 1 ≤ x.text.length := by simp [Power.text]
    omega

theorem monomial_text {xs : List Power} (h : ∀ x ∈ xs, x.Valid) (hne : xs ≠ []) (r : List Char) :
    monomial ('(' :: (xs.flatMap Power.text ++ ')' :: r)) = some (xs.map Power.factor, r) := by
  unfold monomial
  rw [strip_self, Option.bind_some, factors_text xs h r _ (by
    have := flatMap_text_length xs
    rw [List.length_append]; omega)]
  dsimp only
  rw [if_neg (by simpa using hne), strip_self]
  rfl

/-- what may follow a coefficient: a bracket or a space -/
def AfterNumber (r : List Char) : Prop := ∃ r', r = '(' :: r' ∨ r = ' ' :: r'

theorem AfterNumber.noDigit {r : List Char} (h : AfterNumber r) : NoDigit r := by
  obtain ⟨r', rfl | rfl⟩ := h <;> exact noDigit_cons (by decide)

/-- what the pattern finds for a coefficient -/
def Term.numberOf (t : Term) : Number :=
  .rat (Nat.toDigits 10 t.num.natAbs) (if t.den = 1 then none else some (Nat.toDigits 10 t.den))

theorem number_text {t : Term} (ht : t.Valid) {r : List Char} (hr : AfterNumber r) :
    number (Nat.toDigits 10 t.num.natAbs ++ (if t.den = 1 then [] else '/' :: Nat.toDigits 10 t.den) ++ r) =
      some (t.numberOf, r) := by
  have hn : 1 ≤ t.num.natAbs := by have := ht.num_ne; omega
  have hne : Nat.toDigits 10 t.num.natAbs ≠ [] := Nat.toDigits_ne_nil
  unfold Term.numberOf number
  by_cases hd : t.den = 1
  · simp only [hd, if_true, List.append_nil]
    obtain ⟨h1, h2⟩ := take_digits (dg_digit t.num.natAbs) hr.noDigit
    rw [h1, h2, posNumber_dg hn hr.noDigit, if_neg hne]
    obtain ⟨r', rfl | rfl⟩ := hr
    · rw [strip_ne' (by decide)]
      dsimp only
      rw [strip_ne' (by decide)]
      rfl
    · rw [strip_ne' (by decide)]
      dsimp only
      rw [strip_ne' (by decide)]
      rfl
  · simp only [hd, if_false, List.append_assoc, List.cons_append]
    have hs : NoDigit ('/' :: (Nat.toDigits 10 t.den ++ r)) := noDigit_cons (by decide)
    obtain ⟨h1, h2⟩ := take_digits (dg_digit t.num.natAbs) hs
    rw [h1, h2, posNumber_dg hn hs, if_neg hne, strip_ne' (by decide)]
    dsimp only
    rw [strip_self, Option.bind_some, posNumber_dg ht.den_pos hr.noDigit]

/-- what the pattern finds for a term -/
def Term.matched (t : Term) : Match := ⟨decide (t.num < 0), t.numberOf, t.powers.map Power.factor⟩

theorem unsignedTerm_text {t : Term} (ht : t.Valid) (r : List Char) (neg : Bool) :
    unsignedTerm neg (Nat.toDigits 10 t.num.natAbs ++ (if t.den = 1 then [] else '/' :: Nat.toDigits 10 t.den) ++
      ((if t.powers = [] then [] else '(' :: t.powers.flatMap Power.text ++ [')']) ++ ' ' :: r)) =
      some (⟨neg, t.numberOf, t.powers.map Power.factor⟩, ' ' :: r) := by
  unfold unsignedTerm
  by_cases hp : t.powers = []
  · rw [if_pos hp, hp, List.nil_append, number_text ht ⟨r, Or.inr rfl⟩]
    dsimp only
    rw [show monomial (' ' :: r) = none by unfold monomial; rw [strip_ne' (by decide)]; rfl]
    rfl
  · rw [if_neg hp]
    simp only [List.append_assoc, List.cons_append, List.nil_append]
    rw [← List.append_assoc, number_text ht ⟨_, Or.inl rfl⟩]
    dsimp only
    rw [monomial_text ht.powers hp]

theorem term_text {t : Term} (ht : t.Valid) (plus : Bool) (r : List Char) :
    PolyText.term (t.text plus ++ ' ' :: r) = some (t.matched, ' ' :: r) := by
  have key := unsignedTerm_text ht r
  unfold Term.text Term.matched
  by_cases hneg : t.num < 0
  · rw [if_pos hneg]
    simp only [List.append_assoc, List.cons_append, List.nil_append, hneg, decide_true] at key ⊢
    unfold PolyText.term
    rw [strip_ne' (by decide), strip_self]
    exact key true
  · rw [if_neg hneg]
    simp only [hneg, decide_false]
    cases plus with
    | true =>
      simp only [if_true, List.append_assoc, List.cons_append, List.nil_append] at key ⊢
      unfold PolyText.term
      rw [strip_self]
      exact key false
    | false =>
      have hn : 1 ≤ t.num.natAbs := by have := ht.num_ne; omega
      obtain ⟨c, cs, e, -⟩ := dg_head _ hn
      have hc : c.isDigit = true := dg_digit t.num.natAbs c (by rw [e]; simp)
      simp only [Bool.false_eq_true, if_false, List.append_assoc, List.nil_append] at key ⊢
      rw [← key false, e, List.cons_append]
      unfold PolyText.term
      rw [strip_ne' (by rintro rfl; exact absurd hc (by decide)),
        strip_ne' (by rintro rfl; exact absurd hc (by decide))]

theorem term_skip {c : Char} (s : List Char) (h1 : c.isDigit = false) (h2 : c ≠ '+') (h3 : c ≠ '-') :
    PolyText.term (c :: s) = none := by
  have hu : unsignedTerm false (c :: s) = none := by
    unfold unsignedTerm number
    simp [List.takeWhile, posNumber, h1]
  unfold PolyText.term
  rw [strip_ne' h2, strip_ne' h3]
  exact hu

theorem searchAll_text : ∀ (ts : List (Bool × Term)), (∀ t ∈ ts, t.2.Valid) → ∀ n : ℕ,
    ((ts.flatMap fun t => ' ' :: t.2.text t.1) ++ [' ', '}']).length ≤ n →
    searchAll n ((ts.flatMap fun t => ' ' :: t.2.text t.1) ++ [' ', '}']) = ts.map fun t => t.2.matched
  | [], _, n, hn => by
    simp only [List.flatMap_nil, List.nil_append, List.length_cons, List.length_nil] at hn
    obtain ⟨m, rfl⟩ : ∃ m, n = m + 2 := ⟨n - 2, by omega⟩
    simp only [List.flatMap_nil, List.nil_append, List.map_nil, searchAll]
    rw [term_skip _ (by decide) (by decide) (by decide)]
    dsimp only
    rw [term_skip _ (by decide) (by decide) (by decide)]
    cases m <;> rfl
  | (b, t) :: ts, h, n, hn => by
    have ht : t.Valid := h (b, t) List.mem_cons_self
    have hne : ∃ c s, t.text b = c :: s := by
      obtain ⟨c, cs, e, -⟩ := dg_head t.num.natAbs (by have := ht.num_ne; omega)
      unfold Term.text
      rw [e]
      split_ifs <;> exact ⟨_, _, rfl⟩
    have hrest : ∃ r, (ts.flatMap fun t => ' ' :: t.2.text t.1) ++ [' ', '}'] = ' ' :: r := by
      cases ts with
      | nil => exact ⟨_, rfl⟩
      | cons u us => exact ⟨_, rfl⟩
    simp only [List.flatMap_cons, List.cons_append, List.append_assoc, List.length_cons, List.length_append]
      at hn ⊢
    obtain ⟨m, rfl⟩ : ∃ m, n = m + 2 := ⟨n - 2, by
      obtain ⟨c, s, e⟩ := hne
      rw [e] at hn
      simp at hn; omega⟩
    have ih := searchAll_text ts (fun u hu => h u (List.mem_cons_of_mem _ hu)) m (by
      obtain ⟨c, s, e⟩ := hne
      rw [e] at hn
      simp at hn ⊢; omega)
    rw [searchAll, term_skip _ (by decide) (by decide) (by decide)]
    obtain ⟨r, hr⟩ := hrest
    rw [hr] at ih ⊢
    have hterm := term_text ht b r
    obtain ⟨c, s, e⟩ := hne
    dsimp only
    rw [e, List.cons_append] at hterm ⊢
    rw [searchAll, hterm]
    dsimp only
    rw [ih, List.map_cons]

/-! ### Reading -/

theorem emplace_last {K W : Type} {lt : K → K → Bool} {m : FlatMap K W} {k : K} {v : W}
    (h : ∀ e ∈ m.data, lt e.1 k = true) : ((m.emplace lt k v).1).data = m.data ++ [(k, v)] := by
  have hl : m.lowerBound lt k = m.data.length := by
    unfold FlatMap.lowerBound
    rw [List.findIdx_eq_length]
    intro e he
    simp [h e he]
  unfold FlatMap.emplace
  dsimp only
  rw [hl, List.getElem?_eq_none le_rfl]
  dsimp only
  unfold FlatMap.insertAt
  split_ifs <;> simp [List.insertIdx_length_self]

theorem fromChars_dg {max n : ℕ} (h : n ≤ max) : fromChars max (Nat.toDigits 10 n) = some n := by
  unfold fromChars
  rw [Nat.ofDigitChars_ten_toDigits]
  simp [h]

theorem readFactors_text : ∀ (xs : List Power), (∀ x ∈ xs, x.Valid) → ∀ m : FlatMap Ind ℕ,
    (∀ e ∈ m.data, ∀ x ∈ xs, e.1 < x.stored.1) → xs.Pairwise (fun x y => x.stored.1 < y.stored.1) →
    ∃ m', readFactors (xs.map Power.factor) m = some m' ∧ m'.data = m.data ++ xs.map Power.stored
  | [], _, m, _, _ => ⟨m, rfl, by simp⟩
  | x :: xs, h, m, hm, hp => by
    have hx := h x List.mem_cons_self
    rw [List.pairwise_cons] at hp
    have hdata : ((m.emplace indLt (mkInd x.letter x.index) x.power).1).data = m.data ++ [x.stored] :=
      emplace_last fun e he => by
        have := hm e he x List.mem_cons_self
        simpa [indLt, Power.stored] using this
    obtain ⟨m', e1, e2⟩ := readFactors_text xs (fun y hy => h y (List.mem_cons_of_mem _ hy))
      (m.emplace indLt (mkInd x.letter x.index) x.power).1 (by
        intro e he y hy
        rw [hdata, List.mem_append, List.mem_singleton] at he
        rcases he with he | rfl
        · exact hm e he y (List.mem_cons_of_mem _ hy)
        · exact hp.1 y hy) hp.2
    refine ⟨m', ?_, by rw [e2, hdata]; simp⟩
    rw [List.map_cons, readFactors]
    have h1 : fromChars (2 ^ 64 - 1) x.factor.index = some x.index :=
      fromChars_dg (by have := hx.index_lt; omega)
    have h2 : x.factor.power.elim (some 1) (fromChars (2 ^ 31 - 1)) = some x.power := by
      unfold Power.factor
      dsimp only
      split_ifs with hp1
      · rw [hp1]; rfl
      · exact fromChars_dg (by have := hx.power_lt; omega)
    rw [h1, h2]
    exact e1

theorem readCoeff_text (stod : List Char → Option ℚ) {t : Term} (ht : t.Valid) :
    readCoeff stod (decide (t.num < 0)) t.numberOf = .ok (t.num, t.den) := by
  unfold readCoeff Term.numberOf
  dsimp only
  have h1 : fromChars (2 ^ 63 - 1) (Nat.toDigits 10 t.num.natAbs) = some t.num.natAbs :=
    fromChars_dg (by have := ht.num_lt; omega)
  have h2 : (if t.den = 1 then none else some (Nat.toDigits 10 t.den)).elim (some 1)
      (fromChars (2 ^ 63 - 1)) = some t.den := by
    split_ifs with hd
    · rw [hd]; rfl
    · exact fromChars_dg (by have := ht.den_lt; omega)
  rw [h1, h2]
  dsimp only
  congr 2
  by_cases hn : t.num < 0
  · simp only [hn, decide_true, if_true]; omega
  · simp only [hn, decide_false, Bool.false_eq_true, if_false]; omega

theorem readTerms_text (stod : List Char → Option ℚ) : ∀ (ts : List Term), (∀ t ∈ ts, t.Valid) → (∀ t ∈ ts, t.Ordered) →
    ∀ p : Poly, (∀ e ∈ p.data, ∀ t ∈ ts, monoLt e.1 t.stored.1 = true) →
    ts.Pairwise (fun s t => monoLt s.stored.1 t.stored.1 = true) →
    ∃ p', readTerms stod (ts.map Term.matched) p = .ok p' ∧ p'.data = p.data ++ ts.map Term.stored
  | [], _, _, p, _, _ => ⟨p, rfl, by simp⟩
  | t :: ts, h, ho, p, hm, hp => by
    have ht := h t List.mem_cons_self
    rw [List.pairwise_cons] at hp
    obtain ⟨m, f1, f2⟩ := readFactors_text t.powers ht.powers ⟨0, 1, []⟩ (by simp)
      (ho t List.mem_cons_self)
    have f3 : m.data = t.stored.1 := by rw [f2]; rfl
    have hdata : ((p.emplace monoLt m.data (t.num, t.den)).1).data = p.data ++ [t.stored] := by
      rw [emplace_last fun e he => by rw [f3]; exact hm e he t List.mem_cons_self, f3]
      rfl
    obtain ⟨p', e1, e2⟩ := readTerms_text stod ts (fun y hy => h y (List.mem_cons_of_mem _ hy))
      (fun y hy => ho y (List.mem_cons_of_mem _ hy))
      (p.emplace monoLt m.data (t.num, t.den)).1 (by
        intro e he y hy
        rw [hdata, List.mem_append, List.mem_singleton] at he
        rcases he with he | rfl
        · exact hm e he y (List.mem_cons_of_mem _ hy)
        · exact hp.1 y hy) hp.2
    refine ⟨p', ?_, by rw [e2, hdata]; simp⟩
    rw [List.map_cons, readTerms]
    have hc : readCoeff stod t.matched.negative t.matched.number = .ok (t.num, t.den) :=
      readCoeff_text stod ht
    rw [hc]
    dsimp only
    rw [show t.matched.factors = t.powers.map Power.factor from rfl, f1]
    exact e1

theorem searchAll_whole {ts : List (Bool × Term)} (h : ∀ t ∈ ts, t.2.Valid) :
    searchAll (text ts).length (text ts) = ts.map fun t => t.2.matched := by
  unfold text
  simp only [List.cons_append, List.length_cons]
  rw [searchAll, term_skip _ (by decide) (by decide) (by decide)]
  exact searchAll_text ts h _ le_rfl

theorem parse_text (stod : List Char → Option ℚ) {ts : List (Bool × Term)} (h : ∀ t ∈ ts, t.2.Valid)
    (ho : ∀ t ∈ ts, t.2.Ordered) (hp : ts.Pairwise fun s t => monoLt s.2.stored.1 t.2.stored.1 = true) :
    parse stod (text ts) = .ok (ts.map fun t => t.2.stored) := by
  have hs := searchAll_whole h
  obtain ⟨p', e1, e2⟩ := readTerms_text stod (ts.map (·.2)) (by
      intro t ht
      obtain ⟨u, hu, rfl⟩ := List.mem_map.1 ht
      exact h u hu) (by
      intro t ht
      obtain ⟨u, hu, rfl⟩ := List.mem_map.1 ht
      exact ho u hu) ⟨0, 0, []⟩ (by simp)
    (by rw [List.pairwise_map]; exact hp)
  unfold parse
  rw [hs]
  rw [List.map_map] at e1 e2
  rw [show (ts.map fun t => t.2.matched) = ts.map (Term.matched ∘ Prod.snd) from rfl, e1]
  dsimp only
  rw [e2]
  rfl

end RoughPy.PolyText
