import Verif.PolyText.Lemmas
import Verif.GenPoly.Lemmas

/-!
# Whatever is read is in normal form
-/

namespace RoughPy.PolyText

open RoughPy.GenPoly

/-- digits as `[1-9]\d*` finds them -/
def Pos (ds : List Char) : Prop := 1 ≤ Nat.ofDigitChars 10 ds 0

theorem posNumber_pos {s a t : List Char} (h : posNumber s = some (a, t)) : Pos a := by
  cases s with
  | nil => cases h
  | cons c s =>
    simp only [posNumber] at h
    split at h
    · rename_i hc
      cases h
      unfold Pos
      rw [Nat.ofDigitChars_cons, Nat.ofDigitChars_eq_ofDigitChars_zero]
      have h1 : 1 ≤ c.toNat - '0'.toNat := by
        simp only [Bool.and_eq_true, Char.isDigit, decide_eq_true_eq, bne_iff_ne, ne_eq] at hc
        have h2 : c.toNat ≠ 48 := by
          intro e
          exact hc.2 (by rw [← Char.ofNat_toNat c, e])
        have h3 : 48 ≤ c.toNat := hc.1.1
        change 1 ≤ c.toNat - 48
        omega
      have h2 : 1 ≤ 10 ^ (s.takeWhile (·.isDigit)).length := Nat.one_le_pow _ _ (by decide)
      have h3 : 1 ≤ 10 * 0 + (c.toNat - '0'.toNat) := by omega
      have h4 := Nat.mul_le_mul h2 h3
      omega
    · cases h

theorem factor_pos {s t : List Char} {f : Factor} (h : PolyText.factor s = some (f, t)) :
    ∀ p ∈ f.power, Pos p := by
  cases s with
  | nil => cases h
  | cons c s =>
    simp only [PolyText.factor] at h
    split at h
    · split at h
      · cases h
      · split at h
        · rename_i hp
          cases h
          intro p hp'
          cases hp'
          obtain ⟨u, _, hu⟩ := Option.bind_eq_some_iff.1 hp
          exact posNumber_pos hu
        · cases h
          intro p hp
          cases hp
    · cases h

theorem factors_pos : ∀ (n : ℕ) (s : List Char), ∀ f ∈ (factors n s).1, ∀ p ∈ f.power, Pos p
  | 0, s, f, hf => by simp [factors] at hf
  | n + 1, s, f, hf => by
    unfold factors at hf
    split at hf
    · simp at hf
    · rename_i h
      rcases List.mem_cons.1 hf with rfl | hf
      · exact factor_pos h
      · exact factors_pos n _ f hf

theorem monomial_pos {s t : List Char} {fs : List Factor} (h : monomial s = some (fs, t)) :
    ∀ f ∈ fs, ∀ p ∈ f.power, Pos p := by
  unfold monomial at h
  obtain ⟨u, _, hu⟩ := Option.bind_eq_some_iff.1 h
  dsimp only at hu
  split at hu
  · cases hu
  · obtain ⟨v, _, hv⟩ := Option.map_eq_some_iff.1 hu
    cases hv
    exact factors_pos _ _

theorem unsignedTerm_pos {b : Bool} {s t : List Char} {m : Match} (h : unsignedTerm b s = some (m, t)) :
    ∀ f ∈ m.factors, ∀ p ∈ f.power, Pos p := by
  unfold unsignedTerm at h
  split at h
  · cases h
  · split at h
    · rename_i hm
      cases h
      exact monomial_pos hm
    · cases h
      intro f hf
      simp at hf

theorem term_pos {s t : List Char} {m : Match} (h : PolyText.term s = some (m, t)) :
    ∀ f ∈ m.factors, ∀ p ∈ f.power, Pos p := by
  unfold PolyText.term at h
  split at h
  · exact unsignedTerm_pos h
  · split at h
    · exact unsignedTerm_pos h
    · exact unsignedTerm_pos h

theorem searchAll_pos : ∀ (n : ℕ) (s : List Char), ∀ m ∈ searchAll n s, ∀ f ∈ m.factors, ∀ p ∈ f.power, Pos p
  | 0, s, m, hm => by simp [searchAll] at hm
  | n + 1, [], m, hm => by simp [searchAll] at hm
  | n + 1, c :: s, m, hm => by
    unfold searchAll at hm
    split at hm
    · rename_i h
      rcases List.mem_cons.1 hm with rfl | hm
      · exact term_pos h
      · exact searchAll_pos n _ m hm
    · exact searchAll_pos n _ m hm

theorem emplace_sorted {K W : Type} (lt : K → K → Bool) (h : StrictTotal lt) (m : FlatMap K W)
    (hs : Sorted lt m.data) (k : K) (v : W) :
    Sorted lt (m.emplace lt k v).1.data ∧ ∀ e ∈ (m.emplace lt k v).1.data, e ∈ m.data ∨ e = (k, v) := by
  rcases locate lt h m hs k with ⟨a, w, b, _, _, he⟩ | ⟨a, b, hd, ha, hb, _, he⟩
  · rw [he v]
    exact ⟨hs, fun e he => Or.inl he⟩
  · rw [he v, insertAt_data, hd, insertIdx_split]
    rw [hd] at hs
    refine ⟨sorted_insert lt a b k v hs ha hb, fun e he => ?_⟩
    simp only [List.mem_append, List.mem_cons] at he ⊢
    tauto

theorem emplace_perm {K W : Type} (lt : K → K → Bool) (h : StrictTotal lt) (m : FlatMap K W)
    (hs : Sorted lt m.data) (k : K) (v : W) (hk : ∀ e ∈ m.data, e.1 ≠ k) :
    (m.emplace lt k v).1.data.Perm (m.data ++ [(k, v)]) := by
  rcases locate lt h m hs k with ⟨a, w, b, hd, _, _⟩ | ⟨a, b, hd, ha, hb, _, he⟩
  · exact absurd rfl (hk (k, w) (by rw [hd]; simp))
  · rw [he v, insertAt_data, hd, insertIdx_split, List.append_assoc]
    exact List.Perm.append_left a (List.perm_append_singleton _ _).symm

theorem readFactor_power {x : Power} (hx : x.Valid) :
    fromChars (2 ^ 64 - 1) x.factor.index = some x.index ∧
    x.factor.power.elim (some 1) (fromChars (2 ^ 31 - 1)) = some x.power := by
  refine ⟨fromChars_dg (by have := hx.index_lt; omega), ?_⟩
  unfold Power.factor
  dsimp only
  split_ifs with hp1
  · rw [hp1]; rfl
  · exact fromChars_dg (by have := hx.power_lt; omega)

theorem readFactors_perm : ∀ (xs : List Power), (∀ x ∈ xs, x.Valid) → ∀ m : FlatMap Ind ℕ,
    Sorted indLt m.data → (∀ e ∈ m.data, ∀ x ∈ xs, e.1 ≠ x.stored.1) →
    xs.Pairwise (fun x y => x.stored.1 ≠ y.stored.1) →
    ∃ m', readFactors (xs.map Power.factor) m = some m' ∧ m'.data.Perm (m.data ++ xs.map Power.stored)
  | [], _, m, _, _, _ => ⟨m, rfl, by simp⟩
  | x :: xs, h, m, hs, hm, hp => by
    rw [List.pairwise_cons] at hp
    have hperm : ((m.emplace indLt (mkInd x.letter x.index) x.power).1).data.Perm (m.data ++ [x.stored]) :=
      emplace_perm indLt indLt_total m hs _ _ fun e he => hm e he x List.mem_cons_self
    obtain ⟨m', e1, e2⟩ := readFactors_perm xs (fun y hy => h y (List.mem_cons_of_mem _ hy))
      (m.emplace indLt (mkInd x.letter x.index) x.power).1
      (emplace_sorted indLt indLt_total m hs _ _).1 (by
        intro e he y hy
        rw [hperm.mem_iff, List.mem_append, List.mem_singleton] at he
        rcases he with he | rfl
        · exact hm e he y (List.mem_cons_of_mem _ hy)
        · exact hp.1 y hy) hp.2
    obtain ⟨h1, h2⟩ := readFactor_power (h x List.mem_cons_self)
    refine ⟨m', ?_, ?_⟩
    · rw [List.map_cons, readFactors, h1, h2]
      exact e1
    · refine e2.trans ?_
      have := hperm.append_right (xs.map Power.stored)
      rw [List.append_assoc] at this
      exact this

theorem readTerms_perm (stod : List Char → Option ℚ) : ∀ (ts : List Term), (∀ t ∈ ts, t.Valid) → ∀ p : Poly,
    Sorted monoLt p.data → (∀ e ∈ p.data, ∀ t ∈ ts, ¬ e.1.Perm (t.powers.map Power.stored)) →
    ts.Pairwise (fun s t => ¬ s.SameMonomial t) →
    ∃ p' q, readTerms stod (ts.map Term.matched) p = .ok p' ∧ p'.data.Perm (p.data ++ q) ∧
      List.Forall₂ Term.StoredAs ts q
  | [], _, p, _, _, _ => ⟨p, [], rfl, by simp, List.Forall₂.nil⟩
  | t :: ts, h, p, hs, hm, hp => by
    have ht := h t List.mem_cons_self
    rw [List.pairwise_cons] at hp
    obtain ⟨m, f1, f2⟩ := readFactors_perm t.powers ht.powers ⟨0, 1, []⟩ List.Pairwise.nil (by simp) ht.distinct
    rw [List.nil_append] at f2
    have hperm := emplace_perm monoLt monoLt_total p hs m.data (t.num, t.den) fun e he hk =>
      hm e he t List.mem_cons_self (hk ▸ f2)
    obtain ⟨p', q, e1, e2, e3⟩ := readTerms_perm stod ts (fun y hy => h y (List.mem_cons_of_mem _ hy))
      (p.emplace monoLt m.data (t.num, t.den)).1 (emplace_sorted monoLt monoLt_total p hs _ _).1 (by
        intro e he y hy
        rw [hperm.mem_iff, List.mem_append, List.mem_singleton] at he
        rcases he with he | rfl
        · exact hm e he y (List.mem_cons_of_mem _ hy)
        · exact fun hc => hp.1 y hy (f2.symm.trans hc)) hp.2
    refine ⟨p', (m.data, (t.num, t.den)) :: q, ?_, ?_, List.Forall₂.cons ⟨f2, rfl⟩ e3⟩
    · rw [List.map_cons, readTerms]
      have hc : readCoeff stod t.matched.negative t.matched.number = .ok (t.num, t.den) :=
        readCoeff_text stod ht
      rw [hc]
      dsimp only
      rw [show t.matched.factors = t.powers.map Power.factor from rfl, f1]
      exact e1
    · refine e2.trans ?_
      have := hperm.append_right q
      rw [List.append_assoc] at this
      exact this

theorem parse_perm (stod : List Char → Option ℚ) {ts : List (Bool × Term)} (h : ∀ t ∈ ts, t.2.Valid)
    (hp : ts.Pairwise fun s t => ¬ s.2.SameMonomial t.2) :
    ∃ p q, parse stod (text ts) = .ok p ∧ p.Perm q ∧ List.Forall₂ Term.StoredAs (ts.map fun t => t.2) q := by
  obtain ⟨p', q, e1, e2, e3⟩ := readTerms_perm stod (ts.map fun t => t.2) (by
      intro t ht
      obtain ⟨u, hu, rfl⟩ := List.mem_map.1 ht
      exact h u hu) ⟨0, 0, []⟩ List.Pairwise.nil (by simp)
    (by rw [List.pairwise_map]; exact hp)
  refine ⟨p'.data, q, ?_, by simpa using e2, e3⟩
  unfold parse
  rw [searchAll_whole h]
  rw [List.map_map] at e1
  rw [show (ts.map fun t => t.2.matched) = ts.map (Term.matched ∘ fun t => t.2) from rfl, e1]

theorem readFactors_ok : ∀ (fs : List Factor), (∀ f ∈ fs, ∀ p ∈ f.power, Pos p) → ∀ m m' : FlatMap Ind ℕ,
    MonoOk m.data → readFactors fs m = some m' → MonoOk m'.data
  | [], _, m, m', hm, h => by cases h; exact hm
  | f :: fs, hf, m, m', hm, h => by
    unfold readFactors at h
    split at h
    · rename_i i p _ hp
      have hs : Sorted indLt m.data := hm.sorted.imp (by intro a b h; simpa [indLt] using h)
      obtain ⟨h1, h2⟩ := emplace_sorted indLt indLt_total m hs (mkInd f.letter i) p
      refine readFactors_ok fs (fun g hg => hf g (List.mem_cons_of_mem _ hg)) _ m' ⟨?_, ?_⟩ h
      · exact h1.imp (by intro a b h; simpa [indLt] using h)
      · intro e he
        rcases h2 e he with he | rfl
        · exact hm.powers e he
        · cases hq : f.power with
          | none => rw [hq] at hp; cases hp; exact Nat.one_pos
          | some q =>
            rw [hq] at hp
            have := hf f List.mem_cons_self q hq
            simp only [Option.elim_some, fromChars] at hp
            split at hp
            · cases hp; exact this
            · cases hp
    · cases h

theorem readTerms_ok (stod : List Char → Option ℚ) : ∀ (ms : List Match),
    (∀ m ∈ ms, ∀ f ∈ m.factors, ∀ p ∈ f.power, Pos p) → ∀ q q' : Poly,
    Sorted monoLt q.data → (∀ t ∈ q.data, MonoOk t.1) → readTerms stod ms q = .ok q' →
    Sorted monoLt q'.data ∧ ∀ t ∈ q'.data, MonoOk t.1
  | [], _, q, q', hs, ho, h => by cases h; exact ⟨hs, ho⟩
  | m :: ms, hm, q, q', hs, ho, h => by
    unfold readTerms at h
    split at h
    · cases h
    · cases h
    · rename_i c _
      split at h
      · cases h
      · rename_i mon hr
        have hmon := readFactors_ok _ (hm m List.mem_cons_self) _ _
          ⟨List.Pairwise.nil, by intro e he; cases he⟩ hr
        obtain ⟨h1, h2⟩ := emplace_sorted monoLt monoLt_total q hs mon.data c
        refine readTerms_ok stod ms (fun x hx => hm x (List.mem_cons_of_mem _ hx)) _ q' h1 ?_ h
        intro t ht
        rcases h2 t ht with ht | rfl
        · exact ho t ht
        · exact hmon

theorem parse_ok {stod : List Char → Option ℚ} {s : List Char} {p : List (Mono × Coeff)}
    (h : parse stod s = .ok p) :
    (p.Pairwise fun t u => monoLt t.1 u.1 = true) ∧ ∀ t ∈ p, MonoOk t.1 := by
  unfold parse at h
  split at h
  · rename_i q hq
    cases h
    exact readTerms_ok stod _ (searchAll_pos _ _) _ q List.Pairwise.nil (by intro e he; cases he) hq
  · cases h
  · cases h

/-! ### Texts without digits -/

theorem number_noDigit {s : List Char} (h : ∀ c ∈ s, c.isDigit = false) : number s = none := by
  cases s with
  | nil => rfl
  | cons c s =>
    have hc := h c List.mem_cons_self
    simp [number, posNumber, hc]

theorem strip_mem {c : Char} {s t : List Char} (h : strip c s = some t) : ∀ d ∈ t, d ∈ s := by
  cases s with
  | nil => cases h
  | cons d s =>
    simp only [strip] at h
    split at h
    · cases h; exact fun d hd => List.mem_cons_of_mem _ hd
    · cases h

theorem unsignedTerm_noDigit {b : Bool} {s : List Char} (h : ∀ c ∈ s, c.isDigit = false) :
    unsignedTerm b s = none := by
  unfold unsignedTerm
  rw [number_noDigit h]

theorem term_noDigit {s : List Char} (h : ∀ c ∈ s, c.isDigit = false) : PolyText.term s = none := by
  unfold PolyText.term
  split
  · rename_i hs
    exact unsignedTerm_noDigit fun c hc => h c (strip_mem hs c hc)
  · split
    · rename_i hs
      exact unsignedTerm_noDigit fun c hc => h c (strip_mem hs c hc)
    · exact unsignedTerm_noDigit h

theorem searchAll_noDigit : ∀ (n : ℕ) (s : List Char), (∀ c ∈ s, c.isDigit = false) → searchAll n s = []
  | 0, _, _ => rfl
  | n + 1, [], _ => rfl
  | n + 1, c :: s, h => by
    unfold searchAll
    rw [term_noDigit h]
    exact searchAll_noDigit n s fun d hd => h d (List.mem_cons_of_mem _ hd)

/-! ### The text that is shown -/

theorem showInd_mkInd {x : Power} (hx : x.Valid) :
    showInd (mkInd x.letter x.index) = x.letter :: Nat.toDigits 10 x.index := by
  have h1 := hx.index_lt
  unfold showInd mkInd
  rw [Nat.mod_eq_of_lt h1]
  have e1 : (x.letter.toNat * 2 ^ 56 + x.index) / 2 ^ 56 = x.letter.toNat := by omega
  have e2 : (x.letter.toNat * 2 ^ 56 + x.index) % 2 ^ 56 = x.index := by omega
  rw [e1, e2, Char.ofNat_toNat]

theorem showFactor_stored {x : Power} (hx : x.Valid) : showFactor x.stored = x.text := by
  have h1 := hx.power_pos
  unfold showFactor Power.stored Power.text
  dsimp only
  rw [if_pos (by omega), showInd_mkInd hx]
  by_cases hp : x.power = 1
  · rw [if_neg (by omega), if_pos hp]
  · rw [if_pos (by omega), if_neg hp]

theorem showMono_stored {t : Term} (ht : t.Valid) (hl : t.powers.length ≤ 1) :
    showMono (t.powers.map Power.stored) = t.powers.flatMap Power.text := by
  have hv := ht.powers
  rcases t with ⟨n, d, ps⟩
  dsimp only at *
  match ps, hl with
  | [], _ => rfl
  | [x], _ =>
    simp [showMono, List.intercalate, showFactor_stored (hv x List.mem_cons_self)]

theorem showTerm_stored {t : Term} (ht : t.Valid) (hl : t.powers.length ≤ 1) :
    showTerm t.stored = ' ' :: t.text false := by
  unfold showTerm Term.stored Term.text showCoeff
  dsimp only
  rw [showMono_stored ht hl]
  simp only [List.map_eq_nil_iff, Bool.false_eq_true, if_false, List.cons_append]

theorem display_stored {ts : List Term} (h : ∀ t ∈ ts, t.Valid) (hl : ∀ t ∈ ts, t.powers.length ≤ 1) :
    display (ts.map Term.stored) = text (ts.map fun t => (false, t)) := by
  unfold display text
  congr 2
  rw [List.flatMap_map, List.flatMap_map]
  induction ts with
  | nil => rfl
  | cons t ts ih =>
    rw [List.flatMap_cons, List.flatMap_cons, showTerm_stored (h t List.mem_cons_self) (hl t List.mem_cons_self),
      ih (fun u hu => h u (List.mem_cons_of_mem _ hu)) (fun u hu => hl u (List.mem_cons_of_mem _ hu))]

end RoughPy.PolyText
