import Verif.GenPoly.Spec
import Mathlib.Tactic.Ring
import Mathlib.Tactic.Linarith
import Mathlib.Data.List.InsertIdx

/-!
# Lemmas about flat maps and the generic polynomials
-/

namespace RoughPy.GenPoly

/-! ### Flat maps -/

variable {K V : Type}

/-- `lt` is a strict total order. -/
structure StrictTotal (lt : K → K → Bool) : Prop where
  irrefl : ∀ a, lt a a = false
  trans : ∀ a b c, lt a b = true → lt b c = true → lt a c = true
  total : ∀ a b, a ≠ b → lt a b = true ∨ lt b a = true

/-- Sorted by key. -/
abbrev Sorted (lt : K → K → Bool) (l : List (K × V)) : Prop := l.Pairwise fun a b => lt a.1 b.1 = true

theorem StrictTotal.asymm {lt : K → K → Bool} (h : StrictTotal lt) {a b : K} (hab : lt a b = true) :
    lt b a = false := by
  rcases hb : lt b a with _ | _
  · rfl
  · exact absurd (h.trans _ _ _ hab hb) (by rw [h.irrefl]; decide)

/-- A sorted list, seen from a key. -/
theorem split_at (lt : K → K → Bool) (h : StrictTotal lt) (k : K) (l : List (K × V))
    (hs : Sorted lt l) :
    ∃ a b, l = a ++ b ∧ (∀ e ∈ a, lt e.1 k = true) ∧ l.findIdx (fun e => !lt e.1 k) = a.length ∧
      ((∃ v b', b = (k, v) :: b' ∧ ∀ e ∈ b', lt k e.1 = true) ∨ ∀ e ∈ b, lt k e.1 = true) := by
  induction l with
  | nil => exact ⟨[], [], rfl, by simp, rfl, Or.inr (by simp)⟩
  | cons e l ih =>
    obtain ⟨he, hl⟩ := List.pairwise_cons.1 hs
    rcases hlt : lt e.1 k with _ | _
    · refine ⟨[], e :: l, rfl, by simp, by simp [List.findIdx_cons, hlt], ?_⟩
      by_cases hk : e.1 = k
      · left
        refine ⟨e.2, l, by rw [← hk], fun x hx => ?_⟩
        rw [← hk]
        exact he x hx
      · right
        have hke : lt k e.1 = true := by
          rcases h.total e.1 k hk with h1 | h1
          · rw [hlt] at h1; exact absurd h1 (by decide)
          · exact h1
        intro x hx
        rcases List.mem_cons.1 hx with rfl | hx
        · exact hke
        · exact h.trans _ _ _ hke (he x hx)
    · obtain ⟨a, b, hab, h1, h2, h3⟩ := ih hl
      refine ⟨e :: a, b, by rw [hab]; rfl, ?_, ?_, h3⟩
      · intro x hx
        rcases List.mem_cons.1 hx with rfl | hx
        · exact hlt
        · exact h1 x hx
      · simp [List.findIdx_cons, hlt, h2]

/-- What `find` and `emplace` do, seen from the key. -/
theorem locate (lt : K → K → Bool) (h : StrictTotal lt) (m : FlatMap K V) (hs : Sorted lt m.data)
    (k : K) :
    (∃ a v b, m.data = a ++ (k, v) :: b ∧ m.find lt k = a.length ∧
      (∀ w, m.emplace lt k w = (m, a.length))) ∨
    (∃ a b, m.data = a ++ b ∧ (∀ e ∈ a, lt e.1 k = true) ∧ (∀ e ∈ b, lt k e.1 = true) ∧
      m.find lt k = m.data.length ∧
      (∀ w, m.emplace lt k w = (m.insertAt a.length (k, w), a.length))) := by
  obtain ⟨a, b, hab, h1, h2, h3⟩ := split_at lt h k m.data hs
  have hlb : m.lowerBound lt k = a.length := h2
  rcases h3 with ⟨v, b', rfl, hb⟩ | hb
  · left
    refine ⟨a, v, b', hab, ?_, ?_⟩
    · unfold FlatMap.find
      rw [hlb, hab]
      simp [h.irrefl]
    · intro w
      unfold FlatMap.emplace
      simp only [hlb, hab]
      simp [h.irrefl]
  · right
    refine ⟨a, b, hab, h1, hb, ?_, ?_⟩
    · unfold FlatMap.find
      rw [hlb]
      cases b with
      | nil => rw [hab]; simp
      | cons e b =>
        have : m.data[a.length]? = some e := by rw [hab]; simp
        simp [this, hb e List.mem_cons_self]
    · intro w
      unfold FlatMap.emplace
      simp only [hlb]
      cases b with
      | nil =>
        have : m.data[a.length]? = none := by rw [hab]; simp
        simp [this]
      | cons e b =>
        have : m.data[a.length]? = some e := by rw [hab]; simp
        simp [this, hb e List.mem_cons_self]

theorem insertAt_data (m : FlatMap K V) (i : ℕ) (e : K × V) :
    (m.insertAt i e).data = m.data.insertIdx i e := by
  unfold FlatMap.insertAt
  split_ifs <;> rfl

theorem insertIdx_split (a b : List (K × V)) (e : K × V) :
    (a ++ b).insertIdx a.length e = a ++ e :: b := by
  induction a with
  | nil => simp
  | cons x a ih => simp [ih]

theorem insertAt_end (m : FlatMap K V) (i : ℕ) (hi : i ≤ m.data.length) (e : K × V) :
    (m.insertAt i e).endPtr ≠ m.endPtr := by
  unfold FlatMap.endPtr FlatMap.ptr
  rw [insertAt_data, List.length_insertIdx_of_le_length hi]
  intro h
  simp at h

theorem sorted_replace (lt : K → K → Bool) (a b : List (K × V)) (k : K) (v w : V)
    (h : Sorted lt (a ++ (k, v) :: b)) : Sorted lt (a ++ (k, w) :: b) := by
  unfold Sorted at *
  rw [List.pairwise_append, List.pairwise_cons] at h ⊢
  refine ⟨h.1, ⟨h.2.1.1, h.2.1.2⟩, fun x hx y hy => ?_⟩
  rcases List.mem_cons.1 hy with rfl | hy
  · exact h.2.2 x hx (k, v) List.mem_cons_self
  · exact h.2.2 x hx y (List.mem_cons_of_mem _ hy)

theorem sorted_erase (lt : K → K → Bool) (a b : List (K × V)) (e : K × V)
    (h : Sorted lt (a ++ e :: b)) : Sorted lt (a ++ b) := by
  refine List.Pairwise.sublist ?_ h
  exact (List.Sublist.refl a).append (List.sublist_cons_self e b)

theorem sorted_insert (lt : K → K → Bool) (a b : List (K × V)) (k : K) (v : V)
    (h : Sorted lt (a ++ b)) (ha : ∀ e ∈ a, lt e.1 k = true) (hb : ∀ e ∈ b, lt k e.1 = true) :
    Sorted lt (a ++ (k, v) :: b) := by
  unfold Sorted at *
  rw [List.pairwise_append] at h
  rw [List.pairwise_append, List.pairwise_cons]
  refine ⟨h.1, ⟨hb, h.2.1⟩, fun x hx y hy => ?_⟩
  rcases List.mem_cons.1 hy with rfl | hy
  · exact ha x hx
  · exact h.2.2 x hx y hy

theorem not_mem_keys (lt : K → K → Bool) (h : StrictTotal lt) (a b : List (K × V)) (k : K)
    (ha : ∀ e ∈ a, lt e.1 k = true) (hb : ∀ e ∈ b, lt k e.1 = true) : k ∉ keys (a ++ b) := by
  intro hk
  obtain ⟨e, he, rfl⟩ := List.mem_map.1 hk
  rcases List.mem_append.1 he with he | he
  · have := ha e he; rw [h.irrefl] at this; exact absurd this (by decide)
  · have := hb e he; rw [h.irrefl] at this; exact absurd this (by decide)

theorem sorted_nodup (lt : K → K → Bool) (h : StrictTotal lt) (l : List (K × V)) (hs : Sorted lt l) :
    (keys l).Nodup := by
  unfold keys
  rw [List.nodup_iff_pairwise_ne, List.pairwise_map]
  refine hs.imp ?_
  intro a b hab he
  rw [he, h.irrefl] at hab
  exact absurd hab (by decide)

/-! ### The orders -/

theorem indLt_total : StrictTotal indLt where
  irrefl := by intro a; simp [indLt]
  trans := by intro a b c; simp only [indLt, decide_eq_true_eq]; exact lt_trans
  total := by intro a b h; simp only [indLt, decide_eq_true_eq]; exact lt_or_gt_of_ne h

theorem pairLt_iff (a b : ℕ × ℕ) : pairLt a b = true ↔ a.1 < b.1 ∨ (a.1 = b.1 ∧ a.2 < b.2) := by
  simp only [pairLt, Bool.or_eq_true, decide_eq_true_eq, Bool.and_eq_true, Bool.not_eq_true',
    decide_eq_false_iff_not]
  constructor
  · rintro (h | ⟨h1, h2⟩)
    · exact Or.inl h
    · rcases Nat.lt_or_ge a.1 b.1 with h | h
      · exact Or.inl h
      · exact Or.inr ⟨le_antisymm (not_lt.1 h1) h, h2⟩
  · rintro (h | ⟨h1, h2⟩)
    · exact Or.inl h
    · exact Or.inr ⟨fun h => absurd (h1 ▸ h : b.1 < b.1) (lt_irrefl _), h2⟩

theorem pairLt_total : StrictTotal pairLt where
  irrefl := by
    intro (a : ℕ × ℕ)
    rcases h : pairLt a a with _ | _
    · rfl
    · rw [pairLt_iff] at h; omega
  trans := by
    intro (a : ℕ × ℕ) (b : ℕ × ℕ) (c : ℕ × ℕ)
    rw [pairLt_iff, pairLt_iff, pairLt_iff]
    omega
  total := by
    intro (a : ℕ × ℕ) (b : ℕ × ℕ) h
    rw [pairLt_iff, pairLt_iff]
    by_cases h1 : a.1 = b.1
    · have : a.2 ≠ b.2 := fun h2 => h (Prod.ext h1 h2)
      omega
    · omega

theorem lex_total : StrictTotal (lexCompare pairLt) where
  irrefl := by
    intro a
    induction a with
    | nil => rfl
    | cons x a ih => simp [lexCompare, pairLt_total.irrefl, ih]
  trans := by
    intro a
    induction a with
    | nil =>
      intro b c hab hbc
      cases c with
      | nil => cases b <;> simp [lexCompare] at hbc
      | cons z c => rfl
    | cons x a ih =>
      intro b c hab hbc
      cases b with
      | nil => simp [lexCompare] at hab
      | cons y b =>
        cases c with
        | nil => simp [lexCompare] at hbc
        | cons z c =>
          simp only [lexCompare] at hab hbc ⊢
          rcases hxy : pairLt x y with _ | _
          · rw [hxy] at hab
            simp only [Bool.false_eq_true, if_false] at hab
            rcases hyx : pairLt y x with _ | _
            · rw [hyx] at hab
              simp only [Bool.false_eq_true, if_false] at hab
              have hEq : x = y := by
                by_contra hne
                rcases pairLt_total.total x y hne with h | h
                · rw [hxy] at h; exact absurd h (by decide)
                · rw [hyx] at h; exact absurd h (by decide)
              subst hEq
              rcases hyz : pairLt x z with _ | _
              · rw [hyz] at hbc
                simp only [Bool.false_eq_true, if_false] at hbc ⊢
                rcases hzy : pairLt z x with _ | _
                · rw [hzy] at hbc
                  simp only [Bool.false_eq_true, if_false] at hbc ⊢
                  exact ih b c hab hbc
                · rw [hzy] at hbc; simp at hbc
              · simp
            · rw [hyx] at hab; simp at hab
          · rcases hyz : pairLt y z with _ | _
            · rw [hyz] at hbc
              simp only [Bool.false_eq_true, if_false] at hbc
              rcases hzy : pairLt z y with _ | _
              · have hEq : y = z := by
                  by_contra hne
                  rcases pairLt_total.total y z hne with h | h
                  · rw [hyz] at h; exact absurd h (by decide)
                  · rw [hzy] at h; exact absurd h (by decide)
                subst hEq
                simp [hxy]
              · rw [hzy] at hbc; simp at hbc
            · simp [pairLt_total.trans _ _ _ hxy hyz]
  total := by
    intro a
    induction a with
    | nil =>
      intro b h
      cases b with
      | nil => exact absurd rfl h
      | cons y b => exact Or.inl rfl
    | cons x a ih =>
      intro b h
      cases b with
      | nil => exact Or.inr rfl
      | cons y b =>
        simp only [lexCompare]
        by_cases hxy : x = y
        · subst hxy
          have hab : a ≠ b := fun hab => h (by rw [hab])
          simp only [pairLt_total.irrefl, Bool.false_eq_true, if_false]
          exact ih b hab
        · rcases pairLt_total.total x y hxy with h1 | h1
          · simp [h1]
          · simp [h1]

theorem monoLt_total : StrictTotal monoLt where
  irrefl := by intro a; simp [monoLt, lex_total.irrefl]
  trans := by
    intro a b c hab hbc
    unfold monoLt at *
    split_ifs at hab hbc ⊢ <;> first | rfl | omega | skip
    exact lex_total.trans _ _ _ hab hbc
  total := by
    intro a b h
    unfold monoLt
    rcases Nat.lt_trichotomy (degree a) (degree b) with h1 | h1 | h1
    · left; simp [h1]
    · have := lex_total.total a b h
      simp only [h1, lt_irrefl, if_false, if_true]
      exact this
    · right; simp [h1]

end RoughPy.GenPoly
