import Verif.Keys.Trees
import Verif.Lite.LieBasis
import Verif.Lie.Count

/-! # The brackets of the rows of a Hall table -/

namespace RoughPy.Keys

open RoughPy.Lie (IsHallTable HasDegree hallTable hallTable_isHall left right)
open RoughPy.Lite (keyAt pairAt Rep HallSet Key)

/-- Row `k` of the table stands for a bracket. -/
inductive TreeAt (b : Lie.Basis) : ℕ → Tree → Prop
  | leaf {l : ℕ} : 1 ≤ l → l ≤ b.width → TreeAt b l (.leaf l)
  | node {k i j : ℕ} {s t : Tree} : 2 ≤ b.deg k → b.data[k]? = some (i, j) → TreeAt b i s → TreeAt b j t →
      TreeAt b k (.node s t)

variable {b : Lie.Basis} {hs : HallSet}

theorem TreeAt.exists (hb : IsHallTable b) : ∀ (k : ℕ), 0 < k → k < b.data.length → ∃ t, TreeAt b k t := by
  intro k
  induction k using Nat.strong_induction_on with
  | _ k ih =>
    intro h0 hk
    have hd := hb.hasDegree_deg hk
    have hp := hb.deg_pos hk h0
    rcases Nat.lt_or_ge (b.deg k) 2 with h2 | h2
    · rw [show b.deg k = 1 by omega] at hd
      obtain ⟨h1, h3⟩ := hb.letter_iff.1 hd
      exact ⟨_, .leaf h1 h3⟩
    · obtain ⟨h1, h3, h4, h5, h6⟩ := hb.row hk h2
      have hj := hb.deg_pos h4 (by omega)
      have hi := hb.deg_pos (k := left b.data k) (by omega) h1
      have hjk : right b.data k < k := by
        by_contra hc
        have := hb.degree_mono hd (hb.hasDegree_deg h4) (by omega)
        omega
      obtain ⟨s, hs⟩ := ih _ (by omega) h1 (by omega)
      obtain ⟨t, ht⟩ := ih _ hjk (by omega) h4
      exact ⟨_, .node h2 (Lie.row_eq hk) hs ht⟩

theorem TreeAt.bounds (hb : IsHallTable b) {k : ℕ} {t : Tree} (h : TreeAt b k t) :
    0 < k ∧ k < b.data.length := by
  cases h with
  | leaf h1 h2 => exact ⟨h1, (hb.letter_iff.2 ⟨h1, h2⟩).lt hb⟩
  | node h1 h2 h3 h4 =>
    refine ⟨?_, (List.getElem?_eq_some_iff.1 h2).1⟩
    rcases Nat.eq_zero_or_pos k with h | h
    · subst h
      have : (keyAt b 0).deg = b.deg 0 := rfl
      rw [Lite.keyAt_zero hb] at this
      dsimp only at this
      omega
    · exact h

theorem TreeAt.degree (hb : IsHallTable b) {k : ℕ} {t : Tree} (h : TreeAt b k t) : t.degree = b.deg k := by
  induction h with
  | leaf h1 h2 => exact (hb.deg_eq (hb.letter_iff.2 ⟨h1, h2⟩)).symm
  | @node k i j s t h1 h2 h3 h4 ih1 ih2 =>
    have hk := (List.getElem?_eq_some_iff.1 h2).1
    have hr := hb.row hk h1
    have he := Lie.row_eq hk
    rw [h2, Option.some.injEq, Prod.mk.injEq] at he
    rw [← he.1, ← he.2] at hr
    show s.degree + t.degree = _
    omega

theorem TreeAt.unique (hb : IsHallTable b) {k : ℕ} {t : Tree} (h : TreeAt b k t) :
    ∀ {t' : Tree}, TreeAt b k t' → t = t' := by
  induction h with
  | leaf h1 h2 =>
    intro t' h'
    cases h' with
    | leaf _ _ => rfl
    | node h3 _ _ _ =>
      rw [hb.deg_eq (hb.letter_iff.2 ⟨h1, h2⟩)] at h3
      omega
  | node h1 h2 h3 h4 ih1 ih2 =>
    intro t' h'
    cases h' with
    | leaf h5 h6 =>
      rw [hb.deg_eq (hb.letter_iff.2 ⟨h5, h6⟩)] at h1
      omega
    | node g1 g2 g3 g4 =>
      rw [h2, Option.some.injEq, Prod.mk.injEq] at g2
      obtain ⟨rfl, rfl⟩ := g2
      rw [ih1 g3, ih2 g4]

theorem lt_irrefl (t : Tree) : ¬ Tree.lt t t := by
  induction t with
  | leaf l => exact Nat.lt_irrefl l
  | node a b iha ihb =>
    rintro (h | ⟨-, h | ⟨-, h⟩⟩)
    · exact Nat.lt_irrefl _ h
    · exact iha h
    · exact ihb h

theorem lt_asymm : ∀ {t u : Tree}, Tree.lt t u → ¬ Tree.lt u t
  | .leaf l, .leaf m, h, h' => by
    have h1 : l < m := h
    have h2 : m < l := h'
    omega
  | .leaf _, .node _ _, _, h' => h'
  | .node _ _, .leaf _, h, _ => h
  | .node a b, .node c d, h, h' => by
    rcases h with h | ⟨h, h2⟩ <;> rcases h' with g | ⟨g, g2⟩
    · omega
    · omega
    · omega
    · rcases h2 with h2 | ⟨rfl, h2⟩ <;> rcases g2 with g2 | ⟨e, g2⟩
      · exact lt_asymm h2 g2
      · subst e; exact lt_irrefl _ h2
      · exact lt_irrefl _ g2
      · exact lt_asymm h2 g2

theorem lt_of_degree {t u : Tree} (h : t.degree < u.degree) : Tree.lt t u := by
  cases t with
  | leaf l =>
    cases u with
    | leaf m => exact absurd h (Nat.lt_irrefl _)
    | node c d => trivial
  | node a b =>
    cases u with
    | leaf m =>
      have : ∀ t : Tree, 0 < t.degree := by
        intro t
        induction t with
        | leaf _ => exact Nat.one_pos
        | node a b ih _ => show 0 < _ + _; omega
      have h1 := this a
      have h2 := this b
      have h' : a.degree + b.degree < 1 := h
      omega
    | node c d => exact Or.inl h

theorem TreeAt.lt_of_lt (hb : IsHallTable b) : ∀ {k k' : ℕ} {t t' : Tree}, TreeAt b k t → TreeAt b k' t' →
    k < k' → Tree.lt t t' := by
  intro k k' t t' h
  induction h generalizing k' t' with
  | @leaf l h1 h2 =>
    intro h' hlt
    cases h' with
    | leaf _ _ => exact hlt
    | node _ _ _ _ => trivial
  | @node k i j s t h1 h2 h3 h4 ih1 ih2 =>
    intro h' hlt
    have hk := (List.getElem?_eq_some_iff.1 h2).1
    have hd := hb.hasDegree_deg hk
    have hd' := hb.hasDegree_deg (h'.bounds hb).2
    have hmono := hb.degree_mono hd hd' hlt.le
    have e1 := (TreeAt.node h1 h2 h3 h4).degree hb
    have e2 := h'.degree hb
    rcases Nat.lt_or_eq_of_le hmono with hl | heq
    · exact lt_of_degree (by omega)
    · cases h' with
      | leaf h5 h6 =>
        rw [hb.deg_eq (hb.letter_iff.2 ⟨h5, h6⟩)] at heq
        omega
      | @node _ i' j' s' t' g1 g2 g3 g4 =>
        refine Or.inr ⟨?_, ?_⟩
        · show s.degree + t.degree = s'.degree + t'.degree
          have e1' : s.degree + t.degree = b.deg k := e1
          have e2' : s'.degree + t'.degree = _ := e2
          omega
        · rw [← heq] at hd'
          rcases hb.sorted _ _ _ _ _ h1 hd hd' hlt h2 g2 with hr | ⟨hr, hr2⟩
          · exact Or.inl (ih1 g3 hr)
          · dsimp only at hr hr2
            subst hr
            exact Or.inr ⟨h3.unique hb g3, ih2 g4 hr2⟩

theorem TreeAt.lt_iff (hb : IsHallTable b) {k k' : ℕ} {t t' : Tree} (h : TreeAt b k t) (h' : TreeAt b k' t') :
    k < k' ↔ Tree.lt t t' := by
  refine ⟨h.lt_of_lt hb h', fun hl => ?_⟩
  rcases Nat.lt_trichotomy k k' with h1 | h1 | h1
  · exact h1
  · subst h1
    rw [h.unique hb h'] at hl
    exact absurd hl (lt_irrefl _)
  · exact absurd hl (lt_asymm (h'.lt_of_lt hb h h1))

theorem TreeAt.inj (hb : IsHallTable b) {k k' : ℕ} {t : Tree} (h : TreeAt b k t) (h' : TreeAt b k' t) :
    k = k' := by
  rcases Nat.lt_trichotomy k k' with h1 | h1 | h1
  · exact absurd ((h.lt_iff hb h').1 h1) (lt_irrefl _)
  · exact h1
  · exact absurd ((h'.lt_iff hb h).1 h1) (lt_irrefl _)

theorem TreeAt.letters (hb : IsHallTable b) {k : ℕ} {t : Tree} (h : TreeAt b k t) :
    ∀ l ∈ t.letters, 1 ≤ l ∧ l ≤ b.width := by
  induction h with
  | leaf h1 h2 =>
    intro l hl
    have : l = _ := List.mem_singleton.1 hl
    subst this
    exact ⟨h1, h2⟩
  | node _ _ _ _ ih1 ih2 =>
    intro l hl
    rcases List.mem_append.1 hl with h | h
    · exact ih1 l h
    · exact ih2 l h

/-- The brackets of the rows are the Hall brackets. -/
theorem treeAt_hall (hb : IsHallTable b) (t : Tree) :
    (∃ k, TreeAt b k t) ↔ HallTree b.width t ∧ t.degree ≤ b.depth := by
  constructor
  · rintro ⟨k, h⟩
    have hdeg : t.degree ≤ b.depth := by
      rw [h.degree hb]
      exact (hb.hasDegree_deg (h.bounds hb).2).1
    refine ⟨?_, hdeg⟩
    clear hdeg
    induction h with
    | leaf h1 h2 => exact .leaf h1 h2
    | @node k i j s t h1 h2 h3 h4 ih1 ih2 =>
      have hk := (List.getElem?_eq_some_iff.1 h2).1
      have hr := hb.row hk h1
      have he := Lie.row_eq hk
      rw [h2, Option.some.injEq, Prod.mk.injEq] at he
      rw [← he.1, ← he.2] at hr
      refine .node ih1 ih2 ((h3.lt_iff hb h4).1 hr.2.1) ?_
      intro c d hcd
      subst hcd
      cases h4 with
      | node g1 g2 g3 g4 =>
        rw [IsHallTable.left_eq g2] at hr
        intro hlt
        have := (h3.lt_iff hb g3).2 hlt
        dsimp only at hr
        omega
  · rintro ⟨h, hd⟩
    induction h with
    | leaf h1 h2 => exact ⟨_, .leaf h1 h2⟩
    | @node s t hs ht hlt hc ih1 ih2 =>
      have hd' : s.degree + t.degree ≤ b.depth := hd
      obtain ⟨i, hi⟩ := ih1 (by omega)
      obtain ⟨j, hj⟩ := ih2 (by omega)
      have hi' := hi.bounds hb
      have hj' := hj.bounds hb
      have hij := (hi.lt_iff hb hj).2 hlt
      have ei := hi.degree hb
      have ej := hj.degree hb
      have pi := hb.deg_pos hi'.2 hi'.1
      have pj := hb.deg_pos hj'.2 hj'.1
      have hleft : (left b.data j, right b.data j).1 ≤ i := by
        show left b.data j ≤ i
        cases hj with
        | leaf h1 h2 =>
          rw [hb.left_letter (hb.letter_iff.2 ⟨h1, h2⟩)]
          omega
        | node g1 g2 g3 g4 =>
          rw [IsHallTable.left_eq g2]
          by_contra hlt'
          exact hc _ _ rfl ((hi.lt_iff hb g3).1 (by dsimp only at hlt'; omega))
      obtain ⟨k, hk1, hk2⟩ := hb.complete i j _ _ _ pi pj (by omega) (hb.hasDegree_deg hi'.2)
        (hb.hasDegree_deg hj'.2) hij (Lie.row_eq hj'.2) hleft
      exact ⟨k, .node (by rw [hb.deg_eq hk1]; omega) hk2 hi hj⟩

/-! ## Numbers of keys -/

theorem toImpl_keyAt (hb : IsHallTable b) (hr : Rep b hs) {k : ℕ} (h0 : 0 < k) (hk : k < b.data.length) :
    toImpl hs k = some (keyAt b k) := by
  have hv := (Lite.validKey_iff hb).2 ⟨k, h0, hk, rfl⟩
  have := (Lite.hallBasis_lawful hb hr).indexToKey (keyAt b k) hv.1 hv.2
  have hi := Lite.keyIndex_keyAt hb h0 hk
  unfold Lite.keyIndex at hi
  rw [hi] at this
  unfold toImpl
  rw [if_neg (by omega)]
  exact this

theorem keyOfIndex_big (hb : IsHallTable b) (hr : Rep b hs) {n : ℕ} (h : b.data.length ≤ n + 1) :
    hs.keyOfIndex n = some ⟨0, 0⟩ := by
  unfold HallSet.keyOfIndex
  have : (hs.sizes.drop 1).findIdx? (fun s => decide (n < s)) = none := by
    rw [List.findIdx?_eq_none_iff]
    intro s hs'
    have hm := List.mem_of_mem_drop hs'
    rw [hr.sizes] at hm
    obtain ⟨d, hd, rfl⟩ := List.mem_map.1 hm
    rw [List.mem_range] at hd
    have := hb.start_mono (c := d + 1) (d := b.depth + 1) (by omega) le_rfl
    rw [hb.start_last] at this
    exact decide_eq_false (by omega)
  rw [this]

theorem toImpl_out (hb : IsHallTable b) (hr : Rep b hs) (hlen : b.data.length ≤ 2 ^ 64) {k : ℕ}
    (h : k = 0 ∨ b.data.length ≤ k) : toImpl hs k = some ⟨0, 0⟩ := by
  unfold toImpl
  apply keyOfIndex_big hb hr
  by_cases h0 : k = 0
  · rw [if_pos h0]; omega
  · rw [if_neg h0]; omega

theorem toImpl_eq (hb : IsHallTable b) (hr : Rep b hs) (hlen : b.data.length ≤ 2 ^ 64) {x i : ℕ}
    (h0 : 0 < i) (hi : i < b.data.length) (h : toImpl hs x = some (keyAt b i)) : x = i := by
  by_cases hx : 0 < x ∧ x < b.data.length
  · rw [toImpl_keyAt hb hr hx.1 hx.2, Option.some.injEq] at h
    exact Lite.keyAt_inj hb hx.2 hi h
  · rw [toImpl_out hb hr hlen (by omega), Option.some.injEq, ← Lite.keyAt_zero hb] at h
    have := Lite.keyAt_inj hb (by omega) hi h
    omega

theorem toImpl_some (hb : IsHallTable b) (hr : Rep b hs) (hlen : b.data.length ≤ 2 ^ 64) (x : ℕ) :
    ∃ i, i < b.data.length ∧ toImpl hs x = some (keyAt b i) := by
  by_cases hx : 0 < x ∧ x < b.data.length
  · exact ⟨x, hx.2, toImpl_keyAt hb hr hx.1 hx.2⟩
  · refine ⟨0, hb.one_le_length, ?_⟩
    rw [toImpl_out hb hr hlen (by omega), Lite.keyAt_zero hb]

theorem fromImpl_keyAt (hb : IsHallTable b) (hr : Rep b hs) {k : ℕ} (h0 : 0 < k) (hk : k < b.data.length) :
    fromImpl hs (keyAt b k) = some k := by
  have hv := (Lite.validKey_iff hb).2 ⟨k, h0, hk, rfl⟩
  have := (Lite.hallBasis_lawful hb hr).startOf _ hv.1 (by have := hv.2; omega)
  have hi := Lite.keyIndex_keyAt hb h0 hk
  unfold Lite.keyIndex at hi
  have h2 : hs.startOf (keyAt b k).deg = some (Lite.lieStart b (keyAt b k).deg) := this
  unfold fromImpl
  rw [h2, Option.map_some]
  congr 1
  omega

theorem size_last (hb : IsHallTable b) (hr : Rep b hs) : hs.sizes.getLast? = some (b.data.length - 1) := by
  rw [List.getLast?_eq_getElem?, Lite.sizes_length hr, Nat.add_sub_cancel, hr.size_get le_rfl, hb.start_last]

theorem fromImpl_root (hb : IsHallTable b) (hr : Rep b hs) : fromImpl hs ⟨0, 0⟩ = some b.data.length := by
  unfold fromImpl HallSet.startOf
  rw [size_last hb hr, Option.map_some]
  have := hb.one_le_length
  congr 1
  dsimp only
  omega

theorem dimension_eq (hb : IsHallTable b) (hr : Rep b hs) :
    dimension hs b.depth = some (b.data.length - 1) := by
  unfold dimension
  rw [Lite.hall_size hr le_rfl, hb.start_last]

theorem hs_parents (hb : IsHallTable b) (hr : Rep b hs) {i : ℕ} {r : ℕ × ℕ}
    (hi : b.data[i]? = some r) : hs.parents (keyAt b i) = some (pairAt b r) := by
  have hil := (List.getElem?_eq_some_iff.1 hi).1
  have hd := hb.hasDegree_iff.1 (hb.hasDegree_deg hil)
  unfold HallSet.parents
  rw [show (keyAt b i).deg = b.deg i from rfl, hr.range_get hd.1]
  simp only [Option.bind_eq_bind, Option.bind_some]
  rw [show (keyAt b i).idx + b.start (b.deg i) = i by
    show i - b.start (b.deg i) + b.start (b.deg i) = i
    omega, hr.data, List.getElem?_map, hi]
  rfl

theorem parents_eq (hb : IsHallTable b) (hr : Rep b hs) {k i j : ℕ} (h0 : 0 < k) (h1 : 0 < i) (h2 : 0 < j)
    (h : b.data[k]? = some (i, j)) : parents hs k = some (i, j) := by
  have hk := (List.getElem?_eq_some_iff.1 h).1
  have hbd := Lite.row_bounds hb h
  unfold parents
  rw [toImpl_keyAt hb hr h0 hk]
  simp only [Option.bind_eq_bind, Option.bind_some]
  rw [hs_parents hb hr h]
  simp only [Option.bind_some, pairAt]
  rw [fromImpl_keyAt hb hr h1 hbd.1, fromImpl_keyAt hb hr h2 hbd.2]
  rfl

/-- The root is its own parent, and its number is one past the last key. -/
theorem parents_out (hb : IsHallTable b) (hr : Rep b hs) (hlen : b.data.length ≤ 2 ^ 64) {k : ℕ}
    (h : k = 0 ∨ b.data.length ≤ k) : parents hs k = some (b.data.length, b.data.length) := by
  unfold parents
  rw [toImpl_out hb hr hlen h]
  simp only [Option.bind_eq_bind, Option.bind_some]
  rw [← Lite.keyAt_zero hb, hs_parents hb hr hb.root]
  simp only [Option.bind_some, pairAt, Lite.keyAt_zero hb]
  rw [fromImpl_root hb hr]
  rfl

/-- What `child` finds. -/
theorem child_eq (hb : IsHallTable b) (hr : Rep b hs) (hlen : b.data.length ≤ 2 ^ 64) (l r : ℕ) :
    ∃ o, child hs l r = some o ∧ ∀ k, o = some k → ∃ i j, b.data[k]? = some (i, j) ∧ 0 < k ∧
      toImpl hs l = some (keyAt b i) ∧ toImpl hs r = some (keyAt b j) := by
  obtain ⟨i, hi, h1⟩ := toImpl_some hb hr hlen l
  obtain ⟨j, hj, h2⟩ := toImpl_some hb hr hlen r
  unfold child
  rw [h1, h2]
  simp only [Option.bind_eq_bind, Option.bind_some]
  by_cases hex : ∃ k s, 0 < k ∧ b.data[k]? = some s ∧ (keyAt b i, keyAt b j) = pairAt b s
  · obtain ⟨k, s, h3, h4, h5⟩ := hex
    have hf := hr.found k s h3 h4
    rw [← h5] at hf
    have hk := (List.getElem?_eq_some_iff.1 h4).1
    refine ⟨some k, ?_, ?_⟩
    · unfold HallSet.find
      rw [hf]
      dsimp only
      rw [fromImpl_keyAt hb hr h3 hk]
      rfl
    · intro k' hk'
      injection hk' with hk'
      subst hk'
      have hbd := Lite.row_bounds hb h4
      unfold pairAt at h5
      rw [Prod.mk.injEq] at h5
      refine ⟨s.1, s.2, h4, h3, ?_, ?_⟩
      · rw [h5.1]
      · rw [h5.2]
  · refine ⟨none, ?_, fun k hk => by cases hk⟩
    unfold HallSet.find
    rw [hr.absent _ fun k s h3 h4 h5 => hex ⟨k, s, h3, h4, h5⟩]

end RoughPy.Keys
