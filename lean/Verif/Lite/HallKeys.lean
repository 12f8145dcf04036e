import Verif.Lite.HallRep
import Verif.Lite.BasisLemmas

set_option linter.unusedSectionVars false

/-! # Keys of Hall sets of one width and any depth -/

namespace RoughPy.Lite

open RoughPy.Lie (IsHallTable HasDegree hallTable hallTable_isHall left right)

/-- the keys of positive degree of the Hall sets of width `w` -/
def HallKey (w : ℕ) (k : Key) : Prop :=
  ∃ m i, 0 < i ∧ i < (hallTable w m).data.length ∧ k = keyAt (hallTable w m) i

/-- `k` has the parents `p` and `q` -/
def ParentsOf (w : ℕ) (k p q : Key) : Prop :=
  ∃ m i r, 0 < i ∧ (hallTable w m).data[i]? = some r ∧ k = keyAt (hallTable w m) i ∧
    (p, q) = pairAt (hallTable w m) r

theorem start_table (w : ℕ) {m m' d : ℕ} (h : m ≤ m') (hd : d ≤ m + 2) :
    (hallTable w m').start d = (hallTable w m).start d := by
  have hl := (hallTable_isHall w m).db_length
  have hp := (Lie.hallState_prefix w h).2
  have h1 : (hallTable w m').db[d]? = (hallTable w m).db[d]? := Lie.prefix_get hp (by
    have : (Lie.hallState w m).2.length = m + 1 + 2 := hl
    omega)
  unfold Lie.Basis.start
  simp only [h1, List.getD_eq_getElem?_getD]

theorem length_table (w : ℕ) {m m' : ℕ} (h : m ≤ m') :
    (hallTable w m).data.length ≤ (hallTable w m').data.length :=
  (Lie.hallState_prefix w h).1.length_le

theorem keyAt_table (w : ℕ) {m m' i : ℕ} (h : m ≤ m') (hi : i < (hallTable w m).data.length) :
    keyAt (hallTable w m') i = keyAt (hallTable w m) i := by
  have hd := (hallTable_isHall w m).hasDegree_deg hi
  rw [keyAt_eq (hallTable_isHall w m') ((Lie.hasDegree_table w h hd.1).2 hd),
    start_table w h (by have : _ ≤ m + 1 := hd.1; omega)]
  rfl

theorem pairAt_table (w : ℕ) {m m' i : ℕ} {r : ℕ × ℕ} (h : m ≤ m')
    (hr : (hallTable w m).data[i]? = some r) :
    pairAt (hallTable w m') r = pairAt (hallTable w m) r := by
  obtain ⟨h1, h2⟩ := row_bounds (hallTable_isHall w m) hr
  unfold pairAt
  rw [keyAt_table w h h1, keyAt_table w h h2]

theorem keyAt_deg {b : Lie.Basis} (hb : IsHallTable b) {i : ℕ} (hi : i < b.data.length) :
    HasDegree b i (keyAt b i).deg := hb.hasDegree_deg hi

theorem HallKey.deg_pos {w : ℕ} {k : Key} (h : HallKey w k) : 0 < k.deg := by
  obtain ⟨m, i, h1, h2, rfl⟩ := h
  exact (hallTable_isHall w m).deg_pos h2 h1

/-- a key is in every table deep enough -/
theorem HallKey.index {w : ℕ} {k : Key} (h : HallKey w k) {m : ℕ} (hm : k.deg ≤ m + 1) :
    ∃ i, 0 < i ∧ i < (hallTable w m).data.length ∧ k = keyAt (hallTable w m) i := by
  obtain ⟨m', i, h1, h2, rfl⟩ := h
  rcases Nat.le_total m m' with hle | hle
  · have hd := keyAt_deg (hallTable_isHall w m') h2
    have hd' := (Lie.hasDegree_table w hle hm).1 hd
    have hi := hd'.lt (hallTable_isHall w m)
    exact ⟨i, h1, hi, keyAt_table w hle hi⟩
  · exact ⟨i, h1, lt_of_lt_of_le h2 (length_table w hle), (keyAt_table w hle h2).symm⟩

theorem hallKey_of_index {w m i : ℕ} (h0 : 0 < i) (hi : i < (hallTable w m).data.length) :
    HallKey w (keyAt (hallTable w m) i) := ⟨m, i, h0, hi, rfl⟩

theorem ParentsOf.hallKey {w : ℕ} {k p q : Key} (h : ParentsOf w k p q) : HallKey w k := by
  obtain ⟨m, i, r, h1, h2, rfl, -⟩ := h
  exact hallKey_of_index h1 (List.getElem?_eq_some_iff.1 h2).1

theorem ParentsOf.parents {w : ℕ} {k p q : Key} (h : ParentsOf w k p q) (hd : 2 ≤ k.deg) :
    HallKey w p ∧ HallKey w q ∧ p.deg + q.deg = k.deg ∧ p < q := by
  obtain ⟨m, i, r, h1, h2, rfl, h3⟩ := h
  have hb := hallTable_isHall w m
  have hi := (List.getElem?_eq_some_iff.1 h2).1
  obtain ⟨i1, j1, p1, q1, c, g1, g2, g3, g4, g5, g6, g7, -⟩ := hb.rows _ i hd (keyAt_deg hb hi)
  rw [h2, Option.some.injEq] at g1
  subst g1
  unfold pairAt at h3
  rw [Prod.mk.injEq] at h3
  obtain ⟨rfl, rfl⟩ := h3
  refine ⟨hallKey_of_index (hb.pos_of_degree g5 (by omega)) (g5.lt hb),
    hallKey_of_index (hb.pos_of_degree g6 (by omega)) (g6.lt hb), ?_,
    keyAt_lt hb (g5.lt hb) (g6.lt hb) g7⟩
  show (keyAt _ i1).deg + (keyAt _ j1).deg = _
  rw [keyAt_eq hb g5, keyAt_eq hb g6]
  exact g4

/-- A Hall set of depth at least `depth`, or at least one. -/
structure HallRep (w depth : ℕ) (hs : HallSet) : Prop where
  rep : ∃ m, Rep (hallTable w m) hs ∧ depth ≤ m + 1

theorem hallRep_new {w depth : ℕ} {hs : HallSet} (h : HallSet.new w depth = some hs) :
    HallRep w depth hs := by
  obtain ⟨hs', h1, h2⟩ := new_rep w depth
  rw [h1, Option.some.injEq] at h
  subst h
  exact ⟨depth - 1, h2, by omega⟩

namespace HallRep
variable {w depth : ℕ} {hs : HallSet} (h : HallRep w depth hs)
include h

theorem rep_parents {b : Lie.Basis} (hb : IsHallTable b) (hr : Rep b hs) {i : ℕ} {r : ℕ × ℕ}
    (hi : b.data[i]? = some r) : hs.parents (keyAt b i) = some (pairAt b r) := by
  have hil := (List.getElem?_eq_some_iff.1 hi).1
  have hd := hb.hasDegree_iff.1 (hb.hasDegree_deg hil)
  unfold HallSet.parents
  rw [show (keyAt b i).deg = b.deg i from rfl, hr.range_get hd.1]
  simp only [Option.bind_eq_bind, Option.bind_some]
  rw [show (keyAt b i).idx + b.start (b.deg i) = i by
    show i - b.start (b.deg i) + b.start (b.deg i) = i
    omega, hr.data, List.getElem?_map, hi]
  rfl

/-- the parents of a key -/
theorem parents_some {k : Key} (hk : HallKey w k) (hd : k.deg ≤ depth) :
    ∃ p q, hs.parents k = some (p, q) ∧ ParentsOf w k p q := by
  obtain ⟨m, hr, hm⟩ := h.rep
  obtain ⟨i, h1, h2, rfl⟩ := hk.index (m := m) (by omega)
  have hb := hallTable_isHall w m
  refine ⟨_, _, h.rep_parents hb hr (Lie.row_eq h2), m, i, _, h1, Lie.row_eq h2, rfl, rfl⟩

theorem parents_of {k p q : Key} (hk : ParentsOf w k p q) (hd : k.deg ≤ depth) :
    hs.parents k = some (p, q) := by
  obtain ⟨m, hr, hm⟩ := h.rep
  obtain ⟨m', i, r, h1, h2, h3, h4⟩ := hk
  obtain ⟨i', g1, g2, g3⟩ := (hallKey_of_index (w := w) (m := m') h1
    (List.getElem?_eq_some_iff.1 h2).1).index (m := m) (by rw [← h3]; omega)
  have hb := hallTable_isHall w m
  have hi := (List.getElem?_eq_some_iff.1 h2).1
  have hii : i = i' ∧ (hallTable w m).data[i]? = some r ∧
      pairAt (hallTable w m) r = pairAt (hallTable w m') r := by
    rcases Nat.le_total m m' with hle | hle
    · have e : i = i' := by
        rw [← keyAt_table w hle g2] at g3
        exact keyAt_inj (hallTable_isHall w m') hi (lt_of_lt_of_le g2 (length_table w hle)) g3
      subst e
      have hr' : (hallTable w m).data[i]? = some r := by rw [← Lie.data_table w hle g2]; exact h2
      exact ⟨rfl, hr', (pairAt_table w hle hr').symm⟩
    · have e : i = i' := by
        rw [← keyAt_table w hle hi] at g3
        exact keyAt_inj hb (lt_of_lt_of_le hi (length_table w hle)) g2 g3
      subst e
      exact ⟨rfl, by rw [Lie.data_table w hle hi]; exact h2, pairAt_table w hle h2⟩
  obtain ⟨rfl, e1, e2⟩ := hii
  rw [h3, g3, h.rep_parents hb hr e1, e2, h4]

/-- A pair of keys is found, or the right key is a pair with left parent above the left key. -/
theorem find_pair {l r : Key} (hl : HallKey w l) (hr : HallKey w r) (hlr : l < r)
    (hd : l.deg + r.deg ≤ depth) :
    (∃ k, hs.find (l, r) = some k ∧ k.deg = l.deg + r.deg ∧ ParentsOf w k l r) ∨
    (hs.find (l, r) = none ∧ ∃ p q, hs.parents r = some (p, q) ∧ ParentsOf w r p q ∧ 2 ≤ r.deg ∧
      l < p) := by
  obtain ⟨m, hrep, hm⟩ := h.rep
  have hb := hallTable_isHall w m
  obtain ⟨a, a1, a2, a3⟩ := hl.index (m := m) (by omega)
  obtain ⟨c, c1, c2, c3⟩ := hr.index (m := m) (by omega)
  subst a3 c3
  have hac := (keyAt_lt_iff hb a2 c2).1 hlr
  have ha := keyAt_deg hb a2
  have hc := keyAt_deg hb c2
  have hp1 := hb.degree_pos ha a1
  have hq1 := hb.degree_pos hc c1
  by_cases hin : left (hallTable w m).data c ≤ a
  · obtain ⟨k, h1, h2⟩ := hb.complete a c _ _ _ hp1 hq1 (le_trans hd hm) ha hc hac (Lie.row_eq c2) hin
    left
    have hk0 := hb.pos_of_degree h1 (by omega)
    refine ⟨keyAt (hallTable w m) k, hrep.found k (a, c) hk0 h2, ?_, m, k, (a, c), hk0, h2, rfl, rfl⟩
    rw [keyAt_eq hb h1]
  · right
    have hq2 : 2 ≤ (keyAt (hallTable w m) c).deg := by
      by_contra hlt
      have h1 : (keyAt (hallTable w m) c).deg = 1 := by omega
      rw [h1] at hc
      have := hb.letter_iff.1 hc
      have hrow := hb.letters c this.1 this.2
      rw [Lie.row_eq c2, Option.some.injEq, Prod.mk.injEq] at hrow
      omega
    refine ⟨hrep.absent _ fun k s hk0 hk heq => ?_, _, _, h.rep_parents hb hrep (Lie.row_eq c2),
      ⟨m, c, _, c1, Lie.row_eq c2, rfl, rfl⟩, hq2, ?_⟩
    · have hkl := (List.getElem?_eq_some_iff.1 hk).1
      obtain ⟨s1, s2⟩ := row_bounds hb hk
      unfold pairAt at heq
      rw [Prod.mk.injEq] at heq
      have e1 := keyAt_inj hb a2 s1 heq.1
      have e2 := keyAt_inj hb c2 s2 heq.2
      have hkd := hb.deg_of_left hkl (by rw [IsHallTable.left_eq hk, ← e1]; exact a1)
      obtain ⟨i, j, p', q', r', g1, g2, g3, g4, g5, g6, g7, g8, g9⟩ := hb.rows _ k hkd
        (hb.hasDegree_deg hkl)
      rw [hk, Option.some.injEq] at g1
      subst g1
      dsimp only at e1 e2
      rw [← e2, Lie.row_eq c2, Option.some.injEq] at g8
      rw [← g8] at g9
      dsimp only at g9
      omega
    · exact keyAt_lt hb a2 (row_bounds hb (Lie.row_eq c2)).1 (by omega)

end HallRep

end RoughPy.Lite
