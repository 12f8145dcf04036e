import Verif.Lite.HallModel
import Verif.Lie.History
import Verif.Lie.Independence

set_option linter.unusedSectionVars false

/-!
# The Hall set of libalgebra_lite lists the same Hall set as the tables of `roughpy_compute`

Position `k` of a table belongs to the key `keyAt b k`.
-/

namespace RoughPy.Lite

open RoughPy.Tensor (loop degreesUp loop_nil loop_cons)
open RoughPy.Lie (upTo IsHallTable HasDegree hallTable left right newRows pairs mem_upTo)

theorem Key.lt_iff {a b : Key} : a < b ↔ a.deg < b.deg ∨ (a.deg = b.deg ∧ a.idx < b.idx) := by
  show Key.lex a < Key.lex b ↔ _
  unfold Key.lex
  rw [Prod.Lex.toLex_lt_toLex]

theorem Key.le_iff {a b : Key} : a ≤ b ↔ a.deg < b.deg ∨ (a.deg = b.deg ∧ a.idx ≤ b.idx) := by
  show Key.lex a ≤ Key.lex b ↔ _
  unfold Key.lex
  rw [Prod.Lex.toLex_le_toLex]

theorem Key.ext {a b : Key} (h1 : a.deg = b.deg) (h2 : a.idx = b.idx) : a = b := by
  cases a; cases b; cases h1; cases h2; rfl

/-- The key at a position of a Hall table. -/
def keyAt (b : Lie.Basis) (k : ℕ) : Key := ⟨b.deg k, k - b.start (b.deg k)⟩

/-- A pair of positions as a pair of keys. -/
def pairAt (b : Lie.Basis) (r : ℕ × ℕ) : Key × Key := (keyAt b r.1, keyAt b r.2)

variable {b : Lie.Basis}

theorem keyAt_eq (hb : IsHallTable b) {k d : ℕ} (h : HasDegree b k d) : keyAt b k = ⟨d, k - b.start d⟩ := by
  unfold keyAt
  rw [hb.deg_eq h]

theorem keyAt_zero (hb : IsHallTable b) : keyAt b 0 = ⟨0, 0⟩ := by
  have h : HasDegree b 0 0 := hb.hasDegree_iff.2 ⟨by omega, by rw [hb.start_zero], by rw [hb.start_one]; omega⟩
  rw [keyAt_eq hb h, hb.start_zero]

theorem keyAt_letter (hb : IsHallTable b) {k : ℕ} (h1 : 1 ≤ k) (h2 : k ≤ b.width) : keyAt b k = ⟨1, k - 1⟩ := by
  rw [keyAt_eq hb (hb.letter_iff.2 ⟨h1, h2⟩), hb.start_one]

theorem keyAt_lt (hb : IsHallTable b) {k l : ℕ} (hk : k < b.data.length) (hl : l < b.data.length) (h : k < l) :
    keyAt b k < keyAt b l := by
  have h1 := hb.hasDegree_deg hk
  have h2 := hb.hasDegree_deg hl
  rw [Key.lt_iff]
  have h3 := hb.degree_mono h1 h2 h.le
  rcases Nat.lt_or_eq_of_le h3 with h4 | h4
  · exact Or.inl h4
  · refine Or.inr ⟨h4, ?_⟩
    have h5 := (hb.hasDegree_iff.1 h1).2.1
    show k - b.start (b.deg k) < l - b.start (b.deg l)
    rw [← h4]
    omega

theorem keyAt_lt_iff (hb : IsHallTable b) {k l : ℕ} (hk : k < b.data.length) (hl : l < b.data.length) :
    keyAt b k < keyAt b l ↔ k < l := by
  constructor
  · intro h
    by_contra hle
    rcases Nat.lt_or_eq_of_le (Nat.le_of_not_lt hle) with h1 | h1
    · exact lt_asymm h (keyAt_lt hb hl hk h1)
    · subst h1; exact lt_irrefl _ h
  · exact keyAt_lt hb hk hl

theorem keyAt_le_iff (hb : IsHallTable b) {k l : ℕ} (hk : k < b.data.length) (hl : l < b.data.length) :
    keyAt b k ≤ keyAt b l ↔ k ≤ l := by
  rw [← not_lt, keyAt_lt_iff hb hl hk, not_lt]

theorem keyAt_inj (hb : IsHallTable b) {k l : ℕ} (hk : k < b.data.length) (hl : l < b.data.length)
    (h : keyAt b k = keyAt b l) : k = l := by
  rcases lt_trichotomy k l with h1 | h1 | h1
  · exact absurd h (ne_of_lt (keyAt_lt hb hk hl h1))
  · exact h1
  · exact absurd h (ne_of_gt (keyAt_lt hb hl hk h1))

theorem row_bounds (hb : IsHallTable b) {k : ℕ} {r : ℕ × ℕ} (h : b.data[k]? = some r) :
    r.1 < b.data.length ∧ r.2 < b.data.length := by
  have hl := (List.getElem?_eq_some_iff.1 h).1
  obtain ⟨d, hd⟩ := hb.exists_degree hl
  rcases Nat.lt_or_ge d 2 with h2 | h2
  · rcases Nat.lt_or_ge d 1 with h1 | h1
    · have : d = 0 := by omega
      subst this
      have := hb.hasDegree_iff.1 hd
      rw [hb.start_one] at this
      have : k = 0 := by omega
      subst this
      rw [hb.root, Option.some.injEq] at h
      subst h
      exact ⟨hl, hl⟩
    · have : d = 1 := by omega
      subst this
      have := hb.letter_iff.1 hd
      rw [hb.letters k this.1 this.2, Option.some.injEq] at h
      subst h
      exact ⟨by dsimp only; omega, hl⟩
  · obtain ⟨i, j, p, q, c, h1, -, -, -, h5, h6, -⟩ := hb.rows d k h2 hd
    rw [h1, Option.some.injEq] at h
    subst h
    exact ⟨h5.lt hb, h6.lt hb⟩

theorem pairAt_inj (hb : IsHallTable b) {k l : ℕ} {r s : ℕ × ℕ} (hr : b.data[k]? = some r) (hs : b.data[l]? = some s)
    (h : pairAt b r = pairAt b s) : r = s := by
  obtain ⟨h1, h2⟩ := row_bounds hb hr
  obtain ⟨h3, h4⟩ := row_bounds hb hs
  unfold pairAt at h
  rw [Prod.mk.injEq] at h
  exact Prod.ext (keyAt_inj hb h1 h3 h.1) (keyAt_inj hb h2 h4 h.2)

/-- The Hall set `hs` holds the table `b`. -/
structure Rep (b : Lie.Basis) (hs : HallSet) : Prop where
  current : hs.current = b.depth
  data : hs.data = b.data.map (pairAt b)
  ranges : hs.ranges = (List.range (b.depth + 1)).map fun d => (b.start d, b.start (d + 1))
  sizes : hs.sizes = (List.range (b.depth + 1)).map fun d => b.start (d + 1) - 1
  found : ∀ k r, 0 < k → b.data[k]? = some r → hs.reverse (pairAt b r) = some (keyAt b k)
  absent : ∀ p, (∀ k r, 0 < k → b.data[k]? = some r → p ≠ pairAt b r) → hs.reverse p = none

theorem Rep.range_get {hs : HallSet} (h : Rep b hs) {d : ℕ} (hd : d ≤ b.depth) :
    hs.ranges[d]? = some (b.start d, b.start (d + 1)) := by
  rw [h.ranges, List.getElem?_map, List.getElem?_range (by omega)]
  rfl

theorem Rep.size_get {hs : HallSet} (h : Rep b hs) {d : ℕ} (hd : d ≤ b.depth) :
    hs.sizes[d]? = some (b.start (d + 1) - 1) := by
  rw [h.sizes, List.getElem?_map, List.getElem?_range (by omega)]
  rfl

/-! ## Extending a table does not move keys -/

theorem extend_deg (hb : IsHallTable b) {k : ℕ} (hk : k < b.data.length) :
    HasDegree b.extend k (b.deg k) := by
  have h1 := hb.hasDegree_iff.1 (hb.hasDegree_deg hk)
  rw [hb.extend.hasDegree_iff, hb.extend_start (by omega), hb.extend_start (by omega)]
  exact ⟨Nat.le_succ_of_le h1.1, h1.2⟩

theorem extend_keyAt (hb : IsHallTable b) {k : ℕ} (hk : k < b.data.length) : keyAt b.extend k = keyAt b k := by
  rw [keyAt_eq hb.extend (extend_deg hb hk), hb.extend_start (Nat.le_succ_of_le (hb.hasDegree_deg hk).1)]
  rfl

theorem extend_pairAt (hb : IsHallTable b) {k : ℕ} {r : ℕ × ℕ} (h : b.data[k]? = some r) :
    pairAt b.extend r = pairAt b r := by
  obtain ⟨h1, h2⟩ := row_bounds hb h
  unfold pairAt
  rw [extend_keyAt hb h1, extend_keyAt hb h2]

theorem newRow_bounds (hb : IsHallTable b) {r : ℕ × ℕ} (h : r ∈ newRows b.data b.db (b.depth + 1)) :
    r.1 < b.data.length ∧ r.2 < b.data.length := by
  rw [Lie.mem_newRows] at h
  obtain ⟨l, h1, h2, h3, h4, h5, h6, h7, h8⟩ := h
  have : b.start (b.depth + 1 - l + 1) ≤ b.start (b.depth + 1) := hb.start_mono (by omega) le_rfl
  rw [hb.start_last] at this
  have h9 : r.2 < b.start (b.depth + 1 - l + 1) := h6
  omega

/-! ## The loops -/

/-- New keys for a list of pairs. -/
def pushRows (d : ℕ) (st : GrowState) (l : List (Key × Key)) : GrowState := l.foldl (fun st p => st.push d p) st

theorem pushRows_append (d : ℕ) (st : GrowState) (l l' : List (Key × Key)) :
    pushRows d st (l ++ l') = pushRows d (pushRows d st l) l' := List.foldl_append ..

theorem pushRows_data (d : ℕ) (st : GrowState) (l : List (Key × Key)) : (pushRows d st l).data = st.data ++ l := by
  induction l generalizing st with
  | nil => simp [pushRows]
  | cons p l ih =>
    show (pushRows d (st.push d p) l).data = _
    rw [ih]
    simp [GrowState.push]

theorem loop_push {ι : Type} (d : ℕ) (R : List (Key × Key)) (l : List ι) (body : GrowState → ι → Option GrowState)
    (new : ι → List (Key × Key))
    (h : ∀ st, R <+: st.data → ∀ x ∈ l, body st x = some (pushRows d st (new x))) :
    ∀ st, R <+: st.data → loop l st body = some (pushRows d st (l.flatMap new)) := by
  induction l with
  | nil => intro st _; rfl
  | cons x l ih =>
    intro st hst
    rw [loop_cons, h st hst x (by simp), Option.bind_some, List.flatMap_cons, pushRows_append]
    refine ih (fun st hst y hy => h st hst y (by simp [hy])) _ ?_
    rw [pushRows_data]
    exact hst.trans (List.prefix_append ..)

theorem insertNew_same {m : Key × Key → Option Key} {p : Key × Key} {k : Key} (h : m p = none) :
    insertNew m p k = Function.update m p (some k) := by
  unfold insertNew
  rw [h]

theorem insertNew_other {m : Key × Key → Option Key} {p q : Key × Key} {k : Key} (h : q ≠ p) : insertNew m p k q = m q := by
  unfold insertNew
  cases m p with
  | none => exact Function.update_of_ne h _ _
  | some _ => rfl

theorem pushRows_reverse_other (d : ℕ) (st : GrowState) (l : List (Key × Key)) {p : Key × Key} (hp : p ∉ l) :
    (pushRows d st l).reverse p = st.reverse p := by
  induction l generalizing st with
  | nil => rfl
  | cons q l ih =>
    rw [List.mem_cons, not_or] at hp
    show (pushRows d (st.push d q) l).reverse p = _
    rw [ih _ hp.2]
    exact insertNew_other hp.1

theorem pushRows_reverse (d : ℕ) (st : GrowState) (l : List (Key × Key)) (hl : l.Nodup)
    (hn : ∀ p ∈ l, st.reverse p = none) {i : ℕ} {p : Key × Key} (hp : l[i]? = some p) :
    (pushRows d st l).reverse p = some ⟨d, st.next + i⟩ := by
  induction l generalizing st i with
  | nil => simp at hp
  | cons q l ih =>
    obtain ⟨h1, h2⟩ := List.nodup_cons.1 hl
    cases i with
    | zero =>
      rw [List.getElem?_cons_zero, Option.some.injEq] at hp
      subst hp
      show (pushRows d (st.push d q) l).reverse q = _
      rw [pushRows_reverse_other d _ l h1]
      show insertNew st.reverse q ⟨d, st.next⟩ q = _
      rw [insertNew_same (hn q (by simp)), Function.update_self, Nat.add_zero]
    | succ i =>
      rw [List.getElem?_cons_succ] at hp
      show (pushRows d (st.push d q) l).reverse p = _
      have := ih (st.push d q) h2 (fun p' hp' => by
        have hne : p' ≠ q := fun h => h1 (h ▸ hp')
        exact (insertNew_other hne).trans (hn p' (by simp [hp']))) hp
      rw [this]
      show some (⟨d, st.next + 1 + i⟩ : Key) = _
      rw [show st.next + 1 + i = st.next + (i + 1) by omega]

/-- The loops over `e`, `i`, `j` produce the new rows of the table. -/
theorem growLoops (hb : IsHallTable b) {hs : HallSet} (h : Rep b hs) (st : GrowState) (hst : hs.data <+: st.data) :
    loop (degreesUp 1 ((b.depth + 1) / 2)) st (fun (st : GrowState) e => do
      let ir ← hs.ranges[e]?
      let jr ← hs.ranges[b.depth + 1 - e]?
      loop (upTo ir.1 ir.2) st fun st i =>
        loop (upTo (max jr.1 (i + 1)) jr.2) st fun st j => do
          let row ← st.data[j]?
          if row.1 ≤ (⟨e, i - ir.1⟩ : Key) then
            some (st.push (b.depth + 1) (⟨e, i - ir.1⟩, ⟨b.depth + 1 - e, j - jr.1⟩))
          else some st) =
    some (pushRows (b.depth + 1) st ((newRows b.data b.db (b.depth + 1)).map (pairAt b))) := by
  have hlist : (newRows b.data b.db (b.depth + 1)).map (pairAt b) =
      (degreesUp 1 ((b.depth + 1) / 2)).flatMap fun e =>
        (pairs b.data (b.start e) (b.start (e + 1)) (b.start (b.depth + 1 - e)) (b.start (b.depth + 1 - e + 1))).map (pairAt b) := by
    unfold newRows
    rw [List.map_flatMap]
    rfl
  rw [hlist]
  refine loop_push (b.depth + 1) hs.data _ _ _ (fun st hst e he => ?_) st hst
  have he' : 1 ≤ e ∧ e ≤ (b.depth + 1) / 2 := by
    unfold degreesUp at he
    rw [List.mem_map] at he
    obtain ⟨i, hi, rfl⟩ := he
    rw [List.mem_range] at hi
    omega
  rw [h.range_get (by omega), h.range_get (by omega)]
  simp only [Option.bind_eq_bind, Option.bind_some]
  unfold pairs
  rw [List.map_flatMap]
  have hend : b.start (b.depth + 1 - e + 1) ≤ b.data.length := by
    rw [← hb.start_last]; exact hb.start_mono (by omega) le_rfl
  have hend' : b.start (e + 1) ≤ b.data.length := by
    rw [← hb.start_last]; exact hb.start_mono (by omega) le_rfl
  refine loop_push (b.depth + 1) hs.data _ _ _ (fun st hst i hi => ?_) st hst
  rw [mem_upTo] at hi
  rw [List.map_flatMap]
  have hmax : max (b.start (b.depth + 1 - e)) (i + 1) =
      if b.start (b.depth + 1 - e) < i + 1 then i + 1 else b.start (b.depth + 1 - e) := by
    split_ifs with h1 <;> omega
  rw [hmax]
  refine loop_push (b.depth + 1) hs.data _ _ _ (fun st hst j hj => ?_) st hst
  rw [mem_upTo] at hj
  have hjl : b.start (b.depth + 1 - e) ≤ j := by
    have := hj.1
    split_ifs at this <;> omega
  have hjlt : j < b.data.length := by omega
  have hilt : i < b.data.length := by omega
  have hrow : st.data[j]? = some (pairAt b (left b.data j, right b.data j)) := by
    rw [Lie.prefix_get hst (by rw [h.data, List.length_map]; exact hjlt), h.data, List.getElem?_map, Lie.row_eq hjlt]
    rfl
  rw [hrow]
  simp only [Option.bind_some]
  have hik : (⟨e, i - b.start e⟩ : Key) = keyAt b i :=
    (keyAt_eq hb (hb.hasDegree_iff.2 ⟨by omega, hi.1, hi.2⟩)).symm
  have hjk : (⟨b.depth + 1 - e, j - b.start (b.depth + 1 - e)⟩ : Key) = keyAt b j :=
    (keyAt_eq hb (hb.hasDegree_iff.2 ⟨by omega, hjl, hj.2⟩)).symm
  rw [hik, hjk]
  have hcond : (pairAt b (left b.data j, right b.data j)).1 ≤ keyAt b i ↔ left b.data j ≤ i :=
    keyAt_le_iff hb (row_bounds hb (Lie.row_eq hjlt)).1 hilt
  by_cases hc : left b.data j ≤ i
  · rw [if_pos (hcond.2 hc), if_pos hc]
    rfl
  · rw [if_neg (fun hh => hc (hcond.1 hh)), if_neg hc]
    rfl

theorem map_pairAt_extend (hb : IsHallTable b) : b.extend.data.map (pairAt b.extend) =
    b.data.map (pairAt b) ++ (newRows b.data b.db (b.depth + 1)).map (pairAt b) := by
  show (b.data ++ newRows b.data b.db (b.depth + 1)).map _ = _
  rw [List.map_append]
  congr 1
  · refine List.map_congr_left fun r hr => ?_
    obtain ⟨k, hk⟩ := List.mem_iff_getElem?.1 hr
    exact extend_pairAt hb hk
  · refine List.map_congr_left fun r hr => ?_
    obtain ⟨h1, h2⟩ := newRow_bounds hb hr
    unfold pairAt
    rw [extend_keyAt hb h1, extend_keyAt hb h2]

/-- One more degree. -/
theorem growDegree_rep (hb : IsHallTable b) {hs : HallSet} (h : Rep b hs) :
    ∃ hs', hs.growDegree (b.depth + 1) = some hs' ∧ Rep b.extend hs' := by
  have hloop := growLoops hb h ⟨hs.data, hs.reverse, 0⟩ List.prefix_rfl
  set st := pushRows (b.depth + 1) ⟨hs.data, hs.reverse, 0⟩ ((newRows b.data b.db (b.depth + 1)).map (pairAt b)) with hst
  have hbe := hb.extend
  have hdata : st.data = b.extend.data.map (pairAt b.extend) := by
    rw [hst, pushRows_data, map_pairAt_extend hb]
    show hs.data ++ _ = _
    rw [h.data]
  have hlen : st.data.length = b.extend.data.length := by rw [hdata, List.length_map]
  refine ⟨⟨hs.current + 1, st.data, st.reverse, hs.ranges ++ [(b.start (b.depth + 1), st.data.length)],
    hs.sizes ++ [st.data.length - 1]⟩, ?_, ?_⟩
  · unfold HallSet.growDegree
    rw [hloop]
    simp only [Option.bind_eq_bind, Option.bind_some]
    rw [h.current, h.range_get le_rfl]
    rfl
  · -- a new row is not among the old ones
    have hnew : ∀ i p, ((newRows b.data b.db (b.depth + 1)).map (pairAt b))[i]? = some p →
        b.extend.data[b.data.length + i]? = ((newRows b.data b.db (b.depth + 1))[i]?) := by
      intro i p _
      show (b.data ++ newRows b.data b.db (b.depth + 1))[b.data.length + i]? = _
      rw [List.getElem?_append_right (by omega), Nat.add_sub_cancel_left]
    have hsorted : (newRows b.data b.db (b.depth + 1)).Nodup :=
      (Lie.newRows_sorted hb.db_sorted (by rw [hb.db_length]; omega)).imp fun {a c} hac heq => by
        subst heq; exact Lie.wordLess_irrefl a hac
    have hpinj : ∀ r ∈ newRows b.data b.db (b.depth + 1), ∀ s, s.1 < b.data.length → s.2 < b.data.length →
        pairAt b r = pairAt b s → r = s := by
      intro r hr s h1 h2 heq
      obtain ⟨h3, h4⟩ := newRow_bounds hb hr
      unfold pairAt at heq
      rw [Prod.mk.injEq] at heq
      exact Prod.ext (keyAt_inj hb h3 h1 heq.1) (keyAt_inj hb h4 h2 heq.2)
    have hnodup : ((newRows b.data b.db (b.depth + 1)).map (pairAt b)).Nodup := by
      refine List.Nodup.map_on (fun r hr s hs heq => ?_) hsorted
      obtain ⟨h1, h2⟩ := newRow_bounds hb hs
      exact hpinj r hr s h1 h2 heq
    have hdeg : ∀ k, b.data.length ≤ k → k < b.extend.data.length → HasDegree b.extend k (b.depth + 1) := by
      intro k h1 h2
      rw [hbe.hasDegree_iff, hb.extend_start le_rfl, hb.start_last, hb.extend_start_last]
      exact ⟨le_rfl, h1, h2⟩
    have hfresh : ∀ (k : ℕ) (r : ℕ × ℕ), b.data[k]? = some r → r ∉ newRows b.data b.db (b.depth + 1) := by
      intro k r hk hr
      obtain ⟨i, hi⟩ := List.mem_iff_getElem?.1 hr
      have hk' : b.extend.data[k]? = some r := by
        show (b.data ++ _)[k]? = _
        rw [List.getElem?_append_left (List.getElem?_eq_some_iff.1 hk).1]
        exact hk
      have hi' : b.extend.data[b.data.length + i]? = some r := by
        rw [hnew i (pairAt b r) (by rw [List.getElem?_map, hi]; rfl), hi]
      have hkl := (List.getElem?_eq_some_iff.1 hk).1
      have hd1 := hdeg _ (Nat.le_add_right _ i) (List.getElem?_eq_some_iff.1 hi').1
      -- degrees of the parents determine the degree of the row
      obtain ⟨i1, j1, p, q, c, e1, e2, e3, e4, e5, e6, e7, e8, e9⟩ := hbe.rows _ _ (by have := hb.depth_pos; omega) hd1
      rw [hi', Option.some.injEq] at e1
      have h0 : 0 < left b.data k := by
        rw [IsHallTable.left_eq hk]
        have := hbe.pos_of_degree e5 (by omega)
        rw [e1]; exact this
      have hd2 := hb.deg_of_left hkl h0
      have hd3 := hb.hasDegree_deg hkl
      obtain ⟨i2, j2, p', q', c', f1, f2, f3, f4, f5, f6, -⟩ := hb.rows _ _ hd2 hd3
      rw [hk, Option.some.injEq] at f1
      rw [e1, Prod.mk.injEq] at f1
      obtain ⟨f11, f12⟩ := f1
      subst f11 f12
      have g1 := hbe.degree_unique e5 (by
        have := extend_deg hb (f5.lt hb); rw [hb.deg_eq f5] at this; exact this)
      have g2 := hbe.degree_unique e6 (by
        have := extend_deg hb (f6.lt hb); rw [hb.deg_eq f6] at this; exact this)
      have := hd3.1
      omega
    have hnone : ∀ p ∈ (newRows b.data b.db (b.depth + 1)).map (pairAt b), hs.reverse p = none := by
      intro p hp
      obtain ⟨r, hr, rfl⟩ := List.mem_map.1 hp
      refine h.absent _ fun k s _ hk heq => ?_
      obtain ⟨h1, h2⟩ := row_bounds hb hk
      have := hpinj r hr s h1 h2 heq
      exact hfresh k s hk (this ▸ hr)
    constructor
    · show hs.current + 1 = b.depth + 1
      rw [h.current]
    · exact hdata
    · show hs.ranges ++ _ = (List.range (b.depth + 1 + 1)).map _
      rw [List.range_succ, List.map_append, h.ranges]
      congr 1
      · refine List.map_congr_left fun d hd => ?_
        rw [List.mem_range] at hd
        rw [hb.extend_start (by omega), hb.extend_start (by omega)]
      · rw [List.map_singleton, hb.extend_start le_rfl, hlen, hb.extend_start_last]
    · show hs.sizes ++ _ = (List.range (b.depth + 1 + 1)).map _
      rw [List.range_succ, List.map_append, h.sizes]
      congr 1
      · refine List.map_congr_left fun d hd => ?_
        rw [List.mem_range] at hd
        rw [hb.extend_start (by omega)]
      · rw [List.map_singleton, hlen, hb.extend_start_last]
    · intro k r hk hr
      rcases Nat.lt_or_ge k b.data.length with hkl | hkl
      · have hr' : b.data[k]? = some r := by
          have : (b.data ++ newRows b.data b.db (b.depth + 1))[k]? = some r := hr
          rwa [List.getElem?_append_left hkl] at this
        rw [extend_pairAt hb hr', extend_keyAt hb hkl]
        show st.reverse _ = _
        rw [hst, pushRows_reverse_other]
        · exact h.found k r hk hr'
        · intro hm
          obtain ⟨s, hs1, hs2⟩ := List.mem_map.1 hm
          obtain ⟨h1, h2⟩ := row_bounds hb hr'
          have := hpinj s hs1 r h1 h2 hs2
          exact hfresh k r hr' (this ▸ hs1)
      · obtain ⟨i, rfl⟩ : ∃ i, k = b.data.length + i := ⟨k - b.data.length, by omega⟩
        have hr' : (newRows b.data b.db (b.depth + 1))[i]? = some r := by
          have : (b.data ++ newRows b.data b.db (b.depth + 1))[b.data.length + i]? = some r := hr
          rwa [List.getElem?_append_right (by omega), Nat.add_sub_cancel_left] at this
        have hr2 : ((newRows b.data b.db (b.depth + 1)).map (pairAt b))[i]? = some (pairAt b r) := by
          rw [List.getElem?_map, hr']; rfl
        have hmem : r ∈ newRows b.data b.db (b.depth + 1) := List.mem_iff_getElem?.2 ⟨i, hr'⟩
        obtain ⟨h1, h2⟩ := newRow_bounds hb hmem
        have hpe : pairAt b.extend r = pairAt b r := by
          unfold pairAt
          rw [extend_keyAt hb h1, extend_keyAt hb h2]
        rw [hpe]
        show st.reverse _ = _
        rw [hst, pushRows_reverse _ _ _ hnodup hnone hr2,
          keyAt_eq hbe (hdeg _ (by omega) (List.getElem?_eq_some_iff.1 hr).1), hb.extend_start le_rfl, hb.start_last]
        show some (⟨b.depth + 1, 0 + i⟩ : Key) = some ⟨b.depth + 1, b.data.length + i - b.data.length⟩
        congr 2
        omega
    · intro p hp
      show st.reverse p = none
      rw [hst, pushRows_reverse_other]
      · refine h.absent p fun k r hk hr heq => ?_
        refine hp k r hk ?_ (by rw [extend_pairAt hb hr]; exact heq)
        show (b.data ++ _)[k]? = _
        rw [List.getElem?_append_left (List.getElem?_eq_some_iff.1 hr).1]
        exact hr
      · intro hm
        obtain ⟨i, hi⟩ := List.mem_iff_getElem?.1 hm
        rw [List.getElem?_map] at hi
        obtain ⟨r, hr, rfl⟩ := Option.map_eq_some_iff.1 hi
        obtain ⟨h1, h2⟩ := newRow_bounds hb (List.mem_iff_getElem?.2 ⟨i, hr⟩)
        have hpe : pairAt b.extend r = pairAt b r := by
          unfold pairAt
          rw [extend_keyAt hb h1, extend_keyAt hb h2]
        refine hp (b.data.length + i) r (by have := hb.one_le_length; omega) ?_ hpe.symm
        rw [hnew i (pairAt b r) (by rw [List.getElem?_map, hr]; rfl), hr]

/-! ## The letters -/

theorem letters_reverse (w : ℕ) (p : Key × Key) : (HallSet.letters w).reverse p =
    if p.1 = ⟨0, 0⟩ ∧ p.2.deg = 1 ∧ p.2.idx < w then some p.2 else none := by
  have key : ∀ n, ((degreesUp 1 n).foldl (fun m l => insertNew m (⟨0, 0⟩, ⟨1, l - 1⟩) ⟨1, l - 1⟩)
      (fun _ => none : Key × Key → Option Key)) p = if p.1 = ⟨0, 0⟩ ∧ p.2.deg = 1 ∧ p.2.idx < n then some p.2 else none := by
    intro n
    induction n with
    | zero => rw [if_neg (by omega)]; rfl
    | succ n ih =>
      rw [Lie.degreesUp_succ (by omega), List.foldl_append, List.foldl_cons, List.foldl_nil]
      by_cases hp : p = (⟨0, 0⟩, ⟨1, n + 1 - 1⟩)
      · have hnone : ((degreesUp 1 n).foldl (fun m l => insertNew m (⟨0, 0⟩, ⟨1, l - 1⟩) ⟨1, l - 1⟩)
            (fun _ => none : Key × Key → Option Key)) (⟨0, 0⟩, ⟨1, n + 1 - 1⟩) = none := by
          rw [← hp, ih, if_neg]
          rw [hp]
          dsimp only
          omega
        rw [insertNew_same hnone, hp, Function.update_self, if_pos]
        exact ⟨rfl, rfl, by dsimp only; omega⟩
      · rw [insertNew_other hp, ih]
        refine if_congr ⟨fun h => ⟨h.1, h.2.1, by omega⟩, fun h => ⟨h.1, h.2.1, ?_⟩⟩ rfl rfl
        by_contra hlt
        refine hp (Prod.ext h.1 (Key.ext h.2.1 ?_))
        dsimp only
        omega
  exact key w

theorem letters_rep (w : ℕ) : Rep (hallTable w 0) (HallSet.letters w) := by
  have hb := Lie.hallTable_isHall w 0
  have hlen : (hallTable w 0).data.length = 1 + w := by
    show ((0, 0) :: (degreesUp 1 w).map fun l => (0, l)).length = _
    simp [degreesUp]; omega
  have hrow : ∀ k, 0 < k → k < (hallTable w 0).data.length → (hallTable w 0).data[k]? = some (0, k) := by
    intro k h1 h2
    exact hb.letters k h1 (by rw [hlen] at h2; show k ≤ w; omega)
  have hk : ∀ k, 0 < k → k < (hallTable w 0).data.length → keyAt (hallTable w 0) k = ⟨1, k - 1⟩ := fun k h1 h2 =>
    keyAt_letter hb h1 (by rw [hlen] at h2; show k ≤ w; omega)
  constructor
  · rfl
  · show _ = ((0, 0) :: (degreesUp 1 w).map fun l => (0, l)).map _
    rw [List.map_cons, List.map_map]
    show (_, _) :: _ = _
    congr 1
    · unfold pairAt
      rw [keyAt_zero hb]
    · refine List.map_congr_left fun l hl => ?_
      unfold degreesUp at hl
      rw [List.mem_map] at hl
      obtain ⟨i, hi, rfl⟩ := hl
      rw [List.mem_range] at hi
      show _ = (keyAt _ 0, keyAt _ (1 + i))
      rw [keyAt_zero hb, hk (1 + i) (by omega) (by omega)]
  · show [(0, 1), (1, 1 + w)] = [((hallTable w 0).start 0, (hallTable w 0).start 1), ((hallTable w 0).start 1, (hallTable w 0).start 2)]
    rw [hb.start_zero, hb.start_one, hb.start_two]
    rfl
  · show [0, w] = [(hallTable w 0).start 1 - 1, (hallTable w 0).start 2 - 1]
    rw [hb.start_one, hb.start_two]
    show [0, w] = [0, 1 + w - 1]
    rw [Nat.add_sub_cancel_left]
  · intro k r h0 hr
    have hlt := (List.getElem?_eq_some_iff.1 hr).1
    rw [hrow k h0 hlt, Option.some.injEq] at hr
    subst hr
    rw [letters_reverse]
    unfold pairAt
    dsimp only
    rw [keyAt_zero hb, hk k h0 hlt, if_pos]
    exact ⟨rfl, rfl, by dsimp only; omega⟩
  · intro p hp
    rw [letters_reverse, if_neg]
    rintro ⟨h1, h2, h3⟩
    refine hp (p.2.idx + 1) (0, p.2.idx + 1) (by omega) (hrow _ (by omega) (by omega)) ?_
    unfold pairAt
    dsimp only
    rw [keyAt_zero hb, hk _ (by omega) (by omega)]
    exact Prod.ext h1 (Key.ext h2 (by dsimp only; omega))

theorem growUp_rep (w m : ℕ) : ∃ hs, loop (degreesUp 2 (m + 1)) (HallSet.letters w) HallSet.growDegree = some hs ∧
    Rep (hallTable w m) hs := by
  induction m with
  | zero => exact ⟨_, rfl, letters_rep w⟩
  | succ m ih =>
    obtain ⟨hs, h1, h2⟩ := ih
    obtain ⟨hs', h3, h4⟩ := growDegree_rep (Lie.hallTable_isHall w m) h2
    refine ⟨hs', ?_, h4⟩
    rw [Lie.degreesUp_succ (by omega), Lie.loop_append_list, h1, Option.bind_some, loop_cons]
    have : hs.growDegree (m + 1 + 1) = some hs' := h3
    rw [this]
    rfl

/-- The constructor succeeds for every width and depth. -/
theorem new_rep (w depth : ℕ) : ∃ hs, HallSet.new w depth = some hs ∧ Rep (hallTable w (depth - 1)) hs := by
  unfold HallSet.new
  by_cases h : depth > 1
  · rw [if_pos h]
    obtain ⟨hs, h1, h2⟩ := growUp_rep w (depth - 1)
    refine ⟨hs, ?_, h2⟩
    unfold HallSet.growUp
    rw [show depth - 1 + 1 = depth by omega] at h1
    exact h1
  · rw [if_neg h, show depth - 1 = 0 by omega]
    exact ⟨_, rfl, letters_rep w⟩

end RoughPy.Lite
