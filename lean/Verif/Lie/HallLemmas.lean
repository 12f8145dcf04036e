import Verif.Lie.Spec
import Verif.Tensor.Loops
import Mathlib.Data.List.GetD

set_option linter.unusedSectionVars false

/-!
# The construction of the Hall table
-/

namespace RoughPy.Lie

open RoughPy.Tensor (loop degreesUp loop_nil loop_cons mem_degreesUp)

theorem mem_upTo {lo hi k : ℕ} : k ∈ upTo lo hi ↔ lo ≤ k ∧ k < hi := by
  unfold upTo
  rw [List.mem_map]
  constructor
  · rintro ⟨i, hi, rfl⟩
    rw [List.mem_range] at hi
    omega
  · rintro ⟨h1, h2⟩
    exact ⟨k - lo, by rw [List.mem_range]; omega, by omega⟩

theorem upTo_sorted (lo hi : ℕ) : (upTo lo hi).Pairwise (· < ·) := by
  unfold upTo
  rw [List.pairwise_map]
  exact List.pairwise_lt_range.imp fun h => by omega

theorem degreesUp_sorted (lo hi : ℕ) : (degreesUp lo hi).Pairwise (· < ·) := by
  unfold degreesUp
  rw [List.pairwise_map]
  exact List.pairwise_lt_range.imp fun h => by omega

/-- A loop that appends rows. -/
theorem loop_append {ι : Type} (alloc : ℕ) (R : List (ℕ × ℕ)) (l : List ι)
    (body : List (ℕ × ℕ) → ι → Option (List (ℕ × ℕ))) (new : ι → List (ℕ × ℕ))
    (h : ∀ S, ∀ x ∈ l, (R ++ S).length + (new x).length ≤ alloc →
      body (R ++ S) x = some (R ++ S ++ new x)) :
    ∀ S, (R ++ S).length + (l.flatMap new).length ≤ alloc →
      loop l (R ++ S) body = some (R ++ S ++ l.flatMap new) := by
  induction l with
  | nil => intro S _; simp [loop_nil]
  | cons x l ih =>
    intro S hS
    rw [List.flatMap_cons] at hS
    have hS' := hS
    rw [List.length_append (as := new x)] at hS'
    rw [loop_cons, h S x List.mem_cons_self (by omega)]
    have h2 := ih (fun S y hy => h S y (List.mem_cons_of_mem _ hy)) (S ++ new x)
      (by rw [List.length_append] at hS ⊢; simp only [List.length_append] at hS ⊢; omega)
    simp only [Option.bind_eq_bind, Option.bind_some]
    rw [List.append_assoc R S (new x), h2, List.flatMap_cons]
    simp [List.append_assoc]

/-- Left parent of a row. -/
def left (R : List (ℕ × ℕ)) (j : ℕ) : ℕ := (R.getD j (0, 0)).1

/-- The pairs appended by `pairLoop`. -/
def pairs (R : List (ℕ × ℕ)) (il iu jl ju : ℕ) : List (ℕ × ℕ) :=
  (upTo il iu).flatMap fun i =>
    (upTo (if jl < i + 1 then i + 1 else jl) ju).flatMap fun j =>
      if left R j ≤ i then [(i, j)] else []

theorem pairLoop_eq (alloc il iu jl ju : ℕ) (R S : List (ℕ × ℕ)) (hju : ju ≤ R.length)
    (h : (R ++ S).length + (pairs R il iu jl ju).length ≤ alloc) :
    pairLoop alloc il iu jl ju (R ++ S) = some (R ++ S ++ pairs R il iu jl ju) := by
  unfold pairLoop pairs
  refine loop_append alloc R _ _ _ (fun S i _ hS => ?_) S h
  refine loop_append alloc R _ _ _ (fun S j hj hS => ?_) S hS
  rw [mem_upTo] at hj
  have hjR : j < R.length := by omega
  have h1 : (R ++ S)[j]? = some (R[j]) := by
    rw [List.getElem?_append_left hjR, List.getElem?_eq_getElem hjR]
  have h2 : left R j = (R[j]).1 := by
    unfold left
    rw [List.getD_eq_getElem _ _ hjR]
  rw [h1, h2]
  simp only [Option.bind_eq_bind, Option.bind_some]
  by_cases hc : (R[j]).1 ≤ i
  · rw [if_pos hc, if_pos hc]
    rw [h2, if_pos hc, List.length_singleton] at hS
    unfold push
    rw [if_pos (by omega)]
  · rw [if_neg hc, if_neg hc, List.append_nil]

/-- The rows of degree `n`. -/
def newRows (R : List (ℕ × ℕ)) (db : List ℕ) (n : ℕ) : List (ℕ × ℕ) :=
  (degreesUp 1 (n / 2)).flatMap fun l =>
    pairs R (db.getD l 0) (db.getD (l + 1) 0) (db.getD (n - l) 0) (db.getD (n - l + 1) 0)

/-- The table up to degree `m + 1`, built without memory limit. -/
def hallState (w : ℕ) : ℕ → List (ℕ × ℕ) × List ℕ
  | 0 => ((0, 0) :: (degreesUp 1 w).map fun l => (0, l), [0, 1, 1 + w])
  | m + 1 =>
    let s := hallState w m
    (s.1 ++ newRows s.1 s.2 (m + 2), s.2 ++ [(s.1 ++ newRows s.1 s.2 (m + 2)).length])

/-- The table as a basis. -/
def hallTable (w m : ℕ) : Basis := ⟨w, m + 1, (hallState w m).1, (hallState w m).2⟩

/-! ## The table is a Hall table -/

theorem mem_pairs {R : List (ℕ × ℕ)} {il iu jl ju : ℕ} {r : ℕ × ℕ} :
    r ∈ pairs R il iu jl ju ↔
      il ≤ r.1 ∧ r.1 < iu ∧ jl ≤ r.2 ∧ r.2 < ju ∧ r.1 < r.2 ∧ left R r.2 ≤ r.1 := by
  obtain ⟨i, j⟩ := r
  unfold pairs
  simp only [List.mem_flatMap, mem_upTo]
  constructor
  · rintro ⟨i', ⟨h1, h2⟩, j', ⟨h3, h4⟩, h5⟩
    split at h5
    · rename_i h6
      rw [List.mem_singleton, Prod.mk.injEq] at h5
      obtain ⟨rfl, rfl⟩ := h5
      split at h3 <;> exact ⟨h1, h2, by omega, h4, by omega, h6⟩
    · cases h5
  · rintro ⟨h1, h2, h3, h4, h5, h6⟩
    refine ⟨i, ⟨h1, h2⟩, j, ⟨?_, h4⟩, ?_⟩
    · split <;> omega
    · rw [if_pos h6]; exact List.mem_singleton_self _

theorem pairwise_flatMap' {α β : Type} {l : List α} {f : α → List β} {r : β → β → Prop} {s : α → α → Prop}
    (hl : l.Pairwise s) (h1 : ∀ a ∈ l, (f a).Pairwise r)
    (h2 : ∀ a ∈ l, ∀ b ∈ l, s a b → ∀ x ∈ f a, ∀ y ∈ f b, r x y) : (l.flatMap f).Pairwise r := by
  rw [List.pairwise_flatMap]
  refine ⟨h1, ?_⟩
  exact hl.imp_of_mem fun {a b} ha hb hab x hx y hy => h2 a ha b hb hab x hx y hy

theorem pairs_sorted (R : List (ℕ × ℕ)) (il iu jl ju : ℕ) : (pairs R il iu jl ju).Pairwise wordLess := by
  unfold pairs
  refine pairwise_flatMap' (upTo_sorted _ _) (fun i _ => ?_) ?_
  · refine pairwise_flatMap' (upTo_sorted _ _) (fun j _ => ?_) ?_
    · split
      · exact List.pairwise_singleton _ _
      · exact List.Pairwise.nil
    · intro a _ b _ hab x hx y hy
      split at hx
      · split at hy
        · rw [List.mem_singleton] at hx hy
          subst hx hy
          exact Or.inr ⟨rfl, hab⟩
        · cases hy
      · cases hx
  · intro a _ b _ hab x hx y hy
    have : ∀ a (x : ℕ × ℕ), (x ∈ (upTo (if jl < a + 1 then a + 1 else jl) ju).flatMap fun j =>
        if left R j ≤ a then [(a, j)] else []) → x.1 = a := by
      intro a x hx
      rw [List.mem_flatMap] at hx
      obtain ⟨j, _, hx⟩ := hx
      split at hx
      · rw [List.mem_singleton] at hx
        rw [hx]
      · cases hx
    left
    rw [this a x hx, this b y hy]
    exact hab

theorem mem_newRows {R : List (ℕ × ℕ)} {db : List ℕ} {n : ℕ} {r : ℕ × ℕ} :
    r ∈ newRows R db n ↔ ∃ l, 1 ≤ l ∧ l ≤ n / 2 ∧ db.getD l 0 ≤ r.1 ∧ r.1 < db.getD (l + 1) 0 ∧
      db.getD (n - l) 0 ≤ r.2 ∧ r.2 < db.getD (n - l + 1) 0 ∧ r.1 < r.2 ∧ left R r.2 ≤ r.1 := by
  unfold newRows
  simp only [List.mem_flatMap, mem_degreesUp, mem_pairs]
  constructor
  · rintro ⟨l, ⟨h1, h2⟩, h⟩; exact ⟨l, h1, h2, h⟩
  · rintro ⟨l, h1, h2, h⟩; exact ⟨l, ⟨h1, h2⟩, h⟩

theorem pairwise_getD {db : List ℕ} (h : db.Pairwise (· ≤ ·)) {a b : ℕ} (hab : a ≤ b) (hb : b < db.length) :
    db.getD a 0 ≤ db.getD b 0 := by
  rw [List.getD_eq_getElem _ _ hb, List.getD_eq_getElem _ _ (by omega)]
  rcases Nat.lt_or_eq_of_le hab with hab | rfl
  · exact (List.pairwise_iff_getElem.1 h) a b (by omega) hb hab
  · exact le_rfl

theorem newRows_sorted {R : List (ℕ × ℕ)} {db : List ℕ} {n : ℕ} (h : db.Pairwise (· ≤ ·)) (hn : n < db.length) :
    (newRows R db n).Pairwise wordLess := by
  unfold newRows
  refine pairwise_flatMap' (degreesUp_sorted _ _) (fun l _ => pairs_sorted _ _ _ _ _) ?_
  intro a ha b hb hab x hx y hy
  rw [mem_pairs] at hx hy
  rw [mem_degreesUp] at ha hb
  left
  have := pairwise_getD h (a := a + 1) (b := b) hab (by omega)
  omega

theorem HasDegree.lt {b : Basis} (hb : IsHallTable b) {k d : ℕ} (h : HasDegree b k d) : k < b.data.length := by
  obtain ⟨h1, lo, hi, _, h3, _, h5⟩ := h
  have h6 : hi ≤ b.data.length := by
    have e1 : b.db.getD (d + 1) 0 = hi := by rw [List.getD_eq_getElem?_getD, h3]; rfl
    have e2 : b.db.getD (b.depth + 1) 0 = b.data.length := by
      rw [List.getD_eq_getElem?_getD, hb.db_last]; rfl
    rw [← e1, ← e2]
    exact pairwise_getD hb.db_sorted (by omega) (by rw [hb.db_length]; omega)
  omega

/-- `degree_begin` as a function. -/
def Basis.start (b : Basis) (d : ℕ) : ℕ := b.db.getD d 0

theorem IsHallTable.start_get {b : Basis} (hb : IsHallTable b) {d : ℕ} (hd : d ≤ b.depth + 1) :
    b.db[d]? = some (b.start d) := by
  have : d < b.db.length := by rw [hb.db_length]; omega
  unfold Basis.start
  rw [List.getD_eq_getElem _ _ this, List.getElem?_eq_getElem this]

theorem IsHallTable.hasDegree_iff {b : Basis} (hb : IsHallTable b) {k d : ℕ} :
    HasDegree b k d ↔ d ≤ b.depth ∧ b.start d ≤ k ∧ k < b.start (d + 1) := by
  constructor
  · rintro ⟨h1, lo, hi, h2, h3, h4, h5⟩
    rw [hb.start_get (by omega)] at h2 h3
    simp only [Option.some.injEq] at h2 h3
    exact ⟨h1, by omega, by omega⟩
  · rintro ⟨h1, h2, h3⟩
    exact ⟨h1, _, _, hb.start_get (by omega), hb.start_get (by omega), h2, h3⟩

theorem IsHallTable.start_mono {b : Basis} (hb : IsHallTable b) {c d : ℕ} (h : c ≤ d) (hd : d ≤ b.depth + 1) :
    b.start c ≤ b.start d := pairwise_getD hb.db_sorted h (by rw [hb.db_length]; omega)

theorem IsHallTable.start_last {b : Basis} (hb : IsHallTable b) : b.start (b.depth + 1) = b.data.length := by
  have := hb.start_get (d := b.depth + 1) le_rfl
  rw [hb.db_last, Option.some.injEq] at this
  exact this.symm

/-- The table with the rows of the next degree added. -/
def Basis.extend (b : Basis) : Basis :=
  ⟨b.width, b.depth + 1, b.data ++ newRows b.data b.db (b.depth + 1),
    b.db ++ [(b.data ++ newRows b.data b.db (b.depth + 1)).length]⟩

theorem hallTable_succ (w m : ℕ) : hallTable w (m + 1) = (hallTable w m).extend := rfl

theorem IsHallTable.extend_start {b : Basis} (hb : IsHallTable b) {d : ℕ} (hd : d ≤ b.depth + 1) :
    b.extend.start d = b.start d := by
  unfold Basis.start Basis.extend
  rw [List.getD_append _ _ _ _ (by rw [hb.db_length]; omega)]

theorem IsHallTable.extend_start_last {b : Basis} (hb : IsHallTable b) :
    b.extend.start (b.depth + 2) = b.extend.data.length := by
  unfold Basis.start Basis.extend
  rw [List.getD_append_right _ _ _ _ (by rw [hb.db_length]), hb.db_length]
  simp

theorem IsHallTable.left_eq {b : Basis} {j : ℕ} {c : ℕ × ℕ} (h : b.data[j]? = some c) : left b.data j = c.1 := by
  unfold left
  rw [List.getD_eq_getElem?_getD, h]
  rfl

theorem IsHallTable.extend {b : Basis} (hb : IsHallTable b) : IsHallTable b.extend := by
  have hp := hb.depth_pos
  have hlen : b.extend.db.length = b.extend.depth + 2 := by
    simp [Basis.extend, hb.db_length]
  have hsort : b.extend.db.Pairwise (· ≤ ·) := by
    unfold Basis.extend
    rw [List.pairwise_append]
    refine ⟨hb.db_sorted, List.pairwise_singleton _ _, fun x hx y hy => ?_⟩
    rw [List.mem_singleton] at hy
    obtain ⟨i, hi, rfl⟩ := List.getElem_of_mem hx
    have h1 := pairwise_getD hb.db_sorted (a := i) (b := b.depth + 1) (by rw [hb.db_length] at hi; omega)
      (by rw [hb.db_length]; omega)
    have h2 := hb.start_last
    unfold Basis.start at h2
    rw [h2, List.getD_eq_getElem _ _ hi] at h1
    rw [hy, List.length_append]
    omega
  have hget : ∀ d, d ≤ b.extend.depth + 1 → b.extend.db[d]? = some (b.extend.start d) := by
    intro d hd
    have : d < b.extend.db.length := by rw [hlen]; omega
    unfold Basis.start
    rw [List.getD_eq_getElem _ _ this, List.getElem?_eq_getElem this]
  have hdeg : ∀ k d, HasDegree b.extend k d ↔
      d ≤ b.depth + 1 ∧ b.extend.start d ≤ k ∧ k < b.extend.start (d + 1) := by
    intro k d
    constructor
    · rintro ⟨h1, lo, hi, h2, h3, h4, h5⟩
      rw [hget _ (by omega)] at h2 h3
      simp only [Option.some.injEq] at h2 h3
      exact ⟨h1, by omega, by omega⟩
    · rintro ⟨h1, h2, h3⟩
      exact ⟨h1, _, _, hget _ (by simp only [Basis.extend]; omega), hget _ (by simp only [Basis.extend]; omega), h2, h3⟩
  have hold : ∀ k d, d ≤ b.depth → (HasDegree b.extend k d ↔ HasDegree b k d) := by
    intro k d hd
    rw [hdeg, hb.hasDegree_iff, hb.extend_start (by omega), hb.extend_start (by omega)]
    constructor
    · rintro ⟨_, h⟩; exact ⟨hd, h⟩
    · rintro ⟨_, h⟩; exact ⟨by omega, h⟩
  have hdata : ∀ k, k < b.data.length → b.extend.data[k]? = b.data[k]? := by
    intro k hk
    exact List.getElem?_append_left hk
  have hstartN : b.extend.start (b.depth + 1) = b.data.length := by
    rw [hb.extend_start le_rfl, hb.start_last]
  have hnew : ∀ k, HasDegree b.extend k (b.depth + 1) → b.data.length ≤ k ∧
      ∃ r, (newRows b.data b.db (b.depth + 1))[k - b.data.length]? = some r ∧ b.extend.data[k]? = some r := by
    intro k hk
    rw [hdeg, hb.extend_start_last, hstartN] at hk
    refine ⟨hk.2.1, ?_⟩
    have h3 : k - b.data.length < (newRows b.data b.db (b.depth + 1)).length := by
      have h4 := hk.2.2
      simp only [Basis.extend, List.length_append] at h4
      omega
    refine ⟨_, List.getElem?_eq_getElem h3, ?_⟩
    unfold Basis.extend
    simp only
    rw [List.getElem?_append_right hk.2.1, List.getElem?_eq_getElem h3]
  refine ⟨by simp [Basis.extend], hlen, ?_, ?_, ?_, ?_, hsort, ?_, ?_, ?_, ?_, ?_⟩
  · rw [hget _ (by omega), hb.extend_start (by omega), ← hb.start_get (by omega), hb.db_zero]
  · rw [hget _ (by omega), hb.extend_start (by omega), ← hb.start_get (by omega), hb.db_one]
  · rw [hget _ (by simp only [Basis.extend]; omega), hb.extend_start (by omega), ← hb.start_get (by omega), hb.db_two]
    rfl
  · rw [hget _ le_rfl]
    exact congrArg some hb.extend_start_last
  · rw [hdata _ (by
      have := hb.root
      rw [List.getElem?_eq_some_iff] at this
      exact this.1), hb.root]
  · intro l h1 h2
    have h3 := hb.letters l h1 h2
    rw [hdata _ (by rw [List.getElem?_eq_some_iff] at h3; exact h3.1), h3]
  · intro d k hd hk
    have hd' : d ≤ b.depth + 1 := ((hdeg _ _).1 hk).1
    rcases Nat.lt_or_eq_of_le hd' with hlt | heq
    · rw [hold _ _ (by omega)] at hk
      obtain ⟨i, j, p, q, c, h1, h2, h3, h4, h5, h6, h7, h8, h9⟩ := hb.rows d k hd hk
      refine ⟨i, j, p, q, c, ?_, h2, h3, h4, (hold _ _ (by omega)).2 h5, (hold _ _ (by omega)).2 h6, h7, ?_, h9⟩
      · rw [hdata _ (hk.lt hb), h1]
      · rw [hdata _ (h6.lt hb), h8]
    · subst heq
      obtain ⟨h1, r, h2, h3⟩ := hnew k hk
      have h4 := List.mem_of_getElem? h2
      rw [mem_newRows] at h4
      obtain ⟨l, h5, h6, h7, h8, h9, h10, h11, h12⟩ := h4
      have hi : HasDegree b r.1 l := hb.hasDegree_iff.2 ⟨by omega, h7, h8⟩
      have hj : HasDegree b r.2 (b.depth + 1 - l) := hb.hasDegree_iff.2 ⟨by omega, h9, h10⟩
      have hjl := hj.lt hb
      refine ⟨r.1, r.2, l, b.depth + 1 - l, b.data[r.2], h3, h5, by omega, by omega,
        (hold _ _ (by omega)).2 hi, (hold _ _ (by omega)).2 hj, h11, ?_, ?_⟩
      · rw [hdata _ hjl, List.getElem?_eq_getElem hjl]
      · rw [IsHallTable.left_eq (List.getElem?_eq_getElem hjl)] at h12
        exact h12
  · intro i j p q c hp hq hpq hi hj hij hc hci
    have hpq' : p + q ≤ b.depth + 1 := hpq
    rw [hold _ _ (by omega)] at hi hj
    have hjl := hj.lt hb
    rw [hdata _ hjl] at hc
    rcases Nat.lt_or_eq_of_le hpq' with hlt | heq
    · obtain ⟨k, h1, h2⟩ := hb.complete i j p q c hp hq (by omega) hi hj hij hc hci
      exact ⟨k, (hold _ _ (by omega)).2 h1, by rw [hdata _ (h1.lt hb), h2]⟩
    · have hpq2 : p ≤ q := by
        by_contra hlt
        rw [hb.hasDegree_iff] at hi hj
        have := hb.start_mono (c := q + 1) (d := p) (by omega) (by omega)
        omega
      have hmem : (i, j) ∈ newRows b.data b.db (b.depth + 1) := by
        rw [mem_newRows]
        rw [hb.hasDegree_iff] at hi hj
        have hq' : b.depth + 1 - p = q := by omega
        refine ⟨p, hp, by omega, hi.2.1, hi.2.2, ?_, ?_, hij, ?_⟩
        · rw [hq']; exact hj.2.1
        · rw [hq']; exact hj.2.2
        · simp only
          rw [IsHallTable.left_eq hc]
          exact hci
      obtain ⟨t, ht, hte⟩ := List.getElem_of_mem hmem
      refine ⟨b.data.length + t, ?_, ?_⟩
      · rw [hdeg, heq, hstartN, hb.extend_start_last]
        refine ⟨le_rfl, by omega, ?_⟩
        simp only [Basis.extend, List.length_append]
        omega
      · unfold Basis.extend
        simp only
        rw [List.getElem?_append_right (by omega), Nat.add_sub_cancel_left, List.getElem?_eq_getElem ht, hte]
  · intro d k k' r r' hd hk hk' hlt hr hr'
    have hd' : d ≤ b.depth + 1 := ((hdeg _ _).1 hk).1
    rcases Nat.lt_or_eq_of_le hd' with hd2 | heq
    · rw [hold _ _ (by omega)] at hk hk'
      rw [hdata _ (hk.lt hb)] at hr
      rw [hdata _ (hk'.lt hb)] at hr'
      exact hb.sorted d k k' r r' hd hk hk' hlt hr hr'
    · subst heq
      obtain ⟨h1, s, h2, h3⟩ := hnew k hk
      obtain ⟨h1', s', h2', h3'⟩ := hnew k' hk'
      rw [hr, Option.some.injEq] at h3
      rw [hr', Option.some.injEq] at h3'
      subst h3 h3'
      rw [List.getElem?_eq_some_iff] at h2 h2'
      obtain ⟨h4, rfl⟩ := h2
      obtain ⟨h4', rfl⟩ := h2'
      exact (List.pairwise_iff_getElem.1 (newRows_sorted hb.db_sorted (by rw [hb.db_length]; omega)))
        _ _ h4 h4' (by omega)

theorem hallTable_zero (w : ℕ) : IsHallTable (hallTable w 0) := by
  have hd : (hallTable w 0).data = (0, 0) :: (degreesUp 1 w).map fun l => (0, l) := rfl
  have hdb : (hallTable w 0).db = [0, 1, 1 + w] := rfl
  have hlen : (hallTable w 0).data.length = 1 + w := by
    rw [hd]; simp [degreesUp]; omega
  refine ⟨by simp [hallTable], rfl, rfl, rfl, rfl, ?_, ?_, rfl, ?_, ?_, ?_, ?_⟩
  · rw [hlen]; rfl
  · rw [hdb]; simp
  · intro l h1 h2
    have h3 : (hallTable w 0).width = w := rfl
    rw [h3] at h2
    obtain ⟨m, rfl⟩ : ∃ m, l = m + 1 := ⟨l - 1, by omega⟩
    rw [hd, List.getElem?_cons_succ, List.getElem?_map]
    unfold degreesUp
    rw [List.getElem?_map, List.getElem?_range (by omega)]
    simp
    omega
  · intro d k hd hk
    have := hk.1
    simp only [hallTable] at this
    omega
  · intro i j p q c hp hq hpq
    simp only [hallTable] at hpq
    omega
  · intro d k k' r r' hd hk
    have := hk.1
    simp only [hallTable] at this
    omega

theorem hallTable_isHall (w m : ℕ) : IsHallTable (hallTable w m) := by
  induction m with
  | zero => exact hallTable_zero w
  | succ m ih => rw [hallTable_succ]; exact ih.extend

/-! ## The code builds this table -/

theorem degreeStep_eq (alloc : ℕ) (b : Basis) (hb : IsHallTable b)
    (h : b.extend.data.length ≤ alloc) :
    degreeStep alloc (b.data, b.db) (b.depth + 1) = some (b.extend.data, b.extend.db) := by
  have h1 := loop_append alloc b.data (degreesUp 1 ((b.depth + 1) / 2)) (fun data left => do
      let il ← b.db[left]?
      let iu ← b.db[left + 1]?
      let jl ← b.db[b.depth + 1 - left]?
      let ju ← b.db[b.depth + 1 - left + 1]?
      pairLoop alloc il iu jl ju data)
    (fun l => pairs b.data (b.db.getD l 0) (b.db.getD (l + 1) 0) (b.db.getD (b.depth + 1 - l) 0)
      (b.db.getD (b.depth + 1 - l + 1) 0)) (by
    intro S l hl hS
    rw [mem_degreesUp] at hl
    rw [hb.start_get (d := l) (by omega), hb.start_get (d := l + 1) (by omega),
      hb.start_get (d := b.depth + 1 - l) (by omega), hb.start_get (d := b.depth + 1 - l + 1) (by omega)]
    simp only [Option.bind_eq_bind, Option.bind_some]
    refine pairLoop_eq _ _ _ _ _ _ _ ?_ hS
    rw [← hb.start_last]
    exact hb.start_mono (by omega) le_rfl) [] (by
    simp only [List.append_nil]
    unfold Basis.extend newRows at h
    rw [List.length_append] at h
    exact h)
  rw [List.append_nil] at h1
  unfold degreeStep
  simp only
  rw [h1]
  rfl

theorem hallTable_length_mono (w : ℕ) {m n : ℕ} (h : m ≤ n) :
    (hallTable w m).data.length ≤ (hallTable w n).data.length := by
  induction n with
  | zero => rw [Nat.le_zero.1 h]
  | succ n ih =>
    rcases Nat.lt_or_eq_of_le h with h | rfl
    · refine le_trans (ih (by omega)) ?_
      rw [hallTable_succ]
      unfold Basis.extend
      rw [List.length_append]
      omega
    · exact le_rfl

theorem degreesUp_succ {lo hi : ℕ} (h : lo ≤ hi + 1) : degreesUp lo (hi + 1) = degreesUp lo hi ++ [hi + 1] := by
  unfold degreesUp
  rw [show hi + 1 + 1 - lo = (hi + 1 - lo) + 1 by omega, List.range_succ, List.map_append]
  simp only [List.map_cons, List.map_nil]
  congr 2
  omega

theorem loop_append_list {σ ι : Type} (l l' : List ι) (s : σ) (body : σ → ι → Option σ) :
    loop (l ++ l') s body = (loop l s body).bind fun s => loop l' s body := by
  unfold loop
  rw [List.foldlM_append]
  rfl

theorem degrees_loop (alloc w m : ℕ) (h : (hallTable w m).data.length ≤ alloc) :
    loop (degreesUp 2 (m + 1)) ((hallTable w 0).data, (hallTable w 0).db) (degreeStep alloc) =
      some ((hallTable w m).data, (hallTable w m).db) := by
  induction m with
  | zero => rfl
  | succ m ih =>
    rw [degreesUp_succ (by omega), loop_append_list, ih (le_trans (hallTable_length_mono w (Nat.le_succ m)) h)]
    simp only [Option.bind_some]
    rw [loop_cons]
    have := degreeStep_eq alloc (hallTable w m) (hallTable_isHall w m) (by rw [← hallTable_succ]; exact h)
    rw [show (hallTable w m).depth + 1 = m + 1 + 1 from rfl] at this
    rw [this]
    rfl

theorem constructIn_eq (alloc w m : ℕ) (h : (hallTable w m).data.length ≤ alloc) :
    constructIn alloc w (m + 1) = some (hallTable w m) := by
  have h0 := le_trans (hallTable_length_mono w (Nat.zero_le m)) h
  have hlen : (hallTable w 0).data.length = 1 + w := by
    show ((0, 0) :: (degreesUp 1 w).map fun l => ((0, l) : ℕ × ℕ)).length = 1 + w
    simp [degreesUp]; omega
  unfold constructIn
  have h1 : push alloc [] (0, 0) = some [(0, 0)] := by
    unfold push
    rw [if_pos (by simp only [List.length_nil]; omega)]
    rfl
  rw [h1]
  simp only [Option.bind_eq_bind, Option.bind_some, Nat.succ_ne_zero, if_false]
  have h2 := loop_append alloc [(0, 0)] (degreesUp 1 w) (fun data letter => push alloc data (0, letter))
    (fun l => [(0, l)]) (by
      intro S x _ hS
      unfold push
      simp only [List.length_singleton] at hS
      rw [if_pos (by omega)]) [] (by
      have : ((degreesUp 1 w).flatMap fun l => [((0, l) : ℕ × ℕ)]).length = w := by
        rw [← List.map_eq_flatMap]
        simp [degreesUp]
      rw [this]
      simp only [List.append_nil, List.length_singleton]
      omega)
  rw [List.append_nil] at h2
  have h3 : [(0, 0)] ++ ((degreesUp 1 w).flatMap fun l => [((0, l) : ℕ × ℕ)]) = (hallTable w 0).data := by
    show _ = (0, 0) :: (degreesUp 1 w).map fun l => ((0, l) : ℕ × ℕ)
    rw [← List.map_eq_flatMap]
    rfl
  rw [h2, h3]
  simp only [Option.bind_some]
  have h4 := degrees_loop alloc w m h
  rw [show (hallTable w 0).db = [0, 1, (hallTable w 0).data.length] by rw [hlen]; rfl] at h4
  rw [h4]
  rfl

end RoughPy.Lie
