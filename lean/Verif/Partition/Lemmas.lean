import Verif.Partition.Spec
import Mathlib.Tactic.Linarith
import Mathlib.Order.Basic
import Mathlib.Data.List.Basic

/-! Helper lemmas about partitions. -/

namespace RoughPy.Partition

open RoughPy.Intervals

/-- `≤` and `<` both satisfy these; the merge proof is done once for both. -/
structure OrdRel (r : ℚ → ℚ → Prop) : Prop where
  of_lt : ∀ {x y}, x < y → r x y
  le : ∀ {x y}, r x y → x ≤ y
  trans_le : ∀ {x y z}, r x y → y ≤ z → r x z
  le_trans : ∀ {x y z}, x ≤ y → r y z → r x z

theorem ordRel_le : OrdRel (· ≤ ·) :=
  ⟨fun h => h.le, fun h => h, fun h h' => h.trans h', fun h h' => h.trans h'⟩

theorem ordRel_lt : OrdRel (· < ·) :=
  ⟨fun h => h, fun h => h.le, fun h h' => h.trans_le h', fun h h' => h.trans_lt h'⟩

theorem mem_takeWhile_lt {l : List ℚ} {v x : ℚ} (h : x ∈ l.takeWhile (· < v)) : x ∈ l ∧ x < v := by
  refine ⟨(List.takeWhile_sublist _).subset h, ?_⟩
  induction l with
  | nil => simp at h
  | cons y l ih =>
    rw [List.takeWhile_cons] at h
    split_ifs at h with hy
    · rcases List.mem_cons.mp h with rfl | h
      · simpa using hy
      · exact ih h
    · simp at h

theorem mem_dropWhile_lt {r : ℚ → ℚ → Prop} (hr : OrdRel r) {l : List ℚ} {v x : ℚ}
    (hs : l.Pairwise r) (h : x ∈ l.dropWhile (· < v)) : x ∈ l ∧ v ≤ x := by
  refine ⟨(List.dropWhile_sublist _).subset h, ?_⟩
  induction l with
  | nil => simp at h
  | cons y l ih =>
    rw [List.dropWhile_cons] at h
    rw [List.pairwise_cons] at hs
    split_ifs at h with hy
    · exact ih hs.2 h
    · simp only [decide_eq_true_eq, not_lt] at hy
      rcases List.mem_cons.mp h with rfl | h
      · exact hy
      · exact hy.trans (hr.le (hs.1 x h))

theorem skipEq_sublist (v : ℚ) (l : List ℚ) : (Partition.skipEq v l).Sublist l := by
  cases l with
  | nil => exact List.Sublist.refl _
  | cons x l =>
    simp only [Partition.skipEq]
    split_ifs
    · exact List.sublist_cons_self x l
    · exact List.Sublist.refl _

theorem mem_skipEq {v x : ℚ} {l : List ℚ} : (x = v ∨ x ∈ Partition.skipEq v l) ↔ (x = v ∨ x ∈ l) := by
  cases l with
  | nil => rfl
  | cons y l =>
    simp only [Partition.skipEq]
    split_ifs with h
    · subst h
      simp
    · rfl

theorem skipEq_rel {r : ℚ → ℚ → Prop} (hr : OrdRel r) {v : ℚ} {l : List ℚ} (hs : l.Pairwise r)
    (hv : ∀ x ∈ l, v ≤ x) : ∀ x ∈ Partition.skipEq v l, r v x := by
  cases l with
  | nil => intro x hx; simp [Partition.skipEq] at hx
  | cons y l =>
    rw [List.pairwise_cons] at hs
    simp only [Partition.skipEq]
    split_ifs with h
    · subst h; exact hs.1
    · intro x hx
      have hy : v < y := lt_of_le_of_ne (hv y (List.mem_cons_self ..)) (Ne.symm h)
      rcases List.mem_cons.mp hx with rfl | hx
      · exact hr.of_lt hy
      · exact hr.le_trans hy.le (hs.1 x hx)

theorem mergeLoop_spec {r : ℚ → ℚ → Prop} (hr : OrdRel r) (L R : List ℚ) (hL : L.Pairwise r)
    (hR : R.Pairwise r) :
    let m := Partition.mergeLoop L R
    (∀ x, (x ∈ m.1 ∨ x ∈ m.2.1 ∨ x ∈ m.2.2) ↔ (x ∈ L ∨ x ∈ R)) ∧
    m.1.Pairwise r ∧ (∀ x ∈ m.1, ∀ y, y ∈ m.2.1 ∨ y ∈ m.2.2 → r x y) ∧
    (m.2.1 = [] ∨ m.2.2 = []) ∧ m.2.1.Sublist L ∧ m.2.2.Sublist R ∧
    (∀ u v, (∀ y ∈ L, r y u) → (∀ y ∈ R, r y v) → ∀ x ∈ m.1, r x u ∧ r x v) := by
  induction L generalizing R with
  | nil => simp [Partition.mergeLoop]
  | cons x l ihL =>
  induction R with
  | nil => simp [Partition.mergeLoop]
  | cons y r' ihR =>
  by_cases hne : x = y
  · subst hne
    rw [List.pairwise_cons] at hL hR
    obtain ⟨h1, h2, h3, h4, h5, h6, h7⟩ := ihL r' hL.2 hR.2
    have e : Partition.mergeLoop (x :: l) (x :: r') = (x :: (Partition.mergeLoop l r').1,
        (Partition.mergeLoop l r').2.1, (Partition.mergeLoop l r').2.2) := by
      rw [Partition.mergeLoop]; simp
    rw [e]
    refine ⟨fun z => ?_, ?_, ?_, h4, h5.trans (List.sublist_cons_self _ _),
      h6.trans (List.sublist_cons_self _ _), ?_⟩
    · simp only [List.mem_cons]
      rw [or_assoc, h1 z, or_or_or_comm, or_self]
    · rw [List.pairwise_cons]
      refine ⟨fun y hy => ?_, h2⟩
      rcases (h1 y).mp (Or.inl hy) with h | h
      · exact hL.1 y h
      · exact hR.1 y h
    · intro z hz y hy
      rcases List.mem_cons.mp hz with rfl | hz
      · rcases (h1 y).mp (Or.inr hy) with h | h
        · exact hL.1 y h
        · exact hR.1 y h
      · exact h3 z hz y hy
    · intro u v hu hv z hz
      rcases List.mem_cons.mp hz with rfl | hz
      · exact ⟨hu _ (List.mem_cons_self ..), hv _ (List.mem_cons_self ..)⟩
      · exact h7 u v (fun y hy => hu y (List.mem_cons_of_mem _ hy))
          (fun y hy => hv y (List.mem_cons_of_mem _ hy)) z hz
  by_cases hlt : x < y
  · have hL' := List.pairwise_cons.mp hL
    obtain ⟨h1, h2, h3, h4, h5, h6, h7⟩ := ihL (y :: r') hL'.2 hR
    have e : Partition.mergeLoop (x :: l) (y :: r') = (x :: (Partition.mergeLoop l (y :: r')).1,
        (Partition.mergeLoop l (y :: r')).2.1, (Partition.mergeLoop l (y :: r')).2.2) := by
      rw [Partition.mergeLoop]; simp [hne, hlt]
    have hy : ∀ z ∈ y :: r', r x z := by
      intro z hz
      rcases List.mem_cons.mp hz with rfl | hz
      · exact hr.of_lt hlt
      · exact hr.le_trans hlt.le ((List.pairwise_cons.mp hR).1 z hz)
    rw [e]
    refine ⟨fun z => ?_, ?_, ?_, h4, h5.trans (List.sublist_cons_self _ _), h6, ?_⟩
    · rw [List.mem_cons, or_assoc, h1 z, List.mem_cons (l := l), or_assoc]
    · rw [List.pairwise_cons]
      refine ⟨fun z hz => ?_, h2⟩
      rcases (h1 z).mp (Or.inl hz) with h | h
      · exact hL'.1 z h
      · exact hy z h
    · intro z hz w hw
      rcases List.mem_cons.mp hz with rfl | hz
      · rcases (h1 w).mp (Or.inr hw) with h | h
        · exact hL'.1 w h
        · exact hy w h
      · exact h3 z hz w hw
    · intro u v hu hv z hz
      rcases List.mem_cons.mp hz with rfl | hz
      · exact ⟨hu _ (List.mem_cons_self ..), hr.le_trans hlt.le (hv _ (List.mem_cons_self ..))⟩
      · exact h7 u v (fun y hy => hu y (List.mem_cons_of_mem _ hy)) hv z hz
  · rename' hlt => hnlt
    have hR' := List.pairwise_cons.mp hR
    have hlt : y < x := lt_of_le_of_ne (not_lt.mp hnlt) (Ne.symm hne)
    obtain ⟨h1, h2, h3, h4, h5, h6, h7⟩ := ihR hR'.2
    have e : Partition.mergeLoop (x :: l) (y :: r') = (y :: (Partition.mergeLoop (x :: l) r').1,
        (Partition.mergeLoop (x :: l) r').2.1, (Partition.mergeLoop (x :: l) r').2.2) := by
      rw [Partition.mergeLoop]; simp [hne, hnlt]
    have hy : ∀ z ∈ x :: l, r y z := by
      intro z hz
      rcases List.mem_cons.mp hz with rfl | hz
      · exact hr.of_lt hlt
      · exact hr.le_trans hlt.le ((List.pairwise_cons.mp hL).1 z hz)
    rw [e]
    refine ⟨fun z => ?_, ?_, ?_, h4, h5, h6.trans (List.sublist_cons_self _ _), ?_⟩
    · rw [List.mem_cons, or_assoc, h1 z, List.mem_cons (l := r'), or_left_comm]
    · rw [List.pairwise_cons]
      refine ⟨fun z hz => ?_, h2⟩
      rcases (h1 z).mp (Or.inl hz) with h | h
      · exact hy z h
      · exact hR'.1 z h
    · intro z hz w hw
      rcases List.mem_cons.mp hz with rfl | hz
      · rcases (h1 w).mp (Or.inr hw) with h | h
        · exact hy w h
        · exact hR'.1 w h
      · exact h3 z hz w hw
    · intro u v hu hv z hz
      rcases List.mem_cons.mp hz with rfl | hz
      · exact ⟨hr.le_trans hlt.le (hu _ (List.mem_cons_self ..)), hv _ (List.mem_cons_self ..)⟩
      · exact h7 u v hu (fun y hy => hv y (List.mem_cons_of_mem _ hy)) z hz


theorem mergeOverlap_mem {r : ℚ → ℚ → Prop} (hr : OrdRel r) {linf lsup rinf rsup : ℚ} {L R : List ℚ}
    (hL : L.Pairwise r) (hR : R.Pairwise r) (x : ℚ) :
    x ∈ Partition.mergeOverlap linf lsup rinf rsup L R ↔
      (x ∈ L ∨ x ∈ R ∨ (linf ≠ rinf ∧ x = max linf rinf) ∨
        ((lsup ≠ rsup ∧ min lsup rsup ≠ max linf rinf) ∧ x = min lsup rsup)) := by
  unfold Partition.mergeOverlap
  simp only
  have htd : ∀ (l : List ℚ) (v : ℚ), x ∈ l ↔ x ∈ l.takeWhile (· < v) ∨ x ∈ l.dropWhile (· < v) := by
    intro l v
    rw [← List.mem_append, List.takeWhile_append_dropWhile]
  have hL1 : (L.dropWhile (· < rinf)).Pairwise r := hL.sublist (List.dropWhile_sublist _)
  have hR1 : (R.dropWhile (· < linf)).Pairwise r := hR.sublist (List.dropWhile_sublist _)
  rw [htd L rinf, htd R linf]
  generalize L.dropWhile (· < rinf) = L₁ at *
  generalize R.dropWhile (· < linf) = R₁ at *
  generalize L.takeWhile (· < rinf) = L₀
  generalize R.takeWhile (· < linf) = R₀
  set L₂ := (if linf ≠ rinf then Partition.skipEq (max linf rinf) L₁ else L₁) with hL2
  set R₂ := (if linf ≠ rinf then Partition.skipEq (max linf rinf) R₁ else R₁) with hR2
  have sL : L₂.Sublist L₁ := by rw [hL2]; split_ifs; exacts [skipEq_sublist _ _, List.Sublist.refl _]
  have sR : R₂.Sublist R₁ := by rw [hR2]; split_ifs; exacts [skipEq_sublist _ _, List.Sublist.refl _]
  have m1 : (x ∈ (if linf ≠ rinf then [max linf rinf] else []) ∨ x ∈ L₂ ∨ x ∈ R₂) ↔
      ((linf ≠ rinf ∧ x = max linf rinf) ∨ x ∈ L₁ ∨ x ∈ R₁) := by
    rw [hL2, hR2]
    by_cases h : linf ≠ rinf
    · simp only [if_pos h, List.mem_singleton]
      have h1 := mem_skipEq (v := max linf rinf) (x := x) (l := L₁)
      have h2 := mem_skipEq (v := max linf rinf) (x := x) (l := R₁)
      by_cases hx : x = max linf rinf
      · simp [hx, h]
      · simp only [hx, false_or, and_false] at h1 h2 ⊢
        rw [h1, h2]
    · simp [h]
  have spec := mergeLoop_spec hr L₂ R₂ (hL1.sublist sL) (hR1.sublist sR)
  simp only at spec
  obtain ⟨m2, -, -, -, -, -, -⟩ := spec
  specialize m2 x
  generalize Partition.mergeLoop L₂ R₂ = m at *
  obtain ⟨o, a, b⟩ := m
  simp only at m2 ⊢
  rw [htd a rsup, htd b lsup] at m2
  generalize a.dropWhile (· < rsup) = a₁ at *
  generalize b.dropWhile (· < lsup) = b₁ at *
  generalize a.takeWhile (· < rsup) = a₀ at *
  generalize b.takeWhile (· < lsup) = b₀ at *
  have m3 : (x ∈ (if lsup ≠ rsup ∧ min lsup rsup ≠ max linf rinf then [min lsup rsup] else []) ∨
      x ∈ (if lsup ≠ rsup ∧ min lsup rsup ≠ max linf rinf then
        Partition.skipEq (min lsup rsup) a₁ else a₁) ∨
      x ∈ (if lsup ≠ rsup ∧ min lsup rsup ≠ max linf rinf then
        Partition.skipEq (min lsup rsup) b₁ else b₁)) ↔
      (((lsup ≠ rsup ∧ min lsup rsup ≠ max linf rinf) ∧ x = min lsup rsup) ∨ x ∈ a₁ ∨ x ∈ b₁) := by
    by_cases h : lsup ≠ rsup ∧ min lsup rsup ≠ max linf rinf
    · simp only [if_pos h, List.mem_singleton]
      have h1 := mem_skipEq (v := min lsup rsup) (x := x) (l := a₁)
      have h2 := mem_skipEq (v := min lsup rsup) (x := x) (l := b₁)
      by_cases hx : x = min lsup rsup
      · simp [hx, h]
      · simp only [hx, false_or, and_false] at h1 h2 ⊢
        rw [h1, h2]
    · simp [h]
  simp only [List.mem_append]
  clear_value L₂ R₂
  generalize (x ∈ (if linf ≠ rinf then [max linf rinf] else [])) = p1 at *
  generalize (x ∈ (if lsup ≠ rsup ∧ min lsup rsup ≠ max linf rinf then [min lsup rsup] else [])) = p2 at *
  generalize (x ∈ (if lsup ≠ rsup ∧ min lsup rsup ≠ max linf rinf then
        Partition.skipEq (min lsup rsup) a₁ else a₁)) = p3 at *
  generalize (x ∈ (if lsup ≠ rsup ∧ min lsup rsup ≠ max linf rinf then
        Partition.skipEq (min lsup rsup) b₁ else b₁)) = p4 at *
  generalize (linf ≠ rinf ∧ x = max linf rinf) = q1 at *
  generalize ((lsup ≠ rsup ∧ min lsup rsup ≠ max linf rinf) ∧ x = min lsup rsup) = q2 at *
  clear hL hR hL1 hR1 hL2 hR2 sL sR htd
  constructor
  · intro h
    by_contra hc
    simp only [not_or] at hc
    simp only [hc, or_false, false_or, iff_false, not_or, false_iff] at *
    simp_all
  · intro h
    by_contra hc
    simp only [not_or] at hc
    simp only [hc, or_false, false_or, iff_false, not_or, false_iff] at *
    simp_all

theorem mergeOverlap_sorted {r : ℚ → ℚ → Prop} (hr : OrdRel r) {linf lsup rinf rsup : ℚ}
    {L R : List ℚ} (hL : L.Pairwise r) (hR : R.Pairwise r)
    (bL : ∀ x ∈ L, r linf x ∧ r x lsup) (bR : ∀ x ∈ R, r rinf x ∧ r x rsup)
    (hl : r linf lsup) (hrr : r rinf rsup) (o1 : ¬ lsup < rinf) (o2 : ¬ rsup < linf) :
    (Partition.mergeOverlap linf lsup rinf rsup L R).Pairwise r := by
  unfold Partition.mergeOverlap
  simp only
  have hL0 : (L.takeWhile (· < rinf)).Pairwise r := hL.sublist (List.takeWhile_sublist _)
  have hR0 : (R.takeWhile (· < linf)).Pairwise r := hR.sublist (List.takeWhile_sublist _)
  have hL1 : (L.dropWhile (· < rinf)).Pairwise r := hL.sublist (List.dropWhile_sublist _)
  have hR1 : (R.dropWhile (· < linf)).Pairwise r := hR.sublist (List.dropWhile_sublist _)
  have bL0 : ∀ x ∈ L.takeWhile (· < rinf), x < rinf := fun x hx => (mem_takeWhile_lt hx).2
  have bR0 : ∀ x ∈ R.takeWhile (· < linf), x < linf ∧ rinf ≤ x := fun x hx =>
    ⟨(mem_takeWhile_lt hx).2, hr.le (bR x (mem_takeWhile_lt hx).1).1⟩
  have bL1 : ∀ x ∈ L.dropWhile (· < rinf), max linf rinf ≤ x ∧ r x lsup := fun x hx =>
    have h := mem_dropWhile_lt hr hL hx
    ⟨max_le (hr.le (bL x h.1).1) h.2, (bL x h.1).2⟩
  have bR1 : ∀ x ∈ R.dropWhile (· < linf), max linf rinf ≤ x ∧ r x rsup := fun x hx =>
    have h := mem_dropWhile_lt hr hR hx
    ⟨max_le h.2 (hr.le (bR x h.1).1), (bR x h.1).2⟩
  generalize L.dropWhile (· < rinf) = L₁ at *
  generalize R.dropWhile (· < linf) = R₁ at *
  generalize L.takeWhile (· < rinf) = L₀ at *
  generalize R.takeWhile (· < linf) = R₀ at *
  set L₂ := (if linf ≠ rinf then Partition.skipEq (max linf rinf) L₁ else L₁) with hL2
  set R₂ := (if linf ≠ rinf then Partition.skipEq (max linf rinf) R₁ else R₁) with hR2
  have sL : L₂.Sublist L₁ := by rw [hL2]; split_ifs; exacts [skipEq_sublist _ _, List.Sublist.refl _]
  have sR : R₂.Sublist R₁ := by rw [hR2]; split_ifs; exacts [skipEq_sublist _ _, List.Sublist.refl _]
  have skL : linf ≠ rinf → ∀ x ∈ L₂, r (max linf rinf) x := by
    intro h; rw [hL2, if_pos h]; exact skipEq_rel hr hL1 fun x hx => (bL1 x hx).1
  have skR : linf ≠ rinf → ∀ x ∈ R₂, r (max linf rinf) x := by
    intro h; rw [hR2, if_pos h]; exact skipEq_rel hr hR1 fun x hx => (bR1 x hx).1
  have spec := mergeLoop_spec hr L₂ R₂ (hL1.sublist sL) (hR1.sublist sR)
  clear_value L₂ R₂
  simp only at spec
  obtain ⟨m1, m2, m3, m4, m5, m6, m7⟩ := spec
  generalize Partition.mergeLoop L₂ R₂ = m at *
  obtain ⟨o, a, b⟩ := m
  simp only at m1 m2 m3 m4 m5 m6 m7 ⊢
  have ha : a.Pairwise r := (hL1.sublist sL).sublist m5
  have hb : b.Pairwise r := (hR1.sublist sR).sublist m6
  have ub : ∀ x ∈ o, r x lsup ∧ r x rsup :=
    m7 lsup rsup (fun y hy => (bL1 y (sL.subset hy)).2) (fun y hy => (bR1 y (sR.subset hy)).2)
  have lb : ∀ x, x ∈ o ∨ x ∈ a ∨ x ∈ b → max linf rinf ≤ x ∧ (linf ≠ rinf → r (max linf rinf) x) := by
    intro x hx
    rcases (m1 x).mp hx with h | h
    · exact ⟨(bL1 x (sL.subset h)).1, fun hn => skL hn x h⟩
    · exact ⟨(bR1 x (sR.subset h)).1, fun hn => skR hn x h⟩
  have bo1 : ∀ x ∈ L₀ ++ R₀, x < max linf rinf := by
    intro x hx
    rcases List.mem_append.mp hx with h | h
    · exact (bL0 x h).trans_le (le_max_right _ _)
    · exact (bR0 x h).1.trans_le (le_max_left _ _)
  have hmm : max linf rinf ≤ min lsup rsup :=
    max_le (le_min (hr.le hl) (not_lt.mp o2)) (le_min (not_lt.mp o1) (hr.le hrr))
  -- last part: a, b split at rsup, lsup
  have ta : ∀ x ∈ a.takeWhile (· < rsup), x ∈ a ∧ x < rsup := fun x hx => mem_takeWhile_lt hx
  have tb : ∀ x ∈ b.takeWhile (· < lsup), x ∈ b ∧ x < lsup := fun x hx => mem_takeWhile_lt hx
  have da : ∀ x ∈ a.dropWhile (· < rsup), x ∈ a ∧ rsup ≤ x := fun x hx => mem_dropWhile_lt hr ha hx
  have db : ∀ x ∈ b.dropWhile (· < lsup), x ∈ b ∧ lsup ≤ x := fun x hx => mem_dropWhile_lt hr hb hx
  have pta : (a.takeWhile (· < rsup)).Pairwise r := ha.sublist (List.takeWhile_sublist _)
  have ptb : (b.takeWhile (· < lsup)).Pairwise r := hb.sublist (List.takeWhile_sublist _)
  have pda : (a.dropWhile (· < rsup)).Pairwise r := ha.sublist (List.dropWhile_sublist _)
  have pdb : (b.dropWhile (· < lsup)).Pairwise r := hb.sublist (List.dropWhile_sublist _)
  have tda : ∀ x ∈ a.takeWhile (· < rsup), ∀ y ∈ a.dropWhile (· < rsup), r x y := by
    intro x hx y hy
    exact hr.of_lt ((ta x hx).2.trans_le (da y hy).2)
  have tdb : ∀ x ∈ b.takeWhile (· < lsup), ∀ y ∈ b.dropWhile (· < lsup), r x y := by
    intro x hx y hy
    exact hr.of_lt ((tb x hx).2.trans_le (db y hy).2)
  have bal : ∀ x ∈ a, r x lsup := fun x hx => (bL1 x (sL.subset (m5.subset hx))).2
  have bbr : ∀ x ∈ b, r x rsup := fun x hx => (bR1 x (sR.subset (m6.subset hx))).2
  have eab : (a = [] ∨ b = []) := m4
  set c : Prop := lsup ≠ rsup ∧ min lsup rsup ≠ max linf rinf with hc
  set a₂ := (if c then Partition.skipEq (min lsup rsup) (a.dropWhile (· < rsup))
    else a.dropWhile (· < rsup)) with ha2
  set b₂ := (if c then Partition.skipEq (min lsup rsup) (b.dropWhile (· < lsup))
    else b.dropWhile (· < lsup)) with hb2
  have sa2 : a₂.Sublist (a.dropWhile (· < rsup)) := by
    rw [ha2]; split_ifs; exacts [skipEq_sublist _ _, List.Sublist.refl _]
  have sb2 : b₂.Sublist (b.dropWhile (· < lsup)) := by
    rw [hb2]; split_ifs; exacts [skipEq_sublist _ _, List.Sublist.refl _]
  have ska : c → ∀ x ∈ a₂, r (min lsup rsup) x := by
    intro h; rw [ha2, if_pos h]
    exact skipEq_rel hr pda fun x hx => (min_le_right _ _).trans (da x hx).2
  have skb : c → ∀ x ∈ b₂, r (min lsup rsup) x := by
    intro h; rw [hb2, if_pos h]
    exact skipEq_rel hr pdb fun x hx => (min_le_left _ _).trans (db x hx).2
  have o5 : ∀ x ∈ (if c then [min lsup rsup] else []), c ∧ x = min lsup rsup := by
    intro x hx
    split_ifs at hx with h
    · exact ⟨h, by simpa using hx⟩
    · simp at hx
  have o2m : ∀ x ∈ (if linf ≠ rinf then [max linf rinf] else []), linf ≠ rinf ∧ x = max linf rinf := by
    intro x hx
    split_ifs at hx with h
    · exact ⟨h, by simpa using hx⟩
    · simp at hx
  have po5 : (if c then [min lsup rsup] else []).Pairwise r := by split_ifs <;> simp
  have po2 : (if linf ≠ rinf then [max linf rinf] else []).Pairwise r := by split_ifs <;> simp
  clear_value a₂ b₂
  have rmin : ∀ x, r x lsup → r x rsup → r x (min lsup rsup) := by
    intro x h1 h2
    rcases min_choice lsup rsup with h | h <;> rw [h] <;> assumption
  have ab : ∀ x ∈ a, ∀ y ∈ b, False := by
    intro x hx y hy
    rcases eab with h | h
    · rw [h] at hx; simp at hx
    · rw [h] at hy; simp at hy
  have ma2 : ∀ x ∈ a₂, x ∈ a ∧ rsup ≤ x := fun x hx => da x (sa2.subset hx)
  have mb2 : ∀ x ∈ b₂, x ∈ b ∧ lsup ≤ x := fun x hx => db x (sb2.subset hx)
  refine List.pairwise_append.mpr ⟨List.pairwise_append.mpr ⟨List.pairwise_append.mpr
    ⟨List.pairwise_append.mpr ⟨List.pairwise_append.mpr ⟨List.pairwise_append.mpr ⟨List.pairwise_append.mpr
    ⟨hL0, hR0, ?_⟩, po2, ?_⟩, m2, ?_⟩, List.pairwise_append.mpr ⟨pta, ptb, ?_⟩, ?_⟩, po5, ?_⟩,
    pda.sublist sa2, ?_⟩, pdb.sublist sb2, ?_⟩
  · intro x hx y hy
    exact hr.of_lt ((bL0 x hx).trans_le (bR0 y hy).2)
  · intro x hx y hy
    rw [(o2m y hy).2]
    exact hr.of_lt (bo1 x hx)
  · intro x hx y hy
    have hl := lb y (Or.inl hy)
    rcases List.mem_append.mp hx with hx | hx
    · exact hr.of_lt ((bo1 x hx).trans_le hl.1)
    · rw [(o2m x hx).2]; exact hl.2 (o2m x hx).1
  · intro x hx y hy
    exact (ab x (ta x hx).1 y (tb y hy).1).elim
  · intro x hx y hy
    have hy' : y ∈ a ∨ y ∈ b := by
      rcases List.mem_append.mp hy with h | h
      · exact Or.inl (ta y h).1
      · exact Or.inr (tb y h).1
    have hl := lb y (Or.inr hy')
    rcases List.mem_append.mp hx with hx | hx
    · rcases List.mem_append.mp hx with hx | hx
      · exact hr.of_lt ((bo1 x hx).trans_le hl.1)
      · rw [(o2m x hx).2]; exact hl.2 (o2m x hx).1
    · exact m3 x hx y hy'
  · intro x hx y hy
    obtain ⟨hcc, rfl⟩ := o5 y hy
    have hlt : max linf rinf < min lsup rsup := by
      rw [hc] at hcc
      exact lt_of_le_of_ne hmm (Ne.symm hcc.2)
    rcases List.mem_append.mp hx with hx | hx
    · rcases List.mem_append.mp hx with hx | hx
      · rcases List.mem_append.mp hx with hx | hx
        · exact hr.of_lt ((bo1 x hx).trans hlt)
        · rw [(o2m x hx).2]; exact hr.of_lt hlt
      · exact rmin x (ub x hx).1 (ub x hx).2
    · rcases List.mem_append.mp hx with hx | hx
      · exact rmin x (bal x (ta x hx).1) (hr.of_lt (ta x hx).2)
      · exact rmin x (hr.of_lt (tb x hx).2) (bbr x (tb x hx).1)
  · intro x hx y hy
    have hl := lb y (Or.inr (Or.inl (ma2 y hy).1))
    rcases List.mem_append.mp hx with hx | hx
    · rcases List.mem_append.mp hx with hx | hx
      · rcases List.mem_append.mp hx with hx | hx
        · rcases List.mem_append.mp hx with hx | hx
          · exact hr.of_lt ((bo1 x hx).trans_le hl.1)
          · rw [(o2m x hx).2]; exact hl.2 (o2m x hx).1
        · exact m3 x hx y (Or.inl (ma2 y hy).1)
      · rcases List.mem_append.mp hx with hx | hx
        · exact tda x hx y (sa2.subset hy)
        · exact (ab y (ma2 y hy).1 x (tb x hx).1).elim
    · obtain ⟨hcc, rfl⟩ := o5 x hx
      exact ska hcc y hy
  · intro x hx y hy
    have hl := lb y (Or.inr (Or.inr (mb2 y hy).1))
    rcases List.mem_append.mp hx with hx | hx
    · rcases List.mem_append.mp hx with hx | hx
      · rcases List.mem_append.mp hx with hx | hx
        · rcases List.mem_append.mp hx with hx | hx
          · rcases List.mem_append.mp hx with hx | hx
            · exact hr.of_lt ((bo1 x hx).trans_le hl.1)
            · rw [(o2m x hx).2]; exact hl.2 (o2m x hx).1
          · exact m3 x hx y (Or.inr (mb2 y hy).1)
        · rcases List.mem_append.mp hx with hx | hx
          · exact (ab x (ta x hx).1 y (mb2 y hy).1).elim
          · exact tdb x hx y (sb2.subset hy)
      · obtain ⟨hcc, rfl⟩ := o5 x hx
        exact skb hcc y hy
    · exact (ab x (ma2 x hx).1 y (mb2 y hy).1).elim

end RoughPy.Partition
