import Verif.Partition.Lemmas

/-! # Properties C10, C11, C54: partitions -/

namespace RoughPy.Partition

open RoughPy.Intervals

/-- weak invariant: sorted points between the ends (helper, not part of a statement). -/
def WF (r : ℚ → ℚ → Prop) (p : Partition) : Prop :=
  r p.base.inf p.base.sup ∧ p.pts.Pairwise r ∧ ∀ x ∈ p.pts, r p.base.inf x ∧ r x p.base.sup

theorem mid_rel {r : ℚ → ℚ → Prop} (hr : r = (· ≤ ·) ∨ r = (· < ·)) {x y : ℚ} (h : r x y) :
    r x ((y + x) / 2) ∧ r ((y + x) / 2) y := by
  rcases hr with rfl | rfl <;> constructor <;> linarith

theorem ordRel_of {r : ℚ → ℚ → Prop} (hr : r = (· ≤ ·) ∨ r = (· < ·)) : OrdRel r := by
  rcases hr with rfl | rfl
  · exact ordRel_le
  · exact ordRel_lt

theorem refineLoop_spec {r : ℚ → ℚ → Prop} (hr : r = (· ≤ ·) ∨ r = (· < ·)) (sup : ℚ)
    (l : List ℚ) : ∀ prev, r prev sup → l.Pairwise r → (∀ x ∈ l, r prev x ∧ r x sup) →
    (Partition.refineLoop sup prev l).Pairwise r ∧
      ∀ x ∈ Partition.refineLoop sup prev l, r prev x ∧ r x sup := by
  have ho := ordRel_of hr
  induction l with
  | nil =>
    intro prev h _ _
    simp only [Partition.refineLoop, List.pairwise_singleton, List.mem_singleton, true_and]
    rintro x rfl
    exact mid_rel hr h
  | cons y l ih =>
    intro prev h hp hb
    rw [List.pairwise_cons] at hp
    obtain ⟨h1, h2⟩ := hb y (List.mem_cons_self ..)
    obtain ⟨i1, i2⟩ := ih y h2 hp.2 fun x hx => ⟨hp.1 x hx, (hb x (List.mem_cons_of_mem _ hx)).2⟩
    obtain ⟨m1, m2⟩ := mid_rel hr h1
    simp only [Partition.refineLoop, List.pairwise_cons, List.mem_cons]
    refine ⟨⟨?_, fun x hx => (i2 x hx).1, i1⟩, ?_⟩
    · rintro x (rfl | hx)
      · exact m2
      · exact ho.trans_le m2 (ho.le (i2 x hx).1)
    · rintro x (rfl | rfl | hx)
      · exact ⟨m1, ho.trans_le m2 (ho.le h2)⟩
      · exact ⟨h1, h2⟩
      · exact ⟨ho.trans_le h1 (ho.le (i2 x hx).1), (i2 x hx).2⟩

theorem wf_refine {r : ℚ → ℚ → Prop} (hr : r = (· ≤ ·) ∨ r = (· < ·)) (p : Partition)
    (h : WF r p) : WF r p.refineMidpoints :=
  ⟨h.1, refineLoop_spec hr p.base.sup p.pts p.base.inf h.1 h.2.1 h.2.2⟩

theorem mk'_of_le {a b : ℚ} (t : IType) (h : a ≤ b) : RealInterval.mk' a b t = ⟨a, b, t⟩ := by
  unfold RealInterval.mk'; rw [if_neg (not_lt.mpr h)]

theorem containsPoint_le {b : RealInterval} {x : ℚ} (h : b.containsPoint x = true) :
    b.inf ≤ x ∧ x ≤ b.sup := by
  unfold RealInterval.containsPoint at h
  cases hb : b.type <;> simp [hb] at h
  · exact ⟨h.1, h.2.le⟩
  · exact ⟨h.1.le, h.2⟩

theorem wf_merge {r : ℚ → ℚ → Prop} (hr : r = (· ≤ ·) ∨ r = (· < ·)) (p q m : Partition)
    (hp : WF r p) (hq : WF r q) (h : p.merge q = some m) : WF r m := by
  have ho := ordRel_of hr
  obtain ⟨p1, p2, p3⟩ := hp
  obtain ⟨q1, q2, q3⟩ := hq
  have hb : r (min p.base.inf q.base.inf) (max p.base.sup q.base.sup) :=
    ho.le_trans (min_le_left _ _) (ho.trans_le p1 (le_max_left _ _))
  unfold Partition.merge at h
  simp only at h
  rw [mk'_of_le _ (ho.le hb)] at h
  have lpq := ho.le p1
  have lqq := ho.le q1
  -- at most two points, given by conditions
  have two : ∀ (c d : Prop) [Decidable c] [Decidable d] (x y lo hi : ℚ), (c → d → r x y) →
      (c → r lo x ∧ r x hi) → (d → r lo y ∧ r y hi) →
      ((if c then [x] else []) ++ (if d then [y] else [])).Pairwise r ∧
      ∀ z ∈ (if c then [x] else []) ++ (if d then [y] else []), r lo z ∧ r z hi := by
    intro c d _ _ x y lo hi h1 h2 h3
    by_cases hc : c <;> by_cases hd : d <;> simp [hc, hd, h1, h2, h3]
  by_cases ht : p.base.type = q.base.type
  · rw [if_pos ht] at h
    by_cases h1 : p.base.sup < q.base.inf
    · rw [if_pos h1] at h
      cases h
      exact ⟨hb, two _ _ _ _ _ _ (fun _ _ => ho.of_lt h1)
        (fun hc => ⟨ho.le_trans (min_le_left _ _) (ho.of_lt (lt_of_le_of_ne lpq (Ne.symm hc))),
          ho.of_lt (h1.trans_le (lqq.trans (le_max_right _ _)))⟩)
        (fun hd => ⟨ho.of_lt ((min_le_left _ _).trans_lt (lpq.trans_lt h1)),
          ho.trans_le (ho.of_lt (lt_of_le_of_ne lqq hd)) (le_max_right _ _)⟩)⟩
    · rw [if_neg h1] at h
      by_cases h2 : q.base.sup < p.base.inf
      · rw [if_pos h2] at h
        cases h
        exact ⟨hb, two _ _ _ _ _ _ (fun _ _ => ho.of_lt h2)
          (fun hc => ⟨ho.le_trans (min_le_right _ _) (ho.of_lt (lt_of_le_of_ne lqq hc)),
            ho.of_lt (h2.trans_le (lpq.trans (le_max_left _ _)))⟩)
          (fun hd => ⟨ho.of_lt ((min_le_right _ _).trans_lt (lqq.trans_lt h2)),
            ho.trans_le (ho.of_lt (lt_of_le_of_ne lpq (Ne.symm hd))) (le_max_left _ _)⟩)⟩
      · rw [if_neg h2] at h
        cases h
        refine ⟨hb, mergeOverlap_sorted ho p2 q2 p3 q3 p1 q1 h1 h2, ?_⟩
        intro x hx
        rw [mergeOverlap_mem ho p2 q2] at hx
        have hmm : max p.base.inf q.base.inf ≤ min p.base.sup q.base.sup :=
          max_le (le_min lpq (not_lt.mp h2)) (le_min (not_lt.mp h1) lqq)
        rcases hx with hx | hx | ⟨hx, rfl⟩ | ⟨⟨hx1, hx2⟩, rfl⟩
        · exact ⟨ho.le_trans (min_le_left _ _) (p3 x hx).1, ho.trans_le (p3 x hx).2 (le_max_left _ _)⟩
        · exact ⟨ho.le_trans (min_le_right _ _) (q3 x hx).1, ho.trans_le (q3 x hx).2 (le_max_right _ _)⟩
        · refine ⟨ho.of_lt (min_lt_max.mpr hx), ?_⟩
          rcases max_choice p.base.inf q.base.inf with he | he <;> rw [he]
          · exact ho.trans_le p1 (le_max_left _ _)
          · exact ho.trans_le q1 (le_max_right _ _)
        · refine ⟨ho.of_lt ?_, ho.of_lt (min_lt_max.mpr hx1)⟩
          exact (min_le_max).trans_lt (lt_of_le_of_ne hmm (Ne.symm hx2))
  · rw [if_neg ht] at h
    cases h

theorem insert_sorted (x : ℚ) (l : List ℚ) (h : l.Pairwise (· ≤ ·)) :
    (l.takeWhile (· < x) ++ x :: l.dropWhile (· < x)).Pairwise (· ≤ ·) := by
  refine List.pairwise_append.mpr ⟨h.sublist (List.takeWhile_sublist _), ?_, ?_⟩
  · rw [List.pairwise_cons]
    exact ⟨fun y hy => (mem_dropWhile_lt ordRel_le h hy).2, h.sublist (List.dropWhile_sublist _)⟩
  · intro a ha b hb
    have h1 := (mem_takeWhile_lt ha).2
    rcases List.mem_cons.mp hb with rfl | hb
    · exact h1.le
    · exact h1.le.trans (mem_dropWhile_lt ordRel_le h hb).2

theorem mem_insert (x y : ℚ) (l : List ℚ) :
    y ∈ l.takeWhile (· < x) ++ x :: l.dropWhile (· < x) ↔ y = x ∨ y ∈ l := by
  have : y ∈ l ↔ y ∈ l.takeWhile (· < x) ∨ y ∈ l.dropWhile (· < x) := by
    rw [← List.mem_append, List.takeWhile_append_dropWhile]
  rw [List.mem_append, List.mem_cons, this, or_left_comm]

theorem wf_of_reachable (p : Partition) (h : Reachable p) : WF (· ≤ ·) p := by
  induction h with
  | base b hb => exact ⟨hb, List.Pairwise.nil, by simp [Partition.ofBase]⟩
  | points b mids hb =>
    refine ⟨hb, ?_, ?_⟩
    · exact List.pairwise_insertionSort _ _
    · intro x hx
      simp only [Partition.ofPoints, List.mem_insertionSort, List.mem_filter, Bool.and_eq_true] at hx
      exact containsPoint_le hx.2.1.1
  | refine p _ ih => exact wf_refine (Or.inl rfl) p ih
  | insert p x q _ hi ih =>
    unfold Partition.insert at hi
    split_ifs at hi with hc
    cases hi
    refine ⟨ih.1, insert_sorted x p.pts ih.2.1, ?_⟩
    intro y hy
    rcases (mem_insert x y p.pts).mp hy with rfl | hy
    · exact containsPoint_le hc
    · exact ih.2.2 y hy
  | merge p q m _ _ hm ihp ihq => exact wf_merge (Or.inl rfl) p q m ihp ihq hm

/-- the list of pieces (helper) -/
def piecesAux (t : IType) (sup : ℚ) : ℚ → List ℚ → List RealInterval
  | prev, [] => [⟨prev, sup, t⟩]
  | prev, x :: xs => ⟨prev, x, t⟩ :: piecesAux t sup x xs

theorem piecesAux_length (t sup) (l : List ℚ) : ∀ prev, (piecesAux t sup prev l).length = 1 + l.length := by
  induction l with
  | nil => intro _; rfl
  | cons x l ih => intro prev; simp [piecesAux, ih]; omega

theorem getD_lt (l : List ℚ) {i : ℕ} (h : i < l.length) : l.getD i 0 = l[i] := by
  simp [List.getD, h]

theorem piecesAux_get (t sup) (l : List ℚ) : ∀ prev i, i ≤ l.length →
    (piecesAux t sup prev l)[i]? = some
      ⟨if i = 0 then prev else l.getD (i - 1) 0, if i = l.length then sup else l.getD i 0, t⟩ := by
  induction l with
  | nil => intro prev i hi; simp at hi; subst hi; simp [piecesAux]
  | cons x l ih =>
    intro prev i hi
    cases i with
    | zero => simp [piecesAux]
    | succ i =>
      simp only [piecesAux, List.getElem?_cons_succ]
      rw [ih x i (by simpa using hi)]
      rw [if_neg (Nat.succ_ne_zero i)]
      simp only [Nat.add_sub_cancel, List.length_cons, Nat.add_right_cancel_iff,
        List.getD_cons_succ]
      cases i with
      | zero => rfl
      | succ i => rfl

theorem piecesAux_tiles (t sup) (l : List ℚ) : ∀ prev, prev ≤ sup → l.Pairwise (· ≤ ·) →
    (∀ x ∈ l, prev ≤ x ∧ x ≤ sup) → Tiles (piecesAux t sup prev l) prev sup := by
  induction l with
  | nil => intro prev h _ _; exact ⟨rfl, h, rfl⟩
  | cons x l ih =>
    intro prev h hp hb
    rw [List.pairwise_cons] at hp
    obtain ⟨h1, h2⟩ := hb x (List.mem_cons_self ..)
    exact ⟨rfl, h1, ih x h2 hp.2 fun y hy => ⟨hp.1 y hy, (hb y (List.mem_cons_of_mem _ hy)).2⟩⟩

theorem piecesAux_type (t sup) (l : List ℚ) : ∀ prev, ∀ d ∈ piecesAux t sup prev l, d.type = t := by
  induction l with
  | nil => intro prev d hd; simp [piecesAux] at hd; subst hd; rfl
  | cons x l ih =>
    intro prev d hd
    rcases List.mem_cons.mp hd with rfl | hd
    · rfl
    · exact ih x d hd

theorem get_eq_pieces (p : Partition) (h : WF (· ≤ ·) p) (i : ℕ) (hi : i < p.size) :
    p.get i = (piecesAux p.base.type p.base.sup p.base.inf p.pts)[i]? := by
  obtain ⟨h1, h2, h3⟩ := h
  have hi' : i ≤ p.pts.length := by unfold Partition.size at hi; omega
  rw [piecesAux_get _ _ _ _ _ hi']
  unfold Partition.get
  rw [if_pos hi']
  by_cases h0 : p.pts.length = 0
  · rw [if_pos h0]
    have : i = 0 := by omega
    subst this
    simp [h0]
  rw [if_neg h0]
  have hne : p.pts ≠ [] := fun h => h0 (by rw [h]; rfl)
  by_cases hi0 : i = 0
  · subst hi0
    rw [if_pos rfl, if_pos rfl, if_neg (Ne.symm h0)]
    cases hl : p.pts with
    | nil => exact absurd hl hne
    | cons x l =>
      simp only [List.head?_cons, Option.map_some, List.getD_cons_zero]
      rw [mk'_of_le _ (h3 x (by rw [hl]; exact List.mem_cons_self ..)).1]
  rw [if_neg hi0, if_neg hi0]
  by_cases hil : i = p.pts.length
  · rw [if_pos hil, if_pos hil]
    have hlt : i - 1 < p.pts.length := by omega
    rw [List.getLast?_eq_getElem?, ← hil, List.getElem?_eq_getElem hlt, Option.map_some,
      getD_lt _ hlt, mk'_of_le _ (h3 _ (List.getElem_mem hlt)).2]
  · rw [if_neg hil, if_neg hil]
    have hlt : i < p.pts.length := by omega
    have hlt' : i - 1 < p.pts.length := by omega
    rw [List.getElem?_eq_getElem hlt, List.getElem?_eq_getElem hlt', getD_lt _ hlt,
      getD_lt _ hlt']
    have := (List.pairwise_iff_getElem.mp h2) (i - 1) i hlt' hlt (by omega)
    simp only [Option.pure_def, Option.bind_eq_bind, Option.bind_some]
    rw [mk'_of_le _ this]

/-! ## C10 -/

/-- C10: for every partition obtainable by any sequence of public operations, the pieces
`p[0], …, p[size-1]` exist, have the partition's type and lead without gap or overlap from its
`inf` to its `sup`; every other index is refused. -/
theorem C10_pieces_tile (p : Partition) (h : Reachable p) :
    ∃ l : List RealInterval, l.length = p.size ∧ (∀ i (hi : i < l.length), p.get i = some l[i]) ∧
      (∀ i, p.size ≤ i → p.get i = none) ∧ Tiles l p.base.inf p.base.sup ∧
      ∀ d ∈ l, d.type = p.base.type := by
  have hw := wf_of_reachable p h
  have hlen := piecesAux_length p.base.type p.base.sup p.pts p.base.inf
  refine ⟨piecesAux p.base.type p.base.sup p.base.inf p.pts, hlen, ?_, ?_, ?_, ?_⟩
  · intro i hi
    rw [get_eq_pieces p hw i (by rw [hlen] at hi; exact hi), List.getElem?_eq_getElem hi]
  · intro i hi
    unfold Partition.get
    rw [if_neg]
    unfold Partition.size at hi
    omega
  · exact piecesAux_tiles _ _ _ _ hw.1 hw.2.1 hw.2.2
  · exact piecesAux_type _ _ _ _

example : ((Partition.ofPoints ⟨0, 4, .clopen⟩ [3, 1]).insert 2).map
    (fun p => (p.get 0, p.get 1, p.get 2, p.get 3, p.get 4))
    = some (some ⟨0, 1, .clopen⟩, some ⟨1, 2, .clopen⟩, some ⟨2, 3, .clopen⟩, some ⟨3, 4, .clopen⟩, none) := by
  decide +kernel

/-- C10, constructor: the intermediates kept are exactly the supplied points strictly inside
the interval. -/
theorem C10_constructor_points (b : RealInterval) (mids : List ℚ) (x : ℚ) :
    x ∈ (Partition.ofPoints b mids).pts ↔ x ∈ mids ∧ b.inf < x ∧ x < b.sup := by
  simp only [Partition.ofPoints, List.mem_insertionSort, List.mem_filter, Bool.and_eq_true,
    decide_eq_true_eq]
  unfold RealInterval.containsPoint
  refine and_congr_right fun _ => ?_
  cases b.type <;> simp only [Bool.and_eq_true, decide_eq_true_eq]
  · constructor
    · rintro ⟨⟨⟨h1, h2⟩, h3⟩, -⟩
      exact ⟨lt_of_le_of_ne h1 (Ne.symm h3), h2⟩
    · rintro ⟨h1, h2⟩
      exact ⟨⟨⟨h1.le, h2⟩, h1.ne'⟩, h2.ne⟩
  · constructor
    · rintro ⟨⟨⟨h1, h2⟩, -⟩, h3⟩
      exact ⟨h1, lt_of_le_of_ne h2 h3⟩
    · rintro ⟨h1, h2⟩
      exact ⟨⟨⟨h1, h2.le⟩, h1.ne'⟩, h2.ne⟩

/-- C10, `refine_midpoints`: keeps every point, doubles the number of pieces, and piece `i`
of the old partition is split at its midpoint into the pieces `2i` and `2i+1`. -/
theorem C10_refine_midpoints (p : Partition) (h : Reachable p) :
    p.refineMidpoints.size = 2 * p.size ∧
    ∀ i d, p.get i = some d →
      p.refineMidpoints.get (2 * i) = some ⟨d.inf, (d.inf + d.sup) / 2, d.type⟩ ∧
      p.refineMidpoints.get (2 * i + 1) = some ⟨(d.inf + d.sup) / 2, d.sup, d.type⟩ := by
  have hlen : ∀ (l : List ℚ) prev, (Partition.refineLoop p.base.sup prev l).length = 2 * l.length + 1 := by
    intro l
    induction l with
    | nil => intro _; rfl
    | cons x l ih => intro prev; simp [Partition.refineLoop, ih]; omega
  have hsize : p.refineMidpoints.size = 2 * p.size := by
    simp only [Partition.size, Partition.refineMidpoints, hlen]; omega
  refine ⟨hsize, ?_⟩
  have hw := wf_of_reachable p h
  have hw' := wf_of_reachable _ (.refine p h)
  have split : ∀ (t : IType) (sup : ℚ) (l : List ℚ) (prev : ℚ) (i : ℕ) (d : RealInterval),
      (piecesAux t sup prev l)[i]? = some d →
      (piecesAux t sup prev (Partition.refineLoop sup prev l))[2 * i]?
        = some ⟨d.inf, (d.inf + d.sup) / 2, d.type⟩ ∧
      (piecesAux t sup prev (Partition.refineLoop sup prev l))[2 * i + 1]?
        = some ⟨(d.inf + d.sup) / 2, d.sup, d.type⟩ := by
    intro t sup l
    induction l with
    | nil =>
      intro prev i d hd
      cases i with
      | zero =>
        simp only [piecesAux, List.getElem?_cons_zero, Option.some.injEq] at hd
        subst hd
        simp [piecesAux, Partition.refineLoop, add_comm]
      | succ i => simp [piecesAux] at hd
    | cons x l ih =>
      intro prev i d hd
      cases i with
      | zero =>
        simp only [piecesAux, List.getElem?_cons_zero, Option.some.injEq] at hd
        subst hd
        simp [piecesAux, Partition.refineLoop, add_comm]
      | succ i =>
        simp only [piecesAux, List.getElem?_cons_succ] at hd
        have := ih x i d hd
        simp only [piecesAux, Partition.refineLoop]
        rw [show 2 * (i + 1) = 2 * i + 1 + 1 by ring]
        simpa only [List.getElem?_cons_succ] using this
  intro i d hd
  have hi : i < p.size := by
    by_contra hc
    obtain ⟨l, -, -, hn, -⟩ := C10_pieces_tile p h
    rw [hn i (not_lt.mp hc)] at hd
    simp at hd
  rw [get_eq_pieces p hw i hi] at hd
  rw [get_eq_pieces _ hw' _ (by omega), get_eq_pieces _ hw' _ (by omega)]
  exact split _ _ _ _ _ _ hd

example : Reachable (.ofPoints ⟨0, 4, .clopen⟩ [3, 1]) := .points _ _ (by norm_num)

/-- C10, `insert_intermediate`: the points afterwards are the old ones and the new one, and
the call is refused exactly for points outside the interval. -/
theorem C10_insert (p : Partition) (x : ℚ) :
    (∀ q, p.insert x = some q → q.base = p.base ∧ ∀ y, y ∈ q.pts ↔ y = x ∨ y ∈ p.pts) ∧
    (p.insert x = none ↔ x ∉ span p.base.type p.base.inf p.base.sup) := by
  have hc : p.base.containsPoint x = true ↔ x ∈ span p.base.type p.base.inf p.base.sup := by
    unfold RealInterval.containsPoint span
    cases p.base.type <;> simp [Set.mem_Ico, Set.mem_Ioc]
  unfold Partition.insert
  constructor
  · intro q hq
    split_ifs at hq
    cases hq
    exact ⟨rfl, fun y => mem_insert x y p.pts⟩
  · rw [← hc]
    split_ifs with h <;> simp [h]

/-- C10, `merge` of two proper partitions of the same type whose intervals overlap or touch
is the common refinement: proper, over the hull, and its points are exactly the points and
end points of both that lie inside the hull.
Missing: intervals with a gap between them, where intermediates are lost
(`C10_merge_disjoint_refuted`). -/
theorem C10_merge_partial (p q : Partition) (hp : Proper p) (hq : Proper q)
    (ht : p.base.type = q.base.type) (h1 : q.base.inf ≤ p.base.sup) (h2 : p.base.inf ≤ q.base.sup) :
    ∃ m, p.merge q = some m ∧ Proper m ∧ m.base.type = p.base.type ∧
      m.base.inf = min p.base.inf q.base.inf ∧ m.base.sup = max p.base.sup q.base.sup ∧
      ∀ x, x ∈ m.pts ↔ (m.base.inf < x ∧ x < m.base.sup) ∧
        (x ∈ p.pts ∨ x ∈ q.pts ∨ x = p.base.inf ∨ x = p.base.sup ∨ x = q.base.inf ∨ x = q.base.sup) := by
  have hm : p.merge q = some ⟨⟨min p.base.inf q.base.inf, max p.base.sup q.base.sup, p.base.type⟩,
      Partition.mergeOverlap p.base.inf p.base.sup q.base.inf q.base.sup p.pts q.pts⟩ := by
    unfold Partition.merge
    simp only
    rw [if_pos ht, if_neg (not_lt.mpr h1), if_neg (not_lt.mpr h2), mk'_of_le]
    exact (min_le_left _ _).trans (hp.1.le.trans (le_max_left _ _))
  have hw : WF (· < ·) _ := wf_merge (Or.inr rfl) p q _ hp hq hm
  refine ⟨_, hm, hw, rfl, rfl, rfl, ?_⟩
  intro x
  obtain ⟨p1, p2, p3⟩ := hp
  obtain ⟨q1, q2, q3⟩ := hq
  constructor
  · intro hx
    refine ⟨hw.2.2 x hx, ?_⟩
    rcases (mergeOverlap_mem ordRel_lt p2 q2 x).mp hx with hx | hx | ⟨-, hx⟩ | ⟨-, hx⟩
    · exact Or.inl hx
    · exact Or.inr (Or.inl hx)
    · rcases max_choice p.base.inf q.base.inf with he | he <;> rw [he] at hx <;> simp [hx]
    · rcases min_choice p.base.sup q.base.sup with he | he <;> rw [he] at hx <;> simp [hx]
  · rintro ⟨⟨g1, g2⟩, hx⟩
    simp only at g1 g2 ⊢
    rw [mergeOverlap_mem ordRel_lt p2 q2 x]
    have hsup : ∀ y, y = p.base.sup ∨ y = q.base.sup → y < max p.base.sup q.base.sup →
        p.base.sup ≠ q.base.sup ∧ y = min p.base.sup q.base.sup := by
      intro y hy hlt
      have hne : p.base.sup ≠ q.base.sup := by
        intro he
        rw [he, max_self] at hlt
        rcases hy with rfl | rfl
        · rw [he] at hlt; exact lt_irrefl _ hlt
        · exact lt_irrefl _ hlt
      refine ⟨hne, ?_⟩
      rcases lt_or_gt_of_ne hne with h | h
      · rw [max_eq_right h.le] at hlt
        rw [min_eq_left h.le]
        rcases hy with rfl | rfl
        · rfl
        · exact absurd hlt (lt_irrefl _)
      · rw [max_eq_left h.le] at hlt
        rw [min_eq_right h.le]
        rcases hy with rfl | rfl
        · exact absurd hlt (lt_irrefl _)
        · rfl
    have hinf : ∀ y, y = p.base.inf ∨ y = q.base.inf → min p.base.inf q.base.inf < y →
        p.base.inf ≠ q.base.inf ∧ y = max p.base.inf q.base.inf := by
      intro y hy hlt
      have hne : p.base.inf ≠ q.base.inf := by
        intro he
        rw [he, min_self] at hlt
        rcases hy with rfl | rfl
        · rw [he] at hlt; exact lt_irrefl _ hlt
        · exact lt_irrefl _ hlt
      refine ⟨hne, ?_⟩
      rcases lt_or_gt_of_ne hne with h | h
      · rw [min_eq_left h.le] at hlt
        rw [max_eq_right h.le]
        rcases hy with rfl | rfl
        · exact absurd hlt (lt_irrefl _)
        · rfl
      · rw [min_eq_right h.le] at hlt
        rw [max_eq_left h.le]
        rcases hy with rfl | rfl
        · rfl
        · exact absurd hlt (lt_irrefl _)
    have sup_case : x = p.base.sup ∨ x = q.base.sup →
        (p.base.inf ≠ q.base.inf ∧ x = max p.base.inf q.base.inf) ∨
        ((p.base.sup ≠ q.base.sup ∧ min p.base.sup q.base.sup ≠ max p.base.inf q.base.inf) ∧
          x = min p.base.sup q.base.sup) := by
      intro hx
      obtain ⟨hne, he⟩ := hsup x hx g2
      by_cases hmm : min p.base.sup q.base.sup = max p.base.inf q.base.inf
      · left
        refine ⟨fun hi => ?_, he.trans hmm⟩
        rw [hi, min_self] at g1
        rw [he, hmm, hi, max_self] at g1
        exact lt_irrefl _ g1
      · exact Or.inr ⟨⟨hne, hmm⟩, he⟩
    rcases hx with hx | hx | hx | hx | hx | hx
    · exact Or.inl hx
    · exact Or.inr (Or.inl hx)
    · exact Or.inr (Or.inr (Or.inl (hinf x (Or.inl hx) g1)))
    · exact Or.inr (Or.inr (sup_case (Or.inl hx)))
    · exact Or.inr (Or.inr (Or.inl (hinf x (Or.inr hx) g1)))
    · exact Or.inr (Or.inr (sup_case (Or.inr hx)))

example : Partition.merge ⟨⟨0, 2, .clopen⟩, [1, 3/2]⟩ ⟨⟨1, 4, .clopen⟩, [3/2, 3]⟩
    = some ⟨⟨0, 4, .clopen⟩, [1, 3/2, 2, 3]⟩ := by decide +kernel

example : Proper ⟨⟨0, 2, .clopen⟩, [1, 3/2]⟩ := by
  refine ⟨by norm_num, by norm_num, ?_⟩
  intro x hx
  simp only [List.mem_cons, List.not_mem_nil, or_false] at hx
  rcases hx with rfl | rfl <;> norm_num

/-- C10, `merge` across a gap forgets all intermediates: merging `{0, 1/2, 1}` with
`{2, 5/2, 3}` gives `{0, 1, 2, 3}`. -/
theorem C10_merge_disjoint_refuted :
    Partition.merge ⟨⟨0, 1, .clopen⟩, [1/2]⟩ ⟨⟨2, 3, .clopen⟩, [5/2]⟩
      = some ⟨⟨0, 3, .clopen⟩, [1, 2]⟩ := by decide +kernel

/-! ## C11 -/

theorem meshLoop_spec (t : IType) (sup : ℚ) (l : List ℚ) : ∀ (prev : ℚ) (d : Option ℚ),
    ∃ m, Partition.meshLoop sup prev d l = some m ∧
      ((∃ i ∈ piecesAux t sup prev l, m = |i.sup - i.inf|) ∨ d = some m) ∧
      (∀ i ∈ piecesAux t sup prev l, m ≤ |i.sup - i.inf|) ∧ (∀ x, d = some x → m ≤ x) := by
  have upd : ∀ (d : Option ℚ) (x : ℚ), ∃ m, Partition.updMin d x = some m ∧ (m = x ∨ d = some m) ∧
      m ≤ x ∧ ∀ y, d = some y → m ≤ y := by
    intro d x
    cases d with
    | none => exact ⟨x, rfl, Or.inl rfl, le_rfl, by simp⟩
    | some d =>
      unfold Partition.updMin
      by_cases h : x < d
      · exact ⟨x, by simp [h], Or.inl rfl, le_rfl, fun y hy => by cases hy; exact h.le⟩
      · exact ⟨d, by simp [h], Or.inr rfl, not_lt.mp h, fun y hy => by cases hy; exact le_rfl⟩
  induction l with
  | nil =>
    intro prev d
    obtain ⟨m, h1, h2, h3, h4⟩ := upd d |sup - prev|
    refine ⟨m, h1, ?_, ?_, h4⟩
    · rcases h2 with h2 | h2
      · exact Or.inl ⟨⟨prev, sup, t⟩, by simp [piecesAux], h2⟩
      · exact Or.inr h2
    · intro i hi
      simp [piecesAux] at hi
      subst hi
      exact h3
  | cons x l ih =>
    intro prev d
    obtain ⟨m, h1, h2, h3, h4⟩ := upd d |x - prev|
    obtain ⟨m', g1, g2, g3, g4⟩ := ih x (some m)
    have hm := g4 m rfl
    refine ⟨m', by rw [Partition.meshLoop, h1]; exact g1, ?_, ?_, fun y hy => hm.trans (h4 y hy)⟩
    · rcases g2 with ⟨i, hi, he⟩ | g2
      · exact Or.inl ⟨i, List.mem_cons_of_mem _ hi, he⟩
      · simp only [Option.some.injEq] at g2
        subst g2
        rcases h2 with h2 | h2
        · exact Or.inl ⟨⟨prev, x, t⟩, List.mem_cons_self .., h2⟩
        · exact Or.inr h2
    · intro i hi
      rcases List.mem_cons.mp hi with rfl | hi
      · exact hm.trans h3
      · exact g3 i hi

/-- What `mesh()` returns: the length of the SHORTEST piece. -/
theorem C11_mesh_actual (p : Partition) (h : Reachable p) :
    ∃ m, p.mesh = some m ∧ (∃ i d, p.get i = some d ∧ m = d.sup - d.inf) ∧
      ∀ i d, p.get i = some d → m ≤ d.sup - d.inf := by
  obtain ⟨m, h1, h2, h3, -⟩ := meshLoop_spec p.base.type p.base.sup p.pts p.base.inf none
  have hw := wf_of_reachable p h
  have htiles := piecesAux_tiles p.base.type p.base.sup p.pts p.base.inf hw.1 hw.2.1 hw.2.2
  have hle : ∀ (l : List RealInterval) a b, Tiles l a b → ∀ d ∈ l, d.inf ≤ d.sup := by
    intro l
    induction l with
    | nil => intro a b _ d hd; simp at hd
    | cons e l ih =>
      intro a b ht d hd
      rcases List.mem_cons.mp hd with rfl | hd
      · exact ht.2.1
      · exact ih _ _ ht.2.2 d hd
  have habs : ∀ d ∈ piecesAux p.base.type p.base.sup p.base.inf p.pts, |d.sup - d.inf| = d.sup - d.inf :=
    fun d hd => abs_of_nonneg (sub_nonneg.mpr (hle _ _ _ htiles d hd))
  have hlen := piecesAux_length p.base.type p.base.sup p.pts p.base.inf
  refine ⟨m, h1, ?_, ?_⟩
  · rcases h2 with ⟨d, hd, he⟩ | h2
    · obtain ⟨i, hi, hid⟩ := List.getElem_of_mem hd
      refine ⟨i, d, ?_, by rw [he, habs d hd]⟩
      rw [get_eq_pieces p hw i (by rw [hlen] at hi; exact hi), List.getElem?_eq_getElem hi, hid]
    · simp at h2
  · intro i d hd
    have hi : i < p.size := by
      by_contra hc
      obtain ⟨l, -, -, hn, -⟩ := C10_pieces_tile p h
      rw [hn i (not_lt.mp hc)] at hd
      simp at hd
    rw [get_eq_pieces p hw i hi] at hd
    have hmem := List.mem_of_getElem? hd
    rw [← habs d hmem]
    exact h3 d hmem

/-- C11, the part that holds: when all pieces have the same length, that length is returned.
Missing: unequal pieces, where the documented "length of the largest sub interval" is not
what is returned (`C11_mesh_refuted`). -/
theorem C11_mesh_partial (p : Partition) (h : Reachable p) (c : ℚ)
    (hc : ∀ i d, p.get i = some d → d.sup - d.inf = c) : p.mesh = some c := by
  obtain ⟨m, h1, ⟨i, d, h2, h3⟩, -⟩ := C11_mesh_actual p h
  rw [h1, h3, hc i d h2]

/-- C11 fails: the partition `{0, 1, 3}` of `[0,3)` has a piece of length 2, but `mesh()` is 1. -/
theorem C11_mesh_refuted :
    let p := Partition.ofPoints ⟨0, 3, .clopen⟩ [1]
    p.mesh = some 1 ∧ p.get 1 = some ⟨1, 3, .clopen⟩ := by decide +kernel

example : (Partition.ofPoints ⟨0, 3, .clopen⟩ [1, 2]).mesh = some 1 := by decide +kernel

/-! ## C54 -/

/-- C54 fails: `==` ignores the intermediate points. -/
theorem C54_partition_eq_refuted :
    Partition.eq (.ofPoints ⟨0, 3, .clopen⟩ [1]) (.ofPoints ⟨0, 3, .clopen⟩ [2]) = true ∧
    (Partition.ofPoints ⟨0, 3, .clopen⟩ [1]).pts ≠ (Partition.ofPoints ⟨0, 3, .clopen⟩ [2]).pts := by
  decide +kernel

/-- C54, the part that holds: `==` is equality of the underlying intervals. Missing: the
intermediates. -/
theorem C54_partition_eq_partial (p q : Partition) : p.eq q = true ↔ p.base = q.base := by
  obtain ⟨⟨i, s, t⟩, l⟩ := p
  obtain ⟨⟨i', s', t'⟩, l'⟩ := q
  simp only [Partition.eq, RealInterval.eq, Bool.and_eq_true, decide_eq_true_eq,
    RealInterval.mk.injEq]
  tauto

end RoughPy.Partition
