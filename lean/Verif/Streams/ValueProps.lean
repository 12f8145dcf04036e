import Verif.Streams.ValueLemmas

/-!
# Properties of tensor valued streams (C107–C110)
-/

namespace RoughPy.Streams

open RoughPy.Intervals

variable {T L : Type}

/-- The sorted samples: a first sample and strictly later ones. -/
theorem sorted_samples (P : Platform T) (hP : Sorts P.sort) (data : List (ℚ × T)) (hne : data ≠ [])
    (hd : (data.map Prod.fst).Nodup) :
    ∃ t₀ x₀ rest, P.sort data = (t₀, x₀) :: rest ∧ Chronological ((t₀, x₀) :: rest) ∧
      ((t₀, x₀) :: rest).Perm data := by
  obtain ⟨hp, hs⟩ := hP data
  cases h : P.sort data with
  | nil =>
    rw [h] at hp
    exact absurd hp.symm.eq_nil hne
  | cons r rest =>
    obtain ⟨t₀, x₀⟩ := r
    rw [h] at hp hs
    refine ⟨t₀, x₀, rest, rfl, ?_, hp⟩
    have hn : (((t₀, x₀) :: rest).map Prod.fst).Pairwise (· ≠ ·) :=
      ((hp.map Prod.fst).nodup_iff.2 hd)
    rw [List.pairwise_map] at hn
    exact (hs.and hn).imp fun h => lt_of_le_of_ne h.1 h.2

/-- What `from_values` builds from good input without an explicit support. -/
theorem fromValues_eq (P : Platform T) (A : TensorOps T L) (ops : ℕ → LieOps L) (depth : ℕ)
    (GL : Set T) (md : PathMd) (items : List (Item T L)) (hg : GoodInput A depth GL md items)
    (t₀ : ℚ) (x₀ : T) (rest : List (ℚ × T))
    (hs : P.sort (samplesOf A depth items) = (t₀, x₀) :: rest)
    (hc : Chronological ((t₀, x₀) :: rest)) (hsup : md.support = none) :
    ∃ r : ℤ, (∀ q, md.resolution = some q → r = q) ∧
      (md.resolution = none → ∀ a ∈ (t₀, x₀) :: rest, ∀ b ∈ (t₀, x₀) :: rest, a.1 < b.1 →
        2 * (1 / 2 ^ r) ≤ b.1 - a.1) ∧
      fromValues P A ops depth md items = .stream
        ⟨⟨t₀, (rest.map Prod.fst).getLastD t₀ + 1 / 2 ^ r, .clopen⟩,
          lieIncrementStream ops (increments A depth x₀ rest) r depth, x₀, depth⟩ := by
  obtain ⟨s, hctx, hw, hf⟩ := hg.shape
  have hrest : Chronological rest := (List.pairwise_cons.1 hc).2
  let r : ℤ := match md.resolution with
      | some r => r
      | none => pyParamToResolution P.infExp (minDifference (t₀ :: rest.map Prod.fst)) + 1
  have hlast : t₀ ≤ (rest.map Prod.fst).getLastD t₀ := by
    rw [List.getLastD_eq_getLast?]
    cases hl : (rest.map Prod.fst).getLast? with
    | none => simp
    | some z =>
      obtain ⟨q, hq, rfl⟩ := List.mem_map.1 (List.mem_of_getLast? hl)
      exact ((List.pairwise_cons.1 hc).1 q hq).le
  have hcell : (0 : ℚ) < 1 / 2 ^ r := by
    have := two_zpow_pos r
    positivity
  refine ⟨r, ?_, ?_, ?_⟩
  · intro q hq
    show (match md.resolution with | some r => r | none => _) = q
    rw [hq]
  · intro hnone a ha b hb hab
    have hr : r = pyParamToResolution P.infExp (minDifference (t₀ :: rest.map Prod.fst)) + 1 := by
      show (match md.resolution with | some r => r | none => _) = _
      rw [hnone]
    have hpw : (t₀ :: rest.map Prod.fst).Pairwise (· < ·) := by
      have : ((((t₀, x₀) :: rest).map Prod.fst)).Pairwise (· < ·) := List.pairwise_map.2 hc
      simpa using this
    have hspec := minDifference_spec _ hpw
    have hma : a.1 ∈ t₀ :: rest.map Prod.fst := by
      have := List.mem_map_of_mem (f := Prod.fst) ha
      simpa using this
    have hmb : b.1 ∈ t₀ :: rest.map Prod.fst := by
      have := List.mem_map_of_mem (f := Prod.fst) hb
      simpa using this
    cases hm : minDifference (t₀ :: rest.map Prod.fst) with
    | none =>
      rw [hm] at hspec
      have hr' : rest = [] := by
        cases rest with
        | nil => rfl
        | cons _ _ => simp at hspec
      subst hr'
      simp only [List.map_nil, List.mem_cons, List.not_mem_nil, or_false] at hma hmb
      rw [hma, hmb] at hab
      exact absurd hab (lt_irrefl _)
    | some m =>
      rw [hm] at hspec hr
      rw [hr]
      exact (pyParamToResolution_cell _ m hspec.1).trans (hspec.2 _ hma _ hmb hab)
  · unfold fromValues
    have hne : items.isEmpty = false := by
      cases hi : items with
      | nil => exact absurd hi hg.nonempty
      | cons _ _ => rfl
    rw [hne, if_neg (by simp), hctx, decode_fits A depth s items hf]
    simp only
    rw [if_pos hw, hs]
    unfold buildSorted
    simp only [hsup, hctx]
    rw [incrementData_eq_self _ (increments_chronological A depth x₀ rest hrest)]
    show FromValues.stream ⟨RealInterval.mk' t₀ ((rest.map Prod.fst).getLastD t₀ + 1 / 2 ^ r), _, _, _⟩ = _
    unfold RealInterval.mk'
    rw [if_neg (not_lt.2 (by linarith))]
    rfl

/-! ## C107 — a stream built from values has those values -/

/-- C107, general form: whatever the order in which the samples are given, `from_values` builds a
stream with the given resolution `r` (or one whose cells are at most half as long as the smallest gap
between samples). It starts at the time of the first sample with its value and ends one cell after the
last sample with its value. At any time `t` of its domain its value is that of the latest sample
before the cell of `t` (the first sample's value if there is none); after any history of earlier
operations on this stream, its sub-streams and its increments. -/
theorem C107_in_force [Monoid T] (P : Platform T) (hP : Sorts P.sort) (A : TensorOps T L)
    (ops : ℕ → LieOps L) (depth : ℕ) (GL : Set T) (hA : TensorInterprets A (ops depth) depth GL)
    (md : PathMd) (items : List (Item T L)) (hg : GoodInput A depth GL md items)
    (hsup : md.support = none) :
    let samples := samplesOf A depth items
    ∃ (v : ValueStream T L) (r : ℤ), fromValues P A ops depth md items = .stream v ∧
      v.inc.defaultRes = r ∧ (∀ q, md.resolution = some q → r = q) ∧
      (md.resolution = none → ∀ a ∈ samples, ∀ b ∈ samples, a.1 < b.1 →
        2 * (1 / 2 ^ r) ≤ b.1 - a.1) ∧
      (∃ a ∈ samples, (∀ b ∈ samples, a.1 ≤ b.1) ∧ v.domain.inf = a.1 ∧ v.initial = a.2) ∧
      (∃ z ∈ samples, (∀ b ∈ samples, b.1 ≤ z.1) ∧ v.domain.sup = z.1 + 1 / 2 ^ r ∧
        ∀ hist, History v.inc hist → TerminalIs A v hist z.2) ∧
      ∀ hist, History v.inc hist → ∀ t, v.domain.inf ≤ t → t ≤ v.domain.sup →
        ∃ x, InForce samples (gridFloor r t) x ∧ ValueIs A v hist t x := by
  intro samples
  have hne : samples ≠ [] := by
    obtain ⟨s, -, -, hf⟩ := hg.shape
    cases hi : items with
    | nil => exact absurd hi hg.nonempty
    | cons it its =>
      have hft := hf it (by simp [hi])
      show samplesOf A depth items ≠ []
      rw [hi]
      cases it with
      | other => exact absurd hft (by simp [Item.Fits])
      | tensor _ _ _ => simp [samplesOf]
      | lie _ _ _ => simp [samplesOf]
  obtain ⟨t₀, x₀, rest, hs, hc, hp⟩ := sorted_samples P hP samples hne hg.distinct
  obtain ⟨r, hr1, hr2, hv⟩ := fromValues_eq P A ops depth GL md items hg t₀ x₀ rest hs hc hsup
  have hmem : ∀ a, a ∈ samples ↔ a ∈ (t₀, x₀) :: rest := fun a => (hp.mem_iff (a := a)).symm
  have hc1 := List.pairwise_cons.1 hc
  have hx₀ : x₀ ∈ GL := hg.grouplike (t₀, x₀) ((hmem _).2 (by simp))
  have hrGL : ∀ q ∈ rest, q.2 ∈ GL := fun q hq => hg.grouplike q ((hmem _).2 (by simp [hq]))
  have hic := increments_chronological A depth x₀ rest hc1.2
  have hcell : (0 : ℚ) < 1 / 2 ^ r := by
    have := two_zpow_pos r
    positivity
  set v : ValueStream T L := ⟨⟨t₀, (rest.map Prod.fst).getLastD t₀ + 1 / 2 ^ r, .clopen⟩,
          lieIncrementStream ops (increments A depth x₀ rest) r depth, x₀, depth⟩ with hvdef
  have hF : Flow A v fun a b => eventsSig (A.fromLog depth)
      (eventsIn (increments A depth x₀ rest) (Set.Ico a b)) :=
    ⟨rfl, rfl, hA.mul, hA.lie, lieIncrement_contribution ops _ hic r depth depth _ hA.lie,
      fun a => by simp [eventsIn, eventsSig]⟩
  have hval : ∀ t, x₀ * cells v (fun a b => eventsSig (A.fromLog depth)
      (eventsIn (increments A depth x₀ rest) (Set.Ico a b))) t₀ t =
        lastBefore (gridFloor r t) x₀ rest := by
    intro t
    exact telescope A (ops depth) depth GL hA _ _ x₀ rest hx₀ hrGL hc1.2
      fun q hq => (gridFloor_le r t₀).trans (hc1.1 q hq).le
  have hforce : ∀ t, InForce samples (gridFloor r t) (lastBefore (gridFloor r t) x₀ rest) := by
    intro t
    obtain ⟨s, hs1, hs2, hs3⟩ := lastBefore_inForce (gridFloor r t) t₀ x₀ rest hc
    refine ⟨s, (hmem _).2 hs1, hs2, ?_⟩
    simp only [hmem]
    exact hs3
  obtain ⟨z, hz, hzmax, hzsup⟩ : ∃ z ∈ (t₀, x₀) :: rest, (∀ b ∈ (t₀, x₀) :: rest, b.1 ≤ z.1) ∧
      (rest.map Prod.fst).getLastD t₀ = z.1 := by
    clear hF hval hforce hvdef hv v
    rw [List.getLastD_eq_getLast?]
    cases hl : rest.getLast? with
    | none =>
      have : rest = [] := List.getLast?_eq_none_iff.1 hl
      subst this
      exact ⟨(t₀, x₀), by simp, by simp, by simp⟩
    | some z =>
      refine ⟨z, by simp [List.mem_of_getLast? hl], ?_, by simp [List.getLast?_map, hl]⟩
      obtain ⟨l, rfl⟩ : ∃ l, rest = l ++ [z] := by
        obtain ⟨l, hl'⟩ := List.getLast?_eq_some_iff.1 hl
        exact ⟨l, hl'⟩
      intro b hb
      rw [← List.cons_append] at hb hc
      rcases List.mem_append.1 hb with hb | hb
      · exact ((List.pairwise_append.1 hc).2.2 b hb z (by simp)).le
      · simp only [List.mem_singleton] at hb
        rw [hb]
  refine ⟨v, r, hv, rfl, hr1, ?_, ⟨(t₀, x₀), (hmem _).2 (by simp), ?_, rfl, rfl⟩,
    ⟨z, (hmem _).2 hz, fun b hb => hzmax b ((hmem _).1 hb), ?_, ?_⟩, ?_⟩
  · intro h a ha b hb
    exact hr2 h a ((hmem _).1 ha) b ((hmem _).1 hb)
  · intro b hb
    rcases List.mem_cons.1 ((hmem _).1 hb) with rfl | hb
    · exact le_rfl
    · exact (hc1.1 b hb).le
  · show (rest.map Prod.fst).getLastD t₀ + 1 / 2 ^ r = _
    rw [hzsup]
  · intro hist hh
    have ht := hF.terminal hist hh (by
      show t₀ ≤ (rest.map Prod.fst).getLastD t₀ + 1 / 2 ^ r
      rw [hzsup]
      have := hzmax (t₀, x₀) (by simp)
      simp only at this
      linarith)
    have e : v.initial * cells v (fun a b => eventsSig (A.fromLog depth)
      (eventsIn (increments A depth x₀ rest) (Set.Ico a b))) v.domain.inf v.domain.sup = z.2 := by
      show x₀ * cells v _ t₀ ((rest.map Prod.fst).getLastD t₀ + 1 / 2 ^ r) = z.2
      rw [hval, hzsup]
      obtain ⟨s, hs1, hs2, hs3⟩ := hforce (z.1 + 1 / 2 ^ r)
      have hlt := gridFloor_add_cell r z.1
      rcases hs3 with ⟨h1, h2⟩ | ⟨h1, -⟩
      · have h3 := h2 z ((hmem _).2 hz) hlt
        have h4 := hzmax s ((hmem _).1 hs1)
        have h5 : s.1 = z.1 := le_antisymm h4 h3
        rw [← hs2]
        have := List.inj_on_of_nodup_map hg.distinct hs1 ((hmem _).2 hz) h5
        rw [this]
      · exact absurd hlt (not_lt.2 (h1 z ((hmem _).2 hz)))
    rw [e] at ht
    exact ht
  · intro hist hh t h0 h1
    refine ⟨_, hforce t, ?_⟩
    have := hF.value hist hh t h0 h1
    rw [show v.initial * cells v _ v.domain.inf t = _ from hval t] at this
    exact this

/-- C107, the part that holds, for times between samples: one cell after a sample, and up to and
including the time of the next one, the value is the one of that sample.
Missing: the value in the first cell after a sample (`C108_at_sample`); samples with equal times
(`C107_tie_refuted`); an explicitly given support (`C107_support_refuted`); the context is not taken
from the values (`C107_context_refuted`). -/
theorem C107_between_partial [Monoid T] (P : Platform T) (hP : Sorts P.sort) (A : TensorOps T L)
    (ops : ℕ → LieOps L) (depth : ℕ) (GL : Set T) (hA : TensorInterprets A (ops depth) depth GL)
    (md : PathMd) (items : List (Item T L)) (hg : GoodInput A depth GL md items)
    (hsup : md.support = none) :
    let samples := samplesOf A depth items
    ∃ v : ValueStream T L, fromValues P A ops depth md items = .stream v ∧
      ∀ hist, History v.inc hist → ∀ s ∈ samples, ∀ t,
        s.1 + 1 / 2 ^ v.inc.defaultRes ≤ t → t ≤ v.domain.sup →
        (∀ s' ∈ samples, s.1 < s'.1 → t ≤ s'.1) → ValueIs A v hist t s.2 := by
  intro samples
  obtain ⟨v, r, hv, hr, -, -, ⟨a, ha, hmin, hinf, -⟩, -, hval⟩ :=
    C107_in_force P hP A ops depth GL hA md items hg hsup
  refine ⟨v, hv, fun hist hh s hs t h1 h2 h3 => ?_⟩
  rw [hr] at h1
  have hcell : (0 : ℚ) < 1 / 2 ^ r := by
    have := two_zpow_pos r
    positivity
  have h0 : v.domain.inf ≤ t := by
    rw [hinf]
    have := hmin s hs
    linarith
  obtain ⟨x, ⟨s', hs', hx, hf⟩, hvx⟩ := hval hist hh t h0 h2
  have hlt : s.1 < gridFloor r t := by
    have := gridFloor_gt r t
    linarith
  have hle := gridFloor_le r t
  rcases hf with ⟨hu, hm⟩ | ⟨hall, -⟩
  · have h5 := hm s hs hlt
    have h6 : s'.1 = s.1 := by
      rcases lt_or_eq_of_le h5 with h | h
      · have := h3 s' hs' h
        linarith
      · exact h.symm
    have := List.inj_on_of_nodup_map hg.distinct hs' hs h6
    rw [← this, hx]
    exact hvx
  · exact absurd hlt (not_lt.2 (hall s hs))

/-- C107, errors: without items, or with an item that is not a pair of a time and a tensor or Lie
element of the given context, nothing is built. -/
theorem C107_errors (P : Platform T) (A : TensorOps T L) (ops : ℕ → LieOps L) (depth : ℕ)
    (md : PathMd) (s : CtxShape) (hs : md.ctx = some s) (items : List (Item T L))
    (h : items = [] ∨ ¬ ∀ it ∈ items, it.Fits s) : fromValues P A ops depth md items = .error := by
  unfold fromValues
  rcases h with rfl | h
  · rfl
  · split
    · rfl
    · rw [hs, decode_misfit A depth s items h]

/-- C107 fails without a context: although every value carries one, the list is refused, or, if the
width is given, the stream that is built cannot be used. -/
theorem C107_context_refuted (P : Platform T) (hP : Sorts P.sort) (A : TensorOps T L)
    (ops : ℕ → LieOps L) (depth : ℕ) (md : PathMd) (hc : md.ctx = none) (s : CtxShape)
    (items : List (Item T L)) (hf : ∀ it ∈ items, it.Fits s) (hne : items ≠ []) :
    fromValues P A ops depth md items = if md.width = s.width then .noContext else .error := by
  cases hi : items with
  | nil => exact absurd hi hne
  | cons it its =>
    subst hi
    have hd : decode A depth none (it :: its) = decode A depth (some s) (it :: its) := by
      have h := hf it (by simp)
      cases it with
      | other => exact absurd h (by simp [Item.Fits])
      | tensor t s' x =>
        have hs : s' = s := h
        subst hs
        simp [decode, checkCtxShape]
      | lie t s' x =>
        have hs : s' = s := h
        subst hs
        simp [decode, checkCtxShape]
    unfold fromValues
    rw [hc, hd, decode_fits A depth s _ hf]
    simp only [List.isEmpty_cons]
    rw [if_neg (by simp)]
    split
    · cases hl : P.sort (samplesOf A depth (it :: its)) with
      | nil =>
        have := (hP (samplesOf A depth (it :: its))).1
        rw [hl] at this
        have h := hf it (by simp)
        cases it with
        | other => exact absurd h (by simp [Item.Fits])
        | tensor _ _ _ => exact absurd this.symm.eq_nil (by simp [samplesOf])
        | lie _ _ _ => exact absurd this.symm.eq_nil (by simp [samplesOf])
      | cons r rest =>
        unfold buildSorted
        rw [hc]
    · rfl

/-! ### A concrete tensor library -/

/-- Group-like tensors of width 2 and depth 2 by their logarithms. -/
def heisTensor : TensorOps Heis Heis where
  mul := Heis.mul
  antipode := fun a => ⟨-a.x, -a.y, -a.z⟩
  toLog := fun _ a => a
  fromLog := fun _ a => a

theorem heisTensor_interprets : TensorInterprets heisTensor (Heis.ops 2) 2 Set.univ where
  mul _ _ := rfl
  lie := Heis.interprets
  antipode a _ := by
    show Heis.mul a _ = ⟨0, 0, 0⟩
    ext <;> simp [heisTensor, Heis.mul] <;> ring
  closed _ _ _ _ := trivial
  log _ _ := rfl
  exp _ := trivial

/-- Insertion sort by time. -/
def insertSort {T : Type} : List (ℚ × T) → List (ℚ × T)
  | [] => []
  | r :: rest => ins r (insertSort rest)
where
  /-- insert one element -/
  ins {T : Type} (r : ℚ × T) : List (ℚ × T) → List (ℚ × T)
    | [] => [r]
    | s :: rest => if r.1 ≤ s.1 then r :: s :: rest else s :: ins r rest

theorem insertSort_ins_perm (r : ℚ × T) (l : List (ℚ × T)) : (insertSort.ins r l).Perm (r :: l) := by
  induction l with
  | nil => exact .refl _
  | cons s l ih =>
    unfold insertSort.ins
    split
    · exact .refl _
    · exact (List.Perm.cons s ih).trans (List.Perm.swap r s l)

theorem insertSort_sorts : Sorts (insertSort (T := T)) := by
  intro l
  induction l with
  | nil => exact ⟨.refl _, List.Pairwise.nil⟩
  | cons r l ih =>
    refine ⟨(insertSort_ins_perm r _).trans (ih.1.cons r), ?_⟩
    show (insertSort.ins r (insertSort l)).Pairwise _
    generalize insertSort l = m at ih
    have hm := ih.2
    clear ih
    induction m with
    | nil => exact List.pairwise_singleton _ _
    | cons s m ihm =>
      have h1 := List.pairwise_cons.1 hm
      unfold insertSort.ins
      split
      · rename_i hle
        refine List.pairwise_cons.2 ⟨fun q hq => ?_, hm⟩
        rcases List.mem_cons.1 hq with rfl | hq
        · exact hle
        · exact hle.trans (h1.1 q hq)
      · rename_i hle
        refine List.pairwise_cons.2 ⟨fun q hq => ?_, ihm h1.2⟩
        rcases List.mem_cons.1 ((insertSort_ins_perm r m).mem_iff.1 hq) with rfl | hq
        · exact (not_le.1 hle).le
        · exact h1.1 q hq

/-- A platform. -/
def platform : Platform Heis := ⟨insertSort, 0⟩

/-- Three samples, given out of order, one of them as a Lie element. -/
def threeItems : List (Item Heis Heis) :=
  [.tensor 2 ⟨2, 0⟩ ⟨1, 1, 1⟩, .tensor 0 ⟨2, 0⟩ ⟨0, 0, 0⟩, .lie 1 ⟨2, 0⟩ ⟨1, 0, 0⟩]

/-- Metadata with a context and nothing else. -/
def plainMd : PathMd := ⟨2, some ⟨2, 0⟩, none, none⟩

example : GoodInput heisTensor 2 Set.univ plainMd threeItems :=
  ⟨by decide, ⟨⟨2, 0⟩, rfl, rfl, by simp [threeItems, Item.Fits]⟩, fun _ _ => trivial, by
    decide +kernel⟩

/-- The values of a built stream at some times. -/
def FromValues.values (A : TensorOps T L) (fuel : ℕ) (ts : List ℚ) : FromValues T L → List (Option T)
  | .stream v => ts.map fun t => (v.valueAt A fuel t).bind fun p => (p.run v.inc Cache.empty).1
  | _ => []

/-- The terminal value of a built stream. -/
def FromValues.last (A : TensorOps T L) (fuel : ℕ) : FromValues T L → Option T
  | .stream v => ((v.terminal A fuel).run v.inc Cache.empty).1
  | _ => none

example : (fromValues platform heisTensor Heis.ops 2 plainMd threeItems).values heisTensor 10
      [0, 1/2, 3/2, 2, 5/2] =
    [some ⟨0, 0, 0⟩, some ⟨0, 0, 0⟩, some ⟨1, 0, 0⟩, some ⟨1, 0, 0⟩, some ⟨1, 1, 1⟩] ∧
    (fromValues platform heisTensor Heis.ops 2 plainMd threeItems).last heisTensor 10 =
      some ⟨1, 1, 1⟩ := by decide +kernel

/-- C107 fails for samples with equal times: one of the increments at that time is dropped, and the
stream ends with a value that was never given. -/
theorem C107_tie_refuted :
    (fromValues platform heisTensor Heis.ops 2 plainMd
      [.tensor 0 ⟨2, 0⟩ ⟨0, 0, 0⟩, .tensor 1 ⟨2, 0⟩ ⟨1, 0, 0⟩, .tensor 1 ⟨2, 0⟩ ⟨2, 0, 0⟩,
        .tensor 2 ⟨2, 0⟩ ⟨3, 0, 0⟩]).last heisTensor 10 = some ⟨2, 0, 0⟩ := by decide +kernel

/-- C107 fails for an explicitly given support that begins after the second sample: the stream still
begins with the first value, and ends with a value that was never given. -/
theorem C107_support_refuted :
    let b := fromValues platform heisTensor Heis.ops 2
      { plainMd with support := some ⟨3/2, 3, .clopen⟩ } threeItems
    b.values heisTensor 10 [3/2] = [some ⟨0, 0, 0⟩] ∧ b.last heisTensor 10 = some ⟨0, 1, 1/2⟩ := by
  decide +kernel

/-! ## C108 — the value at the time of a sample -/

/-- C108 fails, in general: at the time of a sample that is not the first one, a stream built with the
automatically chosen resolution has the value of the sample before. -/
theorem C108_at_sample [Monoid T] (P : Platform T) (hP : Sorts P.sort) (A : TensorOps T L)
    (ops : ℕ → LieOps L) (depth : ℕ) (GL : Set T) (hA : TensorInterprets A (ops depth) depth GL)
    (md : PathMd) (items : List (Item T L)) (hg : GoodInput A depth GL md items)
    (hsup : md.support = none) (hres : md.resolution = none) :
    let samples := samplesOf A depth items
    ∃ v : ValueStream T L, fromValues P A ops depth md items = .stream v ∧
      ∀ hist, History v.inc hist → ∀ p ∈ samples, ∀ s ∈ samples, p.1 < s.1 →
        (∀ s' ∈ samples, p.1 < s'.1 → s.1 ≤ s'.1) → ValueIs A v hist s.1 p.2 := by
  intro samples
  obtain ⟨v, r, hv, hr, -, hgap, -, ⟨z, hz, hmax, hsup', -⟩, -⟩ :=
    C107_in_force P hP A ops depth GL hA md items hg hsup
  obtain ⟨v', hv', hb⟩ := C107_between_partial P hP A ops depth GL hA md items hg hsup
  rw [hv] at hv'
  cases hv'
  refine ⟨v, hv, fun hist hh p hp s hs hps hnext => ?_⟩
  have hcell : (0 : ℚ) < 1 / 2 ^ r := by
    have := two_zpow_pos r
    positivity
  refine hb hist hh p hp s.1 ?_ ?_ hnext
  · rw [hr]
    have := hgap hres p hp s hs hps
    linarith
  · rw [hsup']
    have := hmax s hs
    linarith

/-- C108, the part that holds: the first sample, and every sample one cell later unless another one
has come by then.
Missing: the value at the time of the other samples, which is the one before (`C108_at_sample`). -/
theorem C108_sample_partial [Monoid T] (P : Platform T) (hP : Sorts P.sort) (A : TensorOps T L)
    (ops : ℕ → LieOps L) (depth : ℕ) (GL : Set T) (hA : TensorInterprets A (ops depth) depth GL)
    (md : PathMd) (items : List (Item T L)) (hg : GoodInput A depth GL md items)
    (hsup : md.support = none) (hres : md.resolution = none) :
    let samples := samplesOf A depth items
    ∃ v : ValueStream T L, fromValues P A ops depth md items = .stream v ∧
      ∀ hist, History v.inc hist → ∀ s ∈ samples,
        ((∀ s' ∈ samples, s.1 ≤ s'.1) → ValueIs A v hist s.1 s.2) ∧
        ValueIs A v hist (s.1 + 1 / 2 ^ v.inc.defaultRes) s.2 := by
  intro samples
  obtain ⟨v, r, hv, hr, -, hgap, ⟨a, ha, hmin, hinf, hinit⟩, ⟨z, hz, hmax, hsup', -⟩, -⟩ :=
    C107_in_force P hP A ops depth GL hA md items hg hsup
  obtain ⟨v', hv', hb⟩ := C107_between_partial P hP A ops depth GL hA md items hg hsup
  rw [hv] at hv'
  cases hv'
  have hcell : (0 : ℚ) < 1 / 2 ^ r := by
    have := two_zpow_pos r
    positivity
  refine ⟨v, hv, fun hist hh s hs => ⟨fun hfirst => ?_, ?_⟩⟩
  · have he : a.1 = s.1 := le_antisymm (hmin s hs) (hfirst a ha)
    have := List.inj_on_of_nodup_map hg.distinct ha hs he
    subst this
    refine ⟨0, fun n _ => ?_⟩
    unfold ValueStream.valueAt
    have hle : a.1 ≤ v.domain.sup := by
      rw [hsup']
      linarith [hmax a ha]
    simp only
    rw [if_neg (by push Not; exact ⟨hinf.le, hle⟩), if_pos hinf.symm, hinit]
    rfl
  · refine hb hist hh s hs _ le_rfl ?_ fun s' hs' hlt => ?_
    · rw [hr, hsup']
      linarith [hmax s hs]
    · rw [hr]
      have := hgap hres s hs s' hs' hlt
      linarith

/-- C108 fails for concrete data: the stream built from three samples at times 0, 1, 2 has the second
value only after time 1. -/
theorem C108_refuted :
    (fromValues platform heisTensor Heis.ops 2 plainMd threeItems).values heisTensor 10 [1, 2] =
      [some ⟨0, 0, 0⟩, some ⟨1, 0, 0⟩] := by decide +kernel

/-! ## C109 — sub-streams agree with the stream they come from -/

/-- A value stream over a cached increment stream, at the depth of the increment stream. -/
structure Cached [Monoid T] (A : TensorOps T L) (GL : Set T) (v : ValueStream T L) : Prop where
  caching : v.inc.caching = true
  depth : v.depth = v.inc.defaultDepth
  empty : EmptyInherited v.inc
  tensors : TensorInterprets A (v.inc.ops v.depth) v.depth GL
  domain : v.domain.inf ≤ v.domain.sup

theorem Cached.flow [Monoid T] {A : TensorOps T L} {GL : Set T} {v : ValueStream T L}
    (h : Cached A GL v) : ∃ P, Flow A v P := by
  obtain ⟨f, hC⟩ := caching_contribution v.inc h.empty v.depth (A.fromLog v.depth)
  exact ⟨_, h.caching, h.depth, h.tensors.mul, h.tensors.lie, hC, fun a => intProd_self f _⟩

/-- C109, the part that holds: for an interval that overlaps the domain, a query gives the stream over
the common part. Its initial value is the value of the stream there, all its values are those of the
stream, and its terminal value is the value of the stream at its end; after any history.
Missing: intervals that only touch the domain (`C109_touching_refuted`). -/
theorem C109_query_partial [Monoid T] (A : TensorOps T L) (GL : Set T) (v : ValueStream T L)
    (hv : Cached A GL v) (hist : List (ValueStream T L × VOp)) (hh : History v.inc hist)
    (i : RealInterval) (ho : max v.domain.inf i.inf < min v.domain.sup i.sup) :
    ∃ w, QueryIs A v hist i w ∧ w.domain = ⟨max v.domain.inf i.inf, min v.domain.sup i.sup, .clopen⟩ ∧
      w.inc = v.inc ∧ Cached A GL w ∧
      ∀ hist', History v.inc hist' →
        ValueIs A v hist' w.domain.inf w.initial ∧
        (∀ t, w.domain.inf ≤ t → t ≤ w.domain.sup →
          ∃ x, ValueIs A v hist' t x ∧ ValueIs A w hist' t x) ∧
        ∃ x, ValueIs A v hist' w.domain.sup x ∧ TerminalIs A w hist' x := by
  obtain ⟨P, hF⟩ := hv.flow
  have hq := hF.query hist hh i ho
  refine ⟨_, hq, rfl, rfl, ⟨hv.caching, hv.depth, hv.empty, hv.tensors, ho.le⟩, fun hist' hh' => ?_⟩
  have hin : v.domain.inf ≤ max v.domain.inf i.inf := le_max_left _ _
  have hsu : min v.domain.sup i.sup ≤ v.domain.sup := min_le_left _ _
  have hS := hF.sub ⟨max v.domain.inf i.inf, min v.domain.sup i.sup, .clopen⟩
    (v.initial * cells v P v.domain.inf (max v.domain.inf i.inf))
  have key : ∀ t, max v.domain.inf i.inf ≤ t →
      v.initial * cells v P v.domain.inf (max v.domain.inf i.inf) *
        cells v P (max v.domain.inf i.inf) t = v.initial * cells v P v.domain.inf t := by
    intro t ht
    rw [mul_assoc, hF.chen _ _ _ hin ht]
  refine ⟨hF.value hist' hh' _ hin (ho.le.trans hsu), fun t h0 h1 => ?_, ?_⟩
  · refine ⟨_, hF.value hist' hh' t (hin.trans h0) (le_trans h1 hsu), ?_⟩
    have := hS.value hist' hh' t h0 h1
    exact (key t h0) ▸ this
  · refine ⟨_, hF.value hist' hh' _ (hin.trans ho.le) hsu, ?_⟩
    have := hS.terminal hist' hh' ho.le
    exact (key _ ho.le) ▸ this

/-- C109, errors: a value is given exactly for the parameters of the (closed) domain, and a query is
refused when the interval is apart from the domain. -/
theorem C109_errors (A : TensorOps T L) (v : ValueStream T L) (fuel : ℕ) :
    (∀ t, (v.valueAt A fuel t).isSome ↔ v.domain.inf ≤ t ∧ t ≤ v.domain.sup) ∧
    ∀ i : RealInterval, i.inf ≤ i.sup → v.domain.inf ≤ v.domain.sup →
      (i.sup < v.domain.inf ∨ v.domain.sup < i.inf) → v.query A fuel i = none := by
  constructor
  · intro t
    unfold ValueStream.valueAt
    split
    · rename_i h
      constructor
      · intro h'; cases h'
      · rintro ⟨h1, h2⟩
        rcases h with h | h
        · exact absurd h (not_lt.2 h1)
        · exact absurd h (not_lt.2 h2)
    · rename_i h
      push Not at h
      split <;> simp [h.1, h.2]
  · intro i hi hd h
    unfold ValueStream.query
    rw [if_neg]
    unfold RealInterval.intersectsWith
    have h1 : ¬((v.domain.inf ≤ i.inf ∧ v.domain.sup > i.inf) ∨
        (i.inf ≤ v.domain.inf ∧ i.sup > v.domain.inf)) := by
      rintro (⟨a, b⟩ | ⟨a, b⟩) <;> rcases h with h | h <;> linarith
    have h2 : i.inf ≠ v.domain.sup := by
      rcases h with h | h
      · intro he; linarith
      · exact h.ne'
    have h3 : v.domain.inf ≠ i.sup := by
      rcases h with h | h
      · exact h.ne'
      · intro he; linarith
    rw [if_neg h1, if_neg h2, if_neg h3]
    simp

/-- Two increments, at times 1/2 and 3/2; values from time 0. -/
def twoSteps : ValueStream Heis Heis :=
  ⟨⟨0, 2, .clopen⟩, lieIncrementStream Heis.ops (incrementData
    [(1/2, ⟨1, 0, 0⟩), (3/2, ⟨0, 1, 0⟩)]) 0 2, ⟨0, 0, 1⟩, 2⟩

theorem twoSteps_cached : Cached heisTensor Set.univ twoSteps :=
  ⟨rfl, rfl, lieIncrement_emptyInherited Heis.ops _ 0 2, heisTensor_interprets, by decide +kernel⟩

example : ((twoSteps.query heisTensor 10 ⟨1, 3, .clopen⟩).bind fun p =>
    (p.run twoSteps.inc Cache.empty).1.bind fun w =>
      ((w.terminal heisTensor 10).run w.inc Cache.empty).1.map fun z => (w.domain, w.initial, z)) =
    some (⟨1, 2, .clopen⟩, ⟨1, 0, 1⟩, ⟨1, 1, 3/2⟩) := by decide +kernel

/-- C109 fails for an interval that has only its end point in common with the domain: the query of
`[2, 3)` to a stream over `(0, 2]` gives a stream over `[0, 1)`; the query of `[6, 7)` to a stream over
`(5, 6]` fails, although the intervals intersect. -/
theorem C109_touching_refuted :
    ((({ twoSteps with domain := ⟨0, 2, .opencl⟩ } : ValueStream Heis Heis).query heisTensor 10
      ⟨2, 3, .clopen⟩).bind fun p => (p.run twoSteps.inc Cache.empty).1.map fun w => w.domain) =
        some ⟨0, 1, .clopen⟩ ∧
    (⟨5, 6, .opencl⟩ : RealInterval).intersectsWith ⟨6, 7, .clopen⟩ = true ∧
    (({ twoSteps with domain := ⟨5, 6, .opencl⟩ } : ValueStream Heis Heis).query heisTensor 10
      ⟨6, 7, .clopen⟩).isNone := by decide +kernel

/-! ## C110 — the signature of a value stream -/

/-- C110, the part that holds: at every resolution the signatures of a value stream multiply
(Chen's identity), at all resolutions from that of the increment stream on they agree, and the
signature over the domain takes the initial value to the terminal value; after any history.
Missing: the signature over an interval that leaves the domain (`C110_domain_refuted`). -/
theorem C110_signature_partial [Monoid T] (A : TensorOps T L) (GL : Set T) (v : ValueStream T L)
    (hv : Cached A GL v) (hist : List (ValueStream T L × VOp)) (hh : History v.inc hist) :
    (∀ (res : ℤ) (a b c : ℚ) (t : IType), a ≤ b → b ≤ c →
      ∃ x y z, SignatureIs A v hist (some ⟨a, c, t⟩) (some res) v.depth x ∧
        SignatureIs A v hist (some ⟨a, b, t⟩) (some res) v.depth y ∧
        SignatureIs A v hist (some ⟨b, c, t⟩) (some res) v.depth z ∧ x = y * z) ∧
    (∀ (res : ℤ) (a b : ℚ) (t : IType), a ≤ b → v.inc.defaultRes ≤ res →
      ∃ x, SignatureIs A v hist (some ⟨a, b, t⟩) (some res) v.depth x ∧
        SignatureIs A v hist (some ⟨a, b, t⟩) none v.depth x) ∧
    ∃ x z, SignatureIs A v hist none none v.depth x ∧ TerminalIs A v hist z ∧ z = v.initial * x := by
  obtain ⟨P, hF⟩ := hv.flow
  refine ⟨fun res a b c t hab hbc => ?_, fun res a b t hab hr => ?_, ?_⟩
  · exact ⟨_, _, _, hF.signature hist hh _ _ a c t (hab.trans hbc) rfl res rfl,
      hF.signature hist hh _ _ a b t hab rfl res rfl, hF.signature hist hh _ _ b c t hbc rfl res rfl,
      (hF.chen _ _ _ (gridFloor_mono _ hab) (gridFloor_mono _ hbc)).symm⟩
  · refine ⟨_, hF.signature hist hh _ _ a b t hab rfl res rfl, ?_⟩
    have := hF.signature hist hh (some ⟨a, b, t⟩) none a b t hab rfl _ rfl
    have e : ∀ x y, cells v P (gridFloor res x) (gridFloor res y) =
        cells v P (gridFloor v.inc.defaultRes x) (gridFloor v.inc.defaultRes y) := by
      intro x y
      unfold cells
      rw [gridFloor_finer _ _ hr, gridFloor_finer _ _ hr, gridFloor_gridFloor, gridFloor_gridFloor]
    rw [e]
    exact this
  · refine ⟨_, _, hF.signature hist hh none none v.domain.inf v.domain.sup v.domain.type hv.domain rfl _
      rfl, hF.terminal hist hh hv.domain, ?_⟩
    congr 1
    unfold cells
    show _ = P (gridFloor v.inc.defaultRes (gridFloor v.inc.defaultRes _))
      (gridFloor v.inc.defaultRes (gridFloor v.inc.defaultRes _))
    rw [gridFloor_gridFloor, gridFloor_gridFloor]

example : ((twoSteps.signature heisTensor 10 none none 2).run twoSteps.inc Cache.empty).1 =
    some ⟨1, 1, 1/2⟩ := by decide +kernel

/-- C110 fails outside of the domain: a sub-stream over `[0, 1)` reports changes between 1 and 2. -/
theorem C110_domain_refuted :
    let w : ValueStream Heis Heis := { twoSteps with domain := ⟨0, 1, .clopen⟩ }
    ((w.signature heisTensor 10 (some ⟨1, 2, .clopen⟩) none 2).run w.inc Cache.empty).1 =
      some ⟨0, 1, 0⟩ ∧ w.empty ⟨1, 2, .clopen⟩ = true := by decide +kernel

end RoughPy.Streams
