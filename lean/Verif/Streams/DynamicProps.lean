import Verif.Streams.DynamicLemmas
import Verif.Streams.Example
import Mathlib.Algebra.Group.TypeTags.Basic
import Mathlib.Tactic.Abel
import Mathlib.Tactic.Group

set_option linter.unusedSectionVars false

/-!
# Properties of dynamically constructed streams (C41, C42, C59)

Function streams and Brownian streams keep a tree of dyadic intervals that grows with the
queries.  `P` below is a function of dyadic intervals: the value the stream ought to have.
-/

namespace RoughPy.Streams

open RoughPy.Intervals

variable {L : Type} {G : Type} [Monoid G]

/-- The queries of a history (dyadic interval, resolution) ask for clopen intervals that are
all to the right of 0 or all to the left of 0. -/
def OneSided (qs : List (DyadicInterval × ℤ)) : Prop :=
  (∀ q ∈ qs, q.1.type = .clopen) ∧ ((∀ q ∈ qs, 0 ≤ q.1.k) ∨ ∀ q ∈ qs, q.1.k < 0)

/-- `P` satisfies Chen's identity on the halves of dyadic intervals. -/
def ChenOnHalves (P : DyadicInterval → G) : Prop :=
  ∀ k n : ℤ, P ⟨k, n, .clopen⟩ = P ⟨k * 2, n + 1, .clopen⟩ * P ⟨k * 2 + 1, n + 1, .clopen⟩

theorem eta_clopen (d : DyadicInterval) (h : d.type = .clopen) : d = ⟨d.k, d.n, .clopen⟩ :=
  dext h rfl rfl rfl

theorem function_coherent (ops : LieOps L) (sig : L → G) (hI : Interprets ops sig)
    (f : DyadicInterval → L) (hP : ChenOnHalves fun d => sig (f d)) :
    Coherent (functionStream ops f) sig (fun d => sig (f d)) (fun _ => True) where
  interp := hI
  half := fun _ _ => ⟨trivial, trivial⟩
  mul := fun d hd _ => by
    have := hP d.k d.n
    rw [← eta_clopen d hd] at this
    exact this
  children := fun _ _ _ _ _ => ⟨rfl, rfl⟩

theorem OneSided.tail {q : DyadicInterval × ℤ} {qs : List (DyadicInterval × ℤ)} (h : OneSided (q :: qs)) :
    ∀ x ∈ qs, (0 ≤ q.1.k ↔ 0 ≤ x.1.k) := by
  intro x hx
  rcases h.2 with h | h
  · exact ⟨fun _ => h x (List.mem_cons_of_mem _ hx), fun _ => h q List.mem_cons_self⟩
  · have h1 := h x (List.mem_cons_of_mem _ hx)
    have h2 := h q List.mem_cons_self
    constructor <;> intro <;> omega

/-- A history that finishes has one result for all large fuel. -/
theorem returns_of_bound {α : Type} {f : ℕ → Option α} {Q : α → Prop}
    (hmono : ∀ n m a, n ≤ m → f n = some a → f m = some a)
    (h : ∃ N, ∀ fuel ≥ N, ∃ a, f fuel = some a ∧ Q a) : ∃ a, Returns f a ∧ Q a := by
  obtain ⟨N, h⟩ := h
  obtain ⟨a, h1, h2⟩ := h N le_rfl
  exact ⟨a, ⟨N, fun n hn => hmono N n a hn h1⟩, h2⟩

/-! ## C41 -/

/-- C41, the part that holds, for function streams: if the user's function satisfies Chen's
identity on the halves of dyadic intervals, then in *every* history of queries on one side of 0
every query finishes and its answer is, as a signature, the user's value for the interval asked
— whatever was asked before and at whatever resolution (so an answer never changes).  Moreover in
the tree that is left behind every node that is not a leaf has both its halves in the tree, and
its stored value is the product of theirs.
Missing: functions without Chen's identity (`C41_tree_refuted`, `C41_answer_refuted`), histories
on both sides of 0 (`C41_both_sides_refuted`). -/
theorem C41_function_history_partial (ops : LieOps L) (sig : L → G) (hI : Interprets ops sig)
    (f : DyadicInterval → L) (hP : ChenOnHalves fun d => sig (f d))
    (qs : List (DyadicInterval × ℤ)) (hq : OneSided qs) :
    ∃ r, Returns (fun fuel => dynSession (functionStream ops f) fuel qs []) r ∧
      r.1.map sig = (qs.map fun q => sig (f q.1)) ∧
      ∀ d nd, Tree.find r.2 d = some nd → nd.isLeaf d = false →
        ∃ nl nr, Tree.find r.2 ⟨d.k * 2, d.n + 1, .clopen⟩ = some nl ∧
          Tree.find r.2 ⟨d.k * 2 + 1, d.n + 1, .clopen⟩ = some nr ∧
          sig nd.lie = sig nl.lie * sig nr.lie := by
  refine returns_of_bound (fun n m a hnm h => dynSession_mono hnm h) ?_
  cases qs with
  | nil =>
    refine ⟨0, fun fuel _ => ⟨([], []), rfl, rfl, ?_⟩⟩
    intro d nd h
    cases h
  | cons q qs =>
    have hC := function_coherent ops sig hI f hP
    obtain ⟨N, h⟩ := dynSession_start hC q qs hq.1 trivial rfl
      (Or.inr ⟨fun _ _ => ⟨rfl, rfl, trivial⟩, hq.tail⟩)
    refine ⟨N, fun fuel hf => ?_⟩
    obtain ⟨xs, t, h1, h2, r', h3⟩ := h fuel hf
    refine ⟨(xs, t), h1, h2, fun d nd hd hl => ?_⟩
    have hn := h3.node d nd hd
    have hlt : d.n < nd.accuracy := by
      have := hn.acc
      unfold DNode.isLeaf at hl
      rw [decide_eq_false_iff_not] at hl
      omega
    obtain ⟨⟨nl, hl'⟩, ⟨nr, hr'⟩⟩ := hn.halves hlt
    refine ⟨nl, nr, hl', hr', ?_⟩
    rw [hn.value, (h3.node _ nl hl').value, (h3.node _ nr hr').value]
    exact hC.mul d (h3.clopen hd) trivial

/-- The example function: the increments of the line `t ↦ (t, 2t)`; their exponentials satisfy
Chen's identity. -/
def lineIncrement (d : DyadicInterval) : Heis := ⟨d.sup - d.inf, 2 * (d.sup - d.inf), 0⟩

theorem left_half (k n : ℤ) : (⟨k * 2, n + 1, .clopen⟩ : DyadicInterval).inf =
    (⟨k, n, .clopen⟩ : DyadicInterval).inf := by
  rw [Intervals.inf_eq_left, Intervals.inf_eq_left]
  show dyadicValue (k * 2) (n + 1) = dyadicValue k n
  rw [dyadicValue_half]
  congr 1
  ring

theorem middle_half (k n : ℤ) : (⟨k * 2, n + 1, .clopen⟩ : DyadicInterval).sup =
    (⟨k * 2 + 1, n + 1, .clopen⟩ : DyadicInterval).inf := by
  rw [Intervals.inf_eq_left, Intervals.sup_eq_right]
  rfl

theorem right_half (k n : ℤ) : (⟨k * 2 + 1, n + 1, .clopen⟩ : DyadicInterval).sup =
    (⟨k, n, .clopen⟩ : DyadicInterval).sup := by
  rw [Intervals.sup_eq_right, Intervals.sup_eq_right]
  show dyadicValue (k * 2 + 1 + 1) (n + 1) = dyadicValue (k + 1) n
  rw [show k * 2 + 1 + 1 = (k + 1) * 2 by ring, dyadicValue_half]
  congr 1
  ring

example : Interprets (Heis.ops 2) (fun a : Heis => a) ∧ ChenOnHalves (fun d => lineIncrement d) ∧
    OneSided [(⟨0, 0, .clopen⟩, 3), (⟨5, 1, .clopen⟩, 1), (⟨0, 0, .clopen⟩, 0)] := by
  refine ⟨Heis.interprets, ?_, by simp, Or.inl (by simp)⟩
  intro k n
  show lineIncrement _ = lineIncrement _ * lineIncrement _
  unfold lineIncrement
  rw [left_half, middle_half, right_half, Heis.mul_def]
  ext <;> simp only [Heis.mul] <;> ring

example : (dynSession (functionStream (Heis.ops 2) lineIncrement) 40
    [(⟨0, 0, .clopen⟩, 2), (⟨5, 1, .clopen⟩, 1), (⟨0, 0, .clopen⟩, 0)] []).map Prod.fst =
    some [⟨1, 2, 0⟩, ⟨1/2, 1, 0⟩, ⟨1, 2, 0⟩] := by decide +kernel

/-- C41 for interval queries of function streams.  Let `dev` be the development of a path in a
group and let the user's function return, on every dyadic interval, an element whose signature is
the increment `dev(inf)⁻¹ · dev(sup)`.  Then in every history of interval queries on one side of 0
each answer is the increment of the path between the end points rounded down to the resolution
asked for. -/
theorem C41_function_intervals_partial {H : Type} [Group H] (ops : LieOps L) (sig : L → H)
    (hI : Interprets ops sig) (f : DyadicInterval → L) (dev : ℚ → H)
    (hf : ∀ d, d.type = .clopen → sig (f d) = (dev d.inf)⁻¹ * dev d.sup)
    (qs : List (ℚ × ℚ × ℤ)) (hle : ∀ q ∈ qs, q.1 ≤ q.2.1)
    (hside : (∀ q ∈ qs, 0 ≤ q.1) ∨ ∀ q ∈ qs, q.2.1 ≤ 0) :
    ∃ N, ∀ fuel ≥ N, ∃ ys t, dynIntervals (functionStream ops f) fuel qs [] = some (ys, t) ∧
      ys.map sig = qs.map fun q => (dev (gridFloor q.2.2 q.1))⁻¹ * dev (gridFloor q.2.2 q.2.1) := by
  classical
  -- the pieces of each query
  have hd : ∀ q : ℚ × ℚ × ℤ, ∃ l : List DyadicInterval, ∃ n₀ : ℕ, q ∈ qs →
      (∀ fuel ≥ n₀, toDyadicIntervals fuel q.1 q.2.1 q.2.2 .clopen = some l) ∧
      TilesFrom l (gridFloor q.2.2 q.1) (gridFloor q.2.2 q.2.1) ∧ ∀ d ∈ l, d.type = .clopen := by
    intro q
    by_cases hq : q ∈ qs
    · obtain ⟨n₀, l, h1, h2, h3⟩ := C05_dissection q.1 q.2.1 q.2.2 (hle q hq)
      exact ⟨l, n₀, fun _ => ⟨h1, h2, fun d hd => (h3 d hd).1⟩⟩
    · exact ⟨[], 0, fun h => absurd h hq⟩
  choose piece bound hpiece using hd
  have hP : ChenOnHalves fun d => sig (f d) := by
    intro k n
    simp only
    rw [hf _ rfl, hf _ rfl, hf _ rfl, left_half, middle_half, right_half]
    group
  have hC := function_coherent ops sig hI f hP
  set flat := qs.flatMap fun q => (piece q).map fun d => (d, q.2.2) with hflat
  have hmem : ∀ x ∈ flat, ∃ q ∈ qs, x.1 ∈ piece q := by
    intro x hx
    rw [hflat, List.mem_flatMap] at hx
    obtain ⟨q, hq, hx⟩ := hx
    obtain ⟨d, hd, rfl⟩ := List.mem_map.1 hx
    exact ⟨q, hq, hd⟩
  have hinside : ∀ (l : List DyadicInterval) (a b : ℚ), TilesFrom l a b →
      ∀ d ∈ l, a ≤ d.left ∧ d.right ≤ b := by
    intro l
    induction l with
    | nil => intro a b _ d hd; cases hd
    | cons e l ih =>
      intro a b h d hd
      obtain ⟨h1, h2⟩ := h
      have hend : ∀ (l : List DyadicInterval) (a b : ℚ), TilesFrom l a b → a ≤ b := by
        intro l
        induction l with
        | nil => exact fun a b h => le_of_eq h
        | cons e l ih =>
            intro a b h
            have := ih _ _ h.2
            have := left_lt_right e
            have := h.1
            linarith
      rcases List.mem_cons.1 hd with rfl | hd
      · exact ⟨h1 ▸ le_rfl, hend _ _ _ h2⟩
      · have h3 := ih _ _ h2 d hd
        have := left_lt_right e
        exact ⟨by linarith [h3.1], h3.2⟩
  have hone : OneSided flat := by
    refine ⟨fun x hx => ?_, ?_⟩
    · obtain ⟨q, hq, hx⟩ := hmem x hx
      exact (hpiece q hq).2.2 _ hx
    · have h2 : ∀ n : ℤ, (0 : ℚ) < 2 ^ n := two_zpow_pos
      rcases hside with hs | hs
      · left
        intro x hx
        obtain ⟨q, hq, hx⟩ := hmem x hx
        have h3 := (hinside _ _ _ (hpiece q hq).2.1 _ hx).1
        have h4 : 0 ≤ gridFloor q.2.2 q.1 := by
          unfold gridFloor
          have : (0 : ℤ) ≤ ⌊q.1 * 2 ^ q.2.2⌋ := Int.floor_nonneg.2 (mul_nonneg (hs q hq) (h2 _).le)
          exact div_nonneg (by exact_mod_cast this) (h2 _).le
        have h5 := h4.trans h3
        have h6 : x.1.left = (x.1.k : ℚ) / 2 ^ x.1.n := by
          unfold DyadicInterval.left
          rw [(hpiece q hq).2.2 _ hx]
          rfl
        rw [h6, le_div_iff₀ (h2 _), zero_mul] at h5
        exact_mod_cast h5
      · right
        intro x hx
        obtain ⟨q, hq, hx⟩ := hmem x hx
        have h3 := (hinside _ _ _ (hpiece q hq).2.1 _ hx).2
        have h4 : gridFloor q.2.2 q.2.1 ≤ 0 := by
          unfold gridFloor
          have : ⌊q.2.1 * 2 ^ q.2.2⌋ ≤ (0 : ℤ) := by
            have := Int.floor_mono (mul_nonpos_of_nonpos_of_nonneg (hs q hq) (h2 q.2.2).le)
            simpa using this
          exact div_nonpos_of_nonpos_of_nonneg (by exact_mod_cast this) (h2 _).le
        have h5 := h3.trans h4
        have h6 : x.1.right = ((x.1.k + 1 : ℤ) : ℚ) / 2 ^ x.1.n := by
          unfold DyadicInterval.right
          rw [(hpiece q hq).2.2 _ hx]
          rfl
        rw [h6, div_le_iff₀ (h2 _), zero_mul] at h5
        have : x.1.k + 1 ≤ 0 := by exact_mod_cast h5
        omega
  have htele : ∀ (l : List DyadicInterval) (a b : ℚ), (∀ d ∈ l, d.type = .clopen) → TilesFrom l a b →
      (l.map fun d => sig (f d)).prod = (dev a)⁻¹ * dev b := by
    intro l
    induction l with
    | nil => intro a b _ h; rw [show a = b from h]; simp
    | cons d l ih =>
      intro a b hc h
      rw [List.map_cons, List.prod_cons, ih _ _ (fun e he => hc e (List.mem_cons_of_mem _ he)) h.2,
        hf d (hc d List.mem_cons_self), Intervals.inf_eq_left, Intervals.sup_eq_right, h.1]
      group
  -- one bound for the dissections
  have hb : ∃ n₁, ∀ fuel ≥ n₁, ∀ q ∈ qs,
      toDyadicIntervals fuel q.1 q.2.1 q.2.2 .clopen = some (piece q) := by
    have key : ∀ l : List (ℚ × ℚ × ℤ), (∀ q ∈ l, q ∈ qs) → ∃ n₁, ∀ fuel ≥ n₁, ∀ q ∈ l,
        toDyadicIntervals fuel q.1 q.2.1 q.2.2 .clopen = some (piece q) := by
      intro l
      induction l with
      | nil => exact fun _ => ⟨0, fun _ _ _ h => by cases h⟩
      | cons q l ih =>
        intro hl
        obtain ⟨n₁, h⟩ := ih fun x hx => hl x (List.mem_cons_of_mem _ hx)
        refine ⟨max n₁ (bound q), fun fuel hfu x hx => ?_⟩
        rcases List.mem_cons.1 hx with rfl | hx
        · exact (hpiece x (hl x List.mem_cons_self)).1 fuel (le_trans (le_max_right _ _) hfu)
        · exact h fuel (le_trans (le_max_left _ _) hfu) x hx
    exact key qs fun _ h => h
  obtain ⟨n₁, hb⟩ := hb
  -- the session of all pieces
  have hsess : ∃ N, ∀ fuel ≥ N, ∃ r : List L × Tree L,
      dynSession (functionStream ops f) fuel flat [] = some r ∧
      r.1.map sig = flat.map fun x => sig (f x.1) := by
    obtain ⟨r, ⟨N, h1⟩, h2, -⟩ := C41_function_history_partial ops sig hI f hP flat hone
    exact ⟨N, fun fuel hfu => ⟨r, h1 fuel hfu, h2⟩⟩
  obtain ⟨N, hsess⟩ := hsess
  refine ⟨max N n₁, fun fuel hfu => ?_⟩
  obtain ⟨r, h1, h2⟩ := hsess fuel (le_trans (le_max_left _ _) hfu)
  obtain ⟨ys, h3, h4⟩ := dynIntervals_of_session (P := fun d => sig (f d)) hC.interp fuel piece qs [] r
    (hb fuel (le_trans (le_max_right _ _) hfu)) h1 h2
  refine ⟨ys, r.2, h3, ?_⟩
  rw [h4]
  refine List.map_congr_left fun q hq => ?_
  exact htele _ _ _ (hpiece q hq).2.2 (hpiece q hq).2.1

example : (dynIntervals (functionStream (Heis.ops 2) lineIncrement) 60
    [(1/2, 7/4, 2), (0, 3, 1), (1/2, 7/4, 2)] []).map Prod.fst =
    some [⟨5/4, 5/2, 0⟩, ⟨3, 6, 0⟩, ⟨5/4, 5/2, 0⟩] := by decide +kernel

/-- C41 for Brownian streams, the part that holds: as long as the first query's interval contains
all later ones, the degree-one parts of all the answers come from one additive function of dyadic
intervals — an answer never changes, and the increment over an interval is the sum of those over
its halves.  `lvl` is the degree-one part of a Lie element.
Missing: queries outside the first interval (`C41_brownian_refuted`). -/
theorem C41_brownian_partial {V : Type} [AddCommGroup V] (ops : LieOps L) (add sub : L → L → L)
    (half : L → L) (gauss : DyadicInterval → L) (lvl : L → V)
    (hI : Interprets ops fun x => Multiplicative.ofAdd (lvl x))
    (hadd : ∀ a b, lvl (add a b) = lvl a + lvl b) (hsub : ∀ a b, lvl (sub a b) = lvl a - lvl b)
    (hV : V →+ V) (hhalf : ∀ a, lvl (half a) = hV (lvl a)) (hV2 : ∀ v, hV v + hV v = v)
    (q : DyadicInterval × ℤ) (hqt : q.1.type = .clopen) :
    ∃ P : DyadicInterval → V,
      (∀ k n : ℤ, (⟨k, n, .clopen⟩ : DyadicInterval).points ⊆ q.1.points →
        P ⟨k, n, .clopen⟩ = P ⟨k * 2, n + 1, .clopen⟩ + P ⟨k * 2 + 1, n + 1, .clopen⟩) ∧
      P q.1 = lvl (gauss q.1) ∧
      ∀ qs : List (DyadicInterval × ℤ),
        (∀ x ∈ qs, x.1.type = .clopen ∧ x.1.points ⊆ q.1.points) →
        ∃ r, Returns (fun fuel => dynSession (brownianStream ops add sub half gauss) fuel (q :: qs) []) r ∧
          r.1.map lvl = P q.1 :: qs.map fun x => P x.1 := by
  -- values determined by the draws, level by level
  let val : ℕ → ℤ → V := fun m => Nat.rec (motive := fun _ => ℤ → V) (fun k => lvl (gauss ⟨k, q.1.n, .clopen⟩))
    (fun m v k => if k % 2 = 0 then hV (v (k / 2)) + lvl (gauss ⟨k, q.1.n + (m + 1 : ℕ), .clopen⟩)
      else hV (v (k / 2)) - lvl (gauss ⟨k - 1, q.1.n + (m + 1 : ℕ), .clopen⟩)) m
  let P : DyadicInterval → V := fun d => val (d.n - q.1.n).toNat d.k
  have below_iff : ∀ d : DyadicInterval, d.type = .clopen → (d.points ⊆ q.1.points ↔ Below q.1 d) := by
    intro d hd
    rw [← C06_contains_dyadic _ _ (hqt.trans hd.symm), contains_iff _ _ hqt hd]
  have hsplit : ∀ d : DyadicInterval, Below q.1 d →
      P (dl d) = hV (P d) + lvl (gauss (dl d)) ∧ P (dr d) = hV (P d) - lvl (gauss (dl d)) := by
    intro d hb
    obtain ⟨m, hm⟩ : ∃ m : ℕ, d.n = q.1.n + m := ⟨(d.n - q.1.n).toNat, by have := hb.le; omega⟩
    have e1 : (d.n + 1 - q.1.n).toNat = m + 1 := by omega
    have e2 : (d.n - q.1.n).toNat = m := by omega
    have e3 : dl d = ⟨d.k * 2, q.1.n + (m + 1 : ℕ), .clopen⟩ := by
      refine dext rfl rfl rfl ?_
      simp only [dl]
      push_cast
      omega
    have hv : ∀ k, val (m + 1) k = if k % 2 = 0 then
        hV (val m (k / 2)) + lvl (gauss ⟨k, q.1.n + (m + 1 : ℕ), .clopen⟩)
        else hV (val m (k / 2)) - lvl (gauss ⟨k - 1, q.1.n + (m + 1 : ℕ), .clopen⟩) := fun _ => rfl
    constructor
    · show val (d.n + 1 - q.1.n).toNat (d.k * 2) = _
      rw [e1, hv, if_pos (by omega), show d.k * 2 / 2 = d.k by omega, ← e3]
      show _ = hV (val (d.n - q.1.n).toNat d.k) + _
      rw [e2]
    · show val (d.n + 1 - q.1.n).toNat (d.k * 2 + 1) = _
      rw [e1, hv, if_neg (by omega), show (d.k * 2 + 1) / 2 = d.k by omega,
        show d.k * 2 + 1 - 1 = d.k * 2 by ring, ← e3]
      show _ = hV (val (d.n - q.1.n).toNat d.k) - _
      rw [e2]
  have hsum : ∀ d, Below q.1 d → P d = P (dl d) + P (dr d) := by
    intro d hb
    obtain ⟨h1, h2⟩ := hsplit d hb
    rw [h1, h2]
    conv_lhs => rw [← hV2 (P d)]
    abel
  have hP0 : P q.1 = lvl (gauss q.1) := by
    show val (q.1.n - q.1.n).toNat q.1.k = _
    rw [sub_self]
    show lvl (gauss ⟨q.1.k, q.1.n, .clopen⟩) = _
    rw [← eta_clopen q.1 hqt]
  have hC : Coherent (brownianStream ops add sub half gauss) (fun x => Multiplicative.ofAdd (lvl x))
      (fun d => Multiplicative.ofAdd (P d)) (fun d => Below q.1 d) := by
    refine ⟨hI, fun d hd => ⟨hd.trans (below_dl d), hd.trans (below_dr d)⟩, ?_, ?_⟩
    · intro d _ hd
      exact congrArg Multiplicative.ofAdd (hsum d hd)
    · intro d v _ hd hv
      have hv' : lvl v = P d := Multiplicative.ofAdd.injective hv
      obtain ⟨h1, h2⟩ := hsplit d hd
      refine ⟨congrArg Multiplicative.ofAdd ?_, congrArg Multiplicative.ofAdd ?_⟩
      · show lvl (add (half v) (gauss (dl d))) = _
        rw [hadd, hhalf, hv', h1]
      · show lvl (sub (half v) (gauss (dl d))) = _
        rw [hsub, hhalf, hv', h2]
  refine ⟨P, fun k n hk => hsum ⟨k, n, .clopen⟩ ((below_iff _ rfl).1 hk), hP0, fun qs hqs => ?_⟩
  have hq : ∀ x ∈ q :: qs, x.1.type = .clopen := by
    intro x hx
    rcases List.mem_cons.1 hx with rfl | hx
    · exact hqt
    · exact (hqs x hx).1
  obtain ⟨N, h⟩ := dynSession_start hC q qs hq (Below.refl _)
    (congrArg Multiplicative.ofAdd hP0.symm)
    (Or.inl fun x hx => (below_iff _ (hqs x hx).1).1 (hqs x hx).2)
  refine returns_of_bound (fun n m a hnm h => dynSession_mono hnm h) ⟨N, fun fuel hf => ?_⟩
  obtain ⟨xs, t, h1, h2, -⟩ := h fuel hf
  refine ⟨(xs, t), h1, ?_⟩
  have h3 := congrArg (List.map Multiplicative.toAdd) h2
  rw [List.map_map, List.map_map] at h3
  exact h3

/-- The draws of the example. -/
def someDraws (d : DyadicInterval) : Heis := ⟨d.k + 1, d.n, 0⟩

/-- A Brownian stream in the example library, with the draws `someDraws`. -/
def someBrownian : DynImpl Heis :=
  brownianStream (Heis.ops 2) (fun a b => ⟨a.x + b.x, a.y + b.y, a.z + b.z⟩)
    (fun a b => ⟨a.x - b.x, a.y - b.y, a.z - b.z⟩) (fun a => ⟨a.x / 2, a.y / 2, a.z / 2⟩) someDraws

example : Interprets (Heis.ops 2) (fun a : Heis => Multiplicative.ofAdd (a.x, a.y)) where
  zero := rfl
  isZero a h := by
    have := Heis.interprets.isZero a h
    rw [show a = 1 from this]
    rfl
  cbh ls := by
    rw [show (Heis.ops 2).cbh ls = (ls.map fun a => a).prod from Heis.interprets.cbh ls, List.map_id']
    induction ls with
    | nil => rfl
    | cons a ls ih => rw [List.prod_cons, List.map_cons, List.prod_cons, ← ih]; rfl

example : (dynSession someBrownian 40 [(⟨0, 0, .clopen⟩, 0), (⟨0, 1, .clopen⟩, 1),
    (⟨1, 1, .clopen⟩, 1)] []).map (fun r => r.1.map fun a => (a.x, a.y)) =
    some [(1, 0), (3/2, 1), (-1/2, -1)] := by decide +kernel

/-- C41 fails for Brownian streams when the query lies outside the first interval: the increment
over `[0, 2)` is drawn independently of those over `[0, 1)` and `[1, 2)`.  With the draws
`someDraws` the three answers in one history have first coordinates 1, 2 and 1. -/
theorem C41_brownian_refuted :
    (dynSession someBrownian 40 [(⟨0, 0, .clopen⟩, 0), (⟨1, 0, .clopen⟩, 0), (⟨0, -1, .clopen⟩, 0)]
      []).map (fun r => r.1.map fun a => a.x) = some [1, 2, 1] := by decide +kernel

/-- C41 fails on both sides of 0: for *every* dynamically constructed stream, once a dyadic
interval on one side of 0 has been asked for, a query for one on the other side never finishes. -/
theorem C41_both_sides_refuted (S : DynImpl L) (q₀ q₁ : DyadicInterval × ℤ)
    (qs : List (DyadicInterval × ℤ)) (h0 : q₀.1.type = .clopen) (h1 : q₁.1.type = .clopen)
    (hs : 0 ≤ q₀.1.k ∧ q₁.1.k < 0 ∨ q₀.1.k < 0 ∧ 0 ≤ q₁.1.k) (fuel : ℕ) :
    dynSession S fuel (q₀ :: q₁ :: qs) [] = none := by
  refine dynSession_never q₀ q₁ qs h0 h1 ?_ fuel
  intro h
  rcases hs with ⟨a, b⟩ | ⟨a, b⟩
  · have := h.1 a; omega
  · have := h.2 b; omega

/-- The dissection of `[-1, 1)` has a piece on either side, so that a single interval query over
`[-1, 1)` never finishes. -/
theorem C41_interval_around_zero_refuted (S : DynImpl L) (fuel : ℕ) :
    dynInterval S fuel [] (-1) 1 0 = none := by
  obtain ⟨n₀, l, h1, -, -⟩ := C05_dissection (-1) 1 0 (by norm_num)
  have hl : l = [⟨-1, 0, .clopen⟩, ⟨0, 0, .clopen⟩] := by
    have h2 := h1 (max n₀ 10) (le_max_left _ _)
    have h3 : toDyadicIntervals 10 (-1) 1 0 .clopen = some [⟨-1, 0, .clopen⟩, ⟨0, 0, .clopen⟩] := by
      decide +kernel
    by_cases hn : n₀ ≤ 10
    · rw [h1 10 hn] at h3
      exact Option.some.inj h3
    · obtain ⟨m, rfl⟩ : ∃ m, n₀ = 10 + m := ⟨n₀ - 10, by omega⟩
      have h4 := h1 (10 + m) le_rfl
      exact Option.some.inj (h4.symm.trans (toDyadicIntervals_mono h3 (by omega)))
  unfold dynInterval
  cases hd : toDyadicIntervals fuel (-1) 1 0 .clopen with
  | none => rfl
  | some ds =>
    simp only
    have : ds = l := by
      have := toDyadicIntervals_mono hd (le_max_left fuel n₀)
      rw [h1 _ (le_max_right _ _)] at this
      exact (Option.some.inj this).symm
    rw [this, hl]
    simp only [List.map_cons, List.map_nil]
    rw [C41_both_sides_refuted S _ _ [] rfl rfl (Or.inr ⟨by norm_num, by norm_num⟩) fuel]

/-- The increments of the parabola `t ↦ (t, t²)`, as `stream.from_function` uses them. -/
def parabolaIncrement (d : DyadicInterval) : Heis :=
  ⟨d.sup - d.inf, d.sup ^ 2 - d.inf ^ 2, 0⟩

/-- C41 fails when the increments do not satisfy Chen's identity, as for every `from_function`
stream whose path is not a straight line: after asking for `[0,1)` and `[1,2)`, the answer for
`[0,2)` (a node that is not a leaf) is not the cbh of the answers for its halves. -/
theorem C41_tree_refuted :
    (dynSession (functionStream (Heis.ops 2) parabolaIncrement) 40
      [(⟨0, 0, .clopen⟩, 0), (⟨1, 0, .clopen⟩, 0), (⟨0, -1, .clopen⟩, 0)] []).map Prod.fst =
      some [⟨1, 1, 0⟩, ⟨1, 3, 0⟩, ⟨2, 4, 0⟩] ∧
    (Heis.ops 2).cbh [⟨1, 1, 0⟩, ⟨1, 3, 0⟩] = ⟨2, 4, 1⟩ := by decide +kernel

/-- The same query, at the same resolution, is answered differently after a query for another
interval. -/
theorem C41_answer_refuted :
    (dynSession (functionStream (Heis.ops 2) parabolaIncrement) 40
      [(⟨0, 0, .clopen⟩, 0), (⟨1, 1, .clopen⟩, 1), (⟨0, 0, .clopen⟩, 0)] []).map Prod.fst =
      some [⟨1, 1, 0⟩, ⟨1/2, 3/4, 0⟩, ⟨1, 1, 1/8⟩] := by decide +kernel

/-! ## C59 — the resolution asked for -/

/-- C59, the part that holds: for a function that satisfies Chen's identity the answer at any
resolution is the product of the values over the cells of that resolution. -/
theorem C59_resolution_partial (ops : LieOps L) (sig : L → G) (hI : Interprets ops sig)
    (f : DyadicInterval → L) (hP : ChenOnHalves fun d => sig (f d)) (k n : ℤ) (m : ℕ) :
    ∃ x t, Returns (fun fuel => dynQuery (functionStream ops f) fuel [] ⟨k, n, .clopen⟩ (n + m)) (x, t) ∧
      sig x = ((List.range (2 ^ m)).map fun i : ℕ => sig (f ⟨k * 2 ^ m + i, n + m, .clopen⟩)).prod := by
  have hC := function_coherent ops sig hI f hP
  obtain ⟨N, h⟩ := dynQuery_first hC (q := ⟨k, n, .clopen⟩) rfl trivial rfl (n + m)
  obtain ⟨r, h1, h2⟩ := returns_of_bound (Q := fun r : L × Tree L => sig r.1 = sig (f ⟨k, n, .clopen⟩))
    (fun n m a hnm h => dynQuery_mono h hnm)
    ⟨N, fun fuel hf => by obtain ⟨x, t, e1, e2, -⟩ := h fuel hf; exact ⟨(x, t), e1, e2⟩⟩
  refine ⟨r.1, r.2, h1, ?_⟩
  rw [h2]
  clear h h1 h2
  induction m generalizing k n with
  | zero => simp
  | succ m ih =>
    rw [show sig (f ⟨k, n, .clopen⟩) = _ from hP k n]
    simp only
    rw [ih (k * 2) (n + 1), ih (k * 2 + 1) (n + 1), show 2 ^ (m + 1) = 2 ^ m + 2 ^ m by ring, List.range_add,
      List.map_append, List.prod_append]
    congr 1
    · congr 1
      refine List.map_congr_left fun i _ => ?_
      congr 2
      refine dext rfl rfl ?_ ?_
      · simp only; push_cast; ring
      · simp only; push_cast; ring
    · rw [List.map_map]
      congr 1
      refine List.map_congr_left fun i _ => ?_
      simp only [Function.comp]
      congr 2
      refine dext rfl rfl ?_ ?_
      · simp only; push_cast; ring
      · simp only; push_cast; ring

/-- C59 fails in general: asked for `[0,1)` at resolution 2, a fresh function stream for the
parabola answers with the product of the increments over the two halves, not over the four
quarters. -/
theorem C59_resolution_refuted :
    (dynQuery (functionStream (Heis.ops 2) parabolaIncrement) 40 [] ⟨0, 0, .clopen⟩ 2).map Prod.fst =
      some ⟨1, 1, 1/8⟩ ∧
    (Heis.ops 2).cbh ([0, 1, 2, 3].map fun k => parabolaIncrement ⟨k, 2, .clopen⟩) = ⟨1, 1, 5/32⟩ := by
  decide +kernel

/-! ## C42 — storing and loading -/

/-- C42: for every dynamically constructed stream and every history of queries (on any side of 0,
at any resolutions, for any fuel), storing the tree that the history leaves and loading it into a
new stream gives the same tree: the same intervals with the same values, accuracies, sibling and
parent links. -/
theorem C42_store_load (S : DynImpl L) (fuel : ℕ) (qs : List (DyadicInterval × ℤ))
    (hq : ∀ q ∈ qs, q.1.type = .clopen) (xs : List L) (t : Tree L)
    (h : dynSession S fuel qs [] = some (xs, t)) : loadCache (storeCache t) = some t := by
  rcases dynSession_shape qs hq (Or.inl rfl) h with rfl | ⟨root, hs⟩
  · rfl
  · exact load_store hs.linked

example : ((dynSession (functionStream (Heis.ops 2) parabolaIncrement) 40
    [(⟨0, 0, .clopen⟩, 2), (⟨3, 1, .clopen⟩, 1)] []).map fun r => r.2.length) = some 9 := by decide +kernel

end RoughPy.Streams
