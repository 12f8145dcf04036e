import Verif.Streams.CellLemmas
import Verif.Streams.Example
import Mathlib.Tactic.Linarith
import Mathlib.Tactic.Positivity
import Mathlib.Data.List.Permutation

set_option linter.unusedSectionVars false

/-!
# Properties of streams (C33–C39, C51, C52, C57)
-/

namespace RoughPy.Streams

open RoughPy.Intervals

variable {L : Type} {G : Type} [Monoid G]

/-- The answer to query `q` after the queries `hist` have been answered, on a fresh stream. -/
def answerAfter (s : Stream L) (hist : List Query) (q : Query) (fuel : ℕ) : Option L :=
  ((s.ask fuel q).run s.impl (session s fuel hist Cache.empty).2).1

/-- The schema's default parameterization (the only one that can be configured):
offset 0 and scaling 1. -/
def DefaultParam (s : Stream L) : Prop := s.impl.offset = 0 ∧ s.impl.scaling = 1

theorem answerAfter_eq (s : Stream L) (hist : List Query) (q : Query)
    (hh : ∀ p ∈ hist, p.ctx = q.ctx) (fuel : ℕ) :
    answerAfter s hist q fuel = (s.ask fuel q).eval (cellValue s.impl) := by
  obtain ⟨-, h⟩ := session_ok s fuel q.ctx hist hh Cache.empty (emptyCache_ok _ _)
  exact (run_ok s.impl q.ctx _ (ask_uses s fuel q) _ h).1

/-! ## C35 — queries do not depend on earlier queries -/

/-- C35, the part that holds: as long as all queries use one context, every answer of a session
is the answer a fresh stream gives to that query alone, whatever the earlier queries were.
Missing: sessions that mix contexts (`C35_mixed_contexts_refuted`). -/
theorem C35_history_independent_partial (s : Stream L) (fuel : ℕ) (qs : List Query) (ctx : ℕ)
    (hq : ∀ q ∈ qs, q.ctx = ctx) :
    (session s fuel qs Cache.empty).1 = qs.map fun q => answerAfter s [] q fuel := by
  rw [(session_ok s fuel ctx qs hq Cache.empty (emptyCache_ok _ _)).1]
  refine List.map_congr_left fun q hqm => ?_
  rw [answerAfter_eq s [] q (by simp)]

/-- A stream with two increments in the same cell. -/
def twoTicks : Stream Heis :=
  ⟨lieIncrementStream Heis.ops (incrementData [(1/4, ⟨1, 0, 0⟩), (1/2, ⟨0, 1, 0⟩)]) 0 2,
    ⟨0, 2, .clopen⟩⟩

example : (session twoTicks 10 [⟨⟨0, 1, .clopen⟩, none, 2⟩, ⟨⟨0, 2, .clopen⟩, some 0, 2⟩]
    Cache.empty).1 = [some ⟨1, 1, 1/2⟩, some ⟨1, 1, 1/2⟩] := by decide +kernel

/-- C35 fails when contexts of different depth are used: after a query at depth 1 the depth 2
query no longer sees the area term. -/
theorem C35_mixed_contexts_refuted :
    let q : Query := ⟨⟨0, 1, .clopen⟩, some 0, 2⟩
    let earlier : Query := ⟨⟨0, 1, .clopen⟩, some 0, 1⟩
    answerAfter twoTicks [] q 10 = some ⟨1, 1, 1/2⟩ ∧
    answerAfter twoTicks [earlier] q 10 = some ⟨1, 1, 0⟩ := by decide +kernel

/-! ## C57 — concurrent queries -/

/-- C57, the part that holds: queries made concurrently by any number of threads (each critical
section of the cache is atomic), with one context.  Under every schedule, a thread that has
finished has the answer a fresh stream gives to its query alone.
Missing: threads that use different contexts (see `C35_mixed_contexts_refuted`). -/
theorem C57_concurrent_queries_partial (s : Stream L) (fuel : ℕ) (qs : List Query) (ctx : ℕ)
    (hq : ∀ q ∈ qs, q.ctx = ctx) (sched : List ℕ) (i : ℕ) (hi : i < qs.length) (x : L)
    (hfin : (runSchedule s.impl sched (qs.map (s.ask fuel), Cache.empty)).1[i]? =
      some (.ret x)) :
    answerAfter s [] qs[i] fuel = some x := by
  have hu : ∀ p ∈ qs.map (s.ask fuel), p.Uses ctx := by
    intro p hp
    obtain ⟨q, hqm, rfl⟩ := List.mem_map.1 hp
    have := ask_uses s fuel q
    rwa [hq q hqm] at this
  obtain ⟨h1, -, -⟩ := schedule_ok s.impl ctx sched (qs.map (s.ask fuel)) Cache.empty hu
    (emptyCache_ok _ _)
  rw [answerAfter_eq s [] _ (by simp)]
  have h2 := congrArg (fun l => l[i]?) h1
  simp only [List.getElem?_map, hfin, Option.map_some, Prog.eval, List.getElem?_eq_getElem hi] at h2
  exact (Option.some.inj h2).symm

/-- No thread is ever stuck: an unfinished, unfailed thread can take a step, and a query has
only finitely many critical sections, so that giving it enough steps finishes it. -/
theorem C57_progress (s : Stream L) (fuel : ℕ) (q : Query) (x : L)
    (hx : answerAfter s [] q fuel = some x) :
    ∃ k : ℕ, (runSchedule s.impl (List.replicate k 0) ([s.ask fuel q], Cache.empty)).1 =
      [.ret x] := by
  rw [answerAfter_eq s [] q (by simp)] at hx
  have main : ∀ (p : Prog L L), p.Uses q.ctx → p.eval (cellValue s.impl) = some x →
      ∀ c : Cache L, CacheOK s.impl q.ctx c →
      ∃ k : ℕ, (runSchedule s.impl (List.replicate k 0) ([p], c)).1 = [.ret x] := by
    intro p
    induction p with
    | ret a =>
      intro _ h c _
      cases h
      exact ⟨0, rfl⟩
    | fail => intro _ h; cases h
    | cell c' d k ih =>
      intro hu h c hc
      obtain ⟨hc', hk⟩ := hu
      subst hc'
      obtain ⟨g1, g2⟩ := cellStep_ok s.impl q.ctx d c hc
      obtain ⟨n, hn⟩ := ih (cellStep s.impl q.ctx d c).1 (hk _) (by rw [g1]; exact h) _ g2
      exact ⟨n + 1, hn⟩
  exact main _ (ask_uses s fuel q) hx _ (emptyCache_ok _ _)

/-- Two threads, the second queries the union; they interleave. -/
example :
    ((runSchedule twoTicks.impl [1, 0] ([(⟨⟨0, 1, .clopen⟩, none, 2⟩ : Query),
      ⟨⟨0, 2, .clopen⟩, some 0, 2⟩].map (twoTicks.ask 10), Cache.empty)).1.map
        fun p => match p with | .ret x => some x | _ => none) =
      [some ⟨1, 1, 1/2⟩, some ⟨1, 1, 1/2⟩] := by decide +kernel

/-! ## C36 — every increment is counted exactly once -/

/-- C36: the increments used for an interval are exactly those with time stamp in it. -/
theorem C36_increments_used (rows : List (ℚ × L)) (i : RealInterval) (hi : i.inf ≤ i.sup) :
    incrementRange (incrementData rows) i = eventsIn (incrementData rows) i.points ∧
    Chronological (incrementData rows) :=
  ⟨incrementRange_eq _ (incrementData_chronological rows) i hi, incrementData_chronological rows⟩

/-- `pts` is a list of increasing points; the consecutive intervals it cuts out. -/
def consecutive (t : IType) : List ℚ → List RealInterval
  | a :: b :: rest => ⟨a, b, t⟩ :: consecutive t (b :: rest)
  | _ => []

/-- C36, partition form: for increasing points, the increments used for the consecutive
intervals are together exactly the increments between the first and the last point, each once,
in time order — for both end-point conventions. -/
theorem C36_partition (rows : List (ℚ × L)) (t : IType) (a : ℚ) (pts : List ℚ) (z : ℚ)
    (hp : (a :: pts ++ [z]).Pairwise (· ≤ ·)) :
    ((consecutive t (a :: pts ++ [z])).map (incrementRange (incrementData rows))).flatten =
      incrementRange (incrementData rows) ⟨a, z, t⟩ := by
  have hm := incrementData_chronological rows
  have happ : ∀ a b c : ℚ, a ≤ b → b ≤ c →
      incrementRange (incrementData rows) ⟨a, b, t⟩ ++ incrementRange (incrementData rows) ⟨b, c, t⟩
        = incrementRange (incrementData rows) ⟨a, c, t⟩ := by
    intro a b c hab hbc
    rw [incrementRange_eq _ hm _ hab, incrementRange_eq _ hm _ hbc,
      incrementRange_eq _ hm _ (hab.trans hbc)]
    cases t
    · exact eventsIn_Ico_append _ hm hab hbc
    · exact eventsIn_Ioc_append _ hm hab hbc
  induction pts generalizing a with
  | nil => simp [consecutive]
  | cons b pts ih =>
    have h1 := List.pairwise_cons.1 hp
    have hab : a ≤ b := h1.1 b (by simp)
    have hbz : b ≤ z := by
      have := List.pairwise_cons.1 h1.2
      exact this.1 z (by simp)
    have := ih b h1.2
    simp only [List.cons_append] at this ⊢
    rw [consecutive, List.map_cons, List.flatten_cons, this]
    exact happ a b z hab hbz

example : incrementRange (incrementData [(2, 'b'), (1, 'a'), (3, 'c')]) ⟨1, 2, .opencl⟩ =
    [(2, 'b')] := by decide +kernel

/-! ## C36/C33 — signatures as ordered products -/

/-- C36 for signatures: at any resolution not finer than the stream's own, the signature over
`[a, b)` is the ordered product of the signatures of the increments between `a` and `b` (both
moved into the support and rounded down to the resolution grid), whatever was asked before. -/
theorem C36_signature (ops : ℕ → LieOps L) (rows : List (ℚ × L)) (R : ℤ) (depth ctx : ℕ)
    (support : RealInterval) (hs : support.inf ≤ support.sup) (sig : L → G)
    (hI : Interprets (ops ctx) sig) (a b : ℚ) (hab : a ≤ b) (t : IType) (res : ℤ) (hres : res ≤ R)
    (hist : List Query) (hh : ∀ p ∈ hist, p.ctx = ctx) :
    let s : Stream L := ⟨lieIncrementStream ops (incrementData rows) R depth, support⟩
    let pos := fun x => gridFloor res (clamp support.inf support.sup x)
    ∃ x, Returns (answerAfter s hist ⟨⟨a, b, t⟩, some res, ctx⟩) x ∧
      sig x = eventsSig sig (eventsIn (incrementData rows) (Set.Ico (pos a) (pos b))) := by
  intro s pos
  have hm := incrementData_chronological rows
  have hC := lieIncrement_contribution ops _ hm R depth ctx sig hI
  obtain ⟨x, hx, sx⟩ := logSignatureAt_sig s rfl rfl hs ctx sig hI _ hC.chen
    (fun a => by simp [eventsIn, eventsSig]) a b t hab res (fun d ht hn => by
      unfold dyadicQuery
      exact layerQuery_fuel_sig s.impl ctx sig hI _ hC d ht (hn.trans hres))
  refine ⟨x, ?_, sx⟩
  obtain ⟨n₀, hn⟩ := hx
  exact ⟨n₀, fun n hn' => by rw [answerAfter_eq _ _ _ hh]; exact hn n hn'⟩

example : answerAfter twoTicks [] ⟨⟨0, 1, .clopen⟩, some (-1), 2⟩ 10 = some ⟨0, 0, 0⟩ ∧
    answerAfter twoTicks [] ⟨⟨0, 2, .clopen⟩, some (-1), 2⟩ 10 = some ⟨1, 1, 1/2⟩ := by
  decide +kernel

/-- C36, end-point convention of the query: a `(0, 1]` query to a stream does not see an
increment at time 1 (it is answered as `[0, 1)`), although the implementation would. -/
theorem C36_query_type_refuted :
    let s : Stream Heis := ⟨lieIncrementStream Heis.ops (incrementData [(1, ⟨1, 0, 0⟩)]) 0 2,
      ⟨0, 2, .opencl⟩⟩
    answerAfter s [] ⟨⟨0, 1, .opencl⟩, some 0, 2⟩ 10 = some ⟨0, 0, 0⟩ ∧
    s.impl.impl 2 ⟨0, 1, .opencl⟩ = ⟨1, 0, 0⟩ := by decide +kernel

/-! ## C33 — Chen's identity at a fixed resolution -/

/-- C33, the part that holds for streams with a cache: at every resolution not finer than the
stream's own, the signature over `[a, c)` is the product of the signatures over `[a, b)` and
`[b, c)` — for all `a ≤ b ≤ c`, whether or not they are on the grid or inside the support, and
whatever was asked before.
Missing: finer resolutions (`C33_finer_resolution_refuted`). -/
theorem C33_chen_partial (s : Stream L) (hc : s.impl.caching = true) (hp : DefaultParam s)
    (hE : EmptyInherited s.impl) (hs : s.support.inf ≤ s.support.sup) (ctx : ℕ) (sig : L → G)
    (hI : Interprets (s.impl.ops ctx) sig) (a b c : ℚ) (hab : a ≤ b) (hbc : b ≤ c) (t : IType)
    (res : ℤ) (hres : res ≤ s.impl.defaultRes)
    (hist : List Query) (hh : ∀ p ∈ hist, p.ctx = ctx) :
    ∃ x y z, Returns (answerAfter s hist ⟨⟨a, c, t⟩, some res, ctx⟩) x ∧
      Returns (answerAfter s hist ⟨⟨a, b, t⟩, some res, ctx⟩) y ∧
      Returns (answerAfter s hist ⟨⟨b, c, t⟩, some res, ctx⟩) z ∧
      sig x = sig y * sig z := by
  obtain ⟨v, hC⟩ := caching_contribution s.impl hE ctx sig
  have key : ∀ a b : ℚ, a ≤ b → _ := fun a b hab =>
    logSignatureAt_sig s hp.1 hp.2 hs ctx sig hI _ hC.chen (fun a => intProd_self v _) a b t hab res
      (fun d ht hn => by
        unfold dyadicQuery
        rw [if_pos hc]
        exact layerQuery_fuel_sig s.impl ctx sig hI _ hC d ht (hn.trans hres))
  have lift : ∀ a b x, Returns (fun fuel => (s.logSignatureAt fuel ⟨a, b, t⟩ res ctx).eval
      (cellValue s.impl)) x → Returns (answerAfter s hist ⟨⟨a, b, t⟩, some res, ctx⟩) x := by
    rintro a b x ⟨n₀, hn⟩
    exact ⟨n₀, fun n hn' => by rw [answerAfter_eq _ _ _ hh]; exact hn n hn'⟩
  obtain ⟨x, hx, sx⟩ := key a c (hab.trans hbc)
  obtain ⟨y, hy, sy⟩ := key a b hab
  obtain ⟨z, hz, sz⟩ := key b c hbc
  refine ⟨x, y, z, lift _ _ _ hx, lift _ _ _ hy, lift _ _ _ hz, ?_⟩
  rw [sx, sy, sz]
  exact (hC.chen _ _ _ (gridFloor_mono _ (clamp_mono _ _ hab))
    (gridFloor_mono _ (clamp_mono _ _ hbc))).symm

theorem lieIncrement_emptyInherited (ops : ℕ → LieOps L) (rows : List (ℚ × L)) (R : ℤ)
    (depth : ℕ) : EmptyInherited (lieIncrementStream ops (incrementData rows) R depth) := by
  have hm := incrementData_chronological rows
  intro d e hd he hde h
  have key : ∀ d : DyadicInterval, d.type = .clopen →
      ((lieIncrementStream ops (incrementData rows) R depth).empty (asInterval d) = true ↔
        eventsIn (incrementData rows) d.points = []) := by
    intro d ht
    have hle : (asInterval d).inf ≤ (asInterval d).sup := by
      unfold asInterval
      simp only
      rw [inf_eq_left, sup_eq_right]
      exact (left_lt_right d).le
    show (incrementRange _ _).isEmpty = true ↔ _
    rw [List.isEmpty_iff, incrementRange_eq _ hm _ hle, points_eq]
    unfold asInterval RealInterval.points
    simp only
    rw [inf_eq_left, sup_eq_right]
  rw [key d hd] at h
  rw [key e he]
  unfold eventsIn at *
  rw [List.filter_eq_nil_iff] at *
  intro r hr hre
  apply h r hr
  simp only [decide_eq_true_eq] at *
  exact hde hre

/-- The hypotheses of `C33_chen_partial` are met by a stream over a non-commutative algebra. -/
example : twoTicks.impl.caching = true ∧ DefaultParam twoTicks ∧ EmptyInherited twoTicks.impl ∧
    twoTicks.support.inf ≤ twoTicks.support.sup ∧
    Interprets (twoTicks.impl.ops 2) (fun a : Heis => a) :=
  ⟨rfl, ⟨rfl, rfl⟩, lieIncrement_emptyInherited _ _ _ _, by decide +kernel, Heis.interprets⟩

/-- C33 for implementations without a cache (`StreamInterface`): if the implementation is
multiplicative, Chen's identity holds at every resolution. -/
theorem C33_chen_uncached (s : Stream L) (hc : s.impl.caching = false) (hp : DefaultParam s)
    (hs : s.support.inf ≤ s.support.sup) (ctx : ℕ) (sig : L → G)
    (hI : Interprets (s.impl.ops ctx) sig)
    (hmul : ∀ a b c : ℚ, a ≤ b → b ≤ c → sig (s.impl.impl ctx ⟨a, c, .clopen⟩) =
      sig (s.impl.impl ctx ⟨a, b, .clopen⟩) * sig (s.impl.impl ctx ⟨b, c, .clopen⟩))
    (hone : ∀ a, sig (s.impl.impl ctx ⟨a, a, .clopen⟩) = 1)
    (a b c : ℚ) (hab : a ≤ b) (hbc : b ≤ c) (t : IType)
    (res : ℤ) (hist : List Query) (hh : ∀ p ∈ hist, p.ctx = ctx) :
    ∃ x y z, Returns (answerAfter s hist ⟨⟨a, c, t⟩, some res, ctx⟩) x ∧
      Returns (answerAfter s hist ⟨⟨a, b, t⟩, some res, ctx⟩) y ∧
      Returns (answerAfter s hist ⟨⟨b, c, t⟩, some res, ctx⟩) z ∧
      sig x = sig y * sig z := by
  have chen : ∀ a b c : ℚ, a ≤ b → b ≤ c → sig (s.impl.impl ctx ⟨a, b, .clopen⟩) *
      sig (s.impl.impl ctx ⟨b, c, .clopen⟩) = sig (s.impl.impl ctx ⟨a, c, .clopen⟩) :=
    fun a b c h1 h2 => (hmul a b c h1 h2).symm
  have key : ∀ a b : ℚ, a ≤ b → _ := fun a b hab =>
    logSignatureAt_sig s hp.1 hp.2 hs ctx sig hI
      (fun a b => sig (s.impl.impl ctx ⟨a, b, .clopen⟩)) chen hone a b t hab res
      (fun d ht hn => by
        unfold dyadicQuery
        rw [if_neg (by rw [hc]; simp)]
        refine ⟨_, rfl, ?_⟩
        unfold asInterval
        rw [ht, inf_eq_left, sup_eq_right])
  have lift : ∀ a b x, Returns (fun fuel => (s.logSignatureAt fuel ⟨a, b, t⟩ res ctx).eval
      (cellValue s.impl)) x → Returns (answerAfter s hist ⟨⟨a, b, t⟩, some res, ctx⟩) x := by
    rintro a b x ⟨n₀, hn⟩
    exact ⟨n₀, fun n hn' => by rw [answerAfter_eq _ _ _ hh]; exact hn n hn'⟩
  obtain ⟨x, hx, sx⟩ := key a c (hab.trans hbc)
  obtain ⟨y, hy, sy⟩ := key a b hab
  obtain ⟨z, hz, sz⟩ := key b c hbc
  refine ⟨x, y, z, lift _ _ _ hx, lift _ _ _ hy, lift _ _ _ hz, ?_⟩
  rw [sx, sy, sz]
  exact (chen _ _ _ (gridFloor_mono _ (clamp_mono _ _ hab))
    (gridFloor_mono _ (clamp_mono _ _ hbc))).symm

/-- A stream of default resolution 0 with one increment, at time 3/4. -/
def lateTick : Stream Heis :=
  ⟨lieIncrementStream Heis.ops (incrementData [(3/4, ⟨1, 0, 0⟩)]) 0 2, ⟨0, 1, .clopen⟩⟩

/-- C33 fails for a resolution finer than the stream's: at resolution 1, the increment is seen
on `[0, 1)` but on neither half. -/
theorem C33_finer_resolution_refuted :
    answerAfter lateTick [] ⟨⟨0, 1, .clopen⟩, some 1, 2⟩ 10 = some ⟨1, 0, 0⟩ ∧
    answerAfter lateTick [] ⟨⟨0, 1/2, .clopen⟩, some 1, 2⟩ 10 = some ⟨0, 0, 0⟩ ∧
    answerAfter lateTick [] ⟨⟨1/2, 1, .clopen⟩, some 1, 2⟩ 10 = some ⟨0, 0, 0⟩ ∧
    (⟨1, 0, 0⟩ : Heis) ≠ ⟨0, 0, 0⟩ * ⟨0, 0, 0⟩ := by decide +kernel

/-! ## C34 — Chen's identity with the automatically chosen resolution -/

/-- C34 fails: the same stream and split, leaving the choice of the resolution to the stream. -/
theorem C34_chen_default_refuted :
    answerAfter lateTick [] ⟨⟨0, 1, .clopen⟩, none, 2⟩ 10 = some ⟨1, 0, 0⟩ ∧
    answerAfter lateTick [] ⟨⟨0, 1/2, .clopen⟩, none, 2⟩ 10 = some ⟨0, 0, 0⟩ ∧
    answerAfter lateTick [] ⟨⟨1/2, 1, .clopen⟩, none, 2⟩ 10 = some ⟨0, 0, 0⟩ ∧
    (⟨1, 0, 0⟩ : Heis) ≠ ⟨0, 0, 0⟩ * ⟨0, 0, 0⟩ := by decide +kernel

/-- For a query at least four cells long (after trimming to the support) the stream chooses its own
resolution. -/
theorem default_eq_at (s : Stream L) (hp : DefaultParam s)
    (hs : s.support.inf ≤ s.support.sup) (hR : 2 ≤ s.impl.defaultRes) (a b : ℚ) (hab : a ≤ b)
    (t : IType)
    (hlen : clamp s.support.inf s.support.sup a = clamp s.support.inf s.support.sup b ∨
      4 / 2 ^ s.impl.defaultRes ≤
        clamp s.support.inf s.support.sup b - clamp s.support.inf s.support.sup a)
    (fuel ctx : ℕ) :
    s.logSignature fuel ⟨a, b, t⟩ ctx = s.logSignatureAt fuel ⟨a, b, t⟩ s.impl.defaultRes ctx := by
  unfold Stream.logSignature Stream.logSignatureAt
  rcases refine_eq s hp.1 hp.2 hs a b t hab with ⟨hr, hc⟩ | ⟨hlt, hr⟩
  · rw [hr]
  · rw [hr]
    simp only
    congr 1
    rw [max_eq_left]
    rcases hlen with h | h
    · exact absurd h hlt.ne
    · set len := clamp s.support.inf s.support.sup b - clamp s.support.inf s.support.sup a with hl
      have hpos : 0 < len := sub_pos.2 hlt
      rw [paramToResolution_pos _ hpos]
      obtain ⟨h1, h2⟩ := log_bounds len hpos
      have h3 : (2 : ℚ) ^ (2 - s.impl.defaultRes) < 2 ^ (Int.log 2 len + 1) := by
        refine lt_of_le_of_lt ?_ h2
        rw [zpow_sub₀ (by norm_num)]
        norm_num
        linarith
      have h4 := (zpow_lt_zpow_iff_right₀ (by norm_num : (1 : ℚ) < 2)).1 h3
      rcases min_choice 0 (Int.log 2 len) with h | h <;> rw [h] <;> omega

/-- C34, the part that holds: with the automatically chosen resolution, Chen's identity holds if
the stream's resolution is at least 2 and the three intervals, trimmed to the support, are empty
or at least four resolution cells long.
Missing: shorter intervals (`C34_chen_default_refuted`). -/
theorem C34_chen_default_partial (s : Stream L) (hc : s.impl.caching = true) (hp : DefaultParam s)
    (hE : EmptyInherited s.impl) (hs : s.support.inf ≤ s.support.sup)
    (hR : 2 ≤ s.impl.defaultRes) (ctx : ℕ) (sig : L → G)
    (hI : Interprets (s.impl.ops ctx) sig) (a b c : ℚ) (hab : a ≤ b) (hbc : b ≤ c) (t : IType)
    (hlong : ∀ u v, (u, v) ∈ [(a, b), (b, c), (a, c)] →
      clamp s.support.inf s.support.sup u = clamp s.support.inf s.support.sup v ∨
      4 / 2 ^ s.impl.defaultRes ≤
        clamp s.support.inf s.support.sup v - clamp s.support.inf s.support.sup u)
    (hist : List Query) (hh : ∀ p ∈ hist, p.ctx = ctx) :
    ∃ x y z, Returns (answerAfter s hist ⟨⟨a, c, t⟩, none, ctx⟩) x ∧
      Returns (answerAfter s hist ⟨⟨a, b, t⟩, none, ctx⟩) y ∧
      Returns (answerAfter s hist ⟨⟨b, c, t⟩, none, ctx⟩) z ∧
      sig x = sig y * sig z := by
  obtain ⟨x, y, z, hx, hy, hz, h⟩ := C33_chen_partial s hc hp hE hs ctx sig hI a b c hab hbc t
    s.impl.defaultRes le_rfl hist hh
  have e : ∀ u v, u ≤ v → (u, v) ∈ [(a, b), (b, c), (a, c)] → ∀ fuel,
      answerAfter s hist ⟨⟨u, v, t⟩, none, ctx⟩ fuel =
      answerAfter s hist ⟨⟨u, v, t⟩, some s.impl.defaultRes, ctx⟩ fuel := by
    intro u v huv hm fuel
    unfold answerAfter Stream.ask
    simp only
    rw [default_eq_at s hp hs hR u v huv t (hlong u v hm)]
  refine ⟨x, y, z, ?_, ?_, ?_, h⟩
  · obtain ⟨n, hn⟩ := hx
    exact ⟨n, fun k hk => by rw [e a c (hab.trans hbc) (by simp)]; exact hn k hk⟩
  · obtain ⟨n, hn⟩ := hy
    exact ⟨n, fun k hk => by rw [e a b hab (by simp)]; exact hn k hk⟩
  · obtain ⟨n, hn⟩ := hz
    exact ⟨n, fun k hk => by rw [e b c hbc (by simp)]; exact hn k hk⟩

/-- A stream of resolution 3 and a split into parts of length 1/2 = 4 cells. -/
example :
    let s : Stream Heis := ⟨lieIncrementStream Heis.ops
      (incrementData [(1/4, ⟨1, 0, 0⟩), (1/2, ⟨0, 1, 0⟩)]) 3 2, ⟨0, 2, .clopen⟩⟩
    answerAfter s [] ⟨⟨0, 1, .clopen⟩, none, 2⟩ 10 = some ⟨1, 1, 1/2⟩ ∧
    answerAfter s [] ⟨⟨0, 1/2, .clopen⟩, none, 2⟩ 10 = some ⟨1, 0, 0⟩ ∧
    answerAfter s [] ⟨⟨1/2, 1, .clopen⟩, none, 2⟩ 10 = some ⟨0, 1, 0⟩ ∧
    clamp 0 2 (1/2) - clamp 0 2 0 = (4 / 2 ^ (3 : ℤ) : ℚ) := by decide +kernel

/-! ## C37 — no input increment is lost -/

/-- C37, the part that holds: if the time stamps are pairwise distinct, the stream holds exactly
the supplied increments, in time order, and the signature over the support `[first, last + cell)`
at the stream's own resolution is the ordered product of all of them.
Missing: repeated time stamps (`C37_duplicate_refuted`), automatically chosen resolution
(`C37_default_resolution_refuted`). -/
theorem C37_no_loss_partial (ops : ℕ → LieOps L) (rows : List (ℚ × L)) (R : ℤ) (depth ctx : ℕ)
    (hd : (rows.map Prod.fst).Nodup) (lo hi : ℚ) (hlh : lo ≤ hi)
    (hlo : ∀ r ∈ rows, lo ≤ r.1) (hhi : ∀ r ∈ rows, r.1 ≤ hi)
    (t : IType) (sig : L → G) (hI : Interprets (ops ctx) sig)
    (hist : List Query) (hh : ∀ p ∈ hist, p.ctx = ctx) :
    let support : RealInterval := ⟨lo, hi + 1 / 2 ^ R, t⟩
    let s : Stream L := ⟨lieIncrementStream ops (incrementData rows) R depth, support⟩
    (incrementData rows).Perm rows ∧ Chronological (incrementData rows) ∧
    ∃ x, Returns (answerAfter s hist ⟨support, some R, ctx⟩) x ∧
      sig x = eventsSig sig (incrementData rows) := by
  intro support s
  have hp := incrementData_perm rows hd
  refine ⟨hp, incrementData_chronological rows, ?_⟩
  have h2 := two_zpow_pos R
  have hcell : (0 : ℚ) < 1 / 2 ^ R := by positivity
  have hle : support.inf ≤ support.sup := by
    show lo ≤ hi + 1 / 2 ^ R
    linarith
  obtain ⟨x, hx, sx⟩ := C36_signature ops rows R depth ctx support hle sig hI lo (hi + 1 / 2 ^ R)
    hle t R le_rfl hist hh
  refine ⟨x, hx, ?_⟩
  rw [sx]
  congr 1
  unfold eventsIn
  rw [List.filter_eq_self]
  intro r hr
  have hr' := hp.mem_iff.1 hr
  simp only [decide_eq_true_eq, Set.mem_Ico]
  constructor
  · have e : clamp support.inf support.sup lo = lo := by
      show max lo (min lo (hi + 1 / 2 ^ R)) = lo
      rw [min_eq_left hle, max_self]
    rw [e]
    refine le_trans ?_ (hlo r hr')
    unfold gridFloor
    rw [div_le_iff₀ h2]
    exact Int.floor_le _
  · have e : clamp support.inf support.sup (hi + 1 / 2 ^ R) = hi + 1 / 2 ^ R := by
      show max lo (min (hi + 1 / 2 ^ R) (hi + 1 / 2 ^ R)) = _
      rw [min_self, max_eq_right hle]
    rw [e]
    refine lt_of_le_of_lt (hhi r hr') ?_
    unfold gridFloor
    rw [lt_div_iff₀ h2]
    have : (hi + 1 / 2 ^ R) * 2 ^ R = hi * 2 ^ R + 1 := by field_simp
    rw [this, Int.floor_add_one]
    push_cast
    exact Int.lt_floor_add_one _

example : (incrementData [(1/2, 'b'), (1/4, 'a')]) = [(1/4, 'a'), (1/2, 'b')] := by decide +kernel

/-- C37 fails for repeated time stamps: the second of two increments at time 1 disappears. -/
theorem C37_duplicate_refuted :
    incrementData [(1, (⟨1, 0, 0⟩ : Heis)), (1, ⟨0, 1, 0⟩), (2, ⟨1, 1, 0⟩)] =
      [(1, ⟨1, 0, 0⟩), (2, ⟨1, 1, 0⟩)] ∧
    (let s : Stream Heis := ⟨lieIncrementStream Heis.ops (incrementData
        [(1, (⟨1, 0, 0⟩ : Heis)), (1, ⟨0, 1, 0⟩), (2, ⟨1, 1, 0⟩)]) 0 2, ⟨1, 3, .clopen⟩⟩
     answerAfter s [] ⟨⟨1, 3, .clopen⟩, some 0, 2⟩ 10 = some ⟨2, 1, 1/2⟩) ∧
    (⟨1, 0, 0⟩ * ⟨0, 1, 0⟩ * ⟨1, 1, 0⟩ : Heis) = ⟨2, 2, 1/2⟩ := by decide +kernel

/-- C37 fails for the automatically chosen resolution: a stream with a single increment at time
0.3, resolution 3 (the one derived from the data by the Python constructor) and support
`[0.3, 0.3 + 1/8)` has trivial signature over its whole support. -/
theorem C37_default_resolution_refuted :
    let s : Stream Heis := ⟨lieIncrementStream Heis.ops (incrementData [(3/10, ⟨1, 0, 0⟩)]) 3 2,
      ⟨3/10, 3/10 + 1/8, .clopen⟩⟩
    answerAfter s [] ⟨s.support, none, 2⟩ 10 = some ⟨0, 0, 0⟩ := by decide +kernel

/-! ## C58 — the time channel -/

/-- C58, the part that holds: for a stream built with an added time channel from non-decreasing,
non-negative time stamps, the time coordinates of the stored increments up to any stamp `t`
add up to `t`.
Missing: unsorted stamps (`C58_unsorted_refuted`). -/
theorem C58_time_channel_partial (setTime : L → ℚ → L) (time : L → ℚ)
    (ht : ∀ x v, time (setTime x v) = v) (rows : List (ℚ × L))
    (hr : (rows.map Prod.fst).Pairwise (· ≤ ·)) (h0 : ∀ r ∈ rows, 0 ≤ r.1) (r : ℚ × L)
    (hmem : r ∈ rows) (hpos : 0 < r.1) :
    ((eventsIn (incrementDataTime setTime rows) (Set.Iic r.1)).map fun e => time e.2).sum = r.1 := by
  obtain ⟨h1, h2, h3⟩ := incrementDataTime_spec setTime time ht rows hr h0
  obtain ⟨x, hx⟩ := h3 r hmem hpos
  have := telescopes_sum time _ 0 h1 h2 r.1 x hx
  rw [sub_zero] at this
  refine Eq.trans ?_ this
  unfold eventsIn
  congr 2
  refine List.filter_congr fun e _ => ?_
  rw [Bool.eq_iff_iff]
  simp [Set.mem_Iic]

example : incrementDataTime (fun (_ : ℚ × ℚ) v => (5, v)) [(1, (5, 0)), (1, (6, 0)), (3, (7, 0))] =
    [(1, (5, 1)), (3, (5, 2))] := by decide +kernel

/-- C58 fails for unsorted stamps: with stamps 2, 1 the time coordinates up to 2 add up to 1. -/
theorem C58_unsorted_refuted :
    (incrementDataTime (fun (_ : ℚ) v => v) [(2, 0), (1, 0)]) = [(1, -1), (2, 2)] := by
  decide +kernel

/-! ## C38 — piecewise abelian streams -/

/-- C38, the part that holds: if no piece that starts before the end of the query reaches beyond
it, the list of Lie elements multiplied is the list of pieces, each scaled by the fraction of the
piece inside the query.
Missing: queries that end inside a piece (`C38_piecewise_refuted`). -/
theorem C38_piecewise_partial (smul : L → ℚ → L) (h1 : ∀ x, smul x 1 = x)
    (pieces : List (RealInterval × L)) (hc : Consecutive pieces) (a b : ℚ) (hab : a < b)
    (hend : ∀ p ∈ pieces, p.1.inf < b → p.1.sup ≤ b) :
    piecewiseLies smul a b pieces = scaledPieces smul a b pieces := by
  induction pieces with
  | nil => rfl
  | cons p pieces ih =>
    obtain ⟨p, x⟩ := p
    obtain ⟨hp, hs⟩ := hc
    rw [List.pairwise_cons] at hs
    have hpp := hp (p, x) (by simp)
    simp only at hpp
    have IH := ih ⟨fun q hq => hp q (by simp [hq]), hs.2⟩ fun q hq => hend q (by simp [hq])
    unfold piecewiseLies
    by_cases hA : p.inf ≥ b
    · rw [if_pos hA]
      symm
      unfold scaledPieces
      rw [List.map_eq_nil_iff, List.filter_eq_nil_iff]
      intro q hq
      rw [decide_eq_true_eq, not_lt]
      unfold overlap
      have hq' : b ≤ q.1.inf := by
        rcases List.mem_cons.1 hq with h | h
        · rw [h]; exact hA
        · have := hs.1 q h
          simp only at this
          linarith
      have := min_le_left b q.1.sup
      have := le_max_right a q.1.inf
      linarith
    · rw [if_neg hA]
      push Not at hA
      have hB := hend (p, x) (by simp) hA
      simp only at hB
      by_cases hC : p.sup ≤ a
      · rw [if_pos hC, IH]
        unfold scaledPieces
        rw [List.filter_cons, if_neg]
        rw [decide_eq_true_eq, not_lt]
        unfold overlap
        have := min_le_right b p.sup
        have := le_max_left a p.inf
        linarith
      · rw [if_neg hC]
        push Not at hC
        have hov : 0 < overlap a b p.inf p.sup := by
          unfold overlap
          rw [min_eq_right hB]
          have := max_lt hC hpp
          linarith
        have hcons : scaledPieces smul a b ((p, x) :: pieces) =
            smul x (overlap a b p.inf p.sup / (p.sup - p.inf)) :: scaledPieces smul a b pieces := by
          unfold scaledPieces
          rw [List.filter_cons, if_pos (by simpa using hov)]
          rfl
        rw [hcons, IH]
        have hne : p.sup - p.inf ≠ 0 := by linarith
        by_cases hD : p.inf ≥ a ∧ p.sup ≤ b
        · rw [if_pos hD]
          have : overlap a b p.inf p.sup = p.sup - p.inf := by
            unfold overlap
            rw [min_eq_right hB, max_eq_right hD.1]
          rw [this, div_self hne, h1]
        · rw [if_neg hD, if_pos le_rfl]
          have : p.inf < a := by
            by_contra h
            exact hD ⟨not_lt.1 h, hB⟩
          have : overlap a b p.inf p.sup = p.sup - a := by
            unfold overlap
            rw [min_eq_right hB, max_eq_left this.le]
          rw [this]
          rfl

/-- two pieces, query from inside the first to the end of the second -/
example : piecewiseLies (fun (x : ℚ) c => x * c) (1/2) 3 [(⟨0, 1, .clopen⟩, 4), (⟨1, 3, .clopen⟩, 5)]
    = [2, 5] := by decide +kernel

/-- C38 fails for queries that end inside a piece: for one piece `[0, 1)`, the query `[0, 1/2)`
gets the whole piece, and `[1/4, 1/2)` gets 3/4 of it. -/
theorem C38_piecewise_refuted :
    (let p : List (RealInterval × ℚ) := [(⟨0, 1, .clopen⟩, 1)]
     piecewiseLies (fun x c => x * c) 0 (1/2) p = [1] ∧
     scaledPieces (fun x c => x * c) 0 (1/2) p = [1/2] ∧
     piecewiseLies (fun x c => x * c) (1/4) (1/2) p = [3/4] ∧
     scaledPieces (fun x c => x * c) (1/4) (1/2) p = [1/4]) := by decide +kernel

/-- Consequently Chen's identity fails for piecewise abelian streams: the halves of a unit piece
add up to 3/2 of it. -/
theorem C38_chen_refuted :
    let ops : LieOps ℚ := ⟨0, fun x => decide (x = 0), fun l => l.sum⟩
    let f := piecewiseLogSig (fun _ => ops) (fun (x : ℚ) c => x * c) [(⟨0, 1, .clopen⟩, 1)] 1
    f ⟨0, 1, .clopen⟩ = 1 ∧ f ⟨0, 1/2, .clopen⟩ + f ⟨1/2, 1, .clopen⟩ = 3/2 := by decide +kernel

/-! ## C39 — arrival streams -/

theorem arrivalRange_eq (rows : List (ℚ × L)) (i : RealInterval) (hi : i.inf ≤ i.sup) :
    arrivalRange (incrementData rows) i = eventsIn (incrementData rows) (Set.Icc i.inf i.sup) := by
  have hm := incrementData_chronological rows
  unfold arrivalRange lowerBound upperBound eventsIn
  rw [range_eq_filter (fun t => decide (i.inf ≤ t)) (fun t => decide (i.sup < t))
      (fun s t hst hs => by simp only [decide_eq_true_eq] at *; linarith)
      (fun s t hst hs => by simp only [decide_eq_true_eq] at *; linarith)
      (fun t ht => by simp only [decide_eq_true_eq] at *; linarith) _ hm]
  refine List.filter_congr fun r _ => ?_
  rw [Bool.eq_iff_iff]
  simp [Set.mem_Icc]

/-- C39, the part that holds: the arrivals used for `[a, b)` and `[b, c)` are together those used
for `[a, c)`, each once, provided nothing arrives exactly at `b`; the interval type plays no
role.  Missing: arrivals at the shared end point (`C39_shared_end_refuted`). -/
theorem C39_additive_partial (rows : List (ℚ × L)) (a b c : ℚ) (hab : a ≤ b) (hbc : b ≤ c)
    (t : IType) (hb : ∀ r ∈ incrementData rows, r.1 ≠ b) :
    arrivalRange (incrementData rows) ⟨a, b, t⟩ ++ arrivalRange (incrementData rows) ⟨b, c, t⟩ =
      arrivalRange (incrementData rows) ⟨a, c, t⟩ := by
  have hm := incrementData_chronological rows
  rw [arrivalRange_eq _ _ hab, arrivalRange_eq _ _ hbc, arrivalRange_eq _ _ (hab.trans hbc)]
  simp only
  have e : ∀ T : Set ℚ, eventsIn (incrementData rows) (T \ {b}) = eventsIn (incrementData rows) T := by
    intro T
    unfold eventsIn
    refine List.filter_congr fun r hr => ?_
    rw [Bool.eq_iff_iff]
    simp [hb r hr]
  rw [← e (Set.Icc a b), eventsIn_append _ hm]
  · rw [← e (Set.Icc a c), ← e (Set.Icc a b \ {b} ∪ Set.Icc b c)]
    congr 1
    ext y
    simp only [Set.mem_diff, Set.mem_union, Set.mem_Icc, Set.mem_singleton_iff]
    constructor
    · rintro ⟨⟨⟨h1, h2⟩, h3⟩ | ⟨h1, h2⟩, h4⟩
      · exact ⟨⟨h1, h2.trans hbc⟩, h4⟩
      · exact ⟨⟨hab.trans h1, h2⟩, h4⟩
    · rintro ⟨⟨h1, h2⟩, h3⟩
      rcases le_total y b with h | h
      · exact ⟨Or.inl ⟨⟨h1, h⟩, h3⟩, h3⟩
      · exact ⟨Or.inr ⟨h, h2⟩, h3⟩
  · rintro s ⟨⟨-, hs⟩, hne⟩ u ⟨hu, -⟩
    exact lt_of_lt_of_le (lt_of_le_of_ne hs hne) hu

example : arrivalRange (incrementData [(1, 'a'), (3, 'b')]) ⟨0, 2, .clopen⟩ = [(1, 'a')] := by
  decide +kernel

/-- C39 fails: an arrival at the shared end point is used in both intervals, for either type. -/
theorem C39_shared_end_refuted (t : IType) :
    arrivalRange (incrementData [(1, 'a')]) ⟨0, 1, t⟩ = [(1, 'a')] ∧
    arrivalRange (incrementData [(1, 'a')]) ⟨1, 2, t⟩ = [(1, 'a')] := by
  cases t <;> decide +kernel

/-! ## C51 — resolution chosen for an interval -/

/-- C51: the resolution of a length below one is the unique `n` with `2^-n ≤ len < 2^(1-n)`; for
a length of at least one it is 0. -/
theorem C51_param_to_resolution (len : ℚ) (h : 0 < len) :
    (len < 1 → 0 < paramToResolution len ∧ 1 / 2 ^ paramToResolution len ≤ len ∧
      len < 2 / 2 ^ paramToResolution len) ∧
    (1 ≤ len → paramToResolution len = 0) := by
  obtain ⟨h1, h2⟩ := log_bounds len h
  rw [paramToResolution_pos len h]
  constructor
  · intro hlt
    have hneg := (log_neg_iff len h).2 hlt
    rw [min_eq_right hneg.le]
    refine ⟨by omega, ?_, ?_⟩
    · rw [zpow_neg, one_div, inv_inv]; exact h1
    · rw [zpow_neg, div_inv_eq_mul]
      rw [zpow_add_one₀ (by norm_num)] at h2
      linarith
  · intro hge
    have : ¬ Int.log 2 len < 0 := fun hn => not_lt.2 hge ((log_neg_iff len h).1 hn)
    rw [min_eq_left (not_lt.1 this)]
    rfl

example : paramToResolution (3/10) = 2 ∧ paramToResolution (1/4) = 2 ∧ paramToResolution 7 = 0 := by
  decide +kernel

/-- C51: the resolution a stream chooses for a query is never coarser than its own, and its cells
are at most a quarter of the (trimmed) query long. -/
theorem C51_refined_resolution (s : Stream L) (i q : RealInterval) (res : ℤ)
    (hs : s.support.inf ≤ s.support.sup) (hp : DefaultParam s) (hi : i.inf ≤ i.sup)
    (h : s.refineInterval i = some (q, res)) :
    s.impl.defaultRes ≤ res ∧ q.inf < q.sup ∧ 1 / 2 ^ res ≤ (q.sup - q.inf) / 4 := by
  obtain ⟨a, b, t⟩ := i
  rcases refine_eq s hp.1 hp.2 hs a b t hi with ⟨hr, -⟩ | ⟨hlt, hr⟩
  · rw [hr] at h; cases h
  · rw [hr] at h
    simp only [Option.some.injEq, Prod.mk.injEq] at h
    obtain ⟨rfl, hres⟩ := h
    simp only
    set len := clamp s.support.inf s.support.sup b - clamp s.support.inf s.support.sup a with hl
    have hpos : 0 < len := sub_pos.2 hlt
    refine ⟨by rw [← hres]; exact le_max_left _ _, hlt, ?_⟩
    have hge : paramToResolution len + 2 ≤ res := by rw [← hres]; exact le_max_right _ _
    have h1 : 1 / (2 : ℚ) ^ paramToResolution len ≤ len := by
      rcases lt_or_ge len 1 with h | h
      · exact ((C51_param_to_resolution len hpos).1 h).2.1
      · rw [(C51_param_to_resolution len hpos).2 h]; simpa using h
    calc 1 / (2 : ℚ) ^ res ≤ 1 / 2 ^ (paramToResolution len + 2) := by
          apply one_div_le_one_div_of_le (two_zpow_pos _)
          exact zpow_le_zpow_right₀ (by norm_num) hge
      _ = (1 / 2 ^ paramToResolution len) / 4 := by
          rw [zpow_add₀ (by norm_num)]
          norm_num
          ring
      _ ≤ len / 4 := by linarith

example : twoTicks.refineInterval ⟨1/4, 1/2, .clopen⟩ = some (⟨1/4, 1/2, .clopen⟩, 4) := by
  decide +kernel

/-! ## C52 — restricting a stream -/

/-- C52, queries outside the support: a query that ends before the support begins, begins after it
ends, or meets it in one point only, has zero log-signature, at every resolution and in every
history. -/
theorem C52_outside_support (s : Stream L) (hp : DefaultParam s)
    (hs : s.support.inf ≤ s.support.sup) (i : RealInterval) (hi : i.inf ≤ i.sup)
    (hout : i.sup ≤ s.support.inf ∨ s.support.sup ≤ i.inf) (res : Option ℤ) (ctx : ℕ)
    (hist : List Query) (fuel : ℕ) :
    answerAfter s hist ⟨i, res, ctx⟩ fuel = some (s.impl.ops ctx).zero := by
  obtain ⟨a, b, t⟩ := i
  simp only at hi hout
  have hc : clamp s.support.inf s.support.sup a = clamp s.support.inf s.support.sup b := by
    unfold clamp
    rcases hout with h | h
    · rw [max_eq_left ((min_le_left _ _).trans (hi.trans h)), max_eq_left ((min_le_left _ _).trans h)]
    · rw [min_eq_right h, min_eq_right (h.trans hi)]
  have hr : s.refineInterval ⟨a, b, t⟩ = none := by
    rcases refine_eq s hp.1 hp.2 hs a b t hi with ⟨hr, -⟩ | ⟨hlt, -⟩
    · exact hr
    · exact absurd hc hlt.ne
  have hask : s.ask fuel ⟨⟨a, b, t⟩, res, ctx⟩ = .ret (s.impl.ops ctx).zero := by
    cases res with
    | none =>
      show s.logSignature fuel ⟨a, b, t⟩ ctx = _
      unfold Stream.logSignature
      rw [hr]
    | some r =>
      show s.logSignatureAt fuel ⟨a, b, t⟩ r ctx = _
      unfold Stream.logSignatureAt
      rw [hr]
  unfold answerAfter
  rw [hask]
  generalize (session s fuel hist Cache.empty).2 = c
  rfl

example : answerAfter twoTicks [] ⟨⟨3, 4, .clopen⟩, none, 2⟩ 10 = some ⟨0, 0, 0⟩ := by
  decide +kernel

/-- C52, the part of the support claim that holds: restricting to an interval `I` inside the
support makes `I` the support, and a query to the restricted stream is answered as the query
trimmed to `I` is answered by the original stream.
Missing: intervals that stick out of the support (`C52_restrict_refuted`). -/
theorem C52_restrict_partial (s : Stream L) (hp : DefaultParam s) (i : RealInterval)
    (hi : i.inf ≤ i.sup) (hin : s.support.inf ≤ i.inf ∧ i.sup ≤ s.support.sup)
    (a b : ℚ) (hab : a ≤ b) (t : IType) (res : ℤ) (ctx fuel : ℕ) :
    (s.restrict i).support = i ∧
    (s.restrict i).logSignatureAt fuel ⟨a, b, t⟩ res ctx =
      s.logSignatureAt fuel ⟨clamp i.inf i.sup a, clamp i.inf i.sup b, t⟩ res ctx := by
  obtain ⟨lo, hi', ti⟩ := i
  simp only at hi hin
  have hsup : (s.restrict ⟨lo, hi', ti⟩).support = ⟨lo, hi', ti⟩ :=
    adjust_default s.impl hp.1 hp.2 _ _ _ hi
  refine ⟨hsup, ?_⟩
  have hs : s.support.inf ≤ s.support.sup := hin.1.trans (hi.trans hin.2)
  have hcl : ∀ x, clamp s.support.inf s.support.sup (clamp lo hi' x) = clamp lo hi' x := by
    intro x
    unfold clamp
    have h1 : max lo (min x hi') ≤ s.support.sup := max_le (hi.trans hin.2)
      ((min_le_right _ _).trans hin.2)
    rw [min_eq_left h1, max_eq_right (hin.1.trans (le_max_left _ _))]
  have hp' : DefaultParam (s.restrict ⟨lo, hi', ti⟩) := hp
  have hr1 := refine_eq (s.restrict ⟨lo, hi', ti⟩) hp'.1 hp'.2 (by rw [hsup]; exact hi) a b t hab
  have hr2 := refine_eq s hp.1 hp.2 hs (clamp lo hi' a) (clamp lo hi' b) t (clamp_mono _ _ hab)
  rw [hsup] at hr1
  simp only at hr1
  rw [hcl, hcl] at hr2
  unfold Stream.logSignatureAt
  rcases hr1 with ⟨e1, c1⟩ | ⟨c1, e1⟩
  · rcases hr2 with ⟨e2, c2⟩ | ⟨c2, e2⟩
    · rw [e1, e2]; rfl
    · exact absurd c1 c2.ne
  · rcases hr2 with ⟨e2, c2⟩ | ⟨c2, e2⟩
    · exact absurd c2 c1.ne
    · rw [e1, e2]; rfl

example : (twoTicks.restrict ⟨1/2, 1, .clopen⟩).support = ⟨1/2, 1, .clopen⟩ := by decide +kernel

/-- C52 fails: restricting a stream to an interval larger than its support enlarges the support,
and data outside the original support becomes visible. -/
theorem C52_restrict_refuted :
    let s : Stream Heis := ⟨lieIncrementStream Heis.ops
      (incrementData [(1/2, ⟨1, 0, 0⟩), (5, ⟨0, 1, 0⟩)]) 0 2, ⟨0, 1, .clopen⟩⟩
    let w : RealInterval := ⟨0, 10, .clopen⟩
    (s.restrict w).support = w ∧
    answerAfter s [] ⟨w, none, 2⟩ 10 = some ⟨1, 0, 0⟩ ∧
    answerAfter (s.restrict w) [] ⟨w, none, 2⟩ 10 = some ⟨1, 1, 1/2⟩ := by decide +kernel

end RoughPy.Streams
