import Verif.Pickle.Lemmas2
import Verif.Partition.Spec

/-!
# C132, C133, C134: pickling
-/

namespace RoughPy.Pickle

open RoughPy.Lite RoughPy.Intervals
open RoughPy.Handles (Outcome)

/-! ## C132: intervals and partitions -/

/-- A dyadic number comes back as it was, with the same multiplier and power. -/
theorem C132_dyadic (d : Intervals.Dyadic) : dyadicOfState (dyadicState d) = d := rfl

/-- A dyadic interval comes back as it was. -/
theorem C132_dyadic_interval (i : DyadicInterval) : dyadicIntervalOfState (dyadicIntervalState i) = i := rfl

/-- An interval comes back as it was; every interval that can be constructed has its ends in order. -/
theorem C132_real (i : RealInterval) (h : i.inf ≤ i.sup) : realOfState (realState i) = i := by
  unfold realOfState realState RealInterval.mk'
  rw [if_neg (by exact not_lt.2 h)]

example : ∃ i : RealInterval, i.inf ≤ i.sup ∧ i.inf = 1 / 3 ∧ i.sup = 2 := ⟨⟨1 / 3, 2, .opencl⟩, by norm_num⟩

/-- The interval a partition divides comes back, and the points that come back are points it had. -/
theorem C132_partition_base (p : Partition.Partition) (h : p.base.inf ≤ p.base.sup) :
    (partitionOfState (partitionState p)).base = p.base ∧
      ∀ x ∈ (partitionOfState (partitionState p)).pts, x ∈ p.pts := by
  have hb : RealInterval.mk' p.base.inf p.base.sup p.base.type = p.base := C132_real p.base h
  unfold partitionOfState partitionState Partition.Partition.ofPoints
  dsimp only
  refine ⟨hb, fun x hx => ?_⟩
  rw [List.mem_insertionSort, List.mem_filter] at hx
  exact hx.1

/-- A partition comes back as it was exactly if its points are in order and strictly between the
ends of the interval. -/
theorem C132_partition_iff (p : Partition.Partition) (h : p.base.inf ≤ p.base.sup) :
    partitionOfState (partitionState p) = p ↔
      p.pts.Pairwise (· ≤ ·) ∧ ∀ x ∈ p.pts, Interior p.base x := by
  have hb : RealInterval.mk' p.base.inf p.base.sup p.base.type = p.base := C132_real p.base h
  have e : partitionOfState (partitionState p) = Partition.Partition.ofPoints p.base p.pts := by
    unfold partitionOfState partitionState
    dsimp only
    rw [hb]
  rw [e]
  have hin : ∀ x, (p.base.containsPoint x && decide (x ≠ p.base.inf) && decide (x ≠ p.base.sup)) = true ↔
      Interior p.base x := by
    intro x
    unfold RealInterval.containsPoint Interior
    cases p.base.type <;>
      simp only [Bool.and_eq_true, decide_eq_true_eq] <;>
      constructor
    · rintro ⟨⟨⟨h1, h2⟩, h3⟩, h4⟩
      exact ⟨lt_of_le_of_ne h1 (Ne.symm h3), h2⟩
    · rintro ⟨h1, h2⟩
      exact ⟨⟨⟨le_of_lt h1, h2⟩, ne_of_gt h1⟩, ne_of_lt h2⟩
    · rintro ⟨⟨⟨h1, h2⟩, h3⟩, h4⟩
      exact ⟨h1, lt_of_le_of_ne h2 h4⟩
    · rintro ⟨h1, h2⟩
      exact ⟨⟨⟨h1, le_of_lt h2⟩, ne_of_gt h1⟩, ne_of_lt h2⟩
  unfold Partition.Partition.ofPoints
  constructor
  · intro he
    have hp := congrArg Partition.Partition.pts he
    dsimp only at hp
    constructor
    · rw [← hp]
      exact List.pairwise_insertionSort _ _
    · intro x hx
      rw [← hp, List.mem_insertionSort, List.mem_filter] at hx
      exact (hin x).1 hx.2
  · rintro ⟨h1, h2⟩
    have hf : p.pts.filter (fun m => p.base.containsPoint m && decide (m ≠ p.base.inf) &&
        decide (m ≠ p.base.sup)) = p.pts :=
      List.filter_eq_self.2 fun x hx => (hin x).2 (h2 x hx)
    rw [hf, List.Pairwise.insertionSort_eq h1]

/-- Proper partitions come back as they were. -/
theorem C132_partition_partial (p : Partition.Partition) (h : Partition.Proper p) :
    partitionOfState (partitionState p) = p :=
  (C132_partition_iff p (le_of_lt h.1)).2 ⟨h.2.1.imp le_of_lt, h.2.2⟩

example : ∃ p, Partition.Proper p ∧ p.pts = [1, 3 / 2] :=
  ⟨⟨⟨0, 2, .clopen⟩, [1, 3 / 2]⟩, by unfold Partition.Proper; norm_num, rfl⟩

/-- Not every partition does: the lower end of the interval can be inserted as a point, and pickling
drops it. -/
theorem C132_partition_refuted : ∃ p : Partition.Partition, Partition.Reachable p ∧ p.pts = [0] ∧
    (partitionOfState (partitionState p)).pts = [] := by
  refine ⟨⟨⟨0, 1, .clopen⟩, [0]⟩, ?_, rfl, ?_⟩
  · exact Partition.Reachable.insert (Partition.Partition.ofBase ⟨0, 1, .clopen⟩) 0 _
      (.base _ (by norm_num)) (by decide +kernel)
  · decide +kernel

/-! ## C133: elements -/

variable {F : Formats}

/-- A dense element with floating-point coefficients comes back: with the same context, scalar type
and storage type and the same coefficients, and it compares equal. -/
theorem C133_dense_partial (a : AlgType) (x : Elem) (v : Dense ℚ) (hx : Held a x) (hs : Small F x)
    (hv : x.val = .dense v) (ht : x.ctype ≠ .rational) (he : Exact F x) :
    ∃ y u, roundTrip F a (some x) = .ok (some y) ∧ Agree x y ∧ y.val = .dense u ∧
      Dense.beq v u = true := by
  obtain ⟨r, e1, e2⟩ := construct_dense hx (hx.fits v hv)
  refine ⟨⟨x.ctx, x.ctype, .dense r⟩, r, ?_, ⟨rfl, rfl, ?_⟩, rfl, ?_⟩
  · rw [roundTrip_ok (save_dense hv),
      unpickle_dense a hx hv hs (fromRaw_toRaw ht (he v hv)) e1 (save_dense hv), if_pos rfl]
  · rw [hv]
    exact fun i => (e2 i).symm
  · rw [Dense.beq_iff]
    intro i
    have := e2 i
    rw [denseCoef_eq, denseCoef_eq] at this
    exact this.symm

/-- A sparse element without entries comes back. -/
theorem C133_sparse_empty (a : AlgType) (x : Elem) (hx : Held a x) (hv : x.val = .sparse []) :
    ∃ y, roundTrip F a (some x) = .ok (some y) ∧ Agree x y := by
  refine ⟨⟨x.ctx, x.ctype, .sparse []⟩, ?_, rfl, rfl, ?_⟩
  · have hsave := save_sparse (F := F) (a := a) hv
    have hload := load_sparse (F := F) (a := a) a hx (n := 0) (by norm_num) []
    rw [roundTrip_ok hsave, unpickle_run, List.append_assoc]
    rw [if_pos rfl] at hload
    exact (congrArg (fun o => Outcome.bind o _) hload).trans rfl
  · rw [hv]
    exact fun _ => rfl

/-- No sparse element with an entry comes back: unpickling it never succeeds. -/
theorem C133_sparse_refuted (a : AlgType) (x : Elem) (v : Sparse ℚ) (hx : Held a x) (hs : Small F x)
    (hv : x.val = .sparse v) (hne : v ≠ []) : ∀ y, roundTrip F a (some x) ≠ .ok y := by
  intro y h
  have hsave := save_sparse (F := F) (a := a) hv
  rcases hent : saveEntries F a x v with _ | entries
  · have e : roundTrip F a (some x) = (save F a (some x)).bind (unpickle F a) := rfl
    rw [e, hsave, hent] at h
    cases h
  · rw [hent] at hsave
    rw [roundTrip_ok hsave, unpickle_run, List.append_assoc,
      load_sparse a hx (by have := hs.sparse v hv; omega), if_pos rfl] at h
    obtain ⟨n, hn⟩ : ∃ n, v.length = n + 1 := by
      cases v with
      | nil => exact absurd rfl hne
      | cons t v => exact ⟨v.length, rfl⟩
    rw [hn] at h
    rcases hle : loadEntries F x.ctx a (n + 1) entries with p | _ | _
    · exact loadEntries_succ _ _ _ _ p hle
    · rw [hle] at h; cases h
    · rw [hle] at h; cases h

/-- An element that holds nothing does not come back: unpickling it throws. -/
theorem C133_unset_refuted (a : AlgType) : roundTrip F a none = .refused := by
  have h := load_unset (F := F) a a []
  rw [List.append_nil] at h
  rw [roundTrip_ok (p := header a 0 0 [] [] .sparse false) rfl, unpickle_run, h]
  rfl

/-- No dense element with rational coefficients comes back, unless it has no entries. -/
theorem C133_rational_refuted (a : AlgType) (x : Elem) (v : Dense ℚ) (hx : Held a x) (hs : Small F x)
    (hv : x.val = .dense v) (ht : x.ctype = .rational) (hne : v.storage ≠ []) :
    ¬ ∃ y, roundTrip F a (some x) = .ok (some y) ∧ Agree x y := by
  rintro ⟨y, h, hy⟩
  rw [roundTrip_ok (save_dense hv)] at h
  rcases hl : fromRaw F x.ctype v.storage.length (toRaw F x.ctype v.storage) with l | _ | _
  rotate_left
  · have hload := load_dense (F := F) (a := a) a hx hv hs []
    rw [List.append_nil, hl] at hload
    rw [unpickle_run, hload] at h; cases h
  · have hload := load_dense (F := F) (a := a) a hx hv hs []
    rw [List.append_nil, hl] at hload
    rw [unpickle_run, hload] at h; cases h
  have hl' := hl
  rw [ht] at hl'
  change ratsFromRaw _ (ratsToRaw _) = _ at hl'
  have hlen := ratsFromRaw_length hl'
  obtain ⟨r, e1, e2⟩ := construct_dense hx (xs := l) (by rw [hlen]; exact hx.fits v hv)
  rw [unpickle_dense a hx hv hs hl e1 (save_dense hv), if_pos rfl] at h
  have hyv : y.val = .dense r := by
    have := Option.some.inj (Outcome.ok.inj h)
    rw [← this]
  obtain ⟨-, -, hc⟩ := hy
  rw [hv, hyv] at hc
  dsimp only at hc
  apply ratsFromRaw_toRaw hne
  rw [hl']
  congr 1
  apply List.ext_getElem? fun i => ?_
  by_cases hi : i < l.length
  · have h1 := hc i
    rw [e2, denseCoef_eq, denseCoef_eq, List.getElem?_eq_getElem hi,
      List.getElem?_eq_getElem (show i < v.storage.length by omega)] at h1
    rw [List.getElem?_eq_getElem hi, List.getElem?_eq_getElem (show i < v.storage.length by omega)]
    exact congrArg some h1.symm
  · rw [List.getElem?_eq_none (by omega), List.getElem?_eq_none (by omega)]

/-! ## C134: damaged pickles -/

/-- the whole pickle is read -/
theorem load_save_rest (a : AlgType) (x : Option Elem) (hx : ∀ y, x = some y → Held a y ∧ Small F y) (p : Bytes)
    (hp : save F a x = .ok p) (r : Option Elem) (t : Bytes) (h : load F a p = .ok (r, t)) : t = [] := by
  rcases x with _ | x
  · have h' := load_unset (F := F) a a []
    rw [List.append_nil] at h'
    rw [← Outcome.ok.inj hp, h'] at h
    cases h
  · obtain ⟨hx, hs⟩ := hx x rfl
    unfold save at hp
    dsimp only at hp
    rcases hv : x.val with v | v
    · rw [hv] at hp
      dsimp only at hp
      rcases hent : saveEntries F a x v with _ | entries
      · rw [hent] at hp; cases hp
      rw [hent] at hp
      rw [← Outcome.ok.inj hp, List.append_assoc,
        load_sparse a hx (by have := hs.sparse v hv; omega), if_pos rfl] at h
      rcases hn : v.length with _ | n
      · rw [hn] at h
        have : entries = [] := by
          rw [List.length_eq_zero_iff.1 hn] at hent
          exact (Option.some.inj hent).symm
        subst this
        exact (Prod.mk.inj (Outcome.ok.inj h)).2.symm
      · rw [hn] at h
        rcases hle : loadEntries F x.ctx a (n + 1) entries with p | _ | _
        · exact absurd hle (loadEntries_succ _ _ _ _ p)
        · rw [hle] at h; cases h
        · rw [hle] at h; cases h
    · rw [hv] at hp
      have hload := load_dense (F := F) (a := a) a hx hv hs []
      rw [List.append_nil] at hload
      rw [← Outcome.ok.inj hp, hload] at h
      rcases hf : fromRaw F x.ctype v.storage.length (toRaw F x.ctype v.storage) with l | _ | _
      rotate_left
      · rw [hf] at h; cases h
      · rw [hf] at h; cases h
      rw [hf] at h
      change Outcome.bind (Outcome.ofOption (construct x.ctx a ⟨none, l⟩ .dense)) _ = _ at h
      rcases hcon : construct x.ctx a ⟨none, l⟩ .dense with _ | u
      · rw [hcon] at h; cases h
      · rw [hcon] at h
        change (if a = a then _ else _) = _ at h
        rw [if_pos rfl] at h
        exact (Prod.mk.inj (Outcome.ok.inj h)).2.symm

/-- No pickle cut short gives an element. -/
theorem C134_truncated (a : AlgType) (x : Option Elem) (hx : ∀ y, x = some y → Held a y ∧ Small F y)
    (p s q : Bytes) (hp : save F a x = .ok p) (hcut : p = s ++ q) (hq : q ≠ []) (y : Option Elem) :
    unpickle F a s ≠ .ok y := by
  intro h
  rw [unpickle_run] at h
  rcases hl : load F a s with ⟨r, t⟩ | _ | _
  · have := (mono_load (F := F) a).ok s r t q hl
    rw [← hcut] at this
    have := load_save_rest a x hx p hp r _ this
    exact hq (List.append_eq_nil_iff.1 this).2
  · rw [hl] at h; cases h
  · rw [hl] at h; cases h

/-- Where unpickling is not undefined, a pickle cut short throws. -/
theorem C134_truncated_refused (a : AlgType) (x : Option Elem)
    (hx : ∀ y, x = some y → Held a y ∧ Small F y)
    (p s q : Bytes) (hp : save F a x = .ok p) (hcut : p = s ++ q) (hq : q ≠ [])
    (hdef : unpickle F a p ≠ .undefined) : unpickle F a s = .refused := by
  have h1 := C134_truncated a x hx p s q hp hcut hq
  rw [unpickle_run] at hdef ⊢
  simp only [unpickle_run] at h1
  rcases hl : load F a s with ⟨r, t⟩ | _ | _
  · rw [hl] at h1
    exact absurd rfl (h1 r)
  · rfl
  · have := (mono_load (F := F) a).undefined s q hl
    rw [← hcut] at this
    rw [this] at hdef
    exact absurd rfl hdef

/-- For dense elements with floating-point coefficients: every pickle cut short throws. -/
theorem C134_truncated_dense (a : AlgType) (x : Elem) (v : Dense ℚ) (hx : Held a x) (hs : Small F x)
    (hv : x.val = .dense v) (ht : x.ctype ≠ .rational) (he : Exact F x) (p s q : Bytes)
    (hp : save F a (some x) = .ok p) (hcut : p = s ++ q) (hq : q ≠ []) : unpickle F a s = .refused := by
  refine C134_truncated_refused a (some x) (fun y hy => ?_) p s q hp hcut hq ?_
  · rw [← Option.some.inj hy]; exact ⟨hx, hs⟩
  · obtain ⟨y, u, h, -⟩ := C133_dense_partial a x v hx hs hv ht he
    rw [roundTrip_ok hp] at h
    rw [h]
    exact fun h => by cases h

/-- Bytes after the end of a pickle are not noticed. -/
theorem C134_trailing (a : AlgType) (s q : Bytes) (y : Option Elem) (h : unpickle F a s = .ok y) :
    unpickle F a (s ++ q) = .ok y := by
  rw [unpickle_run] at h ⊢
  rcases hl : load F a s with ⟨r, t⟩ | _ | _
  · rw [(mono_load (F := F) a).ok s r t q hl]
    rw [hl] at h
    exact h
  · rw [hl] at h; cases h
  · rw [hl] at h; cases h

/-- The pickle of an element of one class is not refused by another: the vector is taken for one of
the other class. -/
theorem C134_kind_refuted (a b : AlgType) (hab : b ≠ a) (x : Elem) (v : Dense ℚ) (hx : Held b x)
    (hs : Small F x) (hv : x.val = .dense v) (ht : x.ctype ≠ .rational) (he : Exact F x) (p : Bytes)
    (hp : save F b (some x) = .ok p) : unpickle F a p = .undefined := by
  obtain ⟨r, e1, e2⟩ := construct_dense hx (hx.fits v hv)
  rw [unpickle_dense b hx hv hs (fromRaw_toRaw ht (he v hv)) e1 hp, if_neg hab]

/-! ### A case -/

/-- formats that store the natural numbers that fit -/
def natFormats : Formats where
  f32 := ⟨4, fun q => le 4 q.num.natAbs, fun b => ofLe b, fun _ => length_le _ _⟩
  f64 := ⟨8, fun q => le 8 q.num.natAbs, fun b => ofLe b, fun _ => length_le _ _⟩
  width32 := rfl
  width64 := rfl
  cast := fun _ q => q

/-- a tensor of width 2 and depth 2 and a Lie element, with three coefficients each -/
example (a : AlgType) (t : CType) : ∃ x : Elem, Held a x ∧ Small natFormats x ∧ Exact natFormats x ∧
    x.val = .dense ⟨[1, 2, 3], 2⟩ ∧ x.ctype = t := by
  obtain ⟨c, hc⟩ := LiteCtx.new_some 2 1
  have ho := LiteCtx.ok_new hc
  refine ⟨⟨c, t, .dense ⟨[1, 2, 3], 2⟩⟩, ⟨?_, ?_, ?_, ?_⟩, ⟨?_, ?_⟩, ?_, rfl, rfl⟩
  · change LiteCtx.new c.width c.depth = some c
    rw [ho.width, ho.depth]; exact hc
  · change 1 ≤ c.width ∧ _; rw [ho.width]; norm_num
  · change 1 ≤ c.depth ∧ _; rw [ho.depth]; norm_num
  · intro v hv
    rw [← Stored.dense.inj hv]
    have h1 : 3 ≤ c.tensorBasis.maxDim := by
      unfold LiteCtx.tensorBasis
      rw [ho.width, ho.depth]
      decide +kernel
    have h2 : 3 ≤ c.lieBasis.maxDim := by
      have : (LiteCtx.new 2 2).map (fun c => decide (3 ≤ c.lieBasis.maxDim)) = some true := by decide +kernel
      rw [hc] at this
      exact of_decide_eq_true (Option.some.inj this)
    cases a
    · exact h1
    · exact h1
    · exact h2
  · intro v hv
    rw [← Stored.dense.inj hv]
    refine ⟨by decide, ?_⟩
    cases t <;> (dsimp only; decide +kernel)
  · intro v hv; cases hv
  · intro v hv
    rw [← Stored.dense.inj hv]
    cases t <;> (intro q hq; simp only [List.mem_cons, List.not_mem_nil, or_false] at hq)
    · rcases hq with rfl | rfl | rfl <;> (dsimp only [Representable]; decide +kernel)
    · rcases hq with rfl | rfl | rfl <;> (dsimp only [Representable]; decide +kernel)
    · trivial

/-- a sparse element with an entry -/
example (a : AlgType) : ∃ x : Elem, Held a x ∧ Small natFormats x ∧ x.val = .sparse [(⟨1, 0⟩, 5)] := by
  obtain ⟨c, hc⟩ := LiteCtx.new_some 2 1
  have ho := LiteCtx.ok_new hc
  refine ⟨⟨c, .f64, .sparse [(⟨1, 0⟩, 5)]⟩, ⟨?_, ?_, ?_, ?_⟩, ⟨?_, ?_⟩, rfl⟩
  · change LiteCtx.new c.width c.depth = some c
    rw [ho.width, ho.depth]; exact hc
  · change 1 ≤ c.width ∧ _; rw [ho.width]; norm_num
  · change 1 ≤ c.depth ∧ _; rw [ho.depth]; norm_num
  · intro v hv; cases hv
  · intro v hv; cases hv
  · intro v hv
    rw [← Stored.sparse.inj hv]
    decide

/-- C134: a rational cannot be read from nine bytes or fewer, whatever they are; the length that would
have to follow is not looked at, which could wrap around. -/
theorem C134_short (n : ℕ) (s : Bytes) (h : s.length ≤ 9) : ratsFromRaw (n + 1) s = .refused := by
  simp only [ratsFromRaw, readRat, readInt, if_pos h]
  rfl

/-- with ten bytes that length is looked at and does wrap around -/
example : ratsFromRaw 1 [0, 255, 255, 255, 255, 255, 255, 255, 255, 0] = .undefined := by decide

end RoughPy.Pickle
