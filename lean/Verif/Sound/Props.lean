import Verif.Sound.Lemmas

/-!
# C152 — streams over sound files

A stream over a sound file moves, at the time of each frame, by the samples of the frame (increment
channels) or by their change since the frame before (value channels).
-/

namespace RoughPy.Sound

open RoughPy.Intervals RoughPy.Streams RoughPy.Schema

theorem paramToFrame_mono (f : SoundFile) {a b : ℚ} (h : a ≤ b) :
    paramToFrame f a ≤ paramToFrame f b := by
  unfold paramToFrame
  apply Int.ceil_le_ceil
  have hr : (0 : ℚ) ≤ f.rate := by exact_mod_cast f.rate.zero_le
  nlinarith

theorem mem_Ico_frame_int (f : SoundFile) (hr : 0 < f.rate) (a b : ℚ) (k : ℤ) :
    ((k : ℚ) / (f.rate : ℚ) ∈ Set.Ico a b) ↔ (paramToFrame f a ≤ k ∧ k < paramToFrame f b) := by
  have hr' : (0 : ℚ) < f.rate := by exact_mod_cast hr
  unfold paramToFrame
  rw [sub_zero, mul_one, sub_zero, mul_one, Int.ceil_le, Int.lt_ceil, Set.mem_Ico, le_div_iff₀ hr',
    div_lt_iff₀ hr']

/-- C152, a query to the file: whatever has been read before (the position `pos` of the handle), the
rows are the movements at the frames whose time is in `[inf, sup)`, in order, provided all these
frames exist. The interval type does not matter.

Partial: there is no movement at the first frame, also for increments (`C152_first_refuted`);
lead-lag and time channels are excluded (`C152_leadlag_refuted`, `C152_time_refuted`). -/
theorem C152_query_partial (f : SoundFile) (hw : WellFormed f) (s : Schema) (hs : PlainFor s f)
    (i : RealInterval) (hi : i.inf ≤ i.sup)
    (hin : ∀ k : ℤ, (k : ℚ) / (f.rate : ℚ) ∈ Set.Ico i.inf i.sup → 0 ≤ k ∧ k < f.frames.length)
    (pos : ℕ) :
    ∃ rows pos', rows = (eventsIn (movements (s.channels.map fun c => c.2) f)
        (Set.Ico i.inf i.sup)).map (fun r => r.2) ∧
      query s ⟨f, pos⟩ i = (.ok (rows.flatten, rows.length), ⟨f, pos'⟩) := by
  have hmono := paramToFrame_mono f hi
  have hm := movements_in (s.channels.map fun c => c.2) f hw.rate i.inf i.sup
  have hA := mem_Ico_frame_int f hw.rate i.inf i.sup (paramToFrame f i.inf)
  have hB := mem_Ico_frame_int f hw.rate i.inf i.sup (paramToFrame f i.sup - 1)
  set A := paramToFrame f i.inf with hAdef
  set B := paramToFrame f i.sup with hBdef
  by_cases hAB : A = B
  · refine ⟨_, pos, rfl, ?_⟩
    rw [hm, show (B - max A 1).toNat = 0 by omega]
    unfold query
    simp only [← hAdef, ← hBdef]
    rw [if_pos hAB]
    rfl
  · have h0 := hin A (hA.2 ⟨le_rfl, by omega⟩)
    have h1 := hin (B - 1) (hB.2 ⟨by omega, by omega⟩)
    have hbeg : (if A = 0 then A + 1 else A) = max A 1 := by
      split_ifs <;> omega
    obtain ⟨p, hp⟩ : ∃ p : ℕ, max A 1 = (p : ℤ) + 1 := ⟨(max A 1 - 1).toNat, by omega⟩
    have hpl : p < f.frames.length := by omega
    have hseek : Handle.seek ⟨f, pos⟩ ((p : ℤ) + 1 - 1) = (true, ⟨f, p⟩) := by
      unfold Handle.seek
      rw [if_pos ⟨by omega, by dsimp only; omega⟩]
      congr 2
      omega
    have hread : Handle.readf ⟨f, p⟩ = (f.frames[p], ⟨f, p + 1⟩) := by
      unfold Handle.readf
      simp only [List.getElem?_eq_getElem hpl]
    refine ⟨_, p + 1 + (B - (p + 1)).toNat, rfl, ?_⟩
    rw [hm]
    unfold query
    simp only [← hAdef, ← hBdef]
    rw [if_neg hAB, hbeg, hp, hseek]
    simp only [hread]
    unfold readRows
    rw [if_neg (by dsimp only; omega), if_neg (by decide)]
    simp only
    rw [rowLoop_eq s f hw hs _ p _ _ _ (List.getElem?_eq_getElem hpl) (by omega)
      (by rw [List.length_replicate]; exact width_plain s f hs)]
    simp only [List.nil_append]
    have e1 : (A - 1).toNat = p := by omega
    rw [e1]
    simp only [List.length_map, List.length_take, List.length_drop, steps_length, List.flatMap]
    congr 3
    omega

/-- C152: a query for a time at which the file has no frame throws. -/
theorem C152_outside_throws (f : SoundFile) (hr : 0 < f.rate) (s : Schema) (i : RealInterval)
    (hout : ∃ k : ℤ, (k : ℚ) / (f.rate : ℚ) ∈ Set.Ico i.inf i.sup ∧ (k < 0 ∨ f.frames.length ≤ k))
    (pos : ℕ) : (query s ⟨f, pos⟩ i).1 = .throws := by
  obtain ⟨k, hk, hout⟩ := hout
  rw [mem_Ico_frame_int f hr] at hk
  unfold query
  simp only
  rw [if_neg (by omega)]
  have hfile : ∀ (h : Handle) (n : ℤ), ((h.seek n).2).file = h.file := by
    intro h n; unfold Handle.seek; split_ifs <;> rfl
  have hfile2 : ∀ h : Handle, (h.readf.2).file = h.file := by
    intro h; unfold Handle.readf; split <;> rfl
  unfold readRows
  rw [if_pos]
  rw [hfile2, hfile]
  dsimp only
  split_ifs <;> omega

/-! ## The stream -/

variable {L G : Type} [Monoid G]

/-- Signatures with an additional zero for "no answer". -/
def liftSig (sig : L → G) : Option L → WithZero G
  | some x => ((sig x : G) : WithZero G)
  | none => 0

theorem liftSig_prod (sig : L → G) (ls : List (Option L)) :
    (ls.map (liftSig sig)).prod = match ls.mapM (fun x => x) with
      | some xs => (((xs.map sig).prod : G) : WithZero G)
      | none => 0 := by
  induction ls with
  | nil => rfl
  | cons x ls ih =>
    rw [List.map_cons, List.prod_cons, ih, List.mapM_cons]
    cases x with
    | none => simp [liftSig]
    | some x =>
      cases h : ls.mapM (fun x => x) with
      | none => simp
      | some xs => simp [liftSig]

theorem failing_interprets (ops : LieOps L) (sig : L → G) (h : Interprets ops sig) :
    Interprets (failing ops) (liftSig sig) where
  zero := by
    show ((sig ops.zero : G) : WithZero G) = 1
    rw [h.zero]
    rfl
  isZero := by
    intro x hx
    cases x with
    | none => exact absurd hx (by simp [failing])
    | some y =>
      show ((sig y : G) : WithZero G) = 1
      rw [h.isZero y hx]
      rfl
  cbh := by
    intro ls
    rw [liftSig_prod]
    show liftSig sig ((ls.mapM fun x => x).map ops.cbh) = _
    cases hl : ls.mapM (fun x => x) with
    | none => rfl
    | some xs =>
      show ((sig (ops.cbh xs) : G) : WithZero G) = _
      rw [h.cbh]

theorem sound_emptyInherited (ops : ℕ → LieOps L) (lie : ℕ → List ℚ → L) (f : SoundFile) (s : Schema)
    (w : ℕ) (support : RealInterval) (R : ℤ) (depth : ℕ) :
    EmptyInherited (soundImpl ops lie f s w support R depth) := by
  intro d e hd he hsub h
  have hlr := left_lt_right e
  have h1 : d.left ≤ e.left ∧ e.right ≤ d.right := by
    have hp : ∀ x : DyadicInterval, x.type = .clopen → x.points = Set.Ico x.left x.right := by
      intro x hx
      unfold DyadicInterval.points DyadicInterval.left DyadicInterval.right
      rw [hx]
    rw [hp d hd, hp e he] at hsub
    exact (Set.Ico_subset_Ico_iff hlr).1 hsub
  unfold soundImpl asInterval at h ⊢
  simp only [hd, he, if_true, Bool.or_eq_true, decide_eq_true_eq, Intervals.inf_eq_left, Intervals.sup_eq_right] at h ⊢
  rcases h with h | h
  · left; linarith [h1.2]
  · right; linarith [h1.1]

/-- What the stream contributes on a cell inside the file. -/
theorem sound_cell (ops : ℕ → LieOps L) (lie : ℕ → List ℚ → L) (f : SoundFile)
    (hw : WellFormed f) (s : Schema) (hs : PlainFor s f) (support : RealInterval) (R : ℤ) (depth ctx : ℕ)
    (sig : L → G) (hI : Interprets (ops ctx) sig) (i : RealInterval) (hi : i.inf ≤ i.sup)
    (h0 : 0 ≤ i.inf) (h1 : i.sup ≤ (f.frames.length : ℚ) / (f.rate : ℚ)) :
    liftSig sig ((soundImpl ops lie f s f.channels support R depth).impl ctx i) =
      ((eventsSig (fun r => sig (lie ctx r)) (eventsIn (movements (kindsOf s) f)
        (Set.Ico i.inf i.sup)) : G) : WithZero G) := by
  have hr : (0 : ℚ) < f.rate := by exact_mod_cast hw.rate
  obtain ⟨rows, pos', hrows, hq⟩ := C152_query_partial f hw s hs i hi (fun k hk => by
    obtain ⟨hk0, hk1⟩ := hk
    constructor
    · have h2 : (0 : ℚ) ≤ (k : ℚ) / f.rate := h0.trans hk0
      by_contra hneg
      have : (k : ℚ) < 0 := by exact_mod_cast not_le.1 hneg
      have := div_neg_of_neg_of_pos this hr
      linarith
    · have h2 := hk1.trans_le h1
      rw [div_lt_div_iff_of_pos_right hr] at h2
      exact_mod_cast h2) 0
  have hlen : ∀ r ∈ rows, r.length = f.channels := by
    intro r hr
    rw [hrows] at hr
    obtain ⟨e, he, rfl⟩ := List.mem_map.1 hr
    have he' : e ∈ movements (s.channels.map fun c => c.2) f := List.mem_of_mem_filter he
    obtain ⟨q, hq, rfl⟩ := List.mem_map.1 he'
    have hq2 := List.fst_mem_of_mem_zipIdx hq
    obtain ⟨ha, hb⟩ := List.of_mem_zip hq2
    exact movement_length _ _ _ _ (by rw [List.length_map]; exact hs.count) (hw.frames _ ha)
      (hw.frames _ (List.mem_of_mem_tail hb))
  show liftSig sig (logSig (ops ctx) (lie ctx) f.channels s ⟨f, 0⟩ i).1.value = _
  unfold logSig
  rw [hq]
  simp only [cutRows_eq _ rows hlen, Res.value, liftSig]
  rw [hI.cbh, hrows]
  unfold eventsSig
  simp only [List.map_map]
  rfl

/-- C152, the stream: after any queries, the log signature over an interval, at a resolution not
finer than that of the stream, exists and is that of the movements at the frames whose time is in
the interval (moved into the support and rounded down to the grid of the query), in order.

Partial: the same restrictions as in `C152_query_partial`; the support starts at zero and does not
go beyond the end of the file; for finer (in particular the automatically chosen) resolutions the
query may throw (`C152_short_refuted`). -/
theorem C152_signature_partial (ops : ℕ → LieOps L) (lie : ℕ → List ℚ → L) (f : SoundFile)
    (hw : WellFormed f) (s : Schema) (hs : PlainFor s f) (T : ℚ) (hT0 : 0 ≤ T)
    (hT : T ≤ (f.frames.length : ℚ) / (f.rate : ℚ)) (ty : IType) (R : ℤ) (depth ctx : ℕ) (sig : L → G)
    (hI : Interprets (ops ctx) sig) (a b : ℚ) (t : IType) (hab : a ≤ b) (res : ℤ) (hres : res ≤ R)
    (hist : List Query) (hh : ∀ p ∈ hist, p.ctx = ctx) :
    ∃ x, Returns (answerAfter ⟨soundImpl ops lie f s f.channels ⟨0, T, ty⟩ R depth, ⟨0, T, ty⟩⟩ hist
        ⟨⟨a, b, t⟩, some res, ctx⟩) (some x) ∧
      sig x = eventsSig (fun r => sig (lie ctx r)) (eventsIn (movements (s.channels.map fun c => c.2) f)
        (Set.Ico (gridFloor res (clamp 0 T a)) (gridFloor res (clamp 0 T b)))) := by
  set S : Impl (Option L) := soundImpl ops lie f s f.channels ⟨0, T, ty⟩ R depth with hS
  set E : ℚ → ℚ → G := fun a b => eventsSig (fun r => sig (lie ctx r))
    (eventsIn (movements (kindsOf s) f) (Set.Ico a b)) with hE
  have hchron := movements_chronological (kindsOf s) f hw.rate
  have hEchen : ∀ a b c, a ≤ b → b ≤ c → E a b * E b c = E a c := by
    intro a b c h1 h2
    show eventsSig _ _ * eventsSig _ _ = eventsSig _ _
    rw [← eventsSig_append, eventsIn_Ico_append _ hchron h1 h2]
  have hE1 : ∀ a, E a a = 1 := by
    intro a
    show eventsSig _ _ = 1
    simp [eventsIn, eventsSig]
  have hSI : Interprets (S.ops ctx) (liftSig sig) := failing_interprets _ _ hI
  obtain ⟨v, hC⟩ := caching_contribution S (sound_emptyInherited _ _ _ _ _ _ _ _) ctx (liftSig sig)
  set P : ℚ → ℚ → WithZero G :=
    fun a b => intProd v ⌊a * 2 ^ S.defaultRes⌋ ⌊b * 2 ^ S.defaultRes⌋ with hP
  have hRd : S.defaultRes = R := rfl
  -- along the cells of the stream
  have hcells : ∀ i j : ℤ, 0 ≤ i → i ≤ j → dyadicValue j R ≤ T →
      P (dyadicValue i R) (dyadicValue j R) = ((E (dyadicValue i R) (dyadicValue j R) : G) : WithZero G) := by
    intro i j hi hij
    induction j, hij using Int.le_induction with
    | base =>
      intro _
      rw [hE1]
      show intProd _ _ _ = _
      rw [intProd_self]
      rfl
    | succ j hij ih =>
      intro hj
      have hlt : dyadicValue j R < dyadicValue (j + 1) R := dyadicValue_lt.2 (by omega)
      have hle : dyadicValue i R ≤ dyadicValue j R := dyadicValue_le.2 hij
      have h0 : 0 ≤ dyadicValue j R := by
        have : dyadicValue 0 R ≤ dyadicValue j R := dyadicValue_le.2 (by omega)
        simpa [dyadicValue] using this
      rw [← hC.chen _ _ _ hle hlt.le, ih (by linarith), ← hEchen _ _ _ hle hlt.le]
      have hcell := hC.cell ⟨j, R, .clopen⟩ rfl rfl (by
        rw [hS]
        unfold soundImpl asInterval
        simp only [if_true, Intervals.inf_eq_left, Intervals.sup_eq_right, Bool.or_eq_false_iff, decide_eq_false_iff_not,
          not_lt, not_le]
        show (0 : ℚ) ≤ dyadicValue (j + 1) R ∧ dyadicValue j R < T
        constructor <;> linarith)
      have hval := sound_cell ops lie f hw s hs ⟨0, T, ty⟩ R depth ctx sig hI
        (asInterval ⟨j, R, .clopen⟩) (by
          unfold asInterval
          simp only [Intervals.inf_eq_left, Intervals.sup_eq_right]
          exact hlt.le) (by
          unfold asInterval
          simp only [Intervals.inf_eq_left]
          exact h0) (by
          unfold asInterval
          simp only [Intervals.sup_eq_right]
          exact hj.trans hT)
      rw [← hS, hcell] at hval
      unfold asInterval at hval
      simp only [Intervals.inf_eq_left, Intervals.sup_eq_right] at hval
      have hval' : P (dyadicValue j R) (dyadicValue (j + 1) R) =
        ((E (dyadicValue j R) (dyadicValue (j + 1) R) : G) : WithZero G) := hval
      rw [hval', WithZero.coe_mul]
  obtain ⟨x, hx, sx⟩ := logSignatureAt_sig ⟨S, ⟨0, T, ty⟩⟩ rfl rfl hT0 ctx (liftSig sig) hSI P
    hC.chen (fun a => intProd_self _ _) a b t hab res (fun d ht hn => by
      have hcach : S.caching = true := rfl
      unfold dyadicQuery
      rw [hcach, if_pos rfl]
      exact layerQuery_fuel_sig S ctx (liftSig sig) hSI _ hC d ht (hn.trans hres))
  simp only at sx
  set pa := gridFloor res (clamp 0 T a) with hpa
  set pb := gridFloor res (clamp 0 T b) with hpb
  have hgrid : ∀ y : ℚ, gridFloor res y =
      dyadicValue (⌊y * 2 ^ res⌋ * Dyadic.pow2 (R - res)) R := by
    intro y
    rw [dyadicValue_shift _ _ _ hres]
    rfl
  have hclamp : ∀ y, 0 ≤ clamp 0 T y := fun y => le_max_left _ _
  have hfloor : ∀ y, gridFloor res y ≤ y := by
    intro y
    unfold gridFloor
    rw [div_le_iff₀ (two_zpow_pos res)]
    exact Int.floor_le _
  have hle : pa ≤ pb := gridFloor_mono res (max_le_max le_rfl (min_le_min hab le_rfl))
  have hpbT : pb ≤ T := (hfloor _).trans (max_le hT0 (min_le_right _ _))
  have hmain : P pa pb = ((E pa pb : G) : WithZero G) := by
    have hnn : 0 ≤ ⌊clamp 0 T a * 2 ^ res⌋ * Dyadic.pow2 (R - res) := by
      have : dyadicValue 0 R ≤ dyadicValue (⌊clamp 0 T a * 2 ^ res⌋ * Dyadic.pow2 (R - res)) R := by
        rw [← hgrid]
        have : dyadicValue 0 R = 0 := by simp [dyadicValue]
        rw [this]
        unfold gridFloor
        apply div_nonneg _ (two_zpow_pos res).le
        exact_mod_cast Int.floor_nonneg.2 (mul_nonneg (hclamp a) (two_zpow_pos res).le)
      exact dyadicValue_le.1 this
    rw [hpa, hpb, hgrid (clamp 0 T a), hgrid (clamp 0 T b)]
    apply hcells _ _ hnn
    · rw [hpa, hpb, hgrid, hgrid] at hle
      exact dyadicValue_le.1 hle
    · rw [← hgrid]; exact hpbT
  rw [hmain] at sx
  cases x with
  | none => exact absurd sx (by simp [liftSig])
  | some y =>
    refine ⟨y, ?_, WithZero.coe_inj.1 sx⟩
    obtain ⟨n₀, hn⟩ := hx
    exact ⟨n₀, fun n hn' => by rw [answerAfter_eq _ _ _ hh]; exact hn n hn'⟩

/-! ### Examples -/

/-- Lie elements over one letter: numbers. -/
def lineOps : ℕ → LieOps ℚ := fun _ => ⟨0, fun x => decide (x = 0), List.sum⟩

theorem lineOps_interprets (ctx : ℕ) :
    Interprets (lineOps ctx) (fun x : ℚ => Multiplicative.ofAdd x) where
  zero := rfl
  isZero := by
    intro x hx
    have : x = 0 := by simpa [lineOps] using hx
    rw [this]
    rfl
  cbh := by
    intro ls
    show Multiplicative.ofAdd ls.sum = _
    induction ls with
    | nil => rfl
    | cons x ls ih => rw [List.sum_cons, ofAdd_add, ih]; rfl

/-- A file of one channel, four frames per second. -/
def beep : SoundFile := ⟨[[1], [4], [2], [7], [5]], 1, 4⟩

/-- One channel of values; one channel of increments. -/
def valueSchema : Schema := ⟨[("x".toList, .value false)], true, false⟩
def incSchema : Schema := ⟨[("x".toList, .increment false)], true, false⟩

example : WellFormed beep ∧ PlainFor valueSchema beep ∧ PlainFor incSchema beep :=
  ⟨⟨by decide, by decide⟩, ⟨rfl, by decide, rfl⟩, ⟨rfl, by decide, rfl⟩⟩

/-- The frames at 1/4 and 2/4 are in `[1/8, 3/4)`; the position of the handle does not matter. -/
example : (query valueSchema ⟨beep, 3⟩ ⟨1/8, 3/4, .clopen⟩).1 = .ok ([3, -2], 2) ∧
    (query incSchema ⟨beep, 0⟩ ⟨1/8, 3/4, .clopen⟩).1 = .ok ([4, 2], 2) ∧
    (query valueSchema ⟨beep, 0⟩ ⟨1, 3/2, .clopen⟩).1 = .throws := by
  decide +kernel

example : (answerAfter ⟨soundImpl lineOps (fun _ => List.sum) beep valueSchema 1 ⟨0, 5/4, .clopen⟩ 2 2,
      ⟨0, 5/4, .clopen⟩⟩ [] ⟨⟨0, 1, .clopen⟩, some 2, 0⟩ 12) = some (some 6) := by
  decide +kernel

/-! ### What does not hold -/

/-- C152, first frame: the samples of a channel of increments are the increments of the path, but
the sample of the first frame is in no answer: the file `1, 4` has the total 5, the query over the
whole file gives 4. -/
theorem C152_first_refuted : ¬ ∀ (f : SoundFile) (s : Schema) (_ : WellFormed f) (_ : PlainFor s f)
    (_ : ∀ c ∈ s.channels, c.2 = .increment false),
    (query s ⟨f, 0⟩ ⟨0, (f.frames.length : ℚ) / (f.rate : ℚ), .clopen⟩).1 =
      .ok (f.frames.flatten, f.frames.length) := by
  intro h
  have := h beep incSchema ⟨by decide, by decide⟩ ⟨rfl, by decide, rfl⟩ (by decide)
  exact absurd this (by decide +kernel)

/-- C152, short files: a file of three frames at ten frames per second, opened with resolution 1
(cells of half a second).  The query over the whole file with the automatic resolution asks for the
cell `[0, 1/2)`, which is not in the file: it throws. -/
def short : SoundFile := ⟨[[1], [4], [2]], 1, 10⟩

theorem C152_short_refuted : ∃ s : Stream (Option ℚ),
    fromUri lineOps (fun _ => List.sum) short 0 none (some 1) valueSchema 2 = some s ∧
      answerAfter s [] ⟨s.support, none, 0⟩ 20 = some none := by
  refine ⟨_, rfl, ?_⟩
  decide +kernel

/-- C152, lead-lag: the second of the two coordinates of a lead-lag channel is always zero. -/
theorem C152_leadlag_refuted :
    (query ⟨[("x".toList, .value true)], true, false⟩ ⟨beep, 0⟩ ⟨0, 1, .clopen⟩).1 =
      .ok ([3, 0, -2, 0, 5, 0], 3) := by
  decide +kernel

/-- A file of two channels. -/
def stereo : SoundFile := ⟨[[1, 10], [4, 20], [2, 40]], 2, 4⟩

/-- C152, time: with `include_time` (and no channel types) the schema of a file of two channels has
one channel and the time; the second channel is lost, and the time does not move. -/
theorem C152_time_refuted : ∃ s, chosenSchema ⟨[], false, true⟩ 2 = some s ∧
    (query s ⟨stereo, 0⟩ ⟨0, 3/4, .clopen⟩).1 = .ok ([4, 0, 2, 0], 2) := by
  refine ⟨_, rfl, ?_⟩
  decide +kernel

/-- C152, resolution: a stream opened with resolution 0 has resolution 10; all others are kept. -/
theorem C152_resolution_refuted : chosenResolution (some 0) = 10 ∧
    ∀ r, r ≠ 0 → chosenResolution (some r) = r :=
  ⟨rfl, fun r hr => by unfold chosenResolution; simp [hr]⟩

/-- C152: what `from_uri` makes of its arguments.  Without arguments the stream has the channels,
the length and increments for the file; another width than that of the file is refused. -/
theorem C152_defaults (ops : ℕ → LieOps L) (lie : ℕ → List ℚ → L) (f : SoundFile) (schema : Schema)
    (hfin : schema.isFinal = true) (depth : ℕ) :
    fromUri ops lie f 0 none none schema depth =
      some ⟨soundImpl ops lie f schema f.channels
        ⟨0, (f.frames.length : ℚ) / (f.rate : ℚ), .clopen⟩ 10 depth,
        ⟨0, (f.frames.length : ℚ) / (f.rate : ℚ), .clopen⟩⟩ ∧
    ∀ w, w ≠ 0 → w ≠ f.channels → ∀ sup r, fromUri ops lie f w sup r schema depth = none := by
  constructor
  · unfold fromUri chosenSchema
    simp [chosenWidth, hfin, chosenSupport, chosenResolution]
  · intro w h0 h1 sup r
    unfold fromUri chosenWidth
    simp [h0, h1]

end RoughPy.Sound
