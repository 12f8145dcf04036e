import Verif.Args.Increments
import Mathlib.Tactic.Linarith
import Mathlib.Tactic.NormNum
import Mathlib.Tactic.SplitIfs
import Mathlib.Algebra.BigOperators.Group.List.Basic
import Mathlib.Algebra.Order.Field.Power

/-!
# Properties of the front end of increment streams

C96: every row gets the time stamp asked for, the support of the stream contains all time stamps, the
width fits all rows, and the resolution is the one asked for or fine enough to tell the time stamps
apart.
-/

namespace RoughPy.Args

/-! ## Lemmas -/

theorem foldl_min_le : ∀ (l : List ℚ) (s : ℚ), l.foldl min s ≤ s ∧ ∀ x ∈ l, l.foldl min s ≤ x
  | [], s => ⟨le_rfl, by simp⟩
  | y :: l, s => by
    obtain ⟨h1, h2⟩ := foldl_min_le l (min s y)
    refine ⟨le_trans h1 (min_le_left _ _), fun x hx => ?_⟩
    rcases List.mem_cons.1 hx with rfl | hx
    · exact le_trans h1 (min_le_right _ _)
    · exact h2 x hx

theorem le_foldl_max {α : Type} [LinearOrder α] :
    ∀ (l : List α) (s : α), s ≤ l.foldl max s ∧ ∀ x ∈ l, x ≤ l.foldl max s
  | [], s => ⟨le_rfl, by simp⟩
  | y :: l, s => by
    obtain ⟨h1, h2⟩ := le_foldl_max l (max s y)
    refine ⟨le_trans (le_max_left _ _) h1, fun x hx => ?_⟩
    rcases List.mem_cons.1 hx with rfl | hx
    · exact le_trans (le_max_right _ _) h1
    · exact h2 x hx

theorem foldl_max_mem {α : Type} [LinearOrder α] : ∀ (l : List α) (s : α),
    l.foldl max s = s ∨ l.foldl max s ∈ l
  | [], s => .inl rfl
  | y :: l, s => by
    rcases foldl_max_mem l (max s y) with h | h
    · simp only [List.foldl_cons]
      rw [h]
      rcases max_choice s y with h' | h' <;> rw [h']
      · exact .inl rfl
      · exact .inr List.mem_cons_self
    · exact .inr (List.mem_cons_of_mem _ h)

theorem chooseFrom_some : ∀ (l : List ℚ) (d : ℚ), chooseFrom (some d) l = some (l.foldl min d)
  | [], d => rfl
  | x :: l, d => by
    simp only [chooseFrom, sub_zero]
    rw [chooseFrom_some l]
    simp only [List.foldl_cons]
    congr 2
    by_cases h : x < d
    · rw [if_pos h, min_eq_right h.le]
    · rw [if_neg h, min_eq_left (not_lt.1 h)]

theorem runningFrom_get : ∀ (vs : List ℚ) (last : ℚ) (k : ℕ), k < vs.length →
    (runningFrom last vs)[k]? = some (last + (vs.take (k + 1)).sum)
  | [], _, _, h => by simp at h
  | v :: vs, last, 0, _ => by simp [runningFrom]
  | v :: vs, last, k + 1, h => by
    simp only [runningFrom, List.getElem?_cons_succ]
    rw [runningFrom_get vs (last + v) k (by simpa using h), List.take_succ_cons, List.sum_cons]
    congr 1
    ring

theorem runningFrom_length : ∀ (vs : List ℚ) (last : ℚ), (runningFrom last vs).length = vs.length
  | [], _ => rfl
  | v :: vs, last => by simp [runningFrom, runningFrom_length vs]

theorem columnOf_ok (i : ℕ) : ∀ (rows : List (List ℚ)) (col : List ℚ),
    rows.map (fun r => r[i]?) = col.map some → columnOf i rows = .ok col
  | [], col, h => by
    have : col = [] := by simpa using h.symm
    subst this; rfl
  | r :: rows, col, h => by
    cases col with
    | nil => simp at h
    | cons v col =>
      simp only [List.map_cons, List.cons.injEq] at h
      simp only [columnOf, h.1, columnOf_ok i rows col h.2, Out.bind]

theorem columnOf_short (i : ℕ) : ∀ (rows : List (List ℚ)),
    (∃ r ∈ rows, r.length ≤ i) → columnOf i rows = .err
  | [], h => by simp at h
  | r :: rows, h => by
    simp only [columnOf]
    by_cases hr : r.length ≤ i
    · rw [List.getElem?_eq_none hr]
    · rw [List.getElem?_eq_getElem (by omega)]
      have : ∃ r ∈ rows, r.length ≤ i := by
        obtain ⟨q, hq, hl⟩ := h
        rcases List.mem_cons.1 hq with rfl | hq
        · exact absurd hl hr
        · exact ⟨q, hq, hl⟩
      rw [columnOf_short i rows this]
      rfl

/-- The width that is used. -/
theorem width_pos {rows : List (List ℚ)} {w : ℕ} (h : 0 < w ∨ ∃ r ∈ rows, r ≠ []) :
    (if w = 0 then (rows.map List.length).foldl max 0 else w) ≠ 0 := by
  split_ifs with hw
  · obtain ⟨r, hr, hne⟩ := h.resolve_left (by omega)
    have := (le_foldl_max (rows.map List.length) 0).2 r.length (List.mem_map_of_mem hr)
    have : 0 < r.length := List.length_pos_iff.2 hne
    omega
  · exact hw

/-! ## The property -/

/-- Without time stamps the rows get 0, 1, 2, …, and the support is from 0 to the number of rows. -/
theorem C96_default (rows : List (List ℚ)) (resolution : Option ℤ) (width : ℕ) (hr : rows ≠ [])
    (hw : 0 < width ∨ ∃ r ∈ rows, r ≠ []) :
    ∃ f, fromIncrements rows .absent resolution width = .ok f ∧
      f.stamps = (List.range rows.length).map (fun (i : ℕ) => (i : ℚ)) ∧
      f.lo = 0 ∧ f.hi = rows.length := by
  have hmax : ∀ n : ℕ, ((List.range n).map fun (i : ℕ) => ((i + 1 : ℕ) : ℚ)).foldl max 0 = n := by
    intro n
    induction n with
    | zero => simp
    | succ n ih =>
      rw [List.range_succ, List.map_append, List.foldl_append, ih]
      simp only [List.map_cons, List.map_nil, List.foldl_cons, List.foldl_nil]
      rw [max_eq_right]
      push_cast
      linarith
  have hmin : ∀ n : ℕ, ((List.range n).map fun (i : ℕ) => ((i + 1 : ℕ) : ℚ)).foldl min 0 = 0 := by
    intro n
    induction n with
    | zero => simp
    | succ n ih =>
      rw [List.range_succ, List.map_append, List.foldl_append, ih]
      simp only [List.map_cons, List.map_nil, List.foldl_cons, List.foldl_nil]
      rw [min_eq_left]
      positivity
  obtain ⟨n, hn⟩ : ∃ n, rows.length = n + 1 :=
    ⟨rows.length - 1, by have := List.length_pos_iff.2 hr; omega⟩
  have hst : (List.range rows.length).map (fun (i : ℕ) => (i : ℚ)) =
      0 :: (List.range n).map fun (i : ℕ) => ((i + 1 : ℕ) : ℚ) := by
    rw [hn, List.range_succ_eq_map, List.map_cons, List.map_map]
    rfl
  refine ⟨⟨(List.range rows.length).map (fun (i : ℕ) => (i : ℚ)), 0, 0, rows.length,
    if width = 0 then (rows.map List.length).foldl max 0 else width⟩, ?_, rfl, rfl, rfl⟩
  unfold fromIncrements
  simp only [readStamps, Out.bind, ne_eq, not_true, false_and, if_false, if_true]
  rw [if_neg (width_pos hw), hst]
  simp only [hmax, hmin, hn]
  congr 2
  norm_num

example : fromIncrements [[1, 2], [3, 4], [5, 6]] .absent none 0 =
    .ok ⟨[0, 1, 2], 0, 0, 3, 2⟩ := by decide +kernel

/-- Given time stamps are used for the rows in order, and a given resolution is kept. -/
theorem C96_given (rows : List (List ℚ)) (l : List ℚ) (resolution : Option ℤ) (width : ℕ)
    (hl : l ≠ []) (hlen : l.length = rows.length) (hw : 0 < width ∨ ∃ r ∈ rows, r ≠ []) :
    ∃ f, fromIncrements rows (.given l) resolution width = .ok f ∧ f.stamps = l ∧
      ∀ r, resolution = some r → f.resolution = r := by
  unfold fromIncrements
  simp only [readStamps, Out.bind]
  rw [if_neg (width_pos hw), if_neg (by simp [hlen]), if_neg hl, if_neg hl]
  cases l with
  | nil => exact absurd rfl hl
  | cons s rest =>
    refine ⟨_, rfl, rfl, ?_⟩
    rintro r rfl
    rfl

example : fromIncrements [[1], [3]] (.given [1 / 2, 2]) (some 4) 0 =
    .ok ⟨[1 / 2, 2], 4, 1 / 2, 2 + 1 / 16, 1⟩ := by decide +kernel

/-- Another number of time stamps than rows raises. -/
theorem C96_mismatch (rows : List (List ℚ)) (l : List ℚ) (resolution : Option ℤ) (width : ℕ)
    (hl : l ≠ []) (hlen : l.length ≠ rows.length) :
    fromIncrements rows (.given l) resolution width = .err := by
  unfold fromIncrements
  simp only [readStamps, Out.bind]
  generalize (if width = 0 then (rows.map List.length).foldl max 0 else width) = w
  split_ifs with h1 h2
  · rfl
  · rfl
  all_goals exact absurd ⟨hl, hlen⟩ h2

example : fromIncrements [[1], [3]] (.given [1]) none 0 = .err :=
  C96_mismatch _ _ _ _ (by simp) (by simp)

/-- With a time column the time stamp of a row is the sum of the column up to this row. -/
theorem C96_column (rows : List (List ℚ)) (i : ℕ) (col : List ℚ) (resolution : Option ℤ)
    (width : ℕ) (hr : rows ≠ []) (hcol : rows.map (fun r => r[i]?) = col.map some) :
    ∃ f, fromIncrements rows (.column i) resolution width = .ok f ∧
      f.stamps.length = rows.length ∧
      (∀ k, k < rows.length → f.stamps[k]? = some (col.take (k + 1)).sum) ∧
      ∀ r, resolution = some r → f.resolution = r := by
  have hlen : col.length = rows.length := by
    have := congrArg List.length hcol
    simpa using this.symm
  have hne : ∃ r ∈ rows, r ≠ [] := by
    cases rows with
    | nil => exact absurd rfl hr
    | cons r rows =>
      refine ⟨r, List.mem_cons_self, ?_⟩
      rintro rfl
      cases col with
      | nil => simp at hlen
      | cons v col => simp at hcol
  unfold fromIncrements
  simp only [readStamps, columnOf_ok i rows col hcol, Out.map, Out.bind]
  rw [if_neg (width_pos (.inr hne))]
  cases col with
  | nil =>
    have : rows = [] := List.length_eq_zero_iff.1 (by simpa using hlen.symm)
    exact absurd this hr
  | cons v vs =>
    dsimp only
    have hl : (v :: runningFrom v vs).length = rows.length := by
      rw [List.length_cons, runningFrom_length, ← hlen]; rfl
    rw [if_neg (by simp [hl]), if_neg (by simp), if_neg (by simp)]
    refine ⟨_, rfl, hl, ?_, ?_⟩
    · intro k hk
      cases k with
      | zero => simp
      | succ k =>
        dsimp only
        rw [List.getElem?_cons_succ, runningFrom_get vs v k (by
          rw [← hlen] at hk; simpa using hk), List.take_succ_cons, List.sum_cons]
    · rintro r rfl
      rfl

example : fromIncrements [[1, 7], [2, 8], [1, 9]] (.column 0) (some 3) 0 =
    .ok ⟨[1, 3, 4], 3, 1, 4 + 1 / 8, 2⟩ := by decide +kernel

/-- A row without the time column raises. -/
theorem C96_column_short (rows : List (List ℚ)) (i : ℕ) (resolution : Option ℤ) (width : ℕ)
    (h : ∃ r ∈ rows, r.length ≤ i) :
    fromIncrements rows (.column i) resolution width = .err := by
  unfold fromIncrements
  simp only [readStamps, columnOf_short i rows h, Out.map, Out.bind]
  split_ifs <;> rfl

/-- Whatever the arguments are: when the call returns, there is one time stamp for each row and the
support contains all of them. -/
theorem C96_support (rows : List (List ℚ)) (arg : Stamps) (resolution : Option ℤ) (width : ℕ)
    (f : Front) (h : fromIncrements rows arg resolution width = .ok f) :
    f.stamps.length = rows.length ∧ ∀ s ∈ f.stamps, f.lo ≤ s ∧ s < f.hi := by
  unfold fromIncrements at h
  dsimp only at h
  generalize (if width = 0 then (rows.map List.length).foldl max 0 else width) = w at h
  by_cases hw : w = 0
  · rw [if_pos hw] at h; simp at h
  rw [if_neg hw] at h
  cases hread : readStamps rows arg with
  | err => rw [hread] at h; simp [Out.bind] at h
  | ub => rw [hread] at h; simp [Out.bind] at h
  | ok read =>
    rw [hread] at h
    simp only [Out.bind] at h
    by_cases hm : read ≠ [] ∧ read.length ≠ rows.length
    · rw [if_pos hm] at h; simp at h
    rw [if_neg hm] at h
    have hlen : (if read = [] then (List.range rows.length).map fun (i : ℕ) => (i : ℚ)
        else read).length = rows.length := by
      split_ifs with hr
      · simp
      · by_contra hne
        exact hm ⟨hr, hne⟩
    generalize (if read = [] then (List.range rows.length).map fun (i : ℕ) => (i : ℚ)
        else read) = stamps at h hlen
    cases stamps with
    | nil =>
      simp only [Out.ok.injEq] at h
      subst h
      exact ⟨hlen, by simp⟩
    | cons s rest =>
      simp only [Out.ok.injEq] at h
      subst h
      refine ⟨hlen, fun x hx => ⟨?_, ?_⟩⟩
      · rcases List.mem_cons.1 hx with rfl | hx
        · exact (foldl_min_le rest x).1
        · exact (foldl_min_le rest s).2 x hx
      · have hp : ∀ r : ℤ, (0 : ℚ) < 2 ^ r := fun r => zpow_pos (by norm_num) r
        rcases List.mem_cons.1 hx with rfl | hx
        · exact lt_of_le_of_lt (le_foldl_max rest x).1 (lt_add_of_pos_right _ (hp _))
        · exact lt_of_le_of_lt ((le_foldl_max rest s).2 x hx) (lt_add_of_pos_right _ (hp _))

/-- A width that is not given is the length of the longest row; one that is given is kept. -/
theorem C96_width (rows : List (List ℚ)) (arg : Stamps) (resolution : Option ℤ) (width : ℕ)
    (f : Front) (h : fromIncrements rows arg resolution width = .ok f) :
    (0 < width → f.width = width) ∧
    (width = 0 → (∀ r ∈ rows, r.length ≤ f.width) ∧ ∃ r ∈ rows, r.length = f.width) := by
  have hf : f.width = if width = 0 then (rows.map List.length).foldl max 0 else width := by
    unfold fromIncrements at h
    dsimp only at h
    generalize (if width = 0 then (rows.map List.length).foldl max 0 else width) = w at h ⊢
    by_cases hw : w = 0
    · rw [if_pos hw] at h; simp at h
    rw [if_neg hw] at h
    cases hread : readStamps rows arg with
    | err => rw [hread] at h; simp [Out.bind] at h
    | ub => rw [hread] at h; simp [Out.bind] at h
    | ok read =>
      rw [hread] at h
      simp only [Out.bind] at h
      by_cases hm : read ≠ [] ∧ read.length ≠ rows.length
      · rw [if_pos hm] at h; simp at h
      rw [if_neg hm] at h
      generalize (if read = [] then (List.range rows.length).map fun (i : ℕ) => (i : ℚ)
        else read) = stamps at h
      cases stamps with
      | nil => simp only [Out.ok.injEq] at h; subst h; rfl
      | cons s rest => simp only [Out.ok.injEq] at h; subst h; rfl
  have hpos : f.width ≠ 0 := by
    intro h0
    unfold fromIncrements at h
    dsimp only at h
    rw [← hf, if_pos h0] at h
    simp at h
  refine ⟨fun hw => by rw [hf, if_neg (by omega)], fun hw => ?_⟩
  rw [if_pos hw] at hf
  refine ⟨fun r hr => ?_, ?_⟩
  · rw [hf]
    exact (le_foldl_max _ _).2 _ (List.mem_map_of_mem hr)
  · rcases foldl_max_mem (rows.map List.length) 0 with h0 | h0
    · rw [← hf] at h0; exact absurd h0 hpos
    · obtain ⟨r, hr, he⟩ := List.mem_map.1 h0
      exact ⟨r, hr, by rw [hf]; exact he⟩

/-- What the chosen resolution depends on: only the smallest time stamp, not the gaps. -/
theorem C96_resolution (rows : List (List ℚ)) (s : ℚ) (rest : List ℚ) (width : ℕ) (f : Front)
    (h : fromIncrements rows (.given (s :: rest)) none width = .ok f) :
    f.resolution = resolutionOf (rest.foldl min s) + 1 := by
  unfold fromIncrements at h
  simp only [readStamps, Out.bind] at h
  generalize (if width = 0 then (rows.map List.length).foldl max 0 else width) = w at h
  by_cases hw : w = 0
  · rw [if_pos hw] at h; simp at h
  rw [if_neg hw] at h
  by_cases hm : (s :: rest) ≠ [] ∧ (s :: rest).length ≠ rows.length
  · rw [if_pos hm] at h; simp at h
  rw [if_neg hm, if_neg (by simp), if_neg (by simp)] at h
  simp only [Out.ok.injEq] at h
  subst h
  simp only [chooseFrom, sub_zero, chooseFrom_some]

/-- Time stamps at 64 and a moment later, however close: the chosen resolution works with intervals of
length 16, so it does not tell the time stamps apart. -/
theorem C96_resolution_refuted (ε : ℚ) (hε : 0 < ε) (v w : ℚ) :
    ∃ f, fromIncrements [[v], [w]] (.given [64, 64 + ε]) none 1 = .ok f ∧
      (2 : ℚ) ^ (-f.resolution) = 16 := by
  obtain ⟨f, hf, -⟩ := C96_given [[v], [w]] [64, 64 + ε] none 1 (by simp) (by simp) (.inl (by simp))
  refine ⟨f, hf, ?_⟩
  have := C96_resolution _ _ _ _ _ hf
  have hmin : [64 + ε].foldl min 64 = 64 := by
    simp only [List.foldl_cons, List.foldl_nil]
    exact min_eq_left (by linarith)
  rw [hmin] at this
  have h64 : resolutionOf 64 = -5 := by decide +kernel
  rw [this, h64]
  norm_num

/-- Without time stamps a given resolution is dropped. -/
theorem C96_resolution_dropped (rows : List (List ℚ)) (r : ℤ) (width : ℕ) (f : Front)
    (h : fromIncrements rows .absent (some r) width = .ok f) : f.resolution = 0 := by
  unfold fromIncrements at h
  simp only [readStamps, Out.bind, ne_eq, not_true, false_and, if_false, if_true] at h
  generalize (if width = 0 then (rows.map List.length).foldl max 0 else width) = w at h
  by_cases hw : w = 0
  · rw [if_pos hw] at h; simp at h
  rw [if_neg hw] at h
  split at h <;> simp only [Out.ok.injEq] at h <;> subst h <;> rfl

example : fromIncrements [[1], [2]] .absent (some 10) 1 = .ok ⟨[0, 1], 0, 0, 2, 1⟩ := by
  decide +kernel

end RoughPy.Args
