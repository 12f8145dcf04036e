import Verif.Sparse.RunLemmas

set_option linter.unusedSectionVars false

/-!
# C29: sparse matrices are assembled and applied faithfully

Vocabulary: `Spec.lean` (`Op`, `run`, `added`, `total`, `Stores`).
-/

namespace RoughPy.Sparse

open RoughPy.Tensor (Buf)

/-- C29, assembly.  For every sequence of calls that starts with a frame and has the announced number of frames, the
builder succeeds and the matrix stores exactly the sums of the values that were added: in every frame the non-zero
sums, each once, in increasing order of the indices.  The last hypothesis says that for every frame to which something
other than zero was added there is a non-zero sum in that frame or an earlier one.  Missing for the full claim: the
sequences without it (`C29_cancelled_frame_reads_outside`) and the estimate 0 (`C29_estimate_zero_writes_outside`). -/
theorem C29_assembly_partial {K : Type} [AddCommMonoid K] [DecidableEq K] {rows cols : ℕ} {nnzEst : ℤ} {csc : Bool}
    (hn : nnzEst ≠ 0) {ops : List (Op K)} (hfirst : ops.head? = some .frame)
    (hcount : frames ops = if csc then cols else rows)
    (hz : ∀ f, (∃ i v, v ≠ 0 ∧ v ∈ added f i 0 ops) → ∃ f' i, f' ≤ f ∧ total ops f' i ≠ 0) :
    ∃ h m, run (init rows cols nnzEst csc) ops = some h ∧ build h = some m ∧
      Stores m (if csc then cols else rows) (total ops) ∧ m.rows = rows ∧ m.cols = cols ∧ m.csc = csc := by
  cases ops with
  | nil => cases hfirst
  | cons o q =>
    simp only [List.head?_cons, Option.some.injEq] at hfirst
    subst hfirst
    exact run_build hn hcount hz

/-- Two columns; values that meet, cancel and arrive out of order; an array that has to grow. -/
def exampleOps : List (Op ℤ) :=
  [.frame, .add 2 5, .add 0 1, .add 2 1, .frame, .add 1 3, .add 0 7, .add 1 (-3), .add 2 0]

example : ((run (init 3 2 1 true) exampleOps).bind build).map (fun m => (m.entries, m.indptr)) =
    some ([(0, 1), (2, 6), (0, 7)], [0, 2, 3]) := by decide +kernel

example : total exampleOps 0 2 = 6 ∧ total exampleOps 1 1 = 0 ∧ total exampleOps 1 0 = 7 := by decide +kernel

/-- If everything in the first frame cancels, the removal of zeros reads the entry before the arrays. -/
theorem C29_cancelled_frame_reads_outside :
    run (init 3 2 4 true) [.frame, .add 0 (1 : ℤ), .add 0 (-1), .frame] = none ∧
    (run (init 3 2 4 true) [.frame, .add 0 (1 : ℤ), .add 0 (-1)]).isSome := by decide +kernel

/-- With the estimate 0 doubling the arrays does not help: the first value is written outside. -/
theorem C29_estimate_zero_writes_outside :
    run (init 3 2 0 true) [.frame, .add 0 (1 : ℤ)] = none ∧
    (run (K := ℤ) (init 3 2 0 true) [.frame]).isSome := by decide +kernel

variable {K : Type} [CommRing K] [DecidableEq K]

/-- C29, application of a compressed-column matrix with columns `M j`: `out += op(M · arg)`. -/
theorem C29_apply_columns {m : Matrix K} {M : ℕ → ℕ → K} (hs : Stores m m.cols M) (hf : m.csc = true) {op : K → K}
    (h0 : op 0 = 0) {out arg : Buf K} (hout : ∀ j i, j < m.cols → M j i ≠ 0 → i < out.size) (harg : m.cols ≤ arg.size) :
    ∃ r, apply m op out arg = some r ∧ r.size = out.size ∧
      ∀ i, r.get i = out.get i + ∑ j ∈ Finset.range m.cols, op (M j i * arg.get j) :=
  apply_csc hs hf h0 hout harg

/-- C29, application of a compressed-row matrix with rows `M i`: `out += op(M · arg)`. -/
theorem C29_apply_rows {m : Matrix K} {M : ℕ → ℕ → K} (hs : Stores m m.rows M) (hf : m.csc = false) {op : K → K}
    (h0 : op 0 = 0) {out arg : Buf K} (hout : out.size = m.rows) (harg : ∀ i j, i < m.rows → M i j ≠ 0 → j < arg.size) :
    ∃ r, apply m op out arg = some r ∧ r.size = out.size ∧
      ∀ i, i < m.rows → r.get i = out.get i + ∑ j ∈ Finset.range arg.size, op (M i j * arg.get j) := by
  obtain ⟨r, h1, h2, h3⟩ := apply_csr (out := out) hs hf h0 (by omega) harg
  exact ⟨r, h1, h2, fun i hi => by rw [h3, if_pos hi]⟩

/-- C29.  The same matrix in both formats gives the same vector. -/
theorem C29_formats_agree {a b : Matrix K} {M : ℕ → ℕ → K} (ha : Stores a a.cols fun j i => M i j) (hb : Stores b b.rows M)
    (hac : a.csc = true) (hbc : b.csc = false) (hcols : a.cols = b.cols)
    (hM : ∀ i j, M i j ≠ 0 → i < b.rows ∧ j < b.cols) {op : K → K} (h0 : op 0 = 0) {out arg : Buf K}
    (hout : out.size = b.rows) (harg : arg.size = b.cols) :
    ∃ r s, apply a op out arg = some r ∧ apply b op out arg = some s ∧ ∀ i, i < out.size → r.get i = s.get i := by
  obtain ⟨r, r1, -, r3⟩ := apply_csc ha hac h0 (out := out) (arg := arg) (fun j i _ h => by rw [hout]; exact (hM i j h).1)
    (by omega)
  obtain ⟨s, s1, -, s3⟩ := apply_csr hb hbc h0 (out := out) (arg := arg) (by omega) (fun i j _ h => by
    rw [harg]; exact (hM i j h).2)
  exact ⟨r, s, r1, s1, fun i hi => by rw [r3, s3, if_pos (by omega), harg, hcols]⟩

/-- C29.  From the calls to the product: assemble by columns, then apply through the checked entry point. -/
theorem C29_assemble_apply {rows cols : ℕ} {nnzEst : ℤ} (hn : nnzEst ≠ 0) {ops : List (Op K)}
    (hfirst : ops.head? = some .frame) (hcount : frames ops = cols)
    (hz : ∀ f, (∃ i v, v ≠ 0 ∧ v ∈ added f i 0 ops) → ∃ f' i, f' ≤ f ∧ total ops f' i ≠ 0)
    (hrows : ∀ j i, total ops j i ≠ 0 → i < rows) (hne : rows ≠ cols) {op : K → K} (h0 : op 0 = 0) {out arg : Buf K}
    (hout : out.size = rows) (harg : arg.size = cols) :
    ∃ h m r, run (init rows cols nnzEst true) ops = some h ∧ build h = some m ∧ applyChecked m op out arg = some r ∧
      ∀ i, i < rows → r.get i = out.get i + ∑ j ∈ Finset.range cols, op (total ops j i * arg.get j) := by
  obtain ⟨h, m, h1, h2, h3, h4, h5, h6⟩ := C29_assembly_partial (csc := true) (rows := rows) (cols := cols) hn hfirst hcount hz
  simp only [if_true] at h3
  rw [← h5] at h3
  obtain ⟨r, r1, -, r3⟩ := apply_csc h3 h6 h0 (out := out) (arg := arg) (fun j i _ h => by rw [hout]; exact hrows j i h)
    (by omega)
  refine ⟨h, m, r, h1, h2, ?_, fun i _ => by rw [r3, h5]⟩
  have hl := h3.offsets
  unfold applyChecked chooseFormat
  rw [if_neg (by omega), if_neg (by omega), if_neg (by omega), if_neg (by omega), if_pos hl]
  simp only [Option.bind_eq_bind, Option.bind_some]
  have : ({ m with csc := true } : Matrix K) = m := by rw [← h6]
  rw [this]
  exact r1

/-- C29.  From the calls to the product when assembled by rows. -/
theorem C29_assemble_apply_rows {rows cols : ℕ} {nnzEst : ℤ} (hn : nnzEst ≠ 0) {ops : List (Op K)}
    (hfirst : ops.head? = some .frame) (hcount : frames ops = rows)
    (hz : ∀ f, (∃ i v, v ≠ 0 ∧ v ∈ added f i 0 ops) → ∃ f' i, f' ≤ f ∧ total ops f' i ≠ 0)
    (hcols : ∀ i j, total ops i j ≠ 0 → j < cols) (hne : rows ≠ cols) {op : K → K} (h0 : op 0 = 0) {out arg : Buf K}
    (hout : out.size = rows) (harg : arg.size = cols) :
    ∃ h m r, run (init rows cols nnzEst false) ops = some h ∧ build h = some m ∧ applyChecked m op out arg = some r ∧
      ∀ i, i < rows → r.get i = out.get i + ∑ j ∈ Finset.range cols, op (total ops i j * arg.get j) := by
  obtain ⟨h, m, h1, h2, h3, h4, h5, h6⟩ := C29_assembly_partial (csc := false) (rows := rows) (cols := cols) hn hfirst hcount hz
  rw [if_neg (by decide), ← h4] at h3
  obtain ⟨r, r1, -, r3⟩ := apply_csr h3 h6 h0 (out := out) (arg := arg) (by omega) (fun i j _ h => by
    rw [harg]; exact hcols i j h)
  refine ⟨h, m, r, h1, h2, ?_, fun i hi => by rw [r3, if_pos (by omega), harg]⟩
  have hl := h3.offsets
  unfold applyChecked chooseFormat
  rw [if_neg (by omega), if_neg (by omega), if_neg (by omega), if_pos hl]
  simp only [Option.bind_eq_bind, Option.bind_some]
  have : ({ m with csc := false } : Matrix K) = m := by rw [← h6]
  rw [this]
  exact r1

example : (((run (init 2 3 1 false) exampleOps).bind build).bind fun m =>
    applyChecked m (fun x => 2 * x) (Buf.ofList [100, 0]) (Buf.ofList [10, 1, 3])).map Buf.toList = some [156, 140] := by
  decide +kernel

/-- C29, refuted for square matrices: the entry points reject every one of them, whatever its format. -/
theorem C29_square_rejected (m : Matrix K) (h : m.rows = m.cols) (op : K → K) (out arg : Buf K) :
    applyChecked m op out arg = none := by
  have : chooseFormat m out.size arg.size = none := by
    unfold chooseFormat
    by_cases h1 : m.rows ≠ out.size
    · rw [if_pos h1]
    · rw [if_neg h1]
      by_cases h2 : m.cols ≠ arg.size
      · rw [if_pos h2]
      · rw [if_neg h2, if_pos h]
  unfold applyChecked
  rw [this]
  rfl

example : (((run (init 3 2 1 true) exampleOps).bind build).bind fun m =>
    applyChecked m (fun x => 2 * x) (Buf.ofList [100, 0, 0]) (Buf.ofList [10, 1])).map Buf.toList = some [134, 0, 120] := by
  decide +kernel

end RoughPy.Sparse
