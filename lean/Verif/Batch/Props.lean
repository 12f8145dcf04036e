import Verif.Batch.Loop
import Verif.Tensor.Props

/-!
# C148: the compute functions act on every tensor of a batch
-/

namespace RoughPy.Batch

open RoughPy.Tensor RoughPy.Tensor.Series

section ring
variable {K : Type} [CommRing K]

/-- one row of an array in memory -/
def rowOf (m : Mem K) (w D : ℕ) (idx : List ℕ) (a : Arr) : Buf K :=
  ⟨wordsBelow w (D + 1), fun i => (m (elementAddr a (idx ++ [i]))).getD 0⟩

/-- What is asked of the places of the operands: the rows are contiguous, the elements of the output are
in different places, and not where those of the others are. -/
structure Separate (o : Arr) (args : List Arr) (size : ℕ) (lead : List ℕ) (L : ℕ) : Prop where
  contiguous : ∀ a ∈ o :: args, ContiguousRows a size
  noOverlap : NoOverlap o lead L
  apart : ∀ a ∈ args, Apart a o lead L L

theorem HoldsTensors.represents {m : Mem K} {a : Arr} {dt : DType} {lead : List ℕ} {w D : ℕ}
    {f : List ℕ → Series (Fin w) K} (h : HoldsTensors m a dt lead w D f) {idx : List ℕ}
    (hi : InShape idx lead) : (⟨rowOf m w D idx a, w, D⟩ : DenseTensor K).Represents w D (f idx) := by
  refine ⟨rfl, rfl, rfl, fun u hu => ?_⟩
  show (m (elementAddr a (idx ++ [wordIndex u]))).getD 0 = _
  rw [h.coeff idx hi u hu]; rfl

theorem HoldsTensors.good {m : Mem K} {a : Arr} {dt : DType} {lead : List ℕ} {w D size : ℕ}
    {f : List ℕ → Series (Fin w) K} (h : HoldsTensors m a dt lead w D f) (hc : ContiguousRows a size) :
    (⟨a, wordsBelow w (D + 1), fun idx => (rowOf m w D idx a).get⟩ : Operand K).Good m dt lead size := by
  refine ⟨h.isBatch, hc, fun idx hi i hi' => ?_⟩
  obtain ⟨u, hu, rfl⟩ := exists_wordIndex hi'
  show _ = some ((m (elementAddr a (idx ++ [wordIndex u]))).getD 0)
  rw [h.coeff idx hi u hu]; rfl

/-- a kernel on a batch, from the kernel on one row -/
theorem returns_sim {size : ℕ} {dt : DType} (hdt : dt.size? = some size) {lead : List ℕ} {w D : ℕ}
    {m : Mem K} {o : Arr} {args : List Arr} (hsep : Separate o args size lead (wordsBelow w (D + 1)))
    {f0 : List ℕ → Series (Fin w) K} (ho : HoldsTensors m o dt lead w D f0)
    (ha : ∀ a ∈ args, ∃ f, HoldsTensors m a dt lead w D f) (p : Prog K Unit)
    (f : List ℕ → Series (Fin w) K)
    (hres : ∀ idx, InShape idx lead → ∃ b : Buf K,
      p.eff (args.map (rowOf m w D idx)) (rowOf m w D idx o) = some b ∧
      ∀ u : List (Fin w), u.length ≤ D → b.get (wordIndex u) = f idx u) :
    Returns (functionOuter (some p) (.array o) (args.map Obj.array) m) m o dt lead w D f := by
  classical
  let opd : Arr → Operand K := fun a =>
    ⟨a, wordsBelow w (D + 1), fun idx => (rowOf m w D idx a).get⟩
  have hres' : ∀ idx, ∃ b : Buf K, InShape idx lead →
      p.eff (args.map (rowOf m w D idx)) (rowOf m w D idx o) = some b ∧
      ∀ u : List (Fin w), u.length ≤ D → b.get (wordIndex u) = f idx u := by
    intro idx
    by_cases hi : InShape idx lead
    · obtain ⟨b, hb⟩ := hres idx hi
      exact ⟨b, fun _ => hb⟩
    · exact ⟨rowOf m w D idx o, fun h => absurd h hi⟩
  choose res hres' using hres'
  obtain ⟨m', e, r1, r2⟩ := functionOuter_sim hdt (o := opd o) (args := args.map opd)
    (ho.good (hsep.contiguous o (by simp))) (by
      intro a hmem
      obtain ⟨c, hc, rfl⟩ := List.mem_map.1 hmem
      obtain ⟨g, hg⟩ := ha c hc
      exact hg.good (hsep.contiguous c (by simp [hc]))) (by
      intro a hmem
      obtain ⟨c, hc, rfl⟩ := List.mem_map.1 hmem
      exact hsep.apart c hc) hsep.noOverlap p res (by
      intro idx hi
      rw [List.map_map]
      exact (hres' idx hi).1)
  rw [List.map_map] at e
  refine ⟨m', e, ⟨ho.isBatch, fun idx hi u hu => ?_⟩, r2⟩
  rw [r1 idx hi _ (wordIndex_lt hu)]
  exact congrArg some ((hres' idx hi).2 u hu)

theorem finish_map {α β : Type} {x : Option α} {f : α → β} {r : β}
    (h : (finish x).map f = .ok r) : ∃ d, x = some d ∧ f d = r := by
  cases x with
  | none => cases h
  | some d => exact ⟨d, rfl, by cases h; rfl⟩

theorem ElementSize.size?_eq {dt : DType} {size : ℕ} (h : ElementSize dt size) :
    dt.size? = some size := by
  cases h <;> rfl

variable {size : ℕ} {dt : DType} {lead : List ℕ} {w D : ℕ} {m : Mem K} {a b c r : Arr}
  {e f g : List ℕ → Series (Fin w) K}

/-- `ft_fma(a, b, c)` (`roughpy/compute/__init__.py:128-145`) adds to every tensor of `a` the product of
those of `b` and `c` at the same index, whatever the shape of the batch, and changes nothing else.  The
rows have to be contiguous and `a` has to be apart from `b` and `c`. -/
theorem C148_ft_fma_partial (hdt : ElementSize dt size)
    (hs : Separate a [b, c] size lead (wordsBelow w (D + 1)))
    (ha : HoldsTensors m a dt lead w D e) (hb : HoldsTensors m b dt lead w D f)
    (hc : HoldsTensors m c dt lead w D g) :
    Returns (npFtFma (.array a) (.array b) (.array c) w D D (-1) (-1) m) m a dt lead w D
      (fun idx => e idx + f idx * g idx) := by
  have hk : npFtFma (.array a) (.array b) (.array c) w D D (-1) (-1) m =
      functionOuter (some (ftFmaProg id (argView w D D) (argView w D D) (argView w D D))) (.array a)
        ([b, c].map Obj.array) m := by
    unfold npFtFma
    rw [resolveDegree_default, resolveDegree_nat, Nat.min_self]; rfl
  rw [hk]
  refine returns_sim hdt.size?_eq hs ha (by simpa using ⟨⟨f, hb⟩, ⟨g, hc⟩⟩) _ _ fun idx hi => ?_
  obtain ⟨r, h1, h2⟩ := C13_ft_fma (ha.represents hi) (hb.represents hi) (hc.represents hi)
  unfold pyFtFma at h1
  rw [checked_ok (by simp), denseFtFma, resolveDegree_default, resolveDegree_nat, Nat.min_self] at h1
  obtain ⟨d, hd, rfl⟩ := finish_map h1
  exact ⟨d, (ftFma_eff _ _ _ _ _ _ _).trans hd, h2.coeff⟩

/-- `ft_mul(a, b)` (`__init__.py:148-165`) multiplies the tensors at every index; `r` is the array of
zeros that `np.zeros_like` returns, wherever it is. -/
theorem C148_ft_mul_partial (hdt : ElementSize dt size)
    (hs : Separate r [a, b] size lead (wordsBelow w (D + 1)))
    (hr : HoldsTensors m r dt lead w D fun _ => 0)
    (ha : HoldsTensors m a dt lead w D e) (hb : HoldsTensors m b dt lead w D f) :
    Returns (npFtFma (.array r) (.array a) (.array b) w D (-1) (-1) D m) m r dt lead w D
      (fun idx => e idx * f idx) := by
  have hk : npFtFma (.array r) (.array a) (.array b) w D (-1) (-1) D m =
      npFtFma (.array r) (.array a) (.array b) w D D (-1) (-1) m := by
    unfold npFtFma
    rw [resolveDegree_default, resolveDegree_nat, Nat.min_self]
  rw [hk]
  obtain ⟨m', h1, h2, h3⟩ := C148_ft_fma_partial hdt hs hr ha hb
  exact ⟨m', h1, ⟨h2.isBatch, fun idx hi u hu => by rw [h2.coeff idx hi u hu]; simp⟩, h3⟩

/-- `ft_inplace_mul(a, b)` (`__init__.py:168-184`) multiplies every tensor of `a` by the one of `b`. -/
theorem C148_ft_inplace_mul_partial (hdt : ElementSize dt size)
    (hs : Separate a [b] size lead (wordsBelow w (D + 1)))
    (ha : HoldsTensors m a dt lead w D e) (hb : HoldsTensors m b dt lead w D f) :
    Returns (npFtInplaceMul (.array a) (.array b) w D D (-1) m) m a dt lead w D
      (fun idx => e idx * f idx) := by
  have hk : npFtInplaceMul (.array a) (.array b) w D D (-1) m =
      functionOuter (some (ftInplaceMulProg id (argView w D D) (argView w D D) 1)) (.array a)
        ([b].map Obj.array) m := by
    unfold npFtInplaceMul
    rw [resolveDegree_default, resolveDegree_nat, Nat.min_self]; rfl
  rw [hk]
  refine returns_sim hdt.size?_eq hs ha (by simpa using ⟨f, hb⟩) _ _ fun idx hi => ?_
  obtain ⟨r, h1, h2⟩ := pyFtInplaceMul_rep (ha.represents hi) (hb.represents hi) le_rfl
  unfold pyFtInplaceMul at h1
  rw [checked_ok (by simp), denseFtInplaceMul, resolveDegree_default, resolveDegree_nat,
    Nat.min_self] at h1
  obtain ⟨d, hd, rfl⟩ := finish_map h1
  exact ⟨d, (ftInplaceMul_eff _ _ _ _ rfl).trans hd, h2.coeff⟩

/-- `antipode(a)` (`__init__.py:187-200`) takes the antipode of every tensor, if the depth is at least 1;
`r` is the array of zeros for the result. -/
theorem C148_antipode_partial (hdt : ElementSize dt size) (hD : 1 ≤ D)
    (hs : Separate r [a] size lead (wordsBelow w (D + 1)))
    (hr : HoldsTensors m r dt lead w D fun _ => 0) (ha : HoldsTensors m a dt lead w D e) :
    Returns (npFtAntipode (.array r) (.array a) w D m) m r dt lead w D (fun idx => antipode (e idx)) := by
  have hk : npFtAntipode (.array r) (.array a) w D m =
      functionOuter (some (ftAntipodeProg (argView w D D) (argView w D D))) (.array r)
        ([a].map Obj.array) m := by
    unfold npFtAntipode
    rw [resolveDegree_default]; rfl
  rw [hk]
  refine returns_sim hdt.size?_eq hs hr (by simpa using ⟨e, ha⟩) _ _ fun idx hi => ?_
  obtain ⟨out', h1, h2, h3, -⟩ := ftAntipode_word (vo := argView w D D) (va := argView w D D)
    (out := rowOf m w D idx r) (arg := rowOf m w D idx a) rfl
    (argView_valid le_rfl le_rfl) (argView_valid le_rfl le_rfl)
    (fun _ => by simpa [argView] using hD)
  refine ⟨out', (ftAntipode_eff _ _ _ _).trans h1, fun u hu => ?_⟩
  refine (h3 u (Nat.zero_le _) (by simpa [argView] using hu)).trans ?_
  exact congrArg _ ((ha.represents hi).coeff u.reverse (by rw [List.length_reverse]; exact hu))

/-- `st_fma(a, b, c)` (`__init__.py:203-216`) adds to every tensor of `a` the shuffle product. -/
theorem C148_st_fma_partial (hdt : ElementSize dt size)
    (hs : Separate a [b, c] size lead (wordsBelow w (D + 1)))
    (ha : HoldsTensors m a dt lead w D e) (hb : HoldsTensors m b dt lead w D f)
    (hc : HoldsTensors m c dt lead w D g) :
    Returns (npStFma (.array a) (.array b) (.array c) w D m) m a dt lead w D
      (fun idx => e idx + shuffle (f idx) (g idx)) := by
  have hk : npStFma (.array a) (.array b) (.array c) w D m =
      functionOuter (some (stFmaProg id (argView w D D) (argView w D D) (argView w D D))) (.array a)
        ([b, c].map Obj.array) m := by
    unfold npStFma
    rw [resolveDegree_default]; rfl
  rw [hk]
  refine returns_sim hdt.size?_eq hs ha (by simpa using ⟨⟨f, hb⟩, ⟨g, hc⟩⟩) _ _ fun idx hi => ?_
  obtain ⟨r, h1, h2⟩ := C19_st_fma (ha.represents hi) (hb.represents hi) (hc.represents hi)
  unfold pyStFma at h1
  rw [checked_ok (by simp), denseStFma, resolveDegree_default] at h1
  obtain ⟨d, hd, rfl⟩ := finish_map h1
  exact ⟨d, (stFma_eff _ _ _ _ _ _ _).trans hd, h2.coeff⟩

/-- `ft_adjoint_left_mul(a, b)` (`__init__.py:315-340`) applies the adjoint of the left multiplication by
the tensor of `a` to the one of `b` at every index. -/
theorem C148_adjoint_partial (hdt : ElementSize dt size)
    (hs : Separate r [a, b] size lead (wordsBelow w (D + 1)))
    (hr : HoldsTensors m r dt lead w D fun _ => 0)
    (ha : HoldsTensors m a dt lead w D e) (hb : HoldsTensors m b dt lead w D f) :
    ∃ ρ : List ℕ → Series (Fin w) K,
      Returns (npFtAdjLmul (.array r) (.array a) (.array b) w D D D D m) m r dt lead w D ρ ∧
      ∀ idx, InShape idx lead → ∀ x : Series (Fin w) K,
        pairing D (ρ idx) x = pairing D (f idx) (e idx * x) := by
  have hk : npFtAdjLmul (.array r) (.array a) (.array b) w D D D D m =
      functionOuter (some (ftAdjLmulProg (argView w D D) (argView w D D) (argView w D D))) (.array r)
        ([a, b].map Obj.array) m := by
    unfold npFtAdjLmul
    rw [resolveDegree_nat, Nat.min_self]; rfl
  rw [hk]
  refine ⟨fun idx => leftAdjoint D (e idx) (f idx), returns_sim hdt.size?_eq hs hr
    (by simpa using ⟨⟨e, ha⟩, ⟨f, hb⟩⟩) _ _ fun idx hi => ?_,
    fun idx _ x => pairing_adjoint D (e idx) (f idx) x⟩
  obtain ⟨out', h1, h2, h3⟩ := ftAdjLmul_word (vo := argView w D D)
    (vp := argView w D D) (va := argView w D D) (out := rowOf m w D idx r)
    (op := rowOf m w D idx a) (arg := rowOf m w D idx b) rfl rfl
    (argView_valid le_rfl le_rfl) (argView_valid le_rfl le_rfl)
    (argView_valid le_rfl le_rfl) rfl rfl rfl
  refine ⟨out', (ftAdjLmul_eff _ _ _ _ _ _).trans h1, fun u hu => ?_⟩
  refine (h3 u).trans ?_
  have e0 : (rowOf m w D idx r).get (wordIndex u) = 0 := (hr.represents hi).coeff u hu
  have e1 : min (argView w D D).maxDeg (argView w D D).maxDeg = D := min_self _
  show (rowOf m w D idx r).get (wordIndex u) + _ = _
  rw [e0, zero_add, e1]
  unfold leftAdjoint
  refine Finset.sum_congr rfl fun n hn => sumWords_congr fun (v : List (Fin w)) hv => ?_
  rw [Finset.mem_range] at hn
  have hv' : v.length = n := hv
  have hn' : n < D + 1 - u.length := hn
  clear hv hn
  show (argView w D D).series w (rowOf m w D idx a) v *
    (argView w D D).series w (rowOf m w D idx b) (v ++ u) = _
  rw [argView_series, argView_series]
  unfold trunc
  rw [if_pos (by omega), if_pos (by rw [List.length_append]; omega)]
  congr 1
  · exact (ha.represents hi).coeff v (by omega)
  · exact (hb.represents hi).coeff (v ++ u) (by rw [List.length_append]; omega)

/-! ### What is checked -/

/-- the operands that can be used with an output -/
def Fits (o : Arr) (x : Obj) : Prop :=
  ∃ a, x = .array a ∧ a.dtype = o.dtype ∧ a.shape.length = o.shape.length ∧
    a.shape.dropLast = o.shape.dropLast

theorem checkArgs_fits {o : Arr} : ∀ {args : List Obj} {k : List Arr → Res K} {m : Mem K},
    checkArgs o k args = .ok m → ∀ x ∈ args, Fits o x
  | [], _, _, _, _, hx => by cases hx
  | .other :: _, _, _, h, _, _ => by cases h
  | .array a :: args, k, m, h, x, hx => by
    unfold checkArgs at h
    split at h
    · cases h
    · rename_i hd
      split at h
      · cases h
      · rename_i hc
        rcases List.mem_cons.1 hx with rfl | hx
        · simp only [checkDims, Bool.not_eq_true', Bool.not_eq_false, Bool.and_eq_true,
            beq_iff_eq] at hc
          exact ⟨a, rfl, not_not.1 hd, hc.1, hc.2⟩
        · exact checkArgs_fits h x hx

/-- A call returns only if the output is an array of `float32` or `float64` with at least one dimension
and every operand is an array of the same scalars with the same number of dimensions and the same shape
of the batch.  Nothing is known of the last dimension, which ought to hold a tensor: see
`C148_short_rows_refuted`. -/
theorem C148_accepts_partial {p : Option (Prog K Unit)} {out : Obj} {args : List Obj} {m m' : Mem K}
    (h : functionOuter p out args m = .ok m') :
    ∃ o, out = .array o ∧ 1 ≤ o.shape.length ∧ (o.dtype = .float32 ∨ o.dtype = .float64) ∧
      ∀ x ∈ args, Fits o x := by
  unfold functionOuter at h
  split at h
  · cases h
  · cases h
  · rename_i p o
    split at h
    · cases h
    · rename_i hl
      refine ⟨o, rfl, by omega, ?_, checkArgs_fits h⟩
      have : ∀ (l : List Obj) (f : List Arr → Res K), (∀ as, f as = .typeError) →
          checkArgs o f l ≠ .ok m' := by
        intro l
        induction l with
        | nil => intro f hf; unfold checkArgs; rw [hf]; intro h; cases h
        | cons x l ih =>
          intro f hf
          cases x with
          | other => unfold checkArgs; intro h; cases h
          | array a =>
            unfold checkArgs
            split
            · intro h; cases h
            · split
              · intro h; cases h
              · exact ih _ fun as => hf _
      cases hd : o.dtype with
      | float32 => exact Or.inl rfl
      | float64 => exact Or.inr rfl
      | other n =>
        rw [hd] at h
        exact absurd h (this _ _ fun _ => rfl)

/-- An output that is not an array is a `TypeError`; one without dimensions a `ValueError`. -/
theorem C148_bad_output_partial (p : Prog K Unit) (args : List Obj) (m : Mem K) :
    functionOuter (some p) .other args m = .typeError ∧
    ∀ o : Arr, o.shape = [] → functionOuter (some p) (.array o) args m = .valueError :=
  ⟨rfl, fun o ho => by
    have : o.shape.length < 1 := by rw [ho]; decide
    simp only [functionOuter, if_pos this]⟩

/-- The first operand that does not fit decides the error: a `TypeError` if it is no array or one of
other scalars, a `ValueError` if its batch has another shape.  The memory is untouched, as with every
error. -/
theorem C148_bad_operand_partial (p : Prog K Unit) {o : Arr} (ho : 1 ≤ o.shape.length)
    {pre post : List Obj} (hpre : ∀ x ∈ pre, Fits o x) (m : Mem K) :
    functionOuter (some p) (.array o) (pre ++ .other :: post) m = .typeError ∧
    (∀ a : Arr, a.dtype ≠ o.dtype →
      functionOuter (some p) (.array o) (pre ++ .array a :: post) m = .typeError) ∧
    (∀ a : Arr, a.dtype = o.dtype → (a.shape.length ≠ o.shape.length ∨
      a.shape.dropLast ≠ o.shape.dropLast) →
      functionOuter (some p) (.array o) (pre ++ .array a :: post) m = .valueError) := by
  have key : ∀ (pre : List Obj) (_ : ∀ x ∈ pre, Fits o x) (k : List Arr → Res K) (x : Obj) (r : Res K)
      (_ : ∀ k : List Arr → Res K, checkArgs o k (x :: post) = r),
      checkArgs o k (pre ++ x :: post) = r := by
    intro pre
    induction pre with
    | nil => intro _ k x r h; exact h k
    | cons y pre ih =>
      intro hp k x r h
      obtain ⟨a, rfl, h1, h2, h3⟩ := hp y (by simp)
      rw [List.cons_append]
      unfold checkArgs
      rw [if_neg (by simpa using h1), if_neg (by simp [checkDims, h2, h3])]
      exact ih (fun z hz => hp z (by simp [hz])) _ x r h
  have top : ∀ (x : Obj) (r : Res K), (∀ k : List Arr → Res K, checkArgs o k (x :: post) = r) →
      functionOuter (some p) (.array o) (pre ++ x :: post) m = r := by
    intro x r h
    have hl : ¬ o.shape.length < 1 := by omega
    simp only [functionOuter, if_neg hl]
    exact key pre hpre _ x r h
  refine ⟨top _ _ fun k => rfl, fun a ha => top _ _ fun k => ?_, fun a ha hs => top _ _ fun k => ?_⟩
  · unfold checkArgs; rw [if_pos ha]
  · unfold checkArgs
    rw [if_neg (by simpa using ha), if_pos]
    simp only [checkDims, Bool.not_eq_true', Bool.and_eq_false_iff, beq_eq_false_iff_ne]
    exact hs

end ring

section field
variable {K : Type} [Field K] [CharZero K] {size : ℕ} {dt : DType} {lead : List ℕ} {w D : ℕ} {m : Mem K}
  {a b r : Arr} {e f : List ℕ → Series (Fin w) K}

/-- `ft_exp(a)` (`__init__.py:235-258`) takes the exponential of every tensor; `r` is the array of zeros
for the result. -/
theorem C148_ft_exp_partial (hdt : ElementSize dt size)
    (hs : Separate r [a] size lead (wordsBelow w (D + 1)))
    (hr : HoldsTensors m r dt lead w D fun _ => 0) (ha : HoldsTensors m a dt lead w D e) :
    Returns (npFtExp (.array r) (.array a) w D m) m r dt lead w D
      (fun idx => texp (noScalar (e idx))) := by
  have hk : npFtExp (.array r) (.array a) w D m =
      functionOuter (some (ftExpProg (argView w D D) (argView w D D))) (.array r)
        ([a].map Obj.array) m := by
    unfold npFtExp
    rw [resolveDegree_default]; rfl
  rw [hk]
  refine returns_sim hdt.size?_eq hs hr (by simpa using ⟨e, ha⟩) _ _ fun idx hi => ?_
  obtain ⟨out', h1, h2, h3⟩ := ftExp_word (vo := argView w D D) (va := argView w D D)
    (out := rowOf m w D idx r) (arg := rowOf m w D idx a) rfl
    (argView_valid le_rfl le_rfl) (argView_valid le_rfl le_rfl) rfl
  exact ⟨out', (ftExp_eff _ _ _ _).trans h1, (EqUpTo.trans h3
    (EqUpTo.texp (argView_eqUpTo_positive (ha.represents hi) le_rfl)))⟩

/-- `ft_log(a)` (`__init__.py:261-284`) takes the logarithm of every tensor. -/
theorem C148_ft_log_partial (hdt : ElementSize dt size)
    (hs : Separate r [a] size lead (wordsBelow w (D + 1)))
    (hr : HoldsTensors m r dt lead w D fun _ => 0) (ha : HoldsTensors m a dt lead w D e) :
    Returns (npFtLog (.array r) (.array a) w D m) m r dt lead w D
      (fun idx => tlog (1 + noScalar (e idx))) := by
  have hk : npFtLog (.array r) (.array a) w D m =
      functionOuter (some (ftLogProg (argView w D D) (argView w D D))) (.array r)
        ([a].map Obj.array) m := by
    unfold npFtLog
    rw [resolveDegree_default]; rfl
  rw [hk]
  refine returns_sim hdt.size?_eq hs hr (by simpa using ⟨e, ha⟩) _ _ fun idx hi => ?_
  obtain ⟨out', h1, h2, h3⟩ := ftLog_word (vo := argView w D D) (va := argView w D D)
    (out := rowOf m w D idx r) (arg := rowOf m w D idx a) rfl
    (argView_valid le_rfl le_rfl) (argView_valid le_rfl le_rfl) rfl (by
      have := (hr.represents hi).coeff [] (Nat.zero_le _)
      rw [wordIndex_nil] at this
      exact this)
  exact ⟨out', (ftLog_eff _ _ _ _).trans h1, EqUpTo.trans h3 (EqUpTo.tlog
    (EqUpTo.add (EqUpTo.refl _ _) (argView_eqUpTo_positive (ha.represents hi) le_rfl)))⟩

/-- `ft_fmexp(a, b)` (`__init__.py:287-312`) multiplies every tensor of `a` by the exponential of the one
of `b`. -/
theorem C148_ft_fmexp_partial (hdt : ElementSize dt size)
    (hs : Separate r [a, b] size lead (wordsBelow w (D + 1)))
    (hr : HoldsTensors m r dt lead w D fun _ => 0) (ha : HoldsTensors m a dt lead w D e)
    (hb : HoldsTensors m b dt lead w D f) :
    Returns (npFtFmexp (.array r) (.array a) (.array b) w D m) m r dt lead w D
      (fun idx => e idx * texp (noScalar (f idx))) := by
  have hk : npFtFmexp (.array r) (.array a) (.array b) w D m =
      functionOuter (some (ftFmexpProg (argView w D D) (argView w D D) (argView w D D))) (.array r)
        ([a, b].map Obj.array) m := by
    unfold npFtFmexp
    rw [resolveDegree_default]; rfl
  rw [hk]
  refine returns_sim hdt.size?_eq hs hr (by simpa using ⟨⟨e, ha⟩, ⟨f, hb⟩⟩) _ _ fun idx hi => ?_
  obtain ⟨out', h1, h2, h3⟩ := ftFmexp_word (vo := argView w D D) (vm := argView w D D)
    (vx := argView w D D) (out := rowOf m w D idx r) (mul := rowOf m w D idx a)
    (ex := rowOf m w D idx b) rfl rfl
    (argView_valid le_rfl le_rfl) (argView_valid le_rfl le_rfl) (argView_valid le_rfl le_rfl) rfl rfl
  exact ⟨out', (ftFmexp_eff _ _ _ _ _ _).trans h1, EqUpTo.trans h3
    (EqUpTo.mul (argView_eqUpTo (ha.represents hi) le_rfl)
      (EqUpTo.texp (argView_eqUpTo_positive (hb.represents hi) le_rfl)))⟩

end field

/-! ### A case that meets the hypotheses -/

/-- an array of shape 2 × 2 × 3, whose batch may be transposed, from the given address -/
def exampleArr (data : ℤ) (t : Bool) : Arr :=
  ⟨data, [2, 2, 3], if t then [24, 48, 8] else [48, 24, 8], .float64, true⟩

theorem inShape_two {idx : List ℕ} (h : InShape idx [2, 2]) : ∃ i j, i < 2 ∧ j < 2 ∧ idx = [i, j] := by
  cases h with
  | cons h1 h =>
    cases h with
    | cons h2 h => cases h; exact ⟨_, _, h1, h2, rfl⟩

theorem exampleArr_addr (data : ℤ) (t : Bool) (i j k : ℕ) :
    elementAddr (exampleArr data t) ([i, j] ++ [k]) =
      data + if t then 24 * i + 48 * j + 8 * k else 48 * i + 24 * j + 8 * k := by
  cases t <;> simp [elementAddr, exampleArr] <;> ring

/-- every address holds a number of its own -/
def exampleMem : Mem ℚ := fun x => some x

theorem exampleArr_holds (data : ℤ) (t : Bool) :
    HoldsTensors exampleMem (exampleArr data t) .float64 [2, 2] 2 1
      (fun idx u => (elementAddr (exampleArr data t) (idx ++ [wordIndex u]) : ℚ)) :=
  ⟨⟨rfl, by cases t <;> rfl, rfl⟩, fun _ _ _ _ => rfl⟩

theorem exampleArr_separate : Separate (exampleArr 0 false) [exampleArr 96 true, exampleArr 192 false] 8
    [2, 2] (wordsBelow 2 (1 + 1)) := by
  have hw : wordsBelow 2 (1 + 1) = 3 := by decide
  rw [hw]
  refine ⟨by intro a ha; fin_cases ha <;> rfl, ?_, ?_⟩
  · intro idx idx' k k' h h' hk hk' he
    obtain ⟨i, j, hi, hj, rfl⟩ := inShape_two h
    obtain ⟨i', j', hi', hj', rfl⟩ := inShape_two h'
    rw [exampleArr_addr, exampleArr_addr] at he
    simp only [Bool.false_eq_true, if_false] at he
    have : i = i' ∧ j = j' ∧ k = k' := by omega
    obtain ⟨rfl, rfl, rfl⟩ := this
    exact ⟨rfl, rfl⟩
  · intro a ha x hx hx'
    obtain ⟨idx, k, h, hk, rfl⟩ := hx
    obtain ⟨idx', k', h', hk', he⟩ := hx'
    obtain ⟨i, j, hi, hj, rfl⟩ := inShape_two h
    obtain ⟨i', j', hi', hj', rfl⟩ := inShape_two h'
    simp only [List.mem_cons, List.not_mem_nil, or_false] at ha
    rcases ha with rfl | rfl
    · rw [exampleArr_addr, exampleArr_addr] at he
      simp only [Bool.false_eq_true, if_false, if_true] at he
      omega
    · rw [exampleArr_addr, exampleArr_addr] at he
      simp only [Bool.false_eq_true, if_false] at he
      omega

example : ∃ f, Returns (npFtFma (.array (exampleArr 0 false)) (.array (exampleArr 96 true))
    (.array (exampleArr 192 false)) 2 1 1 (-1) (-1) exampleMem) exampleMem (exampleArr 0 false) .float64
    [2, 2] 2 1 f :=
  ⟨_, C148_ft_fma_partial .double exampleArr_separate (exampleArr_holds _ _) (exampleArr_holds _ _)
    (exampleArr_holds _ _)⟩

/-- the same with an output of zeros -/
def exampleMem0 : Mem ℚ := fun x => if x < 96 then some 0 else some x

theorem exampleArr_zero :
    HoldsTensors exampleMem0 (exampleArr 0 false) .float64 [2, 2] 2 1 (fun _ => 0) := by
  refine ⟨⟨by decide, by decide, rfl⟩, fun idx h u hu => ?_⟩
  obtain ⟨i, j, hi, hj, rfl⟩ := inShape_two h
  have hu' : wordIndex u < 3 := wordIndex_lt (D := 1) hu
  rw [exampleArr_addr]
  simp only [Bool.false_eq_true, if_false]
  unfold exampleMem0
  rw [if_pos (by omega)]; rfl

theorem exampleArr_holds0 (data : ℤ) (hd : 96 ≤ data) (t : Bool) :
    HoldsTensors exampleMem0 (exampleArr data t) .float64 [2, 2] 2 1
      (fun idx u => (elementAddr (exampleArr data t) (idx ++ [wordIndex u]) : ℚ)) := by
  refine ⟨⟨rfl, by cases t <;> rfl, rfl⟩, fun idx h u hu => ?_⟩
  obtain ⟨i, j, hi, hj, rfl⟩ := inShape_two h
  unfold exampleMem0
  rw [if_neg]
  rw [exampleArr_addr]
  cases t <;> simp <;> omega

example : ∃ f, Returns (npFtFmexp (.array (exampleArr 0 false)) (.array (exampleArr 96 true))
    (.array (exampleArr 192 false)) 2 1 exampleMem0) exampleMem0 (exampleArr 0 false) .float64
    [2, 2] 2 1 f :=
  ⟨_, C148_ft_fmexp_partial .double exampleArr_separate exampleArr_zero (exampleArr_holds0 _ (by decide) _)
    (exampleArr_holds0 _ (by decide) _)⟩

/-! ### What fails -/

/-- the memory with these numbers at these addresses -/
def memOf (l : List (ℤ × ℚ)) : Mem ℚ := fun x => l.lookup x

/-- what is at the addresses after a call that returned -/
def peek (r : Res ℚ) (xs : List ℤ) : Option (List (Option ℚ)) :=
  match r with
  | .ok m => some (xs.map m)
  | _ => none

/-- The output of a call with arrays of two `float64`: one letter, depth 1. -/
def one (data : ℤ) : Obj := .array ⟨data, [2], [8], .float64, true⟩

/-- Finding: an array whose last stride is not the size of a scalar, such as `x[::2]`, is read as if it
were contiguous.  Its elements are 1 and 3, at 64 and 80; with 7 between them.  `1 * (1 + 3e)` comes out
as `1 + 7e`. -/
theorem C148_strided_refuted :
    let rhs : Arr := ⟨64, [2], [16], .float64, true⟩
    let m := memOf [(0, 0), (8, 0), (32, 1), (40, 0), (64, 1), (72, 7), (80, 3)]
    m (elementAddr rhs [0]) = some 1 ∧ m (elementAddr rhs [1]) = some 3 ∧
    peek (npFtFma (one 0) (one 32) (.array rhs) 1 1 1 (-1) (-1) m) [0, 8] =
      some [some 1, some 7] := by
  decide +kernel

/-- Finding: the last dimension is not checked.  The output has the shape 2 × 1, but the tensors two
coefficients: the call returns, having written to the places 0 and 8 for the first tensor, then, on top of
that, 8 and 16, which is behind the array. -/
theorem C148_short_rows_refuted :
    let out : Arr := ⟨0, [2, 1], [8, 8], .float64, true⟩
    let arg (data : ℤ) : Obj := .array ⟨data, [2, 2], [16, 8], .float64, true⟩
    let m := memOf [(0, 0), (8, 0), (16, 5), (32, 1), (40, 1), (48, 1), (56, 1),
      (64, 1), (72, 0), (80, 1), (88, 0)]
    peek (npFtFma (.array out) (arg 32) (arg 64) 1 1 1 (-1) (-1) m) [0, 8, 16] =
      some [some 1, some 2, some 6] ∧
    ¬ Inside out [2] 1 16 := by
  refine ⟨by decide +kernel, ?_⟩
  rintro ⟨idx, i, hi, hl, he⟩
  cases hi with
  | cons h1 h =>
    cases h
    simp [elementAddr] at he
    omega

/-- Finding: an output that numpy calls read-only is written to. -/
theorem C148_read_only_refuted :
    let out : Arr := ⟨0, [2], [8], .float64, false⟩
    let m := memOf [(0, 0), (8, 0), (32, 2), (40, 0), (64, 1), (72, 3)]
    peek (npFtFma (.array out) (one 32) (one 64) 1 1 1 (-1) (-1) m) [0, 8] =
      some [some 2, some 6] := by
  decide +kernel

/-- Finding: with the output among the operands the result depends on the order of the writes.
`a + b * a` for `a = 2 + e`, `b = 1 + e` is `4 + 4e`; `ft_fma(a, b, a)` leaves `4 + 6e`. -/
theorem C148_alias_refuted :
    let m := memOf [(0, 2), (8, 1), (32, 1), (40, 1)]
    peek (npFtFma (one 0) (one 32) (one 0) 1 1 1 (-1) (-1) m) [0, 8] = some [some 4, some 6] := by
  decide +kernel

/-- the behaviour of the call is undefined -/
def isUndefined (r : Res ℚ) : Bool :=
  match r with
  | .undefined => true
  | _ => false

/-- Finding: a negative stride, as in `x[::-1]`, is not rejected.  The elements of the array are at 72
and 64; the call reads what is at 80, which need not exist. -/
theorem C148_negative_stride_refuted :
    let rhs : Arr := ⟨72, [2], [-8], .float64, true⟩
    let m := memOf [(0, 0), (8, 0), (32, 1), (40, 0), (64, 1), (72, 7)]
    isUndefined (npFtFma (one 0) (one 32) (.array rhs) 1 1 1 (-1) (-1) m) = true := by
  decide +kernel

end RoughPy.Batch
