import Verif.Tensor.Compute
import Verif.Tensor.ExpKernel
import Verif.Tensor.Adjoint
import Verif.Tensor.Antipode
import Verif.Tensor.Shuffle

/-!
# Lemmas about the Python compute functions
-/

set_option linter.unusedSectionVars false

open Finset

namespace RoughPy.Tensor

open Series

variable {K : Type}

theorem resolveDegree_default (d : ℕ) : resolveDegree d (-1) = some d := by
  simp [resolveDegree]

theorem resolveDegree_nat (d : ℕ) (m : ℕ) : resolveDegree d m = some (min m d) := by
  unfold resolveDegree
  by_cases h : (m : ℤ) > d
  · have hm : min m d = d := by omega
    simp [h, hm]
  · have hm : min m d = m := by omega
    have h2 : ¬ ((m : ℤ) = -1 ∨ (m : ℤ) > d) := by omega
    rw [if_neg h2, hm]
    simp

theorem argView_valid {w depth m n : ℕ} (h1 : m ≤ depth) (h2 : wordsBelow w (m + 1) ≤ n) :
    (argView w depth m).Valid n := ⟨h1, h2⟩

theorem argView_series [CommRing K] (w depth m : ℕ) (b : Buf K) :
    (argView w depth m).series w b = trunc m (b.ser w) := by
  funext u
  simp [argView, View.series, trunc, Buf.ser]

theorem argView_positive [CommRing K] (w depth m : ℕ) (b : Buf K) :
    (argView w depth m).positive w b = noScalar (trunc m (b.ser w)) := by
  funext u
  simp [View.positive, noScalar, argView_series]

theorem wordsBelow_le_get_mono {w a b : ℕ} (h : a ≤ b) :
    wordsBelow w (a + 1) ≤ wordsBelow w (b + 1) := wordsBelow_mono (by omega)

/-! ### the kernels through `argView` -/

section ring
variable [CommRing K]

theorem ftFma_argView {w B o l r : ℕ} {out lhs rhs : Buf K} (ho : o ≤ B) (hl : l ≤ B) (hr : r ≤ B)
    (hso : wordsBelow w (o + 1) ≤ out.size) (hsl : wordsBelow w (l + 1) ≤ lhs.size)
    (hsr : wordsBelow w (r + 1) ≤ rhs.size) :
    ∃ out', ftFma id (argView w B o) (argView w B l) (argView w B r) out lhs rhs = some out' ∧
      out'.size = out.size ∧
      (∀ u : List (Fin w), u.length ≤ o → out'.ser w u = out.ser w u +
        (trunc l (lhs.ser w) * trunc r (rhs.ser w)) u) ∧
      (∀ p, wordsBelow w (o + 1) ≤ p → out'.get p = out.get p) := by
  obtain ⟨out', h1, h2, h3⟩ := ftFma_spec id (vo := argView w B o) (vl := argView w B l)
    (vr := argView w B r) (out := out) (lhs := lhs) (rhs := rhs) rfl rfl
    (argView_valid ho hso) (argView_valid hl hsl) (argView_valid hr hsr)
  refine ⟨out', h1, h2, ?_, ?_⟩
  · intro u hu
    have := fmaTerm_wordIndex (op := id) rfl (vo := argView w B o) (vl := argView w B l)
      (vr := argView w B r) rfl rfl lhs rhs u (Nat.zero_le _) hu
    show out'.get (wordIndex u) = out.get (wordIndex u) + _
    rw [h3, add_assoc]
    congr 1
    refine Eq.trans this ?_
    show _ = ∑ k ∈ range (u.length + 1), _
    refine sum_congr rfl fun k _ => ?_
    rw [← argView_series w B l, ← argView_series w B r]
    rfl
  · intro p hp
    rw [h3, fmaTerm_outside, if_neg, add_zero, add_zero]
    · rintro ⟨rfl, -⟩
      rw [wordsBelow_succ'] at hp; omega
    · intro d _ hd hin
      have := inLevel_lt hin hd (le_refl _)
      exact absurd this (not_lt.2 hp)

theorem ftInplaceMul_argView {w B o r : ℕ} {lhs rhs : Buf K} (ho : o ≤ B) (hr : r ≤ B)
    (hsl : wordsBelow w (o + 1) ≤ lhs.size) (hsr : wordsBelow w (r + 1) ≤ rhs.size) :
    ∃ out', ftInplaceMul id (argView w B o) (argView w B r) lhs rhs = some out' ∧
      out'.size = lhs.size ∧
      (∀ u : List (Fin w), u.length ≤ o → out'.ser w u =
        (trunc o (lhs.ser w) * trunc r (rhs.ser w)) u) ∧
      (∀ p, wordsBelow w (o + 1) ≤ p → out'.get p = lhs.get p) := by
  obtain ⟨out', h1, h2, h3, h4⟩ := ftInplaceMul_word (op := id) rfl (vl := argView w B o)
    (vr := argView w B r) (lhs := lhs) (rhs := rhs) rfl (argView_valid ho hsl)
    (argView_valid hr hsr)
  refine ⟨out', h1, h2, ?_, ?_⟩
  · intro u hu
    refine (h3 u (Nat.zero_le _) hu).trans ?_
    show _ = ∑ k ∈ range (u.length + 1), _
    refine sum_congr rfl fun k _ => ?_
    rw [← argView_series w B o, ← argView_series w B r]
    rfl
  · intro p hp
    refine h4 p fun d _ hd hin => ?_
    exact absurd (inLevel_lt hin hd (le_refl _)) (not_lt.2 hp)

theorem trunc_mul_eqUpTo {α : Type} {D : ℕ} {m n : ℕ} (hm : D ≤ m) (hn : D ≤ n)
    (f g : Series α K) : EqUpTo D (trunc m f * trunc n g) (f * g) := by
  intro u hu
  show ∑ k ∈ range (u.length + 1), _ = ∑ k ∈ range (u.length + 1), _
  refine sum_congr rfl fun k hk => ?_
  have hk' : k ≤ u.length := Nat.lt_succ_iff.1 (mem_range.1 hk)
  have e1 : (u.take k).length ≤ m := by rw [List.length_take]; omega
  have e2 : (u.drop k).length ≤ n := by rw [List.length_drop]; omega
  simp only [trunc, if_pos e1, if_pos e2]


/-! ### representation -/

theorem DenseTensor.Represents.size {t : DenseTensor K} {w D : ℕ} {f : Series (Fin w) K}
    (h : t.Represents w D f) : t.data.size = wordsBelow w (D + 1) := by
  have := h.wf; unfold DenseTensor.WF at this; rw [this, h.width_eq, h.depth_eq]

theorem DenseTensor.Represents.ser {t : DenseTensor K} {w D : ℕ} {f : Series (Fin w) K}
    (h : t.Represents w D f) : EqUpTo D (t.data.ser w) f := h.coeff

theorem DenseTensor.represents_self {t : DenseTensor K} (h : t.WF) :
    t.Represents t.width t.depth (t.data.ser t.width) := ⟨rfl, rfl, h, fun _ _ => rfl⟩

theorem DenseTensor.Represents.congr {t : DenseTensor K} {w D : ℕ} {f g : Series (Fin w) K}
    (h : t.Represents w D f) (hg : EqUpTo D f g) : t.Represents w D g :=
  ⟨h.width_eq, h.depth_eq, h.wf, fun u hu => (h.coeff u hu).trans (hg u hu)⟩

theorem toList_eq_of_represents {s t : DenseTensor K} {w D : ℕ} {f g : Series (Fin w) K}
    (hs : s.Represents w D f) (ht : t.Represents w D g) (h : EqUpTo D f g) :
    s.data.toList = t.data.toList := by
  unfold Buf.toList
  rw [hs.size, ht.size]
  refine List.map_congr_left fun i hi => ?_
  obtain ⟨u, hu, rfl⟩ := exists_wordIndex (List.mem_range.1 hi)
  rw [hs.coeff u hu, ht.coeff u hu, h u hu]

theorem represents_of_buf {w D : ℕ} {b : Buf K} {f : Series (Fin w) K}
    (h1 : b.size = wordsBelow w (D + 1)) (h2 : EqUpTo D (b.ser w) f) :
    (⟨b, w, D⟩ : DenseTensor K).Represents w D f := ⟨rfl, rfl, h1, h2⟩

theorem trunc_eqUpTo {α : Type} {D m : ℕ} (h : D ≤ m) (f : Series α K) :
    EqUpTo D (trunc m f) f := fun u hu => if_pos (by omega)

theorem EqUpTo.trunc {α : Type} {m : ℕ} {f g : Series α K} (h : EqUpTo m f g) :
    trunc m f = trunc m g := by
  funext u
  unfold Series.trunc
  split_ifs with hu
  · exact h u hu
  · rfl

theorem trunc_trunc {α : Type} (m n : ℕ) (f : Series α K) :
    trunc m (trunc n f) = trunc (min m n) f := by
  funext u
  unfold Series.trunc
  by_cases h1 : u.length ≤ m <;> by_cases h2 : u.length ≤ n <;> simp [h1, h2]

theorem noScalar_congr {α : Type} {m : ℕ} {f g : Series α K} (h : EqUpTo m f g) :
    EqUpTo m (noScalar f) (noScalar g) := by
  intro u hu
  unfold noScalar
  split_ifs
  · rfl
  · exact h u hu

theorem checked_ok {β : Type} {w : ℕ} {ws : List ℕ} (h : ∀ x ∈ ws, x = w) (k : Outcome β) :
    checked w ws k = k := by
  unfold checked compatible
  rw [if_pos]
  rw [List.all_eq_true]
  intro x hx
  simpa using h x hx

/-- `ft_mul` for operands of any depths: the product of the two truncated tensors, truncated to
the depth of the left operand. -/
theorem pyFtMul_rep {w Da Db : ℕ} {a b : DenseTensor K} {f g : Series (Fin w) K}
    (ha : a.Represents w Da f) (hb : b.Represents w Db g) :
    ∃ r, pyFtMul a b = .ok r ∧ r.Represents w Da (trunc Da f * trunc Db g) := by
  obtain ⟨out', h1, h2, h3, -⟩ := ftFma_argView (w := w) (B := Da) (o := Da) (l := Da)
    (r := min Db Da) (out := ⟨a.data.size, fun _ => 0⟩) (lhs := a.data) (rhs := b.data)
    le_rfl le_rfl (min_le_right _ _) (le_of_eq ha.size.symm) (le_of_eq ha.size.symm)
    (by rw [hb.size]; exact wordsBelow_mono (by omega))
  refine ⟨{ a with data := out' }, ?_, ha.width_eq, ha.depth_eq, ?_, ?_⟩
  · unfold pyFtMul
    rw [checked_ok (by simp [ha.width_eq, hb.width_eq]), denseFtFma, ha.width_eq, ha.depth_eq,
      hb.depth_eq, resolveDegree_default, resolveDegree_nat]
    simp only [orRaise, h1, finish, Outcome.map, Outcome.andThen]
  · exact h2.trans ha.wf
  · intro u hu
    refine (h3 u hu).trans ?_
    have e1 : trunc Da (a.data.ser w) = trunc Da f := EqUpTo.trunc ha.coeff
    have e2 : trunc (min Db Da) (b.data.ser w) = trunc (min Db Da) g :=
      EqUpTo.trunc (EqUpTo.mono (min_le_left _ _) hb.coeff)
    rw [e1, e2]
    show (0 : K) + _ = _
    rw [zero_add, Series.mul_apply, Series.mul_apply]
    refine sum_congr rfl fun k hk => ?_
    congr 1
    unfold trunc
    have : (u.drop k).length ≤ Da := by rw [List.length_drop]; omega
    simp [this, -List.length_drop]

/-- `ft_fma`, the general case in which no access is out of bounds: the output is at least as deep
as one of the operands. -/
theorem pyFtFma_rep {w Da Db Dc : ℕ} {a b c : DenseTensor K} {e f g : Series (Fin w) K}
    (ha : a.Represents w Da e) (hb : b.Represents w Db f) (hc : c.Represents w Dc g)
    (h1 : min Db Dc ≤ Da) (h2 : Db ≤ Dc) :
    ∃ r, pyFtFma a b c = .ok r ∧
      r.Represents w Da (fun u => if u.length ≤ Db then (e + f * g) u else e u) := by
  have hD : min Dc Db = Db := by omega
  obtain ⟨out', h1, h2, h3, h4⟩ := ftFma_argView (w := w) (B := Db) (o := min Dc Db) (l := Db)
    (r := Db) (out := a.data) (lhs := b.data) (rhs := c.data)
    (min_le_right _ _) le_rfl le_rfl (by rw [ha.size]; exact wordsBelow_mono (by omega))
    (le_of_eq hb.size.symm) (by rw [hc.size]; exact wordsBelow_mono (by omega))
  refine ⟨{ a with data := out' }, ?_, ha.width_eq, ha.depth_eq, ?_, ?_⟩
  · unfold pyFtFma
    rw [checked_ok (by simp [ha.width_eq, hb.width_eq, hc.width_eq]), denseFtFma, hb.width_eq,
      hb.depth_eq, hc.depth_eq, resolveDegree_default, resolveDegree_nat]
    simp only [orRaise, h1, finish, Outcome.map, Outcome.andThen]
  · exact h2.trans ha.wf
  · intro u hu
    rw [hD] at h3 h4
    show out'.get _ = _
    split_ifs with hub
    · refine (h3 u hub).trans ?_
      rw [Series.add_apply]
      congr 1
      · exact ha.coeff u hu
      · exact ((trunc_mul_eqUpTo le_rfl le_rfl _ _).trans
          (EqUpTo.mul hb.coeff (EqUpTo.mono (by omega) hc.coeff))) u hub
    · rw [h4, ha.coeff u hu]
      have : wordsBelow w (Db + 1) ≤ wordsBelow w u.length := wordsBelow_mono (by omega)
      unfold wordIndex; omega

/-- `ft_inplace_mul` for a right operand that is at least as deep as the left one. -/
theorem pyFtInplaceMul_rep {w Da Db : ℕ} {a b : DenseTensor K} {f g : Series (Fin w) K}
    (ha : a.Represents w Da f) (hb : b.Represents w Db g) (hD : Da ≤ Db) :
    ∃ r, pyFtInplaceMul a b = .ok r ∧ r.Represents w Da (f * g) := by
  have hm : min Db Da = Da := by omega
  obtain ⟨out', h1, h2, h3, -⟩ := ftInplaceMul_argView (w := w) (B := Da) (o := Da)
    (r := Da) (lhs := a.data) (rhs := b.data)
    le_rfl le_rfl (le_of_eq ha.size.symm) (by rw [hb.size]; exact wordsBelow_mono (by omega))
  refine ⟨{ a with data := out' }, ?_, ha.width_eq, ha.depth_eq, ?_, ?_⟩
  · unfold pyFtInplaceMul
    rw [checked_ok (by simp [ha.width_eq, hb.width_eq]), denseFtInplaceMul, ha.width_eq,
      ha.depth_eq, hb.depth_eq, resolveDegree_default, resolveDegree_nat, hm]
    simp only [orRaise, h1, finish, Outcome.map, Outcome.andThen]
  · exact h2.trans ha.wf
  · intro u hu
    refine (h3 u hu).trans ?_
    exact ((trunc_mul_eqUpTo le_rfl le_rfl _ _).trans
      (EqUpTo.mul ha.coeff (EqUpTo.mono hD hb.coeff))) u hu

theorem antipode_congr {α : Type} {m : ℕ} {f g : Series α K} (h : EqUpTo m f g) :
    EqUpTo m (antipode f) (antipode g) := by
  intro u hu
  unfold antipode
  rw [h u.reverse (by rw [List.length_reverse]; exact hu)]

theorem pyAntipode_rep {w D : ℕ} {a : DenseTensor K} {f : Series (Fin w) K}
    (ha : a.Represents w D f) (hD : 1 ≤ D) :
    ∃ r, pyAntipode a = .ok r ∧ r.Represents w D (antipode f) := by
  obtain ⟨out', h1, h2, h3, -⟩ := ftAntipode_word (vo := argView w D D) (va := argView w D D)
    (out := ⟨a.data.size, fun _ => 0⟩) (arg := a.data) rfl
    (argView_valid le_rfl (le_of_eq ha.size.symm)) (argView_valid le_rfl (le_of_eq ha.size.symm))
    (fun _ => by simpa [argView] using hD)
  refine ⟨{ a with data := out' }, ?_, ha.width_eq, ha.depth_eq, ?_, ?_⟩
  · unfold pyAntipode denseFtAntipode
    rw [ha.width_eq, ha.depth_eq, resolveDegree_default]
    simp only [orRaise, h1, finish, Outcome.map, Outcome.andThen]
  · exact h2.trans ha.wf
  · intro u hu
    refine (h3 u (Nat.zero_le _) (by simpa [argView] using hu)).trans ?_
    exact congrArg _ (ha.coeff u.reverse (by rw [List.length_reverse]; exact hu))

theorem shuffle_congr {α : Type} {D : ℕ} {f f' g g' : Series α K} (h1 : EqUpTo D f f')
    (h2 : EqUpTo D g g') : EqUpTo D (shuffle f g) (shuffle f' g') := by
  intro u hu
  unfold shuffle
  congr 1
  refine List.map_congr_left fun p hp => ?_
  have := splittings_length u p hp
  rw [h1 p.1 (by omega), h2 p.2 (by omega)]

theorem argView_eqUpTo {w D Db : ℕ} {b : DenseTensor K} {f : Series (Fin w) K}
    (hb : b.Represents w Db f) (h : D ≤ Db) : EqUpTo D ((argView w D D).series w b.data) f := by
  rw [argView_series]
  exact (trunc_eqUpTo le_rfl _).trans (EqUpTo.mono h hb.coeff)

theorem argView_eqUpTo_positive {w D Db : ℕ} {b : DenseTensor K} {f : Series (Fin w) K}
    (hb : b.Represents w Db f) (h : D ≤ Db) :
    EqUpTo D ((argView w D D).positive w b.data) (noScalar f) := by
  rw [argView_positive]
  exact noScalar_congr ((trunc_eqUpTo le_rfl _).trans (EqUpTo.mono h hb.coeff))

theorem pyStFma_rep {w Da Db Dc : ℕ} {a b c : DenseTensor K} {e f g : Series (Fin w) K}
    (ha : a.Represents w Da e) (hb : b.Represents w Db f) (hc : c.Represents w Dc g)
    (h1 : Da ≤ Db) (h2 : Da ≤ Dc) :
    ∃ r, pyStFma a b c = .ok r ∧ r.Represents w Da (e + shuffle f g) := by
  obtain ⟨out', h1, h2, h3, -⟩ := stFma_word (op := id) (vo := argView w Da Da)
    (vl := argView w Da Da) (vr := argView w Da Da) (out := a.data) (lhs := b.data)
    (rhs := c.data) rfl rfl (argView_valid le_rfl (le_of_eq ha.size.symm))
    (argView_valid le_rfl (by rw [hb.size]; exact wordsBelow_mono (by omega)))
    (argView_valid le_rfl (by rw [hc.size]; exact wordsBelow_mono (by omega)))
    rfl rfl rfl le_rfl le_rfl
  refine ⟨{ a with data := out' }, ?_, ha.width_eq, ha.depth_eq, ?_, ?_⟩
  · unfold pyStFma
    rw [checked_ok (by simp [ha.width_eq, hb.width_eq, hc.width_eq]), denseStFma, ha.width_eq,
      ha.depth_eq, resolveDegree_default]
    simp only [orRaise, h1, finish, Outcome.map, Outcome.andThen]
  · exact h2.trans ha.wf
  · intro u hu
    refine (h3 u hu).trans ?_
    rw [Series.add_apply]
    congr 1
    · exact ha.coeff u hu
    · refine (shuffle_congr ?_ ?_) u hu
      · exact argView_eqUpTo hb (by omega)
      · exact argView_eqUpTo hc (by omega)

theorem pyStMul_rep {w Da Db : ℕ} {a b : DenseTensor K} {f g : Series (Fin w) K}
    (ha : a.Represents w Da f) (hb : b.Represents w Db g) (h1 : Da ≤ Db) :
    ∃ r, pyStMul a b = .ok r ∧ r.Represents w Da (shuffle f g) := by
  have hz : (⟨⟨a.data.size, fun _ => 0⟩, a.width, a.depth⟩ : DenseTensor K).Represents w Da 0 :=
    ⟨ha.width_eq, ha.depth_eq, ha.wf, fun _ _ => rfl⟩
  obtain ⟨r, hr, hrep⟩ := pyStFma_rep hz ha hb le_rfl h1
  rw [zero_add] at hrep
  refine ⟨r, ?_, hrep⟩
  rw [← hr]
  unfold pyStMul pyStFma
  rw [checked_ok (by simp [ha.width_eq, hb.width_eq]),
    checked_ok (by simp [ha.width_eq, hb.width_eq])]

/-- The functional `u ↦ Σ_v op(v) arg(v u)` where `v u` ranges over words of length at most `D`. -/
def leftAdjoint {w : ℕ} (D : ℕ) (op arg : Series (Fin w) K) : Series (Fin w) K :=
  fun u => ∑ n ∈ range (D + 1 - u.length), sumWords n fun v => op v * arg (v ++ u)

theorem pyFtAdjointLeftMul_rep {w Dp Da : ℕ} {op arg : DenseTensor K} {f g : Series (Fin w) K}
    (hp : op.Represents w Dp f) (ha : arg.Represents w Da g) (hD : Da ≤ Dp) :
    ∃ r, pyFtAdjointLeftMul op arg = .ok r ∧ r.Represents w Da (leftAdjoint Da f g) := by
  have hm : min Da Dp = Da := by omega
  obtain ⟨out', h1, h2, h3⟩ := ftAdjLmul_word (vo := argView w Dp Da)
    (vp := argView w Dp Dp) (va := argView w Dp Da) (out := ⟨arg.data.size, fun _ => 0⟩)
    (op := op.data) (arg := arg.data) rfl rfl
    (argView_valid hD (le_of_eq ha.size.symm)) (argView_valid le_rfl (le_of_eq hp.size.symm))
    (argView_valid hD (le_of_eq ha.size.symm)) rfl rfl rfl
  refine ⟨{ arg with data := out' }, ?_, ha.width_eq, ha.depth_eq, ?_, ?_⟩
  · unfold pyFtAdjointLeftMul
    rw [checked_ok (by simp [ha.width_eq, hp.width_eq]), denseFtAdjLmul, hp.width_eq,
      hp.depth_eq, ha.depth_eq, resolveDegree_nat, resolveDegree_nat, hm, min_self]
    simp only [orRaise, h1, finish, Outcome.map, Outcome.andThen]
  · exact h2.trans ha.wf
  · intro u hu
    refine (h3 u).trans ?_
    show (0 : K) + _ = _
    rw [zero_add]
    unfold leftAdjoint
    have e : min (argView w Dp Da).maxDeg (argView w Dp Da).maxDeg = Da := min_self _
    rw [e]
    refine sum_congr rfl fun n hn => sumWords_congr fun (v : List (Fin w)) hv => ?_
    rw [mem_range] at hn
    have hv' : v.length = n := hv
    have hn' : n < Da + 1 - u.length := hn
    clear hv hn
    show (argView w Dp Dp).series w op.data v * (argView w Dp Da).series w arg.data (v ++ u) = _
    rw [argView_series, argView_series]
    unfold trunc
    rw [if_pos (by omega), if_pos (by rw [List.length_append]; omega)]
    congr 1
    · exact hp.coeff v (by omega)
    · exact ha.coeff (v ++ u) (by rw [List.length_append]; omega)

end ring

section field
variable [Field K] [CharZero K]

theorem zeros_valid (w D : ℕ) : (argView w D D).Valid (Buf.zeros (K := K) w D).size :=
  argView_valid le_rfl le_rfl

theorem pyFtExp_rep {w Dx Do : ℕ} {x : DenseTensor K} {f : Series (Fin w) K}
    (hx : x.Represents w Dx f) (hD : Do ≤ Dx) :
    ∃ r, pyFtExp x w Do = .ok r ∧ r.Represents w Do (texp (noScalar f)) := by
  obtain ⟨out', h1, h2, h3⟩ := ftExp_word (vo := argView w Do Do) (va := argView w Do Do)
    (out := Buf.zeros w Do) (arg := x.data) rfl (zeros_valid w Do)
    (argView_valid le_rfl (by rw [hx.size]; exact wordsBelow_mono (by omega))) rfl
  refine ⟨⟨out', w, Do⟩, ?_, represents_of_buf h2 ?_⟩
  · unfold pyFtExp
    rw [checked_ok (by simp [hx.width_eq]), denseFtExp, resolveDegree_default]
    simp only [orRaise, h1, finish, Outcome.map, Outcome.andThen]
  · refine EqUpTo.trans h3 ?_
    exact EqUpTo.texp (argView_eqUpTo_positive hx hD)

theorem pyFtLog_rep {w Dx Do : ℕ} {x : DenseTensor K} {f : Series (Fin w) K}
    (hx : x.Represents w Dx f) (hD : Do ≤ Dx) :
    ∃ r, pyFtLog x w Do = .ok r ∧ r.Represents w Do (tlog (1 + noScalar f)) := by
  obtain ⟨out', h1, h2, h3⟩ := ftLog_word (vo := argView w Do Do) (va := argView w Do Do)
    (out := Buf.zeros w Do) (arg := x.data) rfl (zeros_valid w Do)
    (argView_valid le_rfl (by rw [hx.size]; exact wordsBelow_mono (by omega))) rfl rfl
  refine ⟨⟨out', w, Do⟩, ?_, represents_of_buf h2 ?_⟩
  · unfold pyFtLog
    rw [checked_ok (by simp [hx.width_eq]), denseFtLog, resolveDegree_default]
    simp only [orRaise, h1, finish, Outcome.map, Outcome.andThen]
  · refine EqUpTo.trans h3 ?_
    exact EqUpTo.tlog (EqUpTo.add (EqUpTo.refl _ _) (argView_eqUpTo_positive hx hD))

theorem pyFtFmexp_rep {w Da Dx Do : ℕ} {a x : DenseTensor K} {f g : Series (Fin w) K}
    (ha : a.Represents w Da f) (hx : x.Represents w Dx g) (hD : Do ≤ Da) (hD' : Do ≤ Dx) :
    ∃ r, pyFtFmexp a x w Do = .ok r ∧ r.Represents w Do (f * texp (noScalar g)) := by
  obtain ⟨out', h1, h2, h3⟩ := ftFmexp_word (vo := argView w Do Do) (vm := argView w Do Do)
    (vx := argView w Do Do) (out := Buf.zeros w Do) (mul := a.data) (ex := x.data) rfl rfl
    (zeros_valid w Do)
    (argView_valid le_rfl (by rw [ha.size]; exact wordsBelow_mono (by omega)))
    (argView_valid le_rfl (by rw [hx.size]; exact wordsBelow_mono (by omega))) rfl rfl
  refine ⟨⟨out', w, Do⟩, ?_, represents_of_buf h2 ?_⟩
  · unfold pyFtFmexp
    rw [checked_ok (by simp [ha.width_eq, hx.width_eq]), denseFtFmexp, resolveDegree_default]
    simp only [orRaise, h1, finish, Outcome.map, Outcome.andThen]
  · refine EqUpTo.trans h3 ?_
    exact EqUpTo.mul (argView_eqUpTo ha hD) (EqUpTo.texp (argView_eqUpTo_positive hx hD'))

end field

end RoughPy.Tensor
