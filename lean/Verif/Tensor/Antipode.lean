import Verif.Tensor.MulLemmas

/-! # Lemmas on the antipode kernel -/

set_option linter.unusedSectionVars false

open Finset

namespace RoughPy.Tensor

variable {K : Type} [CommRing K]

theorem reverseIndex_fold {w : ℕ} (u : List (Fin w)) (acc : ℕ) :
    (List.range u.length).foldl (fun (st : ℕ × ℕ) _ => (st.1 * w + st.2 % w, st.2 / w))
      (acc, wordOffset u) = (acc * w ^ u.length + wordOffset u.reverse, 0) := by
  induction u using List.reverseRecOn generalizing acc with
  | nil => simp [wordOffset]
  | append_singleton u a ih =>
    have hlen : (u ++ [a]).length = u.length + 1 := by simp
    rw [hlen, List.range_succ_eq_map, List.foldl_cons, List.foldl_map]
    have hoff : wordOffset (u ++ [a]) = wordOffset u * w + a.val := by
      rw [wordOffset_append, wordOffset_singleton]; simp
    have h1 : wordOffset (u ++ [a]) % w = a.val := by
      rw [hoff, mul_comm, Nat.mul_add_mod, Nat.mod_eq_of_lt a.isLt]
    have h2 : wordOffset (u ++ [a]) / w = wordOffset u := by
      have := a.isLt
      rw [hoff, mul_comm, Nat.mul_add_div (by omega), Nat.div_eq_of_lt a.isLt, add_zero]
    dsimp only
    rw [h1, h2, ih]
    rw [List.reverse_append, List.reverse_singleton, List.singleton_append, wordOffset,
      List.length_reverse, pow_succ]
    congr 1
    ring

theorem reverseIndex_eq {w : ℕ} (u : List (Fin w)) :
    reverseIndex w u.length (wordOffset u) = wordOffset u.reverse := by
  unfold reverseIndex
  rw [reverseIndex_fold]; simp

/-- a loop of writes to distinct places -/
theorem loop_write {n : ℕ} {body : Buf K → ℕ → Option (Buf K)} {f : ℕ → ℕ} {v : ℕ → K}
    {b : Buf K}
    (hbody : ∀ s i, s.size = b.size → i < n →
      body s i = some ⟨s.size, Function.update s.get (f i) (v i)⟩)
    (hinj : ∀ i j, i < n → j < n → f i = f j → i = j) :
    ∃ b', loop (List.range n) b body = some b' ∧ b'.size = b.size ∧
      (∀ i, i < n → b'.get (f i) = v i) ∧ (∀ p, (∀ i, i < n → f i ≠ p) → b'.get p = b.get p) := by
  obtain ⟨b', h1, h2, h3, h4⟩ := loop_range_inv
    (fun i (s : Buf K) => s.size = b.size ∧ (∀ j, j < i → s.get (f j) = v j) ∧
      (∀ p, (∀ j, j < i → f j ≠ p) → s.get p = b.get p)) n body b
    ⟨rfl, fun j hj => by omega, fun _ _ => rfl⟩ (by
      rintro i hi s ⟨hs, hg, hg'⟩
      refine ⟨_, hbody s i hs hi, hs, fun j hj => ?_, fun p hp => ?_⟩
      · dsimp only
        by_cases h : f j = f i
        · rw [h, Function.update_self, hinj j i (by omega) hi h]
        · rw [Function.update_of_ne h, hg j]
          have : j ≠ i := fun e => h (by rw [e])
          omega
      · dsimp only
        rw [Function.update_of_ne (fun e => hp i (by omega) e.symm), hg' p fun j hj => hp j (by omega)])
  exact ⟨b', h1, h2, h3, h4⟩

theorem defaultSigner_eq (d : ℕ) (x : K) : defaultSigner d x = (-1) ^ d * x := by
  unfold defaultSigner
  split_ifs with h
  · rw [Odd.neg_one_pow (Nat.odd_iff.2 (by omega)), neg_one_mul]
  · rw [Even.neg_one_pow (Nat.even_iff.2 (by omega)), one_mul]

/-- one level of the antipode -/
theorem antipodeLevel_spec {w d : ℕ} {out arg : Buf K}
    (ho : wordsBelow w (d + 1) ≤ out.size) (ha : wordsBelow w (d + 1) ≤ arg.size)
    (σ : ℕ → ℕ) (hσ : ∀ u : List (Fin w), u.length = d → σ (wordOffset u) = wordOffset u.reverse) :
    ∃ out', loop (List.range (w ^ d)) out (fun out i => do
        let x ← arg.read (← (Frag.at ⟨wordsBelow w d, w ^ d⟩ i))
        out.write (← Frag.at ⟨wordsBelow w d, w ^ d⟩ (σ i)) (defaultSigner d x)) = some out' ∧
      out'.size = out.size ∧
      (∀ u : List (Fin w), u.length = d →
        out'.get (wordIndex u) = (-1) ^ u.length * arg.get (wordIndex u.reverse)) ∧
      (∀ p, ¬ InLevel w d p → out'.get p = out.get p) := by
  rw [wordsBelow_succ] at ho ha
  have hlt : ∀ i, i < w ^ d → σ i < w ^ d := by
    intro i hi
    obtain ⟨u, hu1, rfl⟩ := exists_word hi
    rw [hσ u hu1]
    have := wordOffset_lt u.reverse
    rwa [List.length_reverse, hu1] at this
  obtain ⟨out', h1, h2, h3, h4⟩ := loop_write (n := w ^ d) (b := out)
    (f := fun i => wordsBelow w d + σ i)
    (v := fun i => defaultSigner d (arg.get (wordsBelow w d + i)))
    (body := fun out i => do
        let x ← arg.read (← (Frag.at ⟨wordsBelow w d, w ^ d⟩ i))
        out.write (← Frag.at ⟨wordsBelow w d, w ^ d⟩ (σ i)) (defaultSigner d x)) (by
      intro s i hs hi
      have := hlt i hi
      rw [Frag.at_eq (by exact hi), Frag.at_eq (by exact this)]
      simp only [Option.bind_eq_bind, Option.bind_some]
      rw [Buf.read_eq (by omega)]
      simp only [Option.bind_some]
      exact Buf.write_eq (by omega) _) (by
      intro i j hi hj h
      obtain ⟨u, hu1, rfl⟩ := exists_word hi
      obtain ⟨v, hv1, rfl⟩ := exists_word hj
      rw [hσ u hu1, hσ v hv1] at h
      have := wordOffset_inj (u := u.reverse) (v := v.reverse) (by simp [hu1, hv1]) (by omega)
      rw [List.reverse_injective this])
  refine ⟨out', h1, h2, fun u hu => ?_, fun p hp => ?_⟩
  · have hr : u.reverse.length = d := by rw [List.length_reverse, hu]
    have hlt' := wordOffset_lt u.reverse
    rw [hr] at hlt'
    have := h3 _ hlt'
    rw [hσ _ hr, List.reverse_reverse] at this
    rw [wordIndex, hu, this, defaultSigner_eq, wordIndex, hr]
  · refine h4 p fun i hi h => hp ?_
    have := hlt i hi
    exact ⟨by omega, by omega⟩

theorem ftAntipode_word {vo va : View} {out arg : Buf K} (hw : va.width = vo.width)
    (hvo : vo.Valid out.size) (hva : va.Valid arg.size)
    (h1 : max va.minDeg vo.minDeg ≤ 1 → 1 ≤ min va.maxDeg vo.maxDeg) :
    ∃ out', ftAntipode vo va out arg = some out' ∧ out'.size = out.size ∧
      (∀ u : List (Fin vo.width), max va.minDeg vo.minDeg ≤ u.length →
        u.length ≤ min va.maxDeg vo.maxDeg →
        out'.get (wordIndex u) = (-1) ^ u.length * arg.get (wordIndex u.reverse)) ∧
      (∀ p, (∀ d, max va.minDeg vo.minDeg ≤ d → d ≤ min va.maxDeg vo.maxDeg →
        ¬ InLevel vo.width d p) → out'.get p = out.get p) := by
  obtain ⟨w, Do, mo, xo⟩ := vo
  obtain ⟨wa, Da, ma, xa⟩ := va
  obtain rfl : wa = w := hw
  rename' wa => w
  obtain ⟨ho1, ho2⟩ := hvo
  obtain ⟨ha1, ha2⟩ := hva
  dsimp only at *
  set lo := max ma mo with hlo
  set hi := min xa xo with hhi
  have h01 : wordsBelow w 1 = 1 := by simp [wordsBelow]
  have hi0 : wordIndex ([] : List (Fin w)) = 0 := by simp [wordIndex, wordOffset, wordsBelow]
  have hopos : 0 < out.size := by
    have := wordsBelow_mono (w := w) (d := 1) (e := xo + 1) (by omega); omega
  have hapos : 0 < arg.size := by
    have := wordsBelow_mono (w := w) (d := 1) (e := xa + 1) (by omega); omega
  -- invariant after having treated the degrees in `[lo, k)`
  let J : ℕ → Buf K → Prop := fun k s => s.size = out.size ∧
    (∀ u : List (Fin w), lo ≤ u.length → u.length < k →
      s.get (wordIndex u) = (-1) ^ u.length * arg.get (wordIndex u.reverse)) ∧
    (∀ p, (∀ d, lo ≤ d → d < k → ¬ InLevel w d p) → s.get p = out.get p)
  have step : ∀ d (s s' : Buf K), J d s → s'.size = s.size →
      (∀ u : List (Fin w), u.length = d →
        s'.get (wordIndex u) = (-1) ^ u.length * arg.get (wordIndex u.reverse)) →
      (∀ p, ¬ InLevel w d p → s'.get p = s.get p) → lo ≤ d → J (d + 1) s' := by
    rintro d s s' ⟨j1, j2, j3⟩ e1 e2 e3 hd
    refine ⟨e1.trans j1, fun u hu hu' => ?_, fun p hp => ?_⟩
    · by_cases h : u.length = d
      · exact e2 u h
      · rw [e3 _ (fun h' => h ((inLevel_wordIndex u d).1 h')), j2 u hu (by omega)]
    · rw [e3 p (hp d hd (by omega)), j3 p fun d' h1 h2 => hp d' h1 (by omega)]
  -- step 0
  have s0 : ∃ out0, antipodeScalar lo out arg = some out0 ∧ J (min 1 (max lo 1)) out0 := by
    unfold antipodeScalar
    by_cases h : lo = 0
    · rw [if_pos h, Buf.read_eq hapos]
      refine ⟨_, Buf.write_eq hopos _, ?_⟩
      rw [show min 1 (max lo 1) = 0 + 1 by omega]
      refine step 0 out _ ⟨rfl, fun u _ hu => by omega, fun _ _ => rfl⟩ rfl ?_ ?_ (by omega)
      · intro u hu
        obtain rfl := List.length_eq_zero_iff.1 hu
        dsimp only
        rw [hi0, Function.update_self, defaultSigner_eq, List.reverse_nil, hi0]
        rfl
      · intro p hp
        dsimp only
        rw [Function.update_of_ne]
        rintro rfl
        exact hp (by simp [InLevel, wordsBelow])
    · rw [if_neg h]
      exact ⟨out, rfl, rfl, fun u _ hu => by omega, fun _ _ => rfl⟩
  obtain ⟨out0, e0, j0⟩ := s0
  have s1 : ∃ out1, antipodeLetters ⟨w, Do, mo, xo⟩ ⟨w, Da, ma, xa⟩ lo out0 arg = some out1 ∧ J (max 2 lo) out1 := by
    unfold antipodeLetters
    by_cases h : lo ≤ 1
    · have := h1 h
      rw [if_pos h, View.atLevel_eq (v := ⟨w, Da, ma, xa⟩) (d := 1) ha1 (by dsimp only; omega)
          (by dsimp only; omega),
        View.atLevel_eq (v := ⟨w, Do, mo, xo⟩) (d := 1) ho1 (by dsimp only; omega)
          (by dsimp only; omega)]
      simp only [Option.bind_eq_bind, Option.bind_some]
      obtain ⟨out1, f1, f2, f3, f4⟩ := antipodeLevel_spec (w := w) (d := 1) (out := out0)
        (arg := arg) (le_trans (wordsBelow_mono (e := xo + 1) (by omega)) (by rw [j0.1]; exact ho2))
        (le_trans (wordsBelow_mono (by omega)) ha2) id (by
          intro u hu
          obtain ⟨a, rfl⟩ := List.length_eq_one_iff.1 hu
          rfl)
      refine ⟨out1, f1, ?_⟩
      rw [show max 2 lo = 1 + 1 by omega]
      refine step 1 out0 out1 ?_ f2 f3 f4 (by omega)
      rwa [show min 1 (max lo 1) = 1 by omega] at j0
    · rw [if_neg h]
      refine ⟨out0, rfl, j0.1, fun u hu hu' => by omega, fun p hp => j0.2.2 p fun d h1 h2 => by omega⟩
  obtain ⟨out1, e1, j1⟩ := s1
  obtain ⟨out', e2, j2⟩ := loop_map_range_inv (fun i s => J (max 2 lo + i) s)
    (hi + 1 - max 2 lo) (fun i => max 2 lo + i)
    (fun out degree => do
      let fa ← View.atLevel ⟨w, Da, ma, xa⟩ degree
      let fo ← View.atLevel ⟨w, Do, mo, xo⟩ degree
      loop (List.range fa.size) out fun out i => do
        let x ← arg.read (← fa.at i)
        out.write (← fo.at (reverseIndex w degree i)) (defaultSigner degree x)) out1
    (by simpa using j1) (by
      intro i hi' s js
      rw [View.atLevel_eq (v := ⟨w, Da, ma, xa⟩) (d := max 2 lo + i) ha1 (by dsimp only; omega)
          (by dsimp only; omega),
        View.atLevel_eq (v := ⟨w, Do, mo, xo⟩) (d := max 2 lo + i) ho1 (by dsimp only; omega)
          (by dsimp only; omega)]
      simp only [Option.bind_eq_bind, Option.bind_some]
      obtain ⟨s', f1, f2, f3, f4⟩ := antipodeLevel_spec (w := w) (d := max 2 lo + i) (out := s)
        (arg := arg) (le_trans (wordsBelow_mono (e := xo + 1) (by omega)) (by rw [js.1]; exact ho2))
        (le_trans (wordsBelow_mono (by omega)) ha2) (reverseIndex w (max 2 lo + i)) (by
          intro u hu
          rw [← hu, reverseIndex_eq])
      exact ⟨s', f1, step (max 2 lo + i) s s' js f2 f3 f4 (by omega)⟩)
  refine ⟨out', ?_, j2.1, fun u hu hu' => j2.2.1 u hu (by omega), fun p hp =>
    j2.2.2 p fun d h1 h2 hd => ?_⟩
  · unfold ftAntipode
    dsimp only
    rw [← hlo, ← hhi]
    rw [e0]
    simp only [Option.bind_eq_bind, Option.bind_some]
    rw [e1]
    simp only [Option.bind_some]
    rw [degreesUp_eq]
    simpa only [Option.bind_eq_bind] using e2
  · by_cases h : hi < d
    · omega
    · exact hp d h1 (by omega) hd

end RoughPy.Tensor
