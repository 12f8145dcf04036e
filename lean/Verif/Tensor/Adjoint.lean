import Verif.Tensor.Shuffle

/-! # Sums over words, pairings, and the adjoint kernels -/

set_option linter.unusedSectionVars false

open Finset

namespace RoughPy.Tensor

/-! ### Sums over words -/

section
variable {α M : Type*} [Fintype α] [AddCommMonoid M]

theorem sumWords_congr {n : ℕ} {F G : List α → M} (h : ∀ u, u.length = n → F u = G u) :
    sumWords n F = sumWords n G := by
  induction n generalizing F G with
  | zero => exact h [] rfl
  | succ n ih => exact sum_congr rfl fun a _ => ih fun u hu => h _ (by simp [hu])

theorem sumWords_zero (n : ℕ) : sumWords n (fun _ : List α => (0 : M)) = 0 := by
  induction n with
  | zero => rfl
  | succ n ih => simp [sumWords, ih]

theorem sumWords_add_fun (n : ℕ) (F G : List α → M) :
    sumWords n (fun u => F u + G u) = sumWords n F + sumWords n G := by
  induction n generalizing F G with
  | zero => rfl
  | succ n ih => simp only [sumWords, ih, sum_add_distrib]

theorem sumWords_sum {ι : Type*} (s : Finset ι) (n : ℕ) (F : ι → List α → M) :
    sumWords n (fun u => ∑ i ∈ s, F i u) = ∑ i ∈ s, sumWords n (F i) := by
  induction n generalizing F with
  | zero => rfl
  | succ n ih => simp only [sumWords, ih]; rw [sum_comm]

/-- words of length `m + n` are concatenations of words of length `m` and `n` -/
theorem sumWords_split (m n : ℕ) (F : List α → M) :
    sumWords (m + n) F = sumWords m fun v => sumWords n fun u => F (v ++ u) := by
  induction m generalizing F with
  | zero => simp [sumWords]
  | succ m ih =>
    rw [Nat.succ_add]
    simp only [sumWords, ih, List.cons_append]

theorem sumWords_comm (m n : ℕ) (F : List α → List α → M) :
    sumWords m (fun v => sumWords n fun u => F v u) =
      sumWords n fun u => sumWords m fun v => F v u := by
  induction m generalizing F with
  | zero => rfl
  | succ m ih => simp only [sumWords, ih]; rw [← sumWords_sum]

end

section
variable {α K : Type*} [Fintype α] [CommRing K]

theorem sumWords_mul_left (n : ℕ) (c : K) (F : List α → K) :
    sumWords n (fun u => c * F u) = c * sumWords n F := by
  induction n generalizing F with
  | zero => rfl
  | succ n ih => simp only [sumWords, ih, mul_sum]

theorem sumWords_mul_right (n : ℕ) (c : K) (F : List α → K) :
    sumWords n (fun u => F u * c) = sumWords n F * c := by
  simp only [mul_comm _ c, sumWords_mul_left]

end

theorem sum_range_mul_eq {M : Type*} [AddCommMonoid M] (a b : ℕ) (g : ℕ → M) :
    ∑ r ∈ range (a * b), g r = ∑ i ∈ range a, ∑ j ∈ range b, g (i * b + j) := by
  induction a with
  | zero => simp
  | succ a ih => rw [Nat.succ_mul, sum_range_add, ih, sum_range_succ]

/-- a sum over the offsets of a level is a sum over words -/
theorem sum_offsets {M : Type*} [AddCommMonoid M] {w : ℕ} (n : ℕ) (g : ℕ → M) :
    ∑ r ∈ range (w ^ n), g r = sumWords n fun v : List (Fin w) => g (wordOffset v) := by
  induction n generalizing g with
  | zero => simp [sumWords, wordOffset]
  | succ n ih =>
    rw [pow_succ', sum_range_mul_eq, sumWords, ← Fin.sum_univ_eq_sum_range
      (fun i => ∑ j ∈ range (w ^ n), g (i * w ^ n + j)) w]
    refine sum_congr rfl fun a _ => ?_
    rw [ih]
    refine sumWords_congr fun u hu => ?_
    rw [wordOffset, hu]

/-! ### Adjoint of left multiplication -/

variable {K : Type} [CommRing K]

/-- contribution of one innermost iteration of `ft_adj_lmul` -/
def adjTerm (w : ℕ) (op arg : Buf K) (ad od r i p : ℕ) : K :=
  if p = wordsBelow w od + i then
    op.get (wordsBelow w (ad - od) + r) * arg.get (wordsBelow w ad + (i + r * w ^ od)) else 0

theorem ftAdjLmul_spec {vo vp va : View} {out op arg : Buf K}
    (hwp : vp.width = vo.width) (hwa : va.width = vo.width)
    (hvo : vo.Valid out.size) (hvp : vp.Valid op.size) (hva : va.Valid arg.size)
    (h0 : vo.minDeg = 0) (h0p : vp.minDeg = 0) (h0a : va.minDeg = 0) :
    ∃ out', ftAdjLmul vo vp va out op arg = some out' ∧ out'.size = out.size ∧
      ∀ p, out'.get p = out.get p +
        ∑ ad ∈ range (min va.maxDeg vo.maxDeg + 1), ∑ od ∈ range (ad + 1),
          if ad ≤ od + vp.maxDeg then
            ∑ r ∈ range (vo.width ^ (ad - od)), ∑ i ∈ range (vo.width ^ od),
              adjTerm vo.width op arg ad od r i p
          else 0 := by
  obtain ⟨w, Do, mo, xo⟩ := vo
  obtain ⟨wp, Dp, mp, xp⟩ := vp
  obtain ⟨wa, Da, ma, xa⟩ := va
  obtain rfl : wp = w := hwp
  rename' wp => w
  obtain rfl : wa = w := hwa
  rename' wa => w
  obtain ⟨ho1, ho2⟩ := hvo
  obtain ⟨hp1, hp2⟩ := hvp
  obtain ⟨ha1, ha2⟩ := hva
  dsimp only at *
  subst h0 h0p h0a
  unfold ftAdjLmul
  dsimp only
  obtain ⟨out', e1, e2, e3⟩ := loop_add (P := fun b : Buf K => b.size = out.size)
    (degreesDown (min ((xa : ℤ) - (0 : ℕ)) xo) (max (((0 : ℕ) : ℤ) - xp) (0 : ℕ)))
    (fun out ad => do
      let outMin : ℤ := max ((ad : ℤ) - xp) (0 : ℕ)
      let outMax : ℤ := min ((ad : ℤ) - (0 : ℕ)) xo
      let fa ← View.atLevel ⟨w, Da, 0, xa⟩ ad
      loop (degreesDown outMax outMin) out fun out od => do
        let fp ← View.atLevel ⟨w, Dp, 0, xp⟩ (ad - od)
        let fo ← View.atLevel ⟨w, Do, 0, xo⟩ od
        loop (List.range fp.size) out fun out opIdx => do
          let v ← op.read (← fp.at opIdx)
          loop (List.range fo.size) out fun out i => do
            let x ← arg.read (← fa.at (i + opIdx * fo.size))
            out.addAt (← fo.at i) (v * x))
    (fun ad p => ∑ od ∈ range (ad + 1),
          if ad ≤ od + xp then
            ∑ r ∈ range (w ^ (ad - od)), ∑ i ∈ range (w ^ od), adjTerm w op arg ad od r i p
          else 0)
    (by
      intro ad had b hb
      rw [mem_degreesDown (by omega)] at had
      rw [View.atLevel_eq (v := ⟨w, Da, 0, xa⟩) (d := ad) ha1 (by dsimp only; omega)
        (by dsimp only; omega)]
      simp only [Option.bind_eq_bind, Option.bind_some]
      obtain ⟨b', f1, f2, f3⟩ := loop_add (P := fun b : Buf K => b.size = out.size)
        (degreesDown (min ((ad : ℤ) - (0 : ℕ)) xo) (max ((ad : ℤ) - xp) (0 : ℕ)))
        (fun out od => do
          let fp ← View.atLevel ⟨w, Dp, 0, xp⟩ (ad - od)
          let fo ← View.atLevel ⟨w, Do, 0, xo⟩ od
          loop (List.range fp.size) out fun out opIdx => do
            let v ← op.read (← fp.at opIdx)
            loop (List.range fo.size) out fun out i => do
              let x ← arg.read (← (Frag.at ⟨wordsBelow w ad, w ^ ad⟩ (i + opIdx * fo.size)))
              out.addAt (← fo.at i) (v * x))
        (fun od p => ∑ r ∈ range (w ^ (ad - od)), ∑ i ∈ range (w ^ od),
          adjTerm w op arg ad od r i p)
        (by
          intro od hod b hb
          rw [mem_degreesDown (by omega)] at hod
          rw [View.atLevel_eq (v := ⟨w, Dp, 0, xp⟩) (d := ad - od) hp1 (by dsimp only; omega)
              (by dsimp only; omega),
            View.atLevel_eq (v := ⟨w, Do, 0, xo⟩) (d := od) ho1 (by dsimp only; omega)
              (by dsimp only; omega)]
          simp only [Option.bind_eq_bind, Option.bind_some]
          have hop : wordsBelow w (ad - od) + w ^ (ad - od) ≤ op.size := by
            rw [← wordsBelow_succ]
            exact le_trans (wordsBelow_mono (by omega)) hp2
          have hoo : wordsBelow w od + w ^ od ≤ out.size := by
            rw [← wordsBelow_succ]
            exact le_trans (wordsBelow_mono (by omega)) ho2
          have haa : wordsBelow w ad + w ^ ad ≤ arg.size := by
            rw [← wordsBelow_succ]
            exact le_trans (wordsBelow_mono (by omega)) ha2
          obtain ⟨b', g1, g2, g3⟩ := loop_add (P := fun b : Buf K => b.size = out.size)
            (List.range (w ^ (ad - od)))
            (fun out opIdx => do
              let v ← op.read (← (Frag.at ⟨wordsBelow w (ad - od), w ^ (ad - od)⟩ opIdx))
              loop (List.range (w ^ od)) out fun out i => do
                let x ← arg.read (← (Frag.at ⟨wordsBelow w ad, w ^ ad⟩ (i + opIdx * w ^ od)))
                out.addAt (← (Frag.at ⟨wordsBelow w od, w ^ od⟩ i)) (v * x))
            (fun r p => ∑ i ∈ range (w ^ od), adjTerm w op arg ad od r i p)
            (by
              intro r hr b hb
              rw [List.mem_range] at hr
              rw [Frag.at_eq (by exact hr)]
              simp only [Option.bind_eq_bind, Option.bind_some]
              rw [Buf.read_eq (by omega)]
              simp only [Option.bind_some]
              obtain ⟨b', k1, k2, k3⟩ := loop_add (P := fun b : Buf K => b.size = out.size)
                (List.range (w ^ od))
                (fun out i => do
                  let x ← arg.read (← (Frag.at ⟨wordsBelow w ad, w ^ ad⟩ (i + r * w ^ od)))
                  out.addAt (← (Frag.at ⟨wordsBelow w od, w ^ od⟩ i))
                    (op.get (wordsBelow w (ad - od) + r) * x))
                (fun i p => adjTerm w op arg ad od r i p)
                (by
                  intro i hi b hb
                  rw [List.mem_range] at hi
                  have hlt : i + r * w ^ od < w ^ ad := by
                    have hpow : w ^ ad = w ^ (ad - od) * w ^ od := by
                      rw [← pow_add]; congr 1; omega
                    have h1 : (r + 1) * w ^ od ≤ w ^ (ad - od) * w ^ od :=
                      Nat.mul_le_mul_right _ (by omega)
                    rw [hpow]
                    rw [Nat.succ_mul] at h1
                    omega
                  rw [Frag.at_eq (by exact hlt), Frag.at_eq (by exact hi)]
                  simp only [Option.bind_eq_bind, Option.bind_some]
                  rw [Buf.read_eq (by omega)]
                  simp only [Option.bind_some]
                  refine ⟨_, Buf.addAt_eq (by omega) _, hb, fun p => ?_⟩
                  unfold adjTerm
                  dsimp only
                  split_ifs with h
                  · rw [h, Function.update_self]
                  · rw [Function.update_of_ne h, add_zero])
                b hb
              refine ⟨b', by simpa only [Option.bind_eq_bind] using k1, k2, fun p => ?_⟩
              rw [k3, sum_list_range])
            b hb
          refine ⟨b', by simpa only [Option.bind_eq_bind] using g1, g2, fun p => ?_⟩
          rw [g3, sum_list_range])
        b hb
      refine ⟨b', by simpa only [Option.bind_eq_bind] using f1, f2, fun p => ?_⟩
      rw [f3, sum_degreesDown (by omega) _ (N := ad + 1) (by omega)]
      congr 1
      refine sum_congr rfl fun od hod => if_congr ?_ rfl rfl
      rw [mem_range] at hod
      omega)
    out rfl
  refine ⟨out', by simpa only [Option.bind_eq_bind] using e1, e2, fun p => ?_⟩
  rw [e3, sum_degreesDown (by omega) _ (N := min xa xo + 1) (by omega)]
  congr 1
  refine sum_congr rfl fun ad had => if_pos ?_
  rw [mem_range] at had
  omega

theorem adjTerm_sum {w : ℕ} (op arg : Buf K) (u : List (Fin w)) {ad od r : ℕ} :
    ∑ i ∈ range (w ^ od), adjTerm w op arg ad od r i (wordIndex u) =
      if od = u.length then
        op.get (wordsBelow w (ad - od) + r) * arg.get (wordsBelow w ad + (wordOffset u + r * w ^ od))
      else 0 := by
  by_cases h : od = u.length
  · subst h
    rw [if_pos rfl, sum_eq_single (wordOffset u)]
    · unfold adjTerm; exact if_pos rfl
    · intro i _ hi
      unfold adjTerm
      rw [if_neg]
      unfold wordIndex
      omega
    · intro h; exact absurd (mem_range.2 (wordOffset_lt u)) h
  · rw [if_neg h]
    refine sum_eq_zero fun i hi => ?_
    unfold adjTerm
    rw [if_neg]
    intro h'
    rw [mem_range] at hi
    exact h ((inLevel_wordIndex u od).1 ⟨by omega, by omega⟩).symm

theorem ftAdjLmul_word {vo vp va : View} {out op arg : Buf K}
    (hwp : vp.width = vo.width) (hwa : va.width = vo.width)
    (hvo : vo.Valid out.size) (hvp : vp.Valid op.size) (hva : va.Valid arg.size)
    (h0 : vo.minDeg = 0) (h0p : vp.minDeg = 0) (h0a : va.minDeg = 0) :
    ∃ out', ftAdjLmul vo vp va out op arg = some out' ∧ out'.size = out.size ∧
      (∀ u : List (Fin vo.width), out'.get (wordIndex u) = out.get (wordIndex u) +
        ∑ n ∈ range (min va.maxDeg vo.maxDeg + 1 - u.length),
          sumWords n fun v => vp.series vo.width op v * va.series vo.width arg (v ++ u)) := by
  obtain ⟨out', e1, e2, e3⟩ := ftAdjLmul_spec hwp hwa hvo hvp hva h0 h0p h0a
  refine ⟨out', e1, e2, fun u => ?_⟩
  rw [e3]
  congr 1
  set N := min va.maxDeg vo.maxDeg with hN
  have step : ∀ ad, ad < N + 1 → (∑ od ∈ range (ad + 1),
      if ad ≤ od + vp.maxDeg then
        ∑ r ∈ range (vo.width ^ (ad - od)), ∑ i ∈ range (vo.width ^ od),
          adjTerm vo.width op arg ad od r i (wordIndex u)
      else 0) = if u.length ≤ ad then sumWords (ad - u.length) fun v =>
        vp.series vo.width op v * va.series vo.width arg (v ++ u) else 0 := by
    intro ad had
    by_cases hle : u.length ≤ ad
    · rw [if_pos hle, sum_eq_single u.length]
      · by_cases hx : ad ≤ u.length + vp.maxDeg
        · rw [if_pos hx]
          simp only [adjTerm_sum, if_true]
          rw [sum_offsets]
          refine sumWords_congr fun v hv => ?_
          unfold View.series
          rw [if_pos ⟨by omega, by omega⟩, if_pos ⟨by omega, by rw [List.length_append]; omega⟩]
          congr 2
          · rw [wordIndex, hv]
          · rw [wordIndex, List.length_append, wordOffset_append, hv]
            congr 1
            · congr 1; omega
            · omega
        · rw [if_neg hx]
          symm
          rw [← sumWords_zero (α := Fin vo.width) (M := K) (ad - u.length)]
          refine sumWords_congr fun v hv => ?_
          unfold View.series
          rw [if_neg (by omega), zero_mul]
      · intro od _ hne
        split_ifs
        · refine sum_eq_zero fun r _ => ?_
          rw [adjTerm_sum, if_neg hne]
        · rfl
      · intro h; exact absurd (mem_range.2 (by omega)) h
    · rw [if_neg hle]
      refine sum_eq_zero fun od hod => ?_
      rw [mem_range] at hod
      split_ifs
      · refine sum_eq_zero fun r _ => ?_
        rw [adjTerm_sum, if_neg (by omega)]
      · rfl
  rw [sum_congr rfl fun ad had => step ad (mem_range.1 had)]
  by_cases hle : u.length ≤ N + 1
  · obtain ⟨e, he⟩ : ∃ e, N + 1 = u.length + e := ⟨N + 1 - u.length, by omega⟩
    rw [he, sum_range_add, Nat.add_sub_cancel_left]
    rw [sum_eq_zero fun i hi => if_neg (by rw [mem_range] at hi; omega), zero_add]
    refine sum_congr rfl fun n _ => ?_
    rw [if_pos (by omega), Nat.add_sub_cancel_left]
  · rw [show N + 1 - u.length = 0 by omega, sum_range_zero]
    exact sum_eq_zero fun i hi => if_neg (by rw [mem_range] at hi; omega)

/-! ### Adjoint of shuffle multiplication -/

theorem stAdjMul_spec {vo vp va : View} {out op arg : Buf K}
    (hwp : vp.width = vo.width) (hwa : va.width = vo.width)
    (hvo : vo.Valid out.size) (hvp : vp.Valid op.size) (hva : va.Valid arg.size)
    (h0 : vo.minDeg = 0) (h0p : vp.minDeg = 0) (h0a : va.minDeg = 0)
    (hao : va.maxDeg ≤ vo.maxDeg) (hap : va.maxDeg ≤ vp.maxDeg) :
    ∃ out', stAdjMul vo vp va out op arg = some out' ∧ out'.size = out.size ∧
      ∀ p, out'.get p = out.get p + ∑ n ∈ range (va.maxDeg + 1),
        sumWords n fun u : List (Fin vo.width) => ((splittings u).map fun q =>
          if p = wordIndex q.2 then
            va.series vo.width arg u * vp.series vo.width op q.1 else 0).sum := by
  obtain ⟨w, Do, mo, xo⟩ := vo
  obtain ⟨wp, Dp, mp, xp⟩ := vp
  obtain ⟨wa, Da, ma, xa⟩ := va
  obtain rfl : wp = w := hwp
  rename' wp => w
  obtain rfl : wa = w := hwa
  rename' wa => w
  obtain ⟨ho1, ho2⟩ := hvo
  obtain ⟨hp1, hp2⟩ := hvp
  obtain ⟨ha1, ha2⟩ := hva
  dsimp only at *
  subst h0 h0p h0a
  set P := View.series ⟨w, Dp, 0, xp⟩ w op with hP
  set A := View.series ⟨w, Da, 0, xa⟩ w arg with hA
  -- contribution of the function coefficient at offset `r` of level `fd`
  let G : ℕ → ℕ → ℕ → K := fun fd r p => sumWords fd fun u : List (Fin w) =>
    if wordOffset u = r then ((splittings u).map fun q =>
      if p = wordIndex q.2 then A u * P q.1 else 0).sum else 0
  have hG : ∀ (u : List (Fin w)) p, G u.length (wordOffset u) p = ((splittings u).map fun q =>
      if p = wordIndex q.2 then A u * P q.1 else 0).sum := by
    intro u p
    change (sumWords u.length fun v : List (Fin w) => _) = _
    have key : ∀ (n : ℕ) (v : List (Fin w)) (H : List (Fin w) → K), v.length = n →
        (sumWords n fun z => if wordOffset z = wordOffset v then H z else 0) = H v := by
      intro n v H hv
      have : (sumWords n fun z : List (Fin w) => if wordOffset z = wordOffset v then H z else 0) =
          sumWords n fun z : List (Fin w) =>
            (fun r => if r = wordOffset v then H v else 0) (wordOffset z) := by
        refine sumWords_congr fun z hz => ?_
        by_cases h : wordOffset z = wordOffset v
        · rw [if_pos h, wordOffset_inj (by omega) h]; simp
        · rw [if_neg h]; simp [h]
      rw [this, ← sum_offsets n (fun r => if r = wordOffset v then H v else 0)]
      rw [sum_ite_eq', if_pos]
      rw [mem_range, ← hv]
      exact wordOffset_lt v
    exact key u.length u _ rfl
  unfold stAdjMul
  dsimp only
  obtain ⟨out', e1, e2, e3⟩ := loop_add (P := fun b : Buf K => b.size = out.size)
    (degreesUp 0 xa)
    (fun out fd => do
      let ff ← View.atLevel ⟨w, Da, 0, xa⟩ fd
      loop (List.range ff.size) out fun out i => do
        if fd ≤ xo then
          let letters := unpackIndexToLetters w fd i
          let scalar ← arg.read (← ff.at i)
          loop (List.range (2 ^ fd)) out fun out mask => do
            let p ← packMaskedIndex w letters fd mask
            let fp ← View.atLevel ⟨w, Dp, 0, xp⟩ p.lhsDeg
            let fo ← View.atLevel ⟨w, Do, 0, xo⟩ p.rhsDeg
            let x ← op.read (← fp.at p.lhsIdx)
            out.addAt (← fo.at p.rhsIdx) (scalar * x)
        else none)
    (fun fd p => ∑ r ∈ range (w ^ fd), G fd r p)
    (by
      intro fd hfd b hb
      rw [mem_degreesUp] at hfd
      rw [View.atLevel_eq (v := ⟨w, Da, 0, xa⟩) (d := fd) ha1 (by dsimp only; omega)
        (by dsimp only; omega)]
      simp only [Option.bind_eq_bind, Option.bind_some]
      obtain ⟨b', f1, f2, f3⟩ := loop_add (P := fun b : Buf K => b.size = out.size)
        (List.range (w ^ fd))
        (fun out i => if fd ≤ xo then
          (Frag.at ⟨wordsBelow w fd, w ^ fd⟩ i).bind fun q => (arg.read q).bind fun scalar =>
          loop (List.range (2 ^ fd)) out fun out mask =>
            (packMaskedIndex w (unpackIndexToLetters w fd i) fd mask).bind fun p =>
            (View.atLevel ⟨w, Dp, 0, xp⟩ p.lhsDeg).bind fun fp =>
            (View.atLevel ⟨w, Do, 0, xo⟩ p.rhsDeg).bind fun fo =>
            (fp.at p.lhsIdx).bind fun q => (op.read q).bind fun x =>
            (fo.at p.rhsIdx).bind fun q => out.addAt q (scalar * x)
          else none)
        (fun r p => G fd r p)
        (by
          intro r hr b hb
          rw [List.mem_range] at hr
          obtain ⟨u, hu, rfl⟩ := exists_word hr
          subst hu
          rw [if_pos (by omega), frag_at_word, Option.bind_some,
            Buf.read_eq (wordIndex_lt_size (u := u) (by omega) ha2), Option.bind_some]
          obtain ⟨b', g1, g2, g3⟩ := loop_add (P := fun b : Buf K => b.size = out.size)
            (List.range (2 ^ u.length))
            (fun out mask =>
              (packMaskedIndex w (unpackIndexToLetters w u.length (wordOffset u)) u.length
                mask).bind fun p =>
              (View.atLevel ⟨w, Dp, 0, xp⟩ p.lhsDeg).bind fun fp =>
              (View.atLevel ⟨w, Do, 0, xo⟩ p.rhsDeg).bind fun fo =>
              (fp.at p.lhsIdx).bind fun q => (op.read q).bind fun x =>
              (fo.at p.rhsIdx).bind fun q => out.addAt q (arg.get (wordIndex u) * x))
            (fun m p => (fun q : List (Fin w) × List (Fin w) =>
              if p = wordIndex q.2 then A u * P q.1 else 0) (maskSplit m u))
            (by
              intro m _ b hb
              have hlen := maskSplit_length m u
              rw [packMaskedIndex_eq m u]
              simp only [Option.bind_some]
              rw [View.atLevel_eq (v := ⟨w, Dp, 0, xp⟩) hp1 (by dsimp only; omega)
                  (by dsimp only; omega),
                View.atLevel_eq (v := ⟨w, Do, 0, xo⟩) ho1 (by dsimp only; omega)
                  (by dsimp only; omega)]
              simp only [Option.bind_some]
              rw [frag_at_word, Option.bind_some,
                Buf.read_eq (wordIndex_lt_size (u := (maskSplit m u).1) (by omega) hp2),
                Option.bind_some, frag_at_word, Option.bind_some]
              have := wordIndex_lt_size (u := (maskSplit m u).2) (D := xo) (by omega) ho2
              refine ⟨_, Buf.addAt_eq (by omega) _, hb, fun p => ?_⟩
              dsimp only
              have hPu : P (maskSplit m u).1 = op.get (wordIndex (maskSplit m u).1) :=
                if_pos ⟨by dsimp only; omega, by dsimp only; omega⟩
              have hAu : A u = arg.get (wordIndex u) :=
                if_pos ⟨by dsimp only; omega, by dsimp only; omega⟩
              split_ifs with h
              · rw [h, Function.update_self, hPu, hAu]
              · rw [Function.update_of_ne h, add_zero])
            b hb
          refine ⟨b', g1, g2, fun p => ?_⟩
          rw [g3, sum_list_range, sum_masks (fun q => if p = wordIndex q.2 then A u * P q.1 else 0),
            hG])
        b hb
      refine ⟨b', f1, f2, fun p => ?_⟩
      rw [f3, sum_list_range])
    out rfl
  refine ⟨out', by simpa only [Option.bind_eq_bind] using e1, e2, fun p => ?_⟩
  rw [e3, sum_degreesUp _ (N := xa + 1) (by omega)]
  congr 1
  refine sum_congr rfl fun n hn => ?_
  rw [mem_range] at hn
  rw [if_pos ⟨by omega, by omega⟩, sum_offsets]
  refine sumWords_congr fun u hu => ?_
  subst hu
  exact hG u p

/-! ### Adjoint identities for series -/

section
variable {α K : Type*} [Fintype α] [CommRing K]

/-- `⟨a ⊳ f, x⟩ = ⟨f, a x⟩` with `(a ⊳ f)(u) = Σ_v a(v) f(vu)` -/
theorem pairing_adjoint (D : ℕ) (a f x : Series α K) :
    pairing D (fun u => ∑ n ∈ range (D + 1 - u.length),
      sumWords n fun v => a v * f (v ++ u)) x = pairing D f (a * x) := by
  unfold pairing
  have h1 : ∀ n ∈ range (D + 1), (sumWords n fun u : List α =>
      (∑ m ∈ range (D + 1 - u.length), sumWords m fun v => a v * f (v ++ u)) * x u) =
      ∑ m ∈ range (D + 1 - n), sumWords m fun v => sumWords n fun u => a v * f (v ++ u) * x u := by
    intro n _
    have : ∀ m, (sumWords m fun v : List α => sumWords n fun u => a v * f (v ++ u) * x u) =
        sumWords n fun u => (sumWords m fun v => a v * f (v ++ u)) * x u := by
      intro m
      rw [sumWords_comm]
      exact sumWords_congr fun u _ => sumWords_mul_right _ _ _
    rw [sum_congr rfl fun m _ => this m, ← sumWords_sum]
    refine sumWords_congr fun u hu => ?_
    rw [hu, sum_mul]
  have h2 : ∀ N ∈ range (D + 1), (sumWords N fun z : List α => f z * (a * x) z) =
      ∑ k ∈ range (N + 1), sumWords k fun v => sumWords (N - k) fun u =>
        a v * f (v ++ u) * x u := by
    intro N _
    have : ∀ k ∈ range (N + 1), (sumWords k fun v : List α => sumWords (N - k) fun u =>
        a v * f (v ++ u) * x u) = sumWords N fun z => f z * (a (z.take k) * x (z.drop k)) := by
      intro k hk
      rw [mem_range] at hk
      have e : N = k + (N - k) := by omega
      conv_rhs => rw [e]
      rw [sumWords_split]
      refine sumWords_congr fun v hv => sumWords_congr fun u hu => ?_
      rw [List.take_left' hv, List.drop_left' hv]
      ring
    rw [sum_congr rfl this, ← sumWords_sum]
    refine sumWords_congr fun z hz => ?_
    rw [Series.mul_apply, hz, mul_sum]
  rw [sum_congr rfl h1, sum_congr rfl h2]
  -- both sides sum over pairs `(m, n)` with `m + n ≤ D`
  have h3 : ∀ F : ℕ → ℕ → K, ∑ n ∈ range (D + 1), ∑ m ∈ range (D + 1 - n), F m n =
      ∑ N ∈ range (D + 1), ∑ k ∈ range (N + 1), F k (N - k) := by
    intro F
    rw [sum_sigma', sum_sigma']
    refine sum_bij' (fun s _ => ⟨s.1 + s.2, s.2⟩) (fun s _ => ⟨s.1 - s.2, s.2⟩) ?_ ?_ ?_ ?_ ?_
    · rintro ⟨n, m⟩ h; simp only [mem_sigma, mem_range] at h ⊢; omega
    · rintro ⟨n, m⟩ h; simp only [mem_sigma, mem_range] at h ⊢; omega
    · rintro ⟨n, m⟩ h; simp
    · rintro ⟨n, m⟩ h
      simp only [mem_sigma, mem_range] at h
      simp only [Sigma.mk.injEq, heq_eq_eq, and_true]; omega
    · rintro ⟨n, m⟩ h; simp
  exact h3 fun m n => sumWords m fun v => sumWords n fun u => a v * f (v ++ u) * x u

/-- splitting off the sub-word `v` in all ways and pairing the rest -/
theorem pairing_shuffle_adjoint [DecidableEq α] (D : ℕ) (a f x : Series α K) :
    pairing D (fun v => ∑ n ∈ range (D + 1), sumWords n fun u =>
      ((splittings u).map fun q => if v = q.2 then f u * a q.1 else 0).sum) x =
      pairing D f (Series.shuffle a x) := by
  unfold pairing
  have h1 : ∀ m ∈ range (D + 1), (sumWords m fun v : List α =>
      (∑ n ∈ range (D + 1), sumWords n fun u =>
        ((splittings u).map fun q => if v = q.2 then f u * a q.1 else 0).sum) * x v) =
      ∑ n ∈ range (D + 1), sumWords n fun u => sumWords m fun v =>
        ((splittings u).map fun q => if v = q.2 then f u * (a q.1 * x q.2) else 0).sum := by
    intro m _
    have : ∀ n, (sumWords n fun u : List α => sumWords m fun v =>
        ((splittings u).map fun q => if v = q.2 then f u * (a q.1 * x q.2) else 0).sum) =
        sumWords m fun v => (sumWords n fun u =>
        ((splittings u).map fun q => if v = q.2 then f u * a q.1 else 0).sum) * x v := by
      intro n
      rw [sumWords_comm]
      refine sumWords_congr fun v _ => ?_
      rw [← sumWords_mul_right]
      refine sumWords_congr fun u _ => ?_
      rw [← List.sum_map_mul_right]
      congr 1
      refine List.map_congr_left fun q _ => ?_
      split_ifs with h
      · rw [h, mul_assoc]
      · rw [zero_mul]
    rw [sum_congr rfl fun n _ => this n, ← sumWords_sum]
    exact sumWords_congr fun v _ => by rw [sum_mul]
  rw [sum_congr rfl h1, sum_comm]
  refine sum_congr rfl fun n hn => ?_
  rw [← sumWords_sum]
  refine sumWords_congr fun u hu => ?_
  rw [mem_range] at hn
  -- every splitting has its second component of exactly one length `≤ D`
  have h2 : ∀ l : List (List α × List α), (∀ q ∈ l, q.2.length < D + 1) → ∀ F : _ → K,
      ∑ m ∈ range (D + 1), (sumWords m fun v => (l.map fun q => if v = q.2 then F q else 0).sum) =
      (l.map F).sum := by
    intro l
    induction l with
    | nil => intro _ F; simp [sumWords_zero]
    | cons q l ih =>
      intro hl F
      simp only [List.map_cons, List.sum_cons, sumWords_add_fun, sum_add_distrib]
      rw [ih (fun q' h' => hl q' (by simp [h'])) F]
      congr 1
      have h3 : ∀ (m : ℕ) (z : List α) (c : K),
          (sumWords m fun v => if v = z then c else 0) = if m = z.length then c else 0 := by
        intro m
        induction m with
        | zero =>
          intro z c
          cases z <;> simp [sumWords]
        | succ m ihm =>
          intro z c
          cases z with
          | nil => simp [sumWords, sumWords_zero]
          | cons b z =>
            simp only [sumWords, List.cons.injEq, List.length_cons, Nat.add_right_cancel_iff]
            rw [sum_eq_single b]
            · simp only [true_and]; exact ihm z c
            · intro a' _ hne; simp [hne, sumWords_zero]
            · intro h; exact absurd (mem_univ b) h
      rw [sum_congr rfl fun m _ => h3 m q.2 (F q), sum_ite_eq' , if_pos]
      exact mem_range.2 (hl q (by simp))
  rw [h2 _ (fun q hq => by have := splittings_length u q hq; omega)
    (fun q => f u * (a q.1 * x q.2)), Series.shuffle, List.sum_map_mul_left]

end

end RoughPy.Tensor
