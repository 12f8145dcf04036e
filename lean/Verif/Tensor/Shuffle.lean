import Verif.Tensor.MulLemmas

/-! # The shuffle product: algebra and kernels -/

set_option linter.unusedSectionVars false

open Finset

namespace RoughPy.Tensor

namespace Series

variable {α K : Type*} [CommRing K]

theorem shuffle_nil (f g : Series α K) : shuffle f g [] = f [] * g [] := by
  simp [shuffle, splittings]

theorem shuffle_cons (f g : Series α K) (a : α) (u : List α) :
    shuffle f g (a :: u) = shuffle (ld a f) g u + shuffle f (ld a g) u := by
  simp [shuffle, splittings, List.map_append, List.sum_append, List.map_map, Function.comp_def, ld]

theorem ld_shuffle (f g : Series α K) (a : α) :
    ld a (shuffle f g) = shuffle (ld a f) g + shuffle f (ld a g) := by
  ext u; exact shuffle_cons f g a u

theorem shuffle_add_left (f f' g : Series α K) :
    shuffle (f + f') g = shuffle f g + shuffle f' g := by
  ext u
  simp only [shuffle, Series.add_apply, add_mul]
  induction splittings u with
  | nil => simp
  | cons p l ih => simp only [List.map_cons, List.sum_cons, ih]; ring

theorem shuffle_comm (f g : Series α K) : shuffle f g = shuffle g f := by
  ext u
  induction u generalizing f g with
  | nil => rw [shuffle_nil, shuffle_nil, mul_comm]
  | cons a u ih => rw [shuffle_cons, shuffle_cons, ih, ih f, add_comm]

theorem shuffle_add_right (f g g' : Series α K) :
    shuffle f (g + g') = shuffle f g + shuffle f g' := by
  rw [shuffle_comm, shuffle_add_left, shuffle_comm g, shuffle_comm g']

theorem shuffle_smul_left (c : K) (f g : Series α K) : shuffle (c • f) g = c • shuffle f g := by
  ext u
  simp only [shuffle, Series.smul_apply]
  rw [← List.sum_map_mul_left]
  simp only [mul_assoc]

theorem shuffle_smul_right (c : K) (f g : Series α K) : shuffle f (c • g) = c • shuffle f g := by
  rw [shuffle_comm, shuffle_smul_left, shuffle_comm]

theorem shuffle_assoc (f g h : Series α K) :
    shuffle (shuffle f g) h = shuffle f (shuffle g h) := by
  ext u
  induction u generalizing f g h with
  | nil => simp only [shuffle_nil, mul_assoc]
  | cons a u ih =>
    rw [shuffle_cons, shuffle_cons, ld_shuffle, ld_shuffle, shuffle_add_left, shuffle_add_right,
      Series.add_apply, Series.add_apply, ih, ih, ih, add_assoc]

theorem shuffle_zero_right (f : Series α K) : shuffle f 0 = 0 := by
  have := shuffle_smul_right (0 : K) f 0
  rwa [zero_smul, zero_smul] at this

theorem shuffle_one (f : Series α K) : shuffle f 1 = f := by
  ext u
  induction u generalizing f with
  | nil => rw [shuffle_nil, one_nil, mul_one]
  | cons a u ih =>
    rw [shuffle_cons, ih]
    have : ld a (1 : Series α K) = 0 := by ext v; rfl
    rw [this, shuffle_zero_right, zero_apply, add_zero]
    rfl

end Series

/-! ### Masks -/

theorem splittings_length {α : Type*} (u : List α) :
    ∀ p ∈ splittings u, p.1.length + p.2.length = u.length := by
  induction u with
  | nil => simp [splittings]
  | cons a u ih =>
    intro p hp
    simp only [splittings, List.mem_append, List.mem_map] at hp
    rcases hp with ⟨q, hq, rfl⟩ | ⟨q, hq, rfl⟩ <;> have := ih q hq <;> simp <;> omega

theorem unpack_eq {w : ℕ} (u : List (Fin w)) :
    unpackIndexToLetters w u.length (wordOffset u) = (u.map Fin.val).reverse := by
  induction u using List.reverseRecOn with
  | nil => rfl
  | append_singleton u a ih =>
    have hlen : (u ++ [a]).length = u.length + 1 := by simp
    have hoff : wordOffset (u ++ [a]) = wordOffset u * w + a.val := by
      rw [wordOffset_append, wordOffset_singleton]; simp
    rw [hlen, unpackIndexToLetters, hoff]
    have h1 : (wordOffset u * w + a.val) % w = a.val := by
      rw [mul_comm, Nat.mul_add_mod, Nat.mod_eq_of_lt a.isLt]
    have h2 : (wordOffset u * w + a.val) / w = wordOffset u := by
      have := a.isLt
      rw [mul_comm, Nat.mul_add_div (by omega), Nat.div_eq_of_lt a.isLt, add_zero]
    rw [h1, h2, ih]
    simp

/-- the splitting selected by a mask; the first letter is governed by the highest bit -/
def maskSplit {α : Type*} (mask : ℕ) : List α → List α × List α
  | [] => ([], [])
  | a :: u =>
    if maskBit mask u.length then (a :: (maskSplit mask u).1, (maskSplit mask u).2)
    else ((maskSplit mask u).1, a :: (maskSplit mask u).2)

/-- appending one letter of the packing -/
theorem pack_loop {w : ℕ} (mask : ℕ) (u : List (Fin w)) (rest : List ℕ) (st : Packed) :
    loop (List.range u.length).reverse st (fun st d => do
      let l ← ((u.map Fin.val).reverse ++ rest)[d]?
      if maskBit mask d then some { st with lhsDeg := st.lhsDeg + 1, lhsIdx := st.lhsIdx * w + l }
      else some { st with rhsDeg := st.rhsDeg + 1, rhsIdx := st.rhsIdx * w + l }) =
    some ⟨st.lhsDeg + (maskSplit mask u).1.length,
      st.lhsIdx * w ^ (maskSplit mask u).1.length + wordOffset (maskSplit mask u).1,
      st.rhsDeg + (maskSplit mask u).2.length,
      st.rhsIdx * w ^ (maskSplit mask u).2.length + wordOffset (maskSplit mask u).2⟩ := by
  induction u generalizing st rest with
  | nil => simp [maskSplit, loop_nil, wordOffset]
  | cons a u ih =>
    have hl : (a :: u).length = u.length + 1 := rfl
    rw [hl, List.range_succ, List.reverse_append, List.reverse_singleton, List.singleton_append,
      loop_cons]
    have hlist : ((a :: u).map Fin.val).reverse ++ rest =
        (u.map Fin.val).reverse ++ (a.val :: rest) := by simp
    have hget : (((a :: u).map Fin.val).reverse ++ rest)[u.length]? = some a.val := by
      rw [hlist, List.getElem?_append_right (by simp)]
      simp
    rw [hget]
    simp only [Option.bind_eq_bind, Option.bind_some]
    rw [hlist]
    have ih' := ih (a.val :: rest)
    simp only [Option.bind_eq_bind] at ih'
    by_cases hb : maskBit mask u.length
    · rw [if_pos hb, Option.bind_some, ih']
      simp only [maskSplit, hb, if_true, List.length_cons, wordOffset, Option.some.injEq,
        Packed.mk.injEq, and_true]
      refine ⟨by omega, ?_⟩
      rw [pow_succ]; ring
    · rw [if_neg hb, Option.bind_some, ih']
      simp only [maskSplit, hb, List.length_cons, wordOffset, Option.some.injEq,
        Packed.mk.injEq, true_and, Bool.false_eq_true, if_false]
      refine ⟨by omega, ?_⟩
      rw [pow_succ]; ring

theorem packMaskedIndex_eq {w : ℕ} (mask : ℕ) (u : List (Fin w)) :
    packMaskedIndex w (unpackIndexToLetters w u.length (wordOffset u)) u.length mask =
    some ⟨(maskSplit mask u).1.length, wordOffset (maskSplit mask u).1,
      (maskSplit mask u).2.length, wordOffset (maskSplit mask u).2⟩ := by
  have := pack_loop mask u [] ⟨0, 0, 0, 0⟩
  rw [List.append_nil] at this
  unfold packMaskedIndex
  rw [unpack_eq, this]
  simp

theorem maskSplit_congr {α : Type*} {m m' : ℕ} (u : List α)
    (h : ∀ i, i < u.length → maskBit m i = maskBit m' i) : maskSplit m u = maskSplit m' u := by
  induction u with
  | nil => rfl
  | cons a u ih =>
    rw [maskSplit, maskSplit, ih fun i hi => h i (by simp; omega), h u.length (by simp)]

theorem maskBit_add {m n i : ℕ} (hi : i < n) : maskBit (m + 2 ^ n) i = maskBit m i := by
  unfold maskBit
  obtain ⟨e, rfl⟩ : ∃ e, n = i + 1 + e := ⟨n - (i + 1), by omega⟩
  have h : m + 2 ^ (i + 1 + e) = m + 2 ^ i * (2 * 2 ^ e) := by rw [pow_add, pow_succ]; ring
  rw [h, Nat.add_mul_div_left _ _ (by positivity), Nat.add_mul_mod_self_left]

theorem sum_masks {α M : Type*} [AddCommMonoid M] (F : List α × List α → M) (u : List α) :
    ∑ m ∈ range (2 ^ u.length), F (maskSplit m u) = ((splittings u).map F).sum := by
  induction u generalizing F with
  | nil => simp [maskSplit, splittings]
  | cons a u ih =>
    have hl : (a :: u).length = u.length + 1 := rfl
    rw [hl, pow_succ, mul_two, sum_range_add]
    have h0 : ∀ m ∈ range (2 ^ u.length), F (maskSplit m (a :: u)) =
        (fun p : List α × List α => F (p.1, a :: p.2)) (maskSplit m u) := by
      intro m hm
      rw [mem_range] at hm
      have : ¬ maskBit m u.length = true := by
        unfold maskBit; rw [Nat.div_eq_of_lt hm]; simp
      rw [maskSplit, if_neg this]
    have h1 : ∀ m ∈ range (2 ^ u.length), F (maskSplit (2 ^ u.length + m) (a :: u)) =
        (fun p : List α × List α => F (a :: p.1, p.2)) (maskSplit m u) := by
      intro m hm
      rw [mem_range] at hm
      have hb : maskBit (2 ^ u.length + m) u.length = true := by
        unfold maskBit
        rw [add_comm, Nat.add_div_right _ (by positivity), Nat.div_eq_of_lt hm]; simp
      have hc : maskSplit (2 ^ u.length + m) u = maskSplit m u :=
        maskSplit_congr u fun i hi => by rw [add_comm]; exact maskBit_add hi
      rw [maskSplit, if_pos hb, hc]
    rw [sum_congr rfl h0, sum_congr rfl h1, ih (fun p => F (p.1, a :: p.2)),
      ih (fun p => F (a :: p.1, p.2)), splittings, List.map_append, List.sum_append,
      List.map_map, List.map_map, add_comm]
    rfl

theorem maskSplit_length {α : Type*} (m : ℕ) (u : List α) :
    (maskSplit m u).1.length + (maskSplit m u).2.length = u.length := by
  induction u with
  | nil => rfl
  | cons a u ih =>
    rw [maskSplit]
    split_ifs <;> simp <;> omega

/-! ### The multiply-add kernel -/

variable {K : Type} [CommRing K]

/-- a loop accumulating a scalar -/
theorem loop_acc {n : ℕ} (body : K → ℕ → Option K) (F : ℕ → K)
    (h : ∀ acc i, i < n → body acc i = some (acc + F i)) (acc : K) :
    loop (List.range n) acc body = some (acc + ∑ i ∈ range n, F i) := by
  obtain ⟨s, h1, h2⟩ := loop_range_inv (fun i (s : K) => s = acc + ∑ j ∈ range i, F j) n body acc
    (by simp) (by
      rintro i hi s rfl
      exact ⟨_, h _ i hi, by rw [sum_range_succ, add_assoc]⟩)
  rw [h1, h2]

theorem wordIndex_lt_size {w D n : ℕ} {u : List (Fin w)} (hu : u.length ≤ D)
    (h : wordsBelow w (D + 1) ≤ n) : wordIndex u < n := lt_of_lt_of_le (wordIndex_lt hu) h

theorem frag_at_word {w : ℕ} (u : List (Fin w)) :
    Frag.at ⟨wordsBelow w u.length, w ^ u.length⟩ (wordOffset u) = some (wordIndex u) :=
  Frag.at_eq (wordOffset_lt u)

theorem stFma_word {op : K → K} {vo vl vr : View} {out lhs rhs : Buf K}
    (hwl : vl.width = vo.width) (hwr : vr.width = vo.width)
    (hvo : vo.Valid out.size) (hvl : vl.Valid lhs.size) (hvr : vr.Valid rhs.size)
    (h0 : vo.minDeg = 0) (h0l : vl.minDeg = 0) (h0r : vr.minDeg = 0)
    (hlo : vl.maxDeg ≤ vo.maxDeg) (hlr : vl.maxDeg ≤ vr.maxDeg) :
    ∃ out', stFma op vo vl vr out lhs rhs = some out' ∧ out'.size = out.size ∧
      (∀ u : List (Fin vo.width), u.length ≤ vl.maxDeg → out'.get (wordIndex u) =
        out.get (wordIndex u) + op (Series.shuffle (vl.series vo.width lhs)
          (vr.series vo.width rhs) u)) ∧
      (∀ p, wordsBelow vo.width (vl.maxDeg + 1) ≤ p → out'.get p = out.get p) := by
  obtain ⟨w, Do, mo, xo⟩ := vo
  obtain ⟨wl, Dl, ml, xl⟩ := vl
  obtain ⟨wr, Dr, mr, xr⟩ := vr
  obtain rfl : wl = w := hwl
  rename' wl => w
  obtain rfl : wr = w := hwr
  rename' wr => w
  obtain ⟨ho1, ho2⟩ := hvo
  obtain ⟨hl1, hl2⟩ := hvl
  obtain ⟨hr1, hr2⟩ := hvr
  dsimp only at *
  subst h0 h0l h0r
  set L := View.series ⟨w, Dl, 0, xl⟩ w lhs with hL
  set R := View.series ⟨w, Dr, 0, xr⟩ w rhs with hR
  have hi0 : wordIndex ([] : List (Fin w)) = 0 := by simp [wordIndex, wordOffset, wordsBelow]
  have hpos : ∀ {D n}, wordsBelow w (D + 1) ≤ n → 0 < n := fun {D n} h => by
    have := wordIndex_lt_size (u := ([] : List (Fin w))) (D := D) (by simp) h; omega
  unfold stFma
  rw [Buf.read_eq (hpos hl2), Buf.read_eq (hpos hr2)]
  simp only [Option.bind_eq_bind, Option.bind_some]
  rw [Buf.addAt_eq (hpos ho2)]
  simp only [Option.bind_some]
  -- invariant: words of degree < k treated
  let J : ℕ → Buf K → Prop := fun k s => s.size = out.size ∧
    (∀ u : List (Fin w), u.length < k →
      s.get (wordIndex u) = out.get (wordIndex u) + op (Series.shuffle L R u)) ∧
    (∀ p, wordsBelow w k ≤ p → s.get p = out.get p)
  obtain ⟨out', e1, e2⟩ := loop_map_range_inv (fun i s => J (1 + i) s) (xl + 1 - 1)
    (fun i => 1 + i) (fun out od => do
    let fo ← View.atLevel ⟨w, Do, 0, xo⟩ od
    loop (List.range (w ^ od)) out fun out i => do
      if od ≤ xo then
        let letters := unpackIndexToLetters w od i
        let acc ← loop (List.range (2 ^ od)) (0 : K) fun acc mask => do
          let p ← packMaskedIndex w letters od mask
          let fl ← View.atLevel ⟨w, Dl, 0, xl⟩ p.lhsDeg
          let fr ← View.atLevel ⟨w, Dr, 0, xr⟩ p.rhsDeg
          let x ← lhs.read (← fl.at p.lhsIdx)
          let y ← rhs.read (← fr.at p.rhsIdx)
          some (acc + x * y)
        out.addAt (← fo.at i) (op acc)
      else none) ⟨out.size, Function.update out.get 0 (out.get 0 + op (lhs.get 0 * rhs.get 0))⟩
    ⟨rfl, fun u hu => by
      obtain rfl := List.length_eq_zero_iff.1 (by omega : u.length = 0)
      rw [hi0]
      dsimp only
      rw [Function.update_self, Series.shuffle_nil, hL, hR]
      simp [View.series, hi0], fun p hp => by
      dsimp only
      rw [Function.update_of_ne]
      have : wordsBelow w 1 = 1 := by simp [wordsBelow]
      rw [add_zero] at hp
      omega⟩ (by
      rintro i hi s ⟨hs1, hs2, hs3⟩
      set od := 1 + i with hod
      have hodl : od ≤ xl := by omega
      rw [View.atLevel_eq (v := ⟨w, Do, 0, xo⟩) (d := od) ho1 (by dsimp only; omega)
        (by dsimp only; omega)]
      simp only [Option.bind_eq_bind, Option.bind_some]
      have hacc : ∀ u : List (Fin w), u.length = od →
          (loop (List.range (2 ^ od)) (0 : K) fun acc mask =>
            (packMaskedIndex w (unpackIndexToLetters w od (wordOffset u)) od mask).bind fun p =>
            (View.atLevel ⟨w, Dl, 0, xl⟩ p.lhsDeg).bind fun fl =>
            (View.atLevel ⟨w, Dr, 0, xr⟩ p.rhsDeg).bind fun fr =>
            (fl.at p.lhsIdx).bind fun il => (lhs.read il).bind fun x =>
            (fr.at p.rhsIdx).bind fun ir => (rhs.read ir).bind fun y =>
            some (acc + x * y)) = some (Series.shuffle L R u) := by
        intro u hu
        have := loop_acc (n := 2 ^ od) (fun acc mask =>
            (packMaskedIndex w (unpackIndexToLetters w od (wordOffset u)) od mask).bind fun p =>
            (View.atLevel ⟨w, Dl, 0, xl⟩ p.lhsDeg).bind fun fl =>
            (View.atLevel ⟨w, Dr, 0, xr⟩ p.rhsDeg).bind fun fr =>
            (fl.at p.lhsIdx).bind fun il => (lhs.read il).bind fun x =>
            (fr.at p.rhsIdx).bind fun ir => (rhs.read ir).bind fun y =>
            some (acc + x * y))
            (fun m => L (maskSplit m u).1 * R (maskSplit m u).2) (by
              intro acc m _
              have hlen := maskSplit_length m u
              rw [← hu, packMaskedIndex_eq m u]
              simp only [Option.bind_some]
              rw [View.atLevel_eq (v := ⟨w, Dl, 0, xl⟩) hl1 (by dsimp only; omega)
                  (by dsimp only; omega),
                View.atLevel_eq (v := ⟨w, Dr, 0, xr⟩) hr1 (by dsimp only; omega)
                  (by dsimp only; omega)]
              simp only [Option.bind_some]
              rw [frag_at_word, Option.bind_some]
              rw [Buf.read_eq (wordIndex_lt_size (u := (maskSplit m u).1) (by omega) hl2)]
              rw [Option.bind_some, frag_at_word, Option.bind_some]
              rw [Buf.read_eq (wordIndex_lt_size (u := (maskSplit m u).2) (by omega) hr2)]
              rw [Option.bind_some, hL, hR]
              unfold View.series
              rw [if_pos ⟨by dsimp only; omega, by dsimp only; omega⟩,
                if_pos ⟨by dsimp only; omega, by dsimp only; omega⟩]) 0
        rw [this, zero_add, ← hu, sum_masks (fun p => L p.1 * R p.2)]
        rfl
      obtain ⟨s', f1, f2, f3⟩ := loop_range_inv
        (fun j (t : Buf K) => t.size = out.size ∧ ∀ p, t.get p = s.get p +
          (if wordsBelow w od ≤ p ∧ p < wordsBelow w od + j then t.get p - s.get p else 0) ∧
          (∀ u : List (Fin w), u.length = od → wordOffset u < j →
            t.get (wordIndex u) = s.get (wordIndex u) + op (Series.shuffle L R u)))
        (w ^ od) (fun out i => if od ≤ xo then
          (loop (List.range (2 ^ od)) (0 : K) fun acc mask =>
            (packMaskedIndex w (unpackIndexToLetters w od i) od mask).bind fun p =>
            (View.atLevel ⟨w, Dl, 0, xl⟩ p.lhsDeg).bind fun fl =>
            (View.atLevel ⟨w, Dr, 0, xr⟩ p.rhsDeg).bind fun fr =>
            (fl.at p.lhsIdx).bind fun il => (lhs.read il).bind fun x =>
            (fr.at p.rhsIdx).bind fun ir => (rhs.read ir).bind fun y =>
            some (acc + x * y)).bind fun acc =>
          (Frag.at ⟨wordsBelow w od, w ^ od⟩ i).bind fun io => out.addAt io (op acc)
          else none) s
        ⟨hs1, fun p => ⟨by rw [if_neg (by omega), add_zero], fun u _ h => by omega⟩⟩ (by
          rintro j hj t ⟨ht, htg⟩
          obtain ⟨u, hu1, rfl⟩ := exists_word hj
          rw [if_pos (by omega), hacc u hu1, Option.bind_some, Frag.at_eq (by exact hj),
            Option.bind_some]
          have hidx : wordsBelow w od + wordOffset u = wordIndex u := by rw [wordIndex, hu1]
          dsimp only
          rw [hidx]
          have hlt := wordIndex_lt_size (u := u) (D := xo) (by omega) ho2
          refine ⟨_, Buf.addAt_eq (by omega) _, ht, fun p => ⟨?_, fun v hv1 hv2 => ?_⟩⟩
          · dsimp only
            split_ifs with h
            · ring
            · rw [Function.update_of_ne (by omega), add_zero, (htg p).1, if_neg (by omega),
                add_zero]
          · dsimp only
            by_cases hvu : v = u
            · subst hvu
              rw [Function.update_self, (htg _).1, if_neg (by omega), add_zero]
            · rw [Function.update_of_ne (fun h => hvu (wordIndex_inj h))]
              refine (htg p).2 v hv1 ?_
              have : wordOffset v ≠ wordOffset u := fun h => hvu (wordOffset_inj (by omega) h)
              omega)
      refine ⟨s', f1, f2, fun u hu => ?_, fun p hp => ?_⟩
      · by_cases h : u.length = od
        · rw [(f3 0).2 u h (by rw [← h]; exact wordOffset_lt u), hs3]
          rw [wordIndex, h]; omega
        · have hlt : wordIndex u < wordsBelow w od := by
            have := wordIndex_lt (u := u) (D := od - 1) (by omega)
            rwa [show od - 1 + 1 = od by omega] at this
          rw [(f3 _).1, if_neg (by omega), add_zero, hs2 u (by omega)]
      · rw [show 1 + (i + 1) = od + 1 by omega, wordsBelow_succ] at hp
        rw [(f3 _).1, if_neg (by omega), add_zero, hs3 p (by omega)])
  refine ⟨out', ?_, e2.1, fun u hu => e2.2.1 u (by omega), fun p hp => e2.2.2 p ?_⟩
  · rw [degreesUp_eq]
    simpa only [Option.bind_eq_bind] using e1
  · rwa [show 1 + (xl + 1 - 1) = xl + 1 by omega]

end RoughPy.Tensor
