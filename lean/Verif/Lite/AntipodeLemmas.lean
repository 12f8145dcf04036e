import Verif.Lite.AntipodeModel
import Verif.Lite.AlgLemmas
import Verif.Tensor.Antipode
import Verif.Tensor.KeyLemmas

/-! # Lemmas on the antipode of free tensors -/

set_option linter.unusedSectionVars false

namespace RoughPy.Lite

open RoughPy.Tensor (reverseIdx loop Series wordOffset wordIndex wordsBelow InLevel unpackWord)
open RoughPy.Tensor

/-! ### Loops of assignments -/

section loops
variable {K : Type}

theorem loop_append {σ ι : Type} (a b : List ι) (s : σ) (body : σ → ι → Option σ) :
    loop (a ++ b) s body = (loop a s body).bind fun s => loop b s body := by
  unfold loop
  rw [List.foldlM_append]; rfl

theorem loop_map {σ ι κ : Type} (f : κ → ι) (l : List κ) (s : σ) (body : σ → ι → Option σ) :
    loop (l.map f) s body = loop l s fun s x => body s (f x) := by
  unfold loop
  rw [List.foldlM_map]

theorem loop_loop {σ ι κ : Type} (l : List ι) (m : List κ) (s : σ) (body : σ → ι → κ → Option σ) :
    loop l s (fun s i => loop m s fun s j => body s i j) =
      loop (l ×ˢ m) s fun s p => body s p.1 p.2 := by
  induction l generalizing s with
  | nil => rfl
  | cons i l ih =>
    rw [loop_cons, List.product_cons, loop_append, loop_map]
    congr 1
    funext s
    exact ih s

/-- A loop of assignments, in which places assigned to twice get the same value. -/
theorem loop_set {ι : Type} (L : List ι) (f : ι → ℕ) (v : ι → K)
    (body : List K → ι → Option (List K)) (b : List K)
    (hbody : ∀ s x, x ∈ L → s.length = b.length → body s x = some (s.set (f x) (v x)))
    (hlt : ∀ x ∈ L, f x < b.length)
    (hc : ∀ x ∈ L, ∀ y ∈ L, f x = f y → v x = v y) :
    ∃ b', loop L b body = some b' ∧ b'.length = b.length ∧
      (∀ x ∈ L, b'[f x]? = some (v x)) ∧ ∀ p, (∀ x ∈ L, f x ≠ p) → b'[p]? = b[p]? := by
  induction L generalizing b with
  | nil => exact ⟨b, rfl, rfl, by simp, fun _ _ => rfl⟩
  | cons a L ih =>
    obtain ⟨b', h1, h2, h3, h4⟩ := ih (b.set (f a) (v a))
      (fun s x hx hs => hbody s x (List.mem_cons_of_mem _ hx) (by simpa using hs))
      (fun x hx => by simpa using hlt x (List.mem_cons_of_mem _ hx))
      (fun x hx y hy => hc x (List.mem_cons_of_mem _ hx) y (List.mem_cons_of_mem _ hy))
    refine ⟨b', ?_, by simpa using h2, fun x hx => ?_, fun p hp => ?_⟩
    · rw [loop_cons, hbody b a List.mem_cons_self rfl]
      exact h1
    · rcases List.mem_cons.1 hx with rfl | hx
      · by_cases h : ∃ y ∈ L, f y = f x
        · obtain ⟨y, hy, hy'⟩ := h
          rw [← hy', h3 y hy, hc y (List.mem_cons_of_mem _ hy) x List.mem_cons_self hy']
        · rw [h4 (f x) (fun y hy h' => h ⟨y, hy, h'⟩), List.getElem?_set_self]
          exact hlt x List.mem_cons_self
      · exact h3 x hx
    · rw [h4 p (fun x hx => hp x (List.mem_cons_of_mem _ hx)),
        List.getElem?_set_ne (hp a List.mem_cons_self)]

theorem assignAt_eq {l : List K} {i : ℕ} (h : i < l.length) (x : K) :
    assignAt l i x = some (l.set i x) := if_pos h

end loops

/-! ### The permutation of a tile -/

section perm
variable {K : Type}

/-- Composition of the exchanges collected up to index `k`. -/
structure PermInv (N : ℕ) (σ : ℕ → ℕ) (K : Type) (k : ℕ) (st : List ℕ × List (ℕ × ℕ)) : Prop where
  seen : ∀ p, p < N → (p ∈ st.1 ↔ σ p ≠ p ∧ (p < k ∨ σ p < k))
  perm : ∀ T : List K, T.length = N → ∃ T', loop st.2 T swapAt = some T' ∧ T'.length = N ∧
    ∀ p, p < N → T'[p]? = if p ∈ st.1 then T[σ p]? else T[p]?

theorem PermInv.step {N : ℕ} {σ : ℕ → ℕ} (hσ : ∀ p, p < N → σ p < N ∧ σ (σ p) = p) {k : ℕ}
    (hk : k < N) {st : List ℕ × List (ℕ × ℕ)} (h : PermInv N σ K k st) :
    PermInv N σ K (k + 1)
      (if σ k ≠ k ∧ k ∉ st.1 then (k :: σ k :: st.1, st.2 ++ [(k, σ k)]) else st) := by
  by_cases hc : σ k ≠ k ∧ k ∉ st.1
  · rw [if_pos hc]
    have hkσ : ¬ σ k < k := fun h' => hc.2 ((h.seen k hk).2 ⟨hc.1, Or.inr h'⟩)
    have hσk : σ k ∉ st.1 := fun h' => by
      have := ((h.seen (σ k) (hσ k hk).1).1 h').2
      rw [(hσ k hk).2] at this
      omega
    refine ⟨fun p hp => ?_, fun T hT => ?_⟩
    · simp only [List.mem_cons]
      constructor
      · rintro (rfl | rfl | h')
        · exact ⟨hc.1, Or.inl (by omega)⟩
        · rw [(hσ k hk).2]
          exact ⟨Ne.symm hc.1, Or.inr (by omega)⟩
        · obtain ⟨h1, h2⟩ := (h.seen p hp).1 h'
          exact ⟨h1, by omega⟩
      · rintro ⟨h1, h2⟩
        by_cases hpk : p = k
        · exact Or.inl hpk
        · by_cases hσp : σ p = k
          · right; left; rw [← hσp, (hσ p hp).2]
          · right; right
            exact (h.seen p hp).2 ⟨h1, by omega⟩
    · obtain ⟨T', h1, h2, h3⟩ := h.perm T hT
      have hk1 := h3 k hk
      rw [if_neg hc.2] at hk1
      have hk2 := h3 (σ k) (hσ k hk).1
      rw [if_neg hσk] at hk2
      obtain ⟨x, hx⟩ : ∃ x, T[k]? = some x := ⟨_, List.getElem?_eq_getElem (by omega)⟩
      obtain ⟨y, hy⟩ : ∃ y, T[σ k]? = some y :=
        ⟨_, List.getElem?_eq_getElem (by rw [hT]; exact (hσ k hk).1)⟩
      refine ⟨(T'.set k y).set (σ k) x, ?_, by simpa using h2, fun p hp => ?_⟩
      · rw [loop_append, h1]
        dsimp only [Option.bind_some]
        rw [loop_cons, swapAt]
        dsimp only
        rw [hk1, hk2, hx, hy]
        rfl
      · by_cases hp1 : p = σ k
        · subst hp1
          rw [List.getElem?_set_self (by simp; rw [h2]; exact (hσ k hk).1), if_pos (by simp),
            (hσ k hk).2, hx]
        · rw [List.getElem?_set_ne (Ne.symm hp1)]
          by_cases hp2 : p = k
          · subst hp2
            rw [List.getElem?_set_self (by omega), if_pos (by simp), hy]
          · rw [List.getElem?_set_ne (Ne.symm hp2), h3 p hp]
            simp [hp1, hp2]
  · rw [if_neg hc]
    refine ⟨fun p hp => ?_, h.perm⟩
    rw [h.seen p hp]
    constructor
    · rintro ⟨h1, h2⟩; exact ⟨h1, by omega⟩
    · rintro ⟨h1, h2⟩
      refine ⟨h1, ?_⟩
      by_cases hpk : p = k
      · subst hpk
        have : p ∈ st.1 := by
          by_contra h'; exact hc ⟨h1, h'⟩
        exact ((h.seen p hp).1 this).2
      · by_cases hσp : σ p = k
        · have hσk : σ k = p := by rw [← hσp, (hσ p hp).2]
          have : k ∈ st.1 := by
            by_contra h'
            exact hc ⟨by rw [hσk]; exact hpk, h'⟩
          have := ((h.seen k hk).1 this).2
          rw [hσk] at this
          omega
        · omega

/-- the permutation of the entries of a tile -/
def tilePerm (w t p : ℕ) : ℕ := reverseIdx w t (p % w ^ t) * w ^ t + reverseIdx w t (p / w ^ t)

theorem reverseIdx_off {w : ℕ} (u : List (Fin w)) :
    reverseIdx w u.length (wordOffset u) = wordOffset u.reverse := by
  have := reverseKey_keyOf u
  unfold reverseKey keyOf at this
  exact (RoughPy.Tensor.Key.mk.inj this).2

theorem reverseIdx_lt {w t i : ℕ} (h : i < w ^ t) : reverseIdx w t i < w ^ t := by
  obtain ⟨u, rfl, rfl⟩ := exists_word h
  rw [reverseIdx_off]
  have := wordOffset_lt u.reverse
  rwa [List.length_reverse] at this

theorem reverseIdx_reverseIdx {w t i : ℕ} (h : i < w ^ t) :
    reverseIdx w t (reverseIdx w t i) = i := by
  obtain ⟨u, rfl, rfl⟩ := exists_word h
  rw [reverseIdx_off]
  have := reverseIdx_off u.reverse
  rwa [List.length_reverse, List.reverse_reverse] at this

theorem mul_add_lt {a b n m : ℕ} (ha : a < n) (hb : b < m) : a * m + b < n * m := by
  have : (a + 1) * m ≤ n * m := Nat.mul_le_mul_right _ ha
  rw [add_mul, one_mul] at this
  omega

theorem mul_add_mod' {a b m : ℕ} (hb : b < m) : (a * m + b) % m = b := by
  rw [mul_comm, Nat.mul_add_mod, Nat.mod_eq_of_lt hb]

theorem mul_add_div' {a b m : ℕ} (hb : b < m) : (a * m + b) / m = a := by
  rw [mul_comm, Nat.mul_add_div (by omega), Nat.div_eq_of_lt hb, add_zero]

theorem tilePerm_mul_add {w t a b : ℕ} (hb : b < w ^ t) :
    tilePerm w t (a * w ^ t + b) = reverseIdx w t b * w ^ t + reverseIdx w t a := by
  unfold tilePerm
  rw [mul_add_mod' hb, mul_add_div' hb]

theorem tilePerm_spec {w t p : ℕ} (hp : p < w ^ t * w ^ t) :
    tilePerm w t p < w ^ t * w ^ t ∧ tilePerm w t (tilePerm w t p) = p := by
  have hpos : 0 < w ^ t := by
    rcases Nat.eq_zero_or_pos (w ^ t) with h | h
    · rw [h] at hp; simp at hp
    · exact h
  have h1 : p % w ^ t < w ^ t := Nat.mod_lt _ hpos
  have h2 : p / w ^ t < w ^ t := Nat.div_lt_of_lt_mul hp
  refine ⟨mul_add_lt (reverseIdx_lt h1) (reverseIdx_lt h2), ?_⟩
  conv_lhs => rw [show tilePerm w t p = reverseIdx w t (p % w ^ t) * w ^ t +
    reverseIdx w t (p / w ^ t) from rfl]
  rw [tilePerm_mul_add (reverseIdx_lt h2), reverseIdx_reverseIdx h1, reverseIdx_reverseIdx h2]
  exact Nat.div_add_mod' p (w ^ t)

theorem permuteTable_spec (w t : ℕ) :
    PermInv (w ^ t * w ^ t) (tilePerm w t) K (w ^ t * w ^ t) (permuteTable w t (w ^ t)) := by
  have hin : ∀ i, i < w ^ t → ∀ m, m ≤ w ^ t → ∀ st,
      PermInv (w ^ t * w ^ t) (tilePerm w t) K (i * w ^ t) st →
      PermInv (w ^ t * w ^ t) (tilePerm w t) K (i * w ^ t + m)
        ((List.range m).foldl (permuteStep w t (w ^ t) i) st) := by
    intro i hi m
    induction m with
    | zero => intro _ st h; exact h
    | succ m ih =>
      intro hm st h
      rw [List.range_succ, List.foldl_append, List.foldl_cons, List.foldl_nil]
      have hlt : i * w ^ t + m < w ^ t * w ^ t := mul_add_lt hi (by omega)
      have := (ih (by omega) st h).step (fun p hp => tilePerm_spec hp) hlt
      unfold permuteStep
      rw [tilePerm_mul_add (by omega)] at this
      exact this
  have hout : ∀ n, n ≤ w ^ t → PermInv (w ^ t * w ^ t) (tilePerm w t) K (n * w ^ t)
      ((List.range n).foldl (fun st i =>
        (List.range (w ^ t)).foldl (permuteStep w t (w ^ t) i) st) ([], [])) := by
    intro n
    induction n with
    | zero =>
      intro _
      refine ⟨fun p _ => ?_, fun T hT => ⟨T, rfl, hT, fun p _ => ?_⟩⟩
      · simp
      · rw [if_neg (by simp)]
    | succ n ih =>
      intro hn
      rw [List.range_succ, List.foldl_append, List.foldl_cons, List.foldl_nil, add_mul, one_mul]
      exact hin n (by omega) (w ^ t) (le_refl _) _ (ih (by omega))
  exact hout (w ^ t) (le_refl _)

theorem permute_tile {w t : ℕ} {T : List K} (hT : T.length = w ^ t * w ^ t) :
    ∃ T', loop (permuteTable w t (w ^ t)).2 T swapAt = some T' ∧ T'.length = w ^ t * w ^ t ∧
      ∀ p, p < w ^ t * w ^ t → T'[p]? = T[tilePerm w t p]? := by
  have h := permuteTable_spec (K := K) w t
  obtain ⟨T', h1, h2, h3⟩ := h.perm T hT
  refine ⟨T', h1, h2, fun p hp => ?_⟩
  rw [h3 p hp]
  split_ifs with hs
  · rfl
  · congr 1
    have : ¬ (tilePerm w t p ≠ p) := fun h' => hs ((h.seen p hp).2 ⟨h', Or.inl hp⟩)
    exact (not_not.1 this).symm

end perm

/-! ### Counting through the words -/

theorem wordAdvance_unpack {w : ℕ} (hw0 : 0 < w) (hw : w < 65536) (k i : ℕ) :
    wordAdvance w (unpackWord w k i) 1 = unpackWord w k (i + 1) := by
  induction k generalizing i with
  | zero => rfl
  | succ k ih =>
    have hlt : i % w < w := Nat.mod_lt _ hw0
    have hsub : ∀ n : ℕ, n - n / w * w = n % w := fun n => by
      have := Nat.div_add_mod' n w; omega
    simp only [unpackWord, wordAdvance, hsub]
    rw [
      Nat.mod_eq_of_lt (show i % w + 1 < 65536 by omega)]
    by_cases hc : i % w + 1 ≥ w
    · have he : i % w + 1 = w := by omega
      have h1 : i + 1 = w * (i / w + 1) := by
        have := Nat.div_add_mod i w
        rw [mul_add, mul_one]; omega
      rw [if_pos hc, he, Nat.div_self hw0, if_pos (by omega), ih, h1, Nat.mul_mod_right,
        Nat.mul_div_cancel_left _ hw0]
      simp
    · rw [if_neg hc]
      have h1 : i + 1 = w * (i / w) + (i % w + 1) := by
        have := Nat.div_add_mod i w; omega
      rw [h1, Nat.mul_add_mod, Nat.mod_eq_of_lt (by omega : i % w + 1 < w),
        Nat.mul_add_div hw0, Nat.div_eq_of_lt (by omega : i % w + 1 < w), add_zero]

theorem unpackWord_zero (w k : ℕ) : unpackWord w k 0 = List.replicate k 0 := by
  induction k with
  | zero => rfl
  | succ k ih => rw [unpackWord, Nat.zero_div, ih]; simp [List.replicate_succ]

theorem foldl_off {w : ℕ} (u : List (Fin w)) (acc : ℕ) :
    (u.map Fin.val).foldl (fun r l => r * w + l) acc = acc * w ^ u.length + wordOffset u := by
  induction u generalizing acc with
  | nil => simp [wordOffset]
  | cons a u ih =>
    rw [List.map_cons, List.foldl_cons, ih, wordOffset, List.length_cons, pow_succ]
    ring

theorem wordReverseIndex_unpack {w : ℕ} (u : List (Fin w)) :
    wordReverseIndex w (unpackWord w u.length (wordOffset u)) = wordOffset u.reverse := by
  rw [unpackWord_eq, wordReverseIndex, ← List.map_reverse, foldl_off]
  simp

theorem wordAdvance_unpack' {w : ℕ} (hw : w < 65536) {k i : ℕ} (hi : i < w ^ k) :
    wordAdvance w (unpackWord w k i) 1 = unpackWord w k (i + 1) := by
  rcases Nat.eq_zero_or_pos w with h | h
  · rcases k with _ | k
    · rfl
    · rw [h, zero_pow (by omega)] at hi; omega
  · exact wordAdvance_unpack h hw k i

/-! ### One level -/

section levels
variable {K : Type} [CommRing K]

/-- a level of the target holds the antipode of that level of the source; nothing else changed -/
structure LevelDone (w d : ℕ) (src dst dst' : List K) : Prop where
  length : dst'.length = dst.length
  level : ∀ u : List (Fin w), u.length = d →
    dst'[wordIndex u]? = some ((-1) ^ d * (src[wordIndex u.reverse]?.getD 0))
  other : ∀ p, ¬ InLevel w d p → dst'[p]? = dst[p]?

theorem sign_eq (d : ℕ) (x : K) : (if d % 2 ≠ 0 then -x else x) = (-1) ^ d * x := by
  by_cases h : d % 2 ≠ 0
  · rw [if_pos h, Odd.neg_one_pow (Nat.odd_iff.2 (by omega)), neg_one_mul]
  · rw [if_neg h, Even.neg_one_pow (Nat.even_iff.2 (by omega)), one_mul]

theorem getElem?_eq_some_getD {l : List K} {i : ℕ} (h : i < l.length) :
    l[i]? = some (l[i]?.getD 0) := by
  rw [List.getElem?_eq_getElem h]; rfl

theorem level_of_loop {w d : ℕ} {src dst : List K} (hd : wordsBelow w (d + 1) ≤ dst.length)
    (body : List K → ℕ → Option (List K))
    (hbody : ∀ s i, i < w ^ d → s.length = dst.length → body s i =
      some (s.set (wordsBelow w d + reverseIdx w d i)
        ((-1) ^ d * (src[wordsBelow w d + i]?.getD 0)))) :
    ∃ dst', loop (List.range (w ^ d)) dst body = some dst' ∧ LevelDone w d src dst dst' := by
  rw [wordsBelow_succ] at hd
  obtain ⟨b', h1, h2, h3, h4⟩ := loop_set (List.range (w ^ d))
    (fun i => wordsBelow w d + reverseIdx w d i)
    (fun i => (-1) ^ d * (src[wordsBelow w d + i]?.getD 0)) body dst
    (fun s x hx hs => hbody s x (List.mem_range.1 hx) hs)
    (fun x hx => by have := reverseIdx_lt (List.mem_range.1 hx); omega)
    (fun x hx y hy h => by
      have h' : reverseIdx w d x = reverseIdx w d y := by omega
      rw [← reverseIdx_reverseIdx (List.mem_range.1 hx), h',
        reverseIdx_reverseIdx (List.mem_range.1 hy)])
  refine ⟨b', h1, h2, fun u hu => ?_, fun p hp => h4 p fun i hi h => hp ?_⟩
  · have hr : u.reverse.length = d := by rw [List.length_reverse, hu]
    have hlt := wordOffset_lt u.reverse
    rw [hr] at hlt
    have := h3 _ (List.mem_range.2 hlt)
    have h5 := reverseIdx_off u.reverse
    rw [hr, List.reverse_reverse] at h5
    rw [h5] at this
    rw [wordIndex, hu, this, wordIndex, hr]
  · have := reverseIdx_lt (List.mem_range.1 hi)
    exact ⟨by omega, by omega⟩

theorem untiledLevel_spec {w d depth : ℕ} {h : AntipodeHelper} (hw : h.w = w)
    (hp : h.powers = tensorPowers w depth) (hdep : d ≤ depth) {src dst : List K}
    (hs : wordsBelow w (d + 1) ≤ src.length) (hd : wordsBelow w (d + 1) ≤ dst.length) :
    ∃ dst', h.untiledLevel src (wordsBelow w d) d dst = some dst' ∧
      LevelDone w d src dst dst' := by
  have hs' := hs
  have hd' := hd
  rw [wordsBelow_succ] at hs' hd'
  unfold AntipodeHelper.untiledLevel
  by_cases h0 : d = 0
  · subst h0
    rw [if_pos rfl]
    obtain ⟨dst', e1, e2⟩ := level_of_loop (src := src) hd
      (fun dst i => do
        let x ← src[wordsBelow w 0 + i]?
        assignAt dst (wordsBelow w 0 + i) x) (by
      intro s i hi hsl
      have hi0 : i = 0 := by simpa using hi
      subst hi0
      rw [getElem?_eq_some_getD (show wordsBelow w 0 + 0 < src.length by simp at hs' ⊢; omega)]
      simp only [Option.bind_eq_bind, Option.bind_some]
      rw [assignAt_eq (by simp at hd' ⊢; omega)]
      simp [reverseIdx])
    refine ⟨dst', ?_, e2⟩
    rw [← e1]
    simp [List.range_succ, loop_cons, loop_nil]
  · rw [if_neg h0]
    by_cases h1 : d = 1
    · subst h1
      rw [if_pos rfl, hw]
      have hrange : List.range w = List.range (w ^ 1) := by rw [pow_one]
      rw [hrange]
      refine level_of_loop hd _ fun s i hi hsl => ?_
      have hrev : reverseIdx w 1 i = i := by
        obtain ⟨u, hu, rfl⟩ := exists_word hi
        obtain ⟨a, rfl⟩ := List.length_eq_one_iff.1 hu
        exact reverseIdx_off [a]
      rw [getElem?_eq_some_getD (show wordsBelow w 1 + i < src.length by omega), hrev]
      simp only [Option.bind_eq_bind, Option.bind_some]
      rw [assignAt_eq (by omega), pow_one, neg_one_mul]
      rfl
    · rw [if_neg h1, hp, tensorPowers_get hdep, hw]
      simp only [Option.bind_eq_bind, Option.bind_some]
      refine level_of_loop hd _ fun s i hi hsl => ?_
      have := reverseIdx_lt hi
      rw [getElem?_eq_some_getD (show wordsBelow w d + i < src.length by omega)]
      simp only [Option.bind_some]
      rw [assignAt_eq (by omega), sign_eq]
      rfl

/-! ### Tiles -/

theorem off3 {w : ℕ} (l m r : List (Fin w)) :
    wordOffset (l ++ m ++ r) =
      wordOffset m * w ^ r.length + (wordOffset l * w ^ (m.length + r.length) + wordOffset r) := by
  rw [wordOffset_append, wordOffset_append, pow_add]; ring

theorem mul_add_inj {a b c d m : ℕ} (hb : b < m) (hd : d < m) (h : a * m + b = c * m + d) :
    a = c ∧ b = d :=
  ⟨by rw [← mul_add_div' (a := a) hb, h, mul_add_div' hd],
    by rw [← mul_add_mod' (a := a) hb, h, mul_add_mod' hd]⟩

theorem readTile_spec {h : AntipodeHelper} {src tile : List K} {base stride : ℕ}
    (ht : tile.length = h.tileWidth * h.tileWidth)
    (hs : ∀ a b, a < h.tileWidth → b < h.tileWidth → base + (a * stride + b) < src.length) :
    ∃ tile', h.readTile src base stride tile = some tile' ∧
      tile'.length = h.tileWidth * h.tileWidth ∧
      ∀ a b, a < h.tileWidth → b < h.tileWidth →
        tile'[a * h.tileWidth + b]? = some (src[base + (a * stride + b)]?.getD 0) := by
  unfold AntipodeHelper.readTile
  rw [loop_loop]
  obtain ⟨b', h1, h2, h3, _⟩ := loop_set (List.range h.tileWidth ×ˢ List.range h.tileWidth)
    (fun p => p.1 * h.tileWidth + p.2) (fun p => src[base + (p.1 * stride + p.2)]?.getD 0)
    (fun tile p => do
      let x ← src[base + (p.1 * stride + p.2)]?
      assignAt tile (p.1 * h.tileWidth + p.2) x) tile
    (by
      rintro s ⟨a, b⟩ hx hsl
      rw [List.mem_product, List.mem_range, List.mem_range] at hx
      dsimp only at hx ⊢
      rw [getElem?_eq_some_getD (hs a b hx.1 hx.2)]
      simp only [Option.bind_eq_bind, Option.bind_some]
      rw [assignAt_eq (by rw [hsl, ht]; exact mul_add_lt hx.1 hx.2)]
      rfl)
    (by
      rintro ⟨a, b⟩ hx
      rw [List.mem_product, List.mem_range, List.mem_range] at hx
      rw [ht]; exact mul_add_lt hx.1 hx.2)
    (by
      rintro ⟨a, b⟩ hx ⟨c, d⟩ hy he
      rw [List.mem_product, List.mem_range, List.mem_range] at hx hy
      obtain ⟨e1, e2⟩ := mul_add_inj hx.2 hy.2 he
      dsimp only at e1 e2
      rw [e1, e2])
  refine ⟨b', h1, by omega, fun a b ha hb => ?_⟩
  exact h3 (a, b) (by rw [List.mem_product, List.mem_range, List.mem_range]; exact ⟨ha, hb⟩)

theorem writeTile_spec {h : AntipodeHelper} {dst tile : List K} {base stride : ℕ}
    (ht : tile.length = h.tileWidth * h.tileWidth) (hst : h.tileWidth ≤ stride)
    (hs : ∀ a b, a < h.tileWidth → b < h.tileWidth → base + (a * stride + b) < dst.length) :
    ∃ dst', h.writeTile dst base stride tile = some dst' ∧ dst'.length = dst.length ∧
      (∀ a b, a < h.tileWidth → b < h.tileWidth →
        dst'[base + (a * stride + b)]? = tile[a * h.tileWidth + b]?) ∧
      ∀ p, (∀ a b, a < h.tileWidth → b < h.tileWidth → base + (a * stride + b) ≠ p) →
        dst'[p]? = dst[p]? := by
  unfold AntipodeHelper.writeTile
  rw [loop_loop]
  obtain ⟨b', h1, h2, h3, h4⟩ := loop_set (List.range h.tileWidth ×ˢ List.range h.tileWidth)
    (fun p => base + (p.1 * stride + p.2)) (fun p => tile[p.1 * h.tileWidth + p.2]?.getD 0)
    (fun dst p => do
      let x ← tile[p.1 * h.tileWidth + p.2]?
      assignAt dst (base + (p.1 * stride + p.2)) x) dst
    (by
      rintro s ⟨a, b⟩ hx hsl
      rw [List.mem_product, List.mem_range, List.mem_range] at hx
      dsimp only at hx ⊢
      rw [getElem?_eq_some_getD (by rw [ht]; exact mul_add_lt hx.1 hx.2)]
      simp only [Option.bind_eq_bind, Option.bind_some]
      rw [assignAt_eq (by rw [hsl]; exact hs a b hx.1 hx.2)]
      rfl)
    (by
      rintro ⟨a, b⟩ hx
      rw [List.mem_product, List.mem_range, List.mem_range] at hx
      exact hs a b hx.1 hx.2)
    (by
      rintro ⟨a, b⟩ hx ⟨c, d⟩ hy he
      rw [List.mem_product, List.mem_range, List.mem_range] at hx hy
      dsimp only at hx hy he
      obtain ⟨e1, e2⟩ := mul_add_inj (a := a) (c := c) (show b < stride by omega)
        (show d < stride by omega) (by omega)
      dsimp only
      rw [e1, e2])
  refine ⟨b', h1, h2, fun a b ha hb => ?_, fun p hp => h4 p ?_⟩
  · rw [getElem?_eq_some_getD (show a * h.tileWidth + b < tile.length by
      rw [ht]; exact mul_add_lt ha hb)]
    exact h3 (a, b) (by rw [List.mem_product, List.mem_range, List.mem_range]; exact ⟨ha, hb⟩)
  · rintro ⟨a, b⟩ hx
    rw [List.mem_product, List.mem_range, List.mem_range] at hx
    exact hp a b hx.1 hx.2

/-- a helper with tiles of words of `t` letters -/
structure TileHelper (w t depth : ℕ) (h : AntipodeHelper) : Prop where
  width : h.w = w
  powers : h.powers = tensorPowers w depth
  letters : h.tileLetters = t
  tile : h.tileWidth = w ^ t
  permute : h.permute = (permuteTable w t (w ^ t)).2

theorem tileStep_spec {w t k depth B : ℕ} {h : AntipodeHelper} (hh : TileHelper w t depth h)
    (hw : w < 65536) {src dst tile : List K}
    (ht : tile.length = w ^ t * w ^ t) {m : List (Fin w)} (hm : m.length = k)
    (hs : B + w ^ (2 * t + k) ≤ src.length) (hd : B + w ^ (2 * t + k) ≤ dst.length) :
    ∃ dst' tile', h.tileStep src B (2 * t + k) (w ^ (k + t))
        (dst, tile, unpackWord w k (wordOffset m)) (wordOffset m) =
          some (dst', tile', unpackWord w k (wordOffset m + 1)) ∧
      tile'.length = w ^ t * w ^ t ∧ dst'.length = dst.length ∧
      (∀ l r : List (Fin w), l.length = t → r.length = t →
        dst'[B + wordOffset (l ++ m.reverse ++ r)]? =
          some ((-1) ^ (2 * t + k) * (src[B + wordOffset (r.reverse ++ m ++ l.reverse)]?.getD 0))) ∧
      ∀ p, (∀ l r : List (Fin w), l.length = t → r.length = t →
        B + wordOffset (l ++ m.reverse ++ r) ≠ p) → dst'[p]? = dst[p]? := by
  have hoff : ∀ l x r : List (Fin w), l.length = t → x.length = k → r.length = t →
      wordOffset (l ++ x ++ r) =
        wordOffset x * w ^ t + (wordOffset l * w ^ (k + t) + wordOffset r) := by
    intro l x r hl hx hr
    rw [off3, hr, hx]
  have hlt : ∀ l x r : List (Fin w), l.length = t → x.length = k → r.length = t →
      wordOffset (l ++ x ++ r) < w ^ (2 * t + k) := by
    intro l x r hl hx hr
    have := wordOffset_lt (l ++ x ++ r)
    rwa [List.length_append, List.length_append, hl, hx, hr,
      show t + k + t = 2 * t + k by omega] at this
  have hml : wordOffset m < w ^ k := by rw [← hm]; exact wordOffset_lt m
  have hmr : m.reverse.length = k := by rw [List.length_reverse, hm]
  have hbnd : ∀ x : List (Fin w), x.length = k → ∀ a b, a < w ^ t → b < w ^ t →
      wordOffset x * w ^ t + (a * w ^ (k + t) + b) < w ^ (2 * t + k) := by
    intro x hx a b ha hb
    obtain ⟨l, hl, rfl⟩ := exists_word ha
    obtain ⟨r, hr, rfl⟩ := exists_word hb
    rw [← hoff l x r hl hx hr]
    exact hlt l x r hl hx hr
  have hridx : wordReverseIndex h.w (unpackWord w k (wordOffset m)) = wordOffset m.reverse := by
    rw [hh.width, ← hm]; exact wordReverseIndex_unpack m
  obtain ⟨tile1, r1, r2, r3⟩ := readTile_spec (h := h) (src := src) (tile := tile)
    (base := B + wordOffset m * w ^ t) (stride := w ^ (k + t)) (by rw [hh.tile, ht])
    (by
      intro a b ha hb
      rw [hh.tile] at ha hb
      have := hbnd m hm a b ha hb
      omega)
  rw [hh.tile] at r2 r3
  set tile2 : List K := if (2 * t + k) % 2 ≠ 0 then tile1.map (fun x => -x) else tile1 with htile2
  have ht2 : tile2.length = w ^ t * w ^ t := by
    rw [htile2]; split_ifs <;> simp [r2]
  have ht2v : ∀ a b, a < w ^ t → b < w ^ t → tile2[a * w ^ t + b]? =
      some ((-1) ^ (2 * t + k) *
        (src[B + wordOffset m * w ^ t + (a * w ^ (k + t) + b)]?.getD 0)) := by
    intro a b ha hb
    rw [← sign_eq, htile2]
    split_ifs with hc
    · rw [List.getElem?_map, r3 a b ha hb]; rfl
    · exact r3 a b ha hb
  obtain ⟨tile3, p1, p2, p3⟩ := permute_tile ht2
  obtain ⟨dst', w1, w2, w3, w4⟩ := writeTile_spec (h := h) (dst := dst) (tile := tile3)
    (base := B + wordOffset m.reverse * w ^ t) (stride := w ^ (k + t)) (by rw [hh.tile, p2])
    (by
      rw [hh.tile]
      rcases Nat.eq_zero_or_pos w with h0 | h0
      · rcases k with _ | k
        · rw [zero_add]
        · subst h0; rw [zero_pow (by omega)] at hml; omega
      · exact Nat.pow_le_pow_right h0 (by omega))
    (by
      intro a b ha hb
      rw [hh.tile] at ha hb
      have := hbnd m.reverse hmr a b ha hb
      omega)
  rw [hh.tile] at w3 w4
  refine ⟨dst', tile3, ?_, p2, w2, fun l r hl hr => ?_, fun p hp => ?_⟩
  · unfold AntipodeHelper.tileStep
    dsimp only
    rw [hridx, hh.tile, r1]
    simp only [Option.bind_eq_bind, Option.bind_some]
    rw [← htile2, hh.permute, p1]
    simp only [Option.bind_some]
    rw [w1, hh.width, wordAdvance_unpack' hw hml]
    rfl
  · have hll := wordOffset_lt l
    have hrl := wordOffset_lt r
    rw [hl] at hll
    rw [hr] at hrl
    have hlr : l.reverse.length = t := by rw [List.length_reverse, hl]
    have hrr : r.reverse.length = t := by rw [List.length_reverse, hr]
    rw [hoff l m.reverse r hl hmr hr, ← add_assoc, w3 _ _ hll hrl, p3 _ (mul_add_lt hll hrl),
      tilePerm_mul_add hrl]
    have e1 := reverseIdx_off r
    have e2 := reverseIdx_off l
    rw [hr] at e1
    rw [hl] at e2
    have f1 := wordOffset_lt r.reverse
    have f2 := wordOffset_lt l.reverse
    rw [hrr] at f1
    rw [hlr] at f2
    rw [e1, e2, ht2v _ _ f1 f2, hoff r.reverse m l.reverse hrr hm hlr, Nat.add_assoc B]
  · refine w4 p fun a b ha hb => ?_
    obtain ⟨l, hl, rfl⟩ := exists_word ha
    obtain ⟨r, hr, rfl⟩ := exists_word hb
    have := hp l r hl hr
    rwa [hoff l m.reverse r hl hmr hr, ← add_assoc] at this

theorem tiledLevel_spec {w t k depth : ℕ} {h : AntipodeHelper} (hh : TileHelper w t depth h)
    (hw : w < 65536) (hdep : 2 * t + k ≤ depth) {src dst : List K}
    (hs : wordsBelow w (2 * t + k + 1) ≤ src.length)
    (hd : wordsBelow w (2 * t + k + 1) ≤ dst.length) :
    ∃ dst', h.tiledLevel src (wordsBelow w (2 * t + k)) (2 * t + k) dst = some dst' ∧
      LevelDone w (2 * t + k) src dst dst' := by
  rw [wordsBelow_succ] at hs hd
  set B := wordsBelow w (2 * t + k) with hB
  unfold AntipodeHelper.tiledLevel
  rw [hh.letters, hh.powers, hh.tile, show 2 * t + k - t = k + t by omega,
    show 2 * t + k - 2 * t = k by omega]
  dsimp only
  rw [tensorPowers_get (show k + t ≤ depth by omega), tensorPowers_get (show k ≤ depth by omega)]
  simp only [Option.bind_eq_bind, Option.bind_some]
  obtain ⟨st, h1, ⟨_, h3, h4, h5, h6⟩⟩ := loop_range_inv
    (fun i (st : List K × List K × List ℕ) =>
      i ≤ w ^ k ∧ (st.2.1.length = w ^ t * w ^ t ∧ st.2.2 = unpackWord w k i) ∧
      st.1.length = dst.length ∧
      (∀ l m r : List (Fin w), l.length = t → m.length = k → r.length = t → wordOffset m < i →
        st.1[B + wordOffset (l ++ m.reverse ++ r)]? =
          some ((-1) ^ (2 * t + k) *
            (src[B + wordOffset (r.reverse ++ m ++ l.reverse)]?.getD 0))) ∧
      ∀ p, ¬ InLevel w (2 * t + k) p → st.1[p]? = dst[p]?) (w ^ k)
    (h.tileStep src B (2 * t + k) (w ^ (k + t)))
    (dst, List.replicate (w ^ t * w ^ t) 0, List.replicate k 0)
    ⟨Nat.zero_le _, ⟨by simp, (unpackWord_zero w k).symm⟩, rfl, fun _ _ _ _ _ _ h => by omega,
      fun _ _ => rfl⟩
    (by
      rintro i hi ⟨s, tile, word⟩ ⟨_, ⟨g1, g2⟩, g3, g4, g5⟩
      dsimp only at g1 g2 g3 g4 g5
      subst g2
      obtain ⟨m, hm, rfl⟩ := exists_word hi
      obtain ⟨dst', tile', a1, a2, a3, a4, a5⟩ := tileStep_spec hh hw (B := B) (src := src) (dst := s) g1 hm hs
        (by omega)
      refine ⟨_, a1, by omega, ⟨a2, rfl⟩, a3.trans g3, fun l x r hl hx hr hlt => ?_, fun p hp => ?_⟩
      · dsimp only
        by_cases he : wordOffset x = wordOffset m
        · have := wordOffset_inj (by omega) he
          subst this
          exact a4 l r hl hr
        · rw [a5, g4 l x r hl hx hr (by omega)]
          intro l' r' hl' hr' hc
          have h1 := wordOffset_inj (u := l' ++ m.reverse ++ r') (v := l ++ x.reverse ++ r)
            (by simp [hl, hr, hl', hr', hx, hm]) (by omega)
          rw [List.append_assoc, List.append_assoc] at h1
          have h2 := (List.append_inj h1 (by omega)).2
          have h3 := (List.append_inj h2 (by simp [hx, hm])).1
          exact he (by rw [List.reverse_injective h3])
      · dsimp only
        rw [a5, g5 p hp]
        intro l' r' hl' hr' hc
        apply hp
        have := wordOffset_lt (l' ++ m.reverse ++ r')
        rw [List.length_append, List.length_append, List.length_reverse, hl', hm, hr',
          show t + k + t = 2 * t + k by omega] at this
        exact ⟨by omega, by omega⟩)
  rw [h1]
  refine ⟨st.1, rfl, h4, fun u hu => ?_, h6⟩
  have hu' : u.reverse.length = 2 * t + k := by rw [List.length_reverse, hu]
  have key : u = u.take t ++ ((u.drop t).take k) ++ (u.drop t).drop k := by
    rw [List.append_assoc, List.take_append_drop, List.take_append_drop]
  have hx : ((u.drop t).take k).length = k := by simp; omega
  have := h5 (u.take t) ((u.drop t).take k).reverse ((u.drop t).drop k) (by simp; omega)
    (by rw [List.length_reverse, hx]) (by simp; omega)
    (by
      have := wordOffset_lt ((u.drop t).take k).reverse
      rwa [List.length_reverse, hx] at this)
  rw [List.reverse_reverse, ← key] at this
  have hrev : ((u.drop t).drop k).reverse ++ ((u.drop t).take k).reverse ++ (u.take t).reverse
      = u.reverse := by
    conv_rhs => rw [key]
    simp only [List.reverse_append, List.append_assoc]
  rw [hrev] at this
  rw [wordIndex, hu, wordIndex, hu', ← hB]
  exact this

end levels

/-! ### The whole tensor -/

section whole
variable {K : Type} [Field K] [DecidableEq K]

theorem new_eq (maxLetters w depth : ℕ) : ∃ h, AntipodeHelper.new maxLetters w depth = some h ∧
    h.w = w ∧ h.powers = tensorPowers w depth ∧
    (h.tileLetters = 0 ∨ TileHelper w h.tileLetters depth h) := by
  unfold AntipodeHelper.new
  by_cases h0 : maxLetters = 0
  · rw [if_pos h0]; exact ⟨_, rfl, rfl, rfl, Or.inl rfl⟩
  · rw [if_neg h0]
    dsimp only
    rw [tensorPowers_get (by omega)]
    refine ⟨_, rfl, rfl, rfl, Or.inr ⟨rfl, rfl, rfl, rfl, ?_⟩⟩
    dsimp only
    split_ifs with hc
    · rfl
    · have hz : w ^ min maxLetters (depth / 2) = 0 := by
        rcases Nat.eq_zero_or_pos (w ^ min maxLetters (depth / 2)) with h | h
        · exact h
        · exact absurd (Nat.mul_pos h h) hc
      rw [hz]; rfl

/-- the levels below `d` hold the antipode -/
structure LevelsDone (w d : ℕ) (src : List K) (st : List K × ℕ) : Prop where
  base : st.2 = wordsBelow w d
  length : st.1.length = src.length
  done : ∀ u : List (Fin w), u.length < d →
    st.1[wordIndex u]? = some ((-1) ^ u.length * (src[wordIndex u.reverse]?.getD 0))

theorem LevelsDone.step {w d depth : ℕ} {h : AntipodeHelper} (hp : h.powers = tensorPowers w depth)
    (hdep : d ≤ depth) {src : List K} {st : List K × ℕ} (hst : LevelsDone w d src st)
    {level : List K → ℕ → ℕ → List K → Option (List K)}
    (hl : ∃ dst', level src (wordsBelow w d) d st.1 = some dst' ∧ LevelDone w d src st.1 dst') :
    ∃ st', h.levelStep level src st d = some st' ∧ LevelsDone w (d + 1) src st' := by
  obtain ⟨dst', h1, h2⟩ := hl
  refine ⟨(dst', wordsBelow w (d + 1)), ?_, rfl, h2.length.trans hst.length, fun u hu => ?_⟩
  · unfold AntipodeHelper.levelStep
    rw [hst.base, h1, hp]
    simp only [Option.bind_eq_bind, Option.bind_some]
    rw [tensorPowers_get hdep, wordsBelow_succ]
    rfl
  · dsimp only
    by_cases he : u.length = d
    · rw [h2.level u he, he]
    · rw [h2.other, hst.done u (by omega)]
      intro hin
      rw [inLevel_wordIndex] at hin
      exact he hin

theorem dense_antipode {w depth maxLetters : ℕ} (hw : w < 65536) {h : AntipodeHelper}
    (hh : AntipodeHelper.new maxLetters w depth = some h) {v : Dense K} (hv : v.Full w depth) :
    ∃ r, h.dense v = some r ∧ r.Full w depth ∧
      ∀ u : List (Fin w), r.ser w u = Series.antipode (v.ser w) u := by
  obtain ⟨h', e1, hw', hp, ht⟩ := new_eq maxLetters w depth
  rw [hh] at e1
  obtain rfl := Option.some.inj e1
  obtain ⟨hdep, hlen⟩ := hv
  have hle : ∀ d, d ≤ v.degree → wordsBelow w (d + 1) ≤ v.storage.length := fun d hd => by
    rw [hlen]; exact wordsBelow_mono (by omega)
  set U := h.untiledLevels v.degree with hU
  have hUle : U ≤ v.degree := by
    rw [hU]; unfold AntipodeHelper.untiledLevels; split_ifs <;> omega
  unfold AntipodeHelper.dense
  rw [← hU]
  obtain ⟨st, s1, s2⟩ := loop_range_inv (fun d st => LevelsDone w d v.storage st) (U + 1)
    (h.levelStep h.untiledLevel v.storage)
    (((Dense.new : Dense K).resizeExact v.storage.length 0).storage, 0)
    ⟨rfl, by rw [Dense.length_resizeExact], fun u hu => by omega⟩
    (fun d hd s hs => hs.step hp (by omega)
      (untiledLevel_spec hw' hp (by omega) (hle d (by omega))
        (by rw [hs.length]; exact hle d (by omega))))
  dsimp only
  rw [s1]
  simp only [Option.bind_eq_bind, Option.bind_some]
  obtain ⟨st', t1, t2⟩ := loop_map_range_inv (fun d st => LevelsDone w (d + (U + 1)) v.storage st)
    (v.degree - U) (· + (U + 1)) (h.levelStep h.tiledLevel v.storage) st (by simpa using s2)
    (by
      intro d hd s hs
      have hsucc : d + 1 + (U + 1) = d + (U + 1) + 1 := by omega
      rw [hsucc]
      refine hs.step hp (by omega) ?_
      have htl : 0 < h.tileLetters ∧ 2 * h.tileLetters ≤ d + (U + 1) := by
        have : U < v.degree := by omega
        rw [hU] at this ⊢
        unfold AntipodeHelper.untiledLevels at this ⊢
        split_ifs at this ⊢ with hc <;> omega
      have hT := ht.resolve_left (by omega)
      obtain ⟨k, hk⟩ := Nat.exists_eq_add_of_le htl.2
      rw [hk]
      exact tiledLevel_spec hT hw (by omega) (hle _ (by omega))
        (by rw [hs.length]; exact hle _ (by omega)))
  rw [t1]
  have hfin : v.degree - U + (U + 1) = v.degree + 1 := by omega
  rw [hfin] at t2
  refine ⟨_, rfl, ⟨hdep, by dsimp only; rw [t2.length, hlen]⟩, fun u => ?_⟩
  unfold Dense.ser Dense.entry Series.antipode
  dsimp only
  by_cases hu : u.length ≤ v.degree
  · rw [t2.done u (by omega)]; rfl
  · have hge : ∀ x : List (Fin w), x.length = u.length → v.storage.length ≤ wordIndex x := by
      intro x hx
      rw [hlen]
      have := wordsBelow_mono (w := w) (show v.degree + 1 ≤ x.length by omega)
      unfold wordIndex; omega
    rw [List.getElem?_eq_none (by rw [t2.length]; exact hge u rfl),
      List.getElem?_eq_none (hge u.reverse (by simp))]
    simp

theorem sparse_fold {w depth : ℕ} (step : Sparse K → Key × K → Sparse K)
    (hstep : ∀ m t, step m t = m.modify ⟨t.1.deg, reverseIdx w t.1.deg t.1.idx⟩
      fun _ => if t.1.deg % 2 ≠ 0 then -t.2 else t.2)
    (l : Sparse K) (hl : l.Pairwise fun a b => a.1 ≠ b.1)
    (hk : ∀ p ∈ l, ∃ u : List (Fin w), u.length ≤ depth ∧ wordKey u = p.1) (acc : Sparse K)
    (ha : Sparse.Tensor w depth acc) :
    Sparse.Tensor w depth (l.foldl step acc) ∧
      ∀ u : List (Fin w), u.length ≤ depth → (l.foldl step acc).ser w u =
        ((SMap.find l (wordKey u.reverse)).map fun x => (-1) ^ u.length * x).getD (acc.ser w u) := by
  induction l generalizing acc with
  | nil => exact ⟨ha, fun u _ => rfl⟩
  | cons t l ih =>
    obtain ⟨x, hx, hxk⟩ := hk t List.mem_cons_self
    rw [List.pairwise_cons] at hl
    have hkey : (⟨t.1.deg, reverseIdx w t.1.deg t.1.idx⟩ : Key) = wordKey x.reverse := by
      rw [← hxk]
      unfold wordKey
      dsimp only
      rw [reverseIdx_off, List.length_reverse]
    obtain ⟨v', m1, m2, m3⟩ := (sparseTensor_lawful (K := K) w depth).modify acc ha x.reverse
      (show x.reverse.length ≤ depth by simpa using hx)
      (fun _ => if t.1.deg % 2 ≠ 0 then -t.2 else t.2)
    have hv' : step acc t = v' := by
      rw [hstep, hkey]; exact Option.some.inj m1
    rw [List.foldl_cons, hv']
    obtain ⟨g1, g2⟩ := ih hl.2 (fun p hp => hk p (List.mem_cons_of_mem _ hp)) v' m2
    refine ⟨g1, fun u hu => ?_⟩
    rw [g2 u hu, m3 u hu]
    obtain ⟨k, y⟩ := t
    dsimp only at hxk hl ⊢
    subst hxk
    by_cases he : u = x.reverse
    · subst he
      have hn : SMap.find l (wordKey x) = none :=
        SMap.find_eq_none_of_forall fun p hp => Ne.symm (hl.1 p hp)
      rw [List.reverse_reverse, hn, SMap.find, if_pos rfl, if_pos rfl]
      simp only [Option.map_none, Option.getD_none, Option.map_some, Option.getD_some]
      rw [sign_eq, List.length_reverse]
      rfl
    · rw [if_neg he, SMap.find, if_neg]
      intro hc
      exact he (by rw [← wordKey_inj hc, List.reverse_reverse])

theorem sparse_antipode {w depth : ℕ} {h : AntipodeHelper} (hw : h.w = w) {v : Sparse K}
    (hv : Sparse.Tensor w depth v) :
    Sparse.Tensor w depth (h.sparse v) ∧
      Series.EqUpTo depth ((h.sparse v).ser w) (Series.antipode (v.ser w)) := by
  obtain ⟨h1, h2⟩ := sparse_fold (K := K) (w := w) (depth := depth) (fun result t =>
      let key : Key := ⟨t.1.deg, reverseIdx h.w t.1.deg t.1.idx⟩
      result.modify key fun _ => if key.deg % 2 ≠ 0 then -t.2 else t.2)
    (fun m t => by rw [hw]) v (hv.1.1.imp fun hab => ne_of_lt hab)
    (fun p hp => by
      by_contra hc
      have : ¬ ValidKey (wordsBelow w) depth p.1 := fun hval => by
        obtain ⟨u, hu, hk⟩ := exists_wordKey hval
        exact hc ⟨u, hu, hk⟩
      have h0 := hv.2 p.1 this
      have := (Sparse.mem_iff_read hv.1).1 (show (p.1, p.2) ∈ v from hp)
      exact this.1 (this.2.symm.trans h0)) []
    (sparseTensor_lawful (K := K) w depth).new_tight
  refine ⟨h1, fun u hu => (h2 u hu).trans ?_⟩
  unfold Series.antipode Sparse.ser Sparse.read
  rcases SMap.find v (wordKey u.reverse) with _ | x
  · simp [SMap.find]
  · rfl

end whole

end RoughPy.Lite
