import Mathlib.Tactic.Ring
import Mathlib.Tactic.Linarith
import Mathlib.Tactic.NormNum
import Mathlib.Tactic.SplitIfs
import Mathlib.Data.Nat.Bitwise
import Verif.Args.Spec

/-! # Lemmas about array arguments -/

namespace RoughPy.Args

/-! ## Packed types -/

/-- A type info as it is stored: every field is a byte. -/
def TypeInfo.Bytes (i : TypeInfo) : Prop :=
  i.code < 256 ∧ i.bytes < 256 ∧ i.alignment < 256 ∧ i.lanes < 256

theorem ofWord_word (i : TypeInfo) (h : i.Bytes) : TypeInfo.ofWord i.word = i := by
  obtain ⟨c, b, a, l⟩ := i
  obtain ⟨h1, h2, h3, h4⟩ := h
  simp only [TypeInfo.ofWord, TypeInfo.word, TypeInfo.mk.injEq] at *
  refine ⟨?_, ?_, ?_, ?_⟩ <;> omega

theorem word_lt (i : TypeInfo) (h : i.Bytes) : i.word < 2 ^ 32 := by
  obtain ⟨c, b, a, l⟩ := i
  obtain ⟨h1, h2, h3, h4⟩ := h
  simp only [TypeInfo.word] at *
  omega

/-- The stored number keeps everything of the word but its lowest bit. -/
theorem getInfo_packInfo (i : TypeInfo) (e : ℕ) (h : i.Bytes) :
    getInfo (packInfo i e) = { i with code := i.code - i.code % 2 } := by
  have hw := word_lt i h
  have key : (((packInfo i e) &&& ((2 ^ 32 - 1) <<< 4)) >>> 3) % 2 ^ 32 = i.word - i.word % 2 := by
    have e1 : i.word - i.word % 2 = (i.word >>> 1) <<< 1 := by
      rw [Nat.shiftRight_eq_div_pow, Nat.shiftLeft_eq]; omega
    rw [e1]
    apply Nat.eq_of_testBit_eq
    intro k
    simp only [packInfo, Nat.testBit_mod_two_pow, Nat.testBit_shiftRight, Nat.testBit_and,
      Nat.testBit_or, Nat.testBit_shiftLeft, Nat.testBit_two_pow_sub_one]
    by_cases hk : k < 32
    · by_cases h0 : k = 0
      · subst h0; simp
      · have hd : (3 + k - 4 : ℕ) < 32 := by omega
        have h8 : Nat.testBit 8 (3 + k) = false := by
          rw [show (8 : ℕ) = 2 ^ 3 from rfl, Nat.testBit_two_pow]
          simp only [decide_eq_false_iff_not]; omega
        have h7 : Nat.testBit 7 (3 + k) = false := by
          rw [show (7 : ℕ) = 2 ^ 3 - 1 from rfl, Nat.testBit_two_pow_sub_one]
          simp only [decide_eq_false_iff_not]; omega
        have hge : 3 + k ≥ 4 := by omega
        have hge1 : k ≥ 1 := by omega
        have hs : 3 + k - 3 = 1 + (k - 1) := by omega
        simp [hk, hd, h8, h7, hge, hge1, hs]
    · have hb : i.word.testBit (1 + (k - 1)) = false := by
        apply Nat.testBit_lt_two_pow
        exact lt_of_lt_of_le hw (Nat.pow_le_pow_right (by norm_num) (by omega))
      simp [hk, hb]
  unfold getInfo
  rw [key]
  have hb : ({ i with code := i.code - i.code % 2 } : TypeInfo).Bytes :=
    ⟨by have := h.1; show i.code - i.code % 2 < 256; omega, h.2⟩
  rw [← ofWord_word _ hb]
  congr 1
  obtain ⟨c, b, a, l⟩ := i
  simp only [TypeInfo.word]
  omega

theorem readBack_eq (i : TypeInfo) (h : i.Bytes) :
    readBack i = { i with code := i.code - i.code % 2 } := getInfo_packInfo i 0 h

theorem getEnum_packInfo (i : TypeInfo) (e : ℕ) (he : e < 8) : getEnum (packInfo i e) = e := by
  apply Nat.eq_of_testBit_eq
  intro k
  simp only [getEnum, packInfo, Nat.testBit_and, Nat.testBit_or, Nat.testBit_shiftLeft]
  rw [show (7 : ℕ) = 2 ^ 3 - 1 from rfl, Nat.testBit_two_pow_sub_one,
    show (8 : ℕ) = 2 ^ 3 from rfl, Nat.testBit_two_pow]
  by_cases hk : k < 3
  · have h1 : ¬ k ≥ 3 := by omega
    have h2 : ¬ 3 = k := by omega
    simp [hk, h1, h2]
  · have : e.testBit k = false := by
      apply Nat.testBit_lt_two_pow
      exact lt_of_lt_of_le he (Nat.pow_le_pow_right (n := 2) (i := 3) (by norm_num) (by omega))
    simp [hk, this]

theorem isPtr_packInfo (i : TypeInfo) (e : ℕ) : isPtr (packInfo i e) = false := by
  have h : (packInfo i e &&& 8).testBit 3 = true := by
    simp only [packInfo, Nat.testBit_and, Nat.testBit_or]
    rw [show (8 : ℕ) = 2 ^ 3 from rfl, Nat.testBit_two_pow]
    simp
  unfold isPtr
  have : packInfo i e &&& 8 ≠ 0 := by
    intro h0; rw [h0] at h; simp at h
  simpa using this

theorem low_bits (p : ℕ) (hp : p % 16 = 0) (k : ℕ) (hk : k < 4) : p.testBit k = false := by
  have h1 : p.testBit k = (p % 2 ^ 4).testBit k := by rw [Nat.testBit_mod_two_pow]; simp [hk]
  rw [h1, show (2 : ℕ) ^ 4 = 16 from rfl, hp]; simp

theorem ptr_roundtrip (p e : ℕ) (hp : p % 16 = 0) (hl : p < 2 ^ 64) (he : e < 8) :
    isPtr (packPtr p e) = true ∧ getPtr (packPtr p e) = p ∧ getEnum (packPtr p e) = e := by
  have hebit : ∀ k, 3 ≤ k → e.testBit k = false := fun k hk => by
    apply Nat.testBit_lt_two_pow
    exact lt_of_lt_of_le he (Nat.pow_le_pow_right (n := 2) (i := 3) (by norm_num) hk)
  refine ⟨?_, ?_, ?_⟩
  · unfold isPtr
    have : packPtr p e &&& 8 = 0 := by
      apply Nat.eq_of_testBit_eq
      intro k
      simp only [packPtr, Nat.testBit_and, Nat.testBit_or]
      rw [show (8 : ℕ) = 2 ^ 3 from rfl, Nat.testBit_two_pow]
      by_cases hk : 3 = k
      · subst hk; simp [low_bits p hp 3 (by norm_num), hebit 3 le_rfl]
      · simp [hk]
    simpa using this
  · apply Nat.eq_of_testBit_eq
    intro k
    simp only [getPtr, packPtr, Nat.testBit_and, Nat.testBit_or, Nat.testBit_shiftLeft,
      Nat.testBit_two_pow_sub_one]
    by_cases hk : k < 4
    · have : ¬ k ≥ 4 := by omega
      simp [this, low_bits p hp k hk]
    · have h4 : k ≥ 4 := by omega
      by_cases h60 : k - 4 < 60
      · simp [h4, h60, hebit k (by omega)]
      · have : p.testBit k = false := by
          apply Nat.testBit_lt_two_pow
          exact lt_of_lt_of_le hl (Nat.pow_le_pow_right (by norm_num) (by omega))
        simp [h60, this]
  · apply Nat.eq_of_testBit_eq
    intro k
    simp only [getEnum, packPtr, Nat.testBit_and, Nat.testBit_or]
    rw [show (7 : ℕ) = 2 ^ 3 - 1 from rfl, Nat.testBit_two_pow_sub_one]
    by_cases hk : k < 3
    · simp [hk, low_bits p hp k (by omega)]
    · simp [hk, hebit k (by omega)]

/-! ## The visited indices -/

/-- The digits of a number in the mixed radix of a shape, from the last dimension to the first; the
first dimension is not reduced. -/
def digitsRev : List ℕ → ℕ → List ℕ
  | [], _ => []
  | [_], k => [k]
  | n :: m :: sh, k => (k % max n 1) :: digitsRev (m :: sh) (k / max n 1)

/-- The product of the extents of all dimensions but the first. -/
def innerRev : List ℕ → ℕ
  | [] => 1
  | [_] => 1
  | n :: m :: sh => max n 1 * innerRev (m :: sh)

theorem innerRev_pos : ∀ l, 0 < innerRev l
  | [] => by simp [innerRev]
  | [_] => by simp [innerRev]
  | n :: m :: sh => by
    have := innerRev_pos (m :: sh)
    simp only [innerRev]
    exact Nat.mul_pos (by omega) this

theorem advance_digits : ∀ (sr : List ℕ) (k : ℕ), sr ≠ [] →
    advanceRev sr (digitsRev sr k) = digitsRev sr (k + 1)
  | [], _, h => absurd rfl h
  | [_], k, _ => by simp [digitsRev, advanceRev]
  | n :: m :: sh, k, _ => by
    have ih := advance_digits (m :: sh) (k / max n 1) (by simp)
    have hp : 0 < max n 1 := by omega
    simp only [digitsRev, advanceRev]
    have hlt := Nat.mod_lt k hp
    have hdm := Nat.div_add_mod k (max n 1)
    split_ifs with h
    · have hm : k % max n 1 + 1 = max n 1 := by omega
      have hk : k + 1 = max n 1 * (k / max n 1 + 1) := by rw [Nat.mul_add]; omega
      have h1 : (k + 1) % max n 1 = 0 := by rw [hk]; simp
      have h2 : (k + 1) / max n 1 = k / max n 1 + 1 := by
        rw [hk, Nat.mul_div_cancel_left _ hp]
      rw [ih, h1, h2]
    · have hm : k % max n 1 + 1 < max n 1 := by omega
      have hk : k + 1 = (k % max n 1 + 1) + max n 1 * (k / max n 1) := by omega
      have h1 : (k + 1) % max n 1 = k % max n 1 + 1 := by
        rw [hk, Nat.add_mul_mod_self_left, Nat.mod_eq_of_lt hm]
      have h2 : (k + 1) / max n 1 = k / max n 1 := by
        rw [hk, Nat.add_mul_div_left _ _ hp, Nat.div_eq_of_lt hm]; simp
      rw [h1, h2]

theorem digits_last : ∀ (sr : List ℕ) (k : ℕ), sr ≠ [] →
    (digitsRev sr k).getLast? = some (k / innerRev sr)
  | [], _, h => absurd rfl h
  | [_], k, _ => by simp [digitsRev, innerRev]
  | n :: m :: sh, k, _ => by
    have ih := digits_last (m :: sh) (k / max n 1) (by simp)
    simp only [digitsRev, innerRev]
    rw [List.getLast?_cons, ih, ← Nat.div_div_eq_div_mul]
    rfl

theorem digits_zero : ∀ (sr : List ℕ), digitsRev sr 0 = List.replicate sr.length 0
  | [] => rfl
  | [_] => rfl
  | n :: m :: sh => by
    have ih := digits_zero (m :: sh)
    simp only [digitsRev, Nat.zero_mod, Nat.zero_div, ih]
    rfl

/-- The loop visits the digits of the consecutive numbers below the size. -/
theorem visit_eq (sr : List ℕ) (n : ℕ) (hn : sr.getLast? = some n) :
    ∀ (fuel k : ℕ), visit sr fuel (digitsRev sr k) =
      (List.range' k (min fuel (n * innerRev sr - k))).map (digitsRev sr)
  | 0, k => by simp [visit]
  | fuel + 1, k => by
    have hne : sr ≠ [] := by rintro rfl; simp at hn
    have hp := innerRev_pos sr
    simp only [visit]
    rw [digits_last sr k hne, hn]
    dsimp only
    split_ifs with h
    · have hk : k < n * innerRev sr := (Nat.div_lt_iff_lt_mul hp).1 h
      rw [advance_digits sr k hne, visit_eq sr n hn fuel (k + 1)]
      have : min (fuel + 1) (n * innerRev sr - k) = min fuel (n * innerRev sr - (k + 1)) + 1 := by
        omega
      rw [this, List.range'_succ, List.map_cons]
    · have hk : ¬ k < n * innerRev sr := fun hk => h ((Nat.div_lt_iff_lt_mul hp).2 hk)
      have : min (fuel + 1) (n * innerRev sr - k) = 0 := by omega
      rw [this]; rfl

theorem turns_ge (n : ℕ) : ∀ sr : List ℕ, sr.getLast? = some n → n * innerRev sr ≤ turns sr
  | [], h => by simp at h
  | [a], h => by
    simp only [List.getLast?_singleton, Option.some.injEq] at h
    subst h
    simp [innerRev, turns]
  | a :: b :: sh, h => by
    have ih := turns_ge n (b :: sh) (by simpa using h)
    simp only [innerRev, turns, List.map_cons, List.prod_cons] at *
    calc n * (max a 1 * innerRev (b :: sh)) = max a 1 * (n * innerRev (b :: sh)) := by ring
      _ ≤ _ := Nat.mul_le_mul_left _ ih

theorem turns_reverse (l : List ℕ) : turns l.reverse = turns l := by
  simp [turns, List.prod_reverse]

/-- The loop of the model ends by its own condition: a larger bound changes nothing. -/
theorem visit_stops (shape : List ℕ) (extra : ℕ) :
    visit shape.reverse (turns shape + 1 + extra) (List.replicate shape.length 0) =
      visit shape.reverse (turns shape + 1) (List.replicate shape.length 0) := by
  rcases hs : shape.reverse.getLast? with _ | n
  · have : shape = [] := by simpa using hs
    subst this
    rw [show turns [] + 1 + extra = (turns [] + extra) + 1 by omega]
    simp [visit]
  · have h0 : List.replicate shape.length 0 = digitsRev shape.reverse 0 := by
      rw [digits_zero]; simp
    have ht := turns_ge n _ hs
    rw [turns_reverse] at ht
    rw [h0, visit_eq _ n hs, visit_eq _ n hs]
    congr 2
    omega

theorem visit_one (n : ℕ) :
    visit [n] (turns [n] + 1) [0] = (List.range n).map fun k => [k] := by
  have h := visit_eq [n] n rfl (turns [n] + 1) 0
  rw [show digitsRev [n] 0 = [0] from rfl] at h
  rw [h]
  have : min (turns [n] + 1) (n * innerRev [n] - 0) = n := by
    simp [turns, innerRev]; omega
  rw [this, List.range_eq_range']
  rfl

theorem visit_two (n m : ℕ) (hm : 0 < m) :
    visit [m, n] (turns [n, m] + 1) [0, 0] =
      (List.range (n * m)).map fun k => [k % m, k / m] := by
  have h := visit_eq [m, n] n rfl (turns [n, m] + 1) 0
  rw [show digitsRev [m, n] 0 = [0, 0] by simp [digitsRev]] at h
  rw [h]
  have h1 : max m 1 = m := by omega
  have : min (turns [n, m] + 1) (n * innerRev [m, n] - 0) = n * m := by
    simp only [turns, innerRev, List.map_cons, List.map_nil, List.prod_cons, List.prod_nil, h1,
      Nat.mul_one, Nat.sub_zero]
    have : n * m ≤ max n 1 * m := Nat.mul_le_mul_right _ (by omega)
    omega
  rw [this, List.range_eq_range']
  apply List.map_congr_left
  intro k _
  simp [digitsRev, h1]

/-! ## Runs -/

theorem all_ok {α β : Type} (f : α → Out β) (g : α → β) :
    ∀ (l : List α), (∀ x ∈ l, f x = .ok (g x)) → Out.all (l.map f) = .ok (l.map g)
  | [], _ => rfl
  | x :: xs, h => by
    have ih := all_ok f g xs (fun y hy => h y (List.mem_cons_of_mem _ hy))
    simp only [List.map_cons, Out.all, h x List.mem_cons_self, ih, Out.bind]

theorem readRun_ok {R : Type} (C : Conv R) (mem : Mem) (i : TypeInfo) (off : ℤ) (n : ℕ)
    (g : ℕ → R)
    (h : ∀ j, j < n → ∃ raw, mem (off + i.bytes * j) = some raw ∧ decode C i raw = .ok (g j)) :
    readRun C mem i off n = .ok ((List.range n).map g) := by
  unfold readRun
  apply all_ok
  intro j hj
  obtain ⟨raw, h1, h2⟩ := h j (List.mem_range.1 hj)
  rw [h1]
  exact h2

theorem copyAll_seq {R : Type} (C : Conv R) (mem : Mem) (i : TypeInfo) (sh : List ℕ)
    (st : List ℤ) (comp : ℕ) : ∀ (ixs : List (List ℕ)) (vals : List (List R)) (pre rest : List R),
    List.Forall₂ (fun ix v => readRun C mem i (srcOffset st ix) comp = .ok v ∧ v.length = comp)
      ixs vals →
    (∀ t ix, ixs[t]? = some ix → dstOffset sh ix = pre.length + t * comp) →
    rest.length = ixs.length * comp →
    copyAll C mem i sh st comp ixs (pre ++ rest) = .ok (pre ++ vals.flatten)
  | [], vals, pre, rest, hf, _, hr => by
    cases hf
    have : rest = [] := by simpa using hr
    simp [copyAll, this]
  | ix :: ixs, vals, pre, rest, hf, hd, hr => by
    rcases hf with _ | ⟨⟨h1, h2⟩, htail⟩
    rename_i v vs
    have hd0 : dstOffset sh ix = pre.length := by simpa using hd 0 ix rfl
    have hlen : rest.length = comp + ixs.length * comp := by
      rw [hr, List.length_cons]; ring
    have hle : comp ≤ rest.length := by omega
    simp only [copyAll]
    rw [if_pos (by rw [hd0, List.length_append]; omega), h1]
    simp only [Out.bind, writeRun]
    rw [if_pos (by rw [hd0, List.length_append, h2]; omega)]
    dsimp only
    rw [hd0, h2]
    have e1 : (pre ++ rest).take pre.length = pre := by simp
    have e2 : (pre ++ rest).drop (pre.length + comp) = rest.drop comp := by
      rw [← List.drop_drop]; simp
    rw [e1, e2]
    rw [copyAll_seq C mem i sh st comp ixs vs (pre ++ v) (rest.drop comp) htail ?_ ?_]
    · simp
    · intro t ix' ht
      have := hd (t + 1) ix' (by simpa using ht)
      rw [this, List.length_append, h2]; ring
    · rw [List.length_drop]; omega

/-- Writes that end before a position leave it alone. -/
theorem copyAll_keep {R : Type} (C : Conv R) (mem : Mem) (i : TypeInfo) (sh : List ℕ)
    (st : List ℤ) (comp p : ℕ) : ∀ (ixs : List (List ℕ)) (out : List R),
    (∀ ix ∈ ixs, ∃ v, readRun C mem i (srcOffset st ix) comp = .ok v ∧ v.length = comp) →
    (∀ ix ∈ ixs, dstOffset sh ix + comp ≤ p) → p < out.length →
    ∃ out', copyAll C mem i sh st comp ixs out = .ok out' ∧ out'.length = out.length ∧
      out'[p]? = out[p]?
  | [], out, _, _, _ => ⟨out, rfl, rfl, rfl⟩
  | ix :: ixs, out, hr, hd, hp => by
    obtain ⟨v, h1, h2⟩ := hr ix List.mem_cons_self
    have hle := hd ix List.mem_cons_self
    simp only [copyAll]
    rw [if_pos (by omega), h1]
    simp only [Out.bind, writeRun]
    rw [if_pos (by rw [h2]; omega)]
    dsimp only
    have hlen : (out.take (dstOffset sh ix) ++ v ++
        out.drop (dstOffset sh ix + v.length)).length = out.length := by
      simp only [List.length_append, List.length_take, List.length_drop]; omega
    obtain ⟨out', h3, h4, h5⟩ := copyAll_keep C mem i sh st comp p ixs
      (out.take (dstOffset sh ix) ++ v ++ out.drop (dstOffset sh ix + v.length))
      (fun x hx => hr x (List.mem_cons_of_mem _ hx))
      (fun x hx => hd x (List.mem_cons_of_mem _ hx)) (by omega)
    refine ⟨out', h3, by omega, ?_⟩
    rw [h5, List.getElem?_append_right (by simp only [List.length_append, List.length_take]; omega)]
    rw [List.getElem?_drop]
    congr 1
    simp only [List.length_append, List.length_take]
    omega

/-! ## Rows -/

theorem chunks_get {R : Type} (m : ℕ) (hm : 0 < m) : ∀ (n fuel : ℕ) (l : List R),
    l.length = n * m → n ≤ fuel →
    (chunks m fuel l).length = n ∧
      ∀ i, i < n → (chunks m fuel l)[i]? = some ((l.drop (i * m)).take m)
  | 0, fuel, l, hl, _ => by
    have : l = [] := by simpa using hl
    subst this
    cases fuel <;> simp [chunks]
  | n + 1, 0, l, hl, hf => by omega
  | n + 1, fuel + 1, l, hl, hf => by
    have hl' : l.length = n * m + m := by rw [hl]; ring
    have hne : l.isEmpty = false := by
      cases l with
      | nil => simp at hl'; omega
      | cons => rfl
    obtain ⟨h1, h2⟩ := chunks_get m hm n fuel (l.drop m) (by rw [List.length_drop]; omega)
      (by omega)
    simp only [chunks, hne]
    refine ⟨by simp [h1], ?_⟩
    intro i hi
    cases i with
    | zero => simp
    | succ i =>
      have := h2 i (by omega)
      simp only [Bool.false_eq_true, if_false, List.getElem?_cons_succ]
      rw [this, List.drop_drop]
      congr 3
      ring

theorem range_rows {R : Type} (g : ℕ → ℕ → R) (m : ℕ) (hm : 0 < m) : ∀ n : ℕ,
    ((List.range n).map fun i => (List.range m).map (g i)).flatten =
      (List.range (n * m)).map fun k => g (k / m) (k % m)
  | 0 => by simp
  | n + 1 => by
    rw [List.range_succ, List.map_append, List.flatten_append, range_rows g m hm n,
      Nat.succ_mul, List.range_add, List.map_append]
    congr 1
    simp only [List.map_cons, List.map_nil, List.flatten_cons, List.flatten_nil, List.append_nil,
      List.map_map]
    apply List.map_congr_left
    intro j hj
    have hj := List.mem_range.1 hj
    have h1 : (n * m + j) / m = n := by
      rw [Nat.mul_comm, Nat.mul_add_div hm, Nat.div_eq_of_lt hj]; omega
    have h2 : (n * m + j) % m = j := by
      rw [Nat.mul_comm, Nat.mul_add_mod, Nat.mod_eq_of_lt hj]
    simp only [Function.comp_apply, h1, h2]

theorem forall₂_map {α β γ : Type} (P : β → γ → Prop) (f : α → β) (g : α → γ) :
    ∀ l : List α, (∀ x ∈ l, P (f x) (g x)) → List.Forall₂ P (l.map f) (l.map g)
  | [], _ => .nil
  | x :: xs, h => .cons (h x List.mem_cons_self)
      (forall₂_map P f g xs fun y hy => h y (List.mem_cons_of_mem _ hy))

theorem map_singleton_flatten {α β : Type} (g : α → β) :
    ∀ l : List α, (l.map fun x => [g x]).flatten = l.map g
  | [] => rfl
  | x :: xs => by simp [map_singleton_flatten g xs]

/-- The copy of a one dimensional array. -/
theorem strideCopy1 {R : Type} (C : Conv R) (mem : Mem) (info : TypeInfo) (m : ℕ) (a : ℤ) (z : R)
    (g : ℕ → R)
    (h : ∀ j, j < m → ∃ raw, mem (a * j) = some raw ∧ decode C (readBack info) raw = .ok (g j)) :
    strideCopy C mem info m 1 [m] (some [a]) (List.replicate m z) =
      .ok ((List.range m).map g) := by
  unfold strideCopy
  rw [if_neg (by decide), if_neg (by simp)]
  simp only [List.take, Option.map_some, compressedDims, List.reverse_cons, List.reverse_nil,
    List.nil_append, compressedFrom]
  by_cases ha : a = ((readBack info).bytes : ℤ)
  · simp only [ne_eq, ha, not_true_eq_false, if_false, if_true, List.length_replicate, lt_irrefl,
      Nat.add_zero]
    apply readRun_ok
    intro j hj
    obtain ⟨raw, h1, h2⟩ := h j hj
    exact ⟨raw, by rw [← h1, ha, zero_add], h2⟩
  · simp only [ne_eq, ha, not_false_eq_true, if_true, Nat.zero_ne_one, if_false, Nat.sub_zero,
      List.take, List.drop, List.prod_nil, List.replicate, Option.getD_some]
    rw [show ([m] : List ℕ).reverse = [m] from rfl, visit_one]
    have := copyAll_seq C mem (readBack info) [m] [a] 1
      (((List.range m).map fun k => [k]).map List.reverse) ((List.range m).map fun k => [g k]) []
      (List.replicate m z) ?_ ?_ ?_
    · simp only [List.nil_append, map_singleton_flatten] at this
      exact this
    · rw [List.map_map]
      apply forall₂_map
      intro k hk
      refine ⟨?_, rfl⟩
      obtain ⟨raw, h1, h2⟩ := h k (List.mem_range.1 hk)
      have := readRun_ok C mem (readBack info) (srcOffset [a] [k]) 1 (fun _ => g k) (by
        intro j hj
        have : j = 0 := by omega
        subst this
        exact ⟨raw, by simpa [srcOffset] using h1, h2⟩)
      simpa using this
    · intro t ix ht
      simp only [List.map_map, List.getElem?_map] at ht
      rcases hr : (List.range m)[t]? with _ | k
      · rw [hr] at ht; simp at ht
      · rw [hr] at ht
        have hk : k = t := by
          have := List.getElem?_range (n := m) (i := t)
          by_cases htm : t < m
          · rw [List.getElem?_range htm] at hr; simpa using hr.symm
          · rw [List.getElem?_eq_none (by simpa using htm)] at hr; simp at hr
        simp only [Option.map_some, Option.some.injEq] at ht
        subst ht; subst hk
        simp [dstOffset, dstSum]
    · simp

theorem getElem?_range_map {α : Type} (f : ℕ → α) (n t : ℕ) (x : α)
    (h : ((List.range n).map f)[t]? = some x) : t < n ∧ x = f t := by
  rw [List.getElem?_map] at h
  by_cases ht : t < n
  · rw [List.getElem?_range ht] at h
    exact ⟨ht, by simpa using h.symm⟩
  · rw [List.getElem?_eq_none (by simpa using ht)] at h
    simp at h

/-- The copy of a two dimensional array, where it is right. -/
theorem strideCopy2 {R : Type} (C : Conv R) (mem : Mem) (info : TypeInfo) (n m : ℕ) (a₀ a₁ : ℤ)
    (z : R) (g : ℕ → ℕ → R) (hm : 0 < m)
    (hc : a₁ ≠ (readBack info).bytes ∨ a₀ = (readBack info).bytes * m ∨ n ≤ 1 ∨ m = 1)
    (h : ∀ i, i < n → ∀ j, j < m → ∃ raw, mem (a₀ * i + a₁ * j) = some raw ∧
      decode C (readBack info) raw = .ok (g i j)) :
    strideCopy C mem info (n * m) 2 [n, m] (some [a₀, a₁]) (List.replicate (n * m) z) =
      .ok ((List.range (n * m)).map fun k => g (k / m) (k % m)) := by
  have hdiv : ∀ k, k < n * m → k / m < n ∧ k % m < m := fun k hk =>
    ⟨(Nat.div_lt_iff_lt_mul hm).2 hk, Nat.mod_lt _ hm⟩
  unfold strideCopy
  rw [if_neg (by decide), if_neg (by simp)]
  simp only [List.take, Option.map_some, compressedDims, List.reverse_cons, List.reverse_nil,
    List.nil_append, List.cons_append, compressedFrom]
  by_cases ha : a₁ = ((readBack info).bytes : ℤ)
  · by_cases hb : a₀ = ((readBack info).bytes : ℤ) * m
    · simp only [ne_eq, ha, hb, not_true_eq_false, if_false, if_true, List.length_replicate,
        lt_irrefl, Nat.add_zero, Nat.reduceAdd]
      apply readRun_ok
      intro k hk
      obtain ⟨raw, h1, h2⟩ := h _ (hdiv k hk).1 _ (hdiv k hk).2
      refine ⟨raw, ?_, h2⟩
      rw [← h1, ha, hb]
      congr 1
      have hk := Nat.div_add_mod k m
      have : (k : ℤ) = m * ((k / m : ℕ) : ℤ) + ((k % m : ℕ) : ℤ) := by
        exact_mod_cast hk.symm
      calc (0 : ℤ) + ((readBack info).bytes : ℤ) * k
          = ((readBack info).bytes : ℤ) * (m * ((k / m : ℕ) : ℤ) + ((k % m : ℕ) : ℤ)) := by
            rw [← this]; ring
        _ = _ := by ring
    · have hc' : n ≤ 1 ∨ m = 1 := by
        rcases hc with hc | hc | hc
        · exact absurd ha hc
        · exact absurd hc hb
        · exact hc
      simp only [ne_eq, ha, hb, not_true_eq_false, not_false_eq_true, if_false, if_true,
        Nat.add_zero, Nat.reduceSub, List.take, List.drop, List.prod_cons,
        List.prod_nil, Nat.mul_one, List.replicate, Option.getD_some, OfNat.one_ne_ofNat]
      rw [show ([n] : List ℕ).reverse = [n] from rfl, visit_one]
      have := copyAll_seq C mem (readBack info) [n] [a₀] m
        (((List.range n).map fun k => [k]).map List.reverse)
        ((List.range n).map fun i => (List.range m).map (g i)) []
        (List.replicate (n * m) z) ?_ ?_ ?_
      · simp only [List.nil_append, range_rows g m hm] at this
        exact this
      · rw [List.map_map]
        apply forall₂_map
        intro i hi
        refine ⟨?_, by simp⟩
        apply readRun_ok
        intro j hj
        obtain ⟨raw, h1, h2⟩ := h i (List.mem_range.1 hi) j hj
        refine ⟨raw, ?_, h2⟩
        rw [← h1, ha]
        simp [srcOffset]
      · intro t ix ht
        rw [List.map_map] at ht
        obtain ⟨h1, h2⟩ := getElem?_range_map _ _ _ _ ht
        subst h2
        rcases hc' with h | h
        · have : t = 0 := by omega
          subst this
          simp [dstOffset, dstSum]
        · subst h
          simp [dstOffset, dstSum]
      · simp
  · simp only [ne_eq, ha, not_false_eq_true, if_true, OfNat.zero_ne_ofNat, if_false, Nat.sub_zero,
      List.take, List.drop, List.prod_nil, List.replicate, Option.getD_some]
    rw [show ([n, m] : List ℕ).reverse = [m, n] from rfl, visit_two n m hm]
    have := copyAll_seq C mem (readBack info) [n, m] [a₀, a₁] 1
      (((List.range (n * m)).map fun k => [k % m, k / m]).map List.reverse)
      ((List.range (n * m)).map fun k => [g (k / m) (k % m)]) []
      (List.replicate (n * m) z) ?_ ?_ ?_
    · simp only [List.nil_append, map_singleton_flatten] at this
      exact this
    · rw [List.map_map]
      apply forall₂_map
      intro k hk
      have hk := List.mem_range.1 hk
      refine ⟨?_, rfl⟩
      obtain ⟨raw, h1, h2⟩ := h _ (hdiv k hk).1 _ (hdiv k hk).2
      have := readRun_ok C mem (readBack info) (srcOffset [a₀, a₁] [k / m, k % m]) 1
        (fun _ => g (k / m) (k % m)) (by
        intro j hj
        have : j = 0 := by omega
        subst this
        exact ⟨raw, by simpa [srcOffset] using h1, h2⟩)
      simpa using this
    · intro t ix ht
      rw [List.map_map] at ht
      obtain ⟨h1, h2⟩ := getElem?_range_map _ _ _ _ ht
      subst h2
      have := Nat.div_add_mod t m
      simp only [Function.comp_apply, List.reverse_cons, List.reverse_nil, List.nil_append,
        List.cons_append, dstOffset, dstSum, List.drop, List.getLast?_cons, List.length_nil]
      simp
      omega
    · simp

/-! ## Leaves -/

/-- Without strides the copy reads the memory from its start. -/
theorem strideCopyNull {R : Type} (C : Conv R) (mem : Mem) (info : TypeInfo) (shape : List ℕ)
    (z : R) (hs : shape ≠ []) :
    strideCopy C mem info shape.prod shape.length shape none (List.replicate shape.prod z) =
      readRun C mem (readBack info) 0 shape.prod := by
  unfold strideCopy
  have : shape.length ≠ 0 := by simpa using hs
  rw [if_neg this, if_neg (by simp)]
  simp [compressedDims]

/-- The type info of an element of `b` bytes of the given code. -/
def plainInfo (code b : ℕ) : TypeInfo := ⟨code, b, b, 1⟩

theorem supported_bounds {code b : ℕ} (h : Supported code b) : code < 5 ∧ 0 < b ∧ b ≤ 8 := by
  unfold Supported cInt cUInt cFloat cBFloat at h; omega

theorem plainInfo_bytes {code b : ℕ} (h : Supported code b) : (plainInfo code b).Bytes := by
  have := supported_bounds h
  refine ⟨?_, ?_, ?_, ?_⟩ <;> simp only [plainInfo] <;> omega

theorem readBack_plain {code b : ℕ} (h : Supported code b) :
    readBack (plainInfo code b) = plainInfo (code - code % 2) b :=
  readBack_eq _ (plainInfo_bytes h)

/-- A copied element has the value of the element, unless it is a large unsigned number. -/
theorem decode_readBack {R : Type} (C : Conv R) {code b raw : ℕ} (h : Supported code b)
    (hu : code = cUInt → 2 * raw < 2 ^ (8 * b)) :
    decode C (readBack (plainInfo code b)) raw = .ok (valueOf C code b raw) := by
  rw [readBack_plain h]
  rcases h with ⟨hc, hb⟩ | ⟨hc, hb⟩ | ⟨hc, hb⟩ | ⟨hc, hb⟩
  · subst hc; simp [decode, plainInfo, valueOf, hb]
  · have hu := hu hc
    subst hc
    simp [decode, plainInfo, valueOf, hb, signedOf, hu]
  · subst hc; simp [decode, plainInfo, valueOf, hb]
  · subst hc; simp [decode, plainInfo, valueOf, hb, cBFloat, cUInt, cFloat, cInt]

/-- A borrowed element has the value of the element. -/
theorem decode_plain {R : Type} (C : Conv R) {code b raw : ℕ} (h : Supported code b) :
    decode C (plainInfo code b) raw = .ok (valueOf C code b raw) := by
  rcases h with ⟨hc, hb⟩ | ⟨hc, hb⟩ | ⟨hc, hb⟩ | ⟨hc, hb⟩ <;>
  · subst hc; simp [decode, plainInfo, valueOf, hb, cBFloat, cUInt, cFloat, cInt]

theorem info_plain (T : DL) (h : T.Plain) : T.info = plainInfo T.code (T.bits / 8) := by
  obtain ⟨-, -, hl, hb, hb8, hs⟩ := h
  have := supported_bounds hs
  simp only [DL.info, plainInfo, hl, TypeInfo.mk.injEq, true_and]
  refine ⟨?_, ?_, by norm_num⟩
  · omega
  · omega

theorem sameType_of_eq (T : DL) (h : T.Plain) (target : Target) (he : target.info = T.info) :
    T.SameType target := by
  rw [info_plain T h] at he
  exact ⟨by rw [he]; rfl, by rw [he]; rfl⟩

/-- The leaf of a one dimensional array, where it is right. -/
theorem leaf1 {R : Type} (T : DL) (C : Conv R) (target : Target) (m : ℕ) (s : ℤ)
    (hp : T.Plain) (hu : T.Small) (hs : T.shape = [m])
    (hst : T.strides = some [s] ∨ (T.strides = none ∧ s = 1))
    (hg : T.strides = none ∨ ¬ T.SameType target ∨ (s % 2 ^ 32 ≠ 0 ∧ s ≠ (T.bits / 8 : ℕ)))
    (he : ∀ j, j < m → (T.at1 s j).isSome) :
    T.leaf C target =
      .ok ((List.range m).map fun j => valueOf C T.code (T.bits / 8) ((T.at1 s j).getD 0)) := by
  have hi := info_plain T hp
  obtain ⟨hh, ho, -, -, -, hsup⟩ := id hp
  have hread : ∀ j, j < m → ∃ raw, T.mem ((s * (T.bits / 8 : ℕ)) * j) = some raw ∧
      (T.at1 s j) = some raw := by
    intro j hj
    obtain ⟨raw, hr⟩ := Option.isSome_iff_exists.1 (he j hj)
    refine ⟨raw, ?_, hr⟩
    rw [← hr]
    simp only [DL.at1, ho, zero_add]
    congr 1
    ring
  have hread2 : ∀ j, j < m → ∃ raw, T.mem ((s * (T.bits / 8 : ℕ)) * j) = some raw ∧
      decode C (readBack T.info) raw =
        .ok (valueOf C T.code (T.bits / 8) ((T.at1 s j).getD 0)) := by
    intro j hj
    obtain ⟨raw, h1, h2⟩ := hread j hj
    exact ⟨raw, h1, by rw [hi, decode_readBack C hsup fun hc => hu hc _ _ h1, h2]; rfl⟩
  unfold DL.leaf
  simp only [hh, if_true]
  by_cases hb : (isCContiguous T.strides T.shape T.info.bytes && target.info == T.info) = true
  · rw [if_pos hb]
    simp only [Bool.and_eq_true, beq_iff_eq] at hb
    obtain ⟨hcon, hinfo⟩ := hb
    have hsame := sameType_of_eq T hp target hinfo
    rcases hst with hst | ⟨hst, h1⟩
    · exfalso
      rcases hg with hg | hg | ⟨hg1, hg2⟩
      · rw [hst] at hg; simp at hg
      · exact hg hsame
      · rw [hst, hs, hi] at hcon
        simp [isCContiguous, contiguousFrom, plainInfo] at hcon
        norm_num at hg1
        rcases hcon with hcon | hcon
        · exact hg1 hcon
        · exact hg2 (by exact_mod_cast hcon)
    · subst h1
      rw [hs]
      simp only [List.prod_cons, List.prod_nil, Nat.mul_one]
      apply readRun_ok
      intro j hj
      obtain ⟨raw, h1, h2⟩ := hread j hj
      refine ⟨raw, ?_, ?_⟩
      · rw [← h1, hinfo, hi]; simp [plainInfo]
      · rw [hinfo, hi, decode_plain C hsup, h2]; rfl
  · rw [if_neg hb]
    rcases hst with hst | ⟨hst, h1⟩
    · rw [hst, hs]
      simp only [Option.map_some, List.map_cons, List.map_nil, Option.some.injEq, List.cons_ne_nil,
        if_false, List.prod_cons, List.prod_nil, Nat.mul_one, List.length_cons,
        List.length_nil, Nat.zero_add]
      have := strideCopy1 C T.mem T.info m (s * (T.info.bytes : ℤ)) C.zero
        (fun j => valueOf C T.code (T.bits / 8) ((T.at1 s j).getD 0)) (by
          rw [show T.info.bytes = T.bits / 8 by rw [hi]; rfl]
          exact hread2)
      exact this
    · subst h1
      rw [hst]
      simp only [Option.map_none, reduceCtorEq, if_false]
      rw [strideCopyNull _ _ _ _ _ (by rw [hs]; simp), hs]
      simp only [List.prod_cons, List.prod_nil, Nat.mul_one]
      apply readRun_ok
      intro j hj
      obtain ⟨raw, h1, h2⟩ := hread2 j hj
      refine ⟨raw, ?_, h2⟩
      rw [← h1, hi, readBack_plain hsup]; simp [plainInfo]

theorem dense_offset (b m k : ℕ) :
    (0 : ℤ) + (b : ℤ) * k = ((m : ℤ) * b) * (k / m : ℕ) + (1 * (b : ℤ)) * (k % m : ℕ) := by
  have hk := Nat.div_add_mod k m
  have : (k : ℤ) = m * ((k / m : ℕ) : ℤ) + ((k % m : ℕ) : ℤ) := by exact_mod_cast hk.symm
  calc (0 : ℤ) + (b : ℤ) * k = b * (m * ((k / m : ℕ) : ℤ) + ((k % m : ℕ) : ℤ)) := by
        rw [← this]; ring
    _ = _ := by ring

/-- The leaf of a two dimensional array, where it is right. -/
theorem leaf2 {R : Type} (T : DL) (C : Conv R) (target : Target) (n m : ℕ) (s₀ s₁ : ℤ)
    (hp : T.Plain) (hu : T.Small) (hs : T.shape = [n, m]) (hm : 0 < m)
    (hst : T.strides = some [s₀, s₁] ∨ (T.strides = none ∧ s₀ = m ∧ s₁ = 1))
    (hg : T.strides = none ∨ ¬ T.SameType target ∨
      ((s₀ + s₁) % 2 ^ 32 ≠ 0 ∧ ¬ (s₁ = (T.bits / 8 : ℕ) ∧ s₀ = (T.bits / 8 : ℕ) * m)))
    (hc : s₁ ≠ 1 ∨ s₀ = m ∨ n ≤ 1 ∨ m = 1)
    (he : ∀ i, i < n → ∀ j, j < m → (T.at2 s₀ s₁ i j).isSome) :
    T.leaf C target = .ok ((List.range (n * m)).map fun k =>
      valueOf C T.code (T.bits / 8) ((T.at2 s₀ s₁ (k / m) (k % m)).getD 0)) := by
  have hi := info_plain T hp
  obtain ⟨hh, ho, -, -, -, hsup⟩ := id hp
  have hbpos := (supported_bounds hsup).2.1
  have hdiv : ∀ k, k < n * m → k / m < n ∧ k % m < m := fun k hk =>
    ⟨(Nat.div_lt_iff_lt_mul hm).2 hk, Nat.mod_lt _ hm⟩
  have hread : ∀ i, i < n → ∀ j, j < m → ∃ raw,
      T.mem ((s₀ * (T.bits / 8 : ℕ)) * i + (s₁ * (T.bits / 8 : ℕ)) * j) = some raw ∧
      (T.at2 s₀ s₁ i j) = some raw := by
    intro i hi j hj
    obtain ⟨raw, hr⟩ := Option.isSome_iff_exists.1 (he i hi j hj)
    refine ⟨raw, ?_, hr⟩
    rw [← hr]
    simp only [DL.at2, ho, zero_add]
    congr 1
    ring
  have hread2 : ∀ i, i < n → ∀ j, j < m → ∃ raw,
      T.mem ((s₀ * (T.bits / 8 : ℕ)) * i + (s₁ * (T.bits / 8 : ℕ)) * j) = some raw ∧
      decode C (readBack T.info) raw =
        .ok (valueOf C T.code (T.bits / 8) ((T.at2 s₀ s₁ i j).getD 0)) := by
    intro i hii j hj
    obtain ⟨raw, h1, h2⟩ := hread i hii j hj
    exact ⟨raw, h1, by rw [hi, decode_readBack C hsup fun hc => hu hc _ _ h1, h2]; rfl⟩
  unfold DL.leaf
  simp only [hh, if_true]
  by_cases hb : (isCContiguous T.strides T.shape T.info.bytes && target.info == T.info) = true
  · rw [if_pos hb]
    simp only [Bool.and_eq_true, beq_iff_eq] at hb
    obtain ⟨hcon, hinfo⟩ := hb
    have hsame := sameType_of_eq T hp target hinfo
    rcases hst with hst | ⟨hst, h0, h1⟩
    · exfalso
      rcases hg with hg | hg | ⟨hg1, hg2⟩
      · rw [hst] at hg; simp at hg
      · exact hg hsame
      · rw [hst, hs, hi] at hcon
        simp [isCContiguous, contiguousFrom, plainInfo] at hcon
        norm_num at hg1
        rcases hcon with hcon | hcon
        · exact hg1 hcon
        · exact hg2 ⟨by exact_mod_cast hcon.1, by exact_mod_cast hcon.2⟩
    · subst h0; subst h1
      rw [hs]
      simp only [List.prod_cons, List.prod_nil, Nat.mul_one]
      apply readRun_ok
      intro k hk
      obtain ⟨raw, h1, h2⟩ := hread _ (hdiv k hk).1 _ (hdiv k hk).2
      refine ⟨raw, ?_, ?_⟩
      · rw [← h1, hinfo, hi, ← dense_offset]; rfl
      · rw [hinfo, hi, decode_plain C hsup, h2]; rfl
  · rw [if_neg hb]
    rcases hst with hst | ⟨hst, h0, h1⟩
    · rw [hst, hs]
      simp only [Option.map_some, List.map_cons, List.map_nil, Option.some.injEq, List.cons_ne_nil,
        if_false, List.prod_cons, List.prod_nil, Nat.mul_one, List.length_cons,
        List.length_nil, Nat.zero_add, Nat.reduceAdd]
      have hbytes : T.info.bytes = T.bits / 8 := by rw [hi]; rfl
      have hrb : (readBack T.info).bytes = T.bits / 8 := by rw [hi, readBack_plain hsup]; rfl
      have hbz : ((T.bits / 8 : ℕ) : ℤ) ≠ 0 := by exact_mod_cast hbpos.ne'
      have := strideCopy2 C T.mem T.info n m (s₀ * (T.info.bytes : ℤ)) (s₁ * (T.info.bytes : ℤ))
        C.zero (fun i j => valueOf C T.code (T.bits / 8) ((T.at2 s₀ s₁ i j).getD 0)) hm
        (by
          rw [hbytes, hrb]
          rcases hc with hc | hc | hc
          · left
            intro hx
            apply hc
            exact mul_right_cancel₀ hbz (by rw [hx, one_mul])
          · right; left; rw [hc, mul_comm]
          · right; right; exact hc)
        (by rw [hbytes]; exact hread2)
      exact this
    · subst h0; subst h1
      rw [hst]
      simp only [Option.map_none, reduceCtorEq, if_false]
      rw [strideCopyNull _ _ _ _ _ (by rw [hs]; simp), hs]
      simp only [List.prod_cons, List.prod_nil, Nat.mul_one]
      apply readRun_ok
      intro k hk
      obtain ⟨raw, h1, h2⟩ := hread2 _ (hdiv k hk).1 _ (hdiv k hk).2
      refine ⟨raw, ?_, h2⟩
      rw [← h1, hi, readBack_plain hsup, ← dense_offset]; rfl

/-- The rows cut from the data of a two dimensional array. -/
theorem arrayRows2 {R : Type} (n m : ℕ) (hn : 0 < n) (hm : 0 < m) (data : List R)
    (hl : data.length = n * m) :
    ∃ rows, arrayRows [n, m] data = .ok rows ∧ rows.length = n ∧
      ∀ i, i < n → rows[i]? = some ((data.drop (i * m)).take m) := by
  have hne : ¬ ([n, m] : List ℕ).prod = 0 := by
    simp only [List.prod_cons, List.prod_nil, Nat.mul_one]
    exact (Nat.mul_pos hn hm).ne'
  unfold arrayRows
  rw [if_neg hne]
  dsimp only
  have h2 : n ≤ data.length := by rw [hl]; exact Nat.le_mul_of_pos_right n hm
  obtain ⟨h3, h4⟩ := chunks_get m hm n data.length data hl h2
  exact ⟨_, rfl, by simpa using h3, by simpa using h4⟩

end RoughPy.Args
