import Verif.Lite.BasisLemmas
import Verif.Lite.VecLemmas
import Mathlib.Data.List.TakeDrop

set_option linter.unusedSectionVars false

/-! # Dense vectors act coefficient-wise -/

namespace RoughPy.Lite

variable {K : Type}

namespace Dense
variable [Zero K] [DecidableEq K]

/-- entry `i` of the storage, zero beyond its end -/
def entry (v : Dense K) (i : ℕ) : K := v.storage[i]?.getD 0

theorem entry_of_le {v : Dense K} {i : ℕ} (h : v.storage.length ≤ i) : v.entry i = 0 := by
  unfold entry; rw [List.getElem?_eq_none h]; rfl

theorem get_eq_entry {v : Dense K} {i : ℕ} (h : i < v.storage.length) :
    v.storage[i]? = some (v.entry i) := by
  unfold entry; rw [List.getElem?_eq_getElem h]; rfl

theorem length_resizeExact (v : Dense K) (n d : ℕ) : (v.resizeExact n d).storage.length = n := by
  simp only [resizeExact, List.length_append, List.length_take, List.length_replicate]; omega

theorem entry_resizeExact (v : Dense K) (n d i : ℕ) :
    (v.resizeExact n d).entry i = if i < n then v.entry i else 0 := by
  by_cases h : i < n
  · rw [if_pos h]
    unfold entry resizeExact
    dsimp only
    by_cases hi : i < v.storage.length
    · rw [List.getElem?_append_left (by rw [List.length_take]; omega), List.getElem?_take_of_lt h]
    · rw [List.getElem?_append_right (by rw [List.length_take]; omega),
        List.getElem?_eq_none (l := v.storage) (by omega),
        List.getElem?_replicate, List.length_take]
      split_ifs <;> rfl
  · rw [if_neg h, entry_of_le]
    rw [length_resizeExact]; omega

theorem update_eq {v : Dense K} {i : ℕ} (h : i < v.storage.length) (f : K → K) :
    ∃ v', v.update i f = some v' ∧ v'.storage.length = v.storage.length ∧
      v'.degree = v.degree ∧
      ∀ j, v'.entry j = if j = i then f (v.entry i) else v.entry j := by
  refine ⟨{ v with storage := v.storage.set i (f (v.entry i)) }, ?_, ?_, rfl, ?_⟩
  · unfold update
    rw [get_eq_entry h]; rfl
  · simp
  · intro j
    unfold entry
    dsimp only
    rw [List.getElem?_set]
    by_cases hj : j = i
    · subst hj; rw [if_pos rfl, if_pos rfl]; simp [h]
    · rw [if_neg (fun hh => hj hh.symm), if_neg hj]

theorem entry_unary (op : K → K) (h0 : op 0 = 0) (v : Dense K) (i : ℕ) :
    (v.unary op).entry i = op (v.entry i) := by
  unfold entry unary
  dsimp only
  rw [List.getElem?_map]
  cases v.storage[i]? <;> simp [h0]

theorem length_binary (op : K → K → K) (a b : Dense K) :
    (binary op a b).storage.length = max a.storage.length b.storage.length := by
  unfold binary
  simp only [List.length_append, List.length_zipWith, List.length_map, List.length_drop]
  omega

theorem entry_binary (op : K → K → K) (h0 : op 0 0 = 0) (a b : Dense K) (i : ℕ) :
    (binary op a b).entry i = op (a.entry i) (b.entry i) := by
  by_cases hi : max a.storage.length b.storage.length ≤ i
  · rw [entry_of_le (by rw [length_binary]; exact hi), entry_of_le (by omega),
      entry_of_le (by omega), h0]
  · unfold entry binary
    dsimp only
    by_cases h1 : i < min a.storage.length b.storage.length
    · rw [List.append_assoc, List.getElem?_append_left (by rw [List.length_zipWith]; exact h1),
        List.getElem?_zipWith, List.getElem?_eq_getElem (l := a.storage) (by omega),
        List.getElem?_eq_getElem (l := b.storage) (by omega)]
      rfl
    · rw [List.append_assoc, List.getElem?_append_right (by rw [List.length_zipWith]; omega),
        List.length_zipWith]
      by_cases h2 : i < a.storage.length
      · rw [List.getElem?_append_left (by simp only [List.length_map, List.length_drop]; omega),
          List.getElem?_map, List.getElem?_drop,
          show min a.storage.length b.storage.length + (i - min a.storage.length b.storage.length)
            = i by omega,
          List.getElem?_eq_getElem h2, List.getElem?_eq_none (l := b.storage) (by omega)]
        rfl
      · rw [List.getElem?_append_right
            (by simp only [List.length_map, List.length_drop]; omega),
          List.getElem?_map, List.getElem?_drop, List.length_map, List.length_drop,
          List.getElem?_eq_none (l := a.storage) (by omega)]
        have : min a.storage.length b.storage.length +
            (i - min a.storage.length b.storage.length -
              (a.storage.length - min a.storage.length b.storage.length)) = i := by omega
        rw [this, List.getElem?_eq_getElem (l := b.storage) (by omega)]
        rfl

theorem length_combine (op : K → K → K) {a b : List K} {n : ℕ}
    (ha : a.length = max n b.length) :
    (combine op a b (min n b.length) n).length = max n b.length := by
  unfold combine
  simp only [List.length_append, List.length_zipWith, List.length_map, List.length_drop,
    List.length_take]
  omega

theorem get_combine (op : K → K → K) (h0 : op 0 0 = 0) {a b : List K} {n : ℕ}
    (ha : a.length = max n b.length) (i : ℕ) :
    (combine op a b (min n b.length) n)[i]?.getD 0 = op (a[i]?.getD 0) (b[i]?.getD 0) := by
  by_cases hi : max n b.length ≤ i
  · rw [List.getElem?_eq_none (by rw [length_combine op ha]; exact hi),
      List.getElem?_eq_none (l := a) (by omega), List.getElem?_eq_none (l := b) (by omega)]
    exact h0.symm
  · have hi' : i < a.length := by omega
    unfold combine
    by_cases h1 : i < min n b.length
    · rw [List.append_assoc, List.getElem?_append_left
          (by rw [List.length_zipWith, List.length_take]; omega),
        List.getElem?_zipWith, List.getElem?_take_of_lt h1, List.getElem?_eq_getElem hi',
        List.getElem?_eq_getElem (l := b) (by omega)]
      rfl
    · rw [List.append_assoc, List.getElem?_append_right
          (by rw [List.length_zipWith, List.length_take]; omega),
        List.length_zipWith, List.length_take]
      have hm : min (min (min n b.length) a.length) b.length = min n b.length := by omega
      rw [hm]
      by_cases h2 : i < n
      · rw [List.getElem?_append_left
            (by simp only [List.length_map, List.length_take, List.length_drop]; omega),
          List.getElem?_map, List.getElem?_take_of_lt (by omega), List.getElem?_drop,
          show min n b.length + (i - min n b.length) = i by omega,
          List.getElem?_eq_getElem hi', List.getElem?_eq_none (l := b) (by omega)]
        rfl
      · rw [List.getElem?_append_right
            (by simp only [List.length_map, List.length_take, List.length_drop]; omega),
          List.length_map, List.length_take, List.length_drop, List.getElem?_zipWith,
          List.getElem?_drop, List.getElem?_drop]
        have e1 : max (min n b.length) n + (i - min n b.length -
            min (n - min n b.length) (a.length - min n b.length)) = i := by omega
        have e2 : min n b.length + (i - min n b.length -
            min (n - min n b.length) (a.length - min n b.length)) = i := by omega
        rw [e1, e2, List.getElem?_eq_getElem hi', List.getElem?_eq_getElem (l := b) (by omega)]
        rfl

theorem length_binaryInplace (op : K → K → K) (a b : Dense K) :
    (binaryInplace op a b).storage.length = max a.storage.length b.storage.length := by
  unfold binaryInplace
  dsimp only
  rw [length_combine]
  split_ifs with h
  · rw [length_resizeExact]; omega
  · omega

theorem entry_binaryInplace (op : K → K → K) (h0 : op 0 0 = 0) (a b : Dense K) (i : ℕ) :
    (binaryInplace op a b).entry i = op (a.entry i) (b.entry i) := by
  unfold binaryInplace entry
  dsimp only
  rw [get_combine op h0]
  · congr 1
    split_ifs with h
    · have := entry_resizeExact a b.storage.length b.degree i
      unfold entry at this
      rw [this]
      split_ifs with h'
      · rfl
      · rw [List.getElem?_eq_none (by omega)]; rfl
    · rfl
  · split_ifs with h
    · rw [length_resizeExact]; omega
    · omega

theorem degree_binaryInplace (op : K → K → K) (a b : Dense K) :
    (binaryInplace op a b).degree =
      if b.storage.length > a.storage.length then b.degree else a.degree := by
  unfold binaryInplace
  dsimp only
  split_ifs <;> rfl

theorem beq_iff (a b : Dense K) : beq a b = true ↔ ∀ i, a.entry i = b.entry i := by
  unfold beq
  dsimp only
  rw [Bool.and_eq_true, Bool.and_eq_true, List.all_eq_true, List.all_eq_true]
  constructor
  · rintro ⟨⟨h1, h2⟩, h3⟩ i
    have h1 := of_decide_eq_true h1
    by_cases hm : i < min a.storage.length b.storage.length
    · unfold entry
      rw [← List.getElem?_take_of_lt hm, ← List.getElem?_take_of_lt (l := b.storage) hm, h1]
    · have hz : ∀ (l : List K), (∀ x ∈ l.drop (min a.storage.length b.storage.length),
          decide (x = 0) = true) → l[i]?.getD 0 = 0 := by
        intro l hl
        cases hx : l[i]? with
        | none => rfl
        | some x =>
          refine of_decide_eq_true (hl x ?_)
          refine List.mem_of_getElem? (i := i - min a.storage.length b.storage.length) ?_
          rw [List.getElem?_drop, ← hx]
          congr 1; omega
      unfold entry
      rw [hz _ h2, hz _ h3]
  · intro h
    refine ⟨⟨decide_eq_true ?_, ?_⟩, ?_⟩
    · refine List.ext_getElem? fun i => ?_
      by_cases hm : i < min a.storage.length b.storage.length
      · rw [List.getElem?_take_of_lt hm, List.getElem?_take_of_lt hm,
          get_eq_entry (by omega), get_eq_entry (by omega), h]
      · rw [List.getElem?_eq_none (by rw [List.length_take]; omega),
          List.getElem?_eq_none (by rw [List.length_take]; omega)]
    · intro x hx
      obtain ⟨i, hi⟩ := List.mem_iff_getElem?.1 hx
      rw [List.getElem?_drop] at hi
      have hlt := (List.getElem?_eq_some_iff.1 hi).1
      rw [get_eq_entry hlt, h, entry_of_le (by omega)] at hi
      exact decide_eq_true (Option.some.inj hi).symm
    · intro x hx
      obtain ⟨i, hi⟩ := List.mem_iff_getElem?.1 hx
      rw [List.getElem?_drop] at hi
      have hlt := (List.getElem?_eq_some_iff.1 hi).1
      rw [get_eq_entry hlt, ← h, entry_of_le (by omega)] at hi
      exact decide_eq_true (Option.some.inj hi).symm

/-! ### On a basis -/

variable {B : Basis} {start : ℕ → ℕ}

/-- the coefficient of a key: missing entries count as zero -/
def coef (start : ℕ → ℕ) (v : Dense K) (k : Key) : K := v.entry (keyIndex start k)

/-- no more entries than the basis has keys -/
def Fits (start : ℕ → ℕ) (D : ℕ) (v : Dense K) : Prop := v.storage.length ≤ start (D + 1)

theorem resize_spec (hB : B.Lawful start) (v : Dense K) {n : ℕ} (hn : n < start (B.depth + 1))
    (hv : v.storage.length ≤ n) :
    ∃ i, i ≤ B.depth ∧ (v.resize B n).degree = i ∧
      (v.resize B n).storage.length = start (i + 1) ∧ n < start (i + 1) ∧ start i ≤ n ∧
      ∀ j, (v.resize B n).entry j = v.entry j := by
  obtain ⟨i, h1, h2, h3, h4⟩ := hB.nextDimension hn
  refine ⟨i, h1, ?_, ?_, h4, h3, ?_⟩
  · unfold resize; rw [h2]; rfl
  · unfold resize; rw [h2, length_resizeExact]
  · intro j
    unfold resize
    rw [h2, entry_resizeExact]
    split_ifs with h
    · rfl
    · rw [entry_of_le]; dsimp only at h; omega

theorem modify_spec (hB : B.Lawful start) (v : Dense K) {k : Key}
    (hk : ValidKey start B.depth k) (f : K → K) :
    ∃ v', v.modify B k f = some v' ∧
      (if keyIndex start k < v.storage.length then
        v'.storage.length = v.storage.length ∧ v'.degree = v.degree
      else v'.degree ≤ B.depth ∧ v'.storage.length = start (v'.degree + 1) ∧
        keyIndex start k < start (v'.degree + 1)) ∧
      ∀ i, v'.entry i = if i = keyIndex start k then f (v.entry i) else v.entry i := by
  unfold modify
  rw [hB.keyToIndex hk]
  simp only [Option.bind_eq_bind, Option.bind_some]
  by_cases h : keyIndex start k ≥ v.storage.length
  · rw [if_pos h]
    obtain ⟨i, h1, h2, h3, h4, _, h5⟩ := resize_spec hB v (hk.index_lt hB.mono) h
    obtain ⟨v', e1, e2, e3, e4⟩ := update_eq (v := v.resize B (keyIndex start k))
      (i := keyIndex start k) (by omega) f
    refine ⟨v', e1, ?_, fun j => ?_⟩
    · rw [if_neg (by omega)]
      exact ⟨by omega, by rw [e2, h3, e3, h2], by rw [e3, h2]; exact h4⟩
    rw [e4, h5, h5]
    split_ifs with hj
    · rw [hj]
    · rfl
  · rw [if_neg h]
    obtain ⟨v', e1, e2, e3, e4⟩ := update_eq (v := v) (i := keyIndex start k) (by omega) f
    refine ⟨v', e1, ?_, fun j => ?_⟩
    · rw [if_pos (by omega)]
      exact ⟨e2, e3⟩
    rw [e4]
    split_ifs with hj
    · rw [hj]
    · rfl

theorem single_eq_modify (B : Basis) (k : Key) (s : K) :
    single B k s = (new : Dense K).modify B k fun _ => s := by
  unfold single modify
  cases h : B.keyToIndex k with
  | none => rfl
  | some i =>
    simp only [Option.bind_eq_bind, Option.bind_some]
    rw [if_pos]
    simp [new]

theorem lawful (hB : B.Lawful start) :
    (ops B : VecOps K (Dense K)).Lawful (ValidKey start B.depth) (coef start)
      (Fits start B.depth) False := by
  have hmod : ∀ (v : Dense K), Fits start B.depth v → ∀ k, ValidKey start B.depth k → ∀ f,
      ∃ v', v.modify B k f = some v' ∧ Fits start B.depth v' ∧
        ∀ j, ValidKey start B.depth j →
          coef start v' j = if j = k then f (coef start v k) else coef start v j := by
    intro v hv k hk f
    obtain ⟨v', h1, h2, h3⟩ := modify_spec hB v hk f
    refine ⟨v', h1, ?_, fun j hj => ?_⟩
    · unfold Fits at hv ⊢
      split_ifs at h2
      · omega
      · have := hB.mono (Nat.succ_le_succ h2.1)
        simp only [Nat.succ_eq_add_one] at this
        omega
    · unfold coef
      rw [h3]
      by_cases hjk : j = k
      · subst hjk; rw [if_pos rfl, if_pos rfl]
      · rw [if_neg hjk, if_neg]
        intro hc
        exact hjk (keyIndex_inj hB.mono hj hk hc)
  have hun : ∀ (v : Dense K), Fits start B.depth v → ∀ f : K → K, f 0 = 0 →
      Fits start B.depth (v.unary f) ∧
      ∀ k, ValidKey start B.depth k → coef start (v.unary f) k = f (coef start v k) := by
    intro v hv f h0
    refine ⟨?_, fun k _ => entry_unary f h0 v _⟩
    unfold Fits at hv ⊢
    simpa [unary] using hv
  refine
    { new_good := Nat.zero_le _
      new_coef := fun k _ => rfl
      clear_good := fun v _ => Nat.zero_le _
      clear_coef := fun v _ k _ => rfl
      single := fun k hk s => ?_
      modify := hmod
      unary := hun
      unaryInplace := hun
      binary := fun a b ha hb op h0 _ => ⟨?_, fun k _ => entry_binary op (h0 0) a b _⟩
      binaryInplace := fun a b ha hb op h0 _ =>
        ⟨?_, fun k _ => entry_binaryInplace op (h0 0) a b _⟩
      binarySelf := fun a ha op h0 _ =>
        ⟨_, rfl, ?_, fun k _ => entry_binaryInplace op (h0 0) a a _⟩
      beq := fun a b ha hb => ?_ }
  · obtain ⟨v, h1, h2, h3⟩ := hmod new (Nat.zero_le _) k hk fun _ => s
    exact ⟨v, (single_eq_modify B k s).trans h1, h2, h3⟩
  · exact (length_binary op a b).le.trans (max_le ha hb)
  · exact (length_binaryInplace op a b).le.trans (max_le ha hb)
  · exact (length_binaryInplace op a a).le.trans (max_le ha ha)
  · refine (beq_iff a b).trans ⟨fun h k _ => h _, fun h i => ?_⟩
    by_cases hi : i < start (B.depth + 1)
    · obtain ⟨k, hk, rfl⟩ := exists_key hB.zero hi
      exact h k hk
    · unfold Fits at ha hb
      rw [entry_of_le (by omega), entry_of_le (by omega)]

end Dense

end RoughPy.Lite
