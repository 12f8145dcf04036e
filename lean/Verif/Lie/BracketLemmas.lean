import Verif.Lie.Search
import Mathlib.Tactic.Abel

set_option linter.unusedSectionVars false

/-!
# The multiplication table computes brackets
-/

namespace RoughPy.Lie

open RoughPy.Tensor (loop degreesUp loop_nil loop_cons)

/-! ## The last read of `find_word` stays inside the table -/

theorem IsHallTable.two_le_width {b : Basis} (hb : IsHallTable b) :
    ∀ d k, 2 ≤ d → HasDegree b k d → 2 ≤ b.width := by
  intro d
  induction d using Nat.strong_induction_on with
  | _ d ih =>
    intro k hd hk
    obtain ⟨i, j, p, q, c, h1, h2, h3, h4, h5, h6, h7, h8, h9⟩ := hb.rows d k hd hk
    by_cases hq : 2 ≤ q
    · exact ih q (by omega) j hq h6
    · have hq1 : q = 1 := by omega
      have hp1 : p = 1 := by have := hb.degree_mono h5 h6 (by omega); omega
      subst hq1 hp1
      rw [hb.letter_iff] at h5 h6
      omega

/-- In every degree from two on there is a row with left parent 1. -/
theorem IsHallTable.exists_left_one {b : Basis} (hb : IsHallTable b) (hw : 2 ≤ b.width) (m : ℕ) :
    m + 2 ≤ b.depth → ∃ k j, HasDegree b k (m + 2) ∧ b.data[k]? = some (1, j) := by
  induction m with
  | zero =>
    intro h
    have h1 : HasDegree b 1 1 := hb.letter_iff.2 (by omega)
    have h2 : HasDegree b 2 1 := hb.letter_iff.2 (by omega)
    obtain ⟨k, h3, h4⟩ := hb.complete 1 2 1 1 (0, 2) le_rfl le_rfl (by omega) h1 h2 (by omega)
      (hb.letters 2 (by omega) hw) (by omega)
    exact ⟨k, 2, h3, h4⟩
  | succ m ih =>
    intro h
    have h1 : HasDegree b 1 1 := hb.letter_iff.2 (by omega)
    obtain ⟨k, j, h2, h3⟩ := ih (by omega)
    obtain ⟨k', h4, h5⟩ := hb.complete 1 k 1 (m + 2) (1, j) le_rfl (by omega) (by omega) h1 h2
      (hb.lt_of_degree_lt h1 h2 (by omega)) h3 le_rfl
    refine ⟨k', k, ?_, h5⟩
    rw [show m + 1 + 2 = 1 + (m + 2) by omega]
    exact h4

/-- The search for a pair of keys finds the row, or reports that the right key is a pair with left
parent greater than the left key. -/
theorem IsHallTable.findWord_pair {b : Basis} (hb : IsHallTable b) {a c p q : ℕ} (hp : HasDegree b a p)
    (hq : HasDegree b c q) (ha : 0 < a) (hac : a < c) (hpq : p + q ≤ b.depth) :
    (∃ k, b.findWord (a, c) (p + q) = some (some k) ∧ HasDegree b k (p + q) ∧ b.data[k]? = some (a, c)) ∨
    (b.findWord (a, c) (p + q) = some none ∧ ∃ c1 c2 p1 q1, b.data[c]? = some (c1, c2) ∧ a < c1 ∧ c1 < c2 ∧
      1 ≤ p1 ∧ 1 ≤ q1 ∧ p1 + q1 = q ∧ HasDegree b c1 p1 ∧ HasDegree b c2 q1) := by
  have hp1 := hb.degree_pos hp ha
  have hq1 := hb.degree_pos hq (by omega)
  have hcl := hq.lt hb
  by_cases hin : (b.data[c]).1 ≤ a
  · obtain ⟨k, h1, h2⟩ := hb.complete a c p q _ hp1 hq1 hpq hp hq hac (List.getElem?_eq_getElem hcl) hin
    exact Or.inl ⟨k, hb.findWord_some (by omega) h1 h2, h1, h2⟩
  · right
    have hq2 : 2 ≤ q := by
      by_contra hlt
      have : q = 1 := by omega
      subst this
      rw [hb.letter_iff] at hq
      have h := hb.letters c hq.1 hq.2
      rw [List.getElem?_eq_getElem hcl, Option.some.injEq] at h
      rw [h] at hin
      omega
    obtain ⟨c1, c2, p1, q1, r, h1, h2, h3, h4, h5, h6, h7, h8, h9⟩ := hb.rows q c hq2 hq
    have hac1 : a < c1 := by
      rw [List.getElem?_eq_getElem hcl, Option.some.injEq] at h1
      rw [h1] at hin
      omega
    refine ⟨?_, c1, c2, p1, q1, h1, hac1, h7, h2, h3, h4, h5, h6⟩
    refine hb.findWord_none (by omega) hpq ?_ (Or.inr ?_)
    · intro k hk hkk
      obtain ⟨i, j, p', q', r', g1, g2, g3, g4, g5, g6, g7, g8, g9⟩ := hb.rows _ k (by omega) hk
      rw [hkk, Option.some.injEq, Prod.mk.injEq] at g1
      obtain ⟨rfl, rfl⟩ := g1
      rw [h1, Option.some.injEq] at g8
      subst g8
      dsimp only at g9
      omega
    · have hw := hb.two_le_width q c hq2 hq
      obtain ⟨m, hm⟩ : ∃ m, p + q1 = m + 2 := ⟨p + q1 - 2, by omega⟩
      obtain ⟨k, j, g1, g2⟩ := hb.exists_left_one hw m (by omega)
      rw [← hm] at g1
      have hp1q1 := hb.degree_mono h5 h6 (by omega)
      have hc1 := hb.pos_of_degree h5 (by omega)
      obtain ⟨k', g3, g4⟩ := hb.complete c1 k p1 (p + q1) (1, j) h2 (by omega) (by omega) h5 g1
        (hb.lt_of_degree_lt h5 g1 (by omega)) g2 hc1
      refine ⟨k', (c1, k), ?_, g4, Or.inl hac1⟩
      rw [show p + q = p1 + (p + q1) by omega]
      exact g3

/-! ## Entries -/

variable {L : Type*} [LieRing L] (e : ℕ → L)

theorem Entry.value_nil : Entry.value e [] = 0 := rfl

theorem Entry.value_cons (t : ℕ × ℤ) (r : Entry) : Entry.value e (t :: r) = t.2 • e t.1 + Entry.value e r := by
  unfold Entry.value
  rw [List.map_cons, List.sum_cons]

theorem Entry.value_append (r s : Entry) : Entry.value e (r ++ s) = Entry.value e r + Entry.value e s := by
  unfold Entry.value
  rw [List.map_append, List.sum_append]

theorem value_map_neg (r : Entry) : Entry.value e (r.map fun t => (t.1, -t.2)) = -Entry.value e r := by
  induction r with
  | nil => simp [Entry.value]
  | cons s r ih =>
    rw [List.map_cons, Entry.value_cons, Entry.value_cons, ih, neg_add]
    dsimp only
    rw [neg_smul]

theorem addVal_value (r : Entry) (k : ℕ) (v : ℤ) :
    Entry.value e (addVal r k v) = Entry.value e r + v • e k := by
  induction r with
  | nil =>
    unfold addVal
    split
    · rename_i h; rw [h, zero_smul, Entry.value_nil, add_zero]
    · rw [Entry.value_cons, Entry.value_nil, add_comm]
  | cons t r ih =>
    obtain ⟨k', v'⟩ := t
    unfold addVal
    split
    · split
      · rename_i h; rw [h, zero_smul, add_zero]
      · rw [Entry.value_cons, add_comm]
    · split
      · rename_i h; subst h
        split
        · rename_i h
          rw [Entry.value_cons, add_right_comm, ← add_smul, h, zero_smul, zero_add]
        · rw [Entry.value_cons, Entry.value_cons, add_smul]
          dsimp only
          abel
      · rw [Entry.value_cons, Entry.value_cons, ih, add_assoc]

theorem mem_addVal {r : Entry} {k : ℕ} {v : ℤ} {t : ℕ × ℤ} (h : t ∈ addVal r k v) :
    t.1 = k ∨ ∃ s ∈ r, s.1 = t.1 := by
  induction r with
  | nil =>
    unfold addVal at h
    split at h
    · cases h
    · rw [List.mem_singleton] at h; left; rw [h]
  | cons s r ih =>
    obtain ⟨k', v'⟩ := s
    unfold addVal at h
    split at h
    · split at h
      · exact Or.inr ⟨t, h, rfl⟩
      · rcases List.mem_cons.1 h with h | h
        · left; rw [h]
        · exact Or.inr ⟨t, h, rfl⟩
    · split at h
      · split at h
        · exact Or.inr ⟨t, List.mem_cons_of_mem _ h, rfl⟩
        · rcases List.mem_cons.1 h with h | h
          · exact Or.inr ⟨(k', v'), List.mem_cons_self, by rw [h]⟩
          · exact Or.inr ⟨t, List.mem_cons_of_mem _ h, rfl⟩
      · rcases List.mem_cons.1 h with h | h
        · exact Or.inr ⟨(k', v'), List.mem_cons_self, by rw [h]⟩
        · rcases ih h with h | ⟨s, h1, h2⟩
          · exact Or.inl h
          · exact Or.inr ⟨s, List.mem_cons_of_mem _ h1, h2⟩

/-- Sorted by key, no zero coefficients. -/
def Entry.Clean (r : Entry) : Prop := r.Pairwise (fun s t => s.1 < t.1) ∧ ∀ t ∈ r, t.2 ≠ 0

theorem addVal_clean {r : Entry} (h : Entry.Clean r) (k : ℕ) (v : ℤ) : Entry.Clean (addVal r k v) := by
  induction r with
  | nil =>
    unfold addVal
    split
    · exact h
    · rename_i hv
      refine ⟨List.pairwise_singleton _ _, ?_⟩
      intro t ht
      rw [List.mem_singleton] at ht
      rw [ht]; exact hv
  | cons s r ih =>
    obtain ⟨k', v'⟩ := s
    have h1 : Entry.Clean r := ⟨(List.pairwise_cons.1 h.1).2, fun t ht => h.2 t (List.mem_cons_of_mem _ ht)⟩
    have h2 := (List.pairwise_cons.1 h.1).1
    unfold addVal
    split
    · rename_i hk
      split
      · exact h
      · rename_i hv
        refine ⟨List.pairwise_cons.2 ⟨?_, h.1⟩, ?_⟩
        · intro t ht
          rcases List.mem_cons.1 ht with rfl | ht
          · exact hk
          · exact lt_trans hk (h2 t ht)
        · intro t ht
          rcases List.mem_cons.1 ht with rfl | ht
          · exact hv
          · exact h.2 t ht
    · split
      · split
        · exact h1
        · rename_i hv
          refine ⟨List.pairwise_cons.2 ⟨h2, h1.1⟩, ?_⟩
          intro t ht
          rcases List.mem_cons.1 ht with rfl | ht
          · exact hv
          · exact h1.2 t ht
      · obtain ⟨h3, h4⟩ := ih h1
        refine ⟨List.pairwise_cons.2 ⟨?_, h3⟩, ?_⟩
        · intro t ht
          rcases mem_addVal ht with h | ⟨s, h5, h6⟩
          · dsimp only; omega
          · rw [← h6]; exact h2 s h5
        · intro t ht
          rcases List.mem_cons.1 ht with rfl | ht
          · exact h.2 _ List.mem_cons_self
          · exact h4 t ht

/-! ## The invariant -/

variable (b : Basis)

/-- The entry is a clean expansion of a bracket of degree `n`. -/
structure EntryOK (n a c : ℕ) (r : Entry) : Prop where
  clean : Entry.Clean r
  keys : ∀ t ∈ r, HasDegree b t.1 n
  value : Entry.value e r = ⁅e a, e c⁆

/-- Every entry that this basis can look up is right. -/
def CacheOK (cache : Cache) : Prop := ∀ a c p q r, 0 < a → 0 < c → HasDegree b a p → HasDegree b c q →
  p + q ≤ b.depth → cache (a, c) = some (some r) → EntryOK e b (p + q) a c r

/-- Measure of a pair of keys. -/
def mu (n a : ℕ) : ℕ := n * (b.data.length + 1) + (b.data.length - a)

/-- The null pointers in the cache belong to pairs with measure at least `m`. -/
def Pending (cache : Cache) (m : ℕ) : Prop := ∀ a c, cache (a, c) = some none →
  ∃ p q, HasDegree b a p ∧ HasDegree b c q ∧ m ≤ mu b (p + q) (min a c)

/-- What a lookup must achieve for words of measure below `m`. -/
def GetOK (g : Cache → ℕ × ℕ → Option (Entry × Cache)) (m : ℕ) : Prop :=
  ∀ cache a c p q, 0 < a → 0 < c → HasDegree b a p → HasDegree b c q → p + q ≤ b.depth →
    mu b (p + q) (min a c) < m → Pending b cache (mu b (p + q) (min a c) + 1) → CacheOK e b cache →
    ∃ r cache', g cache (a, c) = some (r, cache') ∧ EntryOK e b (p + q) a c r ∧ CacheOK e b cache' ∧
      ∀ w, cache' w = some none ↔ cache w = some none

theorem foldl_addVal_value (x : Entry) (f : ℕ × ℤ → ℤ) (vals : Entry) :
    Entry.value e (x.foldl (fun vals t => addVal vals t.1 (f t)) vals) =
      Entry.value e vals + (x.map fun t => f t • e t.1).sum := by
  induction x generalizing vals with
  | nil => simp
  | cons t x ih =>
    rw [List.foldl_cons, ih, addVal_value, List.map_cons, List.sum_cons, add_assoc]

theorem foldl_addVal_clean (x : Entry) (f : ℕ × ℤ → ℤ) (vals : Entry) (h : Entry.Clean vals) :
    Entry.Clean (x.foldl (fun vals t => addVal vals t.1 (f t)) vals) := by
  induction x generalizing vals with
  | nil => exact h
  | cons t x ih => exact ih _ (addVal_clean h _ _)

theorem foldl_addVal_keys (x : Entry) (f : ℕ × ℤ → ℤ) (vals : Entry) (P : ℕ → Prop)
    (h : ∀ t ∈ vals, P t.1) (hx : ∀ t ∈ x, P t.1) :
    ∀ t ∈ x.foldl (fun vals t => addVal vals t.1 (f t)) vals, P t.1 := by
  induction x generalizing vals with
  | nil => exact h
  | cons s x ih =>
    refine ih _ ?_ (fun t ht => hx t (List.mem_cons_of_mem _ ht))
    intro t ht
    rcases mem_addVal ht with h1 | ⟨u, h1, h2⟩
    · rw [h1]; exact hx s List.mem_cons_self
    · rw [← h2]; exact h u h1

theorem sum_smul_value (x : Entry) (v : ℤ) :
    (x.map fun t => (v * t.2) • e t.1).sum = v • Entry.value e x := by
  unfold Entry.value
  induction x with
  | nil => simp
  | cons t x ih => rw [List.map_cons, List.sum_cons, List.map_cons, List.sum_cons, ih, smul_add, mul_smul]

theorem value_lie (x : Entry) (z : L) :
    (x.map fun t => t.2 • ⁅e t.1, z⁆).sum = ⁅Entry.value e x, z⁆ := by
  unfold Entry.value
  induction x with
  | nil => simp
  | cons t x ih => rw [List.map_cons, List.sum_cons, List.map_cons, List.sum_cons, ih, add_lie, smul_lie]

theorem Pending.mono {b : Basis} {cache : Cache} {m n : ℕ} (h : Pending b cache m) (hn : n ≤ m) :
    Pending b cache n := by
  intro a c hac
  obtain ⟨p, q, h1, h2, h3⟩ := h a c hac
  exact ⟨p, q, h1, h2, by omega⟩

theorem Pending.congr {b : Basis} {cache cache' : Cache} {m : ℕ} (h : Pending b cache m)
    (hc : ∀ w, cache' w = some none ↔ cache w = some none) : Pending b cache' m :=
  fun a c hac => h a c ((hc _).1 hac)

theorem bracketHalf_ok (hb : IsHallTable b) (g : Cache → ℕ × ℕ → Option (Entry × Cache)) (m : ℕ)
    (hg : GetOK e b g m) {x y z px py pz : ℕ} (hx : HasDegree b x px) (hy : HasDegree b y py)
    (hz : HasDegree b z pz) (hx0 : 0 < x) (hy0 : 0 < y) (hz0 : 0 < z) (hn : px + py + pz ≤ b.depth)
    (hm1 : mu b (px + py) (min x y) < m)
    (hm2 : ∀ t, HasDegree b t (px + py) → mu b (px + py + pz) (min t z) < m)
    (sign : ℤ) (vals : Entry) (cache : Cache) (hv : Entry.Clean vals)
    (hvk : ∀ t ∈ vals, HasDegree b t.1 (px + py + pz)) (hP : Pending b cache m) (hC : CacheOK e b cache) :
    ∃ vals' cache', bracketHalf g cache (x, y) z sign vals = some (vals', cache') ∧ Entry.Clean vals' ∧
      (∀ t ∈ vals', HasDegree b t.1 (px + py + pz)) ∧
      Entry.value e vals' = Entry.value e vals + sign • ⁅⁅e x, e y⁆, e z⁆ ∧ CacheOK e b cache' ∧
      ∀ w, cache' w = some none ↔ cache w = some none := by
  obtain ⟨r, cache1, h1, h2, h3, h4⟩ := hg cache x y px py hx0 hy0 hx hy (by omega) hm1
    (hP.mono (by omega)) hC
  have key : ∀ (l : Entry), (∀ t ∈ l, HasDegree b t.1 (px + py)) → ∀ vals cache, Entry.Clean vals →
      (∀ t ∈ vals, HasDegree b t.1 (px + py + pz)) → Pending b cache m → CacheOK e b cache →
      ∃ vals' cache', loop l (vals, cache) (fun s term => do
          let ip ← g s.2 (term.1, z)
          some (ip.1.foldl (fun vals t => addVal vals t.1 (sign * term.2 * t.2)) s.1, ip.2)) =
        some (vals', cache') ∧ Entry.Clean vals' ∧
      (∀ t ∈ vals', HasDegree b t.1 (px + py + pz)) ∧
      Entry.value e vals' = Entry.value e vals + sign • (l.map fun t => t.2 • ⁅e t.1, e z⁆).sum ∧
      CacheOK e b cache' ∧ ∀ w, cache' w = some none ↔ cache w = some none := by
    intro l
    induction l with
    | nil =>
      intro _ vals cache hv hvk hP hC
      exact ⟨vals, cache, rfl, hv, hvk, by simp, hC, fun _ => Iff.rfl⟩
    | cons t l ih =>
      intro hl vals cache hv hvk hP hC
      have ht := hl t List.mem_cons_self
      have ht0 : 0 < t.1 := hb.pos_of_degree ht (by have := hb.degree_pos hx hx0; omega)
      have hmt := hm2 t.1 ht
      obtain ⟨r', cache2, g1, g2, g3, g4⟩ := hg cache t.1 z (px + py) pz ht0 hz0 ht hz hn hmt
        (hP.mono (by omega)) hC
      rw [loop_cons]
      simp only [g1, Option.bind_eq_bind, Option.bind_some]
      obtain ⟨vals3, cache3, k1, k2, k3, k4, k5, k6⟩ := ih (fun t ht => hl t (List.mem_cons_of_mem _ ht))
        (r'.foldl (fun vals s => addVal vals s.1 (sign * t.2 * s.2)) vals) cache2
        (foldl_addVal_clean r' (fun s => sign * t.2 * s.2) vals hv)
        (foldl_addVal_keys r' (fun s => sign * t.2 * s.2) vals (fun k => HasDegree b k (px + py + pz)) hvk g2.keys)
        (hP.congr g4) g3
      refine ⟨vals3, cache3, k1, k2, k3, ?_, k5, fun w => (k6 w).trans (g4 w)⟩
      rw [k4, foldl_addVal_value e r' (fun s => sign * t.2 * s.2), sum_smul_value, g2.value, List.map_cons,
        List.sum_cons, smul_add, mul_smul, add_assoc]
  obtain ⟨vals', cache', k1, k2, k3, k4, k5, k6⟩ := key r h2.keys vals cache1 hv hvk (hP.congr h4) h3
  refine ⟨vals', cache', ?_, k2, k3, ?_, k5, fun w => (k6 w).trans (h4 w)⟩
  · unfold bracketHalf
    rw [h1]
    simp only [Option.bind_eq_bind, Option.bind_some]
    exact k1
  · rw [k4, value_lie, h2.value]

theorem mu_lt_of_degree {b : Basis} {n n' a a' : ℕ} (h : n' < n) : mu b n' a' < mu b n a := by
  unfold mu
  have h1 : (n' + 1) * (b.data.length + 1) ≤ n * (b.data.length + 1) := Nat.mul_le_mul_right _ h
  rw [Nat.add_mul] at h1
  omega

theorem mu_lt_of_key {b : Basis} {n a a' : ℕ} (h : a < a') (ha : a < b.data.length) : mu b n a' < mu b n a := by
  unfold mu
  omega

/-- The recursive case. -/
theorem bracketSlow_ok (hb : IsHallTable b) (he : IsHallMap b e) (g : Cache → ℕ × ℕ → Option (Entry × Cache))
    {a c p q c1 c2 p1 q1 : ℕ} (hg : GetOK e b g (mu b (p + q) a)) (ha0 : 0 < a)
    (ha : HasDegree b a p) (hc : HasDegree b c q) (hn : p + q ≤ b.depth)
    (hrow : b.data[c]? = some (c1, c2)) (hac : a < c1) (hcc : c1 < c2) (hp1 : 1 ≤ p1) (hq1 : 1 ≤ q1)
    (hpq : p1 + q1 = q) (hc1 : HasDegree b c1 p1) (hc2 : HasDegree b c2 q1) (sign : ℤ) (cache : Cache)
    (hP : Pending b cache (mu b (p + q) a)) (hC : CacheOK e b cache) :
    ∃ r cache', bracketSlow g b cache (a, c) sign = some (r, cache') ∧ Entry.Clean r ∧
      (∀ t ∈ r, HasDegree b t.1 (p + q)) ∧ Entry.value e r = sign • ⁅e a, e c⁆ ∧ CacheOK e b cache' ∧
      ∀ w, cache' w = some none ↔ cache w = some none := by
  have hp0 := hb.degree_pos ha ha0
  have hal := ha.lt hb
  have hcl := hc.lt hb
  have hpar : b.parents c = some (c1, c2) := by
    unfold Basis.parents Basis.trueSize
    rw [hb.db_last]
    simp only [Option.bind_eq_bind, Option.bind_some]
    have h0 := hb.pos_of_degree hc (by omega)
    rw [if_neg (by omega), hrow]
  obtain ⟨v1, ca1, h1, h2, h3, h4, h5, h6⟩ := bracketHalf_ok e b hb g _ hg ha hc1 hc2 ha0 (by omega) (by omega)
    (by omega) (mu_lt_of_degree (by omega))
    (fun t ht => by
      have hat := hb.lt_of_degree_lt ha ht (by omega)
      rw [show p + p1 + q1 = p + q by omega]
      exact mu_lt_of_key (by omega) hal)
    sign [] cache ⟨List.Pairwise.nil, by simp⟩ (by simp) hP hC
  rw [show p + p1 + q1 = p + q by omega] at h3
  obtain ⟨v2, ca2, k1, k2, k3, k4, k5, k6⟩ := bracketHalf_ok e b hb g _ hg ha hc2 hc1 ha0 (by omega) (by omega)
    (by omega) (mu_lt_of_degree (by omega))
    (fun t ht => by
      have hat := hb.lt_of_degree_lt ha ht (by omega)
      rw [show p + q1 + p1 = p + q by omega]
      exact mu_lt_of_key (by omega) hal)
    (-sign) v1 ca1 h2 (by rw [show p + q1 + p1 = p + q by omega]; exact h3) (hP.congr h6) h5
  rw [show p + q1 + p1 = p + q by omega] at k3
  refine ⟨v2, ca2, ?_, k2, k3, ?_, k5, fun w => (k6 w).trans (h6 w)⟩
  · unfold bracketSlow
    dsimp only
    rw [hpar]
    simp only [Option.bind_eq_bind, Option.bind_some]
    rw [if_pos ⟨by omega, by omega⟩, h1]
    simp only [Option.bind_some]
    rw [if_pos (by omega)]
    exact k1
  · rw [k4, h4, Entry.value_nil, zero_add, he q c c1 c2 (by omega) hc hrow, leibniz_lie, smul_add, neg_smul]
    rw [← smul_neg, lie_skew]

/-- The lookup computes the bracket, for every amount of fuel above the measure. -/
theorem get_ok (hb : IsHallTable b) (he : IsHallMap b e) : ∀ fuel, GetOK e b (get b fuel) fuel := by
  intro fuel
  induction fuel with
  | zero => intro cache a c p q _ _ _ _ _ h; omega
  | succ fuel ih =>
    intro cache a c p q ha0 hc0 ha hc hn hm hP hC
    simp only [get]
    rw [if_neg (by omega)]
    by_cases hac : a = c
    · subst hac
      rw [if_pos rfl]
      exact ⟨[], cache, rfl, ⟨⟨List.Pairwise.nil, by simp⟩, by simp, by rw [lie_self]; rfl⟩, hC, fun _ => Iff.rfl⟩
    rw [if_neg hac, hb.degree_of ha, hb.degree_of hc]
    have hts : b.trueSize = some b.data.length := hb.db_last
    rw [hts]
    simp only [Option.bind_eq_bind, Option.bind_some]
    have hal := ha.lt hb
    have hcl := hc.lt hb
    rw [if_neg (by omega), if_neg (by omega), show ((p : ℤ) + q).toNat = p + q by omega]
    have hp0 := hb.degree_pos ha ha0
    have hq0 := hb.degree_pos hc hc0
    generalize hcw : cache (a, c) = cw
    have hnot : cw ≠ some none := by
      intro h
      rw [h] at hcw
      obtain ⟨p', q', g1, g2, g3⟩ := hP a c hcw
      rw [hb.degree_unique g1 ha, hb.degree_unique g2 hc] at g3
      omega
    match cw, hcw, hnot with
    | some (some r), hcw, _ =>
      exact ⟨r, cache, rfl, hC a c p q r ha0 hc0 ha hc hn hcw, hC, fun _ => Iff.rfl⟩
    | some none, _, hnot => exact absurd rfl hnot
    | none, hcw, _ =>
      dsimp only
      have hne : (c, a) ≠ (a, c) := by
        intro h
        rw [Prod.mk.injEq] at h
        exact hac h.2
      rw [Function.update_of_ne hne]
      -- the cache after the word has been entered
      have hC1 : CacheOK e b (Function.update cache (a, c) (some none)) := by
        intro a' c' p' q' r' h1 h2 h3 h4 h5 h6
        by_cases hw : (a', c') = (a, c)
        · rw [hw, Function.update_self] at h6
          cases h6
        · rw [Function.update_of_ne hw] at h6
          exact hC a' c' p' q' r' h1 h2 h3 h4 h5 h6
      have hP1 : Pending b (Function.update cache (a, c) (some none)) (mu b (p + q) (min a c)) := by
        intro a' c' h6
        by_cases hw : (a', c') = (a, c)
        · rw [Prod.mk.injEq] at hw
          rw [hw.1, hw.2]
          exact ⟨p, q, ha, hc, le_rfl⟩
        · rw [Function.update_of_ne hw] at h6
          exact (hP.mono (Nat.le_succ _)) a' c' h6
      -- storing a right entry
      have hstore : ∀ (r : Entry) (ca : Cache), EntryOK e b (p + q) a c r → CacheOK e b ca →
          CacheOK e b (Function.update ca (a, c) (some (some r))) := by
        intro r ca hr hca a' c' p' q' r' h1 h2 h3 h4 h5 h6
        by_cases hw : (a', c') = (a, c)
        · rw [hw, Function.update_self] at h6
          simp only [Option.some.injEq] at h6
          rw [Prod.mk.injEq] at hw
          obtain ⟨rfl, rfl⟩ := hw
          rw [hb.degree_unique h3 ha, hb.degree_unique h4 hc, ← h6]
          exact hr
        · rw [Function.update_of_ne hw] at h6
          exact hca a' c' p' q' r' h1 h2 h3 h4 h5 h6
      have hnull : ∀ (r : Entry) (ca : Cache),
          (∀ w, ca w = some none ↔ Function.update cache (a, c) (some none) w = some none) →
          ∀ w, Function.update ca (a, c) (some (some r)) w = some none ↔ cache w = some none := by
        intro r ca hca w
        by_cases hw : w = (a, c)
        · rw [hw, Function.update_self, hcw]
          simp
        · rw [Function.update_of_ne hw, hca, Function.update_of_ne hw]
      generalize hrev : cache (c, a) = rv
      match rv, hrev with
      | some (some r), hrev =>
        have hr := hC c a q p r hc0 ha0 hc ha (by omega) hrev
        have hneg : EntryOK e b (p + q) a c (r.map fun t => (t.1, -t.2)) := by
          refine ⟨⟨?_, ?_⟩, ?_, ?_⟩
          · rw [List.pairwise_map]; exact hr.clean.1
          · intro t ht
            obtain ⟨s, hs, rfl⟩ := List.mem_map.1 ht
            exact neg_ne_zero.2 (hr.clean.2 s hs)
          · intro t ht
            obtain ⟨s, hs, rfl⟩ := List.mem_map.1 ht
            have := hr.keys s hs
            rwa [show q + p = p + q by omega] at this
          · have h1 := hr.value
            rw [← lie_skew, ← h1]
            exact value_map_neg e r
        exact ⟨_, _, rfl, hneg, hstore _ _ hneg hC1, hnull _ _ fun _ => Iff.rfl⟩
      | some none, hrev =>
        exfalso
        obtain ⟨p', q', g1, g2, g3⟩ := hP c a hrev
        rw [hb.degree_unique g1 hc, hb.degree_unique g2 ha, min_comm, show q + p = p + q by omega] at g3
        omega
      | none, hrev =>
        dsimp only
        have hgk : GetOK e b (get b fuel) (mu b (p + q) (min a c)) := by
          intro cache' a' c' p' q' h1 h2 h3 h4 h5 h6 h7 h8
          exact ih cache' a' c' p' q' h1 h2 h3 h4 h5 (by omega) h7 h8
        -- the value of `compute_bracket`
        have hcb : ∃ r ca, computeBracket (get b fuel) b (Function.update cache (a, c) (some none)) (a, c) (p + q) =
            some (r, ca) ∧ EntryOK e b (p + q) a c r ∧ CacheOK e b ca ∧
            ∀ w, ca w = some none ↔ Function.update cache (a, c) (some none) w = some none := by
          unfold computeBracket
          dsimp only
          by_cases hlt : c < a
          · rw [if_pos hlt, if_pos hlt]
            have hmin : min a c = c := by omega
            rw [hmin, show p + q = q + p by omega] at hgk hP1
            rw [show p + q = q + p by omega]
            rcases hb.findWord_pair hc ha hc0 hlt (by omega) with ⟨k, h1, h2, h3⟩ |
              ⟨h1, c1, c2, p1, q1, h2, h3, h4, h5, h6, h7, h8, h9⟩
            · rw [h1]
              simp only [Option.bind_eq_bind, Option.bind_some]
              rw [if_pos (hb.pos_of_degree h2 (by omega))]
              refine ⟨_, _, rfl, ⟨⟨List.pairwise_singleton _ _, by simp⟩, ?_, ?_⟩, hC1, fun _ => Iff.rfl⟩
              · intro t ht
                rw [List.mem_singleton] at ht
                rw [ht]; exact h2
              · rw [Entry.value_cons, Entry.value_nil, add_zero]
                dsimp only
                rw [he _ k c a (by omega) h2 h3, neg_smul, one_smul, lie_skew]
            · rw [h1]
              simp only [Option.bind_eq_bind, Option.bind_some]
              obtain ⟨r, ca, k1, k2, k3, k4, k5, k6⟩ := bracketSlow_ok e b hb he (get b fuel) hgk hc0 hc ha (by omega)
                h2 h3 h4 h5 h6 h7 h8 h9 (-1) _ hP1 hC1
              exact ⟨r, ca, k1, ⟨k2, k3, by rw [k4, neg_smul, one_smul, lie_skew]⟩, k5, k6⟩
          · rw [if_neg hlt, if_neg hlt]
            have hmin : min a c = a := by omega
            rw [hmin] at hgk hP1
            rcases hb.findWord_pair ha hc ha0 (by omega) (by omega) with ⟨k, h1, h2, h3⟩ |
              ⟨h1, c1, c2, p1, q1, h2, h3, h4, h5, h6, h7, h8, h9⟩
            · rw [h1]
              simp only [Option.bind_eq_bind, Option.bind_some]
              rw [if_pos (hb.pos_of_degree h2 (by omega))]
              refine ⟨_, _, rfl, ⟨⟨List.pairwise_singleton _ _, by simp⟩, ?_, ?_⟩, hC1, fun _ => Iff.rfl⟩
              · intro t ht
                rw [List.mem_singleton] at ht
                rw [ht]; exact h2
              · rw [Entry.value_cons, Entry.value_nil, add_zero]
                dsimp only
                rw [he _ k a c (by omega) h2 h3, one_smul]
            · rw [h1]
              simp only [Option.bind_eq_bind, Option.bind_some]
              obtain ⟨r, ca, k1, k2, k3, k4, k5, k6⟩ := bracketSlow_ok e b hb he (get b fuel) hgk ha0 ha hc (by omega)
                h2 h3 h4 h5 h6 h7 h8 h9 1 _ hP1 hC1
              exact ⟨r, ca, k1, ⟨k2, k3, by rw [k4, one_smul]⟩, k5, k6⟩
        obtain ⟨r, ca, k1, k2, k3, k4⟩ := hcb
        rw [k1]
        simp only [Option.bind_some]
        exact ⟨_, _, rfl, k2, hstore _ _ k2 k3, hnull _ _ k4⟩

end RoughPy.Lie
