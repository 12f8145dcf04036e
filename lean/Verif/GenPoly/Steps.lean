import Verif.GenPoly.Lemmas
import Mathlib.Tactic.LinearCombination

/-!
# The loops of the generic polynomials
-/

namespace RoughPy.GenPoly

theorem mem_keys_split {K V : Type} (a b : List (K × V)) (k : K) (v : V) :
    k ∈ keys (a ++ (k, v) :: b) := by
  simp [keys]

theorem keys_append {K V : Type} (a b : List (K × V)) : keys (a ++ b) = keys a ++ keys b := by
  simp [keys]

theorem keys_cons {K V : Type} (e : K × V) (b : List (K × V)) : keys (e :: b) = e.1 :: keys b := rfl

/-! ### Monomials -/

theorem monoVal_append (x : Ind → ℚ) (a b : Mono) : monoVal x (a ++ b) = monoVal x a * monoVal x b := by
  simp [monoVal]

theorem monoVal_cons (x : Ind → ℚ) (e : Ind × ℕ) (b : Mono) :
    monoVal x (e :: b) = x e.1 ^ e.2 * monoVal x b := by
  simp [monoVal]

theorem mulStep_present (m : FlatMap Ind ℕ) (hs : Sorted indLt m.data) (k : Ind) (p : ℕ)
    (hk : k ∈ keys m.data) :
    ∃ a v b, m.data = a ++ (k, v) :: b ∧
      mulStep m.endPtr m (k, p) = some { m with data := a ++ (k, v + p) :: b } := by
  rcases locate indLt indLt_total m hs k with ⟨a, v, b, hd, hf, -⟩ | ⟨a, b, hd, ha, hb, -, -⟩
  · refine ⟨a, v, b, hd, ?_⟩
    unfold mulStep
    simp only [hf]
    rw [if_pos (by
      unfold FlatMap.ptr FlatMap.endPtr FlatMap.ptr
      rw [hd]
      intro h
      simp at h)]
    unfold FlatMap.valueAt FlatMap.setAt
    simp [hd]
  · rw [hd] at hk
    exact absurd hk (not_mem_keys indLt indLt_total a b k ha hb)

theorem mulStep_new (m : FlatMap Ind ℕ) (hs : Sorted indLt m.data) (k : Ind) (p : ℕ)
    (hk : k ∉ keys m.data) :
    ∃ a b, m.data = a ++ b ∧ (∀ e ∈ a, indLt e.1 k = true) ∧ (∀ e ∈ b, indLt k e.1 = true) ∧
      mulStep m.endPtr m (k, p) = some (m.insertAt a.length (k, p)) := by
  rcases locate indLt indLt_total m hs k with ⟨a, v, b, hd, -, -⟩ | ⟨a, b, hd, ha, hb, hf, he⟩
  · rw [hd] at hk
    exact absurd (mem_keys_split a b k v) hk
  · refine ⟨a, b, hd, ha, hb, ?_⟩
    unfold mulStep
    simp only [hf]
    rw [if_neg (by simp [FlatMap.endPtr])]
    simp [he]

theorem mulStep_undef (lend : ℕ × ℕ) (m : FlatMap Ind ℕ) (hs : Sorted indLt m.data) (k : Ind) (p : ℕ)
    (hk : k ∉ keys m.data) (hl : m.endPtr ≠ lend) : mulStep lend m (k, p) = none := by
  rcases locate indLt indLt_total m hs k with ⟨a, v, b, hd, -, -⟩ | ⟨a, b, hd, ha, hb, hf, he⟩
  · rw [hd] at hk
    exact absurd (mem_keys_split a b k v) hk
  · unfold mulStep
    have hl' : m.ptr m.data.length ≠ lend := hl
    have hv : m.valueAt m.data.length = none := by unfold FlatMap.valueAt; simp
    simp only [hf, if_pos hl', hv]

/-- Multiplication by a monomial whose indeterminates are all there. -/
theorem mulLoop_present : ∀ (rhs : Mono) (m : FlatMap Ind ℕ), Sorted indLt m.data →
    (∀ k ∈ keys rhs, k ∈ keys m.data) →
    ∃ m', rhs.foldlM (mulStep m.endPtr) m = some m' ∧ m'.endPtr = m.endPtr ∧
      keys m'.data = keys m.data ∧ Sorted indLt m'.data ∧
      ((∀ e ∈ m.data, 0 < e.2) → ∀ e ∈ m'.data, 0 < e.2) ∧
      ∀ x, monoVal x m'.data = monoVal x m.data * monoVal x rhs := by
  intro rhs
  induction rhs with
  | nil => intro m hs _; exact ⟨m, rfl, rfl, rfl, hs, fun h => h, fun x => by simp [monoVal]⟩
  | cons e rhs ih =>
    intro m hs hk
    obtain ⟨k, p⟩ := e
    obtain ⟨a, v, b, hd, hstep⟩ := mulStep_present m hs k p (hk k List.mem_cons_self)
    set m1 : FlatMap Ind ℕ := { m with data := a ++ (k, v + p) :: b } with hm1
    have hend : m1.endPtr = m.endPtr := by
      unfold FlatMap.endPtr FlatMap.ptr
      rw [hm1, hd]
      simp
    have hkeys : keys m1.data = keys m.data := by
      rw [hm1, hd]
      simp [keys]
    have hs1 : Sorted indLt m1.data := by
      rw [hd] at hs
      exact sorted_replace indLt a b k v (v + p) hs
    obtain ⟨m', h1, h2, h3, h4, h5, h6⟩ := ih m1 hs1 (by
      intro k' hk'
      rw [hkeys]
      exact hk k' (List.mem_cons_of_mem _ hk'))
    refine ⟨m', ?_, h2.trans hend, h3.trans hkeys, h4, ?_, ?_⟩
    · rw [List.foldlM_cons, hstep]
      show List.foldlM (mulStep m.endPtr) m1 rhs = some m'
      rw [← hend]
      exact h1
    · intro hp
      apply h5
      intro e he
      have he' : e ∈ a ++ (k, v + p) :: b := he
      rcases List.mem_append.1 he' with he | he
      · exact hp e (by rw [hd]; exact List.mem_append_left _ he)
      · rcases List.mem_cons.1 he with rfl | he
        · have := hp (k, v) (by rw [hd]; simp)
          simp only at this ⊢
          omega
        · exact hp e (by rw [hd]; exact List.mem_append_right _ (List.mem_cons_of_mem _ he))
    · intro x
      rw [h6, hm1, hd]
      simp only [monoVal_append, monoVal_cons, pow_add]
      ring

/-- Multiplication if every indeterminate of the right factor, except possibly the last, is in the
left one. -/
theorem mulInplace_ok (m : FlatMap Ind ℕ) (rhs : Mono) (hm : MonoOk m.data) (hr : MonoOk rhs)
    (hk : ∀ k ∈ keys rhs.dropLast, k ∈ keys m.data) :
    ∃ m', mulInplace m rhs = some m' ∧ MonoOk m'.data ∧
      ∀ x, monoVal x m'.data = monoVal x m.data * monoVal x rhs := by
  have hsm : Sorted indLt m.data := hm.sorted.imp (by intro a b h; simpa [indLt] using h)
  rcases List.eq_nil_or_concat rhs with rfl | ⟨pre, e, rfl⟩
  · exact ⟨m, rfl, hm, fun x => by simp [monoVal]⟩
  · rw [List.concat_eq_append] at *
    rw [List.dropLast_concat] at hk
    obtain ⟨m1, h1, h2, h3, h4, h5, h6⟩ := mulLoop_present pre m hsm hk
    have hsplit : mulInplace m (pre ++ [e]) = mulStep m.endPtr m1 e := by
      unfold mulInplace
      rw [List.foldlM_append, h1]
      show List.foldlM (mulStep m.endPtr) m1 [e] = _
      rw [List.foldlM_cons]
      cases mulStep m.endPtr m1 e <;> rfl
    rw [hsplit, ← h2]
    obtain ⟨k, p⟩ := e
    have hp : 0 < p := hr.powers (k, p) (by simp)
    have hval : ∀ x, monoVal x (pre ++ [(k, p)]) = monoVal x pre * x k ^ p := by
      intro x; simp [monoVal]
    have back : ∀ l : Mono, Sorted indLt l → l.Pairwise fun a b => a.1 < b.1 :=
      fun l h => h.imp (by intro a b h; simpa [indLt] using h)
    by_cases hmem : k ∈ keys m1.data
    · obtain ⟨a, v, b, hd, hstep⟩ := mulStep_present m1 h4 k p hmem
      refine ⟨_, hstep, ⟨back _ ?_, ?_⟩, ?_⟩
      · rw [hd] at h4
        exact sorted_replace indLt a b k v (v + p) h4
      · intro e he
        have he' : e ∈ a ++ (k, v + p) :: b := he
        rcases List.mem_append.1 he' with he | he
        · exact h5 hm.powers e (by rw [hd]; exact List.mem_append_left _ he)
        · rcases List.mem_cons.1 he with rfl | he
          · simp only; omega
          · exact h5 hm.powers e (by
              rw [hd]; exact List.mem_append_right _ (List.mem_cons_of_mem _ he))
      · intro x
        rw [hval, ← mul_assoc, ← h6, hd]
        simp only [monoVal_append, monoVal_cons, pow_add]
        ring
    · obtain ⟨a, b, hd, ha, hb, hstep⟩ := mulStep_new m1 h4 k p hmem
      refine ⟨_, hstep, ?_, ?_⟩
      · rw [insertAt_data, hd, insertIdx_split]
        refine ⟨back _ ?_, ?_⟩
        · rw [hd] at h4
          exact sorted_insert indLt a b k p h4 ha hb
        · intro e he
          rcases List.mem_append.1 he with he | he
          · exact h5 hm.powers e (by rw [hd]; exact List.mem_append_left _ he)
          · rcases List.mem_cons.1 he with rfl | he
            · exact hp
            · exact h5 hm.powers e (by rw [hd]; exact List.mem_append_right _ he)
      · intro x
        rw [insertAt_data, hval, ← mul_assoc, ← h6, hd, insertIdx_split]
        simp only [monoVal_append, monoVal_cons]
        ring

/-! ### Sums -/

theorem polyVal_append (x : Ind → ℚ) (a b : List (Mono × ℚ)) :
    polyVal x (a ++ b) = polyVal x a + polyVal x b := by
  simp [polyVal]

theorem polyVal_cons (x : Ind → ℚ) (t : Mono × ℚ) (b : List (Mono × ℚ)) :
    polyVal x (t :: b) = t.2 * monoVal x t.1 + polyVal x b := by
  simp [polyVal]

theorem polyOk_replace (a b : List (Mono × ℚ)) (k : Mono) (v w : ℚ) (h : PolyOk (a ++ (k, v) :: b))
    (hw : w ≠ 0) : PolyOk (a ++ (k, w) :: b) := by
  refine ⟨sorted_replace monoLt a b k v w h.sorted, ?_, ?_⟩
  · intro t ht
    rcases List.mem_append.1 ht with ht | ht
    · exact h.monos t (List.mem_append_left _ ht)
    · rcases List.mem_cons.1 ht with rfl | ht
      · exact h.monos (k, v) (by simp)
      · exact h.monos t (List.mem_append_right _ (List.mem_cons_of_mem _ ht))
  · intro t ht
    rcases List.mem_append.1 ht with ht | ht
    · exact h.coeffs t (List.mem_append_left _ ht)
    · rcases List.mem_cons.1 ht with rfl | ht
      · exact hw
      · exact h.coeffs t (List.mem_append_right _ (List.mem_cons_of_mem _ ht))

theorem polyOk_sublist (a b : List (Mono × ℚ)) (h : PolyOk b) (hs : a.Sublist b) : PolyOk a :=
  ⟨h.sorted.sublist hs, fun t ht => h.monos t (hs.subset ht), fun t ht => h.coeffs t (hs.subset ht)⟩

theorem polyOk_insert (a b : List (Mono × ℚ)) (k : Mono) (v : ℚ) (h : PolyOk (a ++ b)) (hv : v ≠ 0)
    (hk : MonoOk k) (ha : ∀ e ∈ a, monoLt e.1 k = true) (hb : ∀ e ∈ b, monoLt k e.1 = true) :
    PolyOk (a ++ (k, v) :: b) := by
  refine ⟨sorted_insert monoLt a b k v h.sorted ha hb, ?_, ?_⟩
  · intro t ht
    rcases List.mem_append.1 ht with ht | ht
    · exact h.monos t (List.mem_append_left _ ht)
    · rcases List.mem_cons.1 ht with rfl | ht
      · exact hk
      · exact h.monos t (List.mem_append_right _ ht)
  · intro t ht
    rcases List.mem_append.1 ht with ht | ht
    · exact h.coeffs t (List.mem_append_left _ ht)
    · rcases List.mem_cons.1 ht with rfl | ht
      · exact hv
      · exact h.coeffs t (List.mem_append_right _ ht)

/-- `addStep` and `subStep` in one: the coefficient of the term is multiplied by the sign `s`. -/
def signStep (s : ℚ) : ℕ × ℕ → Poly → Mono × ℚ → Option Poly := if s = 1 then addStep else subStep

theorem signStep_present (s : ℚ) (hsg : s = 1 ∨ s = -1) (lend : ℕ × ℕ) (p : Poly)
    (hp : PolyOk p.data) (k : Mono) (c : ℚ)
    (hk : k ∈ keys p.data) (hl : p.block = lend.1 → p.data.length ≤ lend.2) :
    ∃ a v b, p.data = a ++ (k, v) :: b ∧
      signStep s lend p (k, c) = some { p with
        data := if v + s * c = 0 then a ++ b else a ++ (k, v + s * c) :: b } := by
  rcases locate monoLt monoLt_total p hp.sorted k with ⟨a, v, b, hd, hf, -⟩ | ⟨a, b, hd, ha, hb, -, -⟩
  · refine ⟨a, v, b, hd, ?_⟩
    have hne : p.ptr a.length ≠ lend := by
      unfold FlatMap.ptr
      intro h
      have h1 : p.block = lend.1 := by rw [← h]
      have h2 : a.length = lend.2 := by rw [← h]
      have := hl h1
      rw [hd] at this
      simp at this
      omega
    have hva : p.valueAt a.length = some v := by
      unfold FlatMap.valueAt; simp [hd]
    have hset : ∀ w, p.setAt a.length w = some { p with data := a ++ (k, w) :: b } := by
      intro w; unfold FlatMap.setAt; simp [hd]
    have hers : p.eraseAt a.length = { p with data := a ++ b } := by
      unfold FlatMap.eraseAt
      rw [hd]
      congr 1
      rw [List.eraseIdx_append_of_length_le (le_refl _)]
      simp
    unfold signStep
    rcases hsg with rfl | rfl
    · rw [if_pos rfl]
      unfold addStep
      simp only [hf, if_pos hne, hva, one_mul, hset, hers]
      split_ifs <;> rfl
    · rw [if_neg (by norm_num)]
      unfold subStep
      simp only [hf, if_pos hne, hva, hset, hers, neg_one_mul, ← sub_eq_add_neg]
      split_ifs <;> rfl
  · rw [hd] at hk
    exact absurd hk (not_mem_keys monoLt monoLt_total a b k ha hb)

theorem signStep_new (s : ℚ) (hsg : s = 1 ∨ s = -1) (p : Poly) (hp : PolyOk p.data) (k : Mono) (c : ℚ)
    (hk : k ∉ keys p.data) :
    ∃ a b q, p.data = a ++ b ∧ (∀ e ∈ a, monoLt e.1 k = true) ∧ (∀ e ∈ b, monoLt k e.1 = true) ∧
      signStep s p.endPtr p (k, c) = some q ∧ q.data = a ++ (k, s * c) :: b ∧
      q.endPtr ≠ p.endPtr := by
  rcases locate monoLt monoLt_total p hp.sorted k with ⟨a, v, b, hd, -, -⟩ | ⟨a, b, hd, ha, hb, hf, he⟩
  · rw [hd] at hk
    exact absurd (mem_keys_split a b k v) hk
  · have hend := insertAt_end p a.length (by rw [hd]; simp) (k, c)
    have hdat : (p.insertAt a.length (k, c)).data = a ++ (k, c) :: b := by
      rw [insertAt_data, hd, insertIdx_split]
    unfold signStep
    rcases hsg with rfl | rfl
    · refine ⟨a, b, p.insertAt a.length (k, c), hd, ha, hb, ?_, by rw [hdat, one_mul], hend⟩
      rw [if_pos rfl]
      unfold addStep
      simp only [hf]
      rw [if_neg (by simp [FlatMap.endPtr])]
      simp [he]
    · refine ⟨a, b, { p.insertAt a.length (k, c) with data := a ++ (k, -c) :: b }, hd, ha, hb, ?_,
        by simp, ?_⟩
      · rw [if_neg (by norm_num)]
        unfold subStep
        simp only [hf]
        rw [if_neg (by simp [FlatMap.endPtr])]
        simp only [he]
        unfold FlatMap.setAt
        simp [hdat]
      · unfold FlatMap.endPtr FlatMap.ptr at hend ⊢
        rw [hdat] at hend
        simpa using hend

theorem signStep_undef (s : ℚ) (hsg : s = 1 ∨ s = -1) (lend : ℕ × ℕ) (p : Poly) (hp : PolyOk p.data)
    (k : Mono) (c : ℚ) (hk : k ∉ keys p.data) (hl : p.endPtr ≠ lend) :
    signStep s lend p (k, c) = none := by
  rcases locate monoLt monoLt_total p hp.sorted k with ⟨a, v, b, hd, -, -⟩ | ⟨a, b, hd, ha, hb, hf, he⟩
  · rw [hd] at hk
    exact absurd (mem_keys_split a b k v) hk
  · have hl' : p.ptr p.data.length ≠ lend := hl
    have hv : p.valueAt p.data.length = none := by unfold FlatMap.valueAt; simp
    unfold signStep
    rcases hsg with rfl | rfl
    · rw [if_pos rfl]
      unfold addStep
      simp only [hf, if_pos hl', hv]
    · rw [if_neg (by norm_num)]
      unfold subStep
      simp only [hf, if_pos hl', hv]

/-- Adding terms that are all there; some may cancel. -/
theorem signLoop_present (s : ℚ) (hsg : s = 1 ∨ s = -1) (lend : ℕ × ℕ) :
    ∀ (rhs : List (Mono × ℚ)) (p : Poly), PolyOk p.data → (keys rhs).Nodup →
    (∀ k ∈ keys rhs, k ∈ keys p.data) → (p.block = lend.1 → p.data.length ≤ lend.2) →
    ∃ q, rhs.foldlM (signStep s lend) p = some q ∧ PolyOk q.data ∧ q.block = p.block ∧
      (∀ k, k ∉ keys rhs → (k ∈ keys q.data ↔ k ∈ keys p.data)) ∧
      ((∀ t ∈ rhs, ∀ v, (t.1, v) ∈ p.data → v + s * t.2 ≠ 0) → q.data.length = p.data.length) ∧
      ∀ x, polyVal x q.data = polyVal x p.data + s * polyVal x rhs := by
  intro rhs
  induction rhs with
  | nil =>
    intro p hp _ _ _
    exact ⟨p, rfl, hp, rfl, fun _ _ => Iff.rfl, fun _ => rfl, fun x => by simp [polyVal]⟩
  | cons t rhs ih =>
    intro p hp hnd hk hl
    obtain ⟨k, c⟩ := t
    rw [keys_cons, List.nodup_cons] at hnd
    obtain ⟨a, v, b, hd, hstep⟩ := signStep_present s hsg lend p hp k c (hk k List.mem_cons_self) hl
    set p1 : Poly := { p with data := if v + s * c = 0 then a ++ b else a ++ (k, v + s * c) :: b }
      with hp1
    have hok : PolyOk p1.data := by
      rw [hp1]
      simp only
      rw [hd] at hp
      split_ifs with h0
      · exact polyOk_sublist _ _ hp ((List.Sublist.refl a).append (List.sublist_cons_self _ b))
      · exact polyOk_replace a b k v _ hp h0
    have hkeys : ∀ k', k' ≠ k → (k' ∈ keys p1.data ↔ k' ∈ keys p.data) := by
      intro k' hk'
      rw [hp1, hd]
      simp only
      split_ifs <;> simp [keys_append, keys_cons, hk']
    have hlen : p1.data.length ≤ p.data.length := by
      rw [hp1, hd]
      simp only
      split_ifs <;> simp
    obtain ⟨q, h1, h2, h3, h4, h5, h6⟩ := ih p1 hok hnd.2 (by
      intro k' hk'
      rw [hkeys k' (fun h => hnd.1 (h ▸ hk'))]
      exact hk k' (List.mem_cons_of_mem _ hk')) (fun h => hlen.trans (hl h))
    refine ⟨q, ?_, h2, h3, ?_, ?_, ?_⟩
    · rw [List.foldlM_cons, hstep]
      exact h1
    · intro k' hk'
      rw [keys_cons, List.mem_cons, not_or] at hk'
      rw [h4 k' hk'.2, hkeys k' hk'.1]
    · intro hnc
      have hne : v + s * c ≠ 0 := hnc (k, c) List.mem_cons_self v (by rw [hd]; simp)
      have hd1 : p1.data = a ++ (k, v + s * c) :: b := by
        rw [hp1]; simp only; rw [if_neg hne]
      rw [h5]
      · rw [hd1, hd]; simp
      · intro t ht w hw
        have htk : t.1 ≠ k := by
          intro h
          apply hnd.1
          rw [← h]
          exact List.mem_map.2 ⟨t, ht, rfl⟩
        apply hnc t (List.mem_cons_of_mem _ ht) w
        rw [hd1] at hw
        rw [hd]
        simp only [List.mem_append, List.mem_cons, Prod.mk.injEq] at hw ⊢
        rcases hw with hw | hw | hw
        · exact Or.inl hw
        · exact absurd hw.1 htk
        · exact Or.inr (Or.inr hw)
    · intro x
      rw [h6, hp1, hd]
      simp only
      split_ifs with h0
      · simp only [polyVal_append, polyVal_cons]
        have : v = -(s * c) := by linarith
        rw [this]
        ring
      · simp only [polyVal_append, polyVal_cons]
        ring

/-- Adding a polynomial of which at most the last term is new. -/
theorem signLoop_ok (s : ℚ) (hsg : s = 1 ∨ s = -1) (p : Poly) (rhs : List (Mono × ℚ))
    (hp : PolyOk p.data) (hr : PolyOk rhs)
    (hk : ∀ k ∈ keys rhs.dropLast, k ∈ keys p.data)
    (hlast : (∀ k ∈ keys rhs, k ∈ keys p.data) ∨
      ∀ t ∈ rhs.dropLast, ∀ v, (t.1, v) ∈ p.data → v + s * t.2 ≠ 0) :
    ∃ q, rhs.foldlM (signStep s p.endPtr) p = some q ∧ PolyOk q.data ∧
      ∀ x, polyVal x q.data = polyVal x p.data + s * polyVal x rhs := by
  have hnd := sorted_nodup monoLt monoLt_total rhs hr.sorted
  by_cases hall : ∀ k ∈ keys rhs, k ∈ keys p.data
  · obtain ⟨q, h1, h2, -, -, -, h6⟩ := signLoop_present s hsg p.endPtr rhs p hp hnd hall
      (fun _ => le_refl _)
    exact ⟨q, h1, h2, h6⟩
  · have hnc := hlast.resolve_left hall
    rcases List.eq_nil_or_concat rhs with rfl | ⟨pre, t, rfl⟩
    · exact absurd (by simp [keys]) hall
    · rw [List.concat_eq_append] at *
      rw [List.dropLast_concat] at hk hnc
      obtain ⟨k, c⟩ := t
      have hnd' : (keys pre ++ [k]).Nodup := by simpa [keys_append, keys] using hnd
      have hkpre : k ∉ keys pre := by
        intro h
        exact (List.nodup_append.1 hnd').2.2 k h k (by simp) rfl
      obtain ⟨p1, h1, h2, h3, h4, h5, h6⟩ := signLoop_present s hsg p.endPtr pre p hp
        (List.nodup_append.1 hnd').1 hk (fun _ => le_refl _)
      have hkp : k ∉ keys p.data := by
        intro h
        apply hall
        intro k' hk'
        rw [keys_append, List.mem_append] at hk'
        rcases hk' with hk' | hk'
        · exact hk k' hk'
        · have : k' = k := by simpa [keys] using hk'
          rw [this]; exact h
      have hk1 : k ∉ keys p1.data := by rw [h4 k hkpre]; exact hkp
      have hend : p1.endPtr = p.endPtr := by
        unfold FlatMap.endPtr FlatMap.ptr
        rw [h5 hnc, h3]
      obtain ⟨a, b, q, hd, ha, hb, hstep, hq, -⟩ := signStep_new s hsg p1 h2 k c hk1
      have hc : c ≠ 0 := hr.coeffs (k, c) (by simp)
      refine ⟨q, ?_, ?_, ?_⟩
      · rw [List.foldlM_append, h1]
        show List.foldlM (signStep s p.endPtr) p1 [(k, c)] = _
        rw [List.foldlM_cons, ← hend, hstep]
        rfl
      · rw [hq]
        rw [hd] at h2
        refine polyOk_insert a b k _ h2 ?_ (hr.monos (k, c) (by simp)) ha hb
        rcases hsg with rfl | rfl <;> simpa using hc
      · intro x
        have h7 := h6 x
        rw [hd, polyVal_append] at h7
        have h8 : polyVal x (pre ++ [(k, c)]) = polyVal x pre + c * monoVal x k := by
          rw [polyVal_append]; simp [polyVal]
        rw [hq, h8, polyVal_append, polyVal_cons]
        simp only
        linear_combination h7

/-- The first two terms are new: undefined. -/
theorem signLoop_undef (s : ℚ) (hsg : s = 1 ∨ s = -1) (p : Poly) (hp : PolyOk p.data)
    (t u : Mono × ℚ) (rest : List (Mono × ℚ)) (hr : PolyOk (t :: u :: rest))
    (ht : t.1 ∉ keys p.data) (hu : u.1 ∉ keys p.data) :
    (t :: u :: rest).foldlM (signStep s p.endPtr) p = none := by
  obtain ⟨a, b, q, hd, ha, hb, hstep, hq, hend⟩ := signStep_new s hsg p hp t.1 t.2 ht
  have hne : u.1 ≠ t.1 := by
    intro h
    have := (List.pairwise_cons.1 hr.sorted).1 u List.mem_cons_self
    rw [h, monoLt_total.irrefl] at this
    exact absurd this (by decide)
  have huq : u.1 ∉ keys q.data := by
    rw [hq, keys_append, keys_cons]
    rw [hd, keys_append] at hu
    simp only [List.mem_append, List.mem_cons, not_or] at hu ⊢
    exact ⟨hu.1, hne, hu.2⟩
  have hqok : PolyOk q.data := by
    rw [hq]
    rw [hd] at hp
    refine polyOk_insert a b t.1 _ hp ?_ (hr.monos t List.mem_cons_self) ha hb
    have := hr.coeffs t List.mem_cons_self
    rcases hsg with rfl | rfl <;> simpa using this
  have h2 := signStep_undef s hsg p.endPtr q hqok u.1 u.2 huq hend
  rw [List.foldlM_cons, show (t : Mono × ℚ) = (t.1, t.2) from rfl, hstep]
  show List.foldlM (signStep s p.endPtr) q (u :: rest) = none
  rw [List.foldlM_cons, show (u : Mono × ℚ) = (u.1, u.2) from rfl, h2]
  rfl

/-! ### Products -/

theorem mulTerm_ok (r : Poly) (hr : PolyOk r.data) (k : Mono) (hk : MonoOk k) (c : ℚ) (hc : c ≠ 0) :
    ∃ q, mulTerm r k c = some q ∧ PolyOk q.data ∧
      ∀ x, polyVal x q.data = polyVal x r.data + c * monoVal x k := by
  have e : mulTerm r k c = signStep 1 r.endPtr r (k, c) := by
    unfold signStep
    rw [if_pos rfl]
    rfl
  rw [e]
  have := signLoop_ok 1 (Or.inl rfl) r [(k, c)] hr
    ⟨List.pairwise_singleton _ _, by simpa using hk, by simpa using hc⟩ (by simp [keys])
    (Or.inr (by simp))
  obtain ⟨q, h1, h2, h3⟩ := this
  refine ⟨q, ?_, h2, ?_⟩
  · rw [List.foldlM_cons] at h1
    cases hq : signStep 1 r.endPtr r (k, c) with
    | none => rw [hq] at h1; exact absurd h1 (by simp)
    | some q' => rw [hq] at h1; simpa using h1
  · intro x
    rw [h3]
    simp [polyVal]

/-- The product of two monomials can be computed. -/
def Computable (a b : Mono) : Prop := ∀ k ∈ keys b.dropLast, k ∈ keys a

theorem monoMul_ok (a b : Mono) (ha : MonoOk a) (hb : MonoOk b) (h : Computable a b) :
    ∃ c, monoMul a b = some c ∧ MonoOk c ∧ ∀ x, monoVal x c = monoVal x a * monoVal x b := by
  obtain ⟨m, h1, h2, h3⟩ := mulInplace_ok ⟨0, max 1 a.length, a⟩ b ha hb h
  refine ⟨m.data, ?_, h2, h3⟩
  unfold monoMul
  rw [h1]
  rfl

theorem mulRow_ok (s : Mono × ℚ) (hs : MonoOk s.1) (hs0 : s.2 ≠ 0) : ∀ (rhs : List (Mono × ℚ)) (r : Poly),
    PolyOk r.data → (∀ t ∈ rhs, MonoOk t.1 ∧ t.2 ≠ 0 ∧ Computable s.1 t.1) →
    ∃ q, mulRow s rhs r = some q ∧ PolyOk q.data ∧
      ∀ x, polyVal x q.data = polyVal x r.data + s.2 * monoVal x s.1 * polyVal x rhs := by
  intro rhs
  induction rhs with
  | nil => intro r hr _; exact ⟨r, rfl, hr, fun x => by simp [polyVal]⟩
  | cons t rhs ih =>
    intro r hr h
    obtain ⟨ht, ht0, hcomp⟩ := h t List.mem_cons_self
    obtain ⟨key, hk1, hk2, hk3⟩ := monoMul_ok s.1 t.1 hs ht hcomp
    obtain ⟨q1, h1, h2, h3⟩ := mulTerm_ok r hr key hk2 (s.2 * t.2) (mul_ne_zero hs0 ht0)
    obtain ⟨q, h4, h5, h6⟩ := ih q1 h2 (fun t ht => h t (List.mem_cons_of_mem _ ht))
    refine ⟨q, ?_, h5, ?_⟩
    · unfold mulRow at h4 ⊢
      rw [List.foldlM_cons, hk1]
      simp only [h1]
      exact h4
    · intro x
      rw [h6, h3, hk3, polyVal_cons]
      ring

theorem polyMul_loop (rhs : List (Mono × ℚ)) : ∀ (l : List (Mono × ℚ)) (r : Poly), PolyOk r.data →
    (∀ s ∈ l, MonoOk s.1 ∧ s.2 ≠ 0 ∧ ∀ t ∈ rhs, MonoOk t.1 ∧ t.2 ≠ 0 ∧ Computable s.1 t.1) →
    ∃ q, l.foldlM (fun r s => mulRow s rhs r) r = some q ∧ PolyOk q.data ∧
      ∀ x, polyVal x q.data = polyVal x r.data + polyVal x l * polyVal x rhs := by
  intro l
  induction l with
  | nil => intro r hr _; exact ⟨r, rfl, hr, fun x => by simp [polyVal]⟩
  | cons s l ih =>
    intro r hr h
    obtain ⟨hs, hs0, hrow⟩ := h s List.mem_cons_self
    obtain ⟨q1, h1, h2, h3⟩ := mulRow_ok s hs hs0 rhs r hr hrow
    obtain ⟨q, h4, h5, h6⟩ := ih q1 h2 (fun s hs => h s (List.mem_cons_of_mem _ hs))
    refine ⟨q, ?_, h5, ?_⟩
    · rw [List.foldlM_cons, h1]
      exact h4
    · intro x
      rw [h6, h3, polyVal_cons]
      ring

end RoughPy.GenPoly
