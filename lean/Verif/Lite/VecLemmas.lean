import Verif.Lite.History
import Mathlib.Algebra.CharZero.Defs
import Mathlib.Algebra.Ring.Commute
import Mathlib.Algebra.Field.Basic
import Mathlib.Tactic.Ring
import Mathlib.Data.List.Perm.Subperm

set_option linter.unusedSectionVars false

/-! # Sparse and dense vectors act coefficient-wise -/

namespace RoughPy.Lite

variable {K T : Type}

/-- `V` implements vectors with coefficients `coef` on the keys satisfying `P`, as long as the
vectors satisfy `Good`.  When `strict`, the in-place operations require that a non-zero entry
does not produce a zero. -/
structure VecOps.Lawful [Zero K] (V : VecOps K T) (P : Key → Prop) (coef : T → Key → K)
    (Good : T → Prop) (strict : Prop) : Prop where
  new_good : Good V.new
  new_coef : ∀ k, P k → coef V.new k = 0
  clear_good : ∀ v, Good v → Good (V.clear v)
  clear_coef : ∀ v, Good v → ∀ k, P k → coef (V.clear v) k = 0
  single : ∀ k, P k → ∀ s, ∃ v, V.single k s = some v ∧ Good v ∧
    ∀ j, P j → coef v j = if j = k then s else 0
  modify : ∀ v, Good v → ∀ k, P k → ∀ f, ∃ v', V.modify v k f = some v' ∧ Good v' ∧
    ∀ j, P j → coef v' j = if j = k then f (coef v k) else coef v j
  unary : ∀ v, Good v → ∀ f : K → K, f 0 = 0 → Good (V.unary f v) ∧
    ∀ k, P k → coef (V.unary f v) k = f (coef v k)
  unaryInplace : ∀ v, Good v → ∀ f : K → K, f 0 = 0 → Good (V.unaryInplace f v) ∧
    ∀ k, P k → coef (V.unaryInplace f v) k = f (coef v k)
  binary : ∀ a b, Good a → Good b → ∀ op : K → K → K, (∀ l, op l 0 = l) →
    (strict → ∀ r, r ≠ 0 → op 0 r ≠ 0) → Good (V.binary op a b) ∧
    ∀ k, P k → coef (V.binary op a b) k = op (coef a k) (coef b k)
  binaryInplace : ∀ a b, Good a → Good b → ∀ op : K → K → K, (∀ l, op l 0 = l) →
    (strict → ∀ r, r ≠ 0 → op 0 r ≠ 0) → Good (V.binaryInplace op a b) ∧
    ∀ k, P k → coef (V.binaryInplace op a b) k = op (coef a k) (coef b k)
  binarySelf : ∀ a, Good a → ∀ op : K → K → K, (∀ l, op l 0 = l) →
    (strict → ∀ r, r ≠ 0 → op r r ≠ 0) → ∃ v, V.binarySelf op a = some v ∧ Good v ∧
    ∀ k, P k → coef v k = op (coef a k) (coef a k)
  beq : ∀ a b, Good a → Good b → (V.beq a b = true ↔ ∀ k, P k → coef a k = coef b k)

/-! ### Sparse vectors -/

namespace Sparse
variable [Zero K] [DecidableEq K]

/-- representation invariant: ordered keys and no stored zero -/
def Good (m : Sparse K) : Prop := SMap.Sorted m ∧ ∀ e ∈ m, e.2 ≠ 0

theorem good_nil : Good ([] : Sparse K) := ⟨SMap.sorted_nil, by simp⟩

theorem read_eq (m : Sparse K) (k : Key) : read m k = (SMap.find m k).getD 0 := by
  unfold read; cases SMap.find m k <;> rfl

theorem find_eq_read {m : Sparse K} (h : Good m) (k : Key) :
    SMap.find m k = if read m k = 0 then none else some (read m k) := by
  unfold read
  cases hf : SMap.find m k with
  | none => simp
  | some v =>
    have := h.2 _ (SMap.mem_of_find hf)
    dsimp only at this ⊢
    rw [if_neg this]

theorem ext_read {a b : Sparse K} (ha : Good a) (hb : Good b)
    (h : ∀ k, read a k = read b k) : a = b :=
  SMap.ext ha.1 hb.1 fun k => by rw [find_eq_read ha, find_eq_read hb, h]

theorem modify_good {m : Sparse K} (h : Good m) (k : Key) (f : K → K) : Good (modify m k f) := by
  have hset : ∀ {v : K}, v ≠ 0 → Good (SMap.set m k v) := fun {v} hv => by
    refine ⟨SMap.sorted_set h.1 _ _, fun e he => ?_⟩
    rcases SMap.mem_set he with rfl | he
    · exact hv
    · exact h.2 _ he
  unfold modify
  cases SMap.find m k with
  | none =>
    dsimp only
    split_ifs with h1
    · exact hset h1
    · exact h
  | some v =>
    dsimp only
    split_ifs with h1
    · exact hset h1
    · exact ⟨SMap.sorted_erase h.1 _, fun e he => h.2 _ (SMap.mem_erase he)⟩

theorem read_modify {m : Sparse K} (h : SMap.Sorted m) (k : Key) (f : K → K) (j : Key) :
    read (modify m k f) j = if j = k then f (read m k) else read m j := by
  rw [read_eq, read_eq, read_eq]
  unfold modify
  cases hf : SMap.find m k with
  | none =>
    dsimp only
    by_cases h1 : f 0 ≠ 0
    · rw [if_pos h1, SMap.find_set h]
      split_ifs <;> rfl
    · rw [if_neg h1]
      split_ifs with h2
      · subst h2; rw [hf]; simpa using (not_not.1 h1).symm
      · rfl
  | some v =>
    dsimp only
    by_cases h1 : f v ≠ 0
    · rw [if_pos h1, SMap.find_set h]
      split_ifs <;> rfl
    · rw [if_neg h1, SMap.find_erase h]
      split_ifs with h2
      · simpa using (not_not.1 h1).symm
      · rfl

theorem read_single (k : Key) (s : K) (j : Key) :
    read (single k s) j = if j = k then s else 0 := by
  unfold single
  split_ifs with h1 h2 h2
  · subst h2; simp [read, SMap.find]
  · simp [read, SMap.find, h2]
  · subst h2; simpa [read, SMap.find] using (not_not.1 h1).symm
  · simp [read, SMap.find]

theorem single_good (k : Key) (s : K) : Good (single k s) := by
  unfold single
  split_ifs with h
  · exact ⟨List.pairwise_singleton _ _, by simpa using h⟩
  · exact good_nil

theorem unary_good {m : Sparse K} (h : Good m) (op : K → K) : Good (unary op m) := by
  constructor
  · refine List.pairwise_filterMap.2 (h.1.imp ?_)
    intro a b hab c hc d hd
    split_ifs at hc hd
    · cases hc; cases hd; exact hab
  · intro e he
    obtain ⟨a, _, ha⟩ := List.mem_filterMap.1 he
    split_ifs at ha with h1
    cases ha
    exact h1

theorem read_unary {m : Sparse K} (h : Good m) (op : K → K) (h0 : op 0 = 0) (k : Key) :
    read (unary op m) k = op (read m k) := by
  have hg := unary_good h op
  cases hf : SMap.find m k with
  | none =>
    have : SMap.find (unary op m) k = none := by
      refine SMap.find_eq_none_of_forall fun x hx hk => ?_
      obtain ⟨a, ha, hax⟩ := List.mem_filterMap.1 hx
      split_ifs at hax
      cases hax
      subst hk
      rw [SMap.find_of_mem h.1 (k := a.1) (v := a.2) ha] at hf
      exact absurd hf (by simp)
    rw [read_eq, read_eq, this, hf]
    exact h0.symm
  | some v =>
    by_cases h1 : op v ≠ 0
    · have : SMap.find (unary op m) k = some (op v) := SMap.find_of_mem hg.1
        (List.mem_filterMap.2 ⟨(k, v), SMap.mem_of_find hf, by rw [if_pos h1]⟩)
      rw [read_eq, read_eq, this, hf]; rfl
    · have : SMap.find (unary op m) k = none := by
        refine SMap.find_eq_none_of_forall fun x hx hk => ?_
        obtain ⟨a, ha, hax⟩ := List.mem_filterMap.1 hx
        split_ifs at hax with h2
        cases hax
        subst hk
        rw [SMap.find_of_mem h.1 (k := a.1) (v := a.2) ha] at hf
        cases hf
        exact h1 h2
      rw [read_eq, read_eq, this, hf]
      exact (not_not.1 h1).symm

theorem combine_good {op : K → K → K} (hop : ∀ r, r ≠ 0 → op 0 r ≠ 0) {m : Sparse K}
    (h : Good m) {e : Key × K} (he : e.2 ≠ 0) : Good (combine op m e) := by
  have hset : ∀ {v : K}, v ≠ 0 → Good (SMap.set m e.1 v) := fun {v} hv => by
    refine ⟨SMap.sorted_set h.1 _ _, fun x hx => ?_⟩
    rcases SMap.mem_set hx with rfl | hx
    · exact hv
    · exact h.2 _ hx
  unfold combine
  cases SMap.find m e.1 with
  | none => exact hset (hop _ he)
  | some v =>
    dsimp only
    split_ifs with h1
    · exact ⟨SMap.sorted_erase h.1 _, fun x hx => h.2 _ (SMap.mem_erase hx)⟩
    · exact hset h1

theorem read_combine (op : K → K → K) {m : Sparse K} (h : SMap.Sorted m) (e : Key × K) (k : Key) :
    read (combine op m e) k = if k = e.1 then op (read m k) e.2 else read m k := by
  rw [read_eq, read_eq]
  unfold combine
  cases hf : SMap.find m e.1 with
  | none =>
    dsimp only
    rw [SMap.find_set h]
    split_ifs with h1
    · subst h1; rw [hf]; rfl
    · rfl
  | some v =>
    dsimp only
    by_cases h1 : op v e.2 = 0
    · rw [if_pos h1, SMap.find_erase h]
      split_ifs with h2
      · subst h2; rw [hf]; simpa using h1.symm
      · rfl
    · rw [if_neg h1, SMap.find_set h]
      split_ifs with h2
      · subst h2; rw [hf]; rfl
      · rfl

theorem binaryInplace_spec {op : K → K → K} (hop0 : ∀ l, op l 0 = l)
    (hop : ∀ r, r ≠ 0 → op 0 r ≠ 0) {m rhs : Sparse K} (hm : Good m) (hr : Good rhs) :
    Good (binaryInplace op m rhs) ∧
      ∀ k, read (binaryInplace op m rhs) k = op (read m k) (read rhs k) := by
  unfold binaryInplace
  induction rhs generalizing m with
  | nil => exact ⟨hm, fun k => by simp [read, SMap.find, hop0]⟩
  | cons e rhs ih =>
    rw [List.foldl_cons]
    have hr' : Good rhs := ⟨hr.1.tail, fun x hx => hr.2 _ (List.mem_cons_of_mem _ hx)⟩
    obtain ⟨h1, h2⟩ := ih (combine_good hop hm (hr.2 e (List.mem_cons_self ..))) hr'
    refine ⟨h1, fun k => ?_⟩
    rw [h2, read_combine op hm.1]
    obtain ⟨ke, ve⟩ := e
    by_cases hk : k = ke
    · subst hk
      have : read rhs k = 0 := by
        rw [read_eq, SMap.find_none_of_lt hr.1.head_lt]; rfl
      rw [this, hop0, if_pos rfl]
      simp [read, SMap.find]
    · rw [if_neg hk]
      congr 1
      rw [read_eq, read_eq, SMap.find, if_neg hk]

theorem binarySelf_spec {op : K → K → K} (hop0 : op 0 0 = 0) (hop : ∀ r, r ≠ 0 → op r r ≠ 0)
    {m : Sparse K} (hm : Good m) :
    ∃ v, binarySelf op m = some v ∧ Good v ∧ (∀ e ∈ v, ∃ e' ∈ m, e'.1 = e.1) ∧
      ∀ k, read v k = op (read m k) (read m k) := by
  induction m with
  | nil => exact ⟨[], rfl, good_nil, by simp, fun k => by simp [read, SMap.find, hop0]⟩
  | cons e m ih =>
    obtain ⟨k', v'⟩ := e
    obtain ⟨r, h1, h2, h3, h4⟩ := ih ⟨hm.1.tail, fun x hx => hm.2 _ (List.mem_cons_of_mem _ hx)⟩
    have hv := hop _ (hm.2 (k', v') (List.mem_cons_self ..))
    refine ⟨(k', op v' v') :: r, ?_, ⟨?_, ?_⟩, ?_, ?_⟩
    · rw [binarySelf, if_neg hv, h1]; rfl
    · refine List.pairwise_cons.2 ⟨fun x hx => ?_, h2.1⟩
      obtain ⟨y, hy, hxy⟩ := h3 x hx
      rw [← hxy]
      exact hm.1.head_lt y hy
    · intro x hx
      rcases List.mem_cons.1 hx with rfl | hx
      · exact hv
      · exact h2.2 _ hx
    · intro x hx
      rcases List.mem_cons.1 hx with rfl | hx
      · exact ⟨_, List.mem_cons_self .., rfl⟩
      · obtain ⟨y, hy, hxy⟩ := h3 x hx
        exact ⟨y, List.mem_cons_of_mem _ hy, hxy⟩
    · intro k
      have := h4 k
      rw [read_eq, read_eq] at this ⊢
      rw [SMap.find, SMap.find]
      split_ifs with hk
      · rfl
      · exact this

theorem beq_iff {a b : Sparse K} (ha : Good a) (hb : Good b) :
    beq a b = true ↔ ∀ k, read a k = read b k := by
  constructor
  · intro h
    unfold beq at h
    rw [Bool.and_eq_true, List.all_eq_true] at h
    obtain ⟨hlen, hall⟩ := h
    have hlen' := of_decide_eq_true hlen
    have hsub : b ⊆ a := fun e he => SMap.mem_of_find (of_decide_eq_true (hall e he))
    have nd : ∀ {m : Sparse K}, Good m → m.Nodup := fun hm =>
      hm.1.imp (fun h he => by rw [he] at h; exact lt_irrefl _ h)
    have hperm : b.Perm a :=
      (List.subperm_of_subset (nd hb) hsub).perm_of_length_le (le_of_eq hlen')
    intro k
    have : SMap.find a k = SMap.find b k := by
      cases hf : SMap.find b k with
      | none =>
        refine SMap.find_eq_none_of_forall fun x hx hk => ?_
        subst hk
        rw [SMap.find_of_mem hb.1 (k := x.1) (v := x.2) (hperm.mem_iff.2 hx)] at hf
        exact absurd hf (by simp)
      | some v => exact SMap.find_of_mem ha.1 (hsub (SMap.mem_of_find hf))
    rw [read_eq, read_eq, this]
  · intro h
    have := ext_read ha hb h
    subst this
    unfold beq
    rw [Bool.and_eq_true, List.all_eq_true]
    exact ⟨decide_eq_true rfl, fun e he => decide_eq_true (SMap.find_of_mem ha.1 he)⟩

theorem lawful : (ops : VecOps K (Sparse K)).Lawful (fun _ => True) read Good True where
  new_good := good_nil
  new_coef := fun k _ => rfl
  clear_good := fun _ _ => good_nil
  clear_coef := fun _ _ _ _ => rfl
  single := fun k _ s => ⟨_, rfl, single_good k s, fun j _ => read_single k s j⟩
  modify := fun v hv k _ f => ⟨_, rfl, modify_good hv k f, fun j _ => read_modify hv.1 k f j⟩
  unary := fun v hv f h0 => ⟨unary_good hv f, fun k _ => read_unary hv f h0 k⟩
  unaryInplace := fun v hv f h0 => ⟨unary_good hv f, fun k _ => read_unary hv f h0 k⟩
  binary := fun a b ha hb op h0 h1 =>
    ⟨(binaryInplace_spec h0 (h1 trivial) ha hb).1,
      fun k _ => (binaryInplace_spec h0 (h1 trivial) ha hb).2 k⟩
  binaryInplace := fun a b ha hb op h0 h1 =>
    ⟨(binaryInplace_spec h0 (h1 trivial) ha hb).1,
      fun k _ => (binaryInplace_spec h0 (h1 trivial) ha hb).2 k⟩
  binarySelf := fun a ha op h0 h1 => by
    obtain ⟨v, h2, h3, _, h4⟩ := binarySelf_spec (h0 0) (h1 trivial) ha
    exact ⟨v, h2, h3, fun k _ => h4 k⟩
  beq := fun a b ha hb => by
    refine (beq_iff ha hb).trans ⟨fun h k _ => h k, fun h k => h k trivial⟩

end Sparse

end RoughPy.Lite
