import Verif.Lite.GradedLemmas
import Verif.Tensor.ExpKernel

set_option linter.unusedSectionVars false

/-! # Products, exponentials, logarithms and inverses of free tensors -/

namespace RoughPy.Lite

open RoughPy.Tensor RoughPy.Tensor.Series Finset

variable {K T : Type} [Field K] [DecidableEq K]

/-- `A` implements tensors of width `w`: `ser v` is the tensor denoted by `v`.  `Good` is the
invariant of all vectors, `Tight` the one required of the operands of `add`, and `Full` that of
vectors which are known not to be empty. -/
structure AlgOps.LawfulTensor (A : AlgOps K T) (w : ℕ) (ser : T → Series (Fin w) K)
    (Good Tight Full : T → Prop) : Prop where
  good : ∀ v, Tight v → Good v
  tight : ∀ v, Full v → Tight v
  new_tight : Tight A.new
  new_ser : EqUpTo A.depth (ser A.new) 0
  single : ∀ u₀ : List (Fin w), u₀.length ≤ A.depth → ∀ s, ∃ v,
    A.single (wordKey u₀) s = some v ∧ Full v ∧
    ∀ u, u.length ≤ A.depth → ser v u = if u = u₀ then s else 0
  modify : ∀ v, Good v → ∀ u₀ : List (Fin w), u₀.length ≤ A.depth → ∀ f, ∃ v',
    A.modify v (wordKey u₀) f = some v' ∧ Full v' ∧
    ∀ u, u.length ≤ A.depth → ser v' u = if u = u₀ then f (ser v u₀) else ser v u
  read : ∀ v, Good v → ser v [] ≠ 0 → A.read v ⟨0, 0⟩ = some (ser v [])
  resize : ∀ v, Good v → ∃ v', A.resizeToDegree v A.depth = some v' ∧ Full v' ∧
    EqUpTo A.depth (ser v') (ser v)
  addInplace : ∀ a b, Good a → Good b → Good (A.addInplace a b) ∧
    (Full a ∨ Full b → Full (A.addInplace a b)) ∧ (Tight a → Tight (A.addInplace a b)) ∧
    EqUpTo A.depth (ser (A.addInplace a b)) (ser a + ser b)
  subInplace : ∀ a b, Good a → Good b → Good (A.subInplace a b) ∧
    (Full a → Full (A.subInplace a b)) ∧ (Tight a → Tight (A.subInplace a b)) ∧
    EqUpTo A.depth (ser (A.subInplace a b)) (ser a - ser b)
  addScalDiv : ∀ a b c, Good a → Good b → c ≠ 0 → ∃ r, A.addScalDiv a b c = some r ∧ Good r ∧
    (Full a → Full r) ∧ EqUpTo A.depth (ser r) (ser a + c⁻¹ • ser b)
  subScalDiv : ∀ a b c, Good a → Good b → c ≠ 0 → ∃ r, A.subScalDiv a b c = some r ∧ Good r ∧
    (Full a → Full r) ∧ EqUpTo A.depth (ser r) (ser a - c⁻¹ • ser b)
  neg : ∀ a, Tight a → Tight (A.neg a) ∧ EqUpTo A.depth (ser (A.neg a)) (-ser a)
  smul : ∀ a c, Tight a → Tight (A.smul a c) ∧ EqUpTo A.depth (ser (A.smul a c)) (c • ser a)
  sdiv : ∀ a c, Tight a → c ≠ 0 → ∃ r, A.sdiv a c = some r ∧ Tight r ∧
    EqUpTo A.depth (ser r) (c⁻¹ • ser a)
  add : ∀ a b, Tight a → Tight b → Tight (A.add a b) ∧
    EqUpTo A.depth (ser (A.add a b)) (ser a + ser b)
  sub : ∀ a b, Tight a → Tight b → Tight (A.sub a b) ∧
    EqUpTo A.depth (ser (A.sub a b)) (ser a - ser b)
  multiplyInplace : ∀ a b, Good a → Good b → ∀ fn : K → K, fn 0 = 0 → ∀ m,
    ∃ r, A.multiplyInplace a b fn m = some r ∧ Good r ∧ (Full a → Full b → Full r) ∧
      ∀ u, u.length ≤ min m A.depth →
        ser r u = ∑ k ∈ range (u.length + 1), fn (ser a (u.take k) * ser b (u.drop k))
  mul : ∀ a b, Good a → Good b → ∃ r, A.mul a b = some r ∧ Tight r ∧
    EqUpTo A.depth (ser r) (ser a * ser b)
  commutator : ∀ a b, Good a → Good b → ∃ r, A.commutator a b = some r ∧ Tight r ∧
    EqUpTo A.depth (ser r) (ser a * ser b - ser b * ser a)
  empty : ∀ v, Good v → A.empty v = true → EqUpTo A.depth (ser v) 0
  clear : ∀ v, Good v → Good (A.clear v) ∧ EqUpTo A.depth (ser (A.clear v)) 0
  clear_full : ∀ v, Full v → A.empty v = true → ∀ a, Good a → Full (A.clear a)
  beq : ∀ a b, Good a → Good b → (A.beq a b = true ↔ EqUpTo A.depth (ser a) (ser b))

/-! ### Sparse tensors -/

theorem sum_mul_div {w : ℕ} (a b : Series (Fin w) K) (c : K) (u : List (Fin w)) :
    ∑ k ∈ range (u.length + 1), a (u.take k) * b (u.drop k) / c = (c⁻¹ • (a * b)) u := by
  rw [Series.smul_apply, mul_apply, mul_sum]
  exact sum_congr rfl fun k _ => by rw [div_eq_mul_inv, mul_comm]

theorem smul_one_apply {w : ℕ} (s : K) (u : List (Fin w)) :
    (s • (1 : Series (Fin w) K)) u = if u = [] then s else 0 := by
  rw [Series.smul_apply]
  cases u with
  | nil => rw [one_nil, mul_one, if_pos rfl]
  | cons a u => rw [one_cons, mul_zero, if_neg (by simp)]

theorem wordKey_eq_zero {w : ℕ} (u : List (Fin w)) : wordKey u = ⟨0, 0⟩ ↔ u = [] := by
  constructor
  · intro h
    exact wordKey_inj (h.trans (wordKey_nil w).symm)
  · rintro rfl; exact wordKey_nil w

theorem zeroKey_valid (w depth : ℕ) : ValidKey (wordsBelow w) depth ⟨0, 0⟩ := by
  have := wordKey_valid (w := w) (depth := depth) (u := []) (Nat.zero_le _)
  rwa [wordKey_nil] at this

theorem sparseTensor_lawful (w depth : ℕ) :
    (sparseTensor w depth : AlgOps K (Sparse K)).LawfulTensor w (Sparse.ser w)
      (Sparse.Tensor w depth) (Sparse.Tensor w depth) (Sparse.Tensor w depth) := by
  have hL := Sparse.lawfulOn (K := K) (ValidKey (wordsBelow w) depth)
  have hz := zeroKey_valid w depth
  have hv : ∀ u : List (Fin w), u.length ≤ depth → ValidKey (wordsBelow w) depth (wordKey u) :=
    fun u hu => wordKey_valid hu
  have hbin : ∀ (op : K → K → K) (h0 : ∀ l, op l 0 = l) (h1 : ∀ r, r ≠ 0 → op 0 r ≠ 0)
      (a b : Sparse K), Sparse.Tensor w depth a → Sparse.Tensor w depth b →
      Sparse.Tensor w depth (Sparse.ops.binaryInplace op a b) ∧
      ∀ u : List (Fin w), u.length ≤ depth →
        Sparse.ser w (Sparse.ops.binaryInplace op a b) u =
          op (Sparse.ser w a u) (Sparse.ser w b u) := by
    intro op h0 h1 a b ha hb
    obtain ⟨e1, e2⟩ := hL.binaryInplace a b ha hb op h0 fun _ => h1
    exact ⟨e1, fun u hu => e2 _ (hv u hu)⟩
  have hunary : ∀ (op : K → K) (h0 : op 0 = 0) (a : Sparse K), Sparse.Tensor w depth a →
      Sparse.Tensor w depth (Sparse.ops.unary op a) ∧
      ∀ u : List (Fin w), u.length ≤ depth →
        Sparse.ser w (Sparse.ops.unary op a) u = op (Sparse.ser w a u) := by
    intro op h0 a ha
    obtain ⟨e1, e2⟩ := hL.unary a ha op h0
    exact ⟨e1, fun u hu => e2 _ (hv u hu)⟩
  have hempty : ∀ v : Sparse K, List.isEmpty v = true → v = [] := fun v h => List.isEmpty_iff.1 h
  have hor : ∀ a b : Sparse K, ¬ (!(sparseTensor w depth).empty a &&
      !(sparseTensor w depth).empty b) = true → a = [] ∨ b = [] := by
    intro a b he
    by_contra hc
    push Not at hc
    obtain ⟨h1, h2⟩ := hc
    apply he
    have e1 : (sparseTensor w depth).empty a = false := by
      cases a with
      | nil => exact absurd rfl h1
      | cons x y => rfl
    have e2 : (sparseTensor w depth).empty b = false := by
      cases b with
      | nil => exact absurd rfl h2
      | cons x y => rfl
    rw [e1, e2]; rfl
  have hser0 : ∀ u : List (Fin w), Sparse.ser w ([] : Sparse K) u = 0 := fun _ => rfl
  have hfma : ∀ (fn : K → K), fn 0 = 0 → ∀ (out a b : Sparse K) (m : ℕ),
      Sparse.Tensor w depth out → Sparse.Tensor w depth a → Sparse.Tensor w depth b →
      ∃ r, (sparseTensor w depth).fma out a b fn m = some r ∧ Sparse.Tensor w depth r ∧
      ∀ u : List (Fin w), u.length ≤ depth → Sparse.ser w r u = Sparse.ser w out u +
        ∑ k ∈ range (u.length + 1), fn (Sparse.ser w a (u.take k) * Sparse.ser w b (u.drop k)) :=
    fun fn h0 out a b m hout ha hb => Sparse.sparseFma_spec h0 m hout ha hb
  refine
    { good := fun v h => h
      tight := fun v h => h
      new_tight := hL.new_good
      new_ser := fun u _ => rfl
      single := fun u₀ hu₀ s => ?_
      modify := fun v hg u₀ hu₀ f => ?_
      read := fun v _ _ => ?_
      resize := fun v hg => ⟨v, rfl, hg, EqUpTo.refl _ _⟩
      addInplace := fun a b ha hb => ?_
      subInplace := fun a b ha hb => ?_
      addScalDiv := fun a b c ha hb hc => ?_
      subScalDiv := fun a b c ha hb hc => ?_
      neg := fun a ha => ?_
      smul := fun a c ha => ?_
      sdiv := fun a c ha hc => ?_
      add := fun a b ha hb => ?_
      sub := fun a b ha hb => ?_
      multiplyInplace := fun a b ha hb fn h0 m => ?_
      mul := fun a b ha hb => ?_
      commutator := fun a b ha hb => ?_
      empty := fun v _ he => ?_
      clear := fun v _ => ⟨hL.new_good, fun u _ => rfl⟩
      clear_full := fun v _ _ a _ => hL.new_good
      beq := fun a b ha hb => ?_ }
  · obtain ⟨v, e1, e2, e3⟩ := hL.single (wordKey u₀) (hv u₀ hu₀) s
    refine ⟨v, e1, e2, fun u hu => ?_⟩
    show Sparse.read v (wordKey u) = _
    rw [e3 _ (hv u hu)]
    exact if_congr ⟨fun h => wordKey_inj h, fun h => congrArg _ h⟩ rfl rfl
  · obtain ⟨v', e1, e2, e3⟩ := hL.modify v hg (wordKey u₀) (hv u₀ hu₀) f
    refine ⟨v', e1, e2, fun u hu => ?_⟩
    show Sparse.read v' (wordKey u) = _
    rw [e3 _ (hv u hu)]
    exact if_congr ⟨fun h => wordKey_inj h, fun h => congrArg _ h⟩ rfl rfl
  · show some (Sparse.read v _) = some (Sparse.read v _)
    rfl
  · obtain ⟨e1, e2⟩ := hbin (fun l r => l + r) add_zero (fun r hr => by rwa [zero_add]) a b ha hb
    exact ⟨e1, fun _ => e1, fun _ => e1, e2⟩
  · obtain ⟨e1, e2⟩ := hbin (fun l r => l - r) sub_zero (fun r hr => by rwa [zero_sub, neg_ne_zero])
      a b ha hb
    exact ⟨e1, fun _ => e1, fun _ => e1, e2⟩
  · refine ⟨_, if_neg hc, ?_⟩
    obtain ⟨e1, e2⟩ := hbin (fun l r => l + r / c) (fun l => by rw [zero_div, add_zero])
      (fun r hr => by rw [zero_add]; exact div_ne_zero hr hc) a b ha hb
    refine ⟨e1, fun _ => e1, fun u hu => (e2 u hu).trans ?_⟩
    rw [Series.add_apply, Series.smul_apply, div_eq_inv_mul]
  · refine ⟨_, if_neg hc, ?_⟩
    obtain ⟨e1, e2⟩ := hbin (fun l r => l - r / c) (fun l => by rw [zero_div, sub_zero])
      (fun r hr => by rw [zero_sub, neg_ne_zero]; exact div_ne_zero hr hc) a b ha hb
    refine ⟨e1, fun _ => e1, fun u hu => (e2 u hu).trans ?_⟩
    rw [Series.sub_apply, Series.smul_apply, div_eq_inv_mul]
  · obtain ⟨e1, e2⟩ := hunary (fun s => -s) neg_zero a ha
    exact ⟨e1, fun u hu => e2 u hu⟩
  · obtain ⟨e1, e2⟩ := hunary (fun s => s * c) (zero_mul c) a ha
    refine ⟨e1, fun u hu => (e2 u hu).trans ?_⟩
    rw [Series.smul_apply, mul_comm]
  · refine ⟨_, if_neg hc, ?_⟩
    obtain ⟨e1, e2⟩ := hunary (fun s => s / c) (zero_div c) a ha
    refine ⟨e1, fun u hu => (e2 u hu).trans ?_⟩
    rw [Series.smul_apply, div_eq_inv_mul]
  · exact hbin (fun l r => l + r) add_zero (fun r hr => by rwa [zero_add]) a b ha hb
  · exact hbin (fun l r => l - r) sub_zero (fun r hr => by rwa [zero_sub, neg_ne_zero]) a b ha hb
  · unfold AlgOps.multiplyInplace
    by_cases he : (!(sparseTensor w depth).empty a && !(sparseTensor w depth).empty b) = true
    · rw [if_pos he]
      obtain ⟨r, e1, e2, e3⟩ := hfma fn h0 [] a b m hL.new_good ha hb
      refine ⟨r, e1, e2, fun _ _ => e2, fun u hu => ?_⟩
      rw [e3 u (by have := hu; simp only [sparseTensor] at this; omega), hser0, zero_add]
    · rw [if_neg he]
      refine ⟨_, rfl, hL.new_good, fun _ _ => hL.new_good, fun u _ => ?_⟩
      have := hor a b he
      symm
      refine (sum_eq_zero fun k _ => ?_).trans (hser0 u).symm
      rcases this with rfl | rfl
      · rw [hser0, zero_mul, h0]
      · rw [hser0, mul_zero, h0]
  · unfold AlgOps.mul
    by_cases he : (!(sparseTensor w depth).empty a && !(sparseTensor w depth).empty b) = true
    · rw [if_pos he]
      obtain ⟨r, e1, e2, e3⟩ := hfma (fun s => s) rfl [] a b depth hL.new_good ha hb
      refine ⟨r, e1, e2, fun u hu => ?_⟩
      rw [e3 u hu, hser0, zero_add]; rfl
    · rw [if_neg he]
      refine ⟨_, rfl, hL.new_good, fun u _ => ?_⟩
      have := hor a b he
      symm
      refine (sum_eq_zero fun k _ => ?_).trans (hser0 u).symm
      rcases this with rfl | rfl
      · rw [hser0, zero_mul]
      · rw [hser0, mul_zero]
  · unfold AlgOps.commutator
    by_cases he : (!(sparseTensor w depth).empty a && !(sparseTensor w depth).empty b) = true
    · rw [if_pos he]
      obtain ⟨r, e1, e2, e3⟩ := hfma (fun s => s) rfl [] a b depth hL.new_good ha hb
      obtain ⟨q, f1, f2, f3⟩ := hfma (fun s => -s) neg_zero r b a depth e2 hb ha
      refine ⟨q, ?_, f2, fun u hu => ?_⟩
      · have e1' : (sparseTensor w depth).fma (sparseTensor w depth).new a b (fun s => s)
            (sparseTensor w depth : AlgOps K (Sparse K)).depth = some r := e1
        rw [e1']; exact f1
      · rw [f3 u hu, e3 u hu, hser0, zero_add, sum_neg_distrib, Series.sub_apply, sub_eq_add_neg]; rfl
    · rw [if_neg he]
      refine ⟨_, rfl, hL.new_good, fun u _ => ?_⟩
      have := hor a b he
      have h0 : ∀ x : Series (Fin w) K, ((Sparse.ser w ([] : Sparse K)) * x) = 0 ∧
          x * (Sparse.ser w ([] : Sparse K)) = 0 := by
        intro x
        have : Sparse.ser w ([] : Sparse K) = 0 := rfl
        rw [this]; exact ⟨zero_mul' x, mul_zero' x⟩
      rcases this with rfl | rfl
      · rw [(h0 _).1, (h0 _).2, sub_zero]; rfl
      · rw [(h0 _).1, (h0 _).2, sub_zero]; rfl
  · have := hempty v he
    subst this
    exact fun u _ => rfl
  · refine (hL.beq a b ha hb).trans ⟨fun h u hu => h _ (hv u hu), fun h k hk => ?_⟩
    obtain ⟨u, hu, rfl⟩ := exists_wordKey hk
    exact h u hu

/-! ### Dense tensors -/

namespace Dense

/-- `Whole`, and an empty vector records degree 0 -/
def Tight (w depth : ℕ) (v : Dense K) : Prop :=
  v.Whole w depth ∧ (v.storage = [] → v.degree = 0)

theorem Tight.of_length {w depth : ℕ} {v : Dense K} (h1 : v.degree ≤ depth)
    (h2 : v.storage.length = wordsBelow w (v.degree + 1)) : v.Tight w depth := by
  refine ⟨Or.inr ⟨h1, h2⟩, fun h => ?_⟩
  rw [h, wordsBelow_succ', List.length_nil] at h2
  omega

theorem Tight.degree_le {w depth : ℕ} {v : Dense K} (h : v.Tight w depth) : v.degree ≤ depth := by
  rcases h.1 with h1 | h1
  · rw [h.2 h1]; exact Nat.zero_le _
  · exact h1.1

theorem whole_unary {w depth : ℕ} {v : Dense K} (op : K → K) (h : v.Tight w depth) :
    (v.unary op).Tight w depth := by
  refine ⟨?_, ?_⟩
  · rcases h.1 with h1 | ⟨h1, h2⟩
    · left; simp [unary, h1]
    · right; exact ⟨h1, by simpa [unary] using h2⟩
  · intro h1
    exact h.2 (by simpa [unary] using h1)

theorem whole_binaryInplace {w depth : ℕ} {a b : Dense K} (op : K → K → K)
    (ha : a.Whole w depth) (hb : b.Whole w depth) : (binaryInplace op a b).Whole w depth := by
  unfold Whole
  rw [degree_binaryInplace, length_binaryInplace]
  by_cases h : b.storage.length > a.storage.length
  · rw [if_pos h]
    right
    have hb' := hb.resolve_left (by rintro h1; rw [h1] at h; simp at h)
    exact ⟨hb'.1, by rw [← hb'.2]; omega⟩
  · rw [if_neg h]
    rcases ha with h1 | h1
    · left
      apply List.eq_nil_of_length_eq_zero
      rw [length_binaryInplace, h1]
      rw [h1] at h
      simp at h ⊢
      simp [h]
    · right
      exact ⟨h1.1, by rw [← h1.2]; omega⟩

theorem tight_binary {w depth : ℕ} {a b : Dense K} (op : K → K → K)
    (ha : a.Tight w depth) (hb : b.Tight w depth) : (binary op a b).Tight w depth := by
  have hdeg : (binary op a b).degree = max a.degree b.degree := rfl
  have hlen := length_binary op a b
  by_cases h : a.storage = [] ∧ b.storage = []
  · refine ⟨Or.inl (List.eq_nil_of_length_eq_zero ?_), fun _ => ?_⟩
    · rw [hlen, h.1, h.2]; rfl
    · rw [hdeg, ha.2 h.1, hb.2 h.2]; rfl
  · refine Tight.of_length ?_ ?_
    · rw [hdeg]; exact max_le ha.degree_le hb.degree_le
    · rw [hlen, hdeg]
      rcases ha.1 with ha1 | ⟨ha1, ha2⟩
      · have hb' := hb.1.resolve_left fun h' => h ⟨ha1, h'⟩
        rw [ha.2 ha1, ha1, hb'.2, Nat.zero_max]; simp
      · rcases hb.1 with hb1 | ⟨hb1, hb2⟩
        · rw [hb.2 hb1, hb1, ha2, Nat.max_zero]; simp
        · rw [ha2, hb2]
          rcases Nat.le_total a.degree b.degree with h' | h'
          · rw [max_eq_right h', max_eq_right (wordsBelow_mono (by omega))]
          · rw [max_eq_left h', max_eq_left (wordsBelow_mono (by omega))]

theorem wordIndex_eq_zero {w : ℕ} (u : List (Fin w)) : wordIndex u = 0 ↔ u = [] := by
  constructor
  · intro h
    by_contra hu
    have : 1 ≤ u.length := List.length_pos_iff.2 hu
    have h1 := wordsBelow_mono (w := w) this
    rw [wordsBelow_one] at h1
    unfold wordIndex at h
    omega
  · rintro rfl; exact wordIndex_nil w

/-- the storage is not empty and consists of exactly the degrees up to `degree` -/
def Full (w depth : ℕ) (v : Dense K) : Prop :=
  v.degree ≤ depth ∧ v.storage.length = wordsBelow w (v.degree + 1)

theorem Full.tight {w depth : ℕ} {v : Dense K} (h : v.Full w depth) : v.Tight w depth :=
  Tight.of_length h.1 h.2

theorem Full.ne_nil {w depth : ℕ} {v : Dense K} (h : v.Full w depth) : v.storage ≠ [] := by
  intro h1
  have h2 := h.2
  rw [h1, wordsBelow_succ', List.length_nil] at h2
  omega

theorem full_binaryInplace' {w depth : ℕ} {a b : Dense K} (op : K → K → K)
    (ha : a.Whole w depth) (hb : b.Whole w depth) (h : a.Full w depth ∨ b.Full w depth) :
    (binaryInplace op a b).Full w depth := by
  refine (whole_binaryInplace op ha hb).resolve_left fun h' => ?_
  have := length_binaryInplace op a b
  rw [h', List.length_nil] at this
  rcases h with h | h
  · have h2 := List.length_pos_iff.2 h.ne_nil
    omega
  · have h2 := List.length_pos_iff.2 h.ne_nil
    omega

theorem full_binaryInplace {w depth : ℕ} {a b : Dense K} (op : K → K → K)
    (ha : a.Full w depth) (hb : b.Whole w depth) : (binaryInplace op a b).Full w depth :=
  full_binaryInplace' op (Or.inr ha) hb (Or.inl ha)

theorem tight_binaryInplace {w depth : ℕ} {a b : Dense K} (op : K → K → K)
    (ha : a.Tight w depth) (hb : b.Whole w depth) : (binaryInplace op a b).Tight w depth := by
  refine ⟨whole_binaryInplace op ha.1 hb, fun h => ?_⟩
  have h1 := length_binaryInplace op a b
  rw [h, List.length_nil] at h1
  have ha0 : a.storage = [] := List.eq_nil_of_length_eq_zero (by omega)
  rw [degree_binaryInplace, if_neg (by omega), ha.2 ha0]

/-- writing a coefficient -/
theorem modify_word {w depth : ℕ} {v : Dense K} (h : v.Whole w depth) {u₀ : List (Fin w)}
    (hu₀ : u₀.length ≤ depth) (f : K → K) :
    ∃ v', v.modify (tensorBasis w depth) (wordKey u₀) f = some v' ∧ v'.Full w depth ∧
      ∀ u : List (Fin w), v'.ser w u = if u = u₀ then f (v.ser w u₀) else v.ser w u := by
  obtain ⟨v', e1, e2, e3⟩ := modify_spec (tensorBasis_lawful w depth) v
    (wordKey_valid (depth := depth) hu₀) f
  rw [keyIndex_wordKey] at e2 e3
  refine ⟨v', e1, ?_, fun u => ?_⟩
  · by_cases h0 : wordIndex u₀ < v.storage.length
    · rw [if_pos h0] at e2
      have h' := h.resolve_left (by rintro h1; rw [h1] at h0; simp at h0)
      exact ⟨by rw [e2.2]; exact h'.1, by rw [e2.1, e2.2]; exact h'.2⟩
    · rw [if_neg h0] at e2
      exact ⟨e2.1, e2.2.1⟩
  · unfold ser
    rw [e3]
    by_cases hu : u = u₀
    · subst hu; rw [if_pos rfl, if_pos rfl]
    · rw [if_neg hu, if_neg (fun h => hu (wordIndex_inj h))]

theorem ser_nil {w : ℕ} {v : Dense K} (h : v.storage = []) (u : List (Fin w)) :
    v.ser w u = 0 := entry_of_le (by rw [h]; exact Nat.zero_le _)

end Dense

theorem denseTensor_lawful (w : ℕ) {depth : ℕ} (hdep : 1 ≤ depth) :
    (denseTensor w depth : AlgOps K (Dense K)).LawfulTensor w (Dense.ser w)
      (Dense.Whole w depth) (Dense.Tight w depth) (Dense.Full w depth) := by
  have hnew : Dense.Tight w depth (Dense.new : Dense K) := ⟨Or.inl rfl, fun _ => rfl⟩
  have hbin : ∀ (op : K → K → K) (h0 : op 0 0 = 0)
      (a b : Dense K), Dense.Whole w depth a → Dense.Whole w depth b →
      Dense.Whole w depth (Dense.binaryInplace op a b) ∧
      ∀ u : List (Fin w), Dense.ser w (Dense.binaryInplace op a b) u =
          op (Dense.ser w a u) (Dense.ser w b u) :=
    fun op h0 a b ha hb => ⟨Dense.whole_binaryInplace op ha hb,
      fun u => Dense.entry_binaryInplace op h0 a b _⟩
  have hbin' : ∀ (op : K → K → K) (h0 : op 0 0 = 0)
      (a b : Dense K), Dense.Tight w depth a → Dense.Tight w depth b →
      Dense.Tight w depth (Dense.binary op a b) ∧
      ∀ u : List (Fin w), Dense.ser w (Dense.binary op a b) u =
          op (Dense.ser w a u) (Dense.ser w b u) :=
    fun op h0 a b ha hb => ⟨Dense.tight_binary op ha hb,
      fun u => Dense.entry_binary op h0 a b _⟩
  have hunary : ∀ (op : K → K) (h0 : op 0 = 0) (a : Dense K), Dense.Tight w depth a →
      Dense.Tight w depth (Dense.unary op a) ∧
      ∀ u : List (Fin w), Dense.ser w (Dense.unary op a) u = op (Dense.ser w a u) :=
    fun op h0 a ha => ⟨Dense.whole_unary op ha, fun u => Dense.entry_unary op h0 a _⟩
  have hne : ∀ a b : Dense K, (!(denseTensor w depth).empty a &&
      !(denseTensor w depth).empty b) = true → a.storage ≠ [] ∧ b.storage ≠ [] := by
    intro a b he
    rw [Bool.and_eq_true] at he
    constructor
    · intro h
      have : (denseTensor w depth).empty a = true := by
        show a.storage.isEmpty = true; rw [h]; rfl
      rw [this] at he; simp at he
    · intro h
      have : (denseTensor w depth).empty b = true := by
        show b.storage.isEmpty = true; rw [h]; rfl
      rw [this] at he; simp at he
  have hor : ∀ a b : Dense K, ¬ (!(denseTensor w depth).empty a &&
      !(denseTensor w depth).empty b) = true → a.storage = [] ∨ b.storage = [] := by
    intro a b he
    by_contra hc
    push Not at hc
    obtain ⟨h1, h2⟩ := hc
    apply he
    have e1 : (denseTensor w depth).empty a = false := by
      show a.storage.isEmpty = false
      simpa using h1
    have e2 : (denseTensor w depth).empty b = false := by
      show b.storage.isEmpty = false
      simpa using h2
    rw [e1, e2]; rfl
  have hprod0 : ∀ (fn : K → K), fn 0 = 0 → ∀ a b : Dense K, a.storage = [] ∨ b.storage = [] →
      ∀ u : List (Fin w), ∑ k ∈ range (u.length + 1),
        fn (Dense.ser w a (u.take k) * Dense.ser w b (u.drop k)) = 0 := by
    intro fn h0 a b hab u
    refine sum_eq_zero fun k _ => ?_
    rcases hab with h | h
    · rw [Dense.ser_nil h, zero_mul, h0]
    · rw [Dense.ser_nil h, mul_zero, h0]
  refine
    { good := fun v h => h.1
      tight := fun v h => h.tight
      new_tight := hnew
      new_ser := fun u _ => Dense.ser_nil rfl u
      single := fun u₀ hu₀ s => ?_
      modify := fun v hg u₀ hu₀ f => ?_
      read := fun v hg hne => ?_
      resize := fun v hg => ?_
      addInplace := fun a b ha hb => ?_
      subInplace := fun a b ha hb => ?_
      addScalDiv := fun a b c ha hb hc => ?_
      subScalDiv := fun a b c ha hb hc => ?_
      neg := fun a ha => ?_
      smul := fun a c ha => ?_
      sdiv := fun a c ha hc => ?_
      add := fun a b ha hb => ?_
      sub := fun a b ha hb => ?_
      multiplyInplace := fun a b ha hb fn h0 m => ?_
      mul := fun a b ha hb => ?_
      commutator := fun a b ha hb => ?_
      empty := fun v _ he u _ => ?_
      clear := fun v _ => ⟨Or.inl rfl, fun u _ => Dense.ser_nil rfl u⟩
      clear_full := fun v hv he a _ => absurd (List.isEmpty_iff.1 he) hv.ne_nil
      beq := fun a b ha hb => ?_ }
  · obtain ⟨v, e1, e2, e3⟩ := Dense.modify_word (w := w) (depth := depth) hnew.1 hu₀ (fun _ => s)
    refine ⟨v, (Dense.single_eq_modify _ _ s).trans e1, e2, fun u _ => ?_⟩
    rw [e3]
    refine if_congr Iff.rfl rfl (Dense.ser_nil rfl u)
  · obtain ⟨v', e1, e2, e3⟩ := Dense.modify_word hg hu₀ f
    exact ⟨v', e1, e2, fun u _ => e3 u⟩
  · have hlen : 0 < v.storage.length := by
      by_contra h
      exact hne (Dense.entry_of_le (by rw [wordIndex_nil]; omega))
    have hk : (tensorBasis w depth).keyToIndex ⟨0, 0⟩ = some 0 := by
      have h1 := (tensorBasis_lawful w depth).keyToIndex (zeroKey_valid w depth)
      have h2 := keyIndex_wordKey (w := w) []
      rw [wordKey_nil, wordIndex_nil] at h2
      rw [h1, h2]
    show Dense.read (tensorBasis w depth) v ⟨0, 0⟩ = _
    unfold Dense.read
    rw [hk]
    show v.storage[0]? = _
    rw [Dense.get_eq_entry hlen]
    unfold Dense.ser
    rw [wordIndex_nil]
  · obtain ⟨e, e1, e2, e3, e4, e5⟩ := Dense.resize_degree w depth v (le_refl depth)
    have hs : (tensorBasis w depth).sizes[depth]? = some (wordsBelow w (depth + 1)) :=
      tensorSizes_get (by omega)
    refine ⟨{ v.resize (tensorBasis w depth) (wordsBelow w (depth + 1) - 1) with
      degree := depth }, ?_, ⟨le_refl depth, e4⟩, fun u hu => ?_⟩
    · show Dense.resizeToDegree (tensorBasis w depth) v depth = _
      unfold Dense.resizeToDegree
      rw [hs]; rfl
    · show Dense.entry _ (wordIndex u) = _
      refine (e5 (wordIndex u)).trans ?_
      rw [if_pos]
      · rfl
      · exact wordIndex_lt hu
  · obtain ⟨e1, e2⟩ := hbin (fun l r => l + r) (add_zero 0) a b ha hb
    exact ⟨e1, fun h => Dense.full_binaryInplace' _ ha hb h,
      fun h => Dense.tight_binaryInplace _ h hb, fun u _ => e2 u⟩
  · obtain ⟨e1, e2⟩ := hbin (fun l r => l - r) (sub_zero 0) a b ha hb
    exact ⟨e1, fun h => Dense.full_binaryInplace _ h hb,
      fun h => Dense.tight_binaryInplace _ h hb, fun u _ => e2 u⟩
  · refine ⟨_, if_neg hc, ?_⟩
    obtain ⟨e1, e2⟩ := hbin (fun l r => l + r / c) (by rw [zero_div, add_zero]) a b ha hb
    refine ⟨e1, fun h => Dense.full_binaryInplace _ h hb, fun u hu => (e2 u).trans ?_⟩
    rw [Series.add_apply, Series.smul_apply, div_eq_inv_mul]
  · refine ⟨_, if_neg hc, ?_⟩
    obtain ⟨e1, e2⟩ := hbin (fun l r => l - r / c) (by rw [zero_div, sub_zero]) a b ha hb
    refine ⟨e1, fun h => Dense.full_binaryInplace _ h hb, fun u hu => (e2 u).trans ?_⟩
    rw [Series.sub_apply, Series.smul_apply, div_eq_inv_mul]
  · obtain ⟨e1, e2⟩ := hunary (fun s => -s) neg_zero a ha
    exact ⟨e1, fun u hu => e2 u⟩
  · obtain ⟨e1, e2⟩ := hunary (fun s => s * c) (zero_mul c) a ha
    refine ⟨e1, fun u hu => (e2 u).trans ?_⟩
    rw [Series.smul_apply, mul_comm]
  · refine ⟨_, if_neg hc, ?_⟩
    obtain ⟨e1, e2⟩ := hunary (fun s => s / c) (zero_div c) a ha
    refine ⟨e1, fun u hu => (e2 u).trans ?_⟩
    rw [Series.smul_apply, div_eq_inv_mul]
  · obtain ⟨e1, e2⟩ := hbin' (fun l r => l + r) (add_zero 0) a b ha hb
    exact ⟨e1, fun u _ => e2 u⟩
  · obtain ⟨e1, e2⟩ := hbin' (fun l r => l - r) (sub_zero 0) a b ha hb
    exact ⟨e1, fun u _ => e2 u⟩
  · unfold AlgOps.multiplyInplace
    by_cases he : (!(denseTensor w depth).empty a && !(denseTensor w depth).empty b) = true
    · rw [if_pos he]
      obtain ⟨r, e1, e2, e3, -, e4⟩ := Dense.denseFma_spec hdep h0 (m := m)
        (out := ⟨[], min (a.degree + b.degree) m⟩) ha hb (hne a b he).1 (hne a b he).2
        (Nat.zero_le _) (Or.inl rfl)
      refine ⟨r, e1, Or.inr ⟨e2, e3⟩, fun _ _ => ⟨e2, e3⟩, fun u hu => ?_⟩
      have hu' : u.length ≤ min m depth := hu
      rw [e4 u, if_pos hu', Dense.ser_nil rfl, zero_add]
    · rw [if_neg he]
      refine ⟨_, rfl, Or.inl rfl, fun h1 h2 => ?_, fun u _ => ?_⟩
      · exact absurd (hor a b he) (by rintro (h | h); exacts [h1.ne_nil h, h2.ne_nil h])
      rw [hprod0 fn h0 a b (hor a b he)]
      exact Dense.ser_nil rfl u
  · unfold AlgOps.mul
    by_cases he : (!(denseTensor w depth).empty a && !(denseTensor w depth).empty b) = true
    · rw [if_pos he]
      obtain ⟨r, e1, e2, e3, -, e4⟩ := Dense.denseFma_spec hdep (fn := fun s : K => s) rfl
        (m := depth) (out := Dense.new) ha hb (hne a b he).1 (hne a b he).2
        (Nat.zero_le _) (Or.inl rfl)
      refine ⟨r, e1, Dense.Tight.of_length e2 e3, fun u hu => ?_⟩
      have hu' : u.length ≤ min depth depth := by rw [Nat.min_self]; exact hu
      rw [e4 u, if_pos hu', Dense.ser_nil rfl, zero_add]; rfl
    · rw [if_neg he]
      refine ⟨_, rfl, hnew, fun u _ => ?_⟩
      exact (Dense.ser_nil rfl u).trans
        (hprod0 (fun s => s) rfl a b (hor a b he) u).symm
  · unfold AlgOps.commutator
    by_cases he : (!(denseTensor w depth).empty a && !(denseTensor w depth).empty b) = true
    · rw [if_pos he]
      obtain ⟨r, e1, e2, e3, e5, e4⟩ := Dense.denseFma_spec hdep (fn := fun s : K => s) rfl
        (m := depth) (out := Dense.new) ha hb (hne a b he).1 (hne a b he).2
        (Nat.zero_le _) (Or.inl rfl)
      obtain ⟨q, f1, f2, f3, -, f4⟩ := Dense.denseFma_spec hdep (fn := fun s : K => -s) neg_zero
        (m := depth) (out := r) hb ha (hne a b he).2 (hne a b he).1
        (by rw [e5, Nat.add_comm a.degree]) (Or.inr ⟨e2, e3⟩)
      refine ⟨q, ?_, Dense.Tight.of_length f2 f3, fun u hu => ?_⟩
      · have e1' : (denseTensor w depth).fma (denseTensor w depth).new a b (fun s => s)
            (denseTensor w depth : AlgOps K (Dense K)).depth = some r := e1
        rw [e1']; exact f1
      · have hu' : u.length ≤ min depth depth := by rw [Nat.min_self]; exact hu
        rw [f4 u, if_pos hu', e4 u, if_pos hu', Dense.ser_nil rfl, zero_add, sum_neg_distrib,
          Series.sub_apply, sub_eq_add_neg]; rfl
    · rw [if_neg he]
      refine ⟨_, rfl, hnew, fun u _ => ?_⟩
      have h1 := hprod0 (fun s => s) rfl a b (hor a b he) u
      have h2 := hprod0 (fun s => s) rfl b a (hor a b he).symm u
      have h3 : (Dense.ser w a * Dense.ser w b) u = 0 := h1
      have h4 : (Dense.ser w b * Dense.ser w a) u = 0 := h2
      rw [Series.sub_apply, h3, h4, sub_zero]
      exact Dense.ser_nil rfl u
  · have : v.storage.isEmpty = true := he
    exact Dense.ser_nil (List.isEmpty_iff.1 this) u
  · refine (Dense.beq_iff a b).trans ⟨fun h u _ => h _, fun h i => ?_⟩
    by_cases hi : i < wordsBelow w (depth + 1)
    · obtain ⟨u, hu, rfl⟩ := exists_wordIndex hi
      exact h u hu
    · rw [Dense.entry_of_le (ha.length_le.trans (by omega)),
        Dense.entry_of_le (hb.length_le.trans (by omega))]

end RoughPy.Lite
