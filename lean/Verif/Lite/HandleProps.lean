import Verif.Lite.HandleRead
import Verif.Lite.HandleRefuse
import Verif.Lite.ContextProps

/-!
# Properties of elements as the user holds them

Vocabulary: `Verif/Lite/HandleSpec.lean`.  A program is a list of statements on variables, each
unset or owning a tensor (or a Lie element) in a context; `meaning` runs the same program in the
algebra, where a variable is unset or has a storage type and a value.
-/

namespace RoughPy.Handles

open RoughPy.Lite RoughPy.Tensor RoughPy.Tensor.Series

variable {K : Type} [Field K] [DecidableEq K] {w depth : ℕ} {c : LiteCtx}

/-! ## C111: programs compute in the algebra -/

/-- Programs on free tensors of one context compute in the truncated tensor algebra, whatever the
storage types.  Missing (`Safe`): sums with an unset left operand, products with one unset operand,
`x -= x` on sparse tensors, in-place products of dense tensors by zero. -/
theorem C111_tensor_run_partial [CharZero K] (hw : 1 ≤ w) (hd : 1 ≤ depth)
    (h : LiteCtx.new w depth = some c) {W : Contexts K (Stored K)} {i : ℕ}
    (hW : W.vectors i = tensorVectors c) (p : List (Stmt K)) {σ : Store (Stored K)}
    {τ : ℕ → Var w K} (hσ : ∀ x, Holds Stored.vecType (IsNormalTensor w depth) i (σ x) (τ x))
    (hs : Safe (· * ·) depth TensorClears p τ) :
    ∃ σ', run W p σ = .ok σ' ∧
      ∀ x, Holds Stored.vecType (IsNormalTensor w depth) i (σ' x) (meaning (· * ·) p τ x) := by
  obtain ⟨m, rfl, hc, -⟩ := ctx_facts hd h
  have hB := tensorVectors_lawful (K := K) hw hc
  rw [← hW] at hB
  have hst : (W.vectors i).storage = Stored.vecType := by rw [hW]; rfl
  have := run_holds hB zero_mul mul_zero p σ τ
  rw [hst] at this
  exact this hσ hs

deriving instance DecidableEq for Lite.Dense, Lite.Stored

/-- the tensor `2 e₁`, sparse, and the tensor `1 + 2 e₁ + 3 e₂`, dense, at width and depth 2 -/
def exampleStore : Store (Stored ℚ) := fun x =>
  if x = 0 then some ⟨0, .sparse [(⟨1, 0⟩, 2)]⟩
  else if x = 1 then some ⟨0, .dense ⟨[1, 2, 3], 1⟩⟩ else none

/-- what they stand for -/
def exampleVars : ℕ → Var 2 ℚ := fun x =>
  if x = 0 then some (.sparse, fun u => if u = [0] then 2 else 0)
  else if x = 1 then some (.dense, fun u => [1, 2, 3][wordIndex u]?.getD 0) else none

theorem exampleStore_holds (x : ℕ) :
    Holds Stored.vecType (IsNormalTensor 2 2) 0 (exampleStore x) (exampleVars x) := by
  unfold exampleStore exampleVars
  by_cases h0 : x = 0
  · rw [if_pos h0, if_pos h0]
    refine ⟨rfl, rfl, ⟨by simp, ?_, ?_⟩, by intro v hv; cases hv⟩
    · intro p hp
      rw [List.mem_singleton] at hp
      subst hp
      exact ⟨[0], by decide, by simp [wordKey, wordOffset], by simp⟩
    · intro u _ hne
      by_cases hu : u = [0]
      · subst hu
        simp [wordKey, wordOffset]
      · exact absurd (if_neg hu) hne
  · rw [if_neg h0, if_neg h0]
    by_cases h1 : x = 1
    · rw [if_pos h1, if_pos h1]
      refine ⟨rfl, rfl, ⟨⟨fun u _ => ⟨fun y hy => ?_, fun hy => ?_⟩, by decide⟩, Or.inr ⟨by decide, by decide⟩⟩, ?_⟩
      · exact (congrArg (fun o : Option ℚ => o.getD 0) hy).symm
      · exact congrArg (fun o : Option ℚ => o.getD 0) hy
      · intro v hv hs
        cases hv
        cases hs
    · rw [if_neg h1, if_neg h1]
      trivial

/-- The hypotheses: a program on a sparse, a dense and an unset variable.  It ends with
`(2 e₁ + (1 + 2 e₁ + 3 e₂)) 2 e₁ - 2 e₁ (1 + 2 e₁ + 3 e₂)` in the third variable. -/
example : Safe (· * ·) 2 TensorClears [.add 2 0 1, .mul 3 2 0, .subMul 3 0 1, .sdiv 2 3 2]
      exampleVars ∧
    ((LiteCtx.new 2 2).map fun c => match run ⟨fun _ => c.width, fun _ => tensorVectors c⟩
        [.add 2 0 1, .mul 3 2 0, .subMul 3 0 1, .sdiv 2 3 2] exampleStore with
      | .ok σ => some (σ 3, σ 2)
      | _ => none) =
      some (some (some ⟨0, .sparse [(⟨2, 0⟩, 4), (⟨2, 1⟩, -6), (⟨2, 2⟩, 6)]⟩,
        some ⟨0, .sparse [(⟨2, 0⟩, 2), (⟨2, 1⟩, -3), (⟨2, 2⟩, 3)]⟩)) := by
  refine ⟨?_, by decide +kernel⟩
  simp [Safe, Stmt.Safe, Stmt.target, Stmt.meaning, Var.combine, Function.update, exampleVars]

/-- Programs on Lie elements of one context compute in the truncated free Lie algebra, where the
product is the bracket, whatever the storage types and whatever was computed before.  Missing
(`Safe`): as for tensors, but in-place products by zero are covered. -/
theorem C111_lie_run_partial [CharZero K] (hw : 1 ≤ w) (hd : 1 ≤ depth)
    (h : LiteCtx.new w depth = some c) {e : Key → Series (Fin w) K} (he : HallElems c.hs e) :
    ∃ n₀, ∀ fuel ≥ n₀, ∀ cache st, LieHistory w cache → MapsHistory w depth c.hs st →
    ∀ {W : Contexts K (Stored K)} {i : ℕ}, W.vectors i = lieVectors c fuel cache st →
    ∀ (p : List (Stmt K)) {σ : Store (Stored K)} {τ : ℕ → Var w K},
    (∀ x, Holds Stored.vecType (IsLieElem c e) i (σ x) (τ x)) →
    Safe (fun f g => ⁅f, g⁆) depth LieClears p τ →
    ∃ σ', run W p σ = .ok σ' ∧
      ∀ x, Holds Stored.vecType (IsLieElem c e) i (σ' x) (meaning (fun f g => ⁅f, g⁆) p τ x) := by
  obtain ⟨m, rfl, hc, -⟩ := ctx_facts hd h
  obtain ⟨n₀, hn⟩ := lieVectors_lawful (K := K) hw hc he
  refine ⟨n₀, fun fuel hf cache st hca hst W i hW p σ τ hσ hs => ?_⟩
  have hB := hn fuel hf cache st hca hst
  rw [← hW] at hB
  have hst : (W.vectors i).storage = Stored.vecType := by rw [hW]; rfl
  have := run_holds hB (fun f => by rw [Ring.lie_def, zero_mul, mul_zero, sub_zero])
    (fun f => by rw [Ring.lie_def, zero_mul, mul_zero, sub_zero]) p σ τ
  rw [hst] at this
  exact this hσ hs

/-- On Lie elements: `e₁` sparse, `e₂` dense; `x₂ = [x₀, x₁]`, `x₂ += x₁`, `x₁ *= x₂`. -/
example : Safe (w := 2) (fun f g => ⁅f, g⁆) 2 LieClears [.mul 2 0 1, .addIn 2 1, .mulIn 1 0]
      (fun x => if x = 0 then some (.sparse, (0 : Series (Fin 2) ℚ)) else
        if x = 1 then some (.dense, 0) else none) ∧
    ((LiteCtx.new 2 2).map fun c => match run
        ⟨fun _ => c.width, fun _ => lieVectors c 9 LieCache.fresh
          ⟨fun _ => none, fun _ => none, LieCache.fresh⟩⟩
        [.mul 2 0 1, .addIn 2 1, .mulIn 1 0]
        (fun x => if x = 0 then some ⟨0, .sparse [(⟨1, 0⟩, (1 : ℚ))]⟩ else
          if x = 1 then some ⟨0, .dense ⟨[0, 1], 1⟩⟩ else none) with
      | .ok σ => some (σ 1, σ 2)
      | _ => none) =
      some (some (some ⟨0, .dense ⟨[0, 0, -1], 2⟩⟩,
        some ⟨0, .sparse [(⟨1, 1⟩, 1), (⟨2, 0⟩, 1)]⟩)) := by
  refine ⟨?_, by decide +kernel⟩
  simp [Safe, Stmt.Safe, Stmt.target, Stmt.meaning, Var.combine, Function.update, LieClears]

/-- Refuted: that an unset element counts as zero.  `x + y`, `x - y`, `x * y` and their in-place
forms dereference a null pointer if only `x` is unset, in all contexts. -/
theorem C111_unset_left_refuted {V : Type} (W : Contexts K V) (b : Elem V) :
    Handle.add W none (some b) = .undefined ∧ Handle.sub W none (some b) = .undefined ∧
    Handle.mul W none (some b) = .undefined ∧ Handle.addIn W none (some b) = .undefined ∧
    Handle.subIn W none (some b) = .undefined ∧ Handle.mulIn W none (some b) = .undefined :=
  ⟨rfl, rfl, rfl, rfl, rfl, rfl⟩

/-- Refuted: that an unset element counts as zero.  `x * y` and `x *= y` leave `x` as it is if `y`
is unset. -/
theorem C111_unset_right_refuted {V : Type} (W : Contexts K V) (a : Elem V) :
    Handle.mul W (some a) none = .ok (some a) ∧ Handle.mulIn W (some a) none = .ok (some a) :=
  ⟨rfl, rfl⟩

/-- the outcome is undefined -/
def isUndefined {α : Type} : Outcome α → Bool
  | .undefined => true
  | _ => false

theorem eq_undefined {α : Type} {o : Outcome α} (h : isUndefined o = true) : o = .undefined := by
  cases o with
  | undefined => rfl
  | ok _ => cases h
  | refused => cases h

/-- Refuted: `x -= x` is undefined for every sparse tensor other than zero: the entry just visited
is removed while iterating. -/
theorem C111_sub_self_refuted (c : LiteCtx) {W : Contexts K (Stored K)} {i : ℕ}
    (hW : W.vectors i = tensorVectors c) {v : Sparse K} (hv : v ≠ []) {x : ℕ}
    {σ : Store (Stored K)} (hx : σ x = some ⟨i, .sparse v⟩) :
    run W [.subIn x x] σ = .undefined := by
  obtain ⟨t, v', rfl⟩ := List.exists_cons_of_ne_nil hv
  have hself : (tensorVectors c : Backend K (Stored K)).subSelf (.sparse (t :: v')) = none := by
    have : (Sparse.ops : VecOps K (Sparse K)).binarySelf (fun l r => l - r) (t :: v') = none := by
      simp [Sparse.ops, Sparse.binarySelf]
    show Option.map _ ((Sparse.ops : VecOps K (Sparse K)).binarySelf (fun l r => l - r) (t :: v')) = _
    rw [this]
    rfl
  have h1 : (Stmt.subIn x x).result W σ = .undefined := by
    unfold Stmt.result
    dsimp only
    rw [if_pos rfl, hx]
    unfold Handle.subSelf Elem.subSelf
    dsimp only
    rw [hW, hself]
    rfl
  show ((Stmt.subIn x x).result W σ >>= fun r => _) >>= _ = _
  rw [h1]
  rfl

/-- all contexts are `c` -/
def only (c : LiteCtx) : Contexts ℚ (Stored ℚ) := ⟨fun _ => c.width, fun _ => tensorVectors c⟩

/-- Refuted: `x.mul_smul(y, 0)` on dense tensors keeps the degree of `x` without storage; after
`z = x + y` the product `z * z` reads out of bounds.  Width and depth 2, `x` of degree 2 and `y` a
scalar. -/
theorem C111_dense_zero_refuted :
    ∃ c, LiteCtx.new 2 2 = some c ∧
      run (only c) [.mulSmul 0 1 0, .add 2 0 1, .mul 3 2 2]
        (fun x => if x = 0 then some ⟨0, .dense ⟨[1, 2, 3, 4, 5, 6, 7], 2⟩⟩
          else some ⟨0, .dense ⟨[1], 0⟩⟩) = .undefined := by
  have h : ((LiteCtx.new 2 2).map fun c => isUndefined
      (run (only c) [.mulSmul 0 1 0, .add 2 0 1, .mul 3 2 2]
        (fun x => if x = 0 then some ⟨0, .dense ⟨[1, 2, 3, 4, 5, 6, 7], 2⟩⟩
          else some ⟨0, .dense ⟨[1], 0⟩⟩))) = some true := by decide +kernel
  obtain ⟨c, h1, h2⟩ := Option.map_eq_some_iff.1 h
  exact ⟨c, h1, eq_undefined h2⟩

/-! ## C112: different contexts, division by zero -/

/-- A statement on tensors whose operands are set and not all of one context is refused, unless it
multiplies by the scalar zero in a fused operation. -/
theorem C112_tensor_contexts_partial [CharZero K] {c : ℕ → LiteCtx} {W : Contexts K (Stored K)}
    (hW : TensorContexts c W) {σ : Store (Stored K)}
    (hσ : ∀ x a, σ x = some a → ∃ f, IsNormalTensor (c a.ctx).width (c a.ctx).depth a.val f)
    (s : Stmt K) (hset : ∀ x ∈ s.operands, σ x ≠ none) {x y : ℕ} (hx : x ∈ s.operands)
    (hy : y ∈ s.operands) {a b : Elem (Stored K)} (ha : σ x = some a) (hb : σ y = some b)
    (hne : a.ctx ≠ b.ctx) (hz : ¬ s.FusedZero) : step W σ s = .refused := by
  have hlaw : ∀ i, (W.vectors i).Lawful (c i).depth (· * ·)
      (IsNormalTensor (c i).width (c i).depth) TensorClears := by
    intro i
    obtain ⟨⟨h1, h2, h3⟩, -, h4⟩ := hW i
    obtain ⟨m, hm, hc, -⟩ := ctx_facts h2 h3
    rw [h4, hm]
    exact tensorVectors_lawful h1 hc
  have := refused_of (W := W) (σ := σ) s ?_ ?_ hset hx hy ha hb hne hz
  · unfold step
    rw [this]
    rfl
  · intro x a s hxa hs
    obtain ⟨f, hf⟩ := hσ x a hxa
    obtain ⟨r, h1, h2⟩ := sdiv_is (hlaw a.ctx) (a := a) ⟨rfl, rfl, hf⟩ hs
    exact ⟨r, h1, h2.1⟩
  · intro x y a b hxa hyb hab
    obtain ⟨f, hf⟩ := hσ x a hxa
    obtain ⟨g, hg'⟩ : ∃ g, IsNormalTensor (c a.ctx).width (c a.ctx).depth b.val g := by
      rw [hab]
      exact hσ y b hyb
    obtain ⟨r, h1, h2⟩ := mulElem_is (hlaw a.ctx) (a := a) (b := b) ⟨rfl, rfl, hf⟩ ⟨hab.symm, rfl, hg'⟩
    exact ⟨r, h1, h2.1⟩

/-- The hypotheses: the contexts of width 2 and depths 1, 2, …, a tensor of the first and one of
the second, and their sum. -/
example : ∃ (c : ℕ → LiteCtx) (W : Contexts ℚ (Stored ℚ)), TensorContexts c W ∧
    (∃ f, IsNormalTensor (c 0).width (c 0).depth (.sparse [(⟨0, 0⟩, (1 : ℚ))]) f) ∧
    (∃ f, IsNormalTensor (c 1).width (c 1).depth (.dense ⟨[], 0⟩ : Stored ℚ) f) ∧
    step W (fun x => if x = 0 then some ⟨0, .sparse [(⟨0, 0⟩, 1)]⟩ else some ⟨1, .dense ⟨[], 0⟩⟩)
      (.add 2 0 1) = .refused := by
  choose c hc using fun i => LiteCtx.new_some 2 i
  have hok := fun i => LiteCtx.ok_new (hc i)
  have hW : TensorContexts c (⟨fun i => (c i).width, fun i => tensorVectors (c i)⟩ :
      Contexts ℚ (Stored ℚ)) := fun i => by
    refine ⟨⟨?_, ?_, ?_⟩, rfl, rfl⟩
    · rw [(hok i).width]; omega
    · rw [(hok i).depth]; omega
    · rw [(hok i).width, (hok i).depth]; exact hc i
  have h0 : IsNormalTensor (c 0).width (c 0).depth (.sparse [(⟨0, 0⟩, (1 : ℚ))])
      (fun u => if u = [] then 1 else 0) := by
    refine ⟨⟨by simp, fun p hp => ?_, fun u _ hne => ?_⟩, by intro v hv; cases hv⟩
    · rw [List.mem_singleton] at hp
      subst hp
      exact ⟨[], Nat.zero_le _, by simp [wordKey, wordOffset], by simp⟩
    · by_cases hu : u = []
      · subst hu
        simp [wordKey, wordOffset]
      · exact absurd (if_neg hu) hne
  have h1 : IsNormalTensor (c 1).width (c 1).depth (.dense ⟨[], 0⟩ : Stored ℚ) 0 :=
    ⟨⟨⟨fun u _ => ⟨fun x hx => by simp at hx, fun _ => rfl⟩, Nat.zero_le _⟩, Or.inl rfl⟩,
      by intro v hv _; cases hv; rfl⟩
  refine ⟨c, _, hW, ⟨_, h0⟩, ⟨_, h1⟩, C112_tensor_contexts_partial hW (fun x a hx => ?_) _ ?_
    (x := 0) (y := 1) (by simp [Stmt.operands]) (by simp [Stmt.operands]) (if_pos rfl)
    (if_neg (by decide)) (by decide) (by simp [Stmt.FusedZero])⟩
  · by_cases h : x = 0
    · rw [if_pos h] at hx
      cases hx
      exact ⟨_, h0⟩
    · rw [if_neg h] at hx
      cases hx
      exact ⟨_, h1⟩
  · intro x _
    split <;> simp

/-- A statement on Lie elements whose operands are set and not all of one context is refused,
unless it multiplies by the scalar zero in a fused operation. -/
theorem C112_lie_contexts_partial [CharZero K] {c : ℕ → LiteCtx} (hc : ∀ i, IsContext (c i))
    {e : ∀ i, Key → Series (Fin (c i).width) K} (he : ∀ i, HallElems (c i).hs (e i)) :
    ∃ n₀, ∀ {W : Contexts K (Stored K)}, LieContexts c n₀ W → ∀ {σ : Store (Stored K)},
    (∀ x a, σ x = some a → ∃ f, IsLieElem (c a.ctx) (e a.ctx) a.val f) →
    ∀ (s : Stmt K), (∀ x ∈ s.operands, σ x ≠ none) → ∀ {x y : ℕ}, x ∈ s.operands →
    y ∈ s.operands → ∀ {a b : Elem (Stored K)}, σ x = some a → σ y = some b → a.ctx ≠ b.ctx →
    ¬ s.FusedZero → step W σ s = .refused := by
  have hlaw : ∀ i, ∃ n₀, ∀ fuel ≥ n₀, ∀ cache st, LieHistory (c i).width cache →
      MapsHistory (c i).width (c i).depth (c i).hs st →
      (lieVectors (c i) fuel cache st : Backend K (Stored K)).Lawful (c i).depth
        (fun f g => ⁅f, g⁆) (IsLieElem (c i) (e i)) LieClears := by
    intro i
    obtain ⟨h1, h2, h3⟩ := hc i
    obtain ⟨m, hm, hc, -⟩ := ctx_facts h2 h3
    rw [hm]
    exact lieVectors_lawful h1 hc (he i)
  choose n₀ hn using hlaw
  refine ⟨n₀, fun {W} hW {σ} hσ s hset {x y} hx hy {a b} ha hb hne hz => ?_⟩
  have hlaw : ∀ i, (W.vectors i).Lawful (c i).depth (fun f g => ⁅f, g⁆)
      (IsLieElem (c i) (e i)) LieClears := by
    intro i
    obtain ⟨-, fuel, hf, cache, st, h1, h2, h3⟩ := hW i
    rw [h3]
    exact hn i fuel hf cache st h1 h2
  have := refused_of (W := W) (σ := σ) s ?_ ?_ hset hx hy ha hb hne hz
  · unfold step
    rw [this]
    rfl
  · intro x a s hxa hs
    obtain ⟨f, hf⟩ := hσ x a hxa
    obtain ⟨r, h1, h2⟩ := sdiv_is (hlaw a.ctx) (a := a) ⟨rfl, rfl, hf⟩ hs
    exact ⟨r, h1, h2.1⟩
  · intro x y a b hxa hyb hab
    obtain ⟨f, hf⟩ := hσ x a hxa
    obtain ⟨g, hg⟩ : ∃ g, IsLieElem (c a.ctx) (e a.ctx) b.val g := by rw [hab]; exact hσ y b hyb
    obtain ⟨r, h1, h2⟩ := mulElem_is (hlaw a.ctx) (a := a) (b := b) ⟨rfl, rfl, hf⟩ ⟨hab.symm, rfl, hg⟩
    exact ⟨r, h1, h2.1⟩

/-- `x₀ + x₁` for `e₁` at depth 1 and `e₁` at depth 2, and `x₀.add_mul(x₀, x₁)`. -/
example : ((LiteCtx.new 2 1).bind fun c => (LiteCtx.new 2 2).map fun c' =>
    let st : MapsState := ⟨fun _ => none, fun _ => none, LieCache.fresh⟩
    let W : Contexts ℚ (Stored ℚ) := ⟨fun _ => 2, fun i =>
      if i = 0 then lieVectors c 9 LieCache.fresh st else lieVectors c' 9 LieCache.fresh st⟩
    let x := some ⟨0, .sparse [(⟨1, 0⟩, 1)]⟩
    let y := some ⟨1, .sparse [(⟨1, 0⟩, 1)]⟩
    (Handle.add W x y, Handle.addMul W x x y)) = some (.refused, .refused) := by decide +kernel

/-- Division by zero is refused if the operands are set, in all forms and contexts. -/
theorem C112_division_by_zero {V : Type} (W : Contexts K V) {σ : Store V} (s : Stmt K)
    (hset : ∀ x ∈ s.operands, σ x ≠ none) (h : s.DividesByZero) : step W σ s = .refused := by
  unfold step
  rw [refused_div s hset h]
  rfl

/-- Refuted: that operands of different contexts are always refused.  The scalar zero lets
`x.add_scal_mul(y, 0)`, `x.sub_scal_mul(y, 0)` and `x.mul_smul(y, 0)` pass for all elements. -/
theorem C112_zero_scalar_refuted {V : Type} (W : Contexts K V) (a b : Elem V) :
    Handle.addScalMul W (some a) (some b) 0 = .ok (some a) ∧
    Handle.subScalMul W (some a) (some b) 0 = .ok (some a) ∧
    Handle.mulSmul W (some a) (some b) 0 = .ok (some (a.clear W)) :=
  ⟨if_pos rfl, if_pos rfl, if_pos rfl⟩

/-- Refuted: that division by zero is always refused.  An unset element may be divided by zero. -/
theorem C112_unset_by_zero_refuted {V : Type} (W : Contexts K V) :
    Handle.sdiv W 0 none = .ok none ∧ Handle.sdivIn W none 0 = .ok none := ⟨rfl, rfl⟩

/-! ## C113: equality -/

/-- Tensors of one context, of any storage types, compare equal if and only if they have the same
coefficients; an unset tensor compares as zero. -/
theorem C113_tensor_eq_partial [CharZero K] (hw : 1 ≤ w) (hd : 1 ≤ depth)
    (h : LiteCtx.new w depth = some c) {W : Contexts K (Stored K)} {i : ℕ}
    (hW : W.vectors i = tensorVectors c) {x y : Handle (Stored K)} {a b : Var w K}
    (hx : Holds Stored.vecType (IsNormalTensor w depth) i x a)
    (hy : Holds Stored.vecType (IsNormalTensor w depth) i y b) :
    (∃ r, Handle.eq W x y = .ok r ∧ (r = true ↔ EqUpTo depth a.value b.value)) ∧
    (Handle.isZero W x = true ↔ EqUpTo depth a.value 0) := by
  obtain ⟨m, rfl, hc, -⟩ := ctx_facts hd h
  have hB := tensorVectors_lawful (K := K) hw hc
  rw [← hW] at hB
  have hst : (W.vectors i).storage = Stored.vecType := by rw [hW]; rfl
  rw [← hst] at hx hy
  exact ⟨eq_holds hB hx hy, isZero_holds hB hx⟩

/-- Lie elements of one context, of any storage types, compare equal if and only if they stand for
the same element of the free Lie algebra; an unset element compares as zero. -/
theorem C113_lie_eq_partial [CharZero K] (hw : 1 ≤ w) (hd : 1 ≤ depth)
    (h : LiteCtx.new w depth = some c) {e : Key → Series (Fin w) K} (he : HallElems c.hs e) :
    ∃ n₀, ∀ fuel ≥ n₀, ∀ cache st, LieHistory w cache → MapsHistory w depth c.hs st →
    ∀ {W : Contexts K (Stored K)} {i : ℕ}, W.vectors i = lieVectors c fuel cache st →
    ∀ {x y : Handle (Stored K)} {a b : Var w K},
    Holds Stored.vecType (IsLieElem c e) i x a → Holds Stored.vecType (IsLieElem c e) i y b →
    (∃ r, Handle.eq W x y = .ok r ∧ (r = true ↔ EqUpTo depth a.value b.value)) ∧
    (Handle.isZero W x = true ↔ EqUpTo depth a.value 0) := by
  obtain ⟨m, rfl, hc, -⟩ := ctx_facts hd h
  obtain ⟨n₀, hn⟩ := lieVectors_lawful (K := K) hw hc he
  refine ⟨n₀, fun fuel hf cache st hca hst W i hW x y a b hx hy => ?_⟩
  have hB := hn fuel hf cache st hca hst
  rw [← hW] at hB
  have hst : (W.vectors i).storage = Stored.vecType := by rw [hW]; rfl
  rw [← hst] at hx hy
  exact ⟨eq_holds hB hx hy, isZero_holds hB hx⟩

/-- Elements of different widths compare as different. -/
theorem C113_widths {V : Type} (W : Contexts K V) {a b : Elem V}
    (h : W.width a.ctx ≠ W.width b.ctx) : Handle.eq W (some a) (some b) = .ok false := if_neg h

/-- Refuted: that comparisons always have an answer.  Elements of the same width and different
contexts cannot be compared, not even if both are zero. -/
theorem C113_contexts_refuted {V : Type} (W : Contexts K V) {a b : Elem V}
    (h : W.width a.ctx = W.width b.ctx) (hne : a.ctx ≠ b.ctx) :
    Handle.eq W (some a) (some b) = .refused := by
  unfold Handle.eq Elem.equals
  dsimp only
  rw [if_pos h, convertArgument_ne hne]
  rfl

/-- The hypotheses hold for a sparse, a dense and an unset tensor; `2 e₁` is not zero, and differs
from `1 + 2 e₁ + 3 e₂` and from an unset tensor. -/
example : ∃ c, LiteCtx.new 2 2 = some c ∧ Handle.eq (only c) (exampleStore 0) (exampleStore 1) = .ok false ∧
    Handle.eq (only c) (exampleStore 1) (exampleStore 1) = .ok true ∧
    Handle.eq (only c) (exampleStore 2) (exampleStore 1) = .ok false ∧
    Handle.eq (only c) (exampleStore 0) (some ⟨0, .dense ⟨[0, 2, 0], 1⟩⟩) = .ok true := by
  have h : ((LiteCtx.new 2 2).map fun c => (Handle.eq (only c) (exampleStore 0) (exampleStore 1),
      Handle.eq (only c) (exampleStore 1) (exampleStore 1),
      Handle.eq (only c) (exampleStore 2) (exampleStore 1),
      Handle.eq (only c) (exampleStore 0) (some ⟨0, .dense ⟨[0, 2, 0], 1⟩⟩))) =
      some (.ok false, .ok true, .ok false, .ok true) := by decide +kernel
  obtain ⟨c, h1, h2⟩ := Option.map_eq_some_iff.1 h
  simp only [Prod.mk.injEq] at h2
  exact ⟨c, h1, h2⟩

/-! ## C114: reading coefficients -/

/-- `t[i]` is the coefficient of the word with index `i`, if the tensor is sparse or stores it. -/
theorem C114_tensor_get_partial (hd : 1 ≤ depth) (h : LiteCtx.new w depth = some c)
    {x : Stored K} {f : Series (Fin w) K} (hx : IsTensor w depth x f) (i : ℕ) {u : List (Fin w)}
    (hu : u.length ≤ depth) (hs : ∀ v, x = .dense v → wordIndex u < v.storage.length) :
    Handle.get (getTensor c) (some ⟨i, x⟩) (wordIndex u) = .ok (f u) := by
  obtain ⟨m, rfl, hc, -⟩ := ctx_facts hd h
  show Outcome.ofOption (getTensor c x (wordIndex u)) = _
  cases x with
  | sparse v => rw [getTensor_sparse hc hx hu]; rfl
  | dense v => rw [getTensor_dense hc hx hu, if_pos (hs v rfl)]; rfl

/-- The hypotheses: `exampleStore_holds`; the coefficients of `2 e₁`, and of `1 + 2 e₁ + 3 e₂` which
does not store those of degree 2. -/
example : ((LiteCtx.new 2 2).map fun c =>
    ((List.range 4).map (Handle.get (getTensor c) (exampleStore 0)),
      (List.range 4).map (Handle.get (getTensor c) (exampleStore 1)))) =
    some ([.ok 0, .ok 2, .ok 0, .ok 0], [.ok 1, .ok 2, .ok 3, .undefined]) := by decide +kernel

/-- Refuted: that `t[i]` is defined for every word of the basis.  A dense tensor reads out of
bounds for all words beyond its storage, whose coefficients are zero. -/
theorem C114_dense_refuted (hd : 1 ≤ depth) (h : LiteCtx.new w depth = some c)
    {v : Dense K} {f : Series (Fin w) K} (hx : IsTensor w depth (.dense v) f) (i : ℕ)
    {u : List (Fin w)} (hu : u.length ≤ depth) (hs : v.storage.length ≤ wordIndex u) :
    f u = 0 ∧ Handle.get (getTensor c) (some ⟨i, .dense v⟩) (wordIndex u) = .undefined := by
  obtain ⟨m, rfl, hc, -⟩ := ctx_facts hd h
  constructor
  · rw [← (isTensor_dense.1 hx).2 u hu]
    show v.storage[wordIndex u]?.getD 0 = 0
    rw [List.getElem?_eq_none_iff.2 hs]
    rfl
  · show Outcome.ofOption (getTensor c (.dense v) (wordIndex u)) = _
    rw [getTensor_dense hc hx hu, if_neg (by omega)]
    rfl

/-- `l[n]` is what iteration shows at the key numbered `n`, for both storage types. -/
theorem C114_lie_get (hw : 1 ≤ w) (hd : 1 ≤ depth) (h : LiteCtx.new w depth = some c)
    {e : Key → Series (Fin w) K} {x : Stored K} {f : Series (Fin w) K} (hx : IsLieElem c e x f)
    {l : List (Key × K)} (hl : (match x with
      | .sparse v => some v
      | .dense v => Dense.items c.lieBasis v) = some l) {k : Key} {a : K} (hk : (k, a) ∈ l) (i : ℕ) :
    ∃ n, c.lieBasis.keyToIndex k = some n ∧ Handle.get (getLie c) (some ⟨i, x⟩) (n + 1) = .ok a := by
  obtain ⟨m, rfl, hc, -⟩ := ctx_facts hd h
  obtain ⟨n, h1, h2⟩ := getLie_items hw hc hx hl hk
  refine ⟨n, h1, ?_⟩
  show Outcome.ofOption (getLie c x (n + 1)) = _
  rw [h2]
  rfl

/-- For a sparse Lie element `l[n]` is zero at the other keys of the basis. -/
theorem C114_lie_absent (hd : 1 ≤ depth) (h : LiteCtx.new w depth = some c)
    {e : Key → Series (Fin w) K} {v : Sparse K} {f : Series (Fin w) K}
    (hx : IsLieElem c e (.sparse v) f) {k : Key} (hk : c.hs.HasKey k) (hv : ∀ a, (k, a) ∉ v) (i : ℕ) :
    ∃ n, c.lieBasis.keyToIndex k = some n ∧
      Handle.get (getLie c) (some ⟨i, .sparse v⟩) (n + 1) = .ok 0 := by
  obtain ⟨m, rfl, hc, -⟩ := ctx_facts hd h
  obtain ⟨n, h1, h2⟩ := getLie_absent hc hx hk hv
  refine ⟨n, h1, ?_⟩
  show Outcome.ofOption (getLie c (.sparse v) (n + 1)) = _
  rw [h2]
  rfl

/-- For a dense Lie element `l[n]` reads out of bounds at the keys that iteration does not show. -/
theorem C114_lie_dense_refuted (hw : 1 ≤ w) (hd : 1 ≤ depth) (h : LiteCtx.new w depth = some c)
    {e : Key → Series (Fin w) K} {v : Dense K} {f : Series (Fin w) K}
    (hx : IsLieElem c e (.dense v) f) {l : List (Key × K)} (hl : Dense.items c.lieBasis v = some l)
    {k : Key} (hk : c.hs.HasKey k) (hv : ∀ a, (k, a) ∉ l) (i : ℕ) :
    ∃ n, c.lieBasis.keyToIndex k = some n ∧
      Handle.get (getLie c) (some ⟨i, .dense v⟩) (n + 1) = .undefined := by
  obtain ⟨m, rfl, hc, -⟩ := ctx_facts hd h
  obtain ⟨n, h1, h2⟩ := getLie_beyond hw hc hx hl hk hv
  refine ⟨n, h1, ?_⟩
  show Outcome.ofOption (getLie c (.dense v) (n + 1)) = _
  rw [h2]
  rfl

/-- An unset element reads zero everywhere. -/
theorem C114_unset (read : Stored K → ℕ → Option K) (n : ℕ) : Handle.get read none n = .ok 0 := rfl

/-- The sparse Lie element `5 e₂` and the dense one `4 e₁ + 5 e₂` at depth 2. -/
example : ((LiteCtx.new 2 2).map fun c =>
    ([1, 2, 3].map (Handle.get (getLie c) (some ⟨0, .sparse [(⟨1, 1⟩, (5 : ℚ))]⟩)),
      [1, 2, 3].map (Handle.get (getLie c) (some ⟨0, .dense ⟨[4, (5 : ℚ)], 1⟩⟩)))) =
    some ([.ok 0, .ok 5, .ok 0], [.ok 4, .ok 5, .undefined]) := by decide +kernel

/-- The dense Lie element `4 e₁ + 5 e₂ + 6 [e₁, e₂]`. -/
example : ((LiteCtx.new 2 2).map fun c =>
    ([1, 2, 3].map (Handle.get (getLie c) (some ⟨0, .dense ⟨[4, 5, (6 : ℚ)], 2⟩⟩)),
      Dense.items c.lieBasis ⟨[4, 5, (6 : ℚ)], 2⟩)) =
    some ([.ok 4, .ok 5, .ok 6], some [(⟨1, 0⟩, 4), (⟨1, 1⟩, 5), (⟨2, 0⟩, 6)]) := by decide +kernel

/-- Refuted: that an index beyond the basis is refused or reads zero.  At width and depth 2 the
index 15 reads the scalar coefficient. -/
theorem C114_beyond_refuted :
    ∃ c, LiteCtx.new 2 2 = some c ∧
      Handle.get (getTensor c) (some ⟨0, .sparse [(⟨0, 0⟩, (5 : ℚ))]⟩) 15 = .ok 5 := by
  have h : ((LiteCtx.new 2 2).map fun c =>
      Handle.get (getTensor c) (some ⟨0, .sparse [(⟨0, 0⟩, (5 : ℚ))]⟩) 15) = some (.ok 5) := by
    decide +kernel
  exact Option.map_eq_some_iff.1 h

/-! ## C115: pairing -/

/-- `shuffle @ tensor` is the sum over all words of the products of coefficients, if the tensor
stores a coefficient for each that the shuffle tensor stores. -/
theorem C115_pair_partial (hd : 1 ≤ depth) {c : ℕ → LiteCtx} {i : ℕ}
    (h : LiteCtx.new w depth = some (c i)) {s t : Stored K} {f g : Series (Fin w) K}
    (hs : IsTensor w depth s f) (ht : IsTensor w depth t g) (hcov : Covers w t s) :
    pair c (some ⟨i, s⟩) (some ⟨i, t⟩) = .ok (∑ u ∈ wordsUpTo w depth, f u * g u) := by
  obtain ⟨m, rfl, hc, -⟩ := ctx_facts hd h
  obtain ⟨l, coef, h1, h2, h3, h4, h5⟩ := tensorItems_spec hc hs
  have hget : ∀ u : List (Fin w), u.length ≤ m + 1 → ∀ a, (wordKey u, a) ∈ l →
      getTensor (c i) t (wordIndex u) = some (g u) := by
    intro u hu a ha
    cases t with
    | sparse v => exact getTensor_sparse hc ht hu
    | dense v =>
      rw [getTensor_dense hc ht hu, if_pos]
      cases s with
      | sparse z =>
        have := h5 z rfl
        subst this
        exact hcov _ ha u rfl
      | dense z => exact lt_of_lt_of_le (h4 z rfl u a ha) hcov
  have hloop := loop_sum (K := K) (G := fun t' => t'.2 * (getTensor (c i) t
      (((c i).tensorBasis.keyToIndex t'.1).getD 0)).getD 0)
    (f := fun result t' => do
      let n ← (c i).tensorBasis.keyToIndex t'.1
      some (result + t'.2 * (← getTensor (c i) t n))) l 0 (by
    intro t' ht' r
    obtain ⟨u, hu, hk⟩ := exists_wordKey (h2.val t' ht').1
    have hg := hget u hu t'.2 (by rw [hk]; exact ht')
    have hi := keyToIndex_word hc hu
    rw [hk] at hi
    rw [hi]
    show (do some (r + t'.2 * (← getTensor (c i) t (wordIndex u)))) = _
    rw [Option.getD_some, hg]
    rfl)
  show (Outcome.ofOption (tensorItems (c i) s) >>= fun items => Outcome.ofOption _) = _
  rw [h1]
  show Outcome.ofOption (loop l 0 _) = _
  rw [hloop, zero_add, items_sum h2 g fun u hu a ha => ?_]
  · show Outcome.ok _ = _
    congr 1
    exact Finset.sum_congr rfl fun u hu => by rw [h3 u (mem_wordsUpTo.1 hu)]
  · dsimp only
    rw [keyToIndex_word hc hu, Option.getD_some, hget u hu a ha]
    rfl

/-- Pairing with an unset tensor gives zero. -/
theorem C115_unset_tensor (hd : 1 ≤ depth) {c : ℕ → LiteCtx} {i : ℕ}
    (h : LiteCtx.new w depth = some (c i)) {s : Stored K} {f : Series (Fin w) K}
    (hs : IsTensor w depth s f) : pair c (some ⟨i, s⟩) none = .ok 0 := by
  obtain ⟨m, rfl, hc, -⟩ := ctx_facts hd h
  obtain ⟨l, coef, h1, h2, -⟩ := tensorItems_spec hc hs
  have hloop := loop_sum (K := K) (G := fun _ => 0)
    (f := fun result (t' : Key × K) => do
      let _ ← (c i).tensorBasis.keyToIndex t'.1
      some result) l 0 (by
    intro t' ht' r
    obtain ⟨u, hu, hk⟩ := exists_wordKey (h2.val t' ht').1
    have hi := keyToIndex_word hc hu
    rw [hk] at hi
    rw [hi, add_zero]
    rfl)
  show (Outcome.ofOption (tensorItems (c i) s) >>= fun items => Outcome.ofOption _) = _
  rw [h1]
  show Outcome.ofOption (loop l 0 _) = _
  rw [hloop]
  simp [Outcome.ofOption]

/-- The hypotheses: the pairing of `1 + 2 e₁ + 3 e₂` with `2 e₁`, and of `2 e₁` with it. -/
example : Covers 2 (.sparse [(⟨1, 0⟩, (2 : ℚ))]) (.dense ⟨[1, 2, 3], 1⟩) ∧
    ((LiteCtx.new 2 2).map fun c => (pair (fun _ => c) (exampleStore 1) (exampleStore 0),
      pair (fun _ => c) (exampleStore 0) (exampleStore 1))) = some (.ok 4, .ok 4) :=
  ⟨trivial, by decide +kernel⟩

/-- Refuted: that the pairing is defined for all tensors of one context.  At width and depth 2 a
dense shuffle tensor of degree 2 and a dense tensor of degree 0. -/
theorem C115_shorter_refuted :
    ∃ c, LiteCtx.new 2 2 = some c ∧
      pair (fun _ => c) (some ⟨0, .dense ⟨[1, 2, 3, 4, 5, 6, (7 : ℚ)], 2⟩⟩)
        (some ⟨0, .dense ⟨[1], 0⟩⟩) = .undefined := by
  have h : ((LiteCtx.new 2 2).map fun c =>
      pair (fun _ => c) (some ⟨0, .dense ⟨[1, 2, 3, 4, 5, 6, (7 : ℚ)], 2⟩⟩)
        (some ⟨0, .dense ⟨[1], 0⟩⟩)) = some .undefined := by decide +kernel
  exact Option.map_eq_some_iff.1 h

/-- Refuted: that tensors of different widths are not paired.  The word `11` of width 2 is paired
with the letter `4` of width 3, both of index 3, and the word `11` of width 3 is not. -/
theorem C115_widths_refuted :
    ∃ c c', LiteCtx.new 2 2 = some c ∧ LiteCtx.new 3 2 = some c' ∧
      pair (fun i => if i = 0 then c else c') (some ⟨0, .sparse [(⟨2, 0⟩, (2 : ℚ))]⟩)
        (some ⟨1, .sparse [(⟨1, 2⟩, 5), (⟨2, 0⟩, 7)]⟩) = .ok 10 := by
  have h : ((LiteCtx.new 2 2).bind fun c => (LiteCtx.new 3 2).map fun c' =>
      pair (fun i => if i = 0 then c else c') (some ⟨0, .sparse [(⟨2, 0⟩, (2 : ℚ))]⟩)
        (some ⟨1, .sparse [(⟨1, 2⟩, 5), (⟨2, 0⟩, 7)]⟩)) = some (.ok 10) := by decide +kernel
  obtain ⟨c, h1, h2⟩ := Option.bind_eq_some_iff.1 h
  obtain ⟨c', h3, h4⟩ := Option.map_eq_some_iff.1 h2
  exact ⟨c, c', h1, h3, h4⟩

/-- Refuted: that an unset shuffle tensor pairs to zero. -/
theorem C115_unset_refuted (c : ℕ → LiteCtx) (x : Handle (Stored K)) :
    pair c none x = .undefined := rfl

end RoughPy.Handles
