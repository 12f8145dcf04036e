import Verif.Lite.LieVec

set_option linter.unusedSectionVars false

/-! # Expressions over Lie elements evaluate to their value -/

namespace RoughPy.Lite

open RoughPy.Tensor RoughPy.Tensor.Series
open RoughPy.Lie (IsHallTable HasDegree hallTable hallTable_isHall Homog HallTensors hallPoly)

attribute [local instance] LieRing.ofAssociativeRing

variable {K T : Type}

/-! ## The meaning of the keys -/

section elems
variable [CommRing K] {w m : ℕ} {hs : HallSet} {e : Key → Series (Fin w) K}

theorem HallElems.hallTensors (hr : Rep (hallTable w m) hs) (he : HallElems hs e) :
    HallTensors (K := K) (w := w) (hallTable w m) fun i => e (keyAt (hallTable w m) i) := by
  have hb := hallTable_isHall w m
  constructor
  · intro i
    show e (keyAt (hallTable w m) (i.1 + 1)) = _
    rw [keyAt_letter hb (by omega) (show i.1 + 1 ≤ w from i.2), Nat.add_sub_cancel]
    exact he.letter i
  · intro n k i j hn hk hrow
    have hkl := hk.lt hb
    have hkd := hb.deg_eq hk
    refine he.bracket _ _ _ ?_ ?_ ((⟨m, hr, le_rfl⟩ : HallRep w (m + 1) hs).rep_parents hb hr hrow)
    · refine (hasKey_iff hb hr).2 ((validKey_iff hb).2 ⟨k, ?_, hkl, rfl⟩)
      by_contra h0
      obtain rfl : k = 0 := by omega
      have := keyAt_zero hb
      have h1 : (keyAt (hallTable w m) 0).deg = (hallTable w m).deg 0 := rfl
      rw [this] at h1
      dsimp only at h1
      omega
    · show 2 ≤ (hallTable w m).deg k
      omega

theorem HallElems.eq (hr : Rep (hallTable w m) hs) (he : HallElems hs e) {k : ℕ} (h0 : 0 < k)
    (hk : k < (hallTable w m).data.length) :
    e (keyAt (hallTable w m) k) = hallPoly K (hallTable w m) k := by
  have hb := hallTable_isHall w m
  have hd := hb.hasDegree_deg hk
  exact HallTensors.eq hb (he.hallTensors hr) _ k (hb.degree_pos hd h0) hd

theorem HallElems.homog (hr : Rep (hallTable w m) hs) (he : HallElems hs e) {k : Key}
    (hk : ValidKey (lieStart (hallTable w m)) (m + 1) k) : Homog k.deg (e k) := by
  have hb := hallTable_isHall w m
  obtain ⟨i, h1, h2, rfl⟩ := (validKey_iff hb).1 hk
  rw [he.eq hr h1 h2]
  have hd := hb.hasDegree_deg h2
  exact Lie.hallPoly_homog hb _ i hd (hb.degree_pos hd h1)

theorem HallElems.bracketUpTo (hr : Rep (hallTable w m) hs) (he : HallElems hs e) :
    BracketUpTo e w (m + 1) := by
  intro k p q h h2 hd
  have hb := hallTable_isHall w m
  refine he.bracket k p q ?_ h2 ((⟨m, hr, le_rfl⟩ : HallRep w (m + 1) hs).parents_of h hd)
  exact (hasKey_iff hb hr).2 ((validKey_iff hb).2 (h.hallKey.index hd))

/-- the elements exist -/
theorem hallElems_exists (hr : Rep (hallTable w m) hs) :
    HallElems hs fun k => (hallPoly K (hallTable w m) ((hallTable w m).start k.deg + k.idx) :
      Series (Fin w) K) := by
  have hb := hallTable_isHall w m
  have key : ∀ i, i < (hallTable w m).data.length → (hallTable w m).start (keyAt (hallTable w m) i).deg +
      (keyAt (hallTable w m) i).idx = i := fun i hi => by
    have := hb.hasDegree_iff.1 (hb.hasDegree_deg hi)
    show (hallTable w m).start ((hallTable w m).deg i) + (i - (hallTable w m).start ((hallTable w m).deg i)) = i
    omega
  constructor
  · intro i
    dsimp only
    rw [hb.start_one, Nat.add_comm]
    exact (Lie.hallTensors_hallPoly hb).letter i
  · intro k p q hk h2 hp
    obtain ⟨i, h1, h2', rfl⟩ := (validKey_iff hb).1 ((hasKey_iff hb hr).1 hk)
    have hrow := Lie.row_eq h2'
    rw [(⟨m, hr, le_rfl⟩ : HallRep w (m + 1) hs).rep_parents hb hr hrow, Option.some.injEq] at hp
    have hd := hb.hasDegree_deg h2'
    obtain ⟨b1, b2⟩ := row_bounds hb hrow
    have hp1 : p = keyAt (hallTable w m) _ := (congrArg Prod.fst hp).symm
    have hp2 : q = keyAt (hallTable w m) _ := (congrArg Prod.snd hp).symm
    rw [hp1, hp2, key _ h2', key _ b1, key _ b2]
    exact (Lie.hallTensors_hallPoly hb).bracket _ i _ _ h2 hd hrow

/-- a coordinate vector for `lieValue` -/
def coords (b : Lie.Basis) (c : Key → K) : Buf K :=
  ⟨b.data.length - 1, fun k => c (keyAt b (k + 1))⟩

end elems

theorem cacheOK_of_history {w D : ℕ} {L : Type*} [LieRing L] {e : Key → L} (he : BracketUpTo e w D)
    {c : LieCache} (hc : LieHistory w c) : LieCacheOK e w D c := by
  induction hc with
  | fresh => exact lieCacheOK_fresh
  | lookup h1 _ h3 ih => exact (lieProd_ok (hallRep_new h1) he _ _ _ _ _ _ h3 ih).1

theorem hallKey_iff {w m : ℕ} {k : Key} :
    ValidKey (lieStart (hallTable w m)) (m + 1) k ↔ HallKey w k ∧ k.deg ≤ m + 1 := by
  have hb := hallTable_isHall w m
  constructor
  · intro h
    obtain ⟨i, h1, h2, rfl⟩ := (validKey_iff hb).1 h
    exact ⟨hallKey_of_index h1 h2, h.1⟩
  · rintro ⟨h1, h2⟩
    exact (validKey_iff hb).2 (h1.index h2)

/-- Products of keys, for all large enough fuel. -/
theorem prodSpec [Field K] [DecidableEq K] {w m : ℕ} {hs : HallSet}
    (hnew : HallSet.new w (m + 1) = some hs) (hr : Rep (hallTable w m) hs) :
    ∃ n₀, ∀ fuel ≥ n₀, ∀ e : Key → Series (Fin w) K, HallElems hs e →
      ProdSpec w (hallTable w m) e (lieProd hs (m + 1) fuel) := by
  have hh := hallRep_new hnew
  obtain ⟨n₀, hn⟩ := lieProd_total_all (D := m + 1) hh le_rfl
  refine ⟨n₀, fun fuel hf e he c l r hc hl hrk hdeg => ?_⟩
  have hB := he.bracketUpTo hr
  have hcOK := cacheOK_of_history hB hc
  have hl' := hallKey_iff.1 hl
  have hr' := hallKey_iff.1 hrk
  have hdeg' : l.deg + r.deg ≤ m + 1 := hdeg
  obtain ⟨⟨p, c'⟩, h1⟩ := hn fuel hf _ e hB c l r hcOK hl'.1 hr'.1 hdeg'
  obtain ⟨-, h3⟩ := lieProd_ok hh hB fuel c l r p c' h1 hcOK
  have h4 := h3 hl'.1 hr'.1 hdeg' (Or.inl hdeg')
  refine ⟨p, c', h1, LieHistory.lookup hnew hc h1, fun t ht => ?_, h4.value⟩
  obtain ⟨k1, k2⟩ := h4.keys t ht
  exact ⟨hallKey_iff.2 ⟨k1, by omega⟩, k2⟩

/-! ## Expressions -/

section expr
variable [Field K] [DecidableEq K] {w m : ℕ} {hs : HallSet} {e : Key → Series (Fin w) K}
  {coef : T → Key → K} {Good : ℕ → T → Prop} {strict : Prop}

/-- The facts about a kind of Lie elements. -/
structure LieOps.Lawful (A : LieOps K T) (w m : ℕ) (e : Key → Series (Fin w) K)
    (coef : T → Key → K) (Good : ℕ → T → Prop) (strict : Prop) : Prop where
  depth : A.depth = m + 1
  graded : A.toVecOps.Graded (ValidKey (lieStart (hallTable w m)) (m + 1)) coef Good (m + 1) strict
  homog : ∀ k, ValidKey (lieStart (hallTable w m)) (m + 1) k → Homog k.deg (e k)
  prod : ProdSpec w (hallTable w m) e A.prod

namespace LieOps.Lawful
variable {A : LieOps K T} (hA : A.Lawful w m e coef Good strict)
include hA

local notation "ser" v:max => lieSer (hallTable w m) e (coef v)

theorem fma {fn : K → K} {a : K} (hfn : ∀ x, fn x = a * x) {out lhs rhs : T}
    {cache : LieCache} (n : ℕ) (hc : LieHistory w cache) (hl : Good (m + 1) lhs)
    (hr : Good (m + 1) rhs) (hout : Good (min (m + 1) (A.degree lhs + A.degree rhs)) out) :
    ∃ r c', A.fma cache out lhs rhs fn n = some (r, c') ∧ LieHistory w c' ∧
      Good (min (m + 1) (A.degree lhs + A.degree rhs)) r ∧
      EqUpTo (m + 1) (ser r) (ser out + a • ⁅ser lhs, ser rhs⁆) :=
  lieFma_spec (hallTable_isHall w m) hA.depth hA.graded hA.homog hA.prod hfn n hc hl hr hout

theorem ser_new : ser A.new = 0 :=
  lieSer_zero (hallTable_isHall w m) hA.graded.lawful.new_coef

theorem ser_clear {v : T} (hv : Good (m + 1) v) : ser (A.clear v) = 0 :=
  lieSer_zero (hallTable_isHall w m) (hA.graded.lawful.clear_coef v hv)

theorem ser_empty {v : T} (hv : Good (m + 1) v) (h : A.empty v = true) : ser v = 0 :=
  lieSer_zero (hallTable_isHall w m) (hA.graded.empty v hv h)

theorem mul {cache : LieCache} (hc : LieHistory w cache) {a b : T} (ha : Good (m + 1) a)
    (hb : Good (m + 1) b) :
    ∃ r c', A.mul cache a b = some (r, c') ∧ LieHistory w c' ∧ Good (m + 1) r ∧
      EqUpTo (m + 1) (ser r) ⁅ser a, ser b⁆ := by
  unfold LieOps.mul
  by_cases h : (!A.empty a && !A.empty b) = true
  · rw [if_pos h]
    obtain ⟨r, c', h1, h2, h3, h4⟩ := hA.fma (fn := fun s => s) (a := 1) (fun x => (one_mul x).symm)
      A.depth hc ha hb (hA.graded.new_good _ (by omega))
    refine ⟨r, c', h1, h2, hA.graded.mono _ _ (by omega) h3, ?_⟩
    rw [hA.ser_new, zero_add, one_smul] at h4
    exact h4
  · rw [if_neg h]
    refine ⟨_, _, rfl, hc, hA.graded.lawful.new_good, ?_⟩
    rw [hA.ser_new]
    by_cases h' : A.empty a = true
    · rw [hA.ser_empty ha h', zero_lie]; exact EqUpTo.refl _ _
    · have : A.empty b = true := by
        cases hx : A.empty b
        · simp [hx, h'] at h
        · rfl
      rw [hA.ser_empty hb this, lie_zero]; exact EqUpTo.refl _ _

theorem multiplyInplace {cache : LieCache} (hc : LieHistory w cache) {op : K → K} {s : K}
    (hop : ∀ x, op x = s * x) {a b : T} (ha : Good (m + 1) a) (hb : Good (m + 1) b) :
    ∃ r c', A.multiplyInplace cache a b op A.depth = some (r, c') ∧ LieHistory w c' ∧
      Good (m + 1) r ∧ EqUpTo (m + 1) (ser r) (s • ⁅ser a, ser b⁆) := by
  unfold LieOps.multiplyInplace
  by_cases h : (!A.empty a && !A.empty b) = true
  · rw [if_pos h]
    have hdeg : min (A.degree a + A.degree b) A.depth = min (m + 1) (A.degree a + A.degree b) := by
      rw [hA.depth, Nat.min_comm]
    obtain ⟨o1, o2⟩ := hA.graded.setDegree A.new (min (m + 1) (A.degree a + A.degree b)) (by omega)
      (hA.graded.new_good _ (by omega))
    obtain ⟨r, c', h1, h2, h3, h4⟩ := hA.fma hop A.depth hc ha hb o1
    refine ⟨r, c', by rw [hdeg]; exact h1, h2, hA.graded.mono _ _ (by omega) h3, ?_⟩
    rw [lieSer_congr (hallTable_isHall w m) o2, hA.ser_new, zero_add] at h4
    exact h4
  · rw [if_neg h]
    refine ⟨_, _, rfl, hc, hA.graded.lawful.clear_good _ ha, ?_⟩
    rw [hA.ser_clear ha]
    by_cases h' : A.empty a = true
    · rw [hA.ser_empty ha h', zero_lie, smul_zero]; exact EqUpTo.refl _ _
    · have : A.empty b = true := by
        cases hx : A.empty b
        · simp [hx, h'] at h
        · rfl
      rw [hA.ser_empty hb this, lie_zero, smul_zero]; exact EqUpTo.refl _ _

theorem mulInplace {cache : LieCache} (hc : LieHistory w cache) {a b : T} (ha : Good (m + 1) a)
    (hb : Good (m + 1) b) :
    ∃ r c', A.mulInplace cache a b = some (r, c') ∧ LieHistory w c' ∧ Good (m + 1) r ∧
      EqUpTo (m + 1) (ser r) ⁅ser a, ser b⁆ := by
  unfold LieOps.mulInplace
  by_cases h : A.empty b = true
  · rw [if_pos h]
    refine ⟨_, _, rfl, hc, hA.graded.lawful.clear_good _ ha, ?_⟩
    rw [hA.ser_clear ha, hA.ser_empty hb h, lie_zero]; exact EqUpTo.refl _ _
  · rw [if_neg h]
    by_cases h' : (!A.empty a) = true
    · rw [if_pos h']
      obtain ⟨r, c', h1, h2, h3, h4⟩ := hA.multiplyInplace hc (op := fun s => s) (s := 1)
        (fun x => (one_mul x).symm) ha hb
      rw [one_smul] at h4
      exact ⟨r, c', h1, h2, h3, h4⟩
    · rw [if_neg h']
      refine ⟨_, _, rfl, hc, ha, ?_⟩
      have : A.empty a = true := by simpa using h'
      rw [hA.ser_empty ha this, zero_lie]; exact EqUpTo.refl _ _

theorem commutator {cache : LieCache} (hc : LieHistory w cache) {a b : T} (ha : Good (m + 1) a)
    (hb : Good (m + 1) b) :
    ∃ r c', A.commutator cache a b = some (r, c') ∧ LieHistory w c' ∧ Good (m + 1) r ∧
      EqUpTo (m + 1) (ser r) ((2 : K) • ⁅ser a, ser b⁆) := by
  unfold LieOps.commutator
  by_cases h : (!A.empty a && !A.empty b) = true
  · rw [if_pos h]
    obtain ⟨r, c', h1, h2, h3, h4⟩ := hA.fma (fn := fun s => s) (a := 1) (fun x => (one_mul x).symm)
      A.depth hc ha hb (hA.graded.new_good _ (by omega))
    obtain ⟨r', c'', g1, g2, g3, g4⟩ := hA.fma (fn := fun s => -s) (a := -1)
      (fun x => by rw [neg_one_mul]) A.depth h2 hb ha (out := r)
      (by rwa [Nat.add_comm (A.degree b)])
    refine ⟨r', c'', ?_, g2, hA.graded.mono _ _ (by omega) g3, ?_⟩
    · rw [h1]
      simp only [Option.bind_eq_bind, Option.bind_some]
      exact g1
    · rw [hA.ser_new, zero_add, one_smul] at h4
      refine g4.trans ?_
      have : (2 : K) • ⁅ser a, ser b⁆ = ⁅ser a, ser b⁆ + (-1 : K) • ⁅ser b, ser a⁆ := by
        rw [← lie_skew (ser a) (ser b), smul_neg, neg_smul, one_smul, two_smul]
        abel
      rw [this]
      exact EqUpTo.add h4 (EqUpTo.refl _ _)
  · rw [if_neg h]
    refine ⟨_, _, rfl, hc, hA.graded.lawful.new_good, ?_⟩
    rw [hA.ser_new]
    by_cases h' : A.empty a = true
    · rw [hA.ser_empty ha h', zero_lie, smul_zero]; exact EqUpTo.refl _ _
    · have : A.empty b = true := by
        cases hx : A.empty b
        · simp [hx, h'] at h
        · rfl
      rw [hA.ser_empty hb this, lie_zero, smul_zero]; exact EqUpTo.refl _ _

theorem eval (hr : Rep (hallTable w m) hs) (x : LExpr K) (hx : x.Ok hs) : ∀ cache,
    LieHistory w cache → ∃ r c', x.eval A cache = some (r, c') ∧ LieHistory w c' ∧
      Good (m + 1) r ∧ EqUpTo (m + 1) (ser r) (x.value e) := by
  have hb := hallTable_isHall w m
  have hV := hA.graded.lawful
  induction x with
  | key k c =>
    intro cache hc
    have hk := (hasKey_iff hb hr).1 hx
    obtain ⟨v, h1, h2, h3⟩ := hV.single k hk c
    refine ⟨v, cache, by simp only [LExpr.eval, h1]; rfl, hc, h2, ?_⟩
    rw [lieSer_congr hb h3, lieSer_single hb hk]
    exact EqUpTo.refl _ _
  | addCoef a k c ih =>
    intro cache hc
    have hk := (hasKey_iff hb hr).1 hx.2
    obtain ⟨v, c', h1, h2, h3, h4⟩ := ih hx.1 cache hc
    obtain ⟨r, g1, g2, g3⟩ := hV.modify v h3 k hk fun y => y + c
    refine ⟨r, c', by simp only [LExpr.eval, h1, Option.bind_eq_bind, Option.bind_some, g1], h2, g2, ?_⟩
    have : lieSer (hallTable w m) e (coef r) = lieSer (hallTable w m) e (coef v) + c • e k := by
      rw [← lieSer_single hb hk, ← lieSer_add]
      refine lieSer_congr hb fun j hj => ?_
      rw [g3 j hj]
      by_cases hjk : j = k
      · rw [if_pos hjk, if_pos hjk, hjk]
      · rw [if_neg hjk, if_neg hjk, add_zero]
    rw [this]
    exact EqUpTo.add h4 (EqUpTo.refl _ _)
  | neg a ih =>
    intro cache hc
    obtain ⟨v, c', h1, h2, h3, h4⟩ := ih hx cache hc
    obtain ⟨g1, g2⟩ := hV.unary v h3 (fun x => -x) neg_zero
    refine ⟨_, c', by simp only [LExpr.eval, h1]; rfl, h2, g1, ?_⟩
    have : lieSer (hallTable w m) e (coef (A.neg v)) = -lieSer (hallTable w m) e (coef v) := by
      rw [← lieSer_neg]
      exact lieSer_congr hb g2
    show EqUpTo (m + 1) (ser (A.neg v)) _
    rw [this]
    intro u hu
    rw [LExpr.value, Series.neg_apply, Series.neg_apply, h4 u hu]
  | smul a s ih =>
    intro cache hc
    obtain ⟨v, c', h1, h2, h3, h4⟩ := ih hx cache hc
    obtain ⟨g1, g2⟩ := hV.unary v h3 (fun x => x * s) (zero_mul s)
    refine ⟨_, c', by simp only [LExpr.eval, h1]; rfl, h2, g1, ?_⟩
    have : lieSer (hallTable w m) e (coef (A.toVecOps.smul v s)) =
        s • lieSer (hallTable w m) e (coef v) := by
      rw [← lieSer_smul]
      exact lieSer_congr hb fun k hk => (g2 k hk).trans (mul_comm _ _)
    show EqUpTo (m + 1) (ser (A.toVecOps.smul v s)) _
    rw [this]
    exact EqUpTo.smul s h4
  | sdiv a s ih =>
    intro cache hc
    obtain ⟨v, c', h1, h2, h3, h4⟩ := ih hx.1 cache hc
    obtain ⟨g1, g2⟩ := hV.unary v h3 (fun x => x / s) (zero_div s)
    refine ⟨_, c', by
      simp only [LExpr.eval, h1, Option.bind_eq_bind, Option.bind_some]
      unfold VecOps.sdiv
      rw [if_neg hx.2]
      rfl, h2, g1, ?_⟩
    have : lieSer (hallTable w m) e (coef (A.unary (fun x => x / s) v)) =
        s⁻¹ • lieSer (hallTable w m) e (coef v) := by
      rw [← lieSer_smul]
      exact lieSer_congr hb fun k hk => (g2 k hk).trans (by rw [div_eq_mul_inv, mul_comm])
    show EqUpTo (m + 1) (ser (A.unary (fun x => x / s) v)) _
    rw [this]
    exact EqUpTo.smul _ h4
  | add a b iha ihb =>
    intro cache hc
    obtain ⟨v, c1, h1, h2, h3, h4⟩ := iha hx.1 cache hc
    obtain ⟨v', c2, k1, k2, k3, k4⟩ := ihb hx.2 c1 h2
    obtain ⟨g1, g2⟩ := hV.binary v v' h3 k3 (fun x y => x + y) add_zero
      (fun _ r hr => by rwa [zero_add])
    refine ⟨_, c2, by simp only [LExpr.eval, h1, k1, Option.bind_eq_bind, Option.bind_some]; rfl,
      k2, g1, ?_⟩
    have : lieSer (hallTable w m) e (coef (A.add v v')) =
        lieSer (hallTable w m) e (coef v) + lieSer (hallTable w m) e (coef v') := by
      rw [← lieSer_add]
      exact lieSer_congr hb g2
    show EqUpTo (m + 1) (ser (A.add v v')) _
    rw [this]
    exact h4.add k4
  | sub a b iha ihb =>
    intro cache hc
    obtain ⟨v, c1, h1, h2, h3, h4⟩ := iha hx.1 cache hc
    obtain ⟨v', c2, k1, k2, k3, k4⟩ := ihb hx.2 c1 h2
    obtain ⟨g1, g2⟩ := hV.binary v v' h3 k3 (fun x y => x - y) sub_zero
      (fun _ r hr => by rwa [zero_sub, neg_ne_zero])
    refine ⟨_, c2, by simp only [LExpr.eval, h1, k1, Option.bind_eq_bind, Option.bind_some]; rfl,
      k2, g1, ?_⟩
    have : lieSer (hallTable w m) e (coef (A.sub v v')) =
        lieSer (hallTable w m) e (coef v) - lieSer (hallTable w m) e (coef v') := by
      rw [← lieSer_sub]
      exact lieSer_congr hb g2
    show EqUpTo (m + 1) (ser (A.sub v v')) _
    rw [this]
    exact h4.sub k4
  | addIn a b iha ihb =>
    intro cache hc
    obtain ⟨v, c1, h1, h2, h3, h4⟩ := iha hx.1 cache hc
    obtain ⟨v', c2, k1, k2, k3, k4⟩ := ihb hx.2 c1 h2
    obtain ⟨g1, g2⟩ := hV.binaryInplace v v' h3 k3 (fun x y => x + y) add_zero
      (fun _ r hr => by rwa [zero_add])
    refine ⟨_, c2, by simp only [LExpr.eval, h1, k1, Option.bind_eq_bind, Option.bind_some]; rfl,
      k2, g1, ?_⟩
    have : lieSer (hallTable w m) e (coef (A.addInplace v v')) =
        lieSer (hallTable w m) e (coef v) + lieSer (hallTable w m) e (coef v') := by
      rw [← lieSer_add]
      exact lieSer_congr hb g2
    show EqUpTo (m + 1) (ser (A.addInplace v v')) _
    rw [this]
    exact h4.add k4
  | subIn a b iha ihb =>
    intro cache hc
    obtain ⟨v, c1, h1, h2, h3, h4⟩ := iha hx.1 cache hc
    obtain ⟨v', c2, k1, k2, k3, k4⟩ := ihb hx.2 c1 h2
    obtain ⟨g1, g2⟩ := hV.binaryInplace v v' h3 k3 (fun x y => x - y) sub_zero
      (fun _ r hr => by rwa [zero_sub, neg_ne_zero])
    refine ⟨_, c2, by simp only [LExpr.eval, h1, k1, Option.bind_eq_bind, Option.bind_some]; rfl,
      k2, g1, ?_⟩
    have : lieSer (hallTable w m) e (coef (A.subInplace v v')) =
        lieSer (hallTable w m) e (coef v) - lieSer (hallTable w m) e (coef v') := by
      rw [← lieSer_sub]
      exact lieSer_congr hb g2
    show EqUpTo (m + 1) (ser (A.subInplace v v')) _
    rw [this]
    exact h4.sub k4
  | mul a b iha ihb =>
    intro cache hc
    obtain ⟨v, c1, h1, h2, h3, h4⟩ := iha hx.1 cache hc
    obtain ⟨v', c2, k1, k2, k3, k4⟩ := ihb hx.2 c1 h2
    obtain ⟨r, c3, g1, g2, g3, g4⟩ := hA.mul k2 h3 k3
    refine ⟨r, c3, by
      simp only [LExpr.eval, h1, k1, Option.bind_eq_bind, Option.bind_some]; exact g1, g2, g3, ?_⟩
    exact g4.trans ((h4.mul k4).sub (k4.mul h4))
  | mulIn a b iha ihb =>
    intro cache hc
    obtain ⟨v, c1, h1, h2, h3, h4⟩ := iha hx.1 cache hc
    obtain ⟨v', c2, k1, k2, k3, k4⟩ := ihb hx.2 c1 h2
    obtain ⟨r, c3, g1, g2, g3, g4⟩ := hA.mulInplace k2 h3 k3
    refine ⟨r, c3, by
      simp only [LExpr.eval, h1, k1, Option.bind_eq_bind, Option.bind_some]; exact g1, g2, g3, ?_⟩
    exact g4.trans ((h4.mul k4).sub (k4.mul h4))
  | comm a b iha ihb =>
    intro cache hc
    obtain ⟨v, c1, h1, h2, h3, h4⟩ := iha hx.1 cache hc
    obtain ⟨v', c2, k1, k2, k3, k4⟩ := ihb hx.2 c1 h2
    obtain ⟨r, c3, g1, g2, g3, g4⟩ := hA.commutator k2 h3 k3
    refine ⟨r, c3, by
      simp only [LExpr.eval, h1, k1, Option.bind_eq_bind, Option.bind_some]; exact g1, g2, g3, ?_⟩
    exact g4.trans (EqUpTo.smul 2 ((h4.mul k4).sub (k4.mul h4)))
  | mulScal a b c iha ihb =>
    intro cache hc
    obtain ⟨v, c1, h1, h2, h3, h4⟩ := iha hx.1 cache hc
    obtain ⟨v', c2, k1, k2, k3, k4⟩ := ihb hx.2 c1 h2
    obtain ⟨r, c3, g1, g2, g3, g4⟩ := hA.multiplyInplace k2 (op := fun s => s * c) (s := c)
      (fun x => mul_comm x c) h3 k3
    refine ⟨r, c3, by
      simp only [LExpr.eval, h1, k1, Option.bind_eq_bind, Option.bind_some]; exact g1, g2, g3, ?_⟩
    exact g4.trans (EqUpTo.smul c ((h4.mul k4).sub (k4.mul h4)))
  | mulDiv a b c iha ihb =>
    intro cache hc
    obtain ⟨v, c1, h1, h2, h3, h4⟩ := iha hx.1.1 cache hc
    obtain ⟨v', c2, k1, k2, k3, k4⟩ := ihb hx.1.2 c1 h2
    obtain ⟨r, c3, g1, g2, g3, g4⟩ := hA.multiplyInplace k2 (op := fun s => s / c) (s := c⁻¹)
      (fun x => by rw [div_eq_mul_inv, mul_comm]) h3 k3
    refine ⟨r, c3, by
      simp only [LExpr.eval, h1, k1, Option.bind_eq_bind, Option.bind_some, LieOps.mulScalDiv]
      rw [if_neg hx.2]
      exact g1, g2, g3, ?_⟩
    exact g4.trans (EqUpTo.smul c⁻¹ ((h4.mul k4).sub (k4.mul h4)))

end LieOps.Lawful

/-- coefficients are determined by the value -/
theorem lieSer_inj [CharZero K] (hr : Rep (hallTable w m) hs) (he : HallElems hs e) {c c' : Key → K}
    (h : EqUpTo (m + 1) (lieSer (hallTable w m) e c) (lieSer (hallTable w m) e c')) :
    ∀ k, ValidKey (lieStart (hallTable w m)) (m + 1) k → c k = c' k := by
  have hb := hallTable_isHall w m
  have conv : ∀ c : Key → K, lieSer (hallTable w m) e c =
      Lie.lieValue (hallTable w m) (hallPoly K (hallTable w m)) (coords (hallTable w m) c) := by
    intro c
    unfold lieSer Lie.lieValue
    refine Finset.sum_congr rfl fun i hi => ?_
    rw [Finset.mem_range] at hi
    rw [he.eq hr (by omega) (by omega)]
    rfl
  rw [conv c, conv c'] at h
  intro k hk
  obtain ⟨i, h1, h2, rfl⟩ := (validKey_iff hb).1 hk
  have := Lie.coords_unique hb h (i - 1) (by omega)
  simp only [coords, Nat.sub_add_cancel h1] at this
  exact this

end expr

section kinds
variable [Field K] [DecidableEq K] {w m : ℕ} {hs : HallSet}

theorem sparseLie_lawful (hnew : HallSet.new w (m + 1) = some hs) (hr : Rep (hallTable w m) hs) :
    ∃ n₀, ∀ fuel ≥ n₀, ∀ e : Key → Series (Fin w) K, HallElems hs e →
      (sparseLie hs (m + 1) fuel : LieOps K (Sparse K)).Lawful w m e Sparse.read
        (Sparse.GoodDeg (ValidKey (lieStart (hallTable w m)) (m + 1))) True := by
  obtain ⟨n₀, hn⟩ := prodSpec (K := K) hnew hr
  exact ⟨n₀, fun fuel hf e he =>
    { depth := rfl
      graded := Sparse.graded fun k hk => hk.1
      homog := fun k hk => he.homog hr hk
      prod := hn fuel hf e he }⟩

theorem denseLie_lawful (hw : 0 < w) (hnew : HallSet.new w (m + 1) = some hs)
    (hr : Rep (hallTable w m) hs) :
    ∃ n₀, ∀ fuel ≥ n₀, ∀ e : Key → Series (Fin w) K, HallElems hs e →
      (denseLie hs (hs.basis (m + 1) ((hallTable w m).start (m + 2) - 1)) fuel :
        LieOps K (Dense K)).Lawful w m e (Dense.coef (lieStart (hallTable w m)))
        (Dense.GoodDeg (lieStart (hallTable w m))) False := by
  obtain ⟨n₀, hn⟩ := prodSpec (K := K) hnew hr
  have hb := hallTable_isHall w m
  refine ⟨n₀, fun fuel hf e he =>
    { depth := rfl
      graded := Dense.graded (hallBasis_lawful hb hr) ?_
      homog := fun k hk => he.homog hr hk
      prod := hn fuel hf e he }⟩
  obtain ⟨-, h2⟩ : ValidKey (lieStart (hallTable w m)) (m + 1) ⟨1, 0⟩ :=
    (validKey_iff hb).2 ⟨1, by omega, (hb.letter_iff.2 ⟨le_rfl, hw⟩).lt hb,
      (keyAt_letter hb le_rfl hw).symm⟩
  have := lieStart_mono hb (show 1 + 1 ≤ m + 1 + 1 by omega)
  show 0 < lieStart (hallTable w m) (m + 1 + 1)
  dsimp only at h2
  omega

end kinds

end RoughPy.Lite
