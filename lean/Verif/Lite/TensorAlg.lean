import Verif.Lite.AlgLemmas
import Verif.Lite.TensorSpec

set_option linter.unusedSectionVars false

/-! # `exp`, `log`, `fmexp` and `inverse` over any lawful tensor type -/

namespace RoughPy.Lite

open RoughPy.Tensor RoughPy.Tensor.Series Finset

variable {K T : Type} [Field K] [DecidableEq K]

namespace AlgOps.LawfulTensor

variable {A : AlgOps K T} {w : ℕ} {ser : T → Series (Fin w) K} {Good Tight Full : T → Prop}

theorem mulScalDiv (hA : A.LawfulTensor w ser Good Tight Full) {a b : T} (ha : Good a) (hb : Good b)
    {c : K} (hc : c ≠ 0) {m : ℕ} (hm : m ≤ A.depth) :
    ∃ r, A.mulScalDiv a b c m = some r ∧ Good r ∧ (Full a → Full b → Full r) ∧
      EqUpTo m (ser r) (c⁻¹ • (ser a * ser b)) := by
  unfold AlgOps.mulScalDiv
  rw [if_neg hc]
  obtain ⟨r, e1, e2, e2', e3⟩ := hA.multiplyInplace a b ha hb (fun s => s / c) (zero_div c) m
  exact ⟨r, e1, e2, e2', fun u hu => (e3 u (by omega)).trans (sum_mul_div _ _ c u)⟩

theorem mulInplace (hA : A.LawfulTensor w ser Good Tight Full) {a b : T} (ha : Good a) (hb : Good b) :
    ∃ r, A.mulInplace a b = some r ∧ Good r ∧ (Full a → Full b → Full r) ∧
      EqUpTo A.depth (ser r) (ser a * ser b) := by
  unfold AlgOps.mulInplace
  by_cases h1 : A.empty b = true
  · rw [if_pos h1]
    refine ⟨_, rfl, (hA.clear a ha).1, fun _ h => hA.clear_full b h h1 a ha,
      (hA.clear a ha).2.trans ?_⟩
    have := EqUpTo.mul (EqUpTo.refl A.depth (ser a)) (hA.empty b hb h1)
    rw [mul_zero] at this
    exact this.symm
  · rw [if_neg h1]
    by_cases h2 : (!A.empty a) = true
    · rw [if_pos h2]
      obtain ⟨r, e1, e2, e2', e3⟩ := hA.multiplyInplace a b ha hb (fun s => s) rfl A.depth
      exact ⟨r, e1, e2, e2', fun u hu => e3 u (by rw [Nat.min_self]; exact hu)⟩
    · rw [if_neg h2]
      refine ⟨_, rfl, ha, fun h _ => h, ?_⟩
      have h3 := hA.empty a ha (by simpa using h2)
      have := EqUpTo.mul h3 (EqUpTo.refl A.depth (ser b))
      rw [zero_mul] at this
      exact h3.trans this.symm

theorem noScalarPart (hA : A.LawfulTensor w ser Good Tight Full) {a : T} (ha : Good a) :
    ∃ r, A.modify a ⟨0, 0⟩ (fun _ => 0) = some r ∧ Full r ∧
      EqUpTo A.depth (ser r) (noScalar (ser a)) := by
  obtain ⟨r, e1, e2, e3⟩ := hA.modify a ha [] (Nat.zero_le _) fun _ => 0
  exact ⟨r, e1, e2, fun u hu => e3 u hu⟩

theorem scalar (hA : A.LawfulTensor w ser Good Tight Full) (c : K) :
    ∃ r, A.single ⟨0, 0⟩ c = some r ∧ Full r ∧ EqUpTo A.depth (ser r) (c • 1) := by
  obtain ⟨r, e1, e2, e3⟩ := hA.single [] (Nat.zero_le _) c
  exact ⟨r, e1, e2, fun u hu => by rw [smul_one_apply]; exact e3 u hu⟩

variable [CharZero K]

/-- `fmexp` multiplies by the exponential of the argument without its scalar part. -/
theorem fmexp (hA : A.LawfulTensor w ser Good Tight Full) {self arg : T} (hs : Good self)
    (ha : Good arg) : ∃ r, A.fmexp self arg = some r ∧ Full r ∧
      EqUpTo A.depth (ser r) (ser self * texp (noScalar (ser arg))) := by
  have hg : ∀ {v}, Full v → Good v := fun h => hA.good _ (hA.tight _ h)
  obtain ⟨x, hx1, hx2, hx3⟩ := hA.noScalarPart ha
  obtain ⟨r0, h1, h2, h3⟩ := hA.resize self hs
  set X := noScalar (ser arg) with hX
  have hX0 : X [] = 0 := rfl
  have hx0 : ser x [] = 0 := by rw [hx3 [] (Nat.zero_le _)]; rfl
  have hl := loop_map_range_inv
    (I := fun j r => Full r ∧ EqUpTo j (ser r) (expHorner A.depth (ser self) X j))
    A.depth (fun i => A.depth - i)
    (fun result i => do
      let result ← A.mulScalDiv result x (i : K) (A.depth - i + 1)
      some (A.addInplace result self)) r0
    ⟨h2, h3.mono (Nat.zero_le _)⟩
    (by
      rintro i hi r ⟨hr1, hr2⟩
      have hc : ((A.depth - i : ℕ) : K) ≠ 0 := by exact_mod_cast (by omega : A.depth - i ≠ 0)
      obtain ⟨q, q1, q2, q2', q3⟩ := hA.mulScalDiv (hg hr1) (hg hx2) hc
        (m := A.depth - (A.depth - i) + 1) (by omega)
      obtain ⟨-, p1, -, p2⟩ := hA.addInplace q self q2 hs
      refine ⟨A.addInplace q self, ?_, p1 (Or.inl (q2' hr1 hx2)), ?_⟩
      · simp only [q1, Option.bind_eq_bind, Option.bind_some]
      · have hm : A.depth - (A.depth - i) + 1 = i + 1 := by omega
        rw [hm] at q3
        refine (p2.mono (by omega)).trans ?_
        rw [expHorner, add_comm (ser q)]
        refine EqUpTo.add (EqUpTo.refl _ _) (q3.trans ?_)
        rw [one_div]
        refine EqUpTo.smul _ ?_
        exact (EqUpTo.mul_succ hr2 hx0).trans
          (EqUpTo.mul (EqUpTo.refl _ _) (hx3.mono (by omega))))
  obtain ⟨r, hr, hr1, hr2⟩ := hl
  refine ⟨r, ?_, hr1, hr2.trans (expHorner_full A.depth (ser self) X hX0)⟩
  unfold AlgOps.fmexp
  rw [hx1]
  simp only [Option.bind_eq_bind, Option.bind_some]
  rw [h1]
  simp only [Option.bind_some]
  have hd := degreesDown_nat A.depth 1
  rw [Nat.add_sub_cancel] at hd
  rw [show degreesDown (A.depth : ℤ) 1 = degreesDown (A.depth : ℤ) ((1 : ℕ) : ℤ) from rfl, hd]
  exact hr

/-- `exp` computes the exponential sum up to the depth. -/
theorem exp (hA : A.LawfulTensor w ser Good Tight Full) {arg : T} (ha : Good arg) :
    ∃ r, A.exp arg = some r ∧ Full r ∧ EqUpTo A.depth (ser r)
      (∑ n ∈ range (A.depth + 1), ((n.factorial : K)⁻¹) • ser arg ^ n) := by
  have hg : ∀ {v}, Full v → Good v := fun h => hA.good _ (hA.tight _ h)
  obtain ⟨s0, g1, g2, g3⟩ := hA.scalar 1
  rw [one_smul] at g3
  obtain ⟨r0, h1, h2, h3⟩ := hA.resize s0 (hg g2)
  have hl := loop_map_range_inv
    (I := fun j r => Full r ∧ EqUpTo A.depth (ser r) (expHorner A.depth 1 (ser arg) j))
    A.depth (fun i => A.depth - i)
    (fun result i => do
      let result ← A.mulScalDiv result arg (i : K) A.depth
      some (A.addInplace result s0)) r0
    ⟨h2, h3.trans g3⟩
    (by
      rintro i hi r ⟨hr1, hr2⟩
      have hc : ((A.depth - i : ℕ) : K) ≠ 0 := by exact_mod_cast (by omega : A.depth - i ≠ 0)
      obtain ⟨q, q1, q2, q2', q3⟩ := hA.mulScalDiv (hg hr1) ha hc (m := A.depth) le_rfl
      obtain ⟨-, p1, -, p2⟩ := hA.addInplace q s0 q2 (hg g2)
      refine ⟨A.addInplace q s0, ?_, p1 (Or.inr g2), ?_⟩
      · simp only [q1, Option.bind_eq_bind, Option.bind_some]
      · refine p2.trans ?_
        rw [expHorner, add_comm (ser q)]
        refine EqUpTo.add g3 (q3.trans ?_)
        rw [one_div]
        exact EqUpTo.smul _ (EqUpTo.mul hr2 (EqUpTo.refl _ _)))
  obtain ⟨r, hr, hr1, hr2⟩ := hl
  refine ⟨r, ?_, hr1, hr2.trans ?_⟩
  · unfold AlgOps.exp
    rw [g1]
    simp only [Option.bind_eq_bind, Option.bind_some]
    rw [h1]
    simp only [Option.bind_some]
    have hd := degreesDown_nat A.depth 1
    rw [Nat.add_sub_cancel] at hd
    rw [show degreesDown (A.depth : ℤ) 1 = degreesDown (A.depth : ℤ) ((1 : ℕ) : ℤ) from rfl, hd]
    exact hr
  · rw [expHorner_eq A.depth 1 (ser arg) A.depth le_rfl]
    intro u _
    rw [Series.sum_apply, Series.sum_apply]
    refine sum_congr rfl fun n _ => ?_
    rw [Nat.sub_self, Nat.zero_add, Nat.factorial_zero, Nat.cast_one, one_div, one_mul]

/-- without scalar part the sum is the exponential -/
theorem sum_exp_eq {x : Series (Fin w) K} (hx : x [] = 0) (D : ℕ) :
    EqUpTo D (∑ n ∈ range (D + 1), ((n.factorial : K)⁻¹) • x ^ n) (texp x) := by
  have h := expHorner_full D 1 x hx
  rw [one_mul] at h
  refine EqUpTo.trans ?_ h
  rw [expHorner_eq D 1 x D le_rfl]
  intro u _
  rw [Series.sum_apply, Series.sum_apply]
  refine sum_congr rfl fun n _ => ?_
  rw [Nat.sub_self, Nat.zero_add, Nat.factorial_zero, Nat.cast_one, one_div, one_mul]

/-- `log` computes the logarithm of the argument with scalar part replaced by one. -/
theorem log (hA : A.LawfulTensor w ser Good Tight Full) {arg : T} (ha : Good arg) :
    ∃ r, A.log arg = some r ∧ Full r ∧
      EqUpTo A.depth (ser r) (tlog (1 + noScalar (ser arg))) := by
  have hg : ∀ {v}, Full v → Good v := fun h => hA.good _ (hA.tight _ h)
  obtain ⟨x, hx1, hx2, hx3⟩ := hA.noScalarPart ha
  obtain ⟨s0, g1, g2, g3⟩ := hA.scalar 1
  rw [one_smul] at g3
  obtain ⟨r0, h1, h2, h3⟩ := hA.resize A.new (hA.good _ hA.new_tight)
  set X := noScalar (ser arg) with hX
  have hl := loop_map_range_inv
    (I := fun j r => Full r ∧ EqUpTo A.depth (ser r) (logHorner A.depth X j))
    A.depth (fun i => A.depth - i)
    (fun result i => do
      let result ← if i % 2 = 0 then A.subScalDiv result s0 (i : K)
        else A.addScalDiv result s0 (i : K)
      A.mulInplace result x) r0
    ⟨h2, h3.trans hA.new_ser⟩
    (by
      rintro i hi r ⟨hr1, hr2⟩
      have hc : ((A.depth - i : ℕ) : K) ≠ 0 := by exact_mod_cast (by omega : A.depth - i ≠ 0)
      have hstep : ∃ q, (if (A.depth - i) % 2 = 0 then A.subScalDiv r s0 ((A.depth - i : ℕ) : K)
          else A.addScalDiv r s0 ((A.depth - i : ℕ) : K)) = some q ∧ Full q ∧
          EqUpTo A.depth (ser q) (logHorner A.depth X i +
            ((-1) ^ (A.depth - i + 1) / ((A.depth - i : ℕ) : K)) • 1) := by
        by_cases hpar : (A.depth - i) % 2 = 0
        · rw [if_pos hpar]
          obtain ⟨q, q1, -, q2, q3⟩ := hA.subScalDiv r s0 _ (hg hr1) (hg g2) hc
          refine ⟨q, q1, q2 hr1, q3.trans ?_⟩
          have hodd : (-1 : K) ^ (A.depth - i + 1) = -1 :=
            Odd.neg_one_pow (Nat.odd_iff.2 (by omega))
          rw [hodd, neg_div, neg_smul, ← sub_eq_add_neg, one_div]
          exact EqUpTo.sub hr2 (EqUpTo.smul _ g3)
        · rw [if_neg hpar]
          obtain ⟨q, q1, -, q2, q3⟩ := hA.addScalDiv r s0 _ (hg hr1) (hg g2) hc
          refine ⟨q, q1, q2 hr1, q3.trans ?_⟩
          have heven : (-1 : K) ^ (A.depth - i + 1) = 1 :=
            Even.neg_one_pow (Nat.even_iff.2 (by omega))
          rw [heven, one_div]
          exact EqUpTo.add hr2 (EqUpTo.smul _ g3)
      obtain ⟨q, q1, q2, q3⟩ := hstep
      obtain ⟨p, p1, -, p2, p3⟩ := hA.mulInplace (hg q2) (hg hx2)
      refine ⟨p, ?_, p2 q2 hx2, ?_⟩
      · by_cases hpar : (A.depth - i) % 2 = 0
        · rw [if_pos hpar] at q1 ⊢
          rw [q1]; exact p1
        · rw [if_neg hpar] at q1 ⊢
          rw [q1]; exact p1
      · rw [logHorner]
        exact p3.trans (EqUpTo.mul q3 hx3))
  obtain ⟨r, hr, hr1, hr2⟩ := hl
  refine ⟨r, ?_, hr1, hr2.trans (logHorner_full A.depth X rfl)⟩
  unfold AlgOps.log
  rw [hx1]
  simp only [Option.bind_eq_bind, Option.bind_some]
  rw [h1, g1]
  simp only [Option.bind_some]
  have hd := degreesDown_nat A.depth 1
  rw [Nat.add_sub_cancel] at hd
  rw [show degreesDown (A.depth : ℤ) 1 = degreesDown (A.depth : ℤ) ((1 : ℕ) : ℤ) from rfl, hd]
  exact hr

/-- `inverse` computes the geometric series of the argument without its scalar part, with the sign
of a difference. -/
theorem inverse (hA : A.LawfulTensor w ser Good Tight Full) {arg : T} (ha : Good arg)
    (h0 : ser arg [] ≠ 0) : ∃ r, A.inverse arg = some r ∧ Tight r ∧
      EqUpTo A.depth (ser r * ((ser arg []) • 1 - noScalar (ser arg))) 1 ∧
      EqUpTo A.depth (((ser arg []) • 1 - noScalar (ser arg)) * ser r) 1 := by
  set a := ser arg [] with hadef
  set X := noScalar (ser arg) with hX
  have hX0 : X [] = 0 := rfl
  have hg : ∀ {v}, Full v → Good v := fun h => hA.good _ (hA.tight _ h)
  obtain ⟨x, hx1, hx2, hx3⟩ := hA.noScalarPart ha
  obtain ⟨s0, g1, g2, g3⟩ := hA.scalar (1 / a)
  obtain ⟨r0, h1, h2, h3⟩ := hA.resize s0 (hg g2)
  obtain ⟨z, z1, z2, z3⟩ := hA.sdiv x a (hA.tight _ hx2) h0
  have hz : EqUpTo A.depth (ser z) (a⁻¹ • X) := z3.trans (EqUpTo.smul _ hx3)
  have hl := loop_range_inv
    (I := fun j r => Tight r ∧ EqUpTo A.depth (ser r)
      (∑ n ∈ range (j + 1), (a⁻¹ • X) ^ n * (a⁻¹ • 1)))
    A.depth
    (fun result _ => do
      let p ← A.mul z result
      some (A.add s0 p)) r0
    ⟨hA.tight _ h2, (h3.trans g3).trans (by
      rw [sum_range_one, pow_zero, one_mul, one_div]; exact EqUpTo.refl _ _)⟩
    (by
      rintro i hi r ⟨hr1, hr2⟩
      obtain ⟨p, p1, p2, p3⟩ := hA.mul z r (hA.good _ z2) (hA.good _ hr1)
      obtain ⟨q1, q2⟩ := hA.add s0 p (hA.tight _ g2) p2
      refine ⟨A.add s0 p, ?_, q1, q2.trans ?_⟩
      · simp only [p1, Option.bind_eq_bind, Option.bind_some]
      · rw [sum_range_succ', pow_zero, one_mul, add_comm]
        refine EqUpTo.add ?_ (by rw [← one_div]; exact g3)
        refine p3.trans ((EqUpTo.mul hz hr2).trans ?_)
        rw [mul_sum]
        intro u _
        rw [Series.sum_apply, Series.sum_apply]
        refine sum_congr rfl fun n _ => ?_
        rw [← mul_assoc, ← pow_succ'])
  obtain ⟨r, hr, hr1, hr2⟩ := hl
  refine ⟨r, ?_, hr1, ?_⟩
  · unfold AlgOps.inverse
    rw [hA.read arg ha h0]
    simp only [Option.bind_eq_bind, Option.bind_some]
    rw [if_neg h0, hx1]
    simp only [Option.bind_some]
    rw [g1]
    simp only [Option.bind_some]
    rw [h1, z1]
    exact hr
  · set Y := a⁻¹ • X with hY
    have hY0 : Y [] = 0 := by rw [hY, Series.smul_apply, hX0, mul_zero]
    have hpow : EqUpTo A.depth (Y ^ (A.depth + 1)) 0 := fun u hu =>
      pow_apply_eq_zero hY0 _ u (by omega)
    have hfac : a • (1 : Series (Fin w) K) - X = a • (1 - Y) := by
      rw [smul_sub, hY, smul_smul, mul_inv_cancel₀ h0, one_smul]
    have hsum : (∑ n ∈ range (A.depth + 1), Y ^ n * (a⁻¹ • (1 : Series (Fin w) K))) =
        a⁻¹ • ∑ n ∈ range (A.depth + 1), Y ^ n := by
      rw [smul_sum]
      refine sum_congr rfl fun n _ => ?_
      rw [mul_smul_comm, mul_one]
    rw [hsum] at hr2
    constructor
    · refine (EqUpTo.mul hr2 (EqUpTo.refl _ _)).trans ?_
      rw [hfac, smul_mul_smul_comm, inv_mul_cancel₀ h0, one_smul, geom_sum_mul_neg]
      have := EqUpTo.sub (EqUpTo.refl A.depth (1 : Series (Fin w) K)) hpow
      rwa [sub_zero] at this
    · refine (EqUpTo.mul (EqUpTo.refl _ _) hr2).trans ?_
      rw [hfac, smul_mul_smul_comm, mul_inv_cancel₀ h0, one_smul, mul_neg_geom_sum]
      have := EqUpTo.sub (EqUpTo.refl A.depth (1 : Series (Fin w) K)) hpow
      rwa [sub_zero] at this

end AlgOps.LawfulTensor

namespace TExpr
variable {w : ℕ}

/-- The expression evaluates, to a vector denoting its value. -/
theorem eval_spec [CharZero K] {A : AlgOps K T} {ser : T → Series (Fin w) K}
    {Good Tight Full : T → Prop} (hA : A.LawfulTensor w ser Good Tight Full) (e : TExpr w K)
    (he : e.Ok A.depth) :
    ∃ v, e.eval A = some v ∧ Tight v ∧ EqUpTo A.depth (ser v) (e.value A.depth) := by
  induction e with
  | word u c =>
    obtain ⟨v, h1, h2, h3⟩ := hA.single u he c
    exact ⟨v, h1, hA.tight _ h2, h3⟩
  | addCoef e u c ih =>
    obtain ⟨v, h1, h2, h3⟩ := ih he.1
    obtain ⟨r, g1, g2, g3⟩ := hA.modify v (hA.good _ h2) u he.2 fun x => x + c
    refine ⟨r, by simp only [eval, h1]; exact g1, hA.tight _ g2, fun u' hu' => ?_⟩
    rw [g3 u' hu']
    show _ = value A.depth e u' + if u' = u then c else 0
    split_ifs with h
    · subst h; rw [h3 _ hu']
    · rw [h3 _ hu', add_zero]
  | neg e ih =>
    obtain ⟨v, h1, h2, h3⟩ := ih he
    obtain ⟨g1, g2⟩ := hA.neg v h2
    refine ⟨_, by simp only [eval, h1]; rfl, g1, g2.trans fun u hu => ?_⟩
    rw [value, Series.neg_apply, Series.neg_apply, h3 u hu]
  | smul e c ih =>
    obtain ⟨v, h1, h2, h3⟩ := ih he
    obtain ⟨g1, g2⟩ := hA.smul v c h2
    exact ⟨_, by simp only [eval, h1]; rfl, g1, g2.trans (h3.smul c)⟩
  | sdiv e c ih =>
    obtain ⟨v, h1, h2, h3⟩ := ih he.1
    obtain ⟨r, g0, g1, g2⟩ := hA.sdiv v c h2 he.2
    exact ⟨r, by simp only [eval, h1]; exact g0, g1, g2.trans (h3.smul _)⟩
  | add a b iha ihb =>
    obtain ⟨v, h1, h2, h3⟩ := iha he.1
    obtain ⟨x, k1, k2, k3⟩ := ihb he.2
    obtain ⟨g1, g2⟩ := hA.add v x h2 k2
    exact ⟨_, by simp only [eval, h1, k1]; rfl, g1, g2.trans (h3.add k3)⟩
  | sub a b iha ihb =>
    obtain ⟨v, h1, h2, h3⟩ := iha he.1
    obtain ⟨x, k1, k2, k3⟩ := ihb he.2
    obtain ⟨g1, g2⟩ := hA.sub v x h2 k2
    exact ⟨_, by simp only [eval, h1, k1]; rfl, g1, g2.trans (h3.sub k3)⟩
  | addIn a b iha ihb =>
    obtain ⟨v, h1, h2, h3⟩ := iha he.1
    obtain ⟨x, k1, k2, k3⟩ := ihb he.2
    obtain ⟨-, -, g1, g2⟩ := hA.addInplace v x (hA.good _ h2) (hA.good _ k2)
    exact ⟨_, by simp only [eval, h1, k1]; rfl, g1 h2, g2.trans (h3.add k3)⟩
  | subIn a b iha ihb =>
    obtain ⟨v, h1, h2, h3⟩ := iha he.1
    obtain ⟨x, k1, k2, k3⟩ := ihb he.2
    obtain ⟨-, -, g1, g2⟩ := hA.subInplace v x (hA.good _ h2) (hA.good _ k2)
    exact ⟨_, by simp only [eval, h1, k1]; rfl, g1 h2, g2.trans (h3.sub k3)⟩
  | mul a b iha ihb =>
    obtain ⟨v, h1, h2, h3⟩ := iha he.1
    obtain ⟨x, k1, k2, k3⟩ := ihb he.2
    obtain ⟨r, g0, g1, g2⟩ := hA.mul v x (hA.good _ h2) (hA.good _ k2)
    exact ⟨r, by simp only [eval, h1, k1]; exact g0, g1, g2.trans (h3.mul k3)⟩
  | comm a b iha ihb =>
    obtain ⟨v, h1, h2, h3⟩ := iha he.1
    obtain ⟨x, k1, k2, k3⟩ := ihb he.2
    obtain ⟨r, g0, g1, g2⟩ := hA.commutator v x (hA.good _ h2) (hA.good _ k2)
    exact ⟨r, by simp only [eval, h1, k1]; exact g0, g1,
      g2.trans ((h3.mul k3).sub (k3.mul h3))⟩
  | exp e ih =>
    obtain ⟨v, h1, h2, h3⟩ := ih he
    obtain ⟨r, g0, g1, g2⟩ := hA.exp (hA.good _ h2)
    refine ⟨r, by simp only [eval, h1]; exact g0, hA.tight _ g1, g2.trans fun u hu => ?_⟩
    rw [Series.sum_apply, value]
    refine sum_congr rfl fun n _ => ?_
    rw [Series.smul_apply, power_eq, h3.pow n u hu]
  | log e ih =>
    obtain ⟨v, h1, h2, h3⟩ := ih he
    obtain ⟨r, g0, g1, g2⟩ := hA.log (hA.good _ h2)
    refine ⟨r, by simp only [eval, h1]; exact g0, hA.tight _ g1, g2.trans ?_⟩
    refine EqUpTo.tlog (EqUpTo.add (EqUpTo.refl _ _) fun u hu => ?_)
    unfold noScalar
    rw [h3 u hu]
  | fmexp a x iha ihx =>
    obtain ⟨v, h1, h2, h3⟩ := iha he.1
    obtain ⟨x, k1, k2, k3⟩ := ihx he.2
    obtain ⟨r, g0, g1, g2⟩ := hA.fmexp (hA.good _ h2) (hA.good _ k2)
    refine ⟨r, by simp only [eval, h1, k1]; exact g0, hA.tight _ g1, g2.trans ?_⟩
    refine h3.mul (EqUpTo.texp fun u hu => ?_)
    unfold noScalar
    rw [k3 u hu]

end TExpr

end RoughPy.Lite
