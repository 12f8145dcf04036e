import Verif.Lite.HandleSpec
import Verif.Lite.ContextStored

/-!
# Lemmas on programs on elements
-/

namespace RoughPy.Handles

open RoughPy.Lite RoughPy.Lie RoughPy.Tensor RoughPy.Tensor.Series

variable {K V T : Type} [Field K] [DecidableEq K] {w : ℕ}

theorem EqUpTo.neg {d : ℕ} {f g : Series (Fin w) K} (h : EqUpTo d f g) : EqUpTo d (-f) (-g) :=
  fun u hu => by rw [Series.neg_apply, Series.neg_apply, h u hu]

theorem EqUpTo.sub {d : ℕ} {f g f' g' : Series (Fin w) K} (h : EqUpTo d f g) (h' : EqUpTo d f' g') :
    EqUpTo d (f - f') (g - g') := by
  rw [sub_eq_add_neg, sub_eq_add_neg]
  exact Series.EqUpTo.add h (EqUpTo.neg h')

theorem eqUpTo_smul_zero {d : ℕ} {f : Series (Fin w) K} {s : K} (hs : s ≠ 0) :
    EqUpTo d (s • f) 0 ↔ EqUpTo d f 0 := by
  constructor
  · intro h
    have := Series.EqUpTo.smul s⁻¹ h
    rw [smul_smul, inv_mul_cancel₀ hs, one_smul, smul_zero] at this
    exact this
  · intro h
    have := Series.EqUpTo.smul s h
    rwa [smul_zero] at this

/-- What is needed of vectors of one storage type. -/
structure Side (A : VecOps K T) (mul mulIn : T → T → Option T) (depth : ℕ)
    (bmul : Series (Fin w) K → Series (Fin w) K → Series (Fin w) K)
    (den : T → Series (Fin w) K → Prop) (clears selfOk : Prop) : Prop where
  congr : ∀ v f g, den v f → EqUpTo depth f g → den v g
  new : den A.new 0
  clear : clears → ∀ v f, den v f → den (A.clear v) 0
  size : ∀ v f, den v f → (A.size v = 0 ↔ EqUpTo depth f 0)
  neg : ∀ v f, den v f → den (A.neg v) (-f)
  smul : ∀ v f s, den v f → den (A.smul v s) (s • f)
  smulIn : ∀ v f s, den v f → den (A.smulInplace v s) (s • f)
  sdiv : ∀ v f s, den v f → s ≠ 0 → ∃ r, A.sdiv v s = some r ∧ den r (s⁻¹ • f)
  sdivIn : ∀ v f s, den v f → s ≠ 0 → ∃ r, A.sdivInplace v s = some r ∧ den r (s⁻¹ • f)
  add : ∀ v f u g, den v f → den u g → den (A.add v u) (f + g)
  sub : ∀ v f u g, den v f → den u g → den (A.sub v u) (f - g)
  addIn : ∀ v f u g, den v f → den u g → den (A.addInplace v u) (f + g)
  subIn : ∀ v f u g, den v f → den u g → den (A.subInplace v u) (f - g)
  addSelf : ∀ v f, den v f → ∃ r, A.binarySelf (fun l r => l + r) v = some r ∧ den r (f + f)
  subSelf : selfOk → ∀ v f, den v f →
    ∃ r, A.binarySelf (fun l r => l - r) v = some r ∧ den r (f - f)
  mul : ∀ v f u g, den v f → den u g → ∃ r, mul v u = some r ∧ den r (bmul f g)
  mulIn : ∀ v f u g, den v f → den u g → clears ∨ ¬ EqUpTo depth g 0 →
    ∃ r, mulIn v u = some r ∧ den r (bmul f g)
  beq : ∀ v f u g, den v f → den u g → (A.beq v u = true ↔ EqUpTo depth f g)

/-- What is needed of the vectors of a context. -/
structure Backend.Lawful (B : Backend K V) (depth : ℕ)
    (bmul : Series (Fin w) K → Series (Fin w) K → Series (Fin w) K)
    (den : V → Series (Fin w) K → Prop) (clears : VecType → Prop) : Prop where
  congr : ∀ v f g, den v f → EqUpTo depth f g → den v g
  convert : ∀ v f t, den v f → ∃ r, B.convert v t = some r ∧ B.storage r = t ∧ den r f
  zeroLike : ∀ v, B.storage (B.zeroLike v) = B.storage v ∧ den (B.zeroLike v) 0
  clear : ∀ v f, clears (B.storage v) → den v f →
    B.storage (B.clear v) = B.storage v ∧ den (B.clear v) 0
  isZero : ∀ v f, den v f → (B.isZero v = true ↔ EqUpTo depth f 0)
  neg : ∀ v f, den v f → B.storage (B.neg v) = B.storage v ∧ den (B.neg v) (-f)
  smul : ∀ v f s, den v f → B.storage (B.smul v s) = B.storage v ∧ den (B.smul v s) (s • f)
  smulIn : ∀ v f s, den v f → B.storage (B.smulIn v s) = B.storage v ∧ den (B.smulIn v s) (s • f)
  sdiv : ∀ v f s, den v f → s ≠ 0 →
    ∃ r, B.sdiv v s = some r ∧ B.storage r = B.storage v ∧ den r (s⁻¹ • f)
  sdivIn : ∀ v f s, den v f → s ≠ 0 →
    ∃ r, B.sdivIn v s = some r ∧ B.storage r = B.storage v ∧ den r (s⁻¹ • f)
  add : ∀ v f u g, den v f → den u g → B.storage v = B.storage u →
    ∃ r, B.add v u = some r ∧ B.storage r = B.storage v ∧ den r (f + g)
  sub : ∀ v f u g, den v f → den u g → B.storage v = B.storage u →
    ∃ r, B.sub v u = some r ∧ B.storage r = B.storage v ∧ den r (f - g)
  addIn : ∀ v f u g, den v f → den u g → B.storage v = B.storage u →
    ∃ r, B.addIn v u = some r ∧ B.storage r = B.storage v ∧ den r (f + g)
  subIn : ∀ v f u g, den v f → den u g → B.storage v = B.storage u →
    ∃ r, B.subIn v u = some r ∧ B.storage r = B.storage v ∧ den r (f - g)
  addSelf : ∀ v f, den v f → ∃ r, B.addSelf v = some r ∧ B.storage r = B.storage v ∧ den r (f + f)
  subSelf : ∀ v f, B.storage v ≠ .sparse → den v f →
    ∃ r, B.subSelf v = some r ∧ B.storage r = B.storage v ∧ den r (f - f)
  mul : ∀ v f u g, den v f → den u g → B.storage v = B.storage u →
    ∃ r, B.mul v u = some r ∧ B.storage r = B.storage v ∧ den r (bmul f g)
  mulIn : ∀ v f u g, den v f → den u g → B.storage v = B.storage u →
    clears (B.storage v) ∨ ¬ EqUpTo depth g 0 →
    ∃ r, B.mulIn v u = some r ∧ B.storage r = B.storage v ∧ den r (bmul f g)
  beq : ∀ v f u g, den v f → den u g → B.storage v = B.storage u →
    ∃ b, B.beq v u = some b ∧ (b = true ↔ EqUpTo depth f g)

/-- the meaning of a vector of either storage type -/
def denOf (dS : Sparse K → Series (Fin w) K → Prop) (dD : Dense K → Series (Fin w) K → Prop) :
    Stored K → Series (Fin w) K → Prop
  | .sparse v, f => dS v f
  | .dense v, f => dD v f

theorem storedBackend_lawful {S : VecOps K (Sparse K)} {D : VecOps K (Dense K)}
    {convert : Stored K → VecType → Option (Stored K)}
    {mulS mulInS : Sparse K → Sparse K → Option (Sparse K)}
    {mulD mulInD : Dense K → Dense K → Option (Dense K)} {depth : ℕ}
    {bmul : Series (Fin w) K → Series (Fin w) K → Series (Fin w) K}
    {dS : Sparse K → Series (Fin w) K → Prop} {dD : Dense K → Series (Fin w) K → Prop}
    {clears : VecType → Prop}
    (hS : Side S mulS mulInS depth bmul dS (clears .sparse) False)
    (hD : Side D mulD mulInD depth bmul dD (clears .dense) True)
    (hconv : ∀ v f t, denOf dS dD v f → ∃ r, convert v t = some r ∧ r.vecType = t ∧ denOf dS dD r f) :
    (storedBackend S D convert mulS mulInS mulD mulInD).Lawful depth bmul (denOf dS dD) clears where
  congr v f g := by
    cases v with
    | sparse v => exact hS.congr v f g
    | dense v => exact hD.congr v f g
  convert := hconv
  zeroLike v := by
    cases v with
    | sparse v => exact ⟨rfl, hS.new⟩
    | dense v => exact ⟨rfl, hD.new⟩
  clear v f hc h := by
    cases v with
    | sparse v => exact ⟨rfl, hS.clear hc v f h⟩
    | dense v => exact ⟨rfl, hD.clear hc v f h⟩
  isZero v f h := by
    cases v with
    | sparse v => exact (beq_iff_eq).trans (hS.size v f h)
    | dense v => exact (beq_iff_eq).trans (hD.size v f h)
  neg v f h := by
    cases v with
    | sparse v => exact ⟨rfl, hS.neg v f h⟩
    | dense v => exact ⟨rfl, hD.neg v f h⟩
  smul v f s h := by
    cases v with
    | sparse v => exact ⟨rfl, hS.smul v f s h⟩
    | dense v => exact ⟨rfl, hD.smul v f s h⟩
  smulIn v f s h := by
    cases v with
    | sparse v => exact ⟨rfl, hS.smulIn v f s h⟩
    | dense v => exact ⟨rfl, hD.smulIn v f s h⟩
  sdiv v f s h hs := by
    cases v with
    | sparse v =>
      obtain ⟨r, h1, h2⟩ := hS.sdiv v f s h hs
      exact ⟨.sparse r, congrArg (Option.map Stored.sparse) h1, rfl, h2⟩
    | dense v =>
      obtain ⟨r, h1, h2⟩ := hD.sdiv v f s h hs
      exact ⟨.dense r, congrArg (Option.map Stored.dense) h1, rfl, h2⟩
  sdivIn v f s h hs := by
    cases v with
    | sparse v =>
      obtain ⟨r, h1, h2⟩ := hS.sdivIn v f s h hs
      exact ⟨.sparse r, congrArg (Option.map Stored.sparse) h1, rfl, h2⟩
    | dense v =>
      obtain ⟨r, h1, h2⟩ := hD.sdivIn v f s h hs
      exact ⟨.dense r, congrArg (Option.map Stored.dense) h1, rfl, h2⟩
  add v f u g h h' hs := by
    cases v <;> cases u
    · exact ⟨_, rfl, rfl, hS.add _ f _ g h h'⟩
    · cases hs
    · cases hs
    · exact ⟨_, rfl, rfl, hD.add _ f _ g h h'⟩
  sub v f u g h h' hs := by
    cases v <;> cases u
    · exact ⟨_, rfl, rfl, hS.sub _ f _ g h h'⟩
    · cases hs
    · cases hs
    · exact ⟨_, rfl, rfl, hD.sub _ f _ g h h'⟩
  addIn v f u g h h' hs := by
    cases v <;> cases u
    · exact ⟨_, rfl, rfl, hS.addIn _ f _ g h h'⟩
    · cases hs
    · cases hs
    · exact ⟨_, rfl, rfl, hD.addIn _ f _ g h h'⟩
  subIn v f u g h h' hs := by
    cases v <;> cases u
    · exact ⟨_, rfl, rfl, hS.subIn _ f _ g h h'⟩
    · cases hs
    · cases hs
    · exact ⟨_, rfl, rfl, hD.subIn _ f _ g h h'⟩
  addSelf v f h := by
    cases v with
    | sparse v =>
      obtain ⟨r, h1, h2⟩ := hS.addSelf v f h
      exact ⟨.sparse r, congrArg (Option.map Stored.sparse) h1, rfl, h2⟩
    | dense v =>
      obtain ⟨r, h1, h2⟩ := hD.addSelf v f h
      exact ⟨.dense r, congrArg (Option.map Stored.dense) h1, rfl, h2⟩
  subSelf v f hs h := by
    cases v with
    | sparse v => exact absurd rfl hs
    | dense v =>
      obtain ⟨r, h1, h2⟩ := hD.subSelf trivial v f h
      exact ⟨.dense r, congrArg (Option.map Stored.dense) h1, rfl, h2⟩
  mul v f u g h h' hs := by
    cases v <;> cases u
    · obtain ⟨r, h1, h2⟩ := hS.mul _ f _ g h h'
      exact ⟨.sparse r, congrArg (Option.map Stored.sparse) h1, rfl, h2⟩
    · cases hs
    · cases hs
    · obtain ⟨r, h1, h2⟩ := hD.mul _ f _ g h h'
      exact ⟨.dense r, congrArg (Option.map Stored.dense) h1, rfl, h2⟩
  mulIn v f u g h h' hs hc := by
    cases v <;> cases u
    · obtain ⟨r, h1, h2⟩ := hS.mulIn _ f _ g h h' hc
      exact ⟨.sparse r, congrArg (Option.map Stored.sparse) h1, rfl, h2⟩
    · cases hs
    · cases hs
    · obtain ⟨r, h1, h2⟩ := hD.mulIn _ f _ g h h' hc
      exact ⟨.dense r, congrArg (Option.map Stored.dense) h1, rfl, h2⟩
  beq v f u g h h' hs := by
    cases v <;> cases u
    · exact ⟨_, rfl, hS.beq _ f _ g h h'⟩
    · cases hs
    · cases hs
    · exact ⟨_, rfl, hD.beq _ f _ g h h'⟩

/-! ## Tensors -/

theorem binarySelf_add [CharZero K] {v : Sparse K} (hv : ∀ e ∈ v, e.2 ≠ 0) :
    Sparse.binarySelf (fun l r => l + r) v = some (Sparse.unary (fun x => x * 2) v) := by
  induction v with
  | nil => rfl
  | cons e v ih =>
    obtain ⟨k, x⟩ := e
    have hx : x ≠ 0 := hv (k, x) (List.mem_cons_self ..)
    have h2 : x + x ≠ 0 := by
      rw [← mul_two]
      exact mul_ne_zero hx two_ne_zero
    have h3 : x * 2 ≠ 0 := by rwa [mul_two]
    rw [Sparse.binarySelf, if_neg h2, ih fun e he => hv e (List.mem_cons_of_mem _ he)]
    have : Sparse.unary (fun x => x * 2) ((k, x) :: v) =
        (k, x * 2) :: Sparse.unary (fun x => x * 2) v := by
      unfold Sparse.unary
      rw [List.filterMap_cons]
      dsimp only
      rw [if_pos h3]
    rw [this, mul_two]
    rfl

theorem sparse_beq_nil (v : Sparse K) : Sparse.beq v [] = true ↔ v.length = 0 := by
  unfold Sparse.beq
  simp

theorem dense_beq_new (v : Dense K) : Dense.beq v Dense.new = true ↔ v.size = 0 := by
  unfold Dense.beq Dense.size Dense.new
  simp

theorem tensorSparse_side [CharZero K] (w depth : ℕ) :
    Side (sparseTensor w depth : AlgOps K (Sparse K)).toVecOps (sparseTensor w depth).mul
      (sparseTensor w depth).mulInplace depth (fun f g : Series (Fin w) K => f * g)
      (fun v f => Sparse.Tensor w depth v ∧ EqUpTo depth (Sparse.ser w v) f) True False := by
  have hA := sparseTensor_lawful (K := K) w depth
  refine
    { congr := fun v f g h hfg => ⟨h.1, h.2.trans hfg⟩
      new := ⟨hA.new_tight, hA.new_ser⟩
      clear := fun _ v f h => hA.clear v h.1
      size := fun v f h => ?_
      neg := fun v f h => ⟨(hA.neg v h.1).1, (hA.neg v h.1).2.trans (EqUpTo.neg h.2)⟩
      smul := fun v f s h => ⟨(hA.smul v s h.1).1, (hA.smul v s h.1).2.trans (Series.EqUpTo.smul s h.2)⟩
      smulIn := fun v f s h =>
        ⟨(hA.smul v s h.1).1, (hA.smul v s h.1).2.trans (Series.EqUpTo.smul s h.2)⟩
      sdiv := fun v f s h hs => ?_
      sdivIn := fun v f s h hs => ?_
      add := fun v f u g h h' => ⟨(hA.add v u h.1 h'.1).1,
        (hA.add v u h.1 h'.1).2.trans (Series.EqUpTo.add h.2 h'.2)⟩
      sub := fun v f u g h h' => ⟨(hA.sub v u h.1 h'.1).1,
        (hA.sub v u h.1 h'.1).2.trans (EqUpTo.sub h.2 h'.2)⟩
      addIn := fun v f u g h h' => ⟨(hA.add v u h.1 h'.1).1,
        (hA.add v u h.1 h'.1).2.trans (Series.EqUpTo.add h.2 h'.2)⟩
      subIn := fun v f u g h h' => ⟨(hA.sub v u h.1 h'.1).1,
        (hA.sub v u h.1 h'.1).2.trans (EqUpTo.sub h.2 h'.2)⟩
      addSelf := fun v f h => ?_
      subSelf := fun h => h.elim
      mul := fun v f u g h h' => ?_
      mulIn := fun v f u g h h' _ => ?_
      beq := fun v f u g h h' => (hA.beq v u h.1 h'.1).trans
        ⟨fun hq => h.2.symm.trans (hq.trans h'.2), fun hq => h.2.trans (hq.trans h'.2.symm)⟩ }
  · refine (sparse_beq_nil v).symm.trans ((hA.beq v [] h.1 hA.new_tight).trans ?_)
    exact ⟨fun hq => h.2.symm.trans (hq.trans hA.new_ser), fun hq =>
      h.2.trans (hq.trans hA.new_ser.symm)⟩
  · obtain ⟨r, h1, h2, h3⟩ := hA.sdiv v s h.1 hs
    exact ⟨r, h1, h2, h3.trans (Series.EqUpTo.smul _ h.2)⟩
  · obtain ⟨r, h1, h2, h3⟩ := hA.sdiv v s h.1 hs
    exact ⟨r, h1, h2, h3.trans (Series.EqUpTo.smul _ h.2)⟩
  · refine ⟨_, binarySelf_add h.1.1.2, (hA.smul v 2 h.1).1, (hA.smul v 2 h.1).2.trans ?_⟩
    have := Series.EqUpTo.smul (2 : K) h.2
    rwa [two_smul K f] at this
  · obtain ⟨r, h1, h2, h3⟩ := hA.mul v u h.1 h'.1
    exact ⟨r, h1, h2, h3.trans (Series.EqUpTo.mul h.2 h'.2)⟩
  · obtain ⟨r, h1, h2, -, h3⟩ := hA.mulInplace h.1 h'.1
    exact ⟨r, h1, h2, h3.trans (Series.EqUpTo.mul h.2 h'.2)⟩

theorem tensorDense_side (w : ℕ) {depth : ℕ} (hd : 1 ≤ depth) :
    Side (denseTensor w depth : AlgOps K (Dense K)).toVecOps (denseTensor w depth).mul
      (denseTensor w depth).mulInplace depth (fun f g : Series (Fin w) K => f * g)
      (fun v f => Dense.Tight w depth v ∧ EqUpTo depth (Dense.ser w v) f) False True := by
  have hA := denseTensor_lawful (K := K) w hd
  refine
    { congr := fun v f g h hfg => ⟨h.1, h.2.trans hfg⟩
      new := ⟨hA.new_tight, hA.new_ser⟩
      clear := fun h => h.elim
      size := fun v f h => ?_
      neg := fun v f h => ⟨(hA.neg v h.1).1, (hA.neg v h.1).2.trans (EqUpTo.neg h.2)⟩
      smul := fun v f s h => ⟨(hA.smul v s h.1).1, (hA.smul v s h.1).2.trans (Series.EqUpTo.smul s h.2)⟩
      smulIn := fun v f s h =>
        ⟨(hA.smul v s h.1).1, (hA.smul v s h.1).2.trans (Series.EqUpTo.smul s h.2)⟩
      sdiv := fun v f s h hs => ?_
      sdivIn := fun v f s h hs => ?_
      add := fun v f u g h h' => ⟨(hA.add v u h.1 h'.1).1,
        (hA.add v u h.1 h'.1).2.trans (Series.EqUpTo.add h.2 h'.2)⟩
      sub := fun v f u g h h' => ⟨(hA.sub v u h.1 h'.1).1,
        (hA.sub v u h.1 h'.1).2.trans (EqUpTo.sub h.2 h'.2)⟩
      addIn := fun v f u g h h' => ?_
      subIn := fun v f u g h h' => ?_
      addSelf := fun v f h => ⟨_, rfl, ?_⟩
      subSelf := fun _ v f h => ⟨_, rfl, ?_⟩
      mul := fun v f u g h h' => ?_
      mulIn := fun v f u g h h' hc => ?_
      beq := fun v f u g h h' => (hA.beq v u (hA.good v h.1) (hA.good u h'.1)).trans
        ⟨fun hq => h.2.symm.trans (hq.trans h'.2), fun hq => h.2.trans (hq.trans h'.2.symm)⟩ }
  · refine (dense_beq_new v).symm.trans ((hA.beq v Dense.new (hA.good v h.1)
      (hA.good _ hA.new_tight)).trans ?_)
    exact ⟨fun hq => h.2.symm.trans (hq.trans hA.new_ser), fun hq =>
      h.2.trans (hq.trans hA.new_ser.symm)⟩
  · obtain ⟨r, h1, h2, h3⟩ := hA.sdiv v s h.1 hs
    exact ⟨r, h1, h2, h3.trans (Series.EqUpTo.smul _ h.2)⟩
  · obtain ⟨r, h1, h2, h3⟩ := hA.sdiv v s h.1 hs
    exact ⟨r, h1, h2, h3.trans (Series.EqUpTo.smul _ h.2)⟩
  · obtain ⟨-, -, h1, h2⟩ := hA.addInplace v u (hA.good v h.1) (hA.good u h'.1)
    exact ⟨h1 h.1, h2.trans (Series.EqUpTo.add h.2 h'.2)⟩
  · obtain ⟨-, -, h1, h2⟩ := hA.subInplace v u (hA.good v h.1) (hA.good u h'.1)
    exact ⟨h1 h.1, h2.trans (EqUpTo.sub h.2 h'.2)⟩
  · obtain ⟨-, -, h1, h2⟩ := hA.addInplace v v (hA.good v h.1) (hA.good v h.1)
    exact ⟨h1 h.1, h2.trans (Series.EqUpTo.add h.2 h.2)⟩
  · obtain ⟨-, -, h1, h2⟩ := hA.subInplace v v (hA.good v h.1) (hA.good v h.1)
    exact ⟨h1 h.1, h2.trans (EqUpTo.sub h.2 h.2)⟩
  · obtain ⟨r, h1, h2, h3⟩ := hA.mul v u (hA.good v h.1) (hA.good u h'.1)
    exact ⟨r, h1, h2, h3.trans (Series.EqUpTo.mul h.2 h'.2)⟩
  · have hne : u.storage ≠ [] := by
      intro hu
      refine hc.elim id fun hg => hg (h'.2.symm.trans ?_)
      exact hA.empty u (hA.good u h'.1) (by show u.storage.isEmpty = true; rw [hu]; rfl)
    have hfull : ∀ x : Dense K, Dense.Tight w depth x → x.storage ≠ [] → Dense.Full w depth x :=
      fun x hx hx' => hx.1.resolve_left hx'
    obtain ⟨r, h1, h2, h3, h4⟩ := hA.mulInplace (hA.good v h.1) (hA.good u h'.1)
    refine ⟨r, h1, ?_, h4.trans (Series.EqUpTo.mul h.2 h'.2)⟩
    by_cases hv : v.storage = []
    · have : (denseTensor w depth).mulInplace v u = some v := by
        unfold AlgOps.mulInplace
        rw [if_neg (by show ¬ u.storage.isEmpty = true; simpa using hne),
          if_neg (by show ¬ (!v.storage.isEmpty) = true; rw [hv]; simp)]
      rw [this, Option.some.injEq] at h1
      exact h1 ▸ h.1
    · exact (h3 (hfull v h.1 hv) (hfull u h'.1 hne)).tight

theorem modify_ne_nil {B : Lite.Basis} {v v' : Dense K} {k : Key} {f : K → K}
    (h : Dense.modify B v k f = some v') : v'.storage ≠ [] := by
  unfold Dense.modify at h
  rcases hi : B.keyToIndex k with _ | i
  · rw [hi] at h; cases h
  rw [hi] at h
  simp only [Option.bind_eq_bind, Option.bind_some] at h
  generalize (if i ≥ v.storage.length then v.resize B i else v) = u at h
  unfold Dense.update at h
  rcases hx : u.storage[i]? with _ | x
  · rw [hx] at h; cases h
  · rw [hx] at h
    simp only [Option.bind_eq_bind, Option.bind_some, Option.some.injEq] at h
    subst h
    intro h0
    dsimp only at h0
    have h1 := (List.getElem?_eq_some_iff.1 hx).1
    have h2 : (u.storage.set i (f x)).length = 0 := by rw [h0]; rfl
    rw [List.length_set] at h2
    omega

theorem loop_keeps {α β : Type} {I : β → Prop} {f : β → α → Option β}
    (hf : ∀ s x s', I s → f s x = some s' → I s') : ∀ (l : List α) (s s' : β), I s →
    loop l s f = some s' → I s'
  | [], s, s', h, h' => by
    have : s = s' := Option.some.inj h'
    exact this ▸ h
  | x :: l, s, s', h, h' => by
    rcases hx : f s x with _ | t
    · have : loop (x :: l) s f = none := by
        show (f s x).bind _ = none
        rw [hx]; rfl
      rw [this] at h'; cases h'
    · have : loop (x :: l) s f = loop l t f := by
        show (f s x).bind _ = _
        rw [hx]; rfl
      rw [this] at h'
      exact loop_keeps hf l t s' (hf s x t h hx) h'

theorem constructImpl_degree {B B' : Lite.Basis} {data : KeyScalars K} {r : Dense K}
    (h : constructImpl (Dense.ops B) B' data = some r) (h0 : r.storage = []) : r.degree = 0 := by
  unfold constructImpl at h
  refine loop_keeps (I := fun v : Dense K => v.storage = [] → v.degree = 0) ?_ _ _ _
    (fun _ => rfl) h h0
  intro s i s' _ h1 h2
  rcases h3 : data.index i with _ | a
  · rw [h3] at h1; cases h1
  rcases h4 : B'.indexToKey a with _ | k
  · simp only [h3, h4, Option.bind_eq_bind, Option.bind_some, Option.bind_none] at h1; cases h1
  rcases h5 : data.vals[i]? with _ | x
  · simp only [h3, h4, h5, Option.bind_eq_bind, Option.bind_some, Option.bind_none] at h1; cases h1
  simp only [h3, h4, h5, Option.bind_eq_bind, Option.bind_some] at h1
  exact absurd h2 (modify_ne_nil h1)

theorem denOf_tensor {depth : ℕ} {x : Stored K} {f : Series (Fin w) K} :
    denOf (fun v f => Sparse.Tensor w depth v ∧ EqUpTo depth (Sparse.ser w v) f)
      (fun v f => Dense.Tight w depth v ∧ EqUpTo depth (Dense.ser w v) f) x f ↔
    IsNormalTensor w depth x f := by
  unfold IsNormalTensor
  cases x with
  | sparse v =>
    rw [isTensor_sparse]
    exact ⟨fun h => ⟨h, fun _ h => by cases h⟩, fun h => h.1⟩
  | dense v =>
    rw [isTensor_dense]
    exact ⟨fun h => ⟨⟨h.1.1, h.2⟩, fun u hu => by cases hu; exact h.1.2⟩, fun h =>
      ⟨⟨h.1.1, h.2 v rfl⟩, h.1.2⟩⟩

theorem tensorVectors_lawful [CharZero K] {c : LiteCtx} {m : ℕ} (hw : 0 < w) (hc : c.Ok w m) :
    (tensorVectors c : Backend K (Stored K)).Lawful (m + 1) (fun f g : Series (Fin w) K => f * g)
      (IsNormalTensor w (m + 1)) TensorClears := by
  have h := storedBackend_lawful (K := K) (w := w) (depth := m + 1) (clears := TensorClears)
    (bmul := fun f g => f * g)
    (convert := fun x vt => c.convertTensor c x vt)
    (hS := by
      have h1 := tensorSparse_side (K := K) w (m + 1)
      rw [show (True : Prop) = TensorClears .sparse from by simp [TensorClears]] at h1
      exact h1)
    (hD := by
      have h1 := tensorDense_side (K := K) w (depth := m + 1) (by omega)
      rw [show (False : Prop) = TensorClears .dense from by simp [TensorClears]] at h1
      exact h1)
    (hconv := by
      intro v f t hv
      rw [denOf_tensor] at hv
      obtain ⟨r, h1, h2, h3⟩ := convertTensor_self hw hc hv.1 t
      refine ⟨r, h1, h2, denOf_tensor.2 ⟨h3, fun u hu h0 => ?_⟩⟩
      subst hu
      cases t with
      | sparse => cases h2
      | dense =>
        unfold LiteCtx.convertTensor LiteCtx.convertTensorImpl at h1
        rcases hd : tensorData c v with _ | data
        · rw [hd] at h1; cases h1
        rw [hd] at h1
        simp only [Option.bind_eq_bind, Option.bind_some] at h1
        rcases hr : constructImpl (c.denseKind : Kind K (Dense K)).tensor.toVecOps c.tensorBasis data
          with _ | z
        · rw [hr] at h1; cases h1
        · rw [hr] at h1
          simp only [Option.bind_some, Option.some.injEq, Stored.dense.injEq] at h1
          subst h1
          exact constructImpl_degree hr h0)
  have hden : denOf (fun v f => Sparse.Tensor w (m + 1) v ∧ EqUpTo (m + 1) (Sparse.ser w v) f)
      (fun v f => Dense.Tight w (m + 1) v ∧ EqUpTo (m + 1) (Dense.ser w v) f) =
      (IsNormalTensor w (m + 1) : Stored K → Series (Fin w) K → Prop) := by
    funext x f
    exact propext denOf_tensor
  rw [hden] at h
  unfold tensorVectors LiteCtx.sparseKind LiteCtx.denseKind
  rw [hc.width, hc.depth]
  exact h

/-! ## Lie elements -/

theorem lie_side [CharZero K] {m : ℕ} {hs : HallSet} (hr : Rep (hallTable w m) hs)
    {e : Key → Series (Fin w) K} (he : HallElems hs e) {A : LieOps K T} {coef : T → Key → K}
    {Good : ℕ → T → Prop} {strict : Prop} (hA : A.Lawful w m e coef Good strict)
    (hsize : ∀ v, A.size v = 0 ↔ A.beq v A.new = true)
    {cache : LieCache} (hcache : LieHistory w cache) :
    Side A.toVecOps (fun a b => (A.mul cache a b).map (·.1))
      (fun a b => (A.mulInplace cache a b).map (·.1)) (m + 1) (fun f g => ⁅f, g⁆)
      (fun v f => Good (m + 1) v ∧ EqUpTo (m + 1) (lieSer (hallTable w m) e (coef v)) f)
      True (¬ strict) := by
  have hb := hallTable_isHall w m
  have hV := hA.graded.lawful
  have hlie : ∀ {f g f' g' : Series (Fin w) K}, EqUpTo (m + 1) f g → EqUpTo (m + 1) f' g' →
      EqUpTo (m + 1) ⁅f, f'⁆ ⁅g, g'⁆ := fun h h' => by
    rw [Ring.lie_def, Ring.lie_def]
    exact EqUpTo.sub (Series.EqUpTo.mul h h') (Series.EqUpTo.mul h' h)
  have hun : ∀ v f (op : K → K) (s : K), (∀ x, op x = s * x) →
      (Good (m + 1) v ∧ EqUpTo (m + 1) (lieSer (hallTable w m) e (coef v)) f) →
      ∀ r, Good (m + 1) r → (∀ k, ValidKey (lieStart (hallTable w m)) (m + 1) k →
        coef r k = op (coef v k)) →
      EqUpTo (m + 1) (lieSer (hallTable w m) e (coef r)) (s • f) := by
    intro v f op s hop h r hr h2
    have : lieSer (hallTable w m) e (coef r) = s • lieSer (hallTable w m) e (coef v) := by
      rw [← lieSer_smul]
      exact lieSer_congr hb fun k hk => (h2 k hk).trans (hop _)
    rw [this]
    exact Series.EqUpTo.smul s h.2
  have hbin : ∀ v f u g (op : K → K → K) (s : K), (∀ x y, op x y = x + s * y) →
      (Good (m + 1) v ∧ EqUpTo (m + 1) (lieSer (hallTable w m) e (coef v)) f) →
      (Good (m + 1) u ∧ EqUpTo (m + 1) (lieSer (hallTable w m) e (coef u)) g) →
      ∀ r, (∀ k, ValidKey (lieStart (hallTable w m)) (m + 1) k →
        coef r k = op (coef v k) (coef u k)) →
      EqUpTo (m + 1) (lieSer (hallTable w m) e (coef r)) (f + s • g) := by
    intro v f u g op s hop h h' r h2
    have : lieSer (hallTable w m) e (coef r) = lieSer (hallTable w m) e (coef v) +
        s • lieSer (hallTable w m) e (coef u) := by
      rw [← lieSer_smul, ← lieSer_add]
      exact lieSer_congr hb fun k hk => (h2 k hk).trans (hop _ _)
    rw [this]
    exact Series.EqUpTo.add h.2 (Series.EqUpTo.smul s h'.2)
  have hone : ∀ g : Series (Fin w) K, (1 : K) • g = g := one_smul K
  have hneg : ∀ f g : Series (Fin w) K, f + (-1 : K) • g = f - g := fun f g => by
    rw [neg_smul, one_smul, sub_eq_add_neg]
  have hadd0 : ∀ x y : K, x + y = x + 1 * y := fun x y => by rw [one_mul]
  have hsub0 : ∀ x y : K, x - y = x + -1 * y := fun x y => by rw [neg_one_mul, sub_eq_add_neg]
  have hbeq : ∀ v f u g, (Good (m + 1) v ∧ EqUpTo (m + 1) (lieSer (hallTable w m) e (coef v)) f) →
      (Good (m + 1) u ∧ EqUpTo (m + 1) (lieSer (hallTable w m) e (coef u)) g) →
      (A.beq v u = true ↔ EqUpTo (m + 1) f g) := by
    intro v f u g h h'
    refine (hV.beq v u h.1 h'.1).trans ⟨fun hq => ?_, fun hq => ?_⟩
    · refine h.2.symm.trans (Series.EqUpTo.trans ?_ h'.2)
      rw [lieSer_congr hb hq]
      exact Series.EqUpTo.refl _ _
    · exact lieSer_inj hr he (h.2.trans (hq.trans h'.2.symm))
  have hnew : Good (m + 1) A.new ∧ EqUpTo (m + 1) (lieSer (hallTable w m) e (coef A.new)) 0 :=
    ⟨hV.new_good, by rw [hA.ser_new]; exact Series.EqUpTo.refl _ _⟩
  refine
    { congr := fun v f g h hfg => ⟨h.1, h.2.trans hfg⟩
      new := hnew
      clear := fun _ v f h => ⟨hV.clear_good v h.1, by
        rw [hA.ser_clear h.1]; exact Series.EqUpTo.refl _ _⟩
      size := fun v f h => (hsize v).trans (hbeq v f _ _ h hnew)
      neg := fun v f h => ?_
      smul := fun v f s h => ?_
      smulIn := fun v f s h => ?_
      sdiv := fun v f s h hs => ?_
      sdivIn := fun v f s h hs => ?_
      add := fun v f u g h h' => ?_
      sub := fun v f u g h h' => ?_
      addIn := fun v f u g h h' => ?_
      subIn := fun v f u g h h' => ?_
      addSelf := fun v f h => ?_
      subSelf := fun hst v f h => ?_
      mul := fun v f u g h h' => ?_
      mulIn := fun v f u g h h' _ => ?_
      beq := hbeq }
  · obtain ⟨g1, g2⟩ := hV.unary v h.1 (fun x => -x) neg_zero
    refine ⟨g1, ?_⟩
    have := hun v f (fun x => -x) (-1) (fun x => (neg_one_mul x).symm) h _ g1 g2
    rwa [neg_smul, one_smul] at this
  · obtain ⟨g1, g2⟩ := hV.unary v h.1 (fun x => x * s) (zero_mul s)
    exact ⟨g1, hun v f _ s (fun x => mul_comm _ _) h _ g1 g2⟩
  · obtain ⟨g1, g2⟩ := hV.unaryInplace v h.1 (fun x => x * s) (zero_mul s)
    exact ⟨g1, hun v f _ s (fun x => mul_comm _ _) h _ g1 g2⟩
  · obtain ⟨g1, g2⟩ := hV.unary v h.1 (fun x => x / s) (zero_div s)
    refine ⟨_, if_neg hs, g1, hun v f (fun x => x / s) s⁻¹ (fun x => ?_) h _ g1 g2⟩
    show x / s = _
    rw [div_eq_mul_inv, mul_comm]
  · obtain ⟨g1, g2⟩ := hV.unaryInplace v h.1 (fun x => x / s) (zero_div s)
    refine ⟨_, if_neg hs, g1, hun v f (fun x => x / s) s⁻¹ (fun x => ?_) h _ g1 g2⟩
    show x / s = _
    rw [div_eq_mul_inv, mul_comm]
  · obtain ⟨g1, g2⟩ := hV.binary v u h.1 h'.1 (fun l r => l + r) add_zero
      (fun _ r hr => by rwa [zero_add])
    refine ⟨g1, ?_⟩
    have := hbin v f u g _ 1 hadd0 h h' _ g2
    rwa [hone] at this
  · obtain ⟨g1, g2⟩ := hV.binary v u h.1 h'.1 (fun l r => l - r) sub_zero
      (fun _ r hr => by rwa [zero_sub, neg_ne_zero])
    refine ⟨g1, ?_⟩
    have := hbin v f u g _ (-1) hsub0 h h' _ g2
    rwa [hneg] at this
  · obtain ⟨g1, g2⟩ := hV.binaryInplace v u h.1 h'.1 (fun l r => l + r) add_zero
      (fun _ r hr => by rwa [zero_add])
    refine ⟨g1, ?_⟩
    have := hbin v f u g _ 1 hadd0 h h' _ g2
    rwa [hone] at this
  · obtain ⟨g1, g2⟩ := hV.binaryInplace v u h.1 h'.1 (fun l r => l - r) sub_zero
      (fun _ r hr => by rwa [zero_sub, neg_ne_zero])
    refine ⟨g1, ?_⟩
    have := hbin v f u g _ (-1) hsub0 h h' _ g2
    rwa [hneg] at this
  · obtain ⟨r, g0, g1, g2⟩ := hV.binarySelf v h.1 (fun l r => l + r) add_zero
      (fun _ r hr => by rw [← mul_two]; exact mul_ne_zero hr two_ne_zero)
    refine ⟨r, g0, g1, ?_⟩
    have := hbin v f v f _ 1 hadd0 h h _ g2
    rwa [hone] at this
  · obtain ⟨r, g0, g1, g2⟩ := hV.binarySelf v h.1 (fun l r => l - r) sub_zero
      (fun hs' => absurd hs' hst)
    refine ⟨r, g0, g1, ?_⟩
    have := hbin v f v f _ (-1) hsub0 h h _ g2
    rwa [hneg] at this
  · obtain ⟨r, c', h1, -, h2, h3⟩ := hA.mul hcache h.1 h'.1
    exact ⟨r, by rw [h1]; rfl, h2, h3.trans (hlie h.2 h'.2)⟩
  · obtain ⟨r, c', h1, -, h2, h3⟩ := hA.mulInplace hcache h.1 h'.1
    exact ⟨r, by rw [h1]; rfl, h2, h3.trans (hlie h.2 h'.2)⟩

theorem lieVectors_lawful [CharZero K] {c : LiteCtx} {m : ℕ} (hw : 0 < w) (hc : c.Ok w m)
    {e : Key → Series (Fin w) K} (he : HallElems c.hs e) :
    ∃ n₀, ∀ fuel ≥ n₀, ∀ cache st, LieHistory w cache → MapsHistory w (m + 1) c.hs st →
      (lieVectors c fuel cache st : Backend K (Stored K)).Lawful (m + 1) (fun f g => ⁅f, g⁆)
        (IsLieElem c e) LieClears := by
  obtain ⟨n₁, h1⟩ := sparseLie_lawful (K := K) hc.hall hc.rep
  obtain ⟨n₂, h2⟩ := denseLie_lawful (K := K) hw hc.hall hc.rep
  obtain ⟨n₃, h3⟩ := hc.fuel
  refine ⟨max n₁ (max n₂ n₃), fun fuel hf cache st hcache hst => ?_⟩
  have hden : denOf (fun v f => Sparse.GoodDeg (ValidKey (lieStart (hallTable w m)) (m + 1)) (m + 1) v ∧
        EqUpTo (m + 1) (lieSer (hallTable w m) e (Sparse.read v)) f)
      (fun v f => Dense.GoodDeg (lieStart (hallTable w m)) (m + 1) v ∧
        EqUpTo (m + 1) (lieSer (hallTable w m) e (Dense.coef (lieStart (hallTable w m)) v)) f) =
      IsLieElem c e := by
    funext x f
    cases x with
    | sparse v => exact propext (isLie_sparse hc).symm
    | dense v => exact propext (isLie_dense hw hc).symm
  have h := storedBackend_lawful (K := K) (w := w) (depth := m + 1) (clears := LieClears)
    (bmul := fun f g => ⁅f, g⁆)
    (convert := fun x vt => (c.convertLie fuel st x vt).map (·.1))
    (hS := by
      have h' := lie_side hc.rep he (h1 fuel (by omega) e he) (fun v => (sparse_beq_nil v).symm) hcache
      rw [not_true_eq_false] at h'
      exact h')
    (hD := by
      have h' := lie_side hc.rep he (h2 fuel (by omega) e he) (fun v => (dense_beq_new v).symm) hcache
      rw [not_false_eq_true] at h'
      exact h')
    (hconv := by
      rw [hden]
      intro v f t hv
      obtain ⟨r, st', g1, -, g2, g3⟩ := convertLie_stored hw hc he (h3 fuel (by omega)) hst hv t
      exact ⟨r, by rw [g1]; rfl, g2, g3⟩)
  rw [hden] at h
  unfold lieVectors
  rw [hc.depth, hc.basis]
  exact h

end RoughPy.Handles
