import Verif.Lite.HandleLemmas

/-!
# Programs on elements compute in the algebra
-/

namespace RoughPy.Handles

open RoughPy.Lite RoughPy.Tensor RoughPy.Tensor.Series

variable {K V : Type} [Field K] [DecidableEq K] {w : ℕ}

/-- an element of the context `i` -/
def ElemIs (W : Contexts K V) (den : V → Series (Fin w) K → Prop) (i : ℕ) (a : Elem V)
    (t : VecType) (f : Series (Fin w) K) : Prop :=
  a.ctx = i ∧ (W.vectors i).storage a.val = t ∧ den a.val f

theorem Outcome.ok_bind {α β : Type} (a : α) (f : α → Outcome β) : (Outcome.ok a >>= f) = f a := rfl

section
variable {W : Contexts K V} {i depth : ℕ}
  {bmul : Series (Fin w) K → Series (Fin w) K → Series (Fin w) K}
  {den : V → Series (Fin w) K → Prop} {clears : VecType → Prop}

theorem ElemIs.congr (hB : (W.vectors i).Lawful depth bmul den clears) {a : Elem V} {t : VecType}
    {f g : Series (Fin w) K} (h : ElemIs W den i a t f) (hfg : EqUpTo depth f g) : ElemIs W den i a t g :=
  ⟨h.1, h.2.1, hB.congr _ _ _ h.2.2 hfg⟩

theorem convertArgument_is (hB : (W.vectors i).Lawful depth bmul den clears) {a b : Elem V}
    {t u : VecType} {f g : Series (Fin w) K} (ha : ElemIs W den i a t f) (hb : ElemIs W den i b u g) :
    ∃ v, a.convertArgument W b = .ok v ∧ (W.vectors i).storage a.val = (W.vectors i).storage v ∧
      den v g := by
  obtain ⟨ha1, ha2, ha3⟩ := ha
  obtain ⟨hb1, hb2, hb3⟩ := hb
  unfold Elem.convertArgument
  rw [if_pos (ha1.trans hb1.symm), ha1]
  by_cases h : (W.vectors i).storage a.val = (W.vectors i).storage b.val
  · rw [if_pos h]
    exact ⟨b.val, rfl, h, hb3⟩
  · rw [if_neg h]
    obtain ⟨r, h1, h2, h3⟩ := hB.convert b.val g ((W.vectors i).storage a.val) hb3
    exact ⟨r, by rw [h1]; rfl, h2.symm, h3⟩

theorem add_is (hB : (W.vectors i).Lawful depth bmul den clears) {a b : Elem V} {t u : VecType}
    {f g : Series (Fin w) K} (ha : ElemIs W den i a t f) (hb : ElemIs W den i b u g) :
    ∃ r, a.add W b = .ok r ∧ ElemIs W den i r t (f + g) := by
  obtain ⟨v, h1, h2, h3⟩ := convertArgument_is hB ha hb
  obtain ⟨r, k1, k2, k3⟩ := hB.add _ _ _ _ ha.2.2 h3 h2
  refine ⟨⟨a.ctx, r⟩, ?_, ha.1, k2.trans ha.2.1, k3⟩
  unfold Elem.add
  rw [h1, Outcome.ok_bind, ha.1, k1]
  rfl

theorem sub_is (hB : (W.vectors i).Lawful depth bmul den clears) {a b : Elem V} {t u : VecType}
    {f g : Series (Fin w) K} (ha : ElemIs W den i a t f) (hb : ElemIs W den i b u g) :
    ∃ r, a.sub W b = .ok r ∧ ElemIs W den i r t (f - g) := by
  obtain ⟨v, h1, h2, h3⟩ := convertArgument_is hB ha hb
  obtain ⟨r, k1, k2, k3⟩ := hB.sub _ _ _ _ ha.2.2 h3 h2
  refine ⟨⟨a.ctx, r⟩, ?_, ha.1, k2.trans ha.2.1, k3⟩
  unfold Elem.sub
  rw [h1, Outcome.ok_bind, ha.1, k1]
  rfl

theorem mul_is (hB : (W.vectors i).Lawful depth bmul den clears) {a b : Elem V} {t u : VecType}
    {f g : Series (Fin w) K} (ha : ElemIs W den i a t f) (hb : ElemIs W den i b u g) :
    ∃ r, a.mul W b = .ok r ∧ ElemIs W den i r t (bmul f g) := by
  obtain ⟨v, h1, h2, h3⟩ := convertArgument_is hB ha hb
  obtain ⟨r, k1, k2, k3⟩ := hB.mul _ _ _ _ ha.2.2 h3 h2
  refine ⟨⟨a.ctx, r⟩, ?_, ha.1, k2.trans ha.2.1, k3⟩
  unfold Elem.mul
  rw [h1, Outcome.ok_bind, ha.1, k1]
  rfl

theorem addIn_is (hB : (W.vectors i).Lawful depth bmul den clears) {a b : Elem V} {t u : VecType}
    {f g : Series (Fin w) K} (ha : ElemIs W den i a t f) (hb : ElemIs W den i b u g) :
    ∃ r, a.addIn W b = .ok r ∧ ElemIs W den i r t (f + g) := by
  obtain ⟨v, h1, h2, h3⟩ := convertArgument_is hB ha hb
  obtain ⟨r, k1, k2, k3⟩ := hB.addIn _ _ _ _ ha.2.2 h3 h2
  refine ⟨⟨a.ctx, r⟩, ?_, ha.1, k2.trans ha.2.1, k3⟩
  unfold Elem.addIn
  rw [h1, Outcome.ok_bind, ha.1, k1]
  rfl

theorem subIn_is (hB : (W.vectors i).Lawful depth bmul den clears) {a b : Elem V} {t u : VecType}
    {f g : Series (Fin w) K} (ha : ElemIs W den i a t f) (hb : ElemIs W den i b u g) :
    ∃ r, a.subIn W b = .ok r ∧ ElemIs W den i r t (f - g) := by
  obtain ⟨v, h1, h2, h3⟩ := convertArgument_is hB ha hb
  obtain ⟨r, k1, k2, k3⟩ := hB.subIn _ _ _ _ ha.2.2 h3 h2
  refine ⟨⟨a.ctx, r⟩, ?_, ha.1, k2.trans ha.2.1, k3⟩
  unfold Elem.subIn
  rw [h1, Outcome.ok_bind, ha.1, k1]
  rfl

theorem mulIn_is (hB : (W.vectors i).Lawful depth bmul den clears) {a b : Elem V} {t u : VecType}
    {f g : Series (Fin w) K} (ha : ElemIs W den i a t f) (hb : ElemIs W den i b u g)
    (hc : clears t ∨ ¬ EqUpTo depth g 0) :
    ∃ r, a.mulIn W b = .ok r ∧ ElemIs W den i r t (bmul f g) := by
  obtain ⟨v, h1, h2, h3⟩ := convertArgument_is hB ha hb
  obtain ⟨r, k1, k2, k3⟩ := hB.mulIn _ _ _ _ ha.2.2 h3 h2 (by rwa [ha.2.1])
  refine ⟨⟨a.ctx, r⟩, ?_, ha.1, k2.trans ha.2.1, k3⟩
  unfold Elem.mulIn
  rw [h1, Outcome.ok_bind, ha.1, k1]
  rfl

theorem uminus_is (hB : (W.vectors i).Lawful depth bmul den clears) {a : Elem V} {t : VecType}
    {f : Series (Fin w) K} (ha : ElemIs W den i a t f) : ElemIs W den i (a.uminus W) t (-f) := by
  obtain ⟨h1, h2⟩ := hB.neg _ _ ha.2.2
  refine ⟨ha.1, ?_, ?_⟩
  · show (W.vectors i).storage ((W.vectors a.ctx).neg a.val) = t
    rw [ha.1, h1, ha.2.1]
  · show den ((W.vectors a.ctx).neg a.val) _
    rw [ha.1]; exact h2

theorem smul_is (hB : (W.vectors i).Lawful depth bmul den clears) {a : Elem V} {t : VecType}
    {f : Series (Fin w) K} (ha : ElemIs W den i a t f) (s : K) : ElemIs W den i (a.smul W s) t (s • f) := by
  obtain ⟨h1, h2⟩ := hB.smul _ _ s ha.2.2
  refine ⟨ha.1, ?_, ?_⟩
  · show (W.vectors i).storage ((W.vectors a.ctx).smul a.val s) = t
    rw [ha.1, h1, ha.2.1]
  · show den ((W.vectors a.ctx).smul a.val s) _
    rw [ha.1]; exact h2

theorem smulIn_is (hB : (W.vectors i).Lawful depth bmul den clears) {a : Elem V} {t : VecType}
    {f : Series (Fin w) K} (ha : ElemIs W den i a t f) (s : K) : ElemIs W den i (a.smulIn W s) t (s • f) := by
  obtain ⟨h1, h2⟩ := hB.smulIn _ _ s ha.2.2
  refine ⟨ha.1, ?_, ?_⟩
  · show (W.vectors i).storage ((W.vectors a.ctx).smulIn a.val s) = t
    rw [ha.1, h1, ha.2.1]
  · show den ((W.vectors a.ctx).smulIn a.val s) _
    rw [ha.1]; exact h2

theorem zeroLike_is (hB : (W.vectors i).Lawful depth bmul den clears) {a : Elem V} {t : VecType}
    {f : Series (Fin w) K} (ha : ElemIs W den i a t f) : ElemIs W den i (a.zeroLike W) t 0 := by
  obtain ⟨h1, h2⟩ := hB.zeroLike a.val
  refine ⟨ha.1, ?_, ?_⟩
  · show (W.vectors i).storage ((W.vectors a.ctx).zeroLike a.val) = t
    rw [ha.1, h1, ha.2.1]
  · show den ((W.vectors a.ctx).zeroLike a.val) _
    rw [ha.1]; exact h2

theorem clear_is (hB : (W.vectors i).Lawful depth bmul den clears) {a : Elem V} {t : VecType}
    {f : Series (Fin w) K} (ha : ElemIs W den i a t f) (hc : clears t) : ElemIs W den i (a.clear W) t 0 := by
  obtain ⟨h1, h2⟩ := hB.clear a.val f (by rwa [ha.2.1]) ha.2.2
  refine ⟨ha.1, ?_, ?_⟩
  · show (W.vectors i).storage ((W.vectors a.ctx).clear a.val) = t
    rw [ha.1, h1, ha.2.1]
  · show den ((W.vectors a.ctx).clear a.val) _
    rw [ha.1]; exact h2

theorem sdiv_is (hB : (W.vectors i).Lawful depth bmul den clears) {a : Elem V} {t : VecType}
    {f : Series (Fin w) K} (ha : ElemIs W den i a t f) {s : K} (hs : s ≠ 0) :
    ∃ r, a.sdiv W s = .ok r ∧ ElemIs W den i r t (s⁻¹ • f) := by
  obtain ⟨r, h1, h2, h3⟩ := hB.sdiv _ _ s ha.2.2 hs
  refine ⟨⟨a.ctx, r⟩, ?_, ha.1, h2.trans ha.2.1, h3⟩
  unfold Elem.sdiv
  rw [ha.1, h1]
  rfl

theorem sdivIn_is (hB : (W.vectors i).Lawful depth bmul den clears) {a : Elem V} {t : VecType}
    {f : Series (Fin w) K} (ha : ElemIs W den i a t f) {s : K} (hs : s ≠ 0) :
    ∃ r, a.sdivIn W s = .ok r ∧ ElemIs W den i r t (s⁻¹ • f) := by
  obtain ⟨r, h1, h2, h3⟩ := hB.sdivIn _ _ s ha.2.2 hs
  refine ⟨⟨a.ctx, r⟩, ?_, ha.1, h2.trans ha.2.1, h3⟩
  unfold Elem.sdivIn
  rw [ha.1, h1]
  rfl

theorem addSelf_is (hB : (W.vectors i).Lawful depth bmul den clears) {a : Elem V} {t : VecType}
    {f : Series (Fin w) K} (ha : ElemIs W den i a t f) : ∃ r, a.addSelf W = .ok r ∧ ElemIs W den i r t (f + f) := by
  obtain ⟨r, h1, h2, h3⟩ := hB.addSelf _ _ ha.2.2
  refine ⟨⟨a.ctx, r⟩, ?_, ha.1, h2.trans ha.2.1, h3⟩
  unfold Elem.addSelf
  rw [ha.1, h1]
  rfl

theorem subSelf_is (hB : (W.vectors i).Lawful depth bmul den clears) {a : Elem V} {t : VecType}
    {f : Series (Fin w) K} (ha : ElemIs W den i a t f) (ht : t ≠ .sparse) :
    ∃ r, a.subSelf W = .ok r ∧ ElemIs W den i r t (f - f) := by
  obtain ⟨r, h1, h2, h3⟩ := hB.subSelf _ _ (by rw [ha.2.1]; exact ht) ha.2.2
  refine ⟨⟨a.ctx, r⟩, ?_, ha.1, h2.trans ha.2.1, h3⟩
  unfold Elem.subSelf
  rw [ha.1, h1]
  rfl

theorem checkContexts_is {a b : Elem V} {t u : VecType} {f g : Series (Fin w) K}
    (ha : ElemIs W den i a t f) (hb : ElemIs W den i b u g) : checkContexts W (some a) (some b) = .ok () := by
  unfold checkContexts
  rw [if_pos]
  rw [Option.map_some, Option.map_some, ha.1, hb.1]

theorem smulElem_is (hB : (W.vectors i).Lawful depth bmul den clears) {a : Elem V} {t : VecType}
    {f : Series (Fin w) K} (ha : ElemIs W den i a t f) (s : K) : ElemIs W den i (Handle.smulElem W a s) t (s • f) := by
  unfold Handle.smulElem
  by_cases hs : s = 0
  · rw [if_pos hs, hs, zero_smul]
    exact zeroLike_is hB ha
  · rw [if_neg hs]
    exact smul_is hB ha s

theorem sdivElem_is (hB : (W.vectors i).Lawful depth bmul den clears) {a : Elem V} {t : VecType}
    {f : Series (Fin w) K} (ha : ElemIs W den i a t f) {s : K} (hs : s ≠ 0) :
    ∃ r, Handle.sdivElem W a s = .ok r ∧ ElemIs W den i r t (s⁻¹ • f) := by
  unfold Handle.sdivElem
  rw [if_neg hs]
  exact sdiv_is hB ha hs

theorem mulElem_is (hB : (W.vectors i).Lawful depth bmul den clears) {a b : Elem V} {t u : VecType}
    {f g : Series (Fin w) K} (ha : ElemIs W den i a t f) (hb : ElemIs W den i b u g) :
    ∃ r, Handle.mulElem W a b = .ok r ∧ ElemIs W den i r t (bmul f g) := by
  unfold Handle.mulElem
  rw [checkContexts_is ha hb, Outcome.ok_bind]
  exact mul_is hB ha hb

/-- one of the two shapes of a variable -/
theorem holds_cases {h : Handle V} {v : Var w K}
    (hh : Holds (W.vectors i).storage den i h v) : h = none ∧ v = none ∨
      ∃ a t f, h = some a ∧ v = some (t, f) ∧ ElemIs W den i a t f := by
  cases h with
  | none =>
    cases v with
    | none => exact Or.inl ⟨rfl, rfl⟩
    | some v => exact hh.elim
  | some a =>
    cases v with
    | none => exact hh.elim
    | some v => exact Or.inr ⟨a, v.1, v.2, rfl, rfl, hh⟩

theorem result_holds (hB : (W.vectors i).Lawful depth bmul den clears)
    (hl : ∀ f, bmul 0 f = 0) (hr : ∀ f, bmul f 0 = 0) {σ : Store V} {τ : ℕ → Var w K}
    (h : ∀ x, Holds (W.vectors i).storage den i (σ x) (τ x)) (c : Stmt K)
    (hs : c.Safe depth clears τ) :
    ∃ r, c.result W σ = .ok r ∧ Holds (W.vectors i).storage den i r (c.meaning bmul τ) := by
  cases c with
  | copy x y => exact ⟨_, rfl, h y⟩
  | neg x y =>
    simp only [Stmt.result, Stmt.meaning]
    rcases holds_cases (h y) with ⟨e1, e2⟩ | ⟨a, t, f, e1, e2, ha⟩
    · rw [e1, e2]; exact ⟨_, rfl, trivial⟩
    · rw [e1, e2]; exact ⟨_, rfl, uminus_is hB ha⟩
  | add x y z =>
    simp only [Stmt.result, Stmt.meaning, Stmt.Safe] at hs ⊢
    rcases holds_cases (h y) with ⟨e1, e2⟩ | ⟨a, t, f, e1, e2, ha⟩ <;>
      rcases holds_cases (h z) with ⟨e1', e2'⟩ | ⟨b, u, g, e1', e2', hb⟩ <;>
      rw [e2, e2'] at hs <;> rw [e1, e2, e1', e2']
    · exact ⟨_, rfl, trivial⟩
    · cases hs rfl
    · refine ⟨_, rfl, ?_⟩
      have := ha.congr hB (g := f + 0) (by rw [add_zero]; exact Series.EqUpTo.refl _ _)
      exact this
    · obtain ⟨r, k1, k2⟩ := add_is hB ha hb
      refine ⟨some r, ?_, k2⟩
      simp only [Handle.add]
      rw [checkContexts_is ha hb, Outcome.ok_bind, k1]
      rfl
  | sub x y z =>
    simp only [Stmt.result, Stmt.meaning, Stmt.Safe] at hs ⊢
    rcases holds_cases (h y) with ⟨e1, e2⟩ | ⟨a, t, f, e1, e2, ha⟩ <;>
      rcases holds_cases (h z) with ⟨e1', e2'⟩ | ⟨b, u, g, e1', e2', hb⟩ <;>
      rw [e2, e2'] at hs <;> rw [e1, e2, e1', e2']
    · exact ⟨_, rfl, trivial⟩
    · cases hs rfl
    · refine ⟨_, rfl, ?_⟩
      have := ha.congr hB (g := f - 0) (by rw [sub_zero]; exact Series.EqUpTo.refl _ _)
      exact this
    · obtain ⟨r, k1, k2⟩ := sub_is hB ha hb
      refine ⟨some r, ?_, k2⟩
      simp only [Handle.sub]
      rw [checkContexts_is ha hb, Outcome.ok_bind, k1]
      rfl
  | mul x y z =>
    simp only [Stmt.result, Stmt.meaning, Stmt.Safe] at hs ⊢
    rcases holds_cases (h y) with ⟨e1, e2⟩ | ⟨a, t, f, e1, e2, ha⟩ <;>
      rcases holds_cases (h z) with ⟨e1', e2'⟩ | ⟨b, u, g, e1', e2', hb⟩ <;>
      rw [e2, e2'] at hs <;> rw [e1, e2, e1', e2']
    · exact ⟨_, rfl, trivial⟩
    · cases hs.1 rfl
    · cases hs.2 rfl
    · obtain ⟨r, k1, k2⟩ := mul_is hB ha hb
      refine ⟨some r, ?_, k2⟩
      simp only [Handle.mul]
      rw [checkContexts_is ha hb, Outcome.ok_bind, k1]
      rfl
  | smul x y s =>
    simp only [Stmt.result, Stmt.meaning]
    rcases holds_cases (h y) with ⟨e1, e2⟩ | ⟨a, t, f, e1, e2, ha⟩
    · rw [e1, e2]; exact ⟨_, rfl, trivial⟩
    · rw [e1, e2]
      refine ⟨some (Handle.smulElem W a s), ?_, smulElem_is hB ha s⟩
      unfold Handle.smul Handle.smulElem
      by_cases hs' : s = 0
      · simp only [if_pos hs']
      · simp only [if_neg hs']
  | sdiv x y s =>
    simp only [Stmt.result, Stmt.meaning, Stmt.Safe] at hs ⊢
    rcases holds_cases (h y) with ⟨e1, e2⟩ | ⟨a, t, f, e1, e2, ha⟩
    · rw [e1, e2]; exact ⟨_, rfl, trivial⟩
    · rw [e1, e2]
      have hs' : s ≠ 0 := hs (by rw [e2]; exact Option.some_ne_none _)
      obtain ⟨r, k1, k2⟩ := sdiv_is hB ha hs'
      refine ⟨some r, ?_, k2⟩
      simp only [Handle.sdiv]
      rw [if_neg hs', k1]
      rfl
  | addIn x y =>
    simp only [Stmt.result, Stmt.meaning, Stmt.Safe] at hs ⊢
    by_cases hxy : x = y
    · subst hxy
      rw [if_pos rfl]
      rcases holds_cases (h x) with ⟨e1, e2⟩ | ⟨a, t, f, e1, e2, ha⟩
      · rw [e1, e2]; exact ⟨_, rfl, trivial⟩
      · rw [e1, e2]
        obtain ⟨r, k1, k2⟩ := addSelf_is hB ha
        refine ⟨some r, ?_, k2⟩
        simp only [Handle.addSelf]
        rw [k1]
        rfl
    rw [if_neg hxy]
    rcases holds_cases (h x) with ⟨e1, e2⟩ | ⟨a, t, f, e1, e2, ha⟩ <;>
      rcases holds_cases (h y) with ⟨e1', e2'⟩ | ⟨b, u, g, e1', e2', hb⟩ <;>
      rw [e2, e2'] at hs <;> rw [e1, e2, e1', e2']
    · exact ⟨_, rfl, trivial⟩
    · cases hs rfl
    · refine ⟨_, rfl, ?_⟩
      have := ha.congr hB (g := f + 0) (by rw [add_zero]; exact Series.EqUpTo.refl _ _)
      exact this
    · obtain ⟨r, k1, k2⟩ := addIn_is hB ha hb
      refine ⟨some r, ?_, k2⟩
      simp only [Handle.addIn]
      rw [checkContexts_is ha hb, Outcome.ok_bind, k1]
      rfl
  | subIn x y =>
    simp only [Stmt.result, Stmt.meaning, Stmt.Safe] at hs ⊢
    obtain ⟨hs, hself⟩ := hs
    by_cases hxy : x = y
    · subst hxy
      rw [if_pos rfl]
      rcases holds_cases (h x) with ⟨e1, e2⟩ | ⟨a, t, f, e1, e2, ha⟩
      · rw [e1, e2]; exact ⟨_, rfl, trivial⟩
      · have ht : t ≠ .sparse := by
          rintro rfl
          exact hself rfl f e2
        rw [e1, e2]
        obtain ⟨r, k1, k2⟩ := subSelf_is hB ha ht
        refine ⟨some r, ?_, k2⟩
        simp only [Handle.subSelf]
        rw [k1]
        rfl
    rw [if_neg hxy]
    rcases holds_cases (h x) with ⟨e1, e2⟩ | ⟨a, t, f, e1, e2, ha⟩ <;>
      rcases holds_cases (h y) with ⟨e1', e2'⟩ | ⟨b, u, g, e1', e2', hb⟩ <;>
      rw [e2, e2'] at hs <;> rw [e1, e2, e1', e2']
    · exact ⟨_, rfl, trivial⟩
    · cases hs rfl
    · refine ⟨_, rfl, ?_⟩
      have := ha.congr hB (g := f - 0) (by rw [sub_zero]; exact Series.EqUpTo.refl _ _)
      exact this
    · obtain ⟨r, k1, k2⟩ := subIn_is hB ha hb
      refine ⟨some r, ?_, k2⟩
      simp only [Handle.subIn]
      rw [checkContexts_is ha hb, Outcome.ok_bind, k1]
      rfl
  | mulIn x y =>
    simp only [Stmt.result, Stmt.meaning, Stmt.Safe] at hs ⊢
    obtain ⟨hs, hz⟩ := hs
    rcases holds_cases (h x) with ⟨e1, e2⟩ | ⟨a, t, f, e1, e2, ha⟩ <;>
      rcases holds_cases (h y) with ⟨e1', e2'⟩ | ⟨b, u, g, e1', e2', hb⟩ <;>
      rw [e2, e2'] at hs <;> rw [e2, e2'] at hz <;> rw [e1, e2, e1', e2']
    · exact ⟨_, rfl, trivial⟩
    · cases hs.1 rfl
    · cases hs.2 rfl
    · obtain ⟨r, k1, k2⟩ := mulIn_is hB ha hb (hz t f rfl)
      refine ⟨some r, ?_, k2⟩
      simp only [Handle.mulIn]
      rw [checkContexts_is ha hb, Outcome.ok_bind, k1]
      rfl
  | smulIn x s =>
    simp only [Stmt.result, Stmt.meaning]
    rcases holds_cases (h x) with ⟨e1, e2⟩ | ⟨a, t, f, e1, e2, ha⟩
    · rw [e1, e2]; exact ⟨_, rfl, trivial⟩
    · rw [e1, e2]
      exact ⟨_, rfl, smulIn_is hB ha s⟩
  | sdivIn x s =>
    simp only [Stmt.result, Stmt.meaning, Stmt.Safe] at hs ⊢
    rcases holds_cases (h x) with ⟨e1, e2⟩ | ⟨a, t, f, e1, e2, ha⟩
    · rw [e1, e2]; exact ⟨_, rfl, trivial⟩
    · rw [e1, e2]
      have hs' : s ≠ 0 := hs (by rw [e2]; exact Option.some_ne_none _)
      obtain ⟨r, k1, k2⟩ := sdivIn_is hB ha hs'
      refine ⟨some r, ?_, k2⟩
      simp only [Handle.sdivIn]
      rw [if_neg hs', k1]
      rfl
  | addScalMul x y s =>
    simp only [Stmt.result, Stmt.meaning, Stmt.Safe] at hs ⊢
    rcases holds_cases (h x) with ⟨e1, e2⟩ | ⟨a, t, f, e1, e2, ha⟩ <;>
      rcases holds_cases (h y) with ⟨e1', e2'⟩ | ⟨b, u, g, e1', e2', hb⟩ <;>
      rw [e2, e2'] at hs <;> rw [e1, e2, e1', e2']
    · exact ⟨_, rfl, trivial⟩
    · cases hs rfl
    · refine ⟨_, rfl, ?_⟩
      have := ha.congr hB (g := f + s • 0) (by rw [smul_zero, add_zero]; exact Series.EqUpTo.refl _ _)
      exact this
    · simp only [Handle.addScalMul]
      by_cases hs' : s = 0
      · rw [if_pos hs']
        refine ⟨_, rfl, ?_⟩
        have := ha.congr hB (g := f + s • g)
          (by rw [hs', zero_smul, add_zero]; exact Series.EqUpTo.refl _ _)
        exact this
      · obtain ⟨r, k1, k2⟩ := addIn_is hB ha (smulElem_is hB hb s)
        refine ⟨some r, ?_, k2⟩
        rw [if_neg hs', checkContexts_is ha hb, Outcome.ok_bind, k1]
        rfl
  | subScalMul x y s =>
    simp only [Stmt.result, Stmt.meaning, Stmt.Safe] at hs ⊢
    rcases holds_cases (h x) with ⟨e1, e2⟩ | ⟨a, t, f, e1, e2, ha⟩ <;>
      rcases holds_cases (h y) with ⟨e1', e2'⟩ | ⟨b, u, g, e1', e2', hb⟩ <;>
      rw [e2, e2'] at hs <;> rw [e1, e2, e1', e2']
    · exact ⟨_, rfl, trivial⟩
    · cases hs rfl
    · refine ⟨_, rfl, ?_⟩
      have := ha.congr hB (g := f - s • 0) (by rw [smul_zero, sub_zero]; exact Series.EqUpTo.refl _ _)
      exact this
    · simp only [Handle.subScalMul]
      by_cases hs' : s = 0
      · rw [if_pos hs']
        refine ⟨_, rfl, ?_⟩
        have := ha.congr hB (g := f - s • g)
          (by rw [hs', zero_smul, sub_zero]; exact Series.EqUpTo.refl _ _)
        exact this
      · obtain ⟨r, k1, k2⟩ := subIn_is hB ha (smulElem_is hB hb s)
        refine ⟨some r, ?_, k2⟩
        rw [if_neg hs', checkContexts_is ha hb, Outcome.ok_bind, k1]
        rfl
  | addScalDiv x y s =>
    simp only [Stmt.result, Stmt.meaning, Stmt.Safe] at hs ⊢
    obtain ⟨hs, hdiv⟩ := hs
    rcases holds_cases (h x) with ⟨e1, e2⟩ | ⟨a, t, f, e1, e2, ha⟩ <;>
      rcases holds_cases (h y) with ⟨e1', e2'⟩ | ⟨b, u, g, e1', e2', hb⟩ <;>
      rw [e2, e2'] at hs <;> rw [e2'] at hdiv <;> rw [e1, e2, e1', e2']
    · exact ⟨_, rfl, trivial⟩
    · cases hs rfl
    · refine ⟨_, rfl, ?_⟩
      have := ha.congr hB (g := f + s⁻¹ • 0)
        (by rw [smul_zero, add_zero]; exact Series.EqUpTo.refl _ _)
      exact this
    · have hs' : s ≠ 0 := hdiv (Option.some_ne_none _)
      obtain ⟨q, q1, q2⟩ := sdivElem_is hB hb hs'
      obtain ⟨r, k1, k2⟩ := addIn_is hB ha q2
      refine ⟨some r, ?_, k2⟩
      simp only [Handle.addScalDiv]
      rw [checkContexts_is ha hb, Outcome.ok_bind, if_neg hs', q1, Outcome.ok_bind, k1]
      rfl
  | subScalDiv x y s =>
    simp only [Stmt.result, Stmt.meaning, Stmt.Safe] at hs ⊢
    obtain ⟨hs, hdiv⟩ := hs
    rcases holds_cases (h x) with ⟨e1, e2⟩ | ⟨a, t, f, e1, e2, ha⟩ <;>
      rcases holds_cases (h y) with ⟨e1', e2'⟩ | ⟨b, u, g, e1', e2', hb⟩ <;>
      rw [e2, e2'] at hs <;> rw [e2'] at hdiv <;> rw [e1, e2, e1', e2']
    · exact ⟨_, rfl, trivial⟩
    · cases hs rfl
    · refine ⟨_, rfl, ?_⟩
      have := ha.congr hB (g := f - s⁻¹ • 0)
        (by rw [smul_zero, sub_zero]; exact Series.EqUpTo.refl _ _)
      exact this
    · have hs' : s ≠ 0 := hdiv (Option.some_ne_none _)
      obtain ⟨q, q1, q2⟩ := sdivElem_is hB hb hs'
      obtain ⟨r, k1, k2⟩ := subIn_is hB ha q2
      refine ⟨some r, ?_, k2⟩
      simp only [Handle.subScalDiv]
      rw [checkContexts_is ha hb, Outcome.ok_bind, if_neg hs', q1, Outcome.ok_bind, k1]
      rfl
  | addMul x y z =>
    simp only [Stmt.result, Stmt.meaning, Stmt.Safe] at hs ⊢
    rcases holds_cases (h x) with ⟨e1, e2⟩ | ⟨a, t, f, e1, e2, ha⟩ <;>
      rcases holds_cases (h y) with ⟨e1', e2'⟩ | ⟨b, u, g, e1', e2', hb⟩ <;>
      rcases holds_cases (h z) with ⟨e1'', e2''⟩ | ⟨d, u', g', e1'', e2'', hd⟩ <;>
      rw [e2, e2', e2''] at hs <;> rw [e1, e2, e1', e2', e1'', e2'']
    · exact ⟨_, rfl, trivial⟩
    · exact ⟨_, rfl, trivial⟩
    · exact ⟨_, rfl, trivial⟩
    · rcases hs rfl with hs | hs <;> cases hs
    · refine ⟨_, rfl, ?_⟩
      have := ha.congr hB (g := f + bmul 0 0) (by rw [hl, add_zero]; exact Series.EqUpTo.refl _ _)
      exact this
    · refine ⟨_, rfl, ?_⟩
      have := ha.congr hB (g := f + bmul 0 g') (by rw [hl, add_zero]; exact Series.EqUpTo.refl _ _)
      exact this
    · refine ⟨_, rfl, ?_⟩
      have := ha.congr hB (g := f + bmul g 0) (by rw [hr, add_zero]; exact Series.EqUpTo.refl _ _)
      exact this
    · obtain ⟨q, q1, q2⟩ := mulElem_is hB hb hd
      obtain ⟨r, k1, k2⟩ := addIn_is hB ha q2
      refine ⟨some r, ?_, k2⟩
      simp only [Handle.addMul]
      rw [checkContexts_is ha hb, Outcome.ok_bind, checkContexts_is ha hd, Outcome.ok_bind, q1,
        Outcome.ok_bind, k1]
      rfl
  | subMul x y z =>
    simp only [Stmt.result, Stmt.meaning, Stmt.Safe] at hs ⊢
    rcases holds_cases (h x) with ⟨e1, e2⟩ | ⟨a, t, f, e1, e2, ha⟩ <;>
      rcases holds_cases (h y) with ⟨e1', e2'⟩ | ⟨b, u, g, e1', e2', hb⟩ <;>
      rcases holds_cases (h z) with ⟨e1'', e2''⟩ | ⟨d, u', g', e1'', e2'', hd⟩ <;>
      rw [e2, e2', e2''] at hs <;> rw [e1, e2, e1', e2', e1'', e2'']
    · exact ⟨_, rfl, trivial⟩
    · exact ⟨_, rfl, trivial⟩
    · exact ⟨_, rfl, trivial⟩
    · rcases hs rfl with hs | hs <;> cases hs
    · refine ⟨_, rfl, ?_⟩
      have := ha.congr hB (g := f - bmul 0 0) (by rw [hl, sub_zero]; exact Series.EqUpTo.refl _ _)
      exact this
    · refine ⟨_, rfl, ?_⟩
      have := ha.congr hB (g := f - bmul 0 g') (by rw [hl, sub_zero]; exact Series.EqUpTo.refl _ _)
      exact this
    · refine ⟨_, rfl, ?_⟩
      have := ha.congr hB (g := f - bmul g 0) (by rw [hr, sub_zero]; exact Series.EqUpTo.refl _ _)
      exact this
    · obtain ⟨q, q1, q2⟩ := mulElem_is hB hb hd
      obtain ⟨r, k1, k2⟩ := subIn_is hB ha q2
      refine ⟨some r, ?_, k2⟩
      simp only [Handle.subMul]
      rw [checkContexts_is ha hb, Outcome.ok_bind, checkContexts_is ha hd, Outcome.ok_bind, q1,
        Outcome.ok_bind, k1]
      rfl
  | mulSmul x y s =>
    simp only [Stmt.result, Stmt.meaning, Stmt.Safe] at hs ⊢
    obtain ⟨hs, hz⟩ := hs
    have hzero : ∀ f g : Series (Fin w) K, g = 0 → EqUpTo depth 0 (bmul f g) := by
      rintro f g rfl
      rw [hr]
      exact Series.EqUpTo.refl _ _
    rcases holds_cases (h x) with ⟨e1, e2⟩ | ⟨a, t, f, e1, e2, ha⟩ <;>
      rcases holds_cases (h y) with ⟨e1', e2'⟩ | ⟨b, u, g, e1', e2', hb⟩ <;>
      rw [e2, e2'] at hs <;> rw [e2, e2'] at hz <;> rw [e1, e2, e1', e2']
    · exact ⟨_, rfl, trivial⟩
    · rcases hs rfl with hs | hs
      · cases hs
      · simp only [Handle.mulSmul]
        rw [if_pos hs]
        exact ⟨_, rfl, trivial⟩
    · have hv : s • Var.value (none : Var w K) = 0 := smul_zero s
      have hc := (hz t f rfl).resolve_right (by rw [hv]; exact fun h => h (Series.EqUpTo.refl _ _))
      exact ⟨_, rfl, (clear_is hB ha hc).congr hB (hzero f _ hv)⟩
    · simp only [Handle.mulSmul]
      by_cases hs' : s = 0
      · rw [if_pos hs']
        have hv : s • Var.value (some (u, g) : Var w K) = 0 := by rw [hs', zero_smul]
        have hc := (hz t f rfl).resolve_right (by rw [hv]; exact fun h => h (Series.EqUpTo.refl _ _))
        exact ⟨_, rfl, (clear_is hB ha hc).congr hB (hzero f _ hv)⟩
      · rw [if_neg hs']
        obtain ⟨r, k1, k2⟩ := mulIn_is hB ha (smulElem_is hB hb s) (hz t f rfl)
        refine ⟨some r, ?_, k2⟩
        rw [checkContexts_is ha hb, Outcome.ok_bind, k1]
        rfl
  | mulSdiv x y s =>
    simp only [Stmt.result, Stmt.meaning, Stmt.Safe] at hs ⊢
    obtain ⟨hs, hdiv, hz⟩ := hs
    rcases holds_cases (h x) with ⟨e1, e2⟩ | ⟨a, t, f, e1, e2, ha⟩ <;>
      rcases holds_cases (h y) with ⟨e1', e2'⟩ | ⟨b, u, g, e1', e2', hb⟩ <;>
      rw [e2, e2'] at hs <;> rw [e2'] at hdiv <;> rw [e2, e2'] at hz <;> rw [e1, e2, e1', e2']
    · exact ⟨_, rfl, trivial⟩
    · cases hs rfl
    · have hc := (hz t f rfl).resolve_right (fun h => h (Series.EqUpTo.refl _ _))
      refine ⟨_, rfl, (clear_is hB ha hc).congr hB ?_⟩
      show EqUpTo depth 0 (bmul f (s⁻¹ • 0))
      rw [smul_zero, hr]
      exact Series.EqUpTo.refl _ _
    · have hs' : s ≠ 0 := hdiv (Option.some_ne_none _)
      obtain ⟨q, q1, q2⟩ := sdivElem_is hB hb hs'
      obtain ⟨r, k1, k2⟩ := mulIn_is hB ha q2 ((hz t f rfl).imp_right fun hg hg' =>
        hg ((eqUpTo_smul_zero (inv_ne_zero hs')).1 hg'))
      refine ⟨some r, ?_, k2⟩
      simp only [Handle.mulSdiv]
      rw [checkContexts_is ha hb, Outcome.ok_bind, if_neg hs', q1, Outcome.ok_bind, k1]
      rfl

theorem run_holds (hB : (W.vectors i).Lawful depth bmul den clears)
    (hl : ∀ f, bmul 0 f = 0) (hr : ∀ f, bmul f 0 = 0) :
    ∀ (p : List (Stmt K)) (σ : Store V) (τ : ℕ → Var w K),
    (∀ x, Holds (W.vectors i).storage den i (σ x) (τ x)) → Safe bmul depth clears p τ →
    ∃ σ', run W p σ = .ok σ' ∧
      ∀ x, Holds (W.vectors i).storage den i (σ' x) (meaning bmul p τ x)
  | [], σ, τ, h, _ => ⟨σ, rfl, h⟩
  | c :: p, σ, τ, h, hs => by
    obtain ⟨r, h1, h2⟩ := result_holds hB hl hr h c hs.1
    obtain ⟨σ', h3, h4⟩ := run_holds hB hl hr p (Function.update σ c.target r)
      (Function.update τ c.target (c.meaning bmul τ)) (fun x => by
        by_cases hx : x = c.target
        · subst hx
          rw [Function.update_self, Function.update_self]
          exact h2
        · rw [Function.update_of_ne hx, Function.update_of_ne hx]
          exact h x) hs.2
    refine ⟨σ', ?_, h4⟩
    unfold run step
    rw [h1, Outcome.ok_bind, Outcome.ok_bind]
    exact h3

end

end RoughPy.Handles
