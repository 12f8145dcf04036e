import Verif.Lite.HandleRun

/-!
# Operands of different contexts: lemmas
-/

namespace RoughPy.Handles

open RoughPy.Lite RoughPy.Tensor RoughPy.Tensor.Series

variable {K V : Type} [Field K] [DecidableEq K] {W : Contexts K V}

theorem Outcome.refused_bind {α β : Type} (f : α → Outcome β) :
    ((Outcome.refused : Outcome α) >>= f) = .refused := rfl

theorem convertArgument_ne {a b : Elem V} (h : a.ctx ≠ b.ctx) :
    a.convertArgument W b = .refused := if_neg h

theorem checkContexts_ne {a b : Elem V} (h : a.ctx ≠ b.ctx) :
    checkContexts W (some a) (some b) = .ok () ∨ checkContexts W (some a) (some b) = .refused := by
  unfold checkContexts
  rw [if_neg (by simpa using h)]
  by_cases hw : W.width a.ctx = W.width b.ctx
  · exact Or.inl (if_pos hw)
  · exact Or.inr (if_neg hw)

theorem checkContexts_some (a b : Elem V) :
    checkContexts W (some a) (some b) = .ok () ∨ checkContexts W (some a) (some b) = .refused := by
  by_cases h : a.ctx = b.ctx
  · unfold checkContexts
    exact Or.inl (if_pos (by simp [h]))
  · exact checkContexts_ne h

/-- after a check of contexts it is enough that the rest is refused -/
theorem check_bind {β : Type} (a b : Elem V) {o : Outcome β} (h : o = .refused) :
    (checkContexts W (some a) (some b) >>= fun _ => o) = .refused := by
  rcases checkContexts_some (W := W) a b with h' | h'
  · rw [h', Outcome.ok_bind, h]
  · rw [h']; rfl

theorem addIn_ne {a b : Elem V} (h : a.ctx ≠ b.ctx) : a.addIn W b = .refused := by
  unfold Elem.addIn
  rw [convertArgument_ne h]; rfl

theorem subIn_ne {a b : Elem V} (h : a.ctx ≠ b.ctx) : a.subIn W b = .refused := by
  unfold Elem.subIn
  rw [convertArgument_ne h]; rfl

theorem mulIn_ne {a b : Elem V} (h : a.ctx ≠ b.ctx) : a.mulIn W b = .refused := by
  unfold Elem.mulIn
  rw [convertArgument_ne h]; rfl

theorem mulElem_ne {a b : Elem V} (h : a.ctx ≠ b.ctx) : Handle.mulElem W a b = .refused := by
  unfold Handle.mulElem
  refine check_bind _ _ ?_
  unfold Elem.mul
  rw [convertArgument_ne h]; rfl

theorem smulElem_ctx (b : Elem V) (s : K) : (Handle.smulElem W b s).ctx = b.ctx := by
  unfold Handle.smulElem
  split <;> rfl

/-- `hdiv`, `hmul`: quotients and products within a context are defined. -/
theorem refused_of {σ : Store V} (c : Stmt K)
    (hdiv : ∀ x a s, σ x = some a → s ≠ 0 → ∃ r, a.sdiv W s = .ok r ∧ r.ctx = a.ctx)
    (hmul : ∀ x y a b, σ x = some a → σ y = some b → a.ctx = b.ctx →
      ∃ r, Handle.mulElem W a b = .ok r ∧ r.ctx = a.ctx)
    (hset : ∀ x ∈ c.operands, σ x ≠ none) {x y : ℕ} (hx : x ∈ c.operands) (hy : y ∈ c.operands)
    {a b : Elem V} (ha : σ x = some a) (hb : σ y = some b) (hne : a.ctx ≠ b.ctx)
    (hz : ¬ c.FusedZero) : c.result W σ = .refused := by
  have hxy : x ≠ y := by
    rintro rfl
    rw [ha, Option.some.injEq] at hb
    exact hne (congrArg _ hb)
  -- the two operands in their order
  have two : ∀ {p q : ℕ}, c.operands = [p, q] → ∃ u v : Elem V, σ p = some u ∧ σ q = some v ∧
      u.ctx ≠ v.ctx ∧ p ≠ q := by
    intro p q hpq
    rw [hpq, List.mem_cons, List.mem_singleton] at hx hy
    rcases hx with rfl | rfl <;> rcases hy with rfl | rfl
    · exact absurd rfl hxy
    · exact ⟨a, b, ha, hb, hne, hxy⟩
    · exact ⟨b, a, hb, ha, hne.symm, hxy.symm⟩
    · exact absurd rfl hxy
  have one : ∀ {p : ℕ}, c.operands = [p] → False := by
    intro p hp
    rw [hp, List.mem_singleton] at hx hy
    exact hxy (hx.trans hy.symm)
  have hsdiv : ∀ {p : ℕ} {v : Elem V} {s : K}, σ p = some v → s ≠ 0 →
      ∃ r, Handle.sdivElem W v s = .ok r ∧ r.ctx = v.ctx := by
    intro p v s hp hs
    unfold Handle.sdivElem
    rw [if_neg hs]
    exact hdiv p v s hp hs
  -- the three operands of `add_mul`
  have three : ∀ {p q r : ℕ}, c.operands = [p, q, r] → ∃ u v t : Elem V, σ p = some u ∧
      σ q = some v ∧ σ r = some t ∧ (v.ctx ≠ t.ctx ∨ v.ctx = t.ctx ∧ u.ctx ≠ v.ctx) := by
    intro p q r hpqr
    have hs : ∀ i ∈ [p, q, r], ∃ u, σ i = some u := fun i hi =>
      Option.ne_none_iff_exists'.1 (hset i (hpqr ▸ hi))
    obtain ⟨u, hu⟩ := hs p (by simp)
    obtain ⟨v, hv⟩ := hs q (by simp)
    obtain ⟨t, ht⟩ := hs r (by simp)
    refine ⟨u, v, t, hu, hv, ht, ?_⟩
    by_contra hcon
    have h1 : v.ctx = t.ctx := by by_contra h; exact hcon (Or.inl h)
    have h2 : u.ctx = v.ctx := by by_contra h; exact hcon (Or.inr ⟨h1, h⟩)
    have hall : ∀ i ∈ [p, q, r], ∀ z, σ i = some z → z.ctx = u.ctx := by
      intro i hi z hz
      simp only [List.mem_cons, List.not_mem_nil, or_false] at hi
      rcases hi with rfl | rfl | rfl
      · rw [hu] at hz; cases hz; rfl
      · rw [hv] at hz; cases hz; exact h2.symm
      · rw [ht] at hz; cases hz; exact h1.symm.trans h2.symm
    exact hne ((hall x (hpqr ▸ hx) a ha).trans (hall y (hpqr ▸ hy) b hb).symm)
  cases c with
  | copy p q => exact (one rfl).elim
  | neg p q => exact (one rfl).elim
  | smul p q s => exact (one rfl).elim
  | sdiv p q s => exact (one rfl).elim
  | smulIn p s => exact (one rfl).elim
  | sdivIn p s => exact (one rfl).elim
  | add _ p q =>
    obtain ⟨u, v, hu, hv, huv, -⟩ := two rfl
    unfold Stmt.result Handle.add
    dsimp only
    rw [hu, hv]
    refine check_bind _ _ ?_
    show (u.add W v >>= _) = _
    unfold Elem.add
    rw [convertArgument_ne huv]; rfl
  | sub _ p q =>
    obtain ⟨u, v, hu, hv, huv, -⟩ := two rfl
    unfold Stmt.result Handle.sub
    dsimp only
    rw [hu, hv]
    refine check_bind _ _ ?_
    show (u.sub W v >>= _) = _
    unfold Elem.sub
    rw [convertArgument_ne huv]; rfl
  | mul _ p q =>
    obtain ⟨u, v, hu, hv, huv, -⟩ := two rfl
    unfold Stmt.result Handle.mul
    dsimp only
    rw [hu, hv]
    refine check_bind _ _ ?_
    show (u.mul W v >>= _) = _
    unfold Elem.mul
    rw [convertArgument_ne huv]; rfl
  | addIn p q =>
    obtain ⟨u, v, hu, hv, huv, hpq⟩ := two rfl
    unfold Stmt.result Handle.addIn
    dsimp only
    rw [if_neg hpq, hu, hv]
    refine check_bind _ _ ?_
    show (u.addIn W v >>= _) = _
    rw [addIn_ne huv]; rfl
  | subIn p q =>
    obtain ⟨u, v, hu, hv, huv, hpq⟩ := two rfl
    unfold Stmt.result Handle.subIn
    dsimp only
    rw [if_neg hpq, hu, hv]
    refine check_bind _ _ ?_
    show (u.subIn W v >>= _) = _
    rw [subIn_ne huv]; rfl
  | mulIn p q =>
    obtain ⟨u, v, hu, hv, huv, hpq⟩ := two rfl
    unfold Stmt.result Handle.mulIn
    dsimp only
    rw [hu, hv]
    refine check_bind _ _ ?_
    show (u.mulIn W v >>= _) = _
    rw [mulIn_ne huv]; rfl
  | addScalMul p q s =>
    obtain ⟨u, v, hu, hv, huv, hpq⟩ := two rfl
    unfold Stmt.result Handle.addScalMul
    dsimp only
    rw [hu, hv]
    show (if s = 0 then _ else _) = _
    rw [if_neg (show ¬ s = 0 from hz)]
    refine check_bind _ _ ?_
    show (u.addIn W (Handle.smulElem W v s) >>= _) = _
    rw [addIn_ne (by rw [smulElem_ctx]; exact huv)]; rfl
  | subScalMul p q s =>
    obtain ⟨u, v, hu, hv, huv, hpq⟩ := two rfl
    unfold Stmt.result Handle.subScalMul
    dsimp only
    rw [hu, hv]
    show (if s = 0 then _ else _) = _
    rw [if_neg (show ¬ s = 0 from hz)]
    refine check_bind _ _ ?_
    show (u.subIn W (Handle.smulElem W v s) >>= _) = _
    rw [subIn_ne (by rw [smulElem_ctx]; exact huv)]; rfl
  | mulSmul p q s =>
    obtain ⟨u, v, hu, hv, huv, hpq⟩ := two rfl
    unfold Stmt.result Handle.mulSmul
    dsimp only
    rw [hu, hv]
    show (if s = 0 then _ else _) = _
    rw [if_neg (show ¬ s = 0 from hz)]
    refine check_bind _ _ ?_
    show (u.mulIn W (Handle.smulElem W v s) >>= _) = _
    rw [mulIn_ne (by rw [smulElem_ctx]; exact huv)]; rfl
  | addScalDiv p q s =>
    obtain ⟨u, v, hu, hv, huv, hpq⟩ := two rfl
    unfold Stmt.result Handle.addScalDiv
    dsimp only
    rw [hu, hv]
    refine check_bind _ _ ?_
    by_cases hs : s = 0
    · exact if_pos hs
    · rw [if_neg hs]
      obtain ⟨r, h1, h2⟩ := hsdiv hv hs
      show (Handle.sdivElem W v s >>= _) = _
      rw [h1, Outcome.ok_bind, addIn_ne (by rw [h2]; exact huv)]; rfl
  | subScalDiv p q s =>
    obtain ⟨u, v, hu, hv, huv, hpq⟩ := two rfl
    unfold Stmt.result Handle.subScalDiv
    dsimp only
    rw [hu, hv]
    refine check_bind _ _ ?_
    by_cases hs : s = 0
    · exact if_pos hs
    · rw [if_neg hs]
      obtain ⟨r, h1, h2⟩ := hsdiv hv hs
      show (Handle.sdivElem W v s >>= _) = _
      rw [h1, Outcome.ok_bind, subIn_ne (by rw [h2]; exact huv)]; rfl
  | mulSdiv p q s =>
    obtain ⟨u, v, hu, hv, huv, hpq⟩ := two rfl
    unfold Stmt.result Handle.mulSdiv
    dsimp only
    rw [hu, hv]
    refine check_bind _ _ ?_
    by_cases hs : s = 0
    · exact if_pos hs
    · rw [if_neg hs]
      obtain ⟨r, h1, h2⟩ := hsdiv hv hs
      show (Handle.sdivElem W v s >>= _) = _
      rw [h1, Outcome.ok_bind, mulIn_ne (by rw [h2]; exact huv)]; rfl
  | addMul p q r =>
    obtain ⟨u, v, t, hu, hv, ht, h⟩ := three rfl
    unfold Stmt.result Handle.addMul
    dsimp only
    rw [hu, hv, ht]
    refine check_bind _ _ (check_bind _ _ ?_)
    show (Handle.mulElem W v t >>= _) = _
    rcases h with h | ⟨h1, h2⟩
    · rw [mulElem_ne h]; rfl
    · obtain ⟨z, k1, k2⟩ := hmul _ _ _ _ hv ht h1
      rw [k1, Outcome.ok_bind, addIn_ne (by rw [k2]; exact h2)]; rfl
  | subMul p q r =>
    obtain ⟨u, v, t, hu, hv, ht, h⟩ := three rfl
    unfold Stmt.result Handle.subMul
    dsimp only
    rw [hu, hv, ht]
    refine check_bind _ _ (check_bind _ _ ?_)
    show (Handle.mulElem W v t >>= _) = _
    rcases h with h | ⟨h1, h2⟩
    · rw [mulElem_ne h]; rfl
    · obtain ⟨z, k1, k2⟩ := hmul _ _ _ _ hv ht h1
      rw [k1, Outcome.ok_bind, subIn_ne (by rw [k2]; exact h2)]; rfl

/-- division by zero, in any contexts -/
theorem refused_div {σ : Store V} (c : Stmt K) (hset : ∀ x ∈ c.operands, σ x ≠ none)
    (h : c.DividesByZero) : c.result W σ = .refused := by
  have get : ∀ {p : ℕ}, p ∈ c.operands → ∃ u, σ p = some u := fun hp =>
    Option.ne_none_iff_exists'.1 (hset _ hp)
  cases c with
  | sdiv p q s =>
    obtain ⟨u, hu⟩ := get (p := q) (by simp [Stmt.operands])
    unfold Stmt.result Handle.sdiv
    dsimp only
    rw [hu]
    exact if_pos h
  | sdivIn p s =>
    obtain ⟨u, hu⟩ := get (p := p) (by simp [Stmt.operands])
    unfold Stmt.result Handle.sdivIn
    dsimp only
    rw [hu]
    exact if_pos h
  | addScalDiv p q s =>
    obtain ⟨u, hu⟩ := get (p := p) (by simp [Stmt.operands])
    obtain ⟨v, hv⟩ := get (p := q) (by simp [Stmt.operands])
    unfold Stmt.result Handle.addScalDiv
    dsimp only
    rw [hu, hv]
    exact check_bind _ _ (if_pos h)
  | subScalDiv p q s =>
    obtain ⟨u, hu⟩ := get (p := p) (by simp [Stmt.operands])
    obtain ⟨v, hv⟩ := get (p := q) (by simp [Stmt.operands])
    unfold Stmt.result Handle.subScalDiv
    dsimp only
    rw [hu, hv]
    exact check_bind _ _ (if_pos h)
  | mulSdiv p q s =>
    obtain ⟨u, hu⟩ := get (p := p) (by simp [Stmt.operands])
    obtain ⟨v, hv⟩ := get (p := q) (by simp [Stmt.operands])
    unfold Stmt.result Handle.mulSdiv
    dsimp only
    rw [hu, hv]
    exact check_bind _ _ (if_pos h)
  | copy | neg | add | sub | mul | smul | addIn | subIn | mulIn | smulIn | addScalMul | subScalMul
  | addMul | subMul | mulSmul => exact h.elim

/-! ## Equality -/

section
variable {w i depth : ℕ} {bmul : Series (Fin w) K → Series (Fin w) K → Series (Fin w) K}
  {den : V → Series (Fin w) K → Prop} {clears : VecType → Prop}

theorem eq_holds (hB : (W.vectors i).Lawful depth bmul den clears) {x y : Handle V} {a b : Var w K}
    (hx : Holds (W.vectors i).storage den i x a) (hy : Holds (W.vectors i).storage den i y b) :
    ∃ r, Handle.eq W x y = .ok r ∧ (r = true ↔ EqUpTo depth a.value b.value) := by
  rcases holds_cases hx with ⟨rfl, rfl⟩ | ⟨u, t, f, rfl, rfl, hu⟩ <;>
    rcases holds_cases hy with ⟨rfl, rfl⟩ | ⟨v, t', g, rfl, rfl, hv⟩
  · exact ⟨true, rfl, iff_of_true rfl (Series.EqUpTo.refl _ _)⟩
  · refine ⟨_, rfl, ?_⟩
    unfold Elem.isZero
    rw [hv.1, hB.isZero _ _ hv.2.2]
    exact ⟨fun h => h.symm, fun h => h.symm⟩
  · refine ⟨_, rfl, ?_⟩
    unfold Elem.isZero
    rw [hu.1, hB.isZero _ _ hu.2.2]
    exact Iff.rfl
  · obtain ⟨z, h1, h2, h3⟩ := convertArgument_is hB hu hv
    obtain ⟨r, k1, k2⟩ := hB.beq _ _ _ _ hu.2.2 h3 h2
    refine ⟨r, ?_, k2⟩
    unfold Handle.eq Elem.equals
    dsimp only
    rw [if_pos (by rw [hu.1, hv.1]), h1, Outcome.ok_bind, hu.1, k1]
    rfl

theorem isZero_holds (hB : (W.vectors i).Lawful depth bmul den clears) {x : Handle V} {a : Var w K}
    (hx : Holds (W.vectors i).storage den i x a) :
    Handle.isZero W x = true ↔ EqUpTo depth a.value 0 := by
  rcases holds_cases hx with ⟨rfl, rfl⟩ | ⟨u, t, f, rfl, rfl, hu⟩
  · exact iff_of_true rfl (Series.EqUpTo.refl _ _)
  · unfold Handle.isZero Elem.isZero
    dsimp only
    rw [hu.1, hB.isZero _ _ hu.2.2]
    exact Iff.rfl

end

end RoughPy.Handles
