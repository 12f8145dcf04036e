import Verif.Arrays.KeySpec

/-!
# The books of the keys
-/

namespace RoughPy.Arrays

open RoughPy.Args (Out)
open RoughPy.Scalars (Ty Val FP TRef conv)

/-- The books: who owns which block of keys. -/
structure Inv (U ks : List KBlock) (V : ℕ → Option KArr) : Prop where
  own : ∀ i a p, V i = some a → a.owns = true → a.keys = some p → p.2 = 0 ∧ U.length ≤ p.1 ∧
    ∃ B, ks[p.1]? = some B ∧ B.alive = true ∧ B.user = false ∧ B.cells.length = a.base.size
  uniq : ∀ i j a b p q, V i = some a → V j = some b → a.owns = true → b.owns = true →
    a.keys = some p → b.keys = some q → p.1 = q.1 → i = j
  lent : ∀ i a p, V i = some a → a.owns = false → a.keys = some p → p.1 < U.length
  user : ∀ b, b < U.length → ks[b]? = U[b]?
  size : U.length ≤ ks.length
  lib : ∀ (b : ℕ) (B : KBlock), U.length ≤ b → ks[b]? = some B → B.alive = true →
    ∃ i a, V i = some a ∧ a.owns = true ∧ a.keys = some (b, 0)

/-- The books are in order again, and nothing has changed outside `T`. -/
structure Go (U ks : List KBlock) (V : ℕ → Option KArr) (T : ℕ → Prop) (ks' : List KBlock)
    (V' : ℕ → Option KArr) : Prop where
  inv : Inv U ks' V'
  frame : ∀ m, ¬ T m → V' m = V m ∧
    ∀ a p, V m = some a → a.keys = some p → ks'[p.1]? = ks[p.1]?

variable {U ks ks' ks'' : List KBlock} {V V' V'' : ℕ → Option KArr} {T T' : ℕ → Prop}

theorem Go.refl (h : Inv U ks V) (T : ℕ → Prop) : Go U ks V T ks V :=
  ⟨h, fun _ _ => ⟨rfl, fun _ _ _ _ => rfl⟩⟩

theorem Go.trans (h : Go U ks V T ks' V') (h' : Go U ks' V' T ks'' V'') : Go U ks V T ks'' V'' := by
  refine ⟨h'.inv, fun m hm => ?_⟩
  obtain ⟨e1, e2⟩ := h.frame m hm
  obtain ⟨f1, f2⟩ := h'.frame m hm
  exact ⟨f1.trans e1, fun a p ha hp => (f2 a p (e1.trans ha) hp).trans (e2 a p ha hp)⟩

theorem Go.mono (h : Go U ks V T ks' V') (hT : ∀ m, T m → T' m) : Go U ks V T' ks' V' :=
  ⟨h.inv, fun m hm => h.frame m fun x => hm (hT m x)⟩

/-- An array that owns nothing is replaced by one that owns nothing, or by none. -/
theorem Inv.passive (h : Inv U ks V) {i : ℕ} (hi : ∀ a, V i = some a → a.owns = true → a.keys = none)
    {x : Option KArr} (hx : ∀ a, x = some a → (a.owns = true → a.keys = none) ∧
      ∀ p, a.owns = false → a.keys = some p → p.1 < U.length) :
    Go U ks V (· = i) ks (Function.update V i x) := by
  have hne : ∀ {j a p}, Function.update V i x j = some a → a.owns = true → a.keys = some p →
      j ≠ i ∧ V j = some a := by
    intro j a p hj ho hk
    by_cases hji : j = i
    · subst hji
      rw [Function.update_self] at hj
      rw [(hx a hj).1 ho] at hk; cases hk
    · rw [Function.update_of_ne hji] at hj
      exact ⟨hji, hj⟩
  refine ⟨⟨?_, ?_, ?_, h.user, h.size, ?_⟩, fun m hm => ⟨Function.update_of_ne hm _ _, fun _ _ _ _ => rfl⟩⟩
  · intro j a p hj ho hk
    exact h.own j a p (hne hj ho hk).2 ho hk
  · intro j k a b p q hj hk hoa hob hka hkb e
    exact h.uniq j k a b p q (hne hj hoa hka).2 (hne hk hob hkb).2 hoa hob hka hkb e
  · intro j a p hj ho hk
    by_cases hji : j = i
    · subst hji
      rw [Function.update_self] at hj
      exact (hx a hj).2 p ho hk
    · rw [Function.update_of_ne hji] at hj
      exact h.lent j a p hj ho hk
  · intro b B hb hB hal
    obtain ⟨j, a, e1, e2, e3⟩ := h.lib b B hb hB hal
    have hji : j ≠ i := by
      rintro rfl
      rw [hi a e1 e2] at e3; cases e3
    exact ⟨j, a, by rw [Function.update_of_ne hji]; exact e1, e2, e3⟩

/-- An array that owns nothing is replaced by one that owns a new block. -/
theorem Inv.acquire (h : Inv U ks V) {i : ℕ} (hi : ∀ a, V i = some a → a.owns = true → a.keys = none)
    {b : Arr} {l : List ℕ} (hl : l.length = b.size) :
    Go U ks V (· = i) (ks ++ [⟨l, false, true⟩])
      (Function.update V i (some ⟨b, some (ks.length, 0), true⟩)) := by
  have old : ∀ {j : ℕ} {B : KBlock}, ks[j]? = some B → (ks ++ [⟨l, false, true⟩])[j]? = some B := by
    intro j B hj
    have := (List.getElem?_eq_some_iff.1 hj).1
    rw [List.getElem?_append_left this]; exact hj
  have lt : ∀ {j a p}, V j = some a → a.owns = true → a.keys = some p → p.1 < ks.length := by
    intro j a p hj ho hk
    obtain ⟨-, -, B, e, -⟩ := h.own j a p hj ho hk
    exact (List.getElem?_eq_some_iff.1 e).1
  refine ⟨⟨?_, ?_, ?_, ?_, ?_, ?_⟩, fun m hm => ⟨Function.update_of_ne hm _ _, fun a p ha hk => ?_⟩⟩
  · intro j a p hj ho hk
    by_cases hji : j = i
    · subst hji
      rw [Function.update_self] at hj
      cases hj; cases hk
      exact ⟨rfl, h.size, ⟨l, false, true⟩, by simp, rfl, rfl, hl⟩
    · rw [Function.update_of_ne hji] at hj
      obtain ⟨e1, e2, B, e3, e4⟩ := h.own j a p hj ho hk
      exact ⟨e1, e2, B, old e3, e4⟩
  · intro j k a c p q hj hk hoa hoc hka hkc e
    by_cases hji : j = i <;> by_cases hki : k = i
    · rw [hji, hki]
    · subst hji
      rw [Function.update_self] at hj
      rw [Function.update_of_ne hki] at hk
      cases hj; cases hka
      have := lt hk hoc hkc
      dsimp only at e; omega
    · subst hki
      rw [Function.update_self] at hk
      rw [Function.update_of_ne hji] at hj
      cases hk; cases hkc
      have := lt hj hoa hka
      dsimp only at e; omega
    · rw [Function.update_of_ne hji] at hj
      rw [Function.update_of_ne hki] at hk
      exact h.uniq j k a c p q hj hk hoa hoc hka hkc e
  · intro j a p hj ho hk
    by_cases hji : j = i
    · subst hji
      rw [Function.update_self] at hj
      cases hj; cases ho
    · rw [Function.update_of_ne hji] at hj
      exact h.lent j a p hj ho hk
  · intro c hc
    rw [List.getElem?_append_left (by have := h.size; omega)]
    exact h.user c hc
  · rw [List.length_append]; have := h.size; omega
  · intro c B hc hB hal
    by_cases hck : c < ks.length
    · rw [List.getElem?_append_left hck] at hB
      obtain ⟨j, a, e1, e2, e3⟩ := h.lib c B hc hB hal
      have hji : j ≠ i := by
        rintro rfl
        rw [hi a e1 e2] at e3; cases e3
      exact ⟨j, a, by rw [Function.update_of_ne hji]; exact e1, e2, e3⟩
    · have : c < (ks ++ [(⟨l, false, true⟩ : KBlock)]).length := (List.getElem?_eq_some_iff.1 hB).1
      rw [List.length_append, List.length_singleton] at this
      have hc' : c = ks.length := by omega
      subst hc'
      exact ⟨i, _, Function.update_self _ _ _, rfl, rfl⟩
  · cases ho : a.owns
    · have := h.lent m a p ha ho hk
      rw [List.getElem?_append_left (by have := h.size; omega)]
    · rw [List.getElem?_append_left (lt ha ho hk)]

/-- An array that owns a block gives it back and is gone. -/
theorem Inv.release (h : Inv U ks V) {i : ℕ} {a : KArr} {p : KPtr} (hi : V i = some a)
    (ho : a.owns = true) (hk : a.keys = some p) :
    ∃ ks', freeKeys ks p = some ks' ∧ Go U ks V (· = i) ks' (Function.update V i none) := by
  obtain ⟨e1, e2, B, e3, e4, e5, e6⟩ := h.own i a p hi ho hk
  have hlt := (List.getElem?_eq_some_iff.1 e3).1
  refine ⟨ks.set p.1 { B with alive := false }, ?_, ?_⟩
  · unfold freeKeys
    rw [e3]
    simp [e4, e5, e1]
  have other : ∀ {c}, c ≠ p.1 → (ks.set p.1 { B with alive := false })[c]? = ks[c]? := by
    intro c hc
    rw [List.getElem?_set_ne (Ne.symm hc)]
  have hne : ∀ {j x}, Function.update V i none j = some x → j ≠ i ∧ V j = some x := by
    intro j x hj
    by_cases hji : j = i
    · subst hji; rw [Function.update_self] at hj; cases hj
    · rw [Function.update_of_ne hji] at hj; exact ⟨hji, hj⟩
  have diff : ∀ {j x q}, j ≠ i → V j = some x → x.keys = some q → q.1 ≠ p.1 := by
    intro j x q hji hj hq he
    cases hox : x.owns
    · have := h.lent j x q hj hox hq; omega
    · exact hji (h.uniq j i x a q p hj hi hox ho hq hk he)
  refine ⟨⟨?_, ?_, ?_, ?_, ?_, ?_⟩, fun m hm => ⟨Function.update_of_ne hm _ _, fun x q hx hq => ?_⟩⟩
  · intro j x q hj hox hq
    obtain ⟨hji, hj⟩ := hne hj
    rw [other (diff hji hj hq)]
    exact h.own j x q hj hox hq
  · intro j k x y q r hj hk' hox hoy hqx hqy e
    exact h.uniq j k x y q r (hne hj).2 (hne hk').2 hox hoy hqx hqy e
  · intro j x q hj hox hq
    exact h.lent j x q (hne hj).2 hox hq
  · intro c hc
    rw [other (by omega)]
    exact h.user c hc
  · rw [List.length_set]; exact h.size
  · intro c C hc hC hal
    by_cases hcp : c = p.1
    · subst hcp
      rw [List.getElem?_set_self hlt] at hC
      cases hC; cases hal
    · rw [other hcp] at hC
      obtain ⟨j, x, f1, f2, f3⟩ := h.lib c C hc hC hal
      have hji : j ≠ i := by
        rintro rfl
        rw [hi] at f1; cases f1
        rw [hk] at f3; cases f3
        exact hcp rfl
      exact ⟨j, x, by rw [Function.update_of_ne hji]; exact f1, f2, f3⟩
  · exact other (diff hm hx hq)

/-- An array hands its keys over to one that is not there yet. -/
theorem Inv.transfer (h : Inv U ks V) {i j : ℕ} {a b : KArr} (hij : i ≠ j) (hi : V i = some a)
    (hj : V j = none) (hk : b.keys = a.keys) (ho : b.owns = a.owns) (hs : b.base.size = a.base.size) :
    Go U ks V (fun m => m = i ∨ m = j) ks (Function.update (Function.update V i none) j (some b)) := by
  have back : ∀ {m x}, Function.update (Function.update V i none) j (some b) m = some x →
      (m = j ∧ x = b) ∨ (m ≠ j ∧ m ≠ i ∧ V m = some x) := by
    intro m x hm
    by_cases hmj : m = j
    · subst hmj
      rw [Function.update_self] at hm
      exact .inl ⟨rfl, (Option.some.inj hm).symm⟩
    · rw [Function.update_of_ne hmj] at hm
      by_cases hmi : m = i
      · subst hmi; rw [Function.update_self] at hm; cases hm
      · rw [Function.update_of_ne hmi] at hm
        exact .inr ⟨hmj, hmi, hm⟩
  refine ⟨⟨?_, ?_, ?_, h.user, h.size, ?_⟩, fun m hm => ⟨?_, fun _ _ _ _ => rfl⟩⟩
  · intro m x p hm hox hq
    rcases back hm with ⟨-, rfl⟩ | ⟨-, -, hm⟩
    · rw [hs]; exact h.own i a p hi (ho ▸ hox) (hk ▸ hq)
    · exact h.own m x p hm hox hq
  · intro m n x y p q hm hn hox hoy hp hq e
    rcases back hm with ⟨hm1, hm2⟩ | ⟨hm1, hm2, hm3⟩ <;>
      rcases back hn with ⟨hn1, hn2⟩ | ⟨hn1, hn2, hn3⟩
    · rw [hm1, hn1]
    · subst hm2
      exact absurd (h.uniq i n a y p q hi hn3 (ho ▸ hox) hoy (hk ▸ hp) hq e) (Ne.symm hn2)
    · subst hn2
      exact absurd (h.uniq m i x a p q hm3 hi hox (ho ▸ hoy) hp (hk ▸ hq) e) hm2
    · exact h.uniq m n x y p q hm3 hn3 hox hoy hp hq e
  · intro m x p hm hox hq
    rcases back hm with ⟨-, rfl⟩ | ⟨-, -, hm⟩
    · exact h.lent i a p hi (ho ▸ hox) (hk ▸ hq)
    · exact h.lent m x p hm hox hq
  · intro c B hc hB hal
    obtain ⟨m, x, f1, f2, f3⟩ := h.lib c B hc hB hal
    by_cases hmi : m = i
    · subst hmi
      rw [hi] at f1; cases f1
      exact ⟨j, b, Function.update_self _ _ _, by rw [ho, f2], by rw [hk, f3]⟩
    · have hmj : m ≠ j := by rintro rfl; rw [hj] at f1; cases f1
      exact ⟨m, x, by rw [Function.update_of_ne hmj, Function.update_of_ne hmi]; exact f1, f2, f3⟩
  · have h1 : m ≠ i := fun e => hm (.inl e)
    have h2 : m ≠ j := fun e => hm (.inr e)
    rw [Function.update_of_ne h2, Function.update_of_ne h1]

/-- Own keys are written to. -/
theorem Inv.write (h : Inv U ks V) {i : ℕ} {a : KArr} {p : KPtr} (hi : V i = some a)
    (ho : a.owns = true) (hk : a.keys = some p) {B : KBlock} (hB : ks[p.1]? = some B) {l : List ℕ}
    (hl : l.length = B.cells.length) :
    Go U ks V (· = i) (ks.set p.1 { B with cells := l }) V := by
  obtain ⟨e1, e2, B', e3, e4, e5, e6⟩ := h.own i a p hi ho hk
  rw [hB] at e3; cases e3
  have hlt := (List.getElem?_eq_some_iff.1 hB).1
  have other : ∀ {c}, c ≠ p.1 → (ks.set p.1 { B with cells := l })[c]? = ks[c]? := by
    intro c hc
    rw [List.getElem?_set_ne (Ne.symm hc)]
  refine ⟨⟨?_, h.uniq, h.lent, ?_, ?_, ?_⟩, fun m hm => ⟨rfl, fun x q hx hq => other ?_⟩⟩
  · intro j x q hj hox hq
    obtain ⟨f1, f2, C, f3, f4, f5, f6⟩ := h.own j x q hj hox hq
    by_cases hc : q.1 = p.1
    · rw [hc] at f3 ⊢
      rw [hB] at f3; cases f3
      exact ⟨f1, by omega, _, List.getElem?_set_self hlt, f4, f5, by rw [← f6]; exact hl⟩
    · exact ⟨f1, f2, C, by rw [other hc]; exact f3, f4, f5, f6⟩
  · intro c hc
    rw [other (by omega)]
    exact h.user c hc
  · rw [List.length_set]; exact h.size
  · intro c C hc hC hal
    by_cases hcp : c = p.1
    · subst hcp
      exact h.lib _ B hc hB e4
    · rw [other hcp] at hC
      exact h.lib c C hc hC hal
  · intro he
    cases hox : x.owns
    · have := h.lent m x q hx hox hq; omega
    · exact hm (h.uniq m i x a q p hx hi hox ho hq hk he)

/-! ## Reading and writing -/

theorem readKeys_new (ks : List KBlock) (l : List ℕ) {n : ℕ} (hn : n = l.length) :
    readKeys (ks ++ [⟨l, false, true⟩]) (some (ks.length, 0)) n = some l := by
  unfold readKeys
  subst hn
  by_cases h0 : l.length = 0
  · rw [if_pos h0, List.length_eq_zero_iff.1 h0]
  · rw [if_neg h0]
    simp

theorem copyKeys_new {ks : List KBlock} {src : Option KPtr} {n : ℕ} {l : List ℕ}
    (h : readKeys ks src n = some l) (hl : l.length = n) :
    copyKeys (newKeys ks n) src n (some (ks.length, 0)) = some (ks ++ [⟨l, false, true⟩]) := by
  have hr : readKeys (newKeys ks n) src n = some l := by
    unfold readKeys at h ⊢
    by_cases h0 : n = 0
    · rw [if_pos h0] at h ⊢; exact h
    · rw [if_neg h0] at h ⊢
      cases src with
      | none => cases h
      | some p =>
        dsimp only at h ⊢
        cases hB : ks[p.1]? with
        | none => rw [hB] at h; cases h
        | some B =>
          have hlt := (List.getElem?_eq_some_iff.1 hB).1
          rw [hB] at h
          unfold newKeys
          rw [List.getElem?_append_left hlt, hB]
          exact h
  unfold copyKeys
  rw [hr, Option.bind_some]
  unfold writeKeys newKeys
  by_cases hn : l = []
  · subst hn
    rw [if_pos rfl]
    have : n = 0 := by simpa using hl.symm
    subst this
    rfl
  · rw [if_neg hn]
    simp [hl]

theorem readKeys_length {ks : List KBlock} {p : Option KPtr} {n : ℕ} {l : List ℕ}
    (h : readKeys ks p n = some l) : l.length = n := by
  unfold readKeys at h
  by_cases h0 : n = 0
  · rw [if_pos h0] at h; cases h; simp [h0]
  · rw [if_neg h0] at h
    cases p with
    | none => cases h
    | some p =>
      dsimp only at h
      cases hB : ks[p.1]? with
      | none => rw [hB] at h; cases h
      | some B =>
        rw [hB] at h
        dsimp only at h
        by_cases hc : B.alive ∧ p.2 + n ≤ B.cells.length
        · rw [if_pos hc] at h
          cases h
          rw [List.length_take, List.length_drop]
          omega
        · rw [if_neg hc] at h; cases h

theorem readKeys_congr {ks ks' : List KBlock} {p : KPtr} (h : ks'[p.1]? = ks[p.1]?) (n : ℕ) :
    readKeys ks' (some p) n = readKeys ks (some p) n := by
  unfold readKeys; dsimp only; rw [h]

/-- Own keys can be read. -/
theorem Inv.readable (h : Inv U ks V) {i : ℕ} {a : KArr} {p : KPtr} (hi : V i = some a)
    (ho : a.owns = true) (hk : a.keys = some p) :
    ∃ l, readKeys ks (some p) a.base.size = some l := by
  obtain ⟨e1, -, B, e3, e4, -, e6⟩ := h.own i a p hi ho hk
  unfold readKeys
  by_cases h0 : a.base.size = 0
  · exact ⟨[], by rw [if_pos h0]⟩
  · exact ⟨(B.cells.drop p.2).take a.base.size, by
      rw [if_neg h0]; dsimp only; rw [e3]; dsimp only
      rw [if_pos ⟨e4, by omega⟩]⟩

end RoughPy.Arrays
