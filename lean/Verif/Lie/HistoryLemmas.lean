import Verif.Lie.History

set_option linter.unusedSectionVars false

/-!
# The invariant of reachable caches
-/

namespace RoughPy.Lie

open RoughPy.Tensor (loop loop_nil loop_cons)

theorem get_outside {b : Basis} {fuel : ℕ} {cache cache' : Cache} {w : ℕ × ℕ} {r : Entry} (hw : ¬ Within b w)
    (h : get b fuel cache w = some (r, cache')) : r = [] ∧ cache' = cache := by
  cases fuel with
  | zero => cases h
  | succ fuel =>
    simp only [get] at h
    by_cases h0 : w.1 = 0 ∨ w.2 = 0
    · rw [if_pos h0] at h; cases h
    rw [if_neg h0] at h
    by_cases heq : w.1 = w.2
    · rw [if_pos heq, Option.some.injEq, Prod.mk.injEq] at h
      exact ⟨h.1.symm, h.2.symm⟩
    rw [if_neg heq] at h
    cases h1 : b.degree w.1 with
    | none => rw [h1] at h; cases h
    | some ld =>
    cases h2 : b.degree w.2 with
    | none => rw [h1, h2] at h; cases h
    | some rd =>
    rw [h1, h2] at h
    simp only [Option.bind_eq_bind, Option.bind_some] at h
    by_cases h3 : (b.depth : ℤ) < ld + rd
    · rw [if_pos h3, Option.some.injEq, Prod.mk.injEq] at h
      exact ⟨h.1.symm, h.2.symm⟩
    rw [if_neg h3] at h
    cases h4 : b.trueSize with
    | none => rw [h4] at h; cases h
    | some n =>
    rw [h4] at h
    simp only [Option.bind_some] at h
    by_cases h5 : n ≤ w.1 ∨ n ≤ w.2
    · rw [if_pos h5, Option.some.injEq, Prod.mk.injEq] at h
      exact ⟨h.1.symm, h.2.symm⟩
    exact absurd ⟨by omega, by omega, ld, rd, n, h1, h2, h3, h4, by omega, by omega⟩ hw

/-- Lookups of pairs that exceed the depth give the empty combination and do not touch the cache. -/
theorem get_beyond {b : Basis} (hb : IsHallTable b) {a c p q fuel : ℕ} (ha0 : 0 < a) (hc0 : 0 < c)
    (ha : HasDegree b a p) (hc : HasDegree b c q) (hpq : b.depth < p + q) (cache : Cache) :
    get b (fuel + 1) cache (a, c) = some ([], cache) := by
  simp only [get]
  rw [if_neg (by omega)]
  by_cases hac : a = c
  · rw [if_pos hac]
  rw [if_neg hac, hb.degree_of ha, hb.degree_of hc]
  simp only [Option.bind_eq_bind, Option.bind_some]
  rw [if_pos (by omega)]

/-! ## More fuel does not change a result -/

/-- `g'` returns whatever `g` returns. -/
def Extends (g g' : Cache → ℕ × ℕ → Option (Entry × Cache)) : Prop :=
  ∀ cache w x, g cache w = some x → g' cache w = some x

theorem loop_mono {α σ : Type} {body body' : σ → α → Option σ} (h : ∀ s t s', body s t = some s' → body' s t = some s') :
    ∀ l s s', loop l s body = some s' → loop l s body' = some s' := by
  intro l
  induction l with
  | nil => intro s s' hs; exact hs
  | cons t l ih =>
    intro s s' hs
    rw [loop_cons] at hs ⊢
    cases hb : body s t with
    | none => rw [hb] at hs; cases hs
    | some s1 =>
      rw [hb] at hs
      rw [h s t s1 hb]
      exact ih s1 s' hs

theorem bind_mono {α β : Type} {x x' : Option α} {f f' : α → Option β} (h : ∀ a, x = some a → x' = some a)
    (hf : ∀ a b, f a = some b → f' a = some b) {b : β} (hb : x.bind f = some b) : x'.bind f' = some b := by
  cases hx : x with
  | none => rw [hx] at hb; cases hb
  | some a =>
    rw [hx] at hb
    rw [h a hx]
    exact hf a b hb

theorem bracketHalf_mono {g g' : Cache → ℕ × ℕ → Option (Entry × Cache)} (hg : Extends g g') {cache : Cache}
    {o : ℕ × ℕ} {z : ℕ} {sign : ℤ} {vals : Entry} {s : Entry × Cache}
    (h : bracketHalf g cache o z sign vals = some s) : bracketHalf g' cache o z sign vals = some s := by
  unfold bracketHalf at h ⊢
  refine bind_mono (fun a ha => hg _ _ _ ha) (fun a b hab => ?_) h
  refine loop_mono (fun s t s' hs => ?_) _ _ _ hab
  exact bind_mono (fun a ha => hg _ _ _ ha) (fun a b hab => hab) hs

theorem bracketSlow_mono {g g' : Cache → ℕ × ℕ → Option (Entry × Cache)} (hg : Extends g g') {b : Basis}
    {cache : Cache} {w : ℕ × ℕ} {sign : ℤ} {s : Entry × Cache}
    (h : bracketSlow g b cache w sign = some s) : bracketSlow g' b cache w sign = some s := by
  unfold bracketSlow at h ⊢
  refine bind_mono (fun a ha => ha) (fun pr x hx => ?_) h
  have hfin : ∀ s1 x : Entry × Cache,
      (if w.1 ≠ pr.2 then bracketHalf g s1.2 (w.1, pr.2) pr.1 (-sign) s1.1 else some s1) = some x →
      (if w.1 ≠ pr.2 then bracketHalf g' s1.2 (w.1, pr.2) pr.1 (-sign) s1.1 else some s1) = some x := by
    intro s1 x hx
    by_cases hc : w.1 ≠ pr.2
    · rw [if_pos hc] at hx ⊢; exact bracketHalf_mono hg hx
    · rw [if_neg hc] at hx ⊢; exact hx
  dsimp only at hx ⊢
  by_cases hc : 0 < pr.1 ∧ w.1 ≠ pr.1
  · rw [if_pos hc] at hx ⊢
    exact bind_mono (fun a ha => bracketHalf_mono hg ha) hfin hx
  · rw [if_neg hc] at hx ⊢
    exact hfin _ _ hx

theorem computeBracket_mono {g g' : Cache → ℕ × ℕ → Option (Entry × Cache)} (hg : Extends g g') {b : Basis}
    {cache : Cache} {w : ℕ × ℕ} {d : ℕ} {s : Entry × Cache}
    (h : computeBracket g b cache w d = some s) : computeBracket g' b cache w d = some s := by
  unfold computeBracket at h ⊢
  dsimp only at h ⊢
  generalize (if w.2 < w.1 then (w.2, w.1) else w) = t at h ⊢
  generalize (if w.2 < w.1 then (-1 : ℤ) else 1) = sg at h ⊢
  refine bind_mono (fun a ha => ha) (fun o x hx => ?_) h
  cases o with
  | none => exact bracketSlow_mono hg hx
  | some pos =>
    dsimp only at hx ⊢
    by_cases hp : 0 < pos
    · rw [if_pos hp] at hx ⊢; exact hx
    · rw [if_neg hp] at hx ⊢; exact bracketSlow_mono hg hx

theorem get_mono (b : Basis) : ∀ fuel, Extends (get b fuel) (get b (fuel + 1)) := by
  intro fuel
  induction fuel with
  | zero => intro cache w x h; cases h
  | succ fuel ih =>
    intro cache w x h
    rw [get] at h ⊢
    by_cases h0 : w.1 = 0 ∨ w.2 = 0
    · rw [if_pos h0] at h; cases h
    rw [if_neg h0] at h ⊢
    by_cases heq : w.1 = w.2
    · rw [if_pos heq] at h ⊢; exact h
    rw [if_neg heq] at h ⊢
    refine bind_mono (fun a ha => ha) (fun ld x h => ?_) h
    refine bind_mono (fun a ha => ha) (fun rd x h => ?_) h
    by_cases h3 : (b.depth : ℤ) < ld + rd
    · rw [if_pos h3] at h ⊢; exact h
    rw [if_neg h3] at h ⊢
    refine bind_mono (fun a ha => ha) (fun n x h => ?_) h
    by_cases h5 : n ≤ w.1 ∨ n ≤ w.2
    · rw [if_pos h5] at h ⊢; exact h
    rw [if_neg h5] at h ⊢
    have hrest : ∀ cache1 : Cache, (match cache1 (w.2, w.1) with
            | some (some entry) =>
              some (entry.map fun t => (t.1, -t.2), Function.update cache1 w (some (some (entry.map fun t => (t.1, -t.2)))))
            | some none => none
            | none => (computeBracket (get b fuel) b cache1 w (ld + rd).toNat).bind fun r =>
              some (r.1, Function.update r.2 w (some (some r.1)))) = some x → (match cache1 (w.2, w.1) with
            | some (some entry) =>
              some (entry.map fun t => (t.1, -t.2), Function.update cache1 w (some (some (entry.map fun t => (t.1, -t.2)))))
            | some none => none
            | none => (computeBracket (get b (fuel + 1)) b cache1 w (ld + rd).toNat).bind fun r =>
              some (r.1, Function.update r.2 w (some (some r.1)))) = some x := by
      intro cache1 h
      cases h6 : cache1 (w.2, w.1) with
      | none =>
        rw [h6] at h
        exact bind_mono (fun a ha => computeBracket_mono ih ha) (fun a b hab => hab) h
      | some o =>
        rw [h6] at h
        cases o with
        | none => cases h
        | some en => exact h
    generalize cache w = cw at h ⊢
    match cw with
    | some (some en) => exact h
    | some none => exact hrest _ h
    | none => exact hrest _ h

theorem get_mono_le {b : Basis} {f f' : ℕ} (h : f ≤ f') : Extends (get b f) (get b f') := by
  induction h with
  | refl => intro _ _ _ h; exact h
  | step _ ih => intro cache w x hx; exact get_mono b _ cache w x (ih cache w x hx)

theorem looks_of_get {b : Basis} {fuel : ℕ} {cache : Cache} {w : ℕ × ℕ} {o : Entry × Cache}
    (h : get b fuel cache w = some o) : Looks b cache w o := ⟨fuel, fun _ hf => get_mono_le hf _ _ _ h⟩

theorem looks_unique {b : Basis} {cache : Cache} {w : ℕ × ℕ} {o o' : Entry × Cache} (h : Looks b cache w o)
    (h' : Looks b cache w o') : o = o' := by
  obtain ⟨n, hn⟩ := h
  obtain ⟨n', hn'⟩ := h'
  have h1 := hn (max n n') (le_max_left _ _)
  rw [hn' (max n n') (le_max_right _ _), Option.some.injEq] at h1
  exact h1.symm

theorem standard_iff (w : ℕ) (b : Basis) : Standard w b ↔ ∃ m, b = hallTable w m := by
  constructor
  · rintro ⟨d, hd, h⟩
    obtain ⟨m, rfl⟩ : ∃ m, d = m + 1 := ⟨d - 1, by omega⟩
    rw [construct_eq, Option.some.injEq] at h
    exact ⟨m, h.symm⟩
  · rintro ⟨m, rfl⟩
    exact ⟨m + 1, by omega, construct_eq w m⟩

theorem History.mono {S T : Basis → Prop} (h : ∀ b, S b → T b) {cache : Cache} (hc : History S cache) :
    History T cache := by
  induction hc with
  | fresh => exact .fresh
  | lookup hS _ hl ih => exact .lookup (h _ hS) ih hl

/-- A finite history uses bases of bounded depth. -/
theorem History.bounded {w : ℕ} {cache : Cache} (h : History (Standard w) cache) (m₀ : ℕ) :
    ∃ M, m₀ ≤ M ∧ History (fun b => ∃ m, m ≤ M ∧ b = hallTable w m) cache := by
  induction h with
  | fresh => exact ⟨m₀, le_rfl, .fresh⟩
  | lookup hS _ hl ih =>
    obtain ⟨M, h1, h2⟩ := ih
    obtain ⟨m, rfl⟩ := (standard_iff _ _).1 hS
    refine ⟨max M m, by omega, .lookup ⟨m, le_max_right _ _, rfl⟩ (h2.mono ?_) hl⟩
    rintro b ⟨m', h3, rfl⟩
    exact ⟨m', by omega, rfl⟩

/-- No null pointers, and all the entries are right for all the bases in use. -/
def Inv {L : Type*} [LieRing L] (w M : ℕ) (e : ℕ → L) (cache : Cache) : Prop :=
  (∀ v, cache v ≠ some none) ∧ ∀ m, m ≤ M → CacheOK e (hallTable w m) cache

theorem EntryOK.transfer {L : Type*} [LieRing L] {e : ℕ → L} {w m m' n a c : ℕ} {r : Entry}
    (h : EntryOK e (hallTable w m) n a c r) (hm : n ≤ m + 1) (hm' : n ≤ m' + 1) :
    EntryOK e (hallTable w m') n a c r := by
  refine ⟨h.clean, fun t ht => ?_, h.value⟩
  rcases le_total m m' with hle | hle
  · exact (hasDegree_table w hle hm).2 (h.keys t ht)
  · exact (hasDegree_table w hle hm').1 (h.keys t ht)

theorem degree_agree {w m m' k p p' : ℕ} (h : HasDegree (hallTable w m) k p)
    (h' : HasDegree (hallTable w m') k p') : p = p' := by
  rcases le_total m m' with hle | hle
  · exact (hallTable_isHall w m').degree_unique ((hasDegree_table w hle h.1).2 h) h'
  · exact (hallTable_isHall w m).degree_unique h ((hasDegree_table w hle h'.1).2 h')

/-- A lookup in a good cache. -/
theorem Inv.lookup {L : Type*} [LieRing L] {w M m : ℕ} {e : ℕ → L} (he : IsHallMap (hallTable w M) e)
    (hm : m ≤ M) {cache : Cache} (hI : Inv w M e cache) {a c p q : ℕ} (ha0 : 0 < a) (hc0 : 0 < c)
    (ha : HasDegree (hallTable w m) a p) (hc : HasDegree (hallTable w m) c q) (hpq : p + q ≤ m + 1)
    {fuel : ℕ} (hf : mu (hallTable w m) (p + q) (min a c) < fuel) :
    ∃ r cache', get (hallTable w m) fuel cache (a, c) = some (r, cache') ∧
      EntryOK e (hallTable w m) (p + q) a c r ∧ Inv w M e cache' := by
  have hb := hallTable_isHall w m
  obtain ⟨r, cache', h1, h2, h3, h4⟩ := get_ok e _ hb (isHallMap_table w hm he) fuel cache a c p q ha0 hc0 ha hc hpq hf
    (fun a c h => absurd h (hI.1 _)) (hI.2 m hm)
  refine ⟨r, cache', h1, h2, ⟨fun v hv => hI.1 v ((h4 v).1 hv), ?_⟩⟩
  intro m' hm' a' c' p' q' r' k1 k2 k3 k4 k5 k6
  by_cases hv : cache' (a', c') = cache (a', c')
  · rw [hv] at k6
    exact hI.2 m' hm' a' c' p' q' r' k1 k2 k3 k4 k5 k6
  · obtain ⟨g1, g2, p'', q'', g3, g4, g5⟩ := (get_frame _ _ _ _ _ _ h1 _ hv).hasDegree hb
    dsimp only at g1 g2 g3 g4
    obtain rfl := degree_agree k3 g3
    obtain rfl := degree_agree k4 g4
    exact (h3 a' c' p' q' r' g1 g2 g3 g4 g5 k6).transfer g5 k5

theorem History.inv {L : Type*} [LieRing L] {w M : ℕ} {e : ℕ → L} (he : IsHallMap (hallTable w M) e) {cache : Cache}
    (h : History (fun b => ∃ m, m ≤ M ∧ b = hallTable w m) cache) : Inv w M e cache := by
  induction h with
  | fresh => exact ⟨fun v h => (nomatch h), fun m _ a c p q r _ _ _ _ _ h => (nomatch h)⟩
  | lookup hS _ hl ih =>
    rename_i cache cache' word r _
    obtain ⟨m, hm, rfl⟩ := hS
    obtain ⟨n₀, hn⟩ := hl
    by_cases hw : Within (hallTable w m) word
    · obtain ⟨h1, h2, p, q, h3, h4, h5⟩ := hw.hasDegree (hallTable_isHall w m)
      obtain ⟨r', cache2, k1, -, k3⟩ := ih.lookup he hm h1 h2 h3 h4 h5
        (fuel := n₀ + mu (hallTable w m) (p + q) (min word.1 word.2) + 1) (by omega)
      rw [hn _ (by omega), Option.some.injEq, Prod.mk.injEq] at k1
      rw [k1.2]
      exact k3
    · rw [(get_outside hw (hn n₀ le_rfl)).2]
      exact ih

/-- A Hall map is determined by the images of the letters. -/
theorem IsHallMap.eq_hallElem {L : Type*} [LieRing L] {b : Basis} (hb : IsHallTable b) {e x : ℕ → L}
    (he : IsHallMap b e) (hx : ∀ k, 1 ≤ k → k ≤ b.width → e k = x k) :
    ∀ d k, 0 < d → HasDegree b k d → e k = hallElem b x k := by
  intro d
  induction d using Nat.strong_induction_on with
  | _ d ih =>
    intro k hd hk
    by_cases h2 : 2 ≤ d
    · obtain ⟨i, j, p, q, c, h1, h3, h4, h5, h6, h7, -⟩ := hb.rows d k h2 hk
      rw [he d k i j h2 hk h1, hallElem_isHallMap hb x d k i j h2 hk h1, ih p (by omega) i (by omega) h6,
        ih q (by omega) j (by omega) h7]
    · have : d = 1 := by omega
      subst this
      have := hb.letter_iff.1 hk
      rw [hallElem_letter hb x this.1 this.2]
      exact hx k this.1 this.2

theorem Entry.value_congr {L : Type*} [LieRing L] {e e' : ℕ → L} {r : Entry} (h : ∀ t ∈ r, e t.1 = e' t.1) :
    Entry.value e r = Entry.value e' r := by
  unfold Entry.value
  rw [List.map_congr_left]
  intro t ht
  rw [h t ht]

/-- Lookups in reachable caches, with the element given by a map on the basis in use only. -/
theorem lookup_value {L : Type*} [LieRing L] {w m : ℕ} {e : ℕ → L} (he : IsHallMap (hallTable w m) e)
    {cache : Cache} (h : History (Standard w) cache) {a c p q : ℕ} (ha0 : 0 < a) (hc0 : 0 < c)
    (ha : HasDegree (hallTable w m) a p) (hc : HasDegree (hallTable w m) c q) (hpq : p + q ≤ m + 1) :
    ∃ r cache', Looks (hallTable w m) cache (a, c) (r, cache') ∧ EntryOK e (hallTable w m) (p + q) a c r := by
  obtain ⟨M, hM, hH⟩ := h.bounded m
  set e' := hallElem (hallTable w M) e with he'
  have hI := hH.inv (hallElem_isHallMap (hallTable_isHall w M) e)
  rw [← he'] at hI
  have hEM : IsHallMap (hallTable w M) e' := hallElem_isHallMap (hallTable_isHall w M) e
  obtain ⟨r, cache', h1, h2, -⟩ := hI.lookup hEM hM ha0 hc0 ha hc hpq
    (fuel := mu (hallTable w m) (p + q) (min a c) + 1) (by omega)
  refine ⟨r, cache', ⟨mu (hallTable w m) (p + q) (min a c) + 1, ?_⟩, ?_⟩
  · intro fuel hf
    exact get_mono_le hf _ _ _ h1
  · have hb := hallTable_isHall w m
    have hval : ∀ d k, 0 < d → HasDegree (hallTable w m) k d → e k = e' k := by
      intro d k hd hk
      rw [he.eq_hallElem hb (fun _ _ _ => rfl) d k hd hk]
      rw [← (isHallMap_table w hM hEM).eq_hallElem hb (x := e) ?_ d k hd hk]
      intro k h1 h2
      exact hallElem_letter (hallTable_isHall w M) e h1 h2
    refine ⟨h2.clean, h2.keys, ?_⟩
    have hp0 := hb.degree_pos ha ha0
    have hq0 := hb.degree_pos hc hc0
    rw [hval p a hp0 ha, hval q c hq0 hc, ← h2.value]
    exact Entry.value_congr fun t ht => hval (p + q) t.1 (by omega) (h2.keys t ht)

end RoughPy.Lie
