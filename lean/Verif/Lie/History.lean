import Verif.Lie.Independence

set_option linter.unusedSectionVars false

/-!
# Lookups do not depend on the history of the cache
-/

namespace RoughPy.Lie

open RoughPy.Tensor (loop loop_nil loop_cons)

attribute [local instance] LieRing.ofAssociativeRing

/-! ## Tables of different depth agree -/

theorem hallState_prefix (w : ℕ) {m m' : ℕ} (h : m ≤ m') :
    (hallState w m).1 <+: (hallState w m').1 ∧ (hallState w m).2 <+: (hallState w m').2 := by
  induction h with
  | refl => exact ⟨List.prefix_rfl, List.prefix_rfl⟩
  | step _ ih => exact ⟨ih.1.trans (List.prefix_append _ _), ih.2.trans (List.prefix_append _ _)⟩

theorem prefix_get {α : Type*} {l l' : List α} (h : l <+: l') {i : ℕ} (hi : i < l.length) : l'[i]? = l[i]? := by
  obtain ⟨t, rfl⟩ := h
  exact List.getElem?_append_left hi

/-- Keys have the same degree in all the tables that contain them. -/
theorem hasDegree_table (w : ℕ) {m m' k d : ℕ} (h : m ≤ m') (hd : d ≤ m + 1) :
    HasDegree (hallTable w m') k d ↔ HasDegree (hallTable w m) k d := by
  have hl := (hallTable_isHall w m).db_length
  have hp := (hallState_prefix w h).2
  have h1 : (hallTable w m').db[d]? = (hallTable w m).db[d]? := prefix_get hp (by
    have : (hallState w m).2.length = m + 1 + 2 := hl
    omega)
  have h2 : (hallTable w m').db[d + 1]? = (hallTable w m).db[d + 1]? := prefix_get hp (by
    have : (hallState w m).2.length = m + 1 + 2 := hl
    omega)
  unfold HasDegree
  rw [h1, h2]
  constructor
  · rintro ⟨_, h⟩; exact ⟨hd, h⟩
  · rintro ⟨_, h⟩; exact ⟨by show d ≤ m' + 1; omega, h⟩

theorem data_table (w : ℕ) {m m' k : ℕ} (h : m ≤ m') (hk : k < (hallTable w m).data.length) :
    (hallTable w m').data[k]? = (hallTable w m).data[k]? := prefix_get (hallState_prefix w h).1 hk

/-- A Hall map of a deep table is a Hall map of the shallower ones. -/
theorem isHallMap_table {L : Type*} [LieRing L] (w : ℕ) {m m' : ℕ} (h : m ≤ m') {e : ℕ → L}
    (he : IsHallMap (hallTable w m') e) : IsHallMap (hallTable w m) e := by
  intro d k i j hd hk hr
  exact he d k i j hd ((hasDegree_table w h hk.1).2 hk)
    (by rw [data_table w h (hk.lt (hallTable_isHall w m))]; exact hr)

/-! ## A lookup only writes entries that the basis can look up -/

/-- The pair passes the checks of the lookup. -/
def Within (b : Basis) (w : ℕ × ℕ) : Prop := w.1 ≠ 0 ∧ w.2 ≠ 0 ∧ ∃ ld rd n, b.degree w.1 = some ld ∧
  b.degree w.2 = some rd ∧ ¬ (b.depth : ℤ) < ld + rd ∧ b.trueSize = some n ∧ w.1 < n ∧ w.2 < n

/-- Only such pairs are changed. -/
def FrameOK (b : Basis) (g : Cache → ℕ × ℕ → Option (Entry × Cache)) : Prop :=
  ∀ cache w r cache', g cache w = some (r, cache') → ∀ v, cache' v ≠ cache v → Within b v

theorem loop_frame {b : Basis} {α σ : Type} (body : σ × Cache → α → Option (σ × Cache))
    (h : ∀ s t s', body s t = some s' → ∀ v, s'.2 v ≠ s.2 v → Within b v) :
    ∀ l s s', loop l s body = some s' → ∀ v, s'.2 v ≠ s.2 v → Within b v := by
  intro l
  induction l with
  | nil =>
    intro s s' hs v hv
    rw [loop_nil, Option.some.injEq] at hs
    subst hs
    exact absurd rfl hv
  | cons t l ih =>
    intro s s' hs v hv
    rw [loop_cons] at hs
    cases hb : body s t with
    | none => rw [hb] at hs; cases hs
    | some s1 =>
      rw [hb] at hs
      by_cases h1 : s'.2 v = s1.2 v
      · exact h s t s1 hb v (by rw [← h1]; exact hv)
      · exact ih s1 s' hs v h1

theorem bracketHalf_frame {b : Basis} {g : Cache → ℕ × ℕ → Option (Entry × Cache)} (hg : FrameOK b g)
    {cache : Cache} {o : ℕ × ℕ} {z : ℕ} {sign : ℤ} {vals : Entry} {s : Entry × Cache}
    (h : bracketHalf g cache o z sign vals = some s) : ∀ v, s.2 v ≠ cache v → Within b v := by
  intro v hv
  unfold bracketHalf at h
  cases h1 : g cache o with
  | none => rw [h1] at h; cases h
  | some op =>
    rw [h1] at h
    simp only [Option.bind_eq_bind, Option.bind_some] at h
    by_cases h2 : op.2 v = cache v
    · refine loop_frame _ ?_ op.1 (vals, op.2) s h v (by rw [h2]; exact hv)
      intro s t s' hs v hv
      cases h3 : g s.2 (t.1, z) with
      | none => simp only [h3, Option.bind_none] at hs; cases hs
      | some ip =>
        simp only [h3, Option.bind_some, Option.some.injEq] at hs
        subst hs
        exact hg _ _ _ _ h3 v hv
    · exact hg _ _ _ _ h1 v h2

theorem bracketSlow_frame {b : Basis} {g : Cache → ℕ × ℕ → Option (Entry × Cache)} (hg : FrameOK b g)
    {cache : Cache} {w : ℕ × ℕ} {sign : ℤ} {s : Entry × Cache}
    (h : bracketSlow g b cache w sign = some s) : ∀ v, s.2 v ≠ cache v → Within b v := by
  intro v hv
  unfold bracketSlow at h
  cases h1 : b.parents w.2 with
  | none => rw [h1] at h; cases h
  | some pr =>
    rw [h1] at h
    simp only [Option.bind_eq_bind, Option.bind_some] at h
    have hfin : ∀ s1 : Entry × Cache, (∀ v, s1.2 v ≠ cache v → Within b v) →
        (if w.1 ≠ pr.2 then bracketHalf g s1.2 (w.1, pr.2) pr.1 (-sign) s1.1 else some s1) = some s → Within b v := by
      intro s1 hs1 h
      by_cases hc : w.1 ≠ pr.2
      · rw [if_pos hc] at h
        by_cases h3 : s.2 v = s1.2 v
        · exact hs1 v (by rw [← h3]; exact hv)
        · exact bracketHalf_frame hg h v h3
      · rw [if_neg hc, Option.some.injEq] at h
        subst h
        exact hs1 v hv
    by_cases hc : 0 < pr.1 ∧ w.1 ≠ pr.1
    · rw [if_pos hc] at h
      cases h2 : bracketHalf g cache (w.1, pr.1) pr.2 sign [] with
      | none => rw [h2] at h; cases h
      | some s1 => rw [h2] at h; exact hfin s1 (bracketHalf_frame hg h2) h
    · rw [if_neg hc] at h
      exact hfin ([], cache) (fun v hv => absurd rfl hv) h

theorem computeBracket_frame {b : Basis} {g : Cache → ℕ × ℕ → Option (Entry × Cache)} (hg : FrameOK b g)
    {cache : Cache} {w : ℕ × ℕ} {d : ℕ} {s : Entry × Cache}
    (h : computeBracket g b cache w d = some s) : ∀ v, s.2 v ≠ cache v → Within b v := by
  unfold computeBracket at h
  dsimp only at h
  generalize (if w.2 < w.1 then (w.2, w.1) else w) = t at h
  generalize (if w.2 < w.1 then (-1 : ℤ) else 1) = sg at h
  cases h1 : b.findWord t d with
  | none => rw [h1] at h; cases h
  | some o =>
    rw [h1] at h
    simp only [Option.bind_eq_bind, Option.bind_some] at h
    cases o with
    | none => exact bracketSlow_frame hg h
    | some pos =>
      dsimp only at h
      by_cases hp : 0 < pos
      · rw [if_pos hp, Option.some.injEq] at h
        subst h
        intro v hv; exact absurd rfl hv
      · rw [if_neg hp] at h
        exact bracketSlow_frame hg h

theorem get_frame (b : Basis) : ∀ fuel, FrameOK b (get b fuel) := by
  intro fuel
  induction fuel with
  | zero => intro cache w r cache' h; cases h
  | succ fuel ih =>
    intro cache w r cache' h v hv
    simp only [get] at h
    by_cases h0 : w.1 = 0 ∨ w.2 = 0
    · rw [if_pos h0] at h; cases h
    rw [if_neg h0] at h
    by_cases heq : w.1 = w.2
    · rw [if_pos heq, Option.some.injEq, Prod.mk.injEq] at h
      exact absurd (by rw [h.2]) hv
    rw [if_neg heq] at h
    cases h1 : b.degree w.1 with
    | none => rw [h1] at h; cases h
    | some ld =>
    cases h2 : b.degree w.2 with
    | none => rw [h1, h2] at h; cases h
    | some rd =>
    rw [h1, h2] at h
    simp only [Option.bind_eq_bind, Option.bind_some] at h
    by_cases h3 : (b.depth : ℤ) < ld + rd
    · rw [if_pos h3, Option.some.injEq, Prod.mk.injEq] at h
      exact absurd (by rw [h.2]) hv
    rw [if_neg h3] at h
    cases h4 : b.trueSize with
    | none => rw [h4] at h; cases h
    | some n =>
    rw [h4] at h
    simp only [Option.bind_some] at h
    by_cases h5 : n ≤ w.1 ∨ n ≤ w.2
    · rw [if_pos h5, Option.some.injEq, Prod.mk.injEq] at h
      exact absurd (by rw [h.2]) hv
    rw [if_neg h5] at h
    have hw : Within b w := ⟨by omega, by omega, ld, rd, n, h1, h2, h3, h4, by omega, by omega⟩
    by_cases hvw : v = w
    · rw [hvw]; exact hw
    generalize cache w = cw at h
    have hrest : ∀ cache1 : Cache, cache1 v = cache v → (match cache1 (w.2, w.1) with
            | some (some entry) =>
              some (entry.map fun t => (t.1, -t.2), Function.update cache1 w (some (some (entry.map fun t => (t.1, -t.2)))))
            | some none => none
            | none => (computeBracket (get b fuel) b cache1 w (ld + rd).toNat).bind fun r =>
              some (r.1, Function.update r.2 w (some (some r.1)))) = some (r, cache') → Within b v := by
      intro cache1 hc1 h
      cases h6 : cache1 (w.2, w.1) with
      | none =>
        rw [h6] at h
        dsimp only at h
        cases h7 : computeBracket (get b fuel) b cache1 w (ld + rd).toNat with
        | none => rw [h7] at h; cases h
        | some s =>
          rw [h7] at h
          simp only [Option.bind_some, Option.some.injEq, Prod.mk.injEq] at h
          rw [← h.2, Function.update_of_ne hvw, ← hc1] at hv
          exact computeBracket_frame ih h7 v hv
      | some o =>
        rw [h6] at h
        cases o with
        | none => cases h
        | some en =>
          simp only [Option.some.injEq, Prod.mk.injEq] at h
          rw [← h.2, Function.update_of_ne hvw, hc1] at hv
          exact absurd rfl hv
    match cw with
    | some (some en) =>
      simp only [Option.some.injEq, Prod.mk.injEq] at h
      rw [← h.2] at hv
      exact absurd rfl hv
    | some none => exact hrest _ (Function.update_of_ne hvw _ _) h
    | none => exact hrest _ (Function.update_of_ne hvw _ _) h

theorem Within.hasDegree {b : Basis} (hb : IsHallTable b) {w : ℕ × ℕ} (h : Within b w) :
    0 < w.1 ∧ 0 < w.2 ∧ ∃ p q, HasDegree b w.1 p ∧ HasDegree b w.2 q ∧ p + q ≤ b.depth := by
  obtain ⟨h1, h2, ld, rd, n, h3, h4, h5, h6, h7, h8⟩ := h
  have hts : b.trueSize = some b.data.length := hb.db_last
  rw [hts, Option.some.injEq] at h6
  subst h6
  obtain ⟨p, hp⟩ := hb.exists_degree h7
  obtain ⟨q, hq⟩ := hb.exists_degree h8
  rw [hb.degree_of hp, Option.some.injEq] at h3
  rw [hb.degree_of hq, Option.some.injEq] at h4
  exact ⟨by omega, by omega, p, q, hp, hq, by omega⟩

/-! ## Expansions are unique -/

/-- Coefficients of an entry. -/
noncomputable def coeffs (r : Entry) : ℕ →₀ ℤ := (r.map fun t => Finsupp.single t.1 t.2).sum

theorem coeffs_cons (t : ℕ × ℤ) (r : Entry) : coeffs (t :: r) = Finsupp.single t.1 t.2 + coeffs r := by
  unfold coeffs
  rw [List.map_cons, List.sum_cons]

theorem coeffs_eq_zero {r : Entry} {k : ℕ} (h : ∀ t ∈ r, t.1 ≠ k) : coeffs r k = 0 := by
  induction r with
  | nil => rfl
  | cons t r ih =>
    rw [coeffs_cons, Finsupp.add_apply, ih fun t ht => h t (List.mem_cons_of_mem _ ht),
      Finsupp.single_eq_of_ne (h t List.mem_cons_self).symm, add_zero]

theorem coeffs_mem {r : Entry} (hr : Entry.Clean r) {t : ℕ × ℤ} (h : t ∈ r) : coeffs r t.1 = t.2 := by
  induction r with
  | nil => cases h
  | cons s r ih =>
    obtain ⟨h1, h2⟩ := hr
    rw [List.pairwise_cons] at h1
    rw [coeffs_cons, Finsupp.add_apply]
    rcases List.mem_cons.1 h with rfl | h3
    · rw [Finsupp.single_eq_same, coeffs_eq_zero fun s hs => ?_, add_zero]
      have := h1.1 s hs; omega
    · rw [ih ⟨h1.2, fun t ht => h2 t (List.mem_cons_of_mem _ ht)⟩ h3, Finsupp.single_eq_of_ne, zero_add]
      have := h1.1 t h3; omega

/-- A clean list is determined by its coefficients. -/
theorem clean_ext {r s : Entry} (hr : Entry.Clean r) (hs : Entry.Clean s) (h : coeffs r = coeffs s) : r = s := by
  have hsub : ∀ {r s : Entry}, Entry.Clean r → Entry.Clean s → coeffs r = coeffs s → ∀ t ∈ r, t ∈ s := by
    intro r s hr hs h t ht
    by_cases hk : ∀ u ∈ s, u.1 ≠ t.1
    · have h1 := coeffs_mem hr ht
      rw [h, coeffs_eq_zero hk] at h1
      exact absurd h1.symm (hr.2 t ht)
    · push Not at hk
      obtain ⟨u, hu, hut⟩ := hk
      have h1 := coeffs_mem hr ht
      have h2 := coeffs_mem hs hu
      rw [hut, ← h, h1] at h2
      have : t = u := Prod.ext hut.symm h2
      rwa [this]
  have hnd : ∀ {r : Entry}, Entry.Clean r → r.Nodup := fun hr =>
    hr.1.imp fun {a b} hab heq => by rw [heq] at hab; omega
  have hp : r.Perm s := (List.perm_ext_iff_of_nodup (hnd hr) (hnd hs)).2 fun t =>
    ⟨hsub hr hs h t, hsub hs hr h.symm t⟩
  exact hp.eq_of_pairwise (fun a b _ _ h1 h2 => by omega) hr.1 hs.1

/-- Two clean entries of one degree with the same value in the tensor algebra are equal. -/
theorem IsHallTable.entry_unique {b : Basis} (hb : IsHallTable b) {n : ℕ} (hn0 : 0 < n) (hn : n ≤ b.depth)
    {r s : Entry} (hr : Entry.Clean r) (hs : Entry.Clean s) (hrk : ∀ t ∈ r, HasDegree b t.1 n)
    (hsk : ∀ t ∈ s, HasDegree b t.1 n)
    (h : Entry.value (hallPoly ℤ b) r = Entry.value (hallPoly ℤ b) s) : r = s := by
  refine clean_ext hr hs ?_
  have hind : LinearIndepOn ℤ (fun k => part ℤ b.width n (hallPoly ℤ b k)) {k | HasDegree b k n} :=
    hb.independent (K := ℤ) hn0 hn
  rw [linearIndepOn_iff] at hind
  have hsup : ∀ r : Entry, (∀ t ∈ r, HasDegree b t.1 n) → coeffs r ∈ Finsupp.supported ℤ ℤ {k | HasDegree b k n} := by
    intro r
    induction r with
    | nil => intro _; exact Submodule.zero_mem _
    | cons t r ih =>
      intro h
      rw [coeffs_cons]
      exact Submodule.add_mem _ (Finsupp.single_mem_supported _ _ (h t List.mem_cons_self))
        (ih fun t ht => h t (List.mem_cons_of_mem _ ht))
  have hval : ∀ r : Entry, Finsupp.linearCombination ℤ (fun k => part ℤ b.width n (hallPoly ℤ b k)) (coeffs r) =
      part ℤ b.width n (Entry.value (hallPoly ℤ b) r) := by
    intro r
    induction r with
    | nil => rw [Entry.value_nil, map_zero]; exact map_zero _
    | cons t r ih =>
      rw [coeffs_cons, map_add, ih, Finsupp.linearCombination_single, Entry.value_cons, map_add, map_zsmul]
  have h1 := hind (coeffs r - coeffs s) (Submodule.sub_mem _ (hsup r hrk) (hsup s hsk)) (by
    rw [map_sub, hval, hval, h, sub_self])
  exact sub_eq_zero.1 h1

end RoughPy.Lie
