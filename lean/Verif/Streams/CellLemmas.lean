import Verif.Streams.Lemmas
import Mathlib.Tactic.Linarith
import Mathlib.Tactic.Positivity

set_option linter.unusedSectionVars false

/-!
# What the cells of a caching stream contribute
-/

namespace RoughPy.Streams

open RoughPy.Intervals

variable {L : Type} {G : Type} [Monoid G]

theorem eventsSig_append (sig : L → G) (m₁ m₂ : List (ℚ × L)) :
    eventsSig sig (m₁ ++ m₂) = eventsSig sig m₁ * eventsSig sig m₂ := by
  simp [eventsSig]

theorem lieIncrement_contribution (ops : ℕ → LieOps L) (m : List (ℚ × L)) (hm : Chronological m)
    (R : ℤ) (depth ctx : ℕ) (sig : L → G) (hI : Interprets (ops ctx) sig) :
    Contribution (lieIncrementStream ops m R depth) ctx sig
      (fun a b => eventsSig sig (eventsIn m (Set.Ico a b))) := by
  have hr : ∀ d : DyadicInterval, d.type = .clopen →
      incrementRange m (asInterval d) = eventsIn m (Set.Ico d.left d.right) := by
    intro d ht
    have hle : (asInterval d).inf ≤ (asInterval d).sup := by
      unfold asInterval
      simp only
      rw [inf_eq_left, sup_eq_right]
      exact (left_lt_right d).le
    rw [incrementRange_eq m hm _ hle]
    unfold asInterval RealInterval.points
    simp only
    rw [ht, inf_eq_left, sup_eq_right]
    rfl
  refine ⟨?_, ?_, ?_⟩
  · intro a b c hab hbc
    show eventsSig sig _ * eventsSig sig _ = eventsSig sig _
    rw [← eventsSig_append, eventsIn_Ico_append m hm hab hbc]
  · intro d ht _ he
    have he' : (incrementRange m (asInterval d)).isEmpty = true := he
    rw [hr d ht, List.isEmpty_iff] at he'
    show eventsSig sig _ = 1
    rw [he']
    rfl
  · intro d ht _ he
    have he' : (incrementRange m (asInterval d)).isEmpty = false := he
    show sig (lieIncrementLogSig ops m ctx (asInterval d)) = _
    unfold lieIncrementLogSig
    simp only
    rw [he', if_neg (by simp), hI.cbh, hr d ht]
    simp [eventsSig, List.map_map, Function.comp_def]


/-- Ordered product of `v i, v (i+1), …, v (j-1)`. -/
def intProd (v : ℤ → G) (i j : ℤ) : G := ((List.range (j - i).toNat).map fun t : ℕ => v (i + t)).prod

theorem intProd_mul (v : ℤ → G) (i j k : ℤ) (hij : i ≤ j) (hjk : j ≤ k) :
    intProd v i j * intProd v j k = intProd v i k := by
  unfold intProd
  have e : (k - i).toNat = (j - i).toNat + (k - j).toNat := by omega
  rw [e, List.range_add, List.map_append, List.prod_append]
  congr 2
  rw [List.map_map]
  refine List.map_congr_left fun t _ => ?_
  simp only [Function.comp_apply]
  congr 1
  push_cast
  rw [Int.toNat_of_nonneg (by omega)]
  ring

theorem intProd_self (v : ℤ → G) (i : ℤ) : intProd v i i = 1 := by
  simp [intProd]

theorem floor_dyadicValue (k n R : ℤ) (h : n ≤ R) :
    ⌊dyadicValue k n * 2 ^ R⌋ = k * Dyadic.pow2 (R - n) := by
  have : dyadicValue k n * 2 ^ R = ((k * Dyadic.pow2 (R - n) : ℤ) : ℚ) := by
    push_cast
    rw [pow2_coe _ (by omega), zpow_sub₀ (by norm_num)]
    unfold dyadicValue
    ring
  rw [this, Int.floor_intCast]

theorem caching_contribution (S : Impl L) (hE : EmptyInherited S) (ctx : ℕ) (sig : L → G) :
    ∃ v : ℤ → G, Contribution S ctx sig
      (fun a b => intProd v ⌊a * 2 ^ S.defaultRes⌋ ⌊b * 2 ^ S.defaultRes⌋) := by
  classical
  let cellAt : ℤ → DyadicInterval := fun k => ⟨k, S.defaultRes, .clopen⟩
  refine ⟨fun k => if S.empty (asInterval (cellAt k)) then 1
    else sig (S.impl ctx (asInterval (cellAt k))), ?_, ?_, ?_⟩
  · intro a b c hab hbc
    have h2 := two_zpow_pos S.defaultRes
    exact intProd_mul _ _ _ _ (Int.floor_le_floor (by gcongr)) (Int.floor_le_floor (by gcongr))
  · intro d ht hn he
    show intProd _ _ _ = 1
    obtain ⟨k, n, t⟩ := d
    simp only at ht hn
    subst ht
    have hl : (⟨k, n, .clopen⟩ : DyadicInterval).left = dyadicValue k n := rfl
    have hr : (⟨k, n, .clopen⟩ : DyadicInterval).right = dyadicValue (k + 1) n := rfl
    rw [hl, hr, floor_dyadicValue _ _ _ hn, floor_dyadicValue _ _ _ hn]
    unfold intProd
    apply List.prod_eq_one
    intro g hg
    obtain ⟨t, ht, rfl⟩ := List.mem_map.1 hg
    rw [List.mem_range] at ht
    have hpos := pow2_pos (S.defaultRes - n)
    refine if_pos (hE _ _ rfl rfl ?_ he)
    show Set.Ico (dyadicValue (k * Dyadic.pow2 (S.defaultRes - n) + t) S.defaultRes)
        (dyadicValue (k * Dyadic.pow2 (S.defaultRes - n) + t + 1) S.defaultRes) ⊆
      Set.Ico (dyadicValue k n) (dyadicValue (k + 1) n)
    rw [← dyadicValue_shift k n S.defaultRes hn, ← dyadicValue_shift (k + 1) n S.defaultRes hn]
    refine Set.Ico_subset_Ico ?_ ?_
    · rw [dyadicValue_le]; omega
    · rw [dyadicValue_le]; omega
  · intro d ht hn he
    obtain ⟨k, n, t⟩ := d
    simp only at ht hn
    subst ht hn
    show sig _ = intProd _ _ _
    have hl : (⟨k, S.defaultRes, .clopen⟩ : DyadicInterval).left = dyadicValue k S.defaultRes := rfl
    have hr : (⟨k, S.defaultRes, .clopen⟩ : DyadicInterval).right =
      dyadicValue (k + 1) S.defaultRes := rfl
    rw [hl, hr, floor_dyadicValue _ _ _ le_rfl, floor_dyadicValue _ _ _ le_rfl, sub_self, pow2_zero]
    unfold intProd
    have e : ((k + 1) * 1 - k * 1).toNat = 1 := by omega
    rw [e]
    simp only [List.range_one, List.map_cons, List.map_nil, List.prod_cons, List.prod_nil, mul_one,
      Nat.cast_zero, add_zero]
    rw [if_neg (by rw [he]; simp)]

/-! ### resolutions -/

theorem paramToResolution_pos (x : ℚ) (hx : 0 < x) : paramToResolution x = -(min 0 (Int.log 2 x)) := by
  unfold paramToResolution frexpExp
  rw [if_neg hx.ne', abs_of_pos hx]
  simp

theorem log_bounds (x : ℚ) (hx : 0 < x) :
    (2 : ℚ) ^ (Int.log 2 x) ≤ x ∧ x < (2 : ℚ) ^ (Int.log 2 x + 1) := by
  have h1 := Int.zpow_log_le_self (R := ℚ) (b := 2) (by norm_num) hx
  have h2 := Int.lt_zpow_succ_log_self (R := ℚ) (b := 2) (by norm_num) x
  exact ⟨by exact_mod_cast h1, by exact_mod_cast h2⟩

theorem log_neg_iff (x : ℚ) (hx : 0 < x) : Int.log 2 x < 0 ↔ x < 1 := by
  obtain ⟨h1, h2⟩ := log_bounds x hx
  constructor
  · intro h
    refine h2.trans_le ?_
    calc (2 : ℚ) ^ (Int.log 2 x + 1) ≤ 2 ^ (0 : ℤ) :=
          zpow_le_zpow_right₀ (by norm_num) (by omega)
      _ = 1 := by simp
  · intro h
    by_contra hn
    have : (2 : ℚ) ^ (0 : ℤ) ≤ 2 ^ (Int.log 2 x) := zpow_le_zpow_right₀ (by norm_num) (by omega)
    rw [zpow_zero] at this
    linarith

/-! ### building the event map -/

theorem emplace_perm (t : ℚ) (x : L) (m : List (ℚ × L)) (h : ∀ r ∈ m, r.1 ≠ t) :
    (emplace t x m).Perm ((t, x) :: m) := by
  induction m with
  | nil => exact List.Perm.refl _
  | cons s m ih =>
    obtain ⟨s, y⟩ := s
    unfold emplace
    split_ifs with h1 h2
    · exact List.Perm.refl _
    · exact ((ih fun r hr => h r (by simp [hr])).cons _).trans (List.Perm.swap _ _ _)
    · exact absurd (le_antisymm (not_lt.1 h1) (not_lt.1 h2)) (h (s, y) (by simp))

theorem incrementData_perm (rows : List (ℚ × L)) (h : (rows.map Prod.fst).Nodup) :
    (incrementData rows).Perm rows := by
  have main : ∀ (rows m : List (ℚ × L)), (rows.map Prod.fst).Nodup →
      (∀ r ∈ rows, ∀ s ∈ m, s.1 ≠ r.1) →
      (rows.foldl (fun m r => emplace r.1 r.2 m) m).Perm (rows ++ m) := by
    intro rows
    induction rows with
    | nil => exact fun m _ _ => List.Perm.refl _
    | cons r rows ih =>
      intro m hn hd
      rw [List.map_cons, List.nodup_cons] at hn
      have hp := emplace_perm r.1 r.2 m fun s hs => hd r (by simp) s hs
      refine (ih _ hn.2 ?_).trans ?_
      · intro q hq s hs
        rcases List.mem_cons.1 (hp.mem_iff.1 hs) with h | h
        · rw [h]
          intro he
          exact hn.1 (List.mem_map.2 ⟨q, hq, he.symm⟩)
        · exact hd q (by simp [hq]) s h
      · exact (hp.append_left rows).trans List.perm_middle
  have := main rows [] h (by simp)
  rwa [List.append_nil] at this

/-! ### the time channel -/

/-- Consecutive events record the time passed since the previous one. -/
def Telescopes (time : L → ℚ) : ℚ → List (ℚ × L) → Prop
  | _, [] => True
  | p, (t, x) :: m => time x = t - p ∧ Telescopes time t m

theorem telescopes_append (time : L → ℚ) (p : ℚ) (m : List (ℚ × L)) (t : ℚ) (x : L)
    (h : Telescopes time p m)
    (hx : time x = t - (m.getLast?.map Prod.fst).getD p) : Telescopes time p (m ++ [(t, x)]) := by
  induction m generalizing p with
  | nil => exact ⟨hx, trivial⟩
  | cons r m ih =>
    obtain ⟨s, y⟩ := r
    refine ⟨h.1, ih s h.2 ?_⟩
    cases m with
    | nil => simpa using hx
    | cons q m =>
      cases hq : (q :: m).getLast? with
      | none => simp at hq
      | some z =>
        rw [List.getLast?_cons_cons, hq] at hx
        simpa using hx

theorem emplace_last (t : ℚ) (x : L) (m : List (ℚ × L)) (h : ∀ r ∈ m, r.1 < t) :
    emplace t x m = m ++ [(t, x)] := by
  induction m with
  | nil => rfl
  | cons r m ih =>
    obtain ⟨s, y⟩ := r
    have h1 := h (s, y) (by simp)
    unfold emplace
    rw [if_neg (not_lt.2 h1.le), if_pos h1, ih fun q hq => h q (by simp [hq])]
    rfl

theorem emplace_dup (t : ℚ) (x : L) (m : List (ℚ × L)) (hm : Chronological m) (y : L)
    (h : (t, y) ∈ m) : emplace t x m = m := by
  induction m with
  | nil => cases h
  | cons r m ih =>
    obtain ⟨s, z⟩ := r
    have h' := List.pairwise_cons.1 hm
    unfold emplace
    rcases List.mem_cons.1 h with h | h
    · have : t = s := congrArg Prod.fst h
      rw [if_neg (by rw [this]; exact lt_irrefl _), if_neg (by rw [this]; exact lt_irrefl _)]
    · have h1 : s < t := h'.1 _ h
      rw [if_neg (not_lt.2 h1.le), if_pos h1, ih h'.2 h]

theorem incrementDataTime_spec (setTime : L → ℚ → L) (time : L → ℚ)
    (ht : ∀ x v, time (setTime x v) = v) (rows : List (ℚ × L))
    (hr : (rows.map Prod.fst).Pairwise (· ≤ ·)) (h0 : ∀ r ∈ rows, 0 ≤ r.1) :
    Telescopes time 0 (incrementDataTime setTime rows) ∧
    Chronological (incrementDataTime setTime rows) ∧
    ∀ r ∈ rows, 0 < r.1 → ∃ x, (r.1, x) ∈ incrementDataTime setTime rows := by
  have main : ∀ (rows m : List (ℚ × L)) (p : ℚ), (rows.map Prod.fst).Pairwise (· ≤ ·) →
      (∀ r ∈ rows, p ≤ r.1) → Chronological m → Telescopes time 0 m →
      (m.getLast?.map Prod.fst).getD 0 = p → (∀ r ∈ m, r.1 ≤ p) → (m = [] → p = 0) →
      (m ≠ [] → ∃ y, (p, y) ∈ m) →
      let m' := (rows.foldl (fun (st : List (ℚ × L) × ℚ) r =>
        (emplace r.1 (setTime r.2 (r.1 - st.2)) st.1, r.1)) (m, p)).1
      Telescopes time 0 m' ∧ Chronological m' ∧ (∀ r ∈ m, r ∈ m') ∧
        ∀ r ∈ rows, ∃ x, (r.1, x) ∈ m' := by
    intro rows
    induction rows with
    | nil => exact fun m p _ _ hc hT _ _ _ _ => ⟨hT, hc, fun r hr => hr, by simp⟩
    | cons r rows ih =>
      intro m p hs hp hc hT hl hle he hne
      rw [List.map_cons, List.pairwise_cons] at hs
      have hpr := hp r (by simp)
      have hnext : ∀ q ∈ rows, r.1 ≤ q.1 := fun q hq => hs.1 _ (List.mem_map_of_mem hq)
      simp only [List.foldl_cons]
      by_cases hlt : ∀ q ∈ m, q.1 < r.1
      · have e := emplace_last r.1 (setTime r.2 (r.1 - p)) m hlt
        rw [e]
        have := ih (m ++ [(r.1, setTime r.2 (r.1 - p))]) r.1 hs.2 hnext
          (by rw [← e]; exact emplace_chronological _ _ _ hc)
          (telescopes_append time 0 m _ _ hT (by rw [ht, hl]))
          (by simp)
          (by
            intro q hq
            rcases List.mem_append.1 hq with hq | hq
            · exact (hlt q hq).le
            · rw [List.mem_singleton] at hq; rw [hq])
          (by simp)
          (fun _ => ⟨_, List.mem_append_right _ (List.mem_singleton.2 rfl)⟩)
        obtain ⟨g1, g2, g3, g4⟩ := this
        refine ⟨g1, g2, fun q hq => g3 q (List.mem_append_left _ hq), fun q hq => ?_⟩
        rcases List.mem_cons.1 hq with hq | hq
        · subst hq
          exact ⟨_, g3 _ (List.mem_append_right _ (List.mem_singleton.2 rfl))⟩
        · exact g4 q hq
      · have hm : m ≠ [] := by rintro rfl; exact hlt (by simp)
        have heq : p = r.1 := by
          rcases hpr.lt_or_eq with h | h
          · exact absurd (fun q hq => (hle q hq).trans_lt h) hlt
          · exact h
        obtain ⟨y, hy⟩ := hne hm
        have e := emplace_dup r.1 (setTime r.2 (r.1 - p)) m hc y (by rw [← heq]; exact hy)
        rw [e]
        have := ih m r.1 hs.2 hnext hc hT (by rw [hl, heq]) (by rw [← heq]; exact hle)
          (fun h => absurd h hm) (fun _ => ⟨y, by rw [← heq]; exact hy⟩)
        obtain ⟨g1, g2, g3, g4⟩ := this
        refine ⟨g1, g2, g3, fun q hq => ?_⟩
        rcases List.mem_cons.1 hq with hq | hq
        · subst hq
          exact ⟨y, g3 _ (by rw [← heq]; exact hy)⟩
        · exact g4 q hq
  obtain ⟨g1, g2, -, g4⟩ := main rows [] 0 hr h0 List.Pairwise.nil trivial rfl (by simp)
    (fun _ => rfl) (fun h => absurd rfl h)
  exact ⟨g1, g2, fun r hr _ => g4 r hr⟩

theorem telescopes_sum (time : L → ℚ) (m : List (ℚ × L)) : ∀ (p : ℚ), Telescopes time p m →
    Chronological m → ∀ t x, (t, x) ∈ m →
      ((m.filter fun r => decide (r.1 ≤ t)).map fun r => time r.2).sum = t - p := by
  induction m with
  | nil => intro p _ _ t x h; cases h
  | cons r m ih =>
    obtain ⟨s, y⟩ := r
    intro p hT hc t x hmem
    have hc' := List.pairwise_cons.1 hc
    rcases List.mem_cons.1 hmem with h | h
    · have e : t = s := congrArg Prod.fst h
      subst e
      have : m.filter (fun r => decide (r.1 ≤ t)) = [] := by
        rw [List.filter_eq_nil_iff]
        intro q hq
        have := hc'.1 q hq
        simp only [decide_eq_true_eq, not_le]
        exact this
      rw [List.filter_cons, if_pos (by simp), this]
      simp [hT.1]
    · have hst : s < t := hc'.1 _ h
      rw [List.filter_cons, if_pos (by simp [hst.le]), List.map_cons, List.sum_cons, hT.1,
        ih s hT.2 hc'.2 t x h]
      ring

end RoughPy.Streams
