import Verif.Threads.Spec
import Mathlib.Algebra.Order.BigOperators.Group.Finset

/-!
# The counter counts the pointers
-/

namespace RoughPy.Threads

open scoped BigOperators

variable {n : ℕ}

theorem pointers_put (s : Sys n) (t : Fin n) (x : Thr) :
    pointers (s.put t x) + (s.thr t).pointers = pointers s + x.pointers := by
  unfold pointers Sys.put
  dsimp only
  rw [← Finset.add_sum_erase _ _ (Finset.mem_univ t),
    ← Finset.add_sum_erase (a := t) _ (fun t => (s.thr t).pointers) (Finset.mem_univ t)]
  have : ∑ u ∈ Finset.univ.erase t, (Function.update s.thr t x u).pointers =
      ∑ u ∈ Finset.univ.erase t, (s.thr u).pointers := by
    refine Finset.sum_congr rfl fun u hu => ?_
    rw [Function.update_of_ne (Finset.ne_of_mem_erase hu)]
  rw [this, Function.update_self]
  omega

theorem pointers_pos (s : Sys n) (t : Fin n) (h : (s.thr t).pointers ≠ 0) : 0 < pointers s := by
  have : (s.thr t).pointers ≤ pointers s :=
    Finset.single_le_sum (f := fun t => (s.thr t).pointers) (fun _ _ => Nat.zero_le _) (Finset.mem_univ t)
  omega

theorem pointers_zero (s : Sys n) (h : pointers s = 0) (t : Fin n) : (s.thr t).pointers = 0 := by
  by_contra hc
  have := pointers_pos s t hc
  omega

/-- The three phases of the life of an object. -/
inductive Phase (s : Sys n) : Prop where
  | alive (h0 : s.destroyed = 0) (hq : Quiet s) (hc : s.count.value = pointers s)
      (hp : 0 < pointers s) (hb : pointers s < 2 ^ 64)
      (hv : ∀ e, e < s.events → e ∈ s.count.view ∨ ∃ t, (s.thr t).pointers ≠ 0 ∧ e ∈ (s.thr t).view)
  | dying (h0 : s.destroyed = 0) (t : Fin n) (ht : (s.thr t).deleting = true)
      (hu : ∀ u, u ≠ t → (s.thr u).deleting = false) (hp : pointers s = 0)
      (hc : s.count.value = 0) (hv : ∀ e, e < s.events → e ∈ (s.thr t).view)
  | dead (h1 : s.destroyed = 1) (hq : Quiet s) (hp : pointers s = 0) (hc : s.count.value = 0)

theorem phase_start (t : Fin n) : Phase (start 0 t) := by
  have hp : pointers (start 0 t) = 1 := by
    unfold pointers start
    dsimp only
    rw [← Finset.add_sum_erase _ _ (Finset.mem_univ t), Function.update_self,
      Finset.sum_eq_zero fun u hu => by rw [Function.update_of_ne (Finset.ne_of_mem_erase hu)]]
    rfl
  refine .alive rfl ?_ ?_ (by omega) (by omega) ?_
  · intro u
    unfold start
    dsimp only
    by_cases h : u = t
    · subst h; rw [Function.update_self]
    · rw [Function.update_of_ne h]
  · rw [hp]; rfl
  · intro e he
    right
    refine ⟨t, ?_, ?_⟩
    · unfold start; dsimp only; rw [Function.update_self]; simp
    · unfold start at he ⊢
      dsimp only at he ⊢
      rw [Function.update_self]
      have : e = 0 := by omega
      subst this
      decide

theorem put_thr (s : Sys n) (t u : Fin n) (x : Thr) :
    (s.put t x).thr u = if u = t then x else s.thr u := by
  unfold Sys.put
  dsimp only
  by_cases h : u = t
  · subst h; rw [Function.update_self, if_pos rfl]
  · rw [Function.update_of_ne h, if_neg h]

theorem decRef_spec (a : Atomic) (v : Finset ℕ) (h : 0 < a.value) (hb : a.value < 2 ^ 64) :
    ∃ C : Atomic, decRef a v = (decide (a.value = 1), C, v ∪ a.view) ∧ C.value = a.value - 1 ∧
      C.view = a.view ∪ v := by
  refine ⟨⟨(a.value + (2 ^ 64 - 1)) % 2 ^ 64, a.view ∪ v⟩, rfl, ?_, rfl⟩
  show (a.value + (2 ^ 64 - 1)) % 2 ^ 64 = a.value - 1
  have : a.value + (2 ^ 64 - 1) = (a.value - 1) + 2 ^ 64 := by omega
  rw [this, Nat.add_mod_right, Nat.mod_eq_of_lt (by omega)]

/-- No action of a thread fails, and the object stays in one of the three phases. -/
theorem phase_step {s : Sys n} (h : Phase s) (a : Act n) :
    step s a ≠ .freed ∧ step s a ≠ .race ∧
      ∀ s', step s a = .ok s' → pointers s' < 2 ^ 64 → Phase s' := by
  cases a with
  | use t =>
    unfold step
    dsimp only
    by_cases h1 : (s.thr t).pointers = 0 ∨ (s.thr t).deleting
    · rw [if_pos h1]; exact ⟨by simp, by simp, by simp⟩
    rw [if_neg h1]
    push Not at h1
    have hpos := pointers_pos s t h1.1
    cases h with
    | dying h0 t' ht hu hp hc hv => omega
    | dead h1 hq hp hc => omega
    | alive h0 hq hc hp hb hv =>
      rw [if_neg (by rw [h0]; simp)]
      refine ⟨by simp, by simp, ?_⟩
      intro s' he hb'
      cases he
      have e := pointers_put s t { s.thr t with view := insert s.events (s.thr t).view }
      dsimp only at e
      refine .alive h0 ?_ ?_ ?_ hb' ?_
      · intro u
        show ((s.put t _).thr u).deleting = false
        rw [put_thr]
        split_ifs with hut
        · exact hq t
        · exact hq u
      · show s.count.value = pointers (s.put t _)
        omega
      · show 0 < pointers (s.put t _)
        omega
      · intro e he
        show e ∈ s.count.view ∨ ∃ u, ((s.put t _).thr u).pointers ≠ 0 ∧ e ∈ ((s.put t _).thr u).view
        by_cases hee : e = s.events
        · right
          refine ⟨t, ?_, ?_⟩
          · rw [put_thr, if_pos rfl]; exact h1.1
          · rw [put_thr, if_pos rfl, hee]; exact Finset.mem_insert_self _ _
        · have : e < s.events := by
            have : e < s.events + 1 := he
            omega
          rcases hv e this with h' | ⟨u, hu1, hu2⟩
          · exact .inl h'
          · right
            refine ⟨u, ?_, ?_⟩
            · rw [put_thr]; split_ifs with hut
              · subst hut; exact hu1
              · exact hu1
            · rw [put_thr]; split_ifs with hut
              · subst hut; exact Finset.mem_insert_of_mem hu2
              · exact hu2
  | copy t u =>
    unfold step
    dsimp only
    by_cases h1 : (s.thr t).pointers = 0 ∨ (s.thr u).deleting
    · rw [if_pos h1]; exact ⟨by simp, by simp, by simp⟩
    rw [if_neg h1]
    push Not at h1
    have hpos := pointers_pos s t h1.1
    cases h with
    | dying h0 t' ht hu hp hc hv => omega
    | dead h1 hq hp hc => omega
    | alive h0 hq hc hp hb hv =>
      rw [if_neg (by rw [h0]; simp)]
      refine ⟨by simp, by simp, ?_⟩
      intro s' he hb'
      cases he
      have e := pointers_put s u { s.thr u with
        pointers := (s.thr u).pointers + 1, view := (incRef s.count (s.thr u).view).2 }
      dsimp only at e
      have hb2 : pointers (s.put u { s.thr u with
        pointers := (s.thr u).pointers + 1, view := (incRef s.count (s.thr u).view).2 }) < 2 ^ 64 := hb'
      dsimp only at hb2
      refine .alive h0 ?_ ?_ ?_ hb' ?_
      · intro v
        show ((s.put u _).thr v).deleting = false
        rw [put_thr]
        split_ifs with hut
        · exact hq u
        · exact hq v
      · show (s.count.value + 1) % 2 ^ 64 = pointers (s.put u _)
        rw [Nat.mod_eq_of_lt (by omega)]
        omega
      · show 0 < pointers (s.put u _)
        omega
      · intro e he
        show e ∈ s.count.view ∨ ∃ v, ((s.put u _).thr v).pointers ≠ 0 ∧ e ∈ ((s.put u _).thr v).view
        rcases hv e he with h' | ⟨v, hv1, hv2⟩
        · exact .inl h'
        · right
          refine ⟨v, ?_, ?_⟩
          · rw [put_thr]; split_ifs with hut
            · exact Nat.succ_ne_zero _
            · exact hv1
          · rw [put_thr]; split_ifs with hut
            · subst hut; exact hv2
            · exact hv2
  | give t u =>
    unfold step
    dsimp only
    by_cases h1 : (s.thr t).pointers = 0 ∨ (s.thr t).deleting ∨ (s.thr u).deleting ∨ t = u
    · rw [if_pos h1]; exact ⟨by simp, by simp, by simp⟩
    rw [if_neg h1]
    push Not at h1
    have hpos := pointers_pos s t h1.1
    cases h with
    | dying h0 t' ht hu hp hc hv => omega
    | dead h1 hq hp hc => omega
    | alive h0 hq hc hp hb hv =>
      refine ⟨by simp, by simp, ?_⟩
      intro s' he hb'
      cases he
      have htu : u ≠ t := fun e => h1.2.2.2 e.symm
      have e1 := pointers_put s t { s.thr t with pointers := (s.thr t).pointers - 1 }
      have e2 := pointers_put (s.put t { s.thr t with pointers := (s.thr t).pointers - 1 }) u
        { s.thr u with pointers := (s.thr u).pointers + 1, view := (s.thr u).view ∪ (s.thr t).view }
      rw [put_thr, if_neg htu] at e2
      dsimp only at e1 e2
      have h11 := h1.1
      refine .alive h0 ?_ ?_ ?_ hb' ?_
      · intro v
        rw [put_thr]
        split_ifs with hut
        · exact hq u
        · rw [put_thr]
          split_ifs with hvt
          · exact hq t
          · exact hq v
      · show s.count.value = _
        omega
      · omega
      · intro e he
        rcases hv e he with h' | ⟨v, hv1, hv2⟩
        · exact .inl h'
        · right
          by_cases hvt : v = t
          · refine ⟨u, ?_, ?_⟩
            · rw [put_thr, if_pos rfl]; exact Nat.succ_ne_zero _
            · rw [put_thr, if_pos rfl]
              subst hvt
              exact Finset.mem_union_right _ hv2
          · refine ⟨v, ?_, ?_⟩
            · rw [put_thr]; split_ifs with hut
              · exact Nat.succ_ne_zero _
              · rw [put_thr, if_neg hvt]; exact hv1
            · rw [put_thr]; split_ifs with hut
              · subst hut; exact Finset.mem_union_left _ hv2
              · rw [put_thr, if_neg hvt]; exact hv2
  | sync t u =>
    unfold step
    dsimp only
    by_cases h1 : (s.thr t).deleting ∨ (s.thr u).deleting
    · rw [if_pos h1]; exact ⟨by simp, by simp, by simp⟩
    rw [if_neg h1]
    push Not at h1
    refine ⟨by simp, by simp, ?_⟩
    intro s' he hb'
    cases he
    have e := pointers_put s u { s.thr u with view := (s.thr u).view ∪ (s.thr t).view }
    dsimp only at e
    have hdel : ∀ v, ((s.put u { s.thr u with view := (s.thr u).view ∪ (s.thr t).view }).thr v).deleting =
        (s.thr v).deleting := by
      intro v
      rw [put_thr]
      split_ifs with hut
      · subst hut; rfl
      · rfl
    have hview : ∀ v e, e ∈ (s.thr v).view →
        e ∈ ((s.put u { s.thr u with view := (s.thr u).view ∪ (s.thr t).view }).thr v).view := by
      intro v e he
      rw [put_thr]
      split_ifs with hut
      · subst hut; exact Finset.mem_union_left _ he
      · exact he
    cases h with
    | dying h0 t' ht hu hp hc hv =>
      refine .dying h0 t' (by rw [hdel]; exact ht) (fun v hv' => by rw [hdel]; exact hu v hv') (by omega) hc ?_
      intro e he
      exact hview _ _ (hv e he)
    | dead h1 hq hp hc =>
      exact .dead h1 (fun v => by rw [hdel]; exact hq v) (by omega) hc
    | alive h0 hq hc hp hb hv =>
      refine .alive h0 (fun v => by rw [hdel]; exact hq v) (by show s.count.value = _; omega) (by omega) hb' ?_
      intro e he
      rcases hv e he with h' | ⟨v, hv1, hv2⟩
      · exact .inl h'
      · right
        refine ⟨v, ?_, hview _ _ hv2⟩
        rw [put_thr]; split_ifs with hut
        · subst hut; exact hv1
        · exact hv1
  | drop t =>
    unfold step
    dsimp only
    by_cases h1 : (s.thr t).pointers = 0 ∨ (s.thr t).deleting
    · rw [if_pos h1]; exact ⟨by simp, by simp, by simp⟩
    rw [if_neg h1]
    push Not at h1
    have hpos := pointers_pos s t h1.1
    cases h with
    | dying h0 t' ht hu hp hc hv => omega
    | dead h1 hq hp hc => omega
    | alive h0 hq hc hp hb hv =>
      rw [if_neg (by rw [h0]; simp)]
      obtain ⟨C, hd, hC1, hC2⟩ := decRef_spec s.count (s.thr t).view (by omega) (by omega)
      rw [hd]
      dsimp only
      refine ⟨by simp, by simp, ?_⟩
      intro s' he hb'
      cases he
      have e := pointers_put s t
        ⟨(s.thr t).pointers - 1, (s.thr t).view ∪ s.count.view, decide (s.count.value = 1)⟩
      dsimp only at e
      have h11 := h1.1
      by_cases hone : s.count.value = 1
      · refine .dying h0 t ?_ ?_ ?_ ?_ ?_
        · show ((s.put t _).thr t).deleting = true
          rw [put_thr, if_pos rfl]
          exact decide_eq_true hone
        · intro u hu
          show ((s.put t _).thr u).deleting = false
          rw [put_thr, if_neg hu]
          exact hq u
        · show pointers (s.put t _) = 0
          omega
        · show C.value = 0
          omega
        · intro e' he
          show e' ∈ ((s.put t _).thr t).view
          rw [put_thr, if_pos rfl]
          rcases hv e' he with h' | ⟨v, hvp, hve⟩
          · exact Finset.mem_union_right _ h'
          · -- only `t` holds a pointer
            by_cases hvt : v = t
            · subst hvt; exact Finset.mem_union_left _ hve
            · exfalso
              have hz : pointers (s.put t
                ⟨(s.thr t).pointers - 1, (s.thr t).view ∪ s.count.view, decide (s.count.value = 1)⟩) = 0 := by
                omega
              have := pointers_zero _ hz v
              rw [put_thr, if_neg hvt] at this
              exact hvp this
      · refine .alive h0 ?_ ?_ ?_ hb' ?_
        · intro u
          show ((s.put t _).thr u).deleting = false
          rw [put_thr]
          split_ifs with hut
          · exact decide_eq_false hone
          · exact hq u
        · show C.value = pointers (s.put t _)
          omega
        · show 0 < pointers (s.put t _)
          omega
        · intro e' he
          show e' ∈ C.view ∨ ∃ u, ((s.put t _).thr u).pointers ≠ 0 ∧
            e' ∈ ((s.put t _).thr u).view
          rw [hC2]
          rcases hv e' he with h' | ⟨v, hvp, hve⟩
          · exact .inl (Finset.mem_union_left _ h')
          · by_cases hvt : v = t
            · subst hvt; exact .inl (Finset.mem_union_right _ hve)
            · right
              exact ⟨v, by rw [put_thr, if_neg hvt]; exact hvp, by rw [put_thr, if_neg hvt]; exact hve⟩
  | delete t =>
    unfold step
    dsimp only
    by_cases h1 : ¬ (s.thr t).deleting
    · rw [if_pos h1]; exact ⟨by simp, by simp, by simp⟩
    rw [if_neg h1]
    rw [not_not] at h1
    cases h with
    | alive h0 hq hc hp hb hv => rw [hq t] at h1; cases h1
    | dead h1' hq hp hc => rw [hq t] at h1; cases h1
    | dying h0 t' ht hu hp hc hv =>
      have htt : t = t' := by
        by_contra hne
        rw [hu t hne] at h1; cases h1
      subst htt
      have hsub : Finset.range s.events ⊆ (s.thr t).view := fun e he => hv e (Finset.mem_range.1 he)
      rw [if_neg (by rw [h0]; simp), if_neg (not_not.2 hsub)]
      refine ⟨by simp, by simp, ?_⟩
      intro s' he hb'
      cases he
      have e := pointers_put s t { s.thr t with deleting := false }
      dsimp only at e
      refine .dead (by show s.destroyed + 1 = 1; omega) ?_ (by show pointers (s.put t _) = 0; omega) hc
      intro v
      show ((s.put t _).thr v).deleting = false
      rw [put_thr]
      split_ifs with hvt
      · rfl
      · exact hu v hvt

theorem Reaches.phase {t : Fin n} {s : Sys n} (h : Reaches 0 t s) : Phase s := by
  induction h with
  | start => exact phase_start t
  | step _ he hb ih => exact (phase_step ih _).2.2 _ he hb

end RoughPy.Threads
