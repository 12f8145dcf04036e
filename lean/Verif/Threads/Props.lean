import Verif.Threads.Lemmas

/-!
# C147: an object is destroyed once, after all uses, in every schedule
-/

namespace RoughPy.Threads

variable {n : ℕ} {t₀ : Fin n} {s : Sys n}

/-- **C147.** Whatever the schedule, no thread uses the object after it was freed, it is not freed twice,
and every use of it happens before it is destroyed. -/
theorem C147_safe (h : Reaches 0 t₀ s) (a : Act n) : step s a ≠ .freed ∧ step s a ≠ .race :=
  ⟨(phase_step h.phase a).1, (phase_step h.phase a).2.1⟩

/-- **C147.** While a thread has a pointer to the object it is there. -/
theorem C147_alive (h : Reaches 0 t₀ s) {t : Fin n} (ht : (s.thr t).pointers ≠ 0) : s.destroyed = 0 := by
  have hp := pointers_pos s t ht
  cases h.phase with
  | alive h0 => exact h0
  | dying h0 => exact h0
  | dead h1 hq hz => omega

/-- **C147.** The object is destroyed at most once. -/
theorem C147_once (h : Reaches 0 t₀ s) : s.destroyed ≤ 1 := by
  cases h.phase with
  | alive h0 => omega
  | dying h0 => omega
  | dead h1 => omega

/-- **C147.** When the last pointer is gone and no thread is in the middle of dropping one, the object
has been destroyed. -/
theorem C147_no_leak (h : Reaches 0 t₀ s) (hp : pointers s = 0) (hq : Quiet s) : s.destroyed = 1 := by
  cases h.phase with
  | alive h0 _ _ hpos => omega
  | dying h0 t ht => rw [hq t] at ht; cases ht
  | dead h1 => exact h1

/-- **C147.** A thread that has dropped the last pointer can go on and destroy the object. -/
theorem C147_progress (h : Reaches 0 t₀ s) {t : Fin n} (ht : (s.thr t).deleting = true) :
    ∃ s', step s (.delete t) = .ok s' ∧ s'.destroyed = 1 ∧ Quiet s' := by
  cases h.phase with
  | alive h0 hq => rw [hq t] at ht; cases ht
  | dead h1 hq => rw [hq t] at ht; cases ht
  | dying h0 t' ht' hu hz hc hv =>
    have htt : t = t' := by
      by_contra hne
      rw [hu t hne] at ht; cases ht
    subst htt
    refine ⟨{ s.put t { s.thr t with deleting := false } with destroyed := s.destroyed + 1 }, ?_, ?_, ?_⟩
    · unfold step
      dsimp only
      have hsub : Finset.range s.events ⊆ (s.thr t).view := fun e he => hv e (Finset.mem_range.1 he)
      rw [if_neg (not_not.2 ht), if_neg (by rw [h0]; simp), if_neg (not_not.2 hsub)]
    · show s.destroyed + 1 = 1
      omega
    · intro v
      show ((s.put t _).thr v).deleting = false
      rw [put_thr]
      split_ifs with hvt
      · rfl
      · exact hu v hvt

/-- **C147.** `ref_count()` is the number of pointers. -/
theorem C147_count (h : Reaches 0 t₀ s) : refCount s.count = pointers s := by
  cases h.phase with
  | alive h0 hq hc => exact hc
  | dying h0 t ht hu hz hc => rw [hz]; exact hc
  | dead h1 hq hz hc => rw [hz]; exact hc

/-! ## Examples -/

/-- Two threads: the second copies the pointer of the first, both use the object and drop their pointers;
the first drops first, so the second destroys the object. -/
def twoThreads : List (Act 2) := [.copy 0 1, .use 0, .use 1, .drop 0, .drop 1, .delete 1]

/-- The state at the end. -/
def Res.final : Res n → Option (Sys n)
  | .ok s => some s
  | _ => none

example : ((run (start 0 0) twoThreads).final.map fun s => (s.destroyed, s.events, refCount s.count)) =
    some (1, 3, 0) := by decide +kernel

/-! ## Defects -/

/-- What a schedule comes to, without the state. -/
def Res.tag : Res n → ℕ
  | .ok _ => 0
  | .disabled => 1
  | .freed => 2
  | .race => 3

/-- **C147 fails for `RefCountBase`:** its counter starts with whatever is in memory.  Starting with 1 the
object is never destroyed; -/
theorem C147_leak_refuted :
    ∃ s : Sys 1, (run (start 1 0) [.drop 0]).final = some s ∧ pointers s = 0 ∧ s.destroyed = 0 ∧
      ∀ t, (s.thr t).deleting = false := by
  refine ⟨_, rfl, by decide +kernel, rfl, by decide +kernel⟩

/-- starting with the largest number it is destroyed while a thread still has a pointer, whose use then
is undefined. -/
theorem C147_early_refuted :
    (run (start (2 ^ 64 - 1) (0 : Fin 2)) [.copy 0 1, .drop 0, .delete 0, .use 1]).tag = 2 := by
  decide +kernel

end RoughPy.Threads
