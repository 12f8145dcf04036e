import Verif.Threads.Model

/-!
# What is claimed about counted pointers
-/

namespace RoughPy.Threads

open scoped BigOperators

/-- The number of pointers to the object in all threads. -/
def pointers {n : ℕ} (s : Sys n) : ℕ := ∑ t, (s.thr t).pointers

/-- The states a schedule can lead to, starting with an object made in thread `t` whose counter starts
with `init`; there are never `2 ^ 64` pointers at once. -/
inductive Reaches {n : ℕ} (init : ℕ) (t : Fin n) : Sys n → Prop where
  | start : Reaches init t (start init t)
  | step {s s' : Sys n} {a : Act n} (h : Reaches init t s) (he : step s a = .ok s')
      (hb : pointers s' < 2 ^ 64) : Reaches init t s'

/-- No thread is in the middle of dropping a pointer. -/
def Quiet {n : ℕ} (s : Sys n) : Prop := ∀ t, (s.thr t).deleting = false

end RoughPy.Threads
