import Verif.GenArr.Inv

/-!
# C156: arrays of values of run-time type
-/

namespace RoughPy.GenArr

variable {V : Type}

/-- Every program that copies arrays with a type to other variables, moves arrays to other variables, and
does not make an array of elements that own memory larger than its capacity while it has elements, sees
exactly what it would see if its variables held lists: the values, the sizes, the errors for a missing type
and for an index out of range.  Nothing it does is undefined. -/
theorem C156_values_partial (zero : V) (ops : List (Op V))
    (ha : Always Allowed zero ops (State.init zero)) :
    ∃ s, run zero ops (State.init zero) = some (s, (specRun zero ops fun _ => none).2) := by
  obtain ⟨s, e, -, -⟩ := run_sim zero ops (init_inv zero) ha
  exact ⟨s, e⟩

/-- If moreover arrays are assigned only to variables that hold no memory, then no object is lost, every
block of memory in use is the block of some variable, and of one only. -/
theorem C156_memory_partial (zero : V) (ops : List (Op V))
    (ha : Always Allowed zero ops (State.init zero)) (ht : Always Tidy zero ops (State.init zero)) :
    ∃ s os, run zero ops (State.init zero) = some (s, os) ∧ s.heap.lost = 0 ∧
      (∀ b, b < s.heap.next → (s.heap.block b).freed = false → ∃! x, (s.vars x).data = some b) ∧
      (∀ x b, (s.vars x).data = some b → b < s.heap.next ∧ (s.heap.block b).freed = false) := by
  obtain ⟨s, e, I, K⟩ := run_sim zero ops (init_inv zero) ha
  obtain ⟨hl, ho⟩ := K (init_kept zero) ht
  refine ⟨s, _, e, hl, fun b hb hf => ?_, fun x b hb => ⟨(I.rep x).data_lt hb, ?_⟩⟩
  · obtain ⟨x, hx⟩ := ho b hb hf
    exact ⟨x, hx, fun y hy => I.apart y x b hy hx⟩
  · have := I.rep x
    cases hw : (specRun zero ops fun _ => none).1 x with
    | none =>
      rw [hw] at this
      rw [show s.vars x = Arr.empty from this] at hb
      simp [Arr.empty] at hb
    | some p =>
      rw [hw] at this
      exact (Typed.holds (k := p.1) (l := p.2) this b hb).inUse

/-- After `reserve(n)` the capacity is at least `n`, and `resize` to a size within the capacity leaves the
elements where they are in memory: the pointer that `data()` returned stays valid.  Here after any program
of the kind above. -/
theorem C156_reserved_partial (zero : V) (ops : List (Op V))
    (ha : Always Allowed zero ops (State.init zero)) {s : State V} {os : List (Out V)}
    (hr : run zero ops (State.init zero) = some (s, os)) (x : ℕ) (hx : (s.vars x).type ≠ none) :
    (∀ n, Allowed s (.reserve x n) → ∃ s', step zero s (.reserve x n) = some (s', .done) ∧
      n ≤ (s'.vars x).cap ∧ (s'.vars x).size = (s.vars x).size ∧
      (n ≤ (s.vars x).cap → (s'.vars x).data = (s.vars x).data)) ∧
    (∀ n, n ≤ (s.vars x).cap → ∃ s', step zero s (.resize x n) = some (s', .done) ∧
      (s'.vars x).data = (s.vars x).data ∧ (s'.vars x).cap = (s.vars x).cap ∧ (s'.vars x).size = n) := by
  obtain ⟨s0, e, I, -⟩ := run_sim zero ops (init_inv zero) ha
  rw [hr] at e
  obtain ⟨rfl, -⟩ : s = s0 ∧ os = _ := by simpa using e
  have hrep := I.rep x
  cases hw : (specRun zero ops fun _ => none).1 x with
  | none =>
    rw [hw] at hrep
    rw [show s.vars x = Arr.empty from hrep] at hx
    exact absurd rfl hx
  | some p =>
    obtain ⟨k, l⟩ := p
    rw [hw] at hrep
    have t : Typed s.heap (s.vars x) k l := hrep
    constructor
    · intro n hn
      obtain ⟨h', a', e, u, -, hc⟩ := reserve_eq zero t n (fun hk => hn (by rw [t.type_eq, hk]))
      have t' : Typed h' a' k l := u.rep
      refine ⟨s.set x (h', a'), by simp only [step, t.type_eq, e]; rfl, by simpa [State.set] using hc,
        by simp [State.set, t'.size_eq, t.size_eq], fun hle => ?_⟩
      have : (s.vars x).reserve zero s.heap k n = some (s.heap, s.vars x) := by
        unfold Arr.reserve; rw [if_neg (by omega)]
      rw [this] at e
      simp only [Option.some.injEq, Prod.mk.injEq] at e
      simp [State.set, ← e.2]
    · intro n hn
      obtain ⟨h', a', e, u, -, hc⟩ := resize_eq zero t n (fun _ => Or.inr hn)
      have t' : Typed h' a' k (toLength zero l n) := u.rep
      have hs := t.size_eq
      refine ⟨s.set x (h', a'), by simp only [step, t.type_eq, e]; rfl, ?_, ?_, ?_⟩
      · simpa [State.set] using (hc hn).1
      · simpa [State.set] using (hc hn).2
      · have : (toLength zero l n).length = n := by simp [toLength]; omega
        simp [State.set, t'.size_eq, this]

/-! ### What is missing -/

/-- An array of numbers of arbitrary precision that has elements cannot grow: its elements are assigned to
memory in which there are none (`array.cpp:101`). -/
theorem C156_grow_refuted :
    run (0 : ℤ) [.make 0 .managed 1, .resize 0 2] (State.init 0) = none ∧
    run (0 : ℤ) [.make 0 .managed 1, .reserve 0 2] (State.init 0) = none := by
  constructor <;> decide +kernel

/-- `Array b(a)` for an array without a type follows a null pointer (`array.cpp:113`). -/
theorem C156_copy_empty_refuted : run (0 : ℤ) [.copyNew 1 0] (State.init 0) = none := by decide +kernel

/-- `a = a` reads the elements from the new, uninitialised memory. -/
theorem C156_self_assign_refuted (k : Kind) :
    run (0 : ℤ) [.make 0 k 1, .write 0 0 5, .copyAssign 0 0] (State.init 0) = none := by
  cases k <;> decide +kernel

/-- Assigning to an array that has memory loses the memory: no variable has the first block, and it is not
freed when all variables end. -/
theorem C156_assign_leaks_refuted :
    ((run (0 : ℤ) [.make 0 .plain 1, .make 1 .plain 1, .copyAssign 0 1, .clear 0, .clear 1]
      (State.init 0)).map fun r => ((r.1.heap.block 0).freed, r.1.heap.next)) = some (false, 3) ∧
    ((run (0 : ℤ) [.make 0 .plain 1, .make 1 .plain 1, .moveAssign 0 1, .clear 0, .clear 1]
      (State.init 0)).map fun r => ((r.1.heap.block 0).freed, r.1.heap.next)) = some (false, 2) := by
  constructor <;> decide +kernel

/-- Moving an array to itself leaves it empty, and its memory is lost. -/
theorem C156_self_move_refuted :
    ((run (0 : ℤ) [.make 0 .plain 1, .moveAssign 0 0, .size 0, .clear 0] (State.init 0)).map fun r =>
      (r.2, (r.1.heap.block 0).freed)) = some ([.done, .done, .number 0, .done], false) := by
  decide +kernel

/-! ### A case that meets the hypotheses -/

/-- grow, shrink and grow again; copy and move; an array of large numbers within its capacity -/
def exampleProgram : List (Op ℤ) :=
  [.make 0 .plain 2, .write 0 1 7, .resize 0 4, .resize 0 1, .resize 0 2, .read 0 1, .copyNew 1 0,
   .write 1 0 3, .read 0 0, .read 1 0, .moveAssign 2 1, .read 1 0, .read 2 0, .read 2 2,
   .make 3 .managed 3, .write 3 2 9, .resize 3 1, .resize 3 3, .read 3 2, .get 3 3, .size 3]

instance (s : State V) (op : Op V) : Decidable (Allowed s op) := by
  cases op <;> unfold Allowed <;> infer_instance

instance (s : State V) (op : Op V) : Decidable (Tidy s op) := by
  cases op <;> unfold Tidy <;> infer_instance

/-- `Always`, by running the program -/
def checkAlways (P : State V → Op V → Prop) [∀ s op, Decidable (P s op)] (zero : V) :
    List (Op V) → State V → Bool
  | [], _ => true
  | op :: ops, s => decide (P s op) && match step zero s op with
    | none => true
    | some r => checkAlways P zero ops r.1

theorem always_of_check {P : State V → Op V → Prop} [∀ s op, Decidable (P s op)] {zero : V} :
    ∀ {ops : List (Op V)} {s : State V}, checkAlways P zero ops s = true → Always P zero ops s := by
  intro ops
  induction ops with
  | nil => intro s _; trivial
  | cons op ops ih =>
    intro s h
    simp only [checkAlways, Bool.and_eq_true, decide_eq_true_eq] at h
    refine ⟨h.1, fun s' o e => ih ?_⟩
    have := h.2
    rw [e] at this
    exact this

example : Always Allowed 0 exampleProgram (State.init 0) ∧ Always Tidy 0 exampleProgram (State.init 0) :=
  ⟨always_of_check (by decide +kernel), always_of_check (by decide +kernel)⟩

example : (run 0 exampleProgram (State.init 0)).map (·.2) = some
    [.done, .done, .done, .done, .done, .value 0, .done, .done, .value 0, .value 3, .done, .noType, .value 3,
     .badIndex, .done, .done, .done, .done, .value 0, .absent, .number 3] := by decide +kernel

end RoughPy.GenArr
