import Verif.Generics.OwnModel

/-!
# C151: values on the heap are independent, and each object is freed once
-/

namespace RoughPy.Generics.Own

/-! ## What values should be -/

/-- what a variable holds: nothing, or a number -/
abbrev Content := Option ℤ

/-- the variables of a program: each either does not exist or holds something -/
abbrev Vars := ℕ → Option Content

/-- What an action does to the variables; nothing if it is not part of a program: variables are used after
they are declared and before they go out of scope, and only numbers are written to. -/
def spec (σ : Vars) : Act → Option Vars
  | .declare a => if σ a = none then some (Function.update σ a (some none)) else none
  | .make a n => if σ a = none then some (Function.update σ a (some (some n))) else none
  | .copy a b => if σ a = none then (σ b).map fun c => Function.update σ a (some c) else none
  | .move a b =>
    if σ a = none then (σ b).map fun c => Function.update (Function.update σ a (some c)) b (some none) else none
  | .assign a b =>
    (σ a).bind fun _ => (σ b).map fun d => if d = none then σ else Function.update σ a (some d)
  | .moveAssign a b =>
    (σ a).bind fun c => (σ b).map fun d =>
      if a = b then σ
      else if d = none then σ
      else if c = none then Function.update (Function.update σ a (some d)) b (some none)
      else Function.update σ a (some d)
  | .write a n => (σ a).bind fun c => c.map fun _ => Function.update σ a (some (some n))
  | .drop a => (σ a).map fun _ => Function.update σ a none

/-- what a whole program does -/
def specRun (σ : Vars) : List Act → Option Vars
  | [] => some σ
  | c :: cs => (spec σ c).bind fun σ => specRun σ cs

/-- what the variables of a state hold -/
def HState.vars (s : HState) (a : ℕ) : Option Content :=
  (s.vals a).map fun v => if v.typed then s.read v else none

/-- every object belongs to a variable -/
def NoLeak (s : HState) : Prop := ∀ p, s.heap p ≠ none → ∃ a v, s.vals a = some v ∧ v.typed = true ∧ v.ptr = some p

/-! ## The invariant -/

/-- each variable with a type has an object of its own, those without have none, and there are no other
objects -/
structure Inv (s : HState) : Prop where
  typed : ∀ a v, s.vals a = some v → v.typed = true → ∃ p n, v.ptr = some p ∧ s.heap p = some n
  untyped : ∀ a v, s.vals a = some v → v.typed = false → v.ptr = none
  own : ∀ a b v w p, s.vals a = some v → s.vals b = some w → v.ptr = some p → w.ptr = some p → a = b
  leak : NoLeak s
  fresh : ∀ p, s.next ≤ p → s.heap p = none

theorem inv_init : Inv HState.init where
  typed := by intro a v h; cases h
  untyped := by intro a v h; cases h
  own := by intro a b v w p h; cases h
  leak := by intro p h; exact absurd rfl h
  fresh := fun _ _ => rfl

theorem Inv.lt {s : HState} (h : Inv s) {a : ℕ} {v : HVal} {p : ℕ} (hv : s.vals a = some v) (hp : v.ptr = some p) :
    p < s.next := by
  by_contra hc
  have h1 := h.fresh p (not_lt.1 hc)
  cases ht : v.typed with
  | true =>
    obtain ⟨p', n, h2, h3⟩ := h.typed a v hv ht
    rw [hp] at h2; cases h2
    rw [h1] at h3; cases h3
  | false =>
    have := h.untyped a v hv ht
    rw [hp] at this; cases this

theorem vars_none {s : HState} {a : ℕ} : s.vars a = none ↔ s.vals a = none := by
  unfold HState.vars; simp

theorem vars_some {s : HState} {a : ℕ} {c : Content} (h : s.vars a = some c) :
    ∃ v, s.vals a = some v ∧ c = if v.typed then s.read v else none := by
  unfold HState.vars at h
  cases hv : s.vals a with
  | none => rw [hv] at h; cases h
  | some v => rw [hv] at h; exact ⟨v, rfl, by simpa using h.symm⟩

theorem read_typed {s : HState} (hI : Inv s) {a : ℕ} {v : HVal} (hv : s.vals a = some v) (ht : v.typed = true) :
    ∃ n, s.read v = some n := by
  obtain ⟨p, n, h1, h2⟩ := hI.typed a v hv ht
  exact ⟨n, by simp [HState.read, h1, h2]⟩

/-- a new object for a variable that has none -/
theorem alloc_ok {s : HState} (hI : Inv s) (a : ℕ) (n : ℤ) (ha : ∀ v, s.vals a = some v → v.ptr = none) :
    Inv (s.alloc a n) ∧ (s.alloc a n).vars = Function.update s.vars a (some (some n)) := by
  have hvals : ∀ b, (s.alloc a n).vals b = if b = a then some ⟨true, some s.next⟩ else s.vals b := by
    intro b; simp [HState.alloc, HState.put, HState.store, Function.update_apply]
  have hheap : ∀ p, (s.alloc a n).heap p = if p = s.next then some n else s.heap p := by
    intro b; simp [HState.alloc, HState.put, HState.store, Function.update_apply]
  have hnext : (s.alloc a n).next = s.next + 1 := rfl
  refine ⟨⟨?_, ?_, ?_, ?_, ?_⟩, ?_⟩
  · intro b v hb ht
    rw [hvals] at hb
    split_ifs at hb with h
    · cases hb; exact ⟨s.next, n, rfl, by rw [hheap, if_pos rfl]⟩
    · obtain ⟨p, m, h1, h2⟩ := hI.typed b v hb ht
      refine ⟨p, m, h1, ?_⟩
      rw [hheap, if_neg (hI.lt hb h1).ne]; exact h2
  · intro b v hb ht
    rw [hvals] at hb
    split_ifs at hb with h
    · cases hb; cases ht
    · exact hI.untyped b v hb ht
  · intro b c v w p hb hc hp hq
    rw [hvals] at hb hc
    split_ifs at hb hc with h1 h2 h2
    · rw [h1, h2]
    · cases hb; cases hp
      exact absurd (hI.lt hc hq) (lt_irrefl _)
    · cases hc; cases hq
      exact absurd (hI.lt hb hp) (lt_irrefl _)
    · exact hI.own b c v w p hb hc hp hq
  · intro p hp
    rw [hheap] at hp
    split_ifs at hp with h
    · exact ⟨a, ⟨true, some s.next⟩, by rw [hvals, if_pos rfl], rfl, by rw [h]⟩
    · obtain ⟨b, v, h1, h2, h3⟩ := hI.leak p hp
      refine ⟨b, v, ?_, h2, h3⟩
      rw [hvals, if_neg]
      · exact h1
      · rintro rfl
        rw [ha v h1] at h3; cases h3
  · intro p hp
    rw [hnext] at hp
    rw [hheap, if_neg (by omega)]
    exact hI.fresh p (by omega)
  · funext b
    rw [Function.update_apply]
    unfold HState.vars
    rw [hvals]
    split_ifs with h
    · simp [HState.read, hheap]
    · cases hb : s.vals b with
      | none => rfl
      | some v =>
        simp only [Option.map_some]
        cases ht : v.typed with
        | false => rfl
        | true =>
          obtain ⟨p, m, h1, h2⟩ := hI.typed b v hb ht
          simp [HState.read, h1, hheap, (hI.lt hb h1).ne]

/-- another number in the object of a variable -/
theorem store_ok {s : HState} (hI : Inv s) {a p : ℕ} {v : HVal} (hv : s.vals a = some v) (ht : v.typed = true)
    (hp : v.ptr = some p) (n : ℤ) :
    Inv (s.store p (some n)) ∧ (s.store p (some n)).vars = Function.update s.vars a (some (some n)) := by
  have hheap : ∀ q, (s.store p (some n)).heap q = if q = p then some n else s.heap q := by
    intro b; simp [HState.store, Function.update_apply]
  have hvals : (s.store p (some n)).vals = s.vals := rfl
  refine ⟨⟨?_, ?_, ?_, ?_, ?_⟩, ?_⟩
  · intro b w hb hw
    obtain ⟨q, m, h1, h2⟩ := hI.typed b w hb hw
    by_cases hq : q = p
    · exact ⟨q, n, h1, by rw [hheap, if_pos hq]⟩
    · exact ⟨q, m, h1, by rw [hheap, if_neg hq]; exact h2⟩
  · exact hI.untyped
  · exact hI.own
  · intro q hq
    rw [hheap] at hq
    split_ifs at hq with h
    · exact ⟨a, v, hv, ht, by rw [h]; exact hp⟩
    · exact hI.leak q hq
  · intro q hq
    rw [hheap, if_neg]
    · exact hI.fresh q hq
    · have hlt := hI.lt hv hp
      have : s.next ≤ q := hq
      omega
  · funext b
    rw [Function.update_apply]
    unfold HState.vars
    rw [hvals]
    split_ifs with h
    · subst h
      simp [hv, ht, HState.read, hp, hheap]
    · cases hb : s.vals b with
      | none => rfl
      | some w =>
        simp only [Option.map_some]
        cases hw : w.typed with
        | false => rfl
        | true =>
          obtain ⟨q, m, h1, h2⟩ := hI.typed b w hb hw
          have hne : q ≠ p := fun hq => h (hI.own b a w v p hb hv (by rw [h1, hq]) hp)
          simp [HState.read, h1, hheap, hne]

/-- a variable without an object comes or goes -/
theorem put_ok {s : HState} (hI : Inv s) (a : ℕ) (ha : ∀ v, s.vals a = some v → v.ptr = none) (b : Bool) :
    Inv (s.put a (if b then some ⟨false, none⟩ else none)) ∧
      (s.put a (if b then some ⟨false, none⟩ else none)).vars =
        Function.update s.vars a (if b then some none else none) := by
  have hvals : ∀ c, (s.put a (if b then some ⟨false, none⟩ else none)).vals c =
      if c = a then (if b then some ⟨false, none⟩ else none) else s.vals c := by
    intro c; simp [HState.put, Function.update_apply]
  have key : ∀ c v, (s.put a (if b then some ⟨false, none⟩ else none)).vals c = some v →
      v = ⟨false, none⟩ ∨ s.vals c = some v := by
    intro c v hc
    rw [hvals] at hc
    split_ifs at hc
    · cases hc; exact .inl rfl
    · exact .inr hc
  refine ⟨⟨?_, ?_, ?_, ?_, hI.fresh⟩, ?_⟩
  · intro c v hc ht
    rcases key c v hc with rfl | h
    · cases ht
    · exact hI.typed c v h ht
  · intro c v hc ht
    rcases key c v hc with rfl | h
    · rfl
    · exact hI.untyped c v h ht
  · intro c d v w p hc hd hp hq
    rcases key c v hc with rfl | h
    · cases hp
    · rcases key d w hd with rfl | h'
      · cases hq
      · exact hI.own c d v w p h h' hp hq
  · intro p hp
    obtain ⟨c, v, h1, h2, h3⟩ := hI.leak p hp
    refine ⟨c, v, ?_, h2, h3⟩
    rw [hvals, if_neg]
    · exact h1
    · rintro rfl
      rw [ha v h1] at h3; cases h3
  · funext c
    rw [Function.update_apply]
    unfold HState.vars
    rw [hvals]
    by_cases hca : c = a
    · rw [if_pos hca, if_pos hca]; cases b <;> rfl
    · rw [if_neg hca, if_neg hca]; rfl

theorem ptr_of_none {s : HState} {a : ℕ} (h : s.vals a = none) : ∀ v, s.vals a = some v → v.ptr = none := by
  intro v hv; rw [h] at hv; cases hv

theorem put_self {s : HState} {a : ℕ} {v : HVal} (h : s.vals a = some v) : s.put a (some v) = s := by
  cases s
  simp only [HState.put, HState.mk.injEq, and_self, and_true]
  rw [← h, Function.update_eq_self]

/-- the object of a variable changes hands -/
theorem move_ok {s : HState} (hI : Inv s) {a b : ℕ} {w : HVal} (ha : s.vals a = none) (hb : s.vals b = some w) :
    Inv ((s.put a (some w)).put b (some ⟨false, none⟩)) ∧
      ((s.put a (some w)).put b (some ⟨false, none⟩)).vars =
        Function.update (Function.update s.vars a (s.vars b)) b (some none) := by
  have hab : a ≠ b := by rintro rfl; rw [ha] at hb; cases hb
  have hvals : ∀ c, ((s.put a (some w)).put b (some ⟨false, none⟩)).vals c =
      if c = b then some ⟨false, none⟩ else if c = a then some w else s.vals c := by
    intro c; simp [HState.put, Function.update_apply]
  -- the variable a value came from
  have key : ∀ c v, ((s.put a (some w)).put b (some ⟨false, none⟩)).vals c = some v →
      (c = b ∧ v = ⟨false, none⟩) ∨ (c = a ∧ v = w) ∨ (c ≠ a ∧ c ≠ b ∧ s.vals c = some v) := by
    intro c v hc
    rw [hvals] at hc
    split_ifs at hc with h1 h2
    · cases hc; exact .inl ⟨h1, rfl⟩
    · cases hc; exact .inr (.inl ⟨h2, rfl⟩)
    · exact .inr (.inr ⟨h2, h1, hc⟩)
  refine ⟨⟨?_, ?_, ?_, ?_, hI.fresh⟩, ?_⟩
  · intro c v hc ht
    rcases key c v hc with ⟨_, rfl⟩ | ⟨_, rfl⟩ | ⟨_, _, h⟩
    · cases ht
    · exact hI.typed b v hb ht
    · exact hI.typed c v h ht
  · intro c v hc ht
    rcases key c v hc with ⟨_, rfl⟩ | ⟨_, rfl⟩ | ⟨_, _, h⟩
    · rfl
    · exact hI.untyped b v hb ht
    · exact hI.untyped c v h ht
  · intro c d v u p hc hd hp hq
    rcases key c v hc with ⟨_, rfl⟩ | ⟨h1, rfl⟩ | ⟨_, h1, h⟩
    · cases hp
    · rcases key d u hd with ⟨_, rfl⟩ | ⟨h2, rfl⟩ | ⟨_, h2, h'⟩
      · cases hq
      · rw [h1, h2]
      · exact absurd (hI.own b d v u p hb h' hp hq).symm h2
    · rcases key d u hd with ⟨_, rfl⟩ | ⟨h2, rfl⟩ | ⟨_, h2, h'⟩
      · cases hq
      · exact absurd (hI.own c b v u p h hb hp hq) h1
      · exact hI.own c d v u p h h' hp hq
  · intro p hp
    obtain ⟨c, v, h1, h2, h3⟩ := hI.leak p hp
    by_cases hcb : c = b
    · subst hcb
      rw [hb] at h1; cases h1
      exact ⟨a, w, by rw [hvals, if_neg hab, if_pos rfl], h2, h3⟩
    · refine ⟨c, v, ?_, h2, h3⟩
      rw [hvals, if_neg hcb, if_neg]
      · exact h1
      · rintro rfl; rw [ha] at h1; cases h1
  · funext c
    rw [Function.update_apply, Function.update_apply]
    unfold HState.vars
    rw [hvals]
    split_ifs
    · rfl
    · rw [hb]; rfl
    · rfl

/-- the object of a variable is freed with it -/
theorem drop_ok {s : HState} (hI : Inv s) {a p : ℕ} {v : HVal} (hv : s.vals a = some v) (hp : v.ptr = some p) :
    Inv ((s.put a none).store p none) ∧ ((s.put a none).store p none).vars = Function.update s.vars a none := by
  have hvals : ∀ c, ((s.put a none).store p none).vals c = if c = a then none else s.vals c := by
    intro c; simp [HState.put, HState.store, Function.update_apply]
  have hheap : ∀ q, ((s.put a none).store p none).heap q = if q = p then none else s.heap q := by
    intro c; simp [HState.put, HState.store, Function.update_apply]
  have key : ∀ c u, ((s.put a none).store p none).vals c = some u → c ≠ a ∧ s.vals c = some u := by
    intro c u hc
    rw [hvals] at hc
    split_ifs at hc with h
    exact ⟨h, hc⟩
  refine ⟨⟨?_, ?_, ?_, ?_, ?_⟩, ?_⟩
  · intro c u hc ht
    obtain ⟨h0, h⟩ := key c u hc
    obtain ⟨q, n, h1, h2⟩ := hI.typed c u h ht
    refine ⟨q, n, h1, ?_⟩
    rw [hheap, if_neg]
    · exact h2
    · rintro rfl; exact h0 (hI.own c a u v q h hv h1 hp)
  · intro c u hc ht
    exact hI.untyped c u (key c u hc).2 ht
  · intro c d u w q hc hd h1 h2
    exact hI.own c d u w q (key c u hc).2 (key d w hd).2 h1 h2
  · intro q hq
    rw [hheap] at hq
    split_ifs at hq with h
    · exact absurd rfl hq
    · obtain ⟨c, u, h1, h2, h3⟩ := hI.leak q hq
      refine ⟨c, u, ?_, h2, h3⟩
      rw [hvals, if_neg]
      · exact h1
      · rintro rfl
        rw [hv] at h1; cases h1
        rw [hp] at h3; cases h3
        exact h rfl
  · intro q hq
    rw [hheap]
    split_ifs
    · rfl
    · exact hI.fresh q hq
  · funext c
    rw [Function.update_apply]
    unfold HState.vars
    rw [hvals]
    by_cases hca : c = a
    · rw [if_pos hca, if_pos hca]; rfl
    · rw [if_neg hca, if_neg hca]
      cases hc : s.vals c with
      | none => rfl
      | some u =>
        simp only [Option.map_some]
        cases hw : u.typed with
        | false => rfl
        | true =>
          obtain ⟨q, m, h1, h2⟩ := hI.typed c u hc hw
          have hne : q ≠ p := fun hq => hca (hI.own c a u v p hc hv (by rw [h1, hq]) hp)
          simp [HState.read, h1, hheap, hne]

theorem update_same {σ : Vars} {a : ℕ} {c : Option Content} (h : σ a = c) : Function.update σ a c = σ := by
  rw [← h, Function.update_eq_self]

/-- one action -/
theorem step_ok {s : HState} (hI : Inv s) {c : Act} (hc : ∀ a b, c ≠ .moveAssign a b) {σ : Vars}
    (h : spec s.vars c = some σ) : ∃ s', step s c = .ok s' ∧ Inv s' ∧ s'.vars = σ := by
  cases c with
  | declare a =>
    simp only [spec] at h
    split_ifs at h with ha
    cases h
    obtain ⟨h1, h2⟩ := put_ok hI a (ptr_of_none (vars_none.1 ha)) true
    exact ⟨_, rfl, h1, h2⟩
  | make a n =>
    simp only [spec] at h
    split_ifs at h with ha
    cases h
    obtain ⟨h1, h2⟩ := alloc_ok hI a n (ptr_of_none (vars_none.1 ha))
    exact ⟨_, rfl, h1, h2⟩
  | copy a b =>
    simp only [spec] at h
    split_ifs at h with ha
    have hp := ptr_of_none (vars_none.1 ha)
    cases hb : s.vars b with
    | none => rw [hb] at h; cases h
    | some d =>
      rw [hb] at h; cases h
      obtain ⟨w, hw, hd⟩ := vars_some hb
      cases ht : w.typed with
      | true =>
        obtain ⟨n, hn⟩ := read_typed hI hw ht
        obtain ⟨h1, h2⟩ := alloc_ok hI a n hp
        refine ⟨_, ?_, h1, ?_⟩
        · simp [step, act, hw, copyValue, ht, hn]
        · rw [h2, hd, ht, hn]; rfl
      | false =>
        obtain ⟨h1, h2⟩ := put_ok hI a hp true
        refine ⟨_, ?_, h1, ?_⟩
        · simp [step, act, hw, copyValue, ht]
        · rw [h2, hd, ht]; rfl
  | move a b =>
    simp only [spec] at h
    split_ifs at h with ha
    cases hb : s.vars b with
    | none => rw [hb] at h; cases h
    | some d =>
      rw [hb] at h; cases h
      obtain ⟨w, hw, hd⟩ := vars_some hb
      obtain ⟨h1, h2⟩ := move_ok hI (vars_none.1 ha) hw
      refine ⟨_, ?_, h1, ?_⟩
      · simp [step, act, hw]
      · rw [h2, hb]
  | assign a b =>
    simp only [spec] at h
    cases ha : s.vars a with
    | none => rw [ha] at h; cases h
    | some c =>
      cases hb : s.vars b with
      | none => rw [ha, hb] at h; cases h
      | some d =>
        rw [ha, hb] at h
        simp only [Option.bind_some, Option.map_some, Option.some.injEq] at h
        obtain ⟨v, hv, hc'⟩ := vars_some ha
        obtain ⟨w, hw, hd⟩ := vars_some hb
        by_cases hab : a = b
        · subst hab
          refine ⟨s, by simp [step, act, hv, assignValue], hI, ?_⟩
          split_ifs at h with h0
          · exact h
          · rw [← h, update_same hb]
        · cases ht : w.typed with
          | false =>
            rw [ht] at hd
            have h0 : d = none := by simpa using hd
            rw [if_pos h0] at h
            refine ⟨s, ?_, hI, h⟩
            cases hvt : v.typed <;> simp [step, act, hv, hw, assignValue, hab, ht, hvt]
          | true =>
            obtain ⟨n, hn⟩ := read_typed hI hw ht
            rw [ht, hn] at hd
            have h0 : d = some n := by simpa using hd
            rw [if_neg (by rw [h0]; simp), h0] at h
            cases hp : v.ptr with
            | none =>
              obtain ⟨h1, h2⟩ := alloc_ok hI a n (by intro u hu; rw [hv] at hu; cases hu; exact hp)
              refine ⟨_, ?_, h1, h2.trans h⟩
              simp [step, act, hv, hw, assignValue, hab, ht, hn, copyAssignValue, hp]
            | some p =>
              have hvt : v.typed = true := by
                by_contra hc2
                have := hI.untyped a v hv (by simpa using hc2)
                rw [hp] at this; cases this
              obtain ⟨q, m, h3, h4⟩ := hI.typed a v hv hvt
              rw [hp] at h3; cases h3
              obtain ⟨h1, h2⟩ := store_ok hI hv hvt hp n
              refine ⟨_, ?_, h1, h2.trans h⟩
              have hself : s.put a (some ⟨true, some p⟩) = s := put_self (by rw [hv, ← hvt, ← hp])
              simp [step, act, hv, hw, assignValue, hab, ht, hn, copyAssignValue, hp, h4, hself]
  | moveAssign a b => exact absurd rfl (hc a b)
  | write a n =>
    simp only [spec] at h
    cases ha : s.vars a with
    | none => rw [ha] at h; cases h
    | some c =>
      rw [ha] at h
      obtain ⟨v, hv, hc'⟩ := vars_some ha
      cases ht : v.typed with
      | false => rw [ht] at hc'; subst hc'; cases h
      | true =>
        obtain ⟨p, m, h3, h4⟩ := hI.typed a v hv ht
        have : c = some m := by rw [hc', ht]; simp [HState.read, h3, h4]
        subst this
        cases h
        obtain ⟨h1, h2⟩ := store_ok hI hv ht h3 n
        exact ⟨_, by simp [step, act, hv, writeValue, h3, h4], h1, h2⟩
  | drop a =>
    simp only [spec] at h
    cases ha : s.vars a with
    | none => rw [ha] at h; cases h
    | some c =>
      rw [ha] at h; cases h
      obtain ⟨v, hv, hc'⟩ := vars_some ha
      cases ht : v.typed with
      | false =>
        obtain ⟨h1, h2⟩ := put_ok hI a (by intro u hu; rw [hv] at hu; cases hu; exact hI.untyped a v hv ht) false
        exact ⟨_, by simp [step, act, hv, dropValue, ht], h1, h2⟩
      | true =>
        obtain ⟨p, m, h3, h4⟩ := hI.typed a v hv ht
        obtain ⟨h1, h2⟩ := drop_ok hI hv h3
        exact ⟨_, by simp [step, act, hv, dropValue, ht, h3, h4], h1, h2⟩

theorem run_ok : ∀ (cs : List Act) {s : HState}, Inv s → (∀ c ∈ cs, ∀ a b, c ≠ .moveAssign a b) → ∀ {σ : Vars},
    specRun s.vars cs = some σ → ∃ s', run s cs = .ok s' ∧ Inv s' ∧ s'.vars = σ
  | [], s, hI, _, σ, h => ⟨s, rfl, hI, by simpa [specRun] using h⟩
  | c :: cs, s, hI, hc, σ, h => by
    simp only [specRun] at h
    cases h1 : spec s.vars c with
    | none => rw [h1] at h; cases h
    | some τ =>
      rw [h1] at h
      obtain ⟨s1, a1, a2, a3⟩ := step_ok hI (hc c (by simp)) h1
      subst a3
      obtain ⟨s2, b1, b2, b3⟩ := run_ok cs a2 (fun c hcc => hc c (by simp [hcc])) h
      exact ⟨s2, by simp only [run, a1, Res.bind]; exact b1, b2, b3⟩

/-! ## C151 -/

/-- C151, the part that holds: in every program without move assignment the variables hold what they should
– no object is used after it was freed or freed twice, no write to one variable shows in another – and there
are no objects that belong to none.  (Missing: move assignment, see `C151_move_refuted`,
`C151_leak_refuted`, `C151_shared_refuted`.) -/
theorem C151_values_partial (cs : List Act) (hc : ∀ c ∈ cs, ∀ a b, c ≠ .moveAssign a b) (σ : Vars)
    (h : specRun (fun _ => none) cs = some σ) :
    ∃ s, run HState.init cs = .ok s ∧ s.vars = σ ∧ NoLeak s := by
  obtain ⟨s, h1, h2, h3⟩ := run_ok cs inv_init hc (σ := σ) h
  exact ⟨s, h1, h3, h2.leak⟩

/-- C151, the part that holds: when all variables are gone, so are all objects. -/
theorem C151_freed_partial (cs : List Act) (hc : ∀ c ∈ cs, ∀ a b, c ≠ .moveAssign a b)
    (h : specRun (fun _ => none) cs = some fun _ => none) :
    ∃ s, run HState.init cs = .ok s ∧ ∀ p, s.heap p = none := by
  obtain ⟨s, h1, h2, h3⟩ := C151_values_partial cs hc _ h
  refine ⟨s, h1, fun p => ?_⟩
  by_contra hp
  obtain ⟨a, v, h4, _⟩ := h3 p hp
  have : s.vars a = none := by rw [h2]
  rw [vars_none.1 this] at h4
  cases h4

/-- a program with each of the actions: the copy of a variable is not changed with it -/
example : ∃ s, run HState.init [.make 0 5, .copy 1 0, .write 0 6, .declare 2, .assign 2 1, .move 3 0,
    .assign 1 3] = .ok s ∧ s.vars 0 = some none ∧ s.vars 1 = some (some 6) ∧ s.vars 2 = some (some 5) ∧
    s.vars 3 = some (some 6) := by
  obtain ⟨s, h1, h2, _⟩ := C151_values_partial [.make 0 5, .copy 1 0, .write 0 6, .declare 2, .assign 2 1,
    .move 3 0, .assign 1 3] (by simp) _ rfl
  exact ⟨s, h1, by rw [h2]; rfl, by rw [h2]; rfl, by rw [h2]; rfl, by rw [h2]; rfl⟩

/-! ## The full claim is false -/

/-- C151 is false as stated: after a move assignment both variables have the same object, and it is freed
twice. -/
theorem C151_move_refuted (m n : ℤ) :
    (specRun (fun _ => none) [.make 0 m, .make 1 n, .moveAssign 0 1, .drop 0, .drop 1]).isSome = true ∧
      run HState.init [.make 0 m, .make 1 n, .moveAssign 0 1, .drop 0, .drop 1] = .undefined :=
  ⟨rfl, rfl⟩

/-- C151 is false as stated: the object that the variable had before is lost. -/
theorem C151_leak_refuted (m n : ℤ) :
    ∃ s, run HState.init [.make 0 m, .make 1 n, .moveAssign 0 1] = .ok s ∧ ¬ NoLeak s := by
  refine ⟨_, rfl, fun h => ?_⟩
  obtain ⟨a, v, h1, _, h3⟩ := h 0 (by simp [HState.alloc, HState.put, HState.store, HState.init])
  rcases a with _ | _ | a <;>
    simp [HState.alloc, HState.put, HState.store, HState.init, Function.update_apply] at h1 <;> subst h1 <;> simp at h3

/-- C151 is false as stated: a variable that was moved from keeps the pointer, and uses it again when it is
assigned a number; this number shows up in the other variable. -/
theorem C151_shared_refuted (m n : ℤ) :
    ∃ s, run HState.init [.make 0 m, .declare 1, .moveAssign 1 0, .make 2 n, .assign 0 2] = .ok s ∧
      s.vars 1 = some (some n) ∧
      (specRun (fun _ => none) [.make 0 m, .declare 1, .moveAssign 1 0, .make 2 n, .assign 0 2]).map (· 1) =
        some (some (some m)) :=
  ⟨_, rfl, rfl, rfl⟩

end RoughPy.Generics.Own
