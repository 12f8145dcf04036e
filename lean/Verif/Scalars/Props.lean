import Verif.Scalars.History

/-!
# C98, C99: the memory and the copies of scalars
-/

namespace RoughPy.Scalars

open RoughPy.Args (Out TypeInfo)
open RoughPy.Polys

/-! ## C98: ownership -/

/-- The program ends: every living scalar is destroyed, in any order. -/
def dropAll (P : FP) (s : St) (order : List ℕ) : Out St := run P s (order.map Stmt.drop)

/-- **C98.** Whatever a program does with scalars, if it gets anywhere then no two living scalars
own one object, no living scalar uses an object that has been freed, an owned object is freed with
the scalar type that made it, and no object is owned by nobody. -/
theorem C98_history {P : FP} {s s' : St} {cs : List Stmt} (hs : Initial s) (hc : ∀ c ∈ cs, c.Valid)
    (h : run P s cs = .ok s') : Good s' :=
  good_run cs (good_initial hs) hc h

theorem drop_ok {P : FP} {s : St} (g : Good s) {i : ℕ} {o : Obj} (hv : s.var i = some o) :
    ∃ h', step P s (.drop i) = .ok ⟨h', s.vars.set i none⟩ := by
  obtain ⟨h', h1, _⟩ := dtor_does (g.objs i o hv)
  refine ⟨h', ?_⟩
  simp only [step, withVar, hv, h1]
  rfl

theorem dropAll_ok {P : FP} : ∀ (order : List ℕ) {s : St}, Good s → order.Nodup →
    (∀ i ∈ order, (s.var i).isSome) →
    ∃ s', dropAll P s order = .ok s' ∧ Good s' ∧
      ∀ k, s'.var k = if k ∈ order then none else s.var k
  | [], s, g, _, _ => ⟨s, rfl, g, by simp⟩
  | i :: order, s, g, hn, hl => by
    obtain ⟨o, hv⟩ := Option.isSome_iff_exists.1 (hl i (by simp))
    obtain ⟨h', h1⟩ := drop_ok (P := P) g hv
    have g1 := good_step (c := .drop i) g trivial h1
    have hvar := var_set s.vars h' i none (var_lt hv)
    have hv' : ∀ k, St.var ⟨h', s.vars⟩ k = s.var k := fun _ => rfl
    simp only [hv'] at hvar
    obtain ⟨hni, hn'⟩ := List.nodup_cons.1 hn
    obtain ⟨s2, h2, g2, h3⟩ := dropAll_ok (P := P) order g1 hn' (fun k hk => by
      rw [hvar, if_neg (by rintro rfl; exact hni hk)]
      exact hl k (by simp [hk]))
    refine ⟨s2, ?_, g2, fun k => ?_⟩
    · unfold dropAll at h2 ⊢
      rw [List.map_cons, run, h1]
      exact h2
    · rw [h3, hvar]
      by_cases e : k = i
      · subst e; simp
      · simp [e]

/-- **C98.** At the end of a program that has got there, the scalars can be destroyed in every
order: nothing is freed twice or with the wrong type, and nothing is left. -/
theorem C98_end {P : FP} {s s' : St} {cs : List Stmt} (hs : Initial s) (hc : ∀ c ∈ cs, c.Valid)
    (h : run P s cs = .ok s') (order : List ℕ) (hn : order.Nodup)
    (ho : ∀ i, i ∈ order ↔ (s'.var i).isSome) :
    ∃ s'', dropAll P s' order = .ok s'' ∧ Clean s''.heap := by
  have g := C98_history hs hc h
  obtain ⟨s2, h2, g2, h3⟩ := dropAll_ok (P := P) order g hn (fun i hi => (ho i).1 hi)
  refine ⟨s2, h2, fun a c hcell => ?_⟩
  cases hco : c.owner with
  | none => rfl
  | some t =>
    obtain ⟨i, o, hv, _⟩ := g2.noLeak a c t hcell hco
    rw [h3] at hv
    by_cases e : i ∈ order
    · rw [if_pos e] at hv; cases hv
    · rw [if_neg e] at hv
      exact absurd ((ho i).2 (by rw [hv]; rfl)) e

/-- **C98.** Making, copying, moving and destroying scalars is defined in every state a program can
reach, whether or not the scalars are empty, zero, references or moved from. -/
theorem C98_defined {P : FP} {s : St} (g : Good s) {c : Stmt} (hc : c.Valid)
    (hk : c = .null ∨ (∃ v, c = .num v ∧ v.ty ≠ .poly) ∨ (∃ t, c = .typed t) ∨ (∃ t, c = .untyped t) ∨
      ∃ i, (s.var i).isSome ∧ (c = .copy i ∨ c = .move i ∨ c = .drop i)) :
    step P s c ≠ .ub := by
  rcases hk with rfl | ⟨v, rfl, hv⟩ | ⟨t, rfl⟩ | ⟨t, rfl⟩ | ⟨i, hi, rfl | rfl | rfl⟩
  · simp [step]
  · cases v with
    | poly p => exact absurd rfl hv
    | rat q => simp [step, ofVal, allocateData, readBack_rat, Out.map]
    | int b n => simp [step, ofVal, Out.map]
    | uint b n => simp [step, ofVal, Out.map]
    | f32 x => simp [step, ofVal, Out.map]
    | f64 x => simp [step, ofVal, Out.map]
  · simp [step]
  · simp [step]
  · obtain ⟨o, hv⟩ := Option.isSome_iff_exists.1 hi
    obtain ⟨ho, h1⟩ := copyCtor_ok P (g.objs i o hv)
    simp [step, withVar, hv, h1, Out.map]
  · obtain ⟨o, hv⟩ := Option.isSome_iff_exists.1 hi
    simp [step, withVar, hv]
  · obtain ⟨o, hv⟩ := Option.isSome_iff_exists.1 hi
    obtain ⟨h', h1⟩ := drop_ok (P := P) g hv
    rw [h1]; simp

/-- The statements that go wrong on scalars in order: assigning from an empty scalar to a zero,
adding to an empty scalar, negating one, making a scalar from a polynomial. -/
def badPrograms : List (List Stmt) :=
  [[.null, .num (.int 4 0), .assign 1 0],
   [.null, .num (.int 4 1), .arith .add 0 1],
   [.null, .neg 0],
   [.num (.poly [])]]

/-- Some floating arithmetic. -/
def exactFP : FP where
  rnd := fun _ q => .fin q
  ratTo := fun _ q => .fin q
  arith := fun _ op x y =>
    match x, y with
    | .fin a, .fin b => .fin (op.on a b)
    | _, _ => .nan
  div := fun _ x y =>
    match x, y with
    | .fin a, .fin b => if b = 0 then .nan else .fin (a / b)
    | _, _ => .nan

/-- **C98, refuted in full.** There are valid programs, without a reference, whose behaviour is
undefined. -/
theorem C98_undefined_refuted : ∀ cs ∈ badPrograms,
    (∀ c ∈ cs, c.Valid) ∧ run exactFP ⟨[], []⟩ cs = .ub := by
  intro cs hcs
  simp only [badPrograms, List.mem_cons, List.not_mem_nil, or_false] at hcs
  rcases hcs with rfl | rfl | rfl | rfl <;>
    exact ⟨by simp [Stmt.Valid, Ty.Real, Val.ty], by decide +kernel⟩

/-! ## C99: copies -/

/-- **C99.** A copy of a scalar can always be made; it holds what the original holds, has its own
memory, and is not a reference. -/
theorem C99_copy {P : FP} {s : St} (g : Good s) {i : ℕ} {t : Ty} {v : Val} (h : Holds s i t v) :
    ∃ s', step P s (.copy i) = .ok s' ∧ Good s' ∧
      Holds s' s.vars.length t v ∧ ¬ IsRef s' s.vars.length := by
  obtain ⟨o, hv, h1, h2⟩ := h
  obtain ⟨ho, hc, _, hh⟩ := copyCtor_has P (g.objs i o hv)
  have hs : step P s (.copy i) = .ok (s.push ho) := by
    simp only [step, withVar, hv, hc]; rfl
  have hvar : (s.push ho).var s.vars.length = some ho.2 := by rw [var_push, if_pos rfl]
  obtain ⟨h3, h4, h5⟩ := hh t v ⟨h1, h2⟩
  refine ⟨_, hs, good_step (c := .copy i) g trivial hs, ⟨ho.2, hvar, h3⟩, ?_⟩
  rintro ⟨p, hp, hm⟩
  rw [hvar] at hp; cases hp
  rcases hm with hm | hm
  · exact h4 hm
  · exact h5 hm

/-- **C99.** A statement changes the scalars it writes to, and nothing of any other scalar that is
not a reference. -/
theorem C99_independent {P : FP} {s s' : St} (g : Good s) {c : Stmt} (hc : c.Valid)
    (h : step P s c = .ok s') {k : ℕ} (hk : k ∉ c.target) (hr : ¬ IsRef s k) {t : Ty} {v : Val}
    (hv : Holds s k t v) : Holds s' k t v ∧ ¬ IsRef s' k := by
  obtain ⟨o, hvar, hh⟩ := hv
  obtain ⟨h1, own, own', f, hd⟩ := step_others g hc h hvar hk
  have hm : o.mode ≠ .ref ∧ o.mode ≠ .constRef :=
    ⟨fun e => hr ⟨o, hvar, .inl e⟩, fun e => hr ⟨o, hvar, .inr e⟩⟩
  refine ⟨⟨o, h1, Obj.Has.frame (g.objs k o hvar) hm f hd hh⟩, ?_⟩
  rintro ⟨p, hp, hx⟩
  rw [h1] at hp; cases hp
  rcases hx with hx | hx
  · exact hm.1 hx
  · exact hm.2 hx

/-- **C99.** A copy keeps its value through every program that does not write to it. -/
theorem C99_history {P : FP} : ∀ (cs : List Stmt) {s s' : St}, Good s → (∀ c ∈ cs, c.Valid) →
    run P s cs = .ok s' → ∀ {k : ℕ}, (∀ c ∈ cs, k ∉ c.target) → ¬ IsRef s k → ∀ {t : Ty} {v : Val},
    Holds s k t v → Holds s' k t v
  | [], s, s', _, _, h, k, _, _, t, v, hv => by cases h; exact hv
  | c :: cs, s, s', g, hc, h, k, hk, hr, t, v, hv => by
    rw [run] at h
    have hcs : ∀ d ∈ cs, d.Valid := fun d hd => hc d (by simp [hd])
    have hks : ∀ d ∈ cs, k ∉ d.target := fun d hd => hk d (by simp [hd])
    cases hs : step P s c with
    | ok s1 =>
      simp only [hs] at h
      obtain ⟨h1, h2⟩ := C99_independent g (hc c (by simp)) hs (hk c (by simp)) hr hv
      exact C99_history cs (good_step g (hc c (by simp)) hs) hcs h hks h2 h1
    | err =>
      simp only [hs] at h
      exact C99_history cs g hcs h hks hr hv
    | ub => simp only [hs] at h; cases h

/-- **C99.** Moving from a scalar into a new one keeps the value, and the old scalar can still be
destroyed or assigned to. -/
theorem C99_move {P : FP} {s : St} (g : Good s) {i : ℕ} {t : Ty} {v : Val} (h : Holds s i t v) :
    ∃ s', step P s (.move i) = .ok s' ∧ Good s' ∧ Holds s' s.vars.length t v := by
  obtain ⟨o, hv, hh⟩ := h
  have hs : step P s (.move i) =
      .ok ((s.put i (s.heap, (moveCtor o).2)).push (s.heap, (moveCtor o).1)) := by
    simp only [step, withVar, hv]
  refine ⟨_, hs, ?_, o, ?_, ?_⟩
  · exact good_step (P := P) (c := .move i) g trivial hs
  · rw [var_push, moveCtor_fst]; simp [St.put]
  · exact hh

/-- The program `x = Scalar(1.5); p = Scalar(Rational); p = 2; y = p; p += x`. -/
def copyProgram : List Stmt :=
  [.num (.f64 (.fin (3 / 2))), .typed .rat, .set 1 (.int 4 2), .copy 1, .arith .add 1 0]

example : (∀ c ∈ copyProgram, c.Valid) ∧
    ∃ s', run exactFP ⟨[], []⟩ copyProgram = .ok s' ∧ Holds s' 0 .f64 (.f64 (.fin (3 / 2))) ∧
      Holds s' 1 .rat (.rat (7 / 2)) ∧ Holds s' 2 .rat (.rat 2) := by
  refine ⟨by simp [copyProgram, Stmt.Valid, Ty.Real, Val.ty, Ty.IsScalarType], ?_⟩
  have h : run exactFP ⟨[], []⟩ copyProgram =
      .ok ⟨[some ⟨.rat (7 / 2), some .rat⟩, some ⟨.rat 2, some .rat⟩, none],
        [some ⟨.info .f64, .trivial, .f64 (.fin (3 / 2)), none⟩,
         some ⟨.ptr .rat, .owned, .rat 0, some 0⟩, some ⟨.ptr .rat, .owned, .rat 0, some 1⟩]⟩ := by
    decide +kernel
  refine ⟨_, h, ⟨_, rfl, ?_, ?_⟩, ⟨_, rfl, ?_, ?_⟩, ⟨_, rfl, ?_, ?_⟩⟩ <;> decide +kernel

end RoughPy.Scalars
