import Verif.GenArr.Steps

/-! # The invariant of all variables -/

namespace RoughPy.GenArr

variable {V : Type}

/-- every variable holds its value, in memory of its own -/
structure Inv (s : State V) (w : Values V) : Prop where
  rep : ∀ x, Rep s.heap (s.vars x) (w x)
  apart : ∀ x y b, (s.vars x).data = some b → (s.vars y).data = some b → x = y

/-- no memory is lost -/
structure Kept (s : State V) : Prop where
  lost : s.heap.lost = 0
  owned : ∀ b, b < s.heap.next → (s.heap.block b).freed = false → ∃ x, (s.vars x).data = some b

theorem Inv.set {s : State V} {w : Values V} (I : Inv s w) {x : ℕ} {h' : Heap V} {a' : Arr}
    {v : Option (Kind × List V)} (u : Upd s.heap h' (s.vars x) a' v) :
    Inv (s.set x (h', a')) (Function.update w x v) := by
  have hother : ∀ y, y ≠ x → (s.set x (h', a')).vars y = s.vars y := fun y hy =>
    Function.update_of_ne hy _ _
  have hx : (s.set x (h', a')).vars x = a' := Function.update_self _ _ _
  have hne : ∀ y b, y ≠ x → (s.vars y).data = some b → a'.data ≠ some b := by
    intro y b hy hb e
    rcases u.data b e with h1 | h1
    · exact hy (I.apart y x b hb h1)
    · have := (I.rep y).data_lt hb
      omega
  refine ⟨fun y => ?_, fun y z b hy hz => ?_⟩
  · by_cases e : y = x
    · subst e; rw [hx, Function.update_self]; exact u.rep
    · rw [hother y e, Function.update_of_ne e]
      exact (I.rep y).mono u.same fun b hb hd => e (I.apart y x b hb hd.symm)
  · by_cases ey : y = x
    · by_cases ez : z = x
      · rw [ey, ez]
      · subst ey
        rw [hx] at hy; rw [hother z ez] at hz
        exact absurd hy (hne z b ez hz)
    · rw [hother y ey] at hy
      by_cases ez : z = x
      · subst ez
        rw [hx] at hz
        exact absurd hz (hne y b ey hy)
      · rw [hother z ez] at hz
        exact I.apart y z b hy hz

theorem Kept.set {s : State V} (K : Kept s) {x : ℕ} {h' : Heap V} {a' : Arr}
    {v : Option (Kind × List V)} (u : Upd s.heap h' (s.vars x) a' v) (A : Acc s.heap h' (s.vars x) a') :
    Kept (s.set x (h', a')) := by
  refine ⟨u.lost.trans K.lost, fun b hb hf => ?_⟩
  rcases A b hb hf with h1 | ⟨h1, h2, h3⟩
  · exact ⟨x, by simpa [State.set] using h1⟩
  · obtain ⟨y, hy⟩ := K.owned b h1 h2
    have e : y ≠ x := by rintro rfl; exact h3 hy
    exact ⟨y, by simpa [State.set, e] using hy⟩

theorem Acc.over {h h' : Heap V} {a a' : Arr} (A : Acc h h' .empty a') (ha : a.data = none) : Acc h h' a a' := by
  intro b hb hf
  rcases A b hb hf with h1 | ⟨h1, h2, -⟩
  · exact Or.inl h1
  · exact Or.inr ⟨h1, h2, by rw [ha]; simp⟩

theorem Inv.move {s : State V} {w : Values V} (I : Inv s w) {x y : ℕ} (hxy : x ≠ y) :
    Inv (s.moveMembers x y) (Function.update (Function.update w x (w y)) y none) := by
  have hy : (s.moveMembers x y).vars y = Arr.empty := by
    simp [State.moveMembers, hxy, Arr.empty]
  have hx : (s.moveMembers x y).vars x = s.vars y := by
    simp [State.moveMembers, hxy]
  have ho : ∀ z, z ≠ x → z ≠ y → (s.moveMembers x y).vars z = s.vars z := by
    intro z h1 h2; simp [State.moveMembers, h1, h2]
  -- where the data of a variable was before
  have key : ∀ z b, ((s.moveMembers x y).vars z).data = some b →
      (z = x ∧ (s.vars y).data = some b) ∨ (z ≠ x ∧ z ≠ y ∧ (s.vars z).data = some b) := by
    intro z b hb
    by_cases e1 : z = y
    · subst e1; rw [hy] at hb; simp [Arr.empty] at hb
    · by_cases e2 : z = x
      · subst e2; rw [hx] at hb; exact Or.inl ⟨rfl, hb⟩
      · rw [ho z e2 e1] at hb; exact Or.inr ⟨e2, e1, hb⟩
  refine ⟨fun z => ?_, fun z z' b h1 h2 => ?_⟩
  · by_cases e1 : z = y
    · subst e1; rw [hy, Function.update_self]; rfl
    · rw [Function.update_of_ne e1]
      by_cases e2 : z = x
      · subst e2; rw [hx, Function.update_self]; exact I.rep y
      · rw [ho z e2 e1, Function.update_of_ne e2]; exact I.rep z
  · rcases key z b h1 with ⟨ez, d1⟩ | ⟨ez, ez', d1⟩ <;> rcases key z' b h2 with ⟨fz, d2⟩ | ⟨fz, fz', d2⟩
    · rw [ez, fz]
    · exact absurd (I.apart y z' b d1 d2).symm fz'
    · exact absurd (I.apart z y b d1 d2) ez'
    · exact I.apart z z' b d1 d2

theorem Kept.move {s : State V} (K : Kept s) {x y : ℕ} (hxy : x ≠ y) (hx : (s.vars x).data = none) :
    Kept (s.moveMembers x y) := by
  refine ⟨K.lost, fun b hb hf => ?_⟩
  obtain ⟨z, hz⟩ := K.owned b hb hf
  by_cases e1 : z = y
  · subst e1; exact ⟨x, by simp [State.moveMembers, hxy, hz]⟩
  · have e2 : z ≠ x := by rintro rfl; rw [hx] at hz; cases hz
    exact ⟨z, by simp [State.moveMembers, e1, e2, hz]⟩

theorem element_eq {s : State V} {w : Values V} (I : Inv s w) {x i : ℕ} {k : Kind} {l : List V}
    (hw : w x = some (k, l)) (hi : i < l.length) :
    ∃ b, (s.vars x).data = some b ∧ s.element x i = some l[i] := by
  have t : Typed s.heap (s.vars x) k l := by have := I.rep x; rwa [hw] at this
  have hs := t.size_eq
  have hle := t.size_le
  cases hd : (s.vars x).data with
  | none => have := t.noData hd; omega
  | some b =>
    refine ⟨b, rfl, ?_⟩
    unfold State.element
    rw [hd]
    exact read_holds (t.below b hd) (t.holds b hd) (by omega) hi

theorem set_heap {s : State V} {x : ℕ} (h : Heap V) : s.set x (h, s.vars x) = ⟨h, s.vars⟩ := by
  simp [State.set]

/-- one step -/
theorem step_sim (zero : V) {s : State V} {w : Values V} (I : Inv s w) {op : Op V} (ha : Allowed s op) :
    ∃ s', step zero s op = some (s', (specStep zero w op).2) ∧ Inv s' (specStep zero w op).1 ∧
      (Kept s → Tidy s op → Kept s') := by
  have hnone : ∀ {x}, w x = none → (s.vars x).type = none ∧ (s.vars x).size = 0 := by
    intro x e
    have := I.rep x
    rw [e] at this
    rw [show s.vars x = Arr.empty from this]
    exact ⟨rfl, rfl⟩
  have htyped : ∀ {x k l}, w x = some (k, l) → Typed s.heap (s.vars x) k l := by
    intro x k l e
    have := I.rep x
    rwa [e] at this
  -- the value of a variable that has a type
  have hval : ∀ {x}, (s.vars x).type ≠ none → ∃ k l, w x = some (k, l) := by
    intro x e
    cases hw : w x with
    | none => exact absurd (hnone hw).1 e
    | some p => exact ⟨p.1, p.2, rfl⟩
  cases op with
  | clear x =>
    obtain ⟨h', e, u, A⟩ := destroy_eq (I.rep x)
    exact ⟨_, by simp only [step, e]; rfl, I.set u, fun K _ => K.set u A⟩
  | make x k n =>
    obtain ⟨h1, e1, u1, A1⟩ := destroy_eq (I.rep x)
    obtain ⟨h2, a2, e2, u2, A2⟩ := make_eq zero h1 k n
    refine ⟨_, by simp only [step, e1, Option.bind_some, e2]; rfl, I.set (u1.trans u2),
      fun K _ => K.set (u1.trans u2) (A1.trans A2)⟩
  | copyNew x y =>
    obtain ⟨hxy, hy⟩ := ha
    obtain ⟨k, l, hw⟩ := hval hy
    obtain ⟨h1, e1, u1, A1⟩ := destroy_eq (I.rep x)
    have I1 := I.set u1
    have t1 : Typed h1 (s.vars y) k l := by
      have := I1.rep y
      rw [Function.update_of_ne (Ne.symm hxy), hw] at this
      have e : (s.set x (h1, Arr.empty)).vars y = s.vars y := Function.update_of_ne (Ne.symm hxy) _ _
      rw [e] at this
      exact this
    obtain ⟨h2, a2, e2, u2, A2⟩ := copyFrom_eq zero t1
    have hspec : specStep zero w (.copyNew x y) = (Function.update w x (some (k, l)), .done) := by
      simp [specStep, hw]
    rw [hspec]
    exact ⟨_, by simp only [step, e1, Option.bind_some, e2]; rfl, I.set (u1.trans u2),
      fun K _ => K.set (u1.trans u2) (A1.trans A2)⟩
  | copyAssign x y =>
    obtain ⟨hxy, hy⟩ := ha
    obtain ⟨k, l, hw⟩ := hval hy
    obtain ⟨h2, a2, e2, u2, A2⟩ := copyFrom_eq zero (htyped hw)
    have hspec : specStep zero w (.copyAssign x y) = (Function.update w x (some (k, l)), .done) := by
      simp [specStep, hw]
    rw [hspec]
    refine ⟨_, by simp only [step, hxy, decide_false, e2]; rfl, I.set (u2.over _), fun K ht => ?_⟩
    exact K.set (u2.over _) (A2.over ht)
  | moveNew x y =>
    have hxy : x ≠ y := ha
    obtain ⟨h1, e1, u1, A1⟩ := destroy_eq (I.rep x)
    have I1 := I.set u1
    have hst : State.moveMembers ⟨h1, s.vars⟩ x y = (s.set x (h1, Arr.empty)).moveMembers x y := by
      simp [State.moveMembers, State.set, Ne.symm hxy]
    refine ⟨_, by simp only [step, e1]; rfl, ?_, fun K _ => ?_⟩
    · rw [hst]
      have := I1.move hxy
      rw [Function.update_of_ne (Ne.symm hxy), Function.update_idem] at this
      exact this
    · rw [hst]
      exact (K.set u1 A1).move hxy (by simp [State.set, Arr.empty])
  | moveAssign x y => exact ⟨_, rfl, I.move ha, fun K ht => K.move ha ht⟩
  | resize x n =>
    cases hw : w x with
    | none =>
      refine ⟨s, by simp only [step, (hnone hw).1, specStep, hw], by simpa only [specStep, hw] using I,
        fun K _ => K⟩
    | some p =>
      obtain ⟨k, l⟩ := p
      have t := htyped hw
      obtain ⟨h', a', e, u, A, -⟩ := resize_eq zero t n (fun hk => ha (by rw [t.type_eq, hk]))
      exact ⟨_, by simp only [step, t.type_eq, e, specStep, hw]; rfl,
        by simpa only [specStep, hw] using I.set u, fun K _ => K.set u A⟩
  | reserve x n =>
    cases hw : w x with
    | none =>
      refine ⟨s, by simp only [step, (hnone hw).1, specStep, hw], by simpa only [specStep, hw] using I,
        fun K _ => K⟩
    | some p =>
      obtain ⟨k, l⟩ := p
      have t := htyped hw
      obtain ⟨h', a', e, u, A, -⟩ := reserve_eq zero t n (fun hk => ha (by rw [t.type_eq, hk]))
      have := I.set u
      rw [← hw, Function.update_eq_self] at this
      exact ⟨_, by simp only [step, t.type_eq, e, specStep, hw]; rfl,
        by simpa only [specStep, hw] using this, fun K _ => K.set u A⟩
  | write x i v =>
    cases hw : w x with
    | none =>
      refine ⟨s, by simp only [step, State.at, (hnone hw).1, specStep, hw],
        by simpa only [specStep, hw] using I, fun K _ => K⟩
    | some p =>
      obtain ⟨k, l⟩ := p
      have t := htyped hw
      have hs := t.size_eq
      by_cases hi : i < l.length
      · obtain ⟨b, hd, -⟩ := element_eq I hw hi
        have H := t.holds b hd
        have hle := t.size_le
        have hb := t.below b hd
        have hput := put_eq (h := s.heap) (k := k) (u := false) (v := v) hb H.inUse
          (by rw [H.cap_eq]; omega) (Or.inr (Or.inr ⟨rfl, _, H.elements i hi⟩))
        have u : Upd s.heap (s.heap.withBlock b ((s.heap.block b).filled i (fun _ => v) 0 1)) (s.vars x)
            (s.vars x) (some (k, l.set i v)) := by
          refine ⟨⟨t.type_eq, by rw [List.length_set]; exact hs, hle, t.noData, t.below, fun c hc => ?_⟩,
            hd ▸ same_withBlock _ _ _, rfl, fun c hc => Or.inl hc⟩
          have hcb : b = c := by rw [hd] at hc; exact Option.some.inj hc
          subst hcb
          rw [withBlock_block]
          refine ⟨H.cap_eq, H.kind_eq, H.inUse, fun j hj => ?_, fun hm j h1 h2 => ?_⟩
          · rw [List.length_set] at hj
            show (if _ then _ else _) = _
            by_cases e : j = i
            · subst e; rw [if_pos (by omega)]; simp
            · rw [if_neg (by omega), H.elements j hj]
              simp [List.getElem_set, Ne.symm e]
          · rw [List.length_set] at h1
            show (if _ then _ else _) = _
            rw [if_neg (by omega)]
            exact H.rest hm j h1 h2
        have A : Acc s.heap (s.heap.withBlock b ((s.heap.block b).filled i (fun _ => v) 0 1)) (s.vars x)
            (s.vars x) := by
          intro c hc hf
          by_cases e : c = b
          · subst e; exact Or.inl hd
          · rw [withBlock_ne _ _ e] at hf
            exact Or.inr ⟨hc, hf, by rw [hd]; simp; omega⟩
        have I' := I.set u
        rw [set_heap] at I'
        refine ⟨_, ?_, ?_, fun K _ => set_heap (s := s) (x := x) _ ▸ K.set u A⟩
        · simp only [step, State.at, t.type_eq]
          rw [if_neg (by omega), hd, Option.bind_some, hput]
          simp only [specStep, hw, hi, if_true]
          rfl
        · simpa only [specStep, hw, hi, if_true] using I'
      · refine ⟨s, ?_, ?_, fun K _ => K⟩
        · simp only [step, State.at, t.type_eq]
          rw [if_pos (by omega)]
          simp only [specStep, hw, hi, if_false]
        · simpa only [specStep, hw, hi, if_false] using I
  | read x i =>
    cases hw : w x with
    | none =>
      refine ⟨s, by simp only [step, State.at, (hnone hw).1, specStep, hw],
        by simpa only [specStep, hw] using I, fun K _ => K⟩
    | some p =>
      obtain ⟨k, l⟩ := p
      have t := htyped hw
      have hs := t.size_eq
      refine ⟨s, ?_, by simpa only [specStep, hw] using I, fun K _ => K⟩
      simp only [step, State.at, t.type_eq, specStep, hw]
      by_cases hi : i < l.length
      · obtain ⟨b, -, e⟩ := element_eq I hw hi
        rw [if_neg (by omega), e, List.getElem?_eq_getElem hi]
        rfl
      · rw [if_pos (by omega), List.getElem?_eq_none (by omega)]
        rfl
  | get x i =>
    cases hw : w x with
    | none =>
      refine ⟨s, by simp [step, (hnone hw).1, specStep, hw],
        by simpa only [specStep, hw] using I, fun K _ => K⟩
    | some p =>
      obtain ⟨k, l⟩ := p
      have t := htyped hw
      have hs := t.size_eq
      refine ⟨s, ?_, by simpa only [specStep, hw] using I, fun K _ => K⟩
      simp only [step, t.type_eq, specStep, hw]
      by_cases hi : i < l.length
      · obtain ⟨b, -, e⟩ := element_eq I hw hi
        rw [if_pos ⟨rfl, by omega⟩, e, List.getElem?_eq_getElem hi]
        rfl
      · rw [if_neg (by omega), List.getElem?_eq_none (by omega)]
        rfl
  | size x =>
    refine ⟨s, ?_, I, fun K _ => K⟩
    simp only [step, specStep]
    cases hw : w x with
    | none => rw [(hnone hw).2]; rfl
    | some p => rw [(htyped (k := p.1) (l := p.2) hw).size_eq]; rfl

theorem init_inv (zero : V) : Inv (State.init zero) (fun _ => none) :=
  ⟨fun _ => rfl, fun x y b h => by simp [State.init, Arr.empty] at h⟩

theorem init_kept (zero : V) : Kept (State.init zero) := ⟨rfl, fun b hb => by simp [State.init] at hb⟩

theorem run_sim (zero : V) : ∀ (ops : List (Op V)) {s : State V} {w : Values V}, Inv s w →
    Always Allowed zero ops s →
    ∃ s', run zero ops s = some (s', (specRun zero ops w).2) ∧ Inv s' (specRun zero ops w).1 ∧
      (Kept s → Always Tidy zero ops s → Kept s') := by
  intro ops
  induction ops with
  | nil => intro s w I _; exact ⟨s, rfl, I, fun K _ => K⟩
  | cons op ops ih =>
    intro s w I ha
    obtain ⟨s1, e1, I1, K1⟩ := step_sim zero I ha.1
    obtain ⟨s2, e2, I2, K2⟩ := ih I1 (ha.2 _ _ e1)
    refine ⟨s2, ?_, I2, fun K ht => K2 (K1 K ht.1) (ht.2 _ _ e1)⟩
    simp only [run, e1, Option.bind_some, e2]
    rfl

end RoughPy.GenArr
