import Verif.Poly.Lemmas

/-! # Reference counts of augmented assignments -/

namespace RoughPy.Polys

/-! ## Specification -/

/-- The reference counts are right: an object is alive exactly if some variable refers to it, and
its count is the number of those variables. -/
def Store.Exact (st : Store) : Prop :=
  ∀ a, (∀ o, st.obj a = some o → o.rc = st.vars.count a ∧ a ∈ st.vars) ∧
    (a ∈ st.vars → ∃ o, st.obj a = some o)

/-! ## Helper lemmas -/

namespace Store

/-- an indicator -/
def ind (a c : ℕ) : ℤ := if c = a then 1 else 0

theorem ind_self (a : ℕ) : ind a a = 1 := if_pos rfl

theorem ind_nonneg (a c : ℕ) : 0 ≤ ind a c := by unfold ind; split <;> omega

/-- the counts are given by a function, and objects are alive if theirs is not zero -/
def Counts (st : Store) (f : ℕ → ℤ) : Prop :=
  ∀ a, (∀ o, st.obj a = some o → o.rc = f a ∧ 0 < f a) ∧ (st.obj a = none → f a = 0)

theorem Counts.congr {st : Store} {f g : ℕ → ℤ} (h : Counts st f) (e : ∀ c, f c = g c) :
    Counts st g := by
  intro a; rw [← e a]; exact h a

theorem obj_set (st : Store) (a c : ℕ) (v : Option Obj) (h : ∃ o, st.obj a = some o)
    (vars : List ℕ) :
    obj ⟨st.objs.set a v, vars⟩ c = if c = a then v else st.obj c := by
  obtain ⟨o, ho⟩ := h
  have hlt : a < st.objs.length := by
    by_contra hge
    rw [obj, List.getElem?_eq_none (by omega)] at ho
    cases ho
  unfold obj
  dsimp only
  rw [List.getElem?_set]
  by_cases hc : a = c
  · subst hc
    rw [if_pos rfl, if_pos hlt, if_pos rfl]
    cases v <;> rfl
  · rw [if_neg hc, if_neg (Ne.symm hc)]

theorem Counts.alive {st : Store} {f : ℕ → ℤ} (h : Counts st f) {a : ℕ} (ha : 0 < f a) :
    ∃ o, st.obj a = some o := by
  cases ho : st.obj a with
  | none => have := (h a).2 ho; omega
  | some o => exact ⟨o, rfl⟩

theorem addRef_spec {st : Store} {f : ℕ → ℤ} (h : Counts st f) {a : ℕ} (d : ℤ) (ha : 0 < f a)
    (hd : 0 ≤ f a + d) :
    ∃ st', st.addRef a d = some st' ∧ st'.vars = st.vars ∧ Counts st' (fun c => f c + d * ind a c) := by
  obtain ⟨o, ho⟩ := h.alive ha
  have hrc := ((h a).1 o ho).1
  refine ⟨{ st with objs := st.objs.set a (if o.rc + d ≤ 0 then none else some ⟨o.val, o.rc + d⟩) },
    by rw [addRef, ho], rfl, ?_⟩
  intro c
  rw [obj_set st a c _ ⟨o, ho⟩]
  dsimp only
  unfold ind
  by_cases hc : c = a
  · subst hc
    rw [if_pos rfl, if_pos rfl, mul_one, hrc]
    constructor
    · intro o' ho'
      split_ifs at ho' with h0
      obtain rfl := Option.some.inj ho'
      exact ⟨rfl, by omega⟩
    · intro hn
      split_ifs at hn with h0
      omega
  · rw [if_neg hc, if_neg hc, mul_zero, add_zero]
    exact h c

theorem addRef_other {st st' : Store} {a c : ℕ} {d : ℤ} (h : st.addRef a d = some st')
    (hc : c ≠ a) : st'.obj c = st.obj c := by
  rw [addRef] at h
  cases ho : st.obj a with
  | none => rw [ho] at h; cases h
  | some o =>
    rw [ho] at h
    obtain rfl := Option.some.inj h
    rw [obj_set st a c _ ⟨o, ho⟩, if_neg hc]

theorem finish_other {st st' : Store} {x a b r c : ℕ} (h : st.finish x a b r = .next st')
    (ha : c ≠ a) (hb : c ≠ b) : st'.obj c = st.obj c := by
  unfold finish dropOperands at h
  cases h1 : st.addRef a (-1) with
  | none => rw [h1] at h; cases h
  | some s1 =>
    rw [h1] at h
    dsimp only at h
    cases h2 : s1.addRef b (-1) with
    | none => rw [h2] at h; cases h
    | some s2 =>
      rw [h2] at h
      dsimp only at h
      cases h3 : ({ s2 with vars := s2.vars.set x r } : Store).addRef a (-1) with
      | none => rw [h3] at h; cases h
      | some s3 =>
        rw [h3] at h
        obtain rfl := Step.next.inj h
        rw [addRef_other h3 ha, ← addRef_other h1 ha, ← addRef_other h2 hb]
        rfl

theorem setVal_spec {st : Store} {f : ℕ → ℤ} (h : Counts st f) {a : ℕ} (v : PyVal) (ha : 0 < f a) :
    ∃ st', st.setVal a v = some st' ∧ st'.vars = st.vars ∧ Counts st' f := by
  obtain ⟨o, ho⟩ := h.alive ha
  refine ⟨{ st with objs := st.objs.set a (some ⟨v, o.rc⟩) }, by rw [setVal, ho], rfl, ?_⟩
  intro c
  rw [obj_set st a c _ ⟨o, ho⟩]
  by_cases hc : c = a
  · subst hc
    rw [if_pos rfl]
    refine ⟨fun o' ho' => ?_, (nomatch ·)⟩
    obtain rfl := Option.some.inj ho'
    exact (h c).1 o ho
  · rw [if_neg hc]; exact h c

theorem alloc_spec {st : Store} {f : ℕ → ℤ} (h : Counts st f) (v : PyVal) :
    (st.alloc v).1.vars = st.vars ∧ f (st.alloc v).2 = 0 ∧
      Counts (st.alloc v).1 (fun c => f c + ind (st.alloc v).2 c) := by
  have hz : f st.objs.length = 0 := by
    apply (h _).2
    rw [obj, List.getElem?_eq_none (Nat.le_refl _)]
  refine ⟨rfl, hz, ?_⟩
  intro c
  show _ ∧ _
  have hobj : (st.alloc v).1.obj c = if c = st.objs.length then some ⟨v, 1⟩ else st.obj c := by
    unfold obj alloc
    dsimp only
    by_cases hc : c = st.objs.length
    · subst hc; simp
    · rw [if_neg hc]
      rcases Nat.lt_or_gt_of_ne hc with hlt | hgt
      · rw [List.getElem?_append_left hlt]
      · rw [List.getElem?_eq_none (by simp; omega), List.getElem?_eq_none (by omega)]
  rw [hobj]
  have hi : ind (st.alloc v).2 c = if c = st.objs.length then 1 else 0 := rfl
  dsimp only
  rw [hi]
  by_cases hc : c = st.objs.length
  · subst hc
    rw [if_pos rfl, if_pos rfl, hz]
    refine ⟨fun o' ho' => ?_, (nomatch ·)⟩
    obtain rfl := Option.some.inj ho'
    exact ⟨rfl, by omega⟩
  · rw [if_neg hc, if_neg hc, add_zero]; exact h c

theorem exact_iff (st : Store) : Exact st ↔ Counts st fun c => (st.vars.count c : ℤ) := by
  constructor
  · intro h a
    refine ⟨fun o ho => ?_, fun hn => ?_⟩
    · obtain ⟨h1, h2⟩ := (h a).1 o ho
      have := List.count_pos_iff.2 h2
      exact ⟨h1, by dsimp only; omega⟩
    · by_contra hc
      have hc : (st.vars.count a : ℤ) ≠ 0 := hc
      have : a ∈ st.vars := List.count_pos_iff.1 (by omega)
      obtain ⟨o, ho⟩ := (h a).2 this
      rw [hn] at ho; cases ho
  · intro h a
    refine ⟨fun o ho => ?_, fun hm => ?_⟩
    · obtain ⟨h1, h2⟩ := (h a).1 o ho
      have h2 : (0 : ℤ) < st.vars.count a := h2
      exact ⟨h1, List.count_pos_iff.1 (by omega)⟩
    · exact h.alive (by have := List.count_pos_iff.2 hm; omega)

theorem count_set_int (l : List ℕ) : ∀ {x a : ℕ} (r c : ℕ), l[x]? = some a →
    ((l.set x r).count c : ℤ) = l.count c - ind a c + ind r c := by
  induction l with
  | nil => intro x a r c h; simp at h
  | cons b l ih =>
    intro x a r c h
    cases x with
    | zero =>
      simp only [List.getElem?_cons_zero, Option.some.injEq] at h
      subst h
      simp only [List.set_cons_zero, List.count_cons, ind, beq_iff_eq]
      by_cases h1 : b = c <;> by_cases h2 : r = c <;> simp [h1, h2, eq_comm]
    | succ x =>
      simp only [List.getElem?_cons_succ] at h
      have := ih r c h
      simp only [List.set_cons_succ, List.count_cons]
      push_cast
      omega

theorem dropOperands_spec {st : Store} {f : ℕ → ℤ} (h : Counts st f) {a b : ℕ} (ha : 0 < f a)
    (hb : 0 < f b) (hab : a = b → 2 ≤ f a) :
    ∃ st', st.dropOperands a b = some st' ∧ st'.vars = st.vars ∧
      Counts st' (fun c => f c - ind a c - ind b c) := by
  obtain ⟨st1, e1, v1, c1⟩ := addRef_spec h (-1) ha (by omega)
  have hb' : 0 < f b + -1 * ind a b := by
    unfold ind
    split_ifs with hba
    · have := hab hba.symm; subst hba; omega
    · omega
  obtain ⟨st2, e2, v2, c2⟩ := addRef_spec c1 (-1) hb' (by omega)
  refine ⟨st2, by rw [dropOperands, e1]; exact e2, v2.trans v1, c2.congr fun c => by ring⟩

theorem finish_spec {st : Store} {f : ℕ → ℤ} (h : Counts st f) {x a b r : ℕ}
    (hb : 0 < f b - ind a b) (ha : 0 < f a - ind a a - ind b a) :
    ∃ st', st.finish x a b r = .next st' ∧ st'.vars = st.vars.set x r ∧
      Counts st' (fun c => f c - 2 * ind a c - ind b c) := by
  have h1 := ind_self a
  have h2 := ind_nonneg b a
  have h3 := ind_nonneg a b
  obtain ⟨st1, e1, v1, c1⟩ := dropOperands_spec h (a := a) (b := b) (by omega) (by omega)
    (fun hab => by subst hab; omega)
  have c1' : Counts ({ st1 with vars := st1.vars.set x r } : Store)
      (fun c => f c - ind a c - ind b c) := c1
  obtain ⟨st2, e2, v2, c2⟩ := addRef_spec c1' (-1) ha (by omega)
  refine ⟨st2, by rw [finish, e1]; dsimp only; rw [e2], by rw [v2, v1], c2.congr fun c => by ring⟩

theorem fail_spec {st : Store} {f : ℕ → ℤ} (h : Counts st f) {a b : ℕ} (ha : 0 < f a)
    (hb : 0 < f b) (hab : a = b → 2 ≤ f a) :
    ∃ st', st.fail a b = .raised st' ∧ st'.vars = st.vars ∧
      Counts st' (fun c => f c - ind a c - ind b c) := by
  obtain ⟨st1, e1, v1, c1⟩ := dropOperands_spec h ha hb hab
  exact ⟨st1, by rw [fail, e1], v1, c1⟩

/-- the state in which the slot is called -/
theorem push_spec {st : Store} (h : st.Exact) {x y a b : ℕ} (hx : st.vars[x]? = some a)
    (hy : st.vars[y]? = some b) {oa ob : Obj} (ha : st.obj a = some oa) (hb : st.obj b = some ob)
    (op : Op) :
    ∃ st1, st1.vars = st.vars ∧
      Counts st1 (fun c => (st.vars.count c : ℤ) + ind a c + ind b c) ∧
      st.augAssign op x y =
        match (inplaceSlot op (decide (a = b)) oa.val ob.val).out with
        | .self => finish st1 x a b a
        | .new v => finish (st1.alloc v).1 x a b (st1.alloc v).2
        | .raise => fail st1 a b
        | .ub => .ub
        | .notImpl =>
          fallback st1 op x a b (inplaceSlot op (decide (a = b)) oa.val ob.val).selfAfter
            (if a = b then (inplaceSlot op (decide (a = b)) oa.val ob.val).selfAfter
              else ob.val) := by
  have hc := (exact_iff st).1 h
  have pa : (0 : ℤ) < st.vars.count a := ((hc a).1 oa ha).2
  have pb : (0 : ℤ) < st.vars.count b := ((hc b).1 ob hb).2
  obtain ⟨s1, e1, v1, c1⟩ := addRef_spec hc 1 pa (by omega)
  have ni := ind_nonneg a b
  obtain ⟨s2, e2, v2, c2⟩ := addRef_spec c1 (a := b) 1 (by omega) (by omega)
  have nj := ind_nonneg b a
  have nk := ind_nonneg a a
  obtain ⟨s3, e3, v3, c3⟩ := setVal_spec c2 (a := a)
    (inplaceSlot op (decide (a = b)) oa.val ob.val).selfAfter (by omega)
  refine ⟨s3, by rw [v3, v2, v1], c3.congr fun c => by ring, ?_⟩
  rw [augAssign, hx, hy]
  dsimp only
  rw [ha, hb]
  dsimp only
  rw [e1]
  dsimp only
  rw [e2]
  dsimp only
  rw [e3]
  rfl

theorem finish_new {st st1 : Store} (hv : st1.vars = st.vars) {x y a b : ℕ}
    (hx : st.vars[x]? = some a) (hy : st.vars[y]? = some b)
    (hc : Counts st1 (fun c => (st.vars.count c : ℤ) + ind a c + ind b c)) (v : PyVal) :
    ∃ st', finish (st1.alloc v).1 x a b (st1.alloc v).2 = .next st' ∧ st'.Exact ∧
      st'.vars = st.vars.set x (st1.alloc v).2 ∧
      st'.obj (st1.alloc v).2 = some ⟨v, 1⟩ := by
  obtain ⟨v1, z1, c1⟩ := alloc_spec hc v
  have pa : 0 < st.vars.count a := List.count_pos_iff.2 (List.mem_of_getElem? hx)
  have pb : 0 < st.vars.count b := List.count_pos_iff.2 (List.mem_of_getElem? hy)
  have i1 := ind_nonneg (st1.alloc v).2 a
  have i2 := ind_nonneg (st1.alloc v).2 b
  have i3 := ind_self a
  have i4 := ind_self b
  obtain ⟨st', e, w, c⟩ := finish_spec c1 (x := x) (a := a) (b := b) (r := (st1.alloc v).2)
    (by omega) (by omega)
  rw [v1, hv] at w
  have na : (st1.alloc v).2 ≠ a := by
    intro hn; rw [hn] at z1; have := ind_nonneg b a; omega
  have nb : (st1.alloc v).2 ≠ b := by
    intro hn; rw [hn] at z1; have := ind_nonneg a b; omega
  refine ⟨st', e, ?_, w, ?_⟩
  swap
  · rw [finish_other e na nb]
    unfold obj alloc
    simp
  rw [exact_iff, w]
  refine c.congr fun c => ?_
  rw [count_set_int _ _ _ hx]
  ring

theorem fail_exact {st st1 : Store} (hv : st1.vars = st.vars) {x y a b : ℕ}
    (hx : st.vars[x]? = some a) (hy : st.vars[y]? = some b)
    (hc : Counts st1 (fun c => (st.vars.count c : ℤ) + ind a c + ind b c)) :
    ∃ st', fail st1 a b = .raised st' ∧ st'.Exact ∧ st'.vars = st.vars := by
  have pa : 0 < st.vars.count a := List.count_pos_iff.2 (List.mem_of_getElem? hx)
  have pb : 0 < st.vars.count b := List.count_pos_iff.2 (List.mem_of_getElem? hy)
  have i1 := ind_nonneg a b
  have i2 := ind_nonneg b a
  have i3 := ind_self a
  have i4 := ind_self b
  obtain ⟨st', e, w, c⟩ := fail_spec hc (a := a) (b := b) (by omega)
    (by omega) (fun hab => by omega)
  rw [hv] at w
  refine ⟨st', e, ?_, w⟩
  rw [exact_iff, w]
  exact c.congr fun c => by ring

end Store

/-! ## C86: in-place operators keep the objects of variables alive -/

open Store

/-- **C86** (in part).  An augmented assignment whose in-place operator does not return its left
operand keeps the reference counts right: no object is freed while a variable refers to it and
none is leaked, whether a new object is bound or an exception is raised.  The variable is bound to
an object with the value of the operator.  Missing: in-place operators that return the left
operand. -/
theorem C86_counts_partial {st : Store} (h : st.Exact) {x y a b : ℕ} (hx : st.vars[x]? = some a)
    (hy : st.vars[y]? = some b) (hab : a ≠ b) {oa ob : Obj} (ha : st.obj a = some oa)
    (hb : st.obj b = some ob) (op : Op)
    (hslot : (inplaceSlot op false oa.val ob.val).out ≠ .self)
    (hdef : rebind op false oa.val ob.val ≠ .ub) :
    (∃ st', st.augAssign op x y = .raised st' ∧ st'.Exact ∧ st'.vars = st.vars) ∨
      ∃ st' n v, st.augAssign op x y = .next st' ∧ st'.Exact ∧ st'.vars = st.vars.set x n ∧
        rebind op false oa.val ob.val = .ok v ∧ st'.obj n = some ⟨v, 1⟩ := by
  obtain ⟨st1, hv, hc, e⟩ := push_spec h hx hy ha hb op
  rw [decide_eq_false hab] at e
  rw [e]
  rw [rebind] at hdef ⊢
  cases hr : (inplaceSlot op false oa.val ob.val).out with
  | self => exact absurd hr hslot
  | ub => rw [hr] at hdef; exact absurd rfl hdef
  | raise => exact Or.inl (fail_exact hv hx hy hc)
  | new v =>
    obtain ⟨st', h1, h2, h3, h4⟩ := finish_new hv hx hy hc v
    exact Or.inr ⟨st', _, v, h1, h2, h3, rfl, h4⟩
  | notImpl =>
    rw [hr] at hdef
    dsimp only at hdef ⊢
    rw [if_neg hab, fallback]
    cases hbo : binaryOp op (inplaceSlot op false oa.val ob.val).selfAfter ob.val with
    | ub => rw [hbo] at hdef; exact absurd rfl hdef
    | raise => exact Or.inl (fail_exact hv hx hy hc)
    | notImpl => exact Or.inl (fail_exact hv hx hy hc)
    | ok v =>
      obtain ⟨st', h1, h2, h3, h4⟩ := finish_new hv hx hy hc v
      exact Or.inr ⟨st', _, v, h1, h2, h3, rfl, h4⟩

/-- every in-place operator that returns its left operand loses a reference to it -/
theorem self_spec {st : Store} (h : st.Exact) {x y a b : ℕ} (hx : st.vars[x]? = some a)
    (hy : st.vars[y]? = some b) (hab : a ≠ b) {oa ob : Obj} (ha : st.obj a = some oa)
    (hb : st.obj b = some ob) (op : Op)
    (hslot : (inplaceSlot op false oa.val ob.val).out = .self) :
    ∃ st', st.augAssign op x y = .next st' ∧ st'.vars = st.vars ∧
      Counts st' (fun c => (st.vars.count c : ℤ) - ind a c) := by
  obtain ⟨st1, hv, hc, e⟩ := push_spec h hx hy ha hb op
  rw [decide_eq_false hab] at e
  rw [e, hslot]
  have pa : 0 < st.vars.count a := List.count_pos_iff.2 (List.mem_of_getElem? hx)
  have pb : 0 < st.vars.count b := List.count_pos_iff.2 (List.mem_of_getElem? hy)
  have i1 : ind a b = 0 := if_neg (Ne.symm hab)
  have i2 : ind b a = 0 := if_neg hab
  have i3 := ind_self a
  have i4 := ind_self b
  obtain ⟨st', e', w, c⟩ := finish_spec hc (x := x) (a := a) (b := b) (r := a)
    (by omega) (by omega)
  refine ⟨st', e', ?_, c.congr fun c => by ring⟩
  rw [w, hv]
  apply List.ext_getElem?
  intro i
  rw [List.getElem?_set]
  split_ifs with h1 h2
  · subst h1; exact hx.symm
  · subst h1; rw [List.getElem?_eq_none (by omega)] at hx; cases hx
  · rfl

/-- **C86**, refuted: after `p += q`, `p -= q` or `p *= q` with polynomials the variable refers to
an object that has been freed, if it was the only variable that did; the next augmented assignment
of the variable is undefined. -/
theorem C86_wrong {st : Store} (h : st.Exact) {x y a b : ℕ} (hx : st.vars[x]? = some a)
    (hy : st.vars[y]? = some b) (hab : a ≠ b) {p q : Poly} {r s : ℤ}
    (ha : st.obj a = some ⟨.poly p, r⟩) (hb : st.obj b = some ⟨.poly q, s⟩)
    {op : Op} (hop : op = .add ∨ op = .sub ∨ op = .mul) (hone : st.vars.count a = 1) :
    ∃ st', st.augAssign op x y = .next st' ∧ st'.vars[x]? = some a ∧ st'.obj a = none ∧
      ∀ op' y', st'.augAssign op' x y' = .ub := by
  have hslot : (inplaceSlot op false (PyVal.poly p) (.poly q)).out = .self := by
    rcases hop with rfl | rfl | rfl <;> rfl
  obtain ⟨st', e, w, c⟩ := self_spec h hx hy hab ha hb op hslot
  have hn : st'.obj a = none := by
    cases ho : st'.obj a with
    | none => rfl
    | some o =>
      have : (0 : ℤ) < st.vars.count a - ind a a := ((c a).1 o ho).2
      rw [ind_self, hone] at this
      simp at this
  rw [← w] at hx
  refine ⟨st', e, hx, hn, fun op' y' => ?_⟩
  rw [augAssign, hx]
  cases st'.vars[y']? with
  | none => rfl
  | some b' => dsimp only; rw [hn]

/-- **C86**, refuted: with further variables that refer to the object, the statement leaves its count
one too low. -/
theorem C86_wrong_shared {st : Store} (h : st.Exact) {x y a b : ℕ} (hx : st.vars[x]? = some a)
    (hy : st.vars[y]? = some b) (hab : a ≠ b) {p q : Poly} {r s : ℤ}
    (ha : st.obj a = some ⟨.poly p, r⟩) (hb : st.obj b = some ⟨.poly q, s⟩)
    {op : Op} (hop : op = .add ∨ op = .sub ∨ op = .mul) (htwo : 1 < st.vars.count a) :
    ∃ st' o, st.augAssign op x y = .next st' ∧ st'.vars = st.vars ∧ st'.obj a = some o ∧
      o.rc = st.vars.count a - 1 := by
  have hslot : (inplaceSlot op false (PyVal.poly p) (.poly q)).out = .self := by
    rcases hop with rfl | rfl | rfl <;> rfl
  obtain ⟨st', e, w, c⟩ := self_spec h hx hy hab ha hb op hslot
  have i := ind_self a
  obtain ⟨o, ho⟩ := c.alive (a := a) (by omega)
  refine ⟨st', o, e, w, ho, ?_⟩
  have hrc : o.rc = st.vars.count a - ind a a := ((c a).1 o ho).1
  rw [hrc, i]

/-- **C86**, refuted for monomials: `m *= n` frees the object of `m` when the product is defined. -/
theorem C86_wrong_monomial {st : Store} (h : st.Exact) {x y a b : ℕ} (hx : st.vars[x]? = some a)
    (hy : st.vars[y]? = some b) (hab : a ≠ b) {m n k : Mono} {r s : ℤ}
    (ha : st.obj a = some ⟨.mono m, r⟩) (hb : st.obj b = some ⟨.mono n, s⟩)
    (hk : Mono.mul m n = some k) (hone : st.vars.count a = 1) :
    ∃ st', st.augAssign .mul x y = .next st' ∧ st'.vars[x]? = some a ∧ st'.obj a = none := by
  have hslot : (inplaceSlot .mul false (PyVal.mono m) (.mono n)).out = .self := by
    simp [inplaceSlot, monomialIMul, hk]
  obtain ⟨st', e, w, c⟩ := self_spec h hx hy hab ha hb .mul hslot
  have hn : st'.obj a = none := by
    cases ho : st'.obj a with
    | none => rfl
    | some o =>
      have : (0 : ℤ) < st.vars.count a - ind a a := ((c a).1 o ho).2
      rw [ind_self, hone] at this
      simp at this
  rw [← w] at hx
  exact ⟨st', e, hx, hn⟩

/-- `p = 2; q = x; p += q; p += q` in polynomials -/
example :
    let st : Store := ⟨[some ⟨.poly [(Mono.one, 2)], 1⟩, some ⟨.poly [(⟨[(1, 1)]⟩, 1)], 1⟩], [0, 1]⟩
    st.augAssign .add 0 1 = .next ⟨[none, some ⟨.poly [(⟨[(1, 1)]⟩, 1)], 1⟩], [0, 1]⟩ := by
  decide +kernel

/-- `m = x; n = y; m += n` binds a new polynomial -/
example :
    let st : Store := ⟨[some ⟨.mono ⟨[(1, 1)]⟩, 1⟩, some ⟨.mono ⟨[(2, 1)]⟩, 1⟩], [0, 1]⟩
    st.augAssign .add 0 1 =
      .next ⟨[none, some ⟨.mono ⟨[(2, 1)]⟩, 1⟩,
        some ⟨.poly [(⟨[(1, 1)]⟩, 1), (⟨[(2, 1)]⟩, 1)], 1⟩], [2, 1]⟩ := by
  decide +kernel

end RoughPy.Polys
