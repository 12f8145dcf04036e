import Verif.Scalars.Lemmas

/-!
# Scalars: histories
-/

namespace RoughPy.Scalars

open RoughPy.Args (Out TypeInfo)
open RoughPy.Polys

theorem var_lt {s : St} {i : ℕ} {o : Obj} (h : s.var i = some o) : i < s.vars.length := by
  by_contra hn
  unfold St.var at h
  rw [List.getElem?_eq_none (by omega)] at h
  cases h

theorem var_push (s : St) (ho : Heap × Obj) (k : ℕ) :
    (s.push ho).var k = if k = s.vars.length then some ho.2 else s.var k := by
  unfold St.push St.var
  simp only
  by_cases e : k = s.vars.length
  · subst e; simp
  · rcases Nat.lt_or_ge k s.vars.length with hl | hl
    · rw [List.getElem?_append_left hl]; simp [e]
    · rw [List.getElem?_eq_none (by simp; omega), List.getElem?_eq_none (by omega)]; simp [e]

theorem var_set (l : List (Option Obj)) (h : Heap) (i : ℕ) (x : Option Obj) (hi : i < l.length) (k : ℕ) :
    St.var ⟨h, l.set i x⟩ k = if k = i then x else St.var ⟨h, l⟩ k := by
  unfold St.var
  simp only
  by_cases e : k = i
  · subst e; rw [List.getElem?_set_self hi]; simp
  · rw [List.getElem?_set_ne (fun x => e x.symm)]; simp [e]

theorem var_put {s : St} {i : ℕ} (hi : i < s.vars.length) (ho : Heap × Obj) (k : ℕ) :
    (s.put i ho).var k = if k = i then some ho.2 else s.var k := by
  unfold St.put
  rw [var_set s.vars ho.1 i _ hi k]
  rfl

theorem good_push {s : St} (g : Good s) {ho : Heap × Obj} (d : Does s.heap Obj.empty ho) :
    Good (s.push ho) := by
  obtain ⟨f, go⟩ := d
  rw [empty_owns] at f
  refine ⟨fun i o hv => ?_, fun i j o p a hi hj ha hb => ?_, fun a c t hc ht => ?_⟩
  · rw [var_push] at hv
    split at hv
    · cases hv; exact go
    · exact (g.objs i o hv).frame_new f
  · rw [var_push] at hi hj
    have old : ∀ k q, s.var k = some q → a ∈ q.owns → a ∉ ho.2.owns := fun k q hk hq =>
      new_disjoint (g.objs k q hk) f a hq
    split at hi
    · cases hi
      split at hj
      · omega
      · exact absurd ha (old j p hj hb)
    · split at hj
      · cases hj; exact absurd hb (old i o hi ha)
      · exact g.unique i j o p a hi hj ha hb
  · rcases f.found a c t hc ht with ⟨hl, _⟩ | h
    · obtain ⟨c', hc', _⟩ : ∃ c', s.heap.cell a = some c' ∧ c'.owner = some t := by
        cases hx : s.heap.cell a with
        | none => rw [show (s.push ho).heap = ho.1 from rfl, (f.keep a hl (by simp)).1 hx] at hc; cases hc
        | some c' =>
          obtain ⟨c2, h2, r⟩ := (f.keep a hl (by simp)).2 c' hx
          rw [show (s.push ho).heap = ho.1 from rfl, h2] at hc
          cases hc
          exact ⟨c', rfl, by rw [← r.1, ht]⟩
      obtain ⟨i, o, hv, hm⟩ := g.noLeak a c' t hc' (by assumption)
      refine ⟨i, o, ?_, hm⟩
      rw [var_push, if_neg (Nat.ne_of_lt (var_lt hv)), hv]
    · exact ⟨s.vars.length, ho.2, by rw [var_push, if_pos rfl], h⟩

/-- One scalar changes, or dies and leaves nothing. -/
theorem good_change {s : St} (g : Good s) {i : ℕ} {o : Obj} (hv : s.var i = some o) {h' : Heap}
    {x : Option Obj} (own : List ℕ) (hx : ∀ p, x = some p → p.owns = own ∧ p.Good h')
    (hn : x = none → own = []) (f : Frame o.owns own s.heap h') :
    Good ⟨h', s.vars.set i x⟩ := by
  have hvar := var_set s.vars h' i x (var_lt hv)
  have hvk : ∀ k, St.var ⟨h', s.vars⟩ k = s.var k := fun _ => rfl
  simp only [hvk] at hvar
  have go := g.objs i o hv
  refine ⟨fun k q hk => ?_, fun k l q p a hk hl ha hb => ?_, fun a c t hc ht => ?_⟩
  · rw [hvar] at hk
    split at hk
    · exact (hx q hk).2
    · next e =>
      refine (g.objs k q hk).frame f (fun a ha hb => e (g.unique k i q o a hk hv ha hb)) ?_
      exact fun a ha c hc => go.owns_owner a ha c hc
  · rw [hvar] at hk hl
    have old : ∀ m q, m ≠ i → s.var m = some q → a ∈ q.owns → a ∉ own := by
      intro m q hm hq haq hao
      rcases f.fresh a hao with h | h
      · exact hm (g.unique m i q o a hq hv haq h)
      · have := (g.objs m q hq).owns_lt haq; omega
    split at hk
    · split at hl
      · subst_vars; rfl
      · next e =>
        rw [(hx q hk).1] at ha
        exact absurd ha (old l p e hl hb)
    · next e =>
      split at hl
      · rw [(hx p hl).1] at hb
        exact absurd hb (old k q e hk ha)
      · exact g.unique k l q p a hk hl ha hb
  · rcases f.found a c t hc ht with ⟨hl, hno⟩ | h
    · obtain ⟨c', hc', ht'⟩ : ∃ c', s.heap.cell a = some c' ∧ c'.owner = some t := by
        cases hx : s.heap.cell a with
        | none =>
          have := (f.keep a hl hno).1 hx
          simp only at hc; rw [this] at hc; cases hc
        | some c' =>
          obtain ⟨c2, h2, r⟩ := (f.keep a hl hno).2 c' hx
          simp only at hc; rw [h2] at hc; cases hc
          exact ⟨c', rfl, by rw [← r.1, ht]⟩
      obtain ⟨k, q, hk, hm⟩ := g.noLeak a c' t hc' ht'
      have e : k ≠ i := by
        rintro rfl
        rw [hv] at hk; cases hk
        exact hno hm
      exact ⟨k, q, by rw [hvar, if_neg e, hk], hm⟩
    · cases hxx : x with
      | none => rw [hn hxx] at h; cases h
      | some p =>
        rw [hxx] at hvar
        exact ⟨i, p, by rw [hvar, if_pos rfl], by rw [(hx p hxx).1]; exact h⟩

theorem good_put {s : St} (g : Good s) {i : ℕ} {o : Obj} (hv : s.var i = some o) {ho : Heap × Obj}
    (d : Does s.heap o ho) : Good (s.put i ho) :=
  good_change g hv ho.2.owns (fun p hp => by cases hp; exact ⟨rfl, d.2⟩) (fun h => by cases h) d.1

/-- Ownership passes from one scalar to another that owned nothing. -/
theorem good_pass {s s' : St} (g : Good s) (hh : s'.heap = s.heap) {i j : ℕ} {o o' p : Obj}
    (hi : s.var i = some o) (hij : i ≠ j) (hi' : s'.var i = some o') (hj' : s'.var j = some p)
    (hk : ∀ k, k ≠ i → k ≠ j → s'.var k = s.var k) (hjn : ∀ q, s.var j = some q → q.owns = [])
    (go' : o'.Good s.heap) (gp : p.Good s.heap) (hp : p.owns = o.owns) (ho' : o'.owns = []) :
    Good s' := by
  refine ⟨fun k q hq => ?_, fun k l q r a hq hr ha hb => ?_, fun a c t hc ht => ?_⟩
  · rw [hh]
    by_cases e : k = i
    · subst e; rw [hi'] at hq; cases hq; exact go'
    · by_cases e2 : k = j
      · subst e2; rw [hj'] at hq; cases hq; exact gp
      · rw [hk k e e2] at hq; exact g.objs k q hq
  · have key : ∀ m x, s'.var m = some x → a ∈ x.owns →
        (m = j ∧ a ∈ o.owns) ∨ (m ≠ i ∧ m ≠ j ∧ s.var m = some x) := by
      intro m x hm hx
      by_cases e : m = i
      · subst e; rw [hi'] at hm; cases hm; rw [ho'] at hx; cases hx
      · by_cases e2 : m = j
        · subst e2; rw [hj'] at hm; cases hm; rw [hp] at hx; exact .inl ⟨rfl, hx⟩
        · exact .inr ⟨e, e2, by rw [← hk m e e2, hm]⟩
    rcases key k q hq ha with ⟨h1, h2⟩ | ⟨h1, h1', h2⟩
    · rcases key l r hr hb with ⟨h3, _⟩ | ⟨h3, h3', h4⟩
      · rw [h1, h3]
      · exact absurd (g.unique l i r o a h4 hi hb h2) h3
    · rcases key l r hr hb with ⟨h3, h4⟩ | ⟨h3, h3', h4⟩
      · exact absurd (g.unique k i q o a h2 hi ha h4) h1
      · exact g.unique k l q r a h2 h4 ha hb
  · rw [hh] at hc
    obtain ⟨k, q, hq, hm⟩ := g.noLeak a c t hc ht
    by_cases e : k = i
    · subst e
      rw [hi] at hq; cases hq
      exact ⟨j, p, hj', by rw [hp]; exact hm⟩
    · by_cases e2 : k = j
      · subst e2; rw [hjn q hq] at hm; cases hm
      · exact ⟨k, q, by rw [hk k e e2, hq], hm⟩

theorem moveCtor_fst (o : Obj) : (moveCtor o).1 = o := by
  unfold moveCtor; split <;> rfl

theorem moveCtor_snd_good {h : Heap} {o : Obj} (g : o.Good h) :
    (moveCtor o).2.Good h ∧ (moveCtor o).2.owns = [] := by
  unfold moveCtor
  split
  · next hm => exact ⟨g, owns_of_not_owned (by simp [hm])⟩
  · exact ⟨g.dropAddr, owns_null rfl⟩

theorem withVar_ok {α : Type} {s : St} {i : ℕ} {f : Obj → Out α} {a : α}
    (h : withVar s i f = .ok a) : ∃ o, s.var i = some o ∧ f o = .ok a := by
  unfold withVar at h
  cases hv : s.var i with
  | none => rw [hv] at h; cases h
  | some o => rw [hv] at h; exact ⟨o, rfl, h⟩

theorem put_put (s : St) (i j : ℕ) (h : Heap) (a b : Obj) :
    (s.put i (h, a)).put j (h, b) = ⟨h, (s.vars.set i (some a)).set j (some b)⟩ := rfl

/-- Writing back what was there. -/
theorem put_self {s : St} {j : ℕ} {p : Obj} {h : Heap} (hv : s.var j = some p) (hh : s.heap = h) :
    s.put j (h, p) = s := by
  have hl := var_lt hv
  unfold St.var at hv
  cases hx : s.vars[j]? with
  | none => rw [hx] at hv; cases hv
  | some y =>
    rw [hx] at hv
    simp at hv
    subst hv
    cases s with
    | mk heap vars =>
      simp only at hh hx hl
      subst hh
      unfold St.put
      simp only [St.mk.injEq, true_and]
      apply List.ext_getElem?
      intro n
      by_cases e : n = j
      · subst e; rw [List.getElem?_set_self hl, hx]
      · rw [List.getElem?_set_ne (fun x => e x.symm)]

theorem good_step {P : FP} {s s' : St} {c : Stmt} (g : Good s) (hc : c.Valid)
    (h : step P s c = .ok s') : Good s' := by
  cases c with
  | null => cases h; exact good_push g ⟨Frame.refl _ _, empty_good _⟩
  | num v =>
    obtain ⟨ho, h1, h2⟩ := map_ok h
    subst h2
    exact good_push g (ofVal_does hc h1)
  | typed t => cases h; exact good_push g (ofType_does _ hc)
  | untyped t => cases h; exact good_push g (ofInfo_does _ hc)
  | copy i =>
    obtain ⟨o, hv, h⟩ := withVar_ok h
    obtain ⟨ho, h1, h2⟩ := map_ok h
    subst h2
    exact good_push g (copyCtor_does (g.objs i o hv) h1).1
  | move i =>
    obtain ⟨o, hv, h⟩ := withVar_ok h
    cases h
    have hl := var_lt hv
    have ms := moveCtor_snd_good (g.objs i o hv)
    refine good_pass g rfl (i := i) (j := s.vars.length) (o := o) (o' := (moveCtor o).2) (p := o) hv
      (Nat.ne_of_lt hl) ?_ ?_ ?_ ?_ ms.1 (g.objs i o hv) rfl ms.2
    · rw [var_push, var_put hl, if_pos rfl]
      simp only [St.put, List.length_set, Nat.ne_of_lt hl, if_false]
    · rw [var_push, moveCtor_fst]; simp [St.put]
    · intro k h1 h2
      rw [var_push, var_put hl, if_neg h1]
      simp only [St.put, List.length_set, h2, if_false]
    · intro q hq; exact absurd (var_lt hq) (by omega)
  | assign i j =>
    obtain ⟨o, hv, h⟩ := withVar_ok h
    obtain ⟨src, hs, h⟩ := withVar_ok h
    by_cases e : i = j
    · rw [if_pos e] at h; cases h; exact g
    · rw [if_neg e] at h
      obtain ⟨ho, h1, h2⟩ := map_ok h
      subst h2
      exact good_put g hv (copyAssign_does (g.objs i o hv) (g.objs j src hs) h1)
  | moveAssign i j =>
    obtain ⟨o, hv, h⟩ := withVar_ok h
    obtain ⟨src, hs, h⟩ := withVar_ok h
    by_cases e : i = j
    · rw [if_pos e] at h; cases h; exact g
    · rw [if_neg e] at h
      obtain ⟨r, h1, h2⟩ := map_ok h
      subst h2
      unfold moveAssign at h1
      by_cases hn : o.isNull = true
      · rw [if_pos hn] at h1
        cases h1
        have hm : o.mode = .trivial := by
          unfold Obj.isNull at hn; simp at hn; exact hn.2
        have ms := moveCtor_snd_good (g.objs j src hs)
        have hli := var_lt hv
        have hlj := var_lt hs
        have hl2 : j < (s.put i (s.heap, (moveCtor src).1)).vars.length := by
          simp [St.put, hlj]
        refine good_pass g rfl (i := j) (j := i) (o := src) (o' := (moveCtor src).2) (p := src) hs
          (fun x => e x.symm) ?_ ?_ ?_ ?_ ms.1 (g.objs j src hs) rfl ms.2
        · rw [var_put hl2, if_pos rfl]
        · rw [var_put hl2, if_neg e, var_put hli, if_pos rfl, moveCtor_fst]
        · intro k h1 h2
          rw [var_put hl2, if_neg h1, var_put hli, if_neg h2]
        · intro q hq; rw [hv] at hq; cases hq; exact owns_of_not_owned (by simp [hm])
      · rw [if_neg hn] at h1
        split at h1
        · obtain ⟨t, hi, h1⟩ := bind_ok h1
          obtain ⟨ho, hst, h1⟩ := bind_ok h1
          cases h1
          have d := (storeConv_does (g.objs i o hv) hi (fun v hv => convFrom_ty hv) hst).1
          have g1 := good_put g hv d
          rw [show (ho.1, ho.2, src).2.2 = src from rfl, show (ho.1, ho.2, src).1 = ho.1 from rfl]
          rw [put_self (s := s.put i ho) (h := ho.1) (j := j) (p := src)
            (by rw [var_put (var_lt hv), if_neg (fun x => e x.symm), hs]) rfl]
          exact g1
        · cases h1
  | set i v =>
    obtain ⟨o, hv, h⟩ := withVar_ok h
    obtain ⟨ho, h1, h2⟩ := map_ok h
    subst h2
    exact good_put g hv (assignVal_does (g.objs i o hv) hc h1)
  | arith op i j =>
    obtain ⟨o, hv, h⟩ := withVar_ok h
    obtain ⟨src, hs, h⟩ := withVar_ok h
    obtain ⟨ho, h1, h2⟩ := map_ok h
    subst h2
    exact good_put g hv (arith_does (g.objs i o hv) h1)
  | neg i =>
    obtain ⟨o, hv, h⟩ := withVar_ok h
    obtain ⟨ho, h1, h2⟩ := map_ok h
    subst h2
    exact good_push g (neg_does (g.objs i o hv) h1)
  | drop i =>
    obtain ⟨o, hv, h⟩ := withVar_ok h
    obtain ⟨h', h1, h2⟩ := map_ok h
    subst h2
    obtain ⟨h'', h3, f⟩ := dtor_does (g.objs i o hv)
    rw [h1] at h3; cases h3
    exact good_change g hv [] (fun p hp => by cases hp) (fun _ => rfl) f

theorem good_run {P : FP} : ∀ (cs : List Stmt) {s s' : St}, Good s → (∀ c ∈ cs, c.Valid) →
    run P s cs = .ok s' → Good s'
  | [], s, s', g, _, h => by cases h; exact g
  | c :: cs, s, s', g, hc, h => by
    rw [run] at h
    cases hs : step P s c with
    | ok s1 =>
      simp only [hs] at h
      exact good_run cs (good_step g (hc c (by simp)) hs) (fun d hd => hc d (by simp [hd])) h
    | err =>
      simp only [hs] at h
      exact good_run cs g (fun d hd => hc d (by simp [hd])) h
    | ub => simp only [hs] at h; cases h

theorem good_initial {s : St} (h : Initial s) : Good s := by
  have hv : ∀ i, s.var i = none := by intro i; simp [St.var, h.1]
  refine ⟨fun i o hx => ?_, fun i j o p a hx => ?_, fun a c t hc ht => ?_⟩
  · rw [hv] at hx; cases hx
  · rw [hv] at hx; cases hx
  · rw [h.2 a c hc] at ht; cases ht

/-! ## Values -/

/-- What a scalar in some memory holds. -/
def Obj.Has (h : Heap) (o : Obj) (t : Ty) (v : Val) : Prop :=
  o.info = .ok t ∧ (o.read h).bind (fun w => w.as t) = .ok v

theorem holds_iff {s : St} {i : ℕ} {o : Obj} (hv : s.var i = some o) (t : Ty) (v : Val) :
    Holds s i t v ↔ o.Has s.heap t v := by
  constructor
  · rintro ⟨o', h1, h2, h3⟩
    rw [hv] at h1; cases h1; exact ⟨h2, h3⟩
  · rintro ⟨h2, h3⟩; exact ⟨o, hv, h2, h3⟩

theorem Obj.Has.read {h : Heap} {o : Obj} {t : Ty} {v : Val} (hh : o.Has h t v) :
    ∃ w, o.read h = .ok w ∧ w.as t = .ok v := bind_ok hh.2

theorem Obj.Has.ty {h : Heap} {o : Obj} {t : Ty} {v : Val} (hh : o.Has h t v) : v.ty = t := by
  obtain ⟨w, _, h2⟩ := hh.read
  exact as_ty h2

theorem conv_self {P : FP} {v : Val} (ht : v.ty = .rat ∨ v.ty = .poly) : conv P v.ty v = .ok v := by
  cases v with
  | rat q => rfl
  | poly p => rfl
  | int b n => simp [Val.ty] at ht
  | uint b n => simp [Val.ty] at ht
  | f32 x => simp [Val.ty] at ht
  | f64 x => simp [Val.ty] at ht

theorem conv_same {P : FP} {v : Val} {t : Ty} (hv : v.ty = t) (ht : t.IsScalarType) :
    conv P t v = .ok v := by
  subst hv
  cases v with
  | rat q => rfl
  | poly p => rfl
  | f32 x => rfl
  | f64 x => rfl
  | int b n => simp [Val.ty, Ty.IsScalarType] at ht
  | uint b n => simp [Val.ty, Ty.IsScalarType] at ht

/-- A copy through a pointer. -/
theorem copyFromOpaque_has {P : FP} {h : Heap} {o : Obj} {t : Ty} {w : Val}
    (hc : Copyable o t) (hf : Fits t w) :
    ∃ ho, copyFromOpaque P h o t (.ok w) = .ok ho ∧ ho.2.ty = o.ty ∧
      (ho.2.mode = .trivial ∨ ho.2.mode = .owned) ∧ ho.2.read ho.1 = .ok w := by
  have hnn : o.isNull = false := by
    unfold Obj.isNull
    rcases hc.2 with ⟨_, hty⟩ | ⟨_, t', hty⟩ <;> simp [hty]
  unfold copyFromOpaque
  simp only [hnn, Bool.false_eq_true, if_false]
  rw [hc.1]
  by_cases hfun : t.fundamental = true
  · simp only [Out.bind, if_pos hfun, if_true]
    exact ⟨_, rfl, rfl, .inl rfl, rfl⟩
  · rcases hc.2 with ⟨hst, hty⟩ | ⟨hx, _⟩
    · simp only [Out.bind, if_neg hfun, allocateData, hty]
      have hw : w.ty = t := fits_scalarType hst hf
      have hr : t = .rat ∨ t = .poly := by
        rcases scalarType_cases hst with h | h
        · exact absurd h hfun
        · exact h
      rw [as_self hw]
      simp only
      subst hw
      rw [conv_self hr]
      have hcell := cell_alloc h w.ty h.length
      rw [if_pos rfl] at hcell
      have ha : (h.alloc w.ty).2 = h.length := rfl
      simp only [storeConv, Obj.store, ha, hcell]
      refine ⟨_, rfl, hty ▸ rfl, .inr rfl, ?_⟩
      simp only [Obj.read]
      rw [cell_write, if_pos rfl, hcell]
      rfl
    · exact absurd hx hfun

theorem zeroWord_addr {o : Obj} (h : o.fastIsZero = false) (hm : o.mode ≠ .trivial) :
    ∃ a, o.addr = some a := by
  unfold Obj.fastIsZero Obj.zeroWord at h
  cases hm' : o.mode <;> simp_all
  all_goals exact Option.isSome_iff_exists.1 h.2

/-- A copy always succeeds, and holds what the original holds. -/
theorem copyCtor_has (P : FP) {h : Heap} {o : Obj} (g : o.Good h) :
    ∃ ho, copyCtor P h o = .ok ho ∧ ho.2.ty = o.ty ∧
      ∀ t v, o.Has h t v → ho.2.Has ho.1 t v ∧ ho.2.mode ≠ .ref ∧ ho.2.mode ≠ .constRef := by
  unfold copyCtor
  cases hz : o.fastIsZero with
  | true =>
    refine ⟨_, rfl, rfl, fun t v hh => ?_⟩
    by_cases hm : o.mode = .trivial
    · refine ⟨⟨hh.1, ?_⟩, by simp [hm], by simp [hm]⟩
      have := hh.2
      simpa only [Obj.read, hm] using this
    · have ha := fastZero_owns hz hm
      obtain ⟨w, hr, _⟩ := hh.read
      unfold Obj.read at hr
      cases hm' : o.mode <;> simp_all
  | false =>
    have hnull : o.isNull = false := by
      unfold Obj.fastIsZero at hz; simp_all
    simp only [Bool.false_eq_true, if_false]
    cases hm : o.mode with
    | iface => exact absurd hm g.noIface
    | trivial =>
      rcases g.inline hm with hn | ⟨_, t, hi, _⟩
      · simp [Obj.isNull, hn, hm] at hnull
      · simp only [hi, Out.bind]
        exact ⟨_, rfl, rfl, fun t v hh => ⟨hh, by simp [hm], by simp [hm]⟩⟩
    | owned =>
      obtain ⟨t, hst, hty, hc⟩ := g.owned hm
      obtain ⟨a, ha⟩ := zeroWord_addr hz (by simp [hm])
      obtain ⟨c, hcell, _, hcv⟩ := hc a ha
      have hrd : o.read h = .ok c.val := by simp [Obj.read, hm, ha, hcell]
      have hrd' : (Obj.mk o.ty .owned o.bytes o.addr).read h = .ok c.val := by
        simp [Obj.read, ha, hcell]
      simp only [info_ptr hty, Out.bind, allocateData, hty, hrd]
      rw [as_self hcv]
      simp only
      have hconv : conv P t c.val = .ok c.val := conv_same hcv hst
      rw [hconv]
      have hcl := cell_alloc h t h.length
      rw [if_pos rfl] at hcl
      have hal : (h.alloc t).2 = h.length := rfl
      simp only [storeConv, Obj.store, hal, hcl]
      refine ⟨_, rfl, hty ▸ rfl, fun t' v hh => ⟨⟨?_, ?_⟩, by simp, by simp⟩⟩
      · simp only [Obj.info]
        have := hh.1
        simpa only [Obj.info, hty] using this
      · obtain ⟨w, hr, hw⟩ := hh.read
        rw [hrd] at hr; cases hr
        simp only [Obj.read]
        rw [cell_write, if_pos rfl, hcl]
        exact hw
    | ref =>
      obtain ⟨t, hi, hcp, hc⟩ := g.reference (.inl hm)
      obtain ⟨a, ha⟩ := zeroWord_addr hz (by simp [hm])
      obtain ⟨c, hcell, _, hcv⟩ := hc a ha
      have hrd : o.read h = .ok c.val := by simp [Obj.read, hm, ha, hcell]
      obtain ⟨ho, h1, h2, h3, h4⟩ := copyFromOpaque_has (P := P) (h := h)
        (o := { o with addr := none }) (t := t) (w := c.val) ⟨hi, hcp⟩ hcv
      rw [hm] at h1
      simp only [hi, Out.bind, hrd]
      refine ⟨ho, h1, h2, fun t' v hh => ⟨⟨?_, ?_⟩, ?_, ?_⟩⟩
      · rw [show ho.2.info = o.info by simp only [Obj.info, h2]]; exact hh.1
      · rw [h4]; have := hh.2; rwa [hrd] at this
      · rcases h3 with h3 | h3 <;> simp [h3]
      · rcases h3 with h3 | h3 <;> simp [h3]
    | constRef =>
      obtain ⟨t, hi, hcp, hc⟩ := g.reference (.inr hm)
      obtain ⟨a, ha⟩ := zeroWord_addr hz (by simp [hm])
      obtain ⟨c, hcell, _, hcv⟩ := hc a ha
      have hrd : o.read h = .ok c.val := by simp [Obj.read, hm, ha, hcell]
      obtain ⟨ho, h1, h2, h3, h4⟩ := copyFromOpaque_has (P := P) (h := h)
        (o := { o with addr := none }) (t := t) (w := c.val) ⟨hi, hcp⟩ hcv
      rw [hm] at h1
      simp only [hi, Out.bind, hrd]
      refine ⟨ho, h1, h2, fun t' v hh => ⟨⟨?_, ?_⟩, ?_, ?_⟩⟩
      · rw [show ho.2.info = o.info by simp only [Obj.info, h2]]; exact hh.1
      · rw [h4]; have := hh.2; rwa [hrd] at this
      · rcases h3 with h3 | h3 <;> simp [h3]
      · rcases h3 with h3 | h3 <;> simp [h3]

theorem copyCtor_ok (P : FP) {h : Heap} {o : Obj} (g : o.Good h) : ∃ ho, copyCtor P h o = .ok ho := by
  obtain ⟨ho, h1, _⟩ := copyCtor_has P g
  exact ⟨ho, h1⟩

/-- The memory of a scalar that is not a reference is not touched by somebody else. -/
theorem Obj.Has.frame {own own' : List ℕ} {h h' : Heap} {o : Obj} {t : Ty} {v : Val} (g : o.Good h)
    (hr : o.mode ≠ .ref ∧ o.mode ≠ .constRef) (f : Frame own own' h h')
    (hd : ∀ a, a ∈ o.owns → a ∉ own) (hh : o.Has h t v) : o.Has h' t v := by
  refine ⟨hh.1, ?_⟩
  obtain ⟨w, h1, h2⟩ := hh.read
  suffices hx : o.read h' = .ok w by rw [hx]; exact h2
  unfold Obj.read at h1 ⊢
  cases hm : o.mode with
  | trivial => simpa only [hm] using h1
  | iface => exact absurd hm g.noIface
  | ref => exact absurd hm hr.1
  | constRef => exact absurd hm hr.2
  | owned =>
    simp only [hm] at h1 ⊢
    cases ha : o.addr with
    | none => simp [ha] at h1
    | some a =>
      obtain ⟨u, _, _, hc⟩ := g.owned hm
      obtain ⟨c, hcell, hown, _⟩ := hc a ha
      simp only [ha, hcell] at h1 ⊢
      obtain ⟨c', hc', hrel⟩ := (f.keep a (cell_lt hcell)
        (hd a (by rw [owns_owned hm ha]; simp))).2 c hcell
      rw [hc', hrel.2.1 (by rw [hown]; simp)]
      exact h1

/-- How a statement changes the scalars: one new scalar, one changed, one gone, or two of which one
takes over from the other. -/
theorem step_others {P : FP} {s s' : St} {c : Stmt} (g : Good s) (hc : c.Valid)
    (h : step P s c = .ok s') {k : ℕ} {o : Obj} (hk : s.var k = some o) (hkt : k ∉ c.target) :
    s'.var k = some o ∧ ∃ own own', Frame own own' s.heap s'.heap ∧ ∀ a, a ∈ o.owns → a ∉ own := by
  have hlk := var_lt hk
  have pushed : ∀ {ho : Heap × Obj}, Does s.heap Obj.empty ho →
      (s.push ho).var k = some o ∧ ∃ own own', Frame own own' s.heap (s.push ho).heap ∧
        ∀ a, a ∈ o.owns → a ∉ own := by
    intro ho d
    refine ⟨?_, _, _, d.1, fun a _ => by rw [empty_owns]; simp⟩
    rw [var_push, if_neg (Nat.ne_of_lt hlk), hk]
  have put' : ∀ {i : ℕ} {p : Obj} {ho : Heap × Obj}, s.var i = some p → k ≠ i → Does s.heap p ho →
      (s.put i ho).var k = some o ∧ ∃ own own', Frame own own' s.heap (s.put i ho).heap ∧
        ∀ a, a ∈ o.owns → a ∉ own := by
    intro i p ho hv hki d
    refine ⟨?_, _, _, d.1, fun a ha hb => hki (g.unique k i o p a hk hv ha hb)⟩
    rw [var_put (var_lt hv), if_neg hki, hk]
  cases c with
  | null => cases h; exact pushed ⟨Frame.refl _ _, empty_good _⟩
  | num v =>
    obtain ⟨ho, h1, h2⟩ := map_ok h
    subst h2; exact pushed (ofVal_does hc h1)
  | typed t => cases h; exact pushed (ofType_does _ hc)
  | untyped t => cases h; exact pushed (ofInfo_does _ hc)
  | copy i =>
    obtain ⟨p, hv, h⟩ := withVar_ok h
    obtain ⟨ho, h1, h2⟩ := map_ok h
    subst h2; exact pushed (copyCtor_does (g.objs i p hv) h1).1
  | move i =>
    obtain ⟨p, hv, h⟩ := withVar_ok h
    cases h
    have hki : k ≠ i := by simpa [Stmt.target] using hkt
    refine ⟨?_, [], [], Frame.refl _ _, fun a _ => by simp⟩
    rw [var_push, var_put (var_lt hv), if_neg hki]
    simp only [St.put, List.length_set, Nat.ne_of_lt hlk, if_false, hk]
  | assign i j =>
    obtain ⟨p, hv, h⟩ := withVar_ok h
    obtain ⟨src, hs, h⟩ := withVar_ok h
    have hki : k ≠ i := by simpa [Stmt.target] using hkt
    by_cases e : i = j
    · rw [if_pos e] at h; cases h
      exact ⟨hk, [], [], Frame.refl _ _, fun a _ => by simp⟩
    · rw [if_neg e] at h
      obtain ⟨ho, h1, h2⟩ := map_ok h
      subst h2
      exact put' hv hki (copyAssign_does (g.objs i p hv) (g.objs j src hs) h1)
  | moveAssign i j =>
    obtain ⟨p, hv, h⟩ := withVar_ok h
    obtain ⟨src, hs, h⟩ := withVar_ok h
    have hki : k ≠ i ∧ k ≠ j := by simpa [Stmt.target] using hkt
    by_cases e : i = j
    · rw [if_pos e] at h; cases h
      exact ⟨hk, [], [], Frame.refl _ _, fun a _ => by simp⟩
    · rw [if_neg e] at h
      obtain ⟨r, h1, h2⟩ := map_ok h
      subst h2
      have hl2 : j < (s.put i (r.1, r.2.1)).vars.length := by simp [St.put, var_lt hs]
      rw [var_put hl2, if_neg hki.2, var_put (var_lt hv), if_neg hki.1]
      refine ⟨hk, ?_⟩
      unfold moveAssign at h1
      by_cases hn : p.isNull = true
      · rw [if_pos hn] at h1; cases h1
        exact ⟨[], [], Frame.refl _ _, fun a _ => by simp⟩
      · rw [if_neg hn] at h1
        split at h1
        · obtain ⟨t, hi, h1⟩ := bind_ok h1
          obtain ⟨ho, hst, h1⟩ := bind_ok h1
          cases h1
          have d := (storeConv_does (g.objs i p hv) hi (fun v hv => convFrom_ty hv) hst).1
          exact ⟨_, _, d.1, fun a ha hb => hki.1 (g.unique k i o p a hk hv ha hb)⟩
        · cases h1
  | set i v =>
    obtain ⟨p, hv, h⟩ := withVar_ok h
    obtain ⟨ho, h1, h2⟩ := map_ok h
    subst h2
    exact put' hv (by simpa [Stmt.target] using hkt) (assignVal_does (g.objs i p hv) hc h1)
  | arith op i j =>
    obtain ⟨p, hv, h⟩ := withVar_ok h
    obtain ⟨src, hs, h⟩ := withVar_ok h
    obtain ⟨ho, h1, h2⟩ := map_ok h
    subst h2
    exact put' hv (by simpa [Stmt.target] using hkt) (arith_does (g.objs i p hv) h1)
  | neg i =>
    obtain ⟨p, hv, h⟩ := withVar_ok h
    obtain ⟨ho, h1, h2⟩ := map_ok h
    subst h2
    exact pushed (neg_does (g.objs i p hv) h1)
  | drop i =>
    obtain ⟨p, hv, h⟩ := withVar_ok h
    obtain ⟨h', h1, h2⟩ := map_ok h
    subst h2
    have hki : k ≠ i := by simpa [Stmt.target] using hkt
    obtain ⟨h'', h3, f⟩ := dtor_does (g.objs i p hv)
    rw [h1] at h3; cases h3
    refine ⟨?_, _, _, f, fun a ha hb => hki (g.unique k i o p a hk hv ha hb)⟩
    rw [var_set s.vars h' i none (var_lt hv), if_neg hki]
    exact hk

end RoughPy.Scalars
