import Verif.Scalars.EqLemmas
import Verif.Scalars.ArithProps

/-!
# C103, C104: comparison and division of scalars
-/

namespace RoughPy.Scalars

open RoughPy.Args (Out TypeInfo)
open RoughPy.Polys

/-! ## C103: comparison -/

/-- **C103.** `x == y` answers for all scalars that stand for numbers or polynomials, and answers
yes exactly if the two stand for the same, whatever their types.  Excepted are large integers
against floating numbers, and a negative zero against a zero. -/
theorem C103_equal_partial {P : FP} (hP : P.Exact) {s : St} (g : Good s) {i j : ℕ} {t u : Ty}
    {a b : Val} {x y : Laurent} (hi : Holds s i t a) (hj : Holds s j u b) (hx : a.Is x) (hy : b.Is y)
    (pa : a.Proper) (pb : b.Proper) (hs : Small a b) (na : a.NegZero → b.zeroBits = false)
    (nb : b.NegZero → a.zeroBits = false) :
    ∃ r, areEqual P s i j = .ok r ∧ (r = true ↔ x = y) := by
  obtain ⟨o, hv, hh⟩ := hi
  obtain ⟨p, hp, hhj⟩ := hj
  have ho : o.Has s.heap t a := hh
  have hq : p.Has s.heap u b := hhj
  have go := g.objs i o hv
  have gp := g.objs j p hp
  have lt := info_live go ho.1
  have lu := info_live gp hq.1
  simp only [areEqual, withVar, hv, hp, equal]
  by_cases hf : o.fastIsZero = true
  · have za := ho.fast_inv go hf
    have : x = const 0 := zeroBits_zero (by rw [ho.ty]; exact lt) hx za
    subst this
    obtain ⟨r, h1, h2⟩ := isZero_has gp hq hy pb (fun h => by rw [nb h] at za; cases za)
    exact ⟨r, by rw [if_pos hf, h1], h2.trans eq_comm⟩
  · rw [if_neg hf]
    by_cases hf' : p.fastIsZero = true
    · have zb := hq.fast_inv gp hf'
      have : y = const 0 := zeroBits_zero (by rw [hq.ty]; exact lu) hy zb
      subst this
      obtain ⟨r, h1, h2⟩ := isZero_has go ho hx pa (fun h => by rw [na h] at zb; cases zb)
      exact ⟨r, by rw [if_pos hf', h1], h2⟩
    · rw [if_neg hf']
      obtain ⟨a0, h1, h2⟩ := ho.read
      obtain ⟨b0, h3, h4⟩ := hq.read
      obtain ⟨r, h5, h6⟩ := eqVal_iff hP hx hy pa pb (by rw [ho.ty]; exact lt)
        (by rw [hq.ty]; exact lu) hs
      refine ⟨r, ?_, h6⟩
      simp only [ho.1, hq.1, Out.bind, lt.ne_other, lu.ne_other, or_self, if_false, h1, h2, h3, h4, h5]

/-- **C103.** Comparison is symmetric wherever it answers as it should. -/
theorem C103_symmetric {P : FP} (hP : P.Exact) {s : St} (g : Good s) {i j : ℕ} {t u : Ty}
    {a b : Val} {x y : Laurent} (hi : Holds s i t a) (hj : Holds s j u b) (hx : a.Is x) (hy : b.Is y)
    (pa : a.Proper) (pb : b.Proper) (hs : Small a b) (na : a.NegZero → b.zeroBits = false)
    (nb : b.NegZero → a.zeroBits = false) : areEqual P s i j = areEqual P s j i := by
  have hs' : Small b a := by cases a <;> cases b <;> first | trivial | exact hs
  obtain ⟨r, h1, h2⟩ := C103_equal_partial hP g hi hj hx hy pa pb hs na nb
  obtain ⟨r', h3, h4⟩ := C103_equal_partial hP g hj hi hy hx pb pa hs' nb na
  rw [h1, h3]
  congr 1
  have : r = true ↔ r' = true := h2.trans (eq_comm.trans h4.symm)
  cases r <;> cases r' <;> simp_all

/-- A state with the numbers as inline scalars. -/
def inlines (vs : List Val) : St := ⟨[], vs.map fun v => some ⟨.info v.ty, .trivial, v, none⟩⟩

/-- **C103, refuted.** Whatever the rounding, the integer `2 ^ 53` is not equal to the `double` of the
same value, although both are exact. -/
theorem C103_large_refuted (P : FP) :
    areEqual P (inlines [.int 8 (2 ^ 53), .f64 (.fin (2 ^ 53))]) 0 1 = .ok false ∧
    areEqual P (inlines [.f32 (.fin (2 ^ 24)), .int 4 (2 ^ 24)]) 0 1 = .ok false := by
  have h8 : (Ty.int 8).readBack = .int 8 := by decide +kernel
  have h4 : (Ty.int 4).readBack = .int 4 := by decide +kernel
  have hd : Ty.f64.readBack = .f64 := by decide +kernel
  have hf : Ty.f32.readBack = .f32 := by decide +kernel
  have z8 : (Val.int 8 9007199254740992).zeroBits = false := by decide +kernel
  have z4 : (Val.int 4 16777216).zeroBits = false := by decide +kernel
  have zd : (Val.f64 (.fin (2 ^ 53))).zeroBits = false := by decide +kernel
  have zf : (Val.f32 (.fin (2 ^ 24))).zeroBits = false := by decide +kernel
  constructor
  · simp [areEqual, withVar, inlines, St.var, equal, Obj.fastIsZero, Obj.isNull, Obj.zeroWord, z8, zd,
      Obj.info, Obj.read, h8, hd, Out.bind, Val.as, Val.ty, eqVal, eqIntFl, uniqueMax]
  · simp [areEqual, withVar, inlines, St.var, equal, Obj.fastIsZero, Obj.isNull, Obj.zeroWord, z4, zf,
      Obj.info, Obj.read, h4, hf, Out.bind, Val.as, Val.ty, eqVal, eqIntFl, uniqueMax]

/-- **C103, refuted.** An integer of eight bytes is compared with a `float` after rounding: if
`2 ^ 24 + 1` is rounded to `2 ^ 24`, the two different numbers are equal. -/
theorem C103_rounded_refuted (P : FP) (hr : P.rnd false (((2 ^ 24 + 1 : ℤ)) : ℚ) = .fin (2 ^ 24)) :
    areEqual P (inlines [.int 8 (2 ^ 24 + 1), .f32 (.fin (2 ^ 24))]) 0 1 = .ok true := by
  have h8 : (Ty.int 8).readBack = .int 8 := by decide +kernel
  have hf : Ty.f32.readBack = .f32 := by decide +kernel
  have z8 : (Val.int 8 (2 ^ 24 + 1)).zeroBits = false := by decide +kernel
  have zf : (Val.f32 (.fin (2 ^ 24))).zeroBits = false := by decide +kernel
  have e : eqIntFl P 8 (2 ^ 24 + 1) false (.fin (2 ^ 24)) = true := by
    unfold eqIntFl
    rw [if_neg (by decide), hr]; simp [Fl.eq]
  simp only [areEqual, withVar, inlines, St.var, equal, Obj.fastIsZero, Obj.isNull, Obj.zeroWord, z8,
    zf, Obj.info, Obj.read, h8, hf, Out.bind, Val.as, Val.ty, eqVal, List.map_cons, List.map_nil,
    List.getElem?_cons_zero, List.getElem?_cons_succ, Option.join, Option.bind, id, e]
  simpa using e

/-- **C103, refuted.** An inline negative zero is not equal to a zero, although it is equal to itself
and both stand for the same; and comparing a `double` that is not a number with a rational number,
or with a `float`, ends the program. -/
theorem C103_special_refuted :
    areEqual exactFP (inlines [.f64 .negZero, .f64 (.fin 0)]) 0 1 = .ok false ∧
    areEqual exactFP (inlines [.f64 .negZero, .f64 .negZero]) 0 1 = .ok true ∧
    areEqual exactFP (inlines [.f64 .nan, .f32 (.fin 1)]) 0 1 = .ub ∧
    areEqual exactFP ⟨[some ⟨.rat 1, none⟩], [some ⟨.info .f64, .trivial, .f64 .nan, none⟩,
      some ⟨.ptr .rat, .ref, .int 8 0, some 0⟩]⟩ 0 1 = .ub := by
  refine ⟨?_, ?_, ?_, ?_⟩ <;> decide +kernel

/-! ## C104: division -/

theorem as_other {w v : Val} {t u : Ty} (ht : t.Live) (hu : u.Live) (h : w.as u = .ok v)
    (hne : t ≠ u) : w.as t = .ub := by
  unfold Val.as at h ⊢
  by_cases e : w.ty = u
  · rw [if_neg (by rw [e]; exact fun e' => hne e'.symm)]
    rcases ht with rfl | rfl | rfl | rfl | rfl | rfl | rfl | rfl <;> cases w <;> try rfl
    all_goals (simp only [Val.ty] at e; subst e; simp [Ty.Live] at hu)
  · rw [if_neg e] at h
    rcases hu with rfl | rfl | rfl | rfl | rfl | rfl | rfl | rfl <;> cases w <;>
      simp only [reduceCtorEq] at h
    all_goals
      split at h
      · next hb =>
        subst hb
        rw [if_neg (by rintro rfl; simp [Val.ty, Ty.Live] at ht)]
        rcases ht with rfl | rfl | rfl | rfl | rfl | rfl | rfl | rfl <;> first | rfl | (simp at hne) | simp
      · cases h

theorem conv_up {P : FP} {t u : Ty} {a : Val} (ht : t.Live) (hu : u.Live) (ha : a.ty = t)
    (hr : t.rank < u.rank) : conv P u a ≠ .err := by
  have hl := ht
  cases a with
  | poly p =>
    simp only [Val.ty] at ha; subst ha
    have := rank_le hu
    have e : Ty.poly.rank = 13 := rfl
    omega
  | uint b n => simp only [Val.ty] at ha; subst ha; simp [Ty.Live] at ht
  | int b n =>
    rcases hu with rfl | rfl | rfl | rfl | rfl | rfl | rfl | rfl <;> simp [conv, convNum]
  | f32 y =>
    simp only [Val.ty] at ha; subst ha
    rcases hu with rfl | rfl | rfl | rfl | rfl | rfl | rfl | rfl <;> simp [Ty.rank] at hr <;>
      cases y <;> simp [conv, convNum, Fl.toRat, Out.bind]
  | f64 y =>
    simp only [Val.ty] at ha; subst ha
    rcases hu with rfl | rfl | rfl | rfl | rfl | rfl | rfl | rfl <;> simp [Ty.rank] at hr <;>
      cases y <;> simp [conv, convNum, Fl.toRat, Out.bind]
  | rat q =>
    simp only [Val.ty] at ha; subst ha
    rcases hu with rfl | rfl | rfl | rfl | rfl | rfl | rfl | rfl <;> simp [Ty.rank] at hr <;>
      simp [conv, convNum]

/-- Changing the type of a scalar: the result has the type and the converted value, and the other
scalars keep theirs. -/
theorem changeType_has {P : FP} {s : St} (g : Good s) {i : ℕ} {o : Obj} {t u : Ty} {a a' : Val}
    (hi : s.var i = some o) (ho : o.Has s.heap t a) (lu : u.Live) (hc : conv P u a = .ok a') :
    ∃ ho', changeType P s.heap o u = .ok ho' ∧ ho'.2.Has ho'.1 u a' ∧ ho'.2.mutPointer = .ok () ∧
      ∀ j p t' b, j ≠ i → s.var j = some p → p.Has s.heap t' b → p.Has ho'.1 t' b := by
  have go := g.objs i o hi
  have lt := info_live go ho.1
  obtain ⟨h1, hp', h2, h3, h4, h5, h6⟩ := tmp_has (h := s.heap) lu (conv_ty hc)
  have hsrc : o.Has (ofInfo s.heap u).1 t a := ho.move (fun a0 hmt hadr => by
    have := ho.addr_lt hmt hadr
    unfold ofInfo
    split
    · simp only; rw [cell_alloc, if_neg (by omega)]
    · rfl)
  have hcf : convFrom P u (ofInfo s.heap u).1 o = .ok a' := by
    rw [convFrom_has hsrc lt.ne_other, hc]
  have hframe := tmp_does (h := s.heap) (t := u) (r := .ok a') lu.real
    (fun v hv => by cases hv; exact conv_ty hc) h2
  have hd0 : ∃ hd0, dtor hp'.1 o = .ok hd0 := by
    have f := hframe.1
    rw [empty_owns] at f
    obtain ⟨x, hx, _⟩ := dtor_does (go.frame_new f)
    exact ⟨x, hx⟩
  obtain ⟨hd0, hd⟩ := hd0
  refine ⟨(hd0, hp'.2), by simp only [changeType, h1, Out.bind, hcf, h2, hd], ?_, h4, ?_⟩
  · exact h3.move (fun a0 hmt hadr => dtor_cells hd a0 (fun hx => by
      have hl := go.owns_lt hx
      rcases h6 with ⟨e, _⟩ | ⟨e, e2, _⟩
      · exact hmt e
      · rw [e2] at hadr; cases hadr; omega))
  · intro j p t' b hij hj hp
    exact hp.move (fun a0 hmt hadr => by
      rw [dtor_cells hd a0 (g.apart (Ne.symm hij) hi hj hp hmt hadr), h5 a0 (hp.addr_lt hmt hadr)])

/-- Division where the left side has the more general type: what the division of the values gives is
stored. -/
theorem divide_outcome {P : FP} {s : St} (g : Good s) {i j : ℕ} {t u : Ty} {a b : Val}
    (hi : Holds s i t a) (hj : Holds s j u b) (hr : ¬ IsRef s i) (hz : b.zeroBits = false)
    (ht : t.join u = t) (hca : t ≠ u → conv P t a = .ok a) :
    ∃ ho' : Heap × Obj, ho'.2.Has ho'.1 t a ∧ divideBy P s i j = (divVal P a b).bind fun r =>
      (ho'.2.store ho'.1 r).bind fun hr => .ok (s.put i hr) := by
  obtain ⟨o, hv, hh⟩ := hi
  obtain ⟨p, hp, hhj⟩ := hj
  have ho : o.Has s.heap t a := hh
  have hq : p.Has s.heap u b := hhj
  have go := g.objs i o hv
  have gp := g.objs j p hp
  have lt := info_live go ho.1
  have lu := info_live gp hq.1
  have hm := mode_of_notRef g hv hr
  have hf := hq.notFast gp hz
  have hmut := ho.mutPointer (by rcases hm with e | e <;> simp [e]) go.noIface
  have fin : ∀ (ho' : Heap × Obj), ho'.2.Has ho'.1 t a → p.Has ho'.1 u b → ho'.2.mutPointer = .ok () →
      (if t ≠ u then (destType o t u).bind fun t' => changeType P s.heap o t' else .ok (s.heap, o))
        = .ok ho' →
      divideBy P s i j = (divVal P a b).bind fun r =>
        (ho'.2.store ho'.1 r).bind fun hr => .ok (s.put i hr) := by
    intro ho' h1 h2 h3 h4
    obtain ⟨a0, e1, e2⟩ := h1.read
    obtain ⟨b0, e3, e4⟩ := h2.read
    simp only [divideBy, withVar, hv, hp, divide, hf, ho.1, hq.1, Out.bind] at h4 ⊢
    simp only [h4, lt.ne_other, lu.ne_other, h3, e1, e2, e3, e4, if_false, Bool.false_eq_true]
    cases divVal P a b <;> rfl
  by_cases htu : t = u
  · exact ⟨(s.heap, o), ho, fin (s.heap, o) ho hq hmut (by rw [if_neg (by simp [htu])])⟩
  · have hij : j ≠ i := by
      rintro rfl
      rw [hv] at hp; cases hp
      have := ho.1; rw [hq.1] at this; cases this; exact htu rfl
    have hdt : destType o t u = .ok (t.join u) := by
      rw [← promote_live lt lu]
      rcases hm with e | e <;> simp [destType, e]
    obtain ⟨ho', h1, h2, h3, h4⟩ := changeType_has g hv ho lt (hca htu)
    exact ⟨ho', h2, fin ho' h2 (h4 j p u b hij hp hq) h3 (by rw [if_pos htu, hdt, ht]; exact h1)⟩

theorem divide_has {P : FP} {s : St} (g : Good s) {i j : ℕ} {t u : Ty} {a b r : Val}
    (hi : Holds s i t a) (hj : Holds s j u b) (hr : ¬ IsRef s i) (hz : b.zeroBits = false)
    (ht : t.join u = t) (hca : t ≠ u → conv P t a = .ok a) (hd : divVal P a b = .ok r)
    (hrt : r.ty = t) : ∃ s', divideBy P s i j = .ok s' ∧ Holds s' i t r := by
  obtain ⟨ho', h1, h2⟩ := divide_outcome g hi hj hr hz ht hca
  obtain ⟨hr', e5, e6, _⟩ := h1.store hrt
  obtain ⟨o, hv, _⟩ := hi
  exact ⟨s.put i hr', by rw [h2, hd]; simp only [Out.bind, e5], put_holds (var_lt hv) e6⟩

/-- **C104.** A rational number divided by any number that is not zero is the exact quotient. -/
theorem C104_rational {P : FP} {s : St} (g : Good s) {i j : ℕ} {u : Ty} {q r : ℚ} {b : Val}
    (hi : Holds s i .rat (.rat q)) (hj : Holds s j u b) (hu : u ≠ .poly) (hb : b.Is (const r))
    (hr : r ≠ 0) (hn : ¬ IsRef s i) :
    ∃ s', divideBy P s i j = .ok s' ∧ Holds s' i .rat (.rat (q / r)) := by
  have lu : u.Live ∧ b.ty = u := by
    obtain ⟨o, hv, hh⟩ := hj
    have hq : o.Has s.heap u b := hh
    exact ⟨info_live (g.objs j o hv) hh.1, hq.ty⟩
  have hz : b.zeroBits = false := by
    cases hz : b.zeroBits with
    | false => rfl
    | true =>
      exact absurd (const_inj (zeroBits_zero (by rw [lu.2]; exact lu.1) hb hz)) hr
  have hjn : Ty.rat.join u = .rat := by
    rcases lu.1 with rfl | rfl | rfl | rfl | rfl | rfl | rfl | rfl <;>
      first | exact absurd rfl hu | simp [Ty.join, Ty.rank]
  have hd : divVal P (.rat q) b = .ok (.rat (q / r)) := by
    cases b with
    | int c n =>
      obtain ⟨_, h⟩ := hb
      have h := const_inj h
      subst h
      have : n ≠ 0 := by rintro rfl; simp at hr
      simp [divVal, this]
    | uint c n => have := lu.2; simp only [Val.ty] at this; subst this; simp [Ty.Live] at lu
    | f32 y =>
      obtain ⟨q', h1, h2⟩ := toRat_is (f32_is hb)
      have h := const_inj h2
      subst h
      simp [divVal, h1, Out.bind, hr]
    | f64 y =>
      obtain ⟨q', h1, h2⟩ := toRat_is hb
      have h := const_inj h2
      subst h
      simp [divVal, h1, Out.bind, hr]
    | rat q' =>
      have h := const_inj hb
      subst h
      simp [divVal, hr]
    | poly p => exact absurd lu.2.symm hu
  exact divide_has g hi hj hn hz hjn (fun _ => rfl) hd rfl

/-- **C104.** A polynomial divided by a rational number that is not zero is the exact quotient. -/
theorem C104_polynomial {P : FP} {s : St} (g : Good s) {i j : ℕ} {p : Poly} {x : Laurent} {r : ℚ}
    (hi : Holds s i .poly (.poly p)) (hj : Holds s j .rat (.rat r)) (hx : (Val.poly p).Is x)
    (hr : r ≠ 0) (hn : ¬ IsRef s i) :
    ∃ s' p', divideBy P s i j = .ok s' ∧ Holds s' i .poly (.poly p') ∧
      (Val.poly p').Is (const (1 / r) * x) := by
  obtain ⟨hw, rfl⟩ := hx
  obtain ⟨s', h1, h2⟩ := divide_has (P := P) (r := .poly (Poly.sdiv p r)) g hi hj hn rfl
    (by simp [Ty.join, Ty.rank]) (fun _ => rfl) (by simp [divVal, hr]) rfl
  exact ⟨s', _, h1, h2, Poly.sdiv_spec hw r⟩

/-- **C104.** A floating number divided by a floating number of its size or smaller: the machine's
quotient in the type of the left side. -/
theorem C104_floating {P : FP} {s : St} (g : Good s) {i j : ℕ} {x y : Fl} (hn : ¬ IsRef s i)
    (hz : y ≠ .fin 0) :
    (Holds s i .f64 (.f64 x) → Holds s j .f64 (.f64 y) ∨ Holds s j .f32 (.f32 y) →
      ∃ s', divideBy P s i j = .ok s' ∧ Holds s' i .f64 (.f64 (P.div true x y))) ∧
    (Holds s i .f32 (.f32 x) → Holds s j .f32 (.f32 y) →
      ∃ s', divideBy P s i j = .ok s' ∧ Holds s' i .f32 (.f32 (P.div false x y))) := by
  refine ⟨fun hi hj => ?_, fun hi hj => ?_⟩
  · rcases hj with hj | hj
    · exact divide_has g hi hj hn (by simp [Val.zeroBits, hz]) (by simp [Ty.join, Ty.rank])
        (fun h => absurd rfl h) rfl rfl
    · exact divide_has g hi hj hn (by simp [Val.zeroBits, hz]) (by simp [Ty.join, Ty.rank])
        (fun _ => rfl) rfl rfl
  · exact divide_has g hi hj hn (by simp [Val.zeroBits, hz]) (by simp [Ty.join, Ty.rank])
      (fun h => absurd rfl h) rfl rfl

/-- **C104.** An integer divided by an integer of its size or smaller is the quotient cut towards
zero, unless it is the one quotient that the type cannot hold. -/
theorem C104_integer {P : FP} {s : St} (g : Good s) {i j b c : ℕ} {n m : ℤ}
    (hi : Holds s i (.int b) (.int b n)) (hj : Holds s j (.int c) (.int c m)) (hn : ¬ IsRef s i)
    (hnb : wrapS b n = n) (hmb : wrapS c m = m) (hz : m ≠ 0) (hbc : c ≤ b)
    (hfit : wrapS b (n.tdiv m) = n.tdiv m) :
    ∃ s', divideBy P s i j = .ok s' ∧ Holds s' i (.int b) (.int b (n.tdiv m)) := by
  have hc1 : 1 ≤ c := by
    obtain ⟨o, hv, hh⟩ := hj
    have lc := info_live (g.objs j o hv) hh.1
    simp [Ty.Live] at lc; omega
  refine divide_has g hi hj hn ?_ ?_ (fun _ => ?_) ?_ rfl
  · simp only [Val.zeroBits, beq_eq_false_iff_ne, ne_eq, ← wrapU_eq_zero hc1, hmb]; exact hz
  · unfold Ty.join; rw [if_pos (by simpa [Ty.rank] using hbc)]
  · simp only [conv, convNum, hnb]
  · simp only [divVal, if_neg hz, toIntTy, hfit, if_true]

/-- **C104, refuted.** Dividing an integer by a reference to an integer that is zero is undefined,
while dividing a rational number by it throws. -/
theorem C104_reference_zero_refuted :
    (run exactFP ⟨[some ⟨.int 4 0, none⟩], [some ⟨.info (.int 4), .ref, .int 8 0, some 0⟩]⟩
      [.num (.int 4 7)]).bind (fun s => divideBy exactFP s 1 0) = .ub ∧
    (run exactFP ⟨[some ⟨.int 4 0, none⟩], [some ⟨.info (.int 4), .ref, .int 8 0, some 0⟩]⟩
      [.typed .rat, .set 1 (.int 4 7)]).bind (fun s => divideBy exactFP s 1 0) = .err := by
  constructor <;> decide +kernel

/-- **C104.** Dividing by an inline zero throws, whatever is divided. -/
theorem C104_zero {P : FP} {s : St} (g : Good s) {i j : ℕ} {t u : Ty} {a b : Val}
    (hi : Holds s i t a) (hj : Holds s j u b) (hl : Inline s j) (hz : b.zeroBits = true) :
    divideBy P s i j = .err := by
  obtain ⟨o, hv, hh⟩ := hi
  obtain ⟨p, hp, hhj⟩ := hj
  have hq : p.Has s.heap u b := hhj
  obtain ⟨p', hp', hm⟩ := hl
  rw [hp] at hp'; cases hp'
  simp only [divideBy, withVar, hv, hp, divide, hq.fast (g.objs j p hp) hm hz, if_true, Out.bind]

/-- **C104, refuted.** Whenever the right side has a more general type than the left side, division is
undefined: the left side is converted to the common type, and its memory is then read as the type it
had before. -/
theorem C104_confusion_refuted {P : FP} {s : St} (g : Good s) {i j : ℕ} {t u : Ty} {a b : Val}
    (hi : Holds s i t a) (hj : Holds s j u b) (hn : ¬ IsRef s i) (hz : b.zeroBits = false)
    (hr : t.rank < u.rank) : divideBy P s i j = .ub := by
  obtain ⟨o, hv, hh⟩ := hi
  obtain ⟨p, hp, hhj⟩ := hj
  have ho : o.Has s.heap t a := hh
  have hq : p.Has s.heap u b := hhj
  have go := g.objs i o hv
  have gp := g.objs j p hp
  have lt := info_live go ho.1
  have lu := info_live gp hq.1
  have hm := mode_of_notRef g hv hn
  have hf := hq.notFast gp hz
  have htu : t ≠ u := by rintro rfl; omega
  have hij : j ≠ i := by
    rintro rfl
    rw [hv] at hp; cases hp
    have := ho.1; rw [hq.1] at this; cases this; exact htu rfl
  have hjn : t.join u = u := by unfold Ty.join; rw [if_neg (by omega)]
  have hdt : destType o t u = .ok u := by
    rw [← hjn, ← promote_live lt lu, hjn]
    rcases hm with e | e <;> simp [destType, e]
  have hct : changeType P s.heap o u = .ub ∨ ∃ ho' a', changeType P s.heap o u = .ok ho' ∧
      ho'.2.Has ho'.1 u a' ∧ ho'.2.mutPointer = .ok () ∧ p.Has ho'.1 u b := by
    cases hc : conv P u a with
    | ok a' =>
      obtain ⟨ho', h1, h2, h3, h4⟩ := changeType_has g hv ho lu hc
      exact .inr ⟨ho', a', h1, h2, h3, h4 j p u b hij hp hq⟩
    | err => exact absurd hc (conv_up lt lu ho.ty hr)
    | ub =>
      left
      obtain ⟨h1, _⟩ := tmp_has (h := s.heap) lu (zero_ty_live lu)
      have hsrc : o.Has (ofInfo s.heap u).1 t a := ho.move (fun a0 hmt hadr => by
        have := ho.addr_lt hmt hadr
        unfold ofInfo
        split
        · simp only; rw [cell_alloc, if_neg (by omega)]
        · rfl)
      simp only [changeType, h1, Out.bind, convFrom_has hsrc lt.ne_other, hc, storeConv]
  simp only [divideBy, withVar, hv, hp, divide, hf, ho.1, hq.1, Out.bind, hdt, ne_eq, htu,
    not_false_iff, if_true, Bool.false_eq_true, if_false]
  rcases hct with e | ⟨ho', a', e, h2, h3, h4⟩
  · simp only [e]
  · obtain ⟨a0, e1, e2⟩ := h2.read
    obtain ⟨b0, e3, e4⟩ := h4.read
    simp only [e, lt.ne_other, lu.ne_other, if_false, h3, e1, e3, as_other lt lu e2 htu]

/-- **C104, refuted.** Dividing a polynomial by an integer, by a floating number or by a polynomial
throws, even if the divisor is a constant other than zero. -/
theorem C104_polynomial_refuted {P : FP} {s : St} (g : Good s) {i j : ℕ} {u : Ty} {p : Poly}
    {b : Val} (hi : Holds s i .poly (.poly p)) (hj : Holds s j u b) (hn : ¬ IsRef s i)
    (hu : u ≠ .rat) (hz : b.zeroBits = false) : divideBy P s i j = .err := by
  have lu : u.Live ∧ b.ty = u := by
    obtain ⟨o, hv, hh⟩ := hj
    have hq : o.Has s.heap u b := hh
    exact ⟨info_live (g.objs j o hv) hh.1, hq.ty⟩
  have hjn : Ty.poly.join u = .poly := by
    rcases lu.1 with rfl | rfl | rfl | rfl | rfl | rfl | rfl | rfl <;> simp [Ty.join, Ty.rank]
  obtain ⟨ho', _, h2⟩ := divide_outcome (P := P) g hi hj hn hz hjn (fun _ => rfl)
  have hd : divVal P (.poly p) b = .err := by
    cases b <;> first | rfl | exact absurd lu.2.symm hu
  rw [h2, hd]; rfl

/-- The hypotheses of the theorems on arithmetic, comparison and division can be met: scalars that a
program makes. -/
theorem sample_good : ∃ s, run exactFP ⟨[], []⟩
      [.typed .rat, .set 0 (.rat 3), .num (.int 4 2), .num (.f64 (.fin 5))] = .ok s ∧ Good s ∧
      Holds s 0 .rat (.rat 3) ∧ Holds s 1 (.int 4) (.int 4 2) ∧ Holds s 2 .f64 (.f64 (.fin 5)) ∧
      ¬ IsRef s 0 ∧ ¬ IsRef s 1 := by
  have hrun : run exactFP ⟨[], []⟩
      [.typed .rat, .set 0 (.rat 3), .num (.int 4 2), .num (.f64 (.fin 5))] =
      .ok ⟨[some ⟨.rat 3, some .rat⟩], [some ⟨.ptr .rat, .owned, .rat 0, some 0⟩,
        some ⟨.info (.int 4), .trivial, .int 4 2, none⟩,
        some ⟨.info .f64, .trivial, .f64 (.fin 5), none⟩]⟩ := by decide +kernel
  refine ⟨_, hrun, ?_, ⟨_, rfl, by decide +kernel, by decide +kernel⟩,
    ⟨_, rfl, by decide +kernel, by decide +kernel⟩, ⟨_, rfl, by decide +kernel, by decide +kernel⟩,
    ?_, ?_⟩
  · exact C98_history (P := exactFP) ⟨rfl, fun a c h => by simp [Heap.cell] at h⟩
      (by simp [Stmt.Valid, Val.ty, Ty.Real, Ty.IsScalarType]) hrun
  · rintro ⟨o, ho, hm⟩
    simp only [St.var, List.getElem?_cons_zero, Option.join_some] at ho
    cases ho; simp at hm
  · rintro ⟨o, ho, hm⟩
    simp only [St.var, List.getElem?_cons_succ, List.getElem?_cons_zero, Option.join_some] at ho
    cases ho; simp at hm

/-- Three divided by two, three plus two, and two divided by five. -/
example : ∃ s, Good s ∧
    (∃ s', divideBy exactFP s 0 1 = .ok s' ∧ Holds s' 0 .rat (.rat (3 / 2))) ∧
    (∃ s' r, step exactFP s (.arith .add 0 1) = .ok s' ∧ Holds s' 0 .rat r ∧
      r.Is (const 3 + const 2)) ∧
    divideBy exactFP s 1 2 = .ub := by
  obtain ⟨s, _, g, h0, h1, h2, n0, n1⟩ := sample_good
  refine ⟨s, g, ?_, ?_, ?_⟩
  · exact C104_rational g h0 h1 (by simp) ⟨by decide, by norm_num⟩ (by norm_num) n0
  · exact C101_exact_partial g h0 h1 n0 (by decide) (by simp) (.inl rfl) rfl
      ⟨by decide, by norm_num⟩ (by simp)
  · exact C104_confusion_refuted g h1 h2 n1 (by decide) (by simp [Ty.rank])

end RoughPy.Scalars
