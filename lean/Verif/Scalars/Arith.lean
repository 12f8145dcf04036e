import Verif.Scalars.Values

/-!
# Scalars: lemmas about arithmetic
-/

namespace RoughPy.Scalars

open RoughPy.Args (Out TypeInfo)
open RoughPy.Polys

/-- Reading depends on the memory at the address only. -/
theorem Obj.Has.move {h h' : Heap} {o : Obj} {t : Ty} {v : Val} (hh : o.Has h t v)
    (hc : ∀ a, o.mode ≠ .trivial → o.addr = some a → h'.cell a = h.cell a) : o.Has h' t v := by
  refine ⟨hh.1, ?_⟩
  obtain ⟨w, h1, h2⟩ := hh.read
  suffices hx : o.read h' = .ok w by rw [hx]; exact h2
  by_cases hm : o.mode = .trivial
  · simp only [Obj.read, hm] at h1 ⊢; exact h1
  · obtain ⟨a, c, ha, hcell, _⟩ := hh.addr hm
    have := hc a hm ha
    unfold Obj.read at h1 ⊢
    cases hm' : o.mode <;> simp_all

theorem zero_ty_live {t : Ty} (ht : t.Live) : (Val.zero t).ty = t := by
  rcases ht with rfl | rfl | rfl | rfl | rfl | rfl | rfl | rfl <;> rfl

theorem Obj.Has.addr_lt {h : Heap} {o : Obj} {t : Ty} {v : Val} (hh : o.Has h t v)
    (hm : o.mode ≠ .trivial) {a : ℕ} (ha : o.addr = some a) : a < h.length := by
  obtain ⟨a', c, ha', hc, _⟩ := hh.addr hm
  rw [ha] at ha'; cases ha'
  exact cell_lt hc

/-- A new scalar of a type, with a value stored in it. -/
theorem tmp_has {h : Heap} {t : Ty} (ht : t.Live) {w : Val} (hw : w.ty = t) :
    (ofInfo h t).2.mutPointer = .ok () ∧
    ∃ hp, storeConv (ofInfo h t).1 (ofInfo h t).2 (.ok w) = .ok hp ∧ hp.2.Has hp.1 t w ∧
      hp.2.mutPointer = .ok () ∧
      (∀ a, a < h.length → hp.1.cell a = h.cell a) ∧
      ((hp.2.mode = .trivial ∧ hp.2.addr = none) ∨ (hp.2.mode = .owned ∧ hp.2.addr = some h.length ∧
        hp.2.ty = .ptr t ∧ ∃ c, hp.1.cell h.length = some c ∧ c.owner = some t)) := by
  by_cases hc : t.content = .owned
  · have hcl := cell_alloc h t h.length
    rw [if_pos rfl] at hcl
    have hal : (h.alloc t).2 = h.length := rfl
    have ho : ofInfo h t = ((h.alloc t).1, ⟨.ptr t, .owned, Val.zero t, some h.length⟩) := by
      simp only [ofInfo, hc, if_true, hal]
    rw [ho]
    have hmp : (⟨.ptr t, .owned, Val.zero t, some h.length⟩ : Obj).mutPointer = .ok () := by
      simp [Obj.mutPointer, Obj.isNull]
    refine ⟨hmp, ((h.alloc t).1.write h.length w, ⟨.ptr t, .owned, Val.zero t, some h.length⟩), ?_,
      ⟨rfl, ?_⟩, hmp, fun a ha => ?_, .inr ⟨rfl, rfl, rfl, ?_⟩⟩
    · simp only [storeConv, Obj.store, hcl]
    · simp only [Obj.read]
      rw [cell_write, if_pos rfl, hcl]; exact as_self hw
    · rw [cell_write, if_neg (by omega), cell_alloc, if_neg (by omega)]
    · rw [cell_write, if_pos rfl, hcl]; exact ⟨_, rfl, rfl⟩
  · have hct : t.content = .trivial := by
      rcases ht with rfl | rfl | rfl | rfl | rfl | rfl | rfl | rfl <;> first | rfl | exact absurd rfl hc
    have ho : ofInfo h t = (h, ⟨.info t, .trivial, Val.zero t, none⟩) := by
      simp [ofInfo, hct]
    have hi := ofInfo_info (h := h) ht
    rw [ho] at hi ⊢
    refine ⟨by simp [Obj.mutPointer, Obj.isNull], (h, ⟨.info t, .trivial, w, none⟩), rfl,
      ⟨hi, as_self hw⟩, by simp [Obj.mutPointer, Obj.isNull], fun a _ => rfl, .inl ⟨rfl, rfl⟩⟩

theorem opVal_same {P : FP} {op : AOp} {a b : Val} (h : a.ty ≠ .poly) (s s' : Bool) :
    opVal P op s a b = opVal P op s' a b := by
  cases a <;> first | (cases b <;> rfl) | exact absurd rfl h

theorem applyOp_has {P : FP} {op : AOp} {same : Bool} {h : Heap} {o : Obj} {t : Ty} {a b b0 r : Val}
    (ho : o.Has h t a) (ht : t ≠ .other) (hb : b0.as t = .ok b) (hr : opVal P op same a b = .ok r) :
    ∃ ho', applyOp P op same h o t (.ok b0) = .ok ho' ∧ o.store h r = .ok ho' ∧
      ho'.2.Has ho'.1 t r := by
  obtain ⟨a0, h1, h2⟩ := ho.read
  have hrt : r.ty = t := by rw [opVal_ty hr]; exact ho.ty
  obtain ⟨ho', h3, h4, _⟩ := ho.store hrt
  refine ⟨ho', ?_, h3, h4⟩
  simp only [applyOp, h1, Out.bind, doOp, if_neg ht, h2, hb, hr, h3]

theorem dtor_cells {h h' : Heap} {o : Obj} (hd : dtor h o = .ok h') (a : ℕ) (ha : a ∉ o.owns) :
    h'.cell a = h.cell a := by
  unfold dtor at hd
  cases hm : o.mode with
  | owned =>
    simp only [hm] at hd
    cases hadr : o.addr with
    | none => simp only [hadr] at hd; cases hd; rfl
    | some b =>
      simp only [hadr] at hd
      rw [owns_owned hm hadr] at ha
      split at hd
      · unfold freeSingle at hd
        split at hd
        · cases hd
        · split at hd
          · cases hd
            rw [cell_free, if_neg (by simpa using ha)]
          · cases hd
      · cases hd
  | trivial => simp only [hm] at hd; cases hd; rfl
  | ref => simp only [hm] at hd; cases hd; rfl
  | constRef => simp only [hm] at hd; cases hd; rfl
  | iface => simp only [hm] at hd; cases hd; rfl

/-- The memory of one scalar is not owned by another. -/
theorem Good.apart {s : St} (g : Good s) {i j : ℕ} (hij : i ≠ j) {o p : Obj} (hi : s.var i = some o)
    (hj : s.var j = some p) {t : Ty} {v : Val} (hp : p.Has s.heap t v) {a : ℕ}
    (hm : p.mode ≠ .trivial) (ha : p.addr = some a) : a ∉ o.owns := by
  intro hao
  cases hpm : p.mode with
  | trivial => exact hm hpm
  | iface => exact (g.objs j p hj).noIface hpm
  | owned => exact hij (g.unique i j o p a hi hj hao (by rw [owns_owned hpm ha]; simp))
  | ref =>
    obtain ⟨_, _, _, hc⟩ := (g.objs j p hj).reference (.inl hpm)
    obtain ⟨c, hcell, how, _⟩ := hc a ha
    exact (g.objs i o hi).owns_owner a hao c hcell how
  | constRef =>
    obtain ⟨_, _, _, hc⟩ := (g.objs j p hj).reference (.inr hpm)
    obtain ⟨c, hcell, how, _⟩ := hc a ha
    exact (g.objs i o hi).owns_owner a hao c hcell how

theorem store_other {h : Heap} {o : Obj} {v : Val} {ho : Heap × Obj} (hs : o.store h v = .ok ho)
    {b : ℕ} (hb : o.mode ≠ .trivial → o.addr ≠ some b) : ho.1.cell b = h.cell b := by
  unfold Obj.store at hs
  by_cases hm : o.mode = .trivial
  · simp only [hm] at hs; cases hs; rfl
  · have hb' := hb hm
    cases ha : o.addr with
    | none => cases hm' : o.mode <;> simp_all
    | some a =>
      have hne : b ≠ a := fun e => hb' (by rw [ha, e])
      cases hc : h.cell a with
      | none => cases hm' : o.mode <;> simp_all
      | some c =>
        have : ho = (h.write a v, o) := by
          cases hm' : o.mode <;> simp_all
        subst this
        rw [cell_write, if_neg hne]

/-- In place arithmetic on the value of a scalar that is no reference. -/
theorem inplace_has {P : FP} {op : AOp} {s : St} (g : Good s) {i j : ℕ} {o p : Obj} {t u : Ty}
    {a b a' b' r : Val} (hi : s.var i = some o) (hj : s.var j = some p) (ho : o.Has s.heap t a)
    (hp : p.Has s.heap u b) (hm : o.mode = .trivial ∨ o.mode = .owned)
    (ha : Operand P (t.join u) a a') (hb : Operand P (t.join u) b b')
    (hr : opVal P op (decide (i = j)) a' b' = .ok r) :
    ∃ ho', inplace P op s.heap o p = .ok ho' ∧ ho'.2.Has ho'.1 (t.join u) r := by
  have go := g.objs i o hi
  have gp := g.objs j p hj
  have lt := info_live go ho.1
  have lu := info_live gp hp.1
  have hmut := ho.mutPointer (by rcases hm with e | e <;> simp [e]) go.noIface
  have hmr : o.mode ≠ .trivial → o.mode = .owned := fun e => by rcases hm with e' | e' <;> simp_all
  unfold inplace
  simp only [ho.1, hp.1, Out.bind]
  by_cases htu : u = t
  · subst htu
    have hjn : u.join u = u := by simp [Ty.join]
    rw [hjn] at ha hb ⊢
    have ea : a' = a := by rcases ha with ⟨_, e⟩ | ⟨e, _⟩; exacts [e, absurd ho.ty e]
    have eb : b' = b := by rcases hb with ⟨_, e⟩ | ⟨e, _⟩; exacts [e, absurd hp.ty e]
    subst ea; subst eb
    obtain ⟨b0, h1, h2⟩ := hp.read
    have hr2 : opVal P op (sameObject o p) a' b' = .ok r := by
      by_cases hij : i = j
      · subst hij
        rw [hi] at hj; cases hj
        by_cases hmt : o.mode = .trivial
        · rw [← hr]
          apply opVal_same
          rw [ho.ty]
          rcases go.inline hmt with e | ⟨_, t', h3, h4, _⟩
          · have := ho.1; simp [Obj.info, e] at this
          · rw [ho.1] at h3; cases h3
            rintro rfl; cases h4
        · rw [← hr]; congr 1; simp [sameObject, hmt]
      · rw [← hr]; congr 1
        rw [decide_eq_false hij]
        unfold sameObject
        by_cases hmt : o.mode = .trivial
        · simp [hmt]
        · by_cases hpt : p.mode = .trivial
          · simp [hpt]
          · obtain ⟨a1, c, hadr, _⟩ := hp.addr hpt
            have := g.apart hij hi hj hp hpt hadr
            have hne : o.addr ≠ p.addr := by
              intro e
              rw [hadr] at e
              rw [owns_owned (hmr hmt) e] at this
              simp at this
            simp [hne]
    obtain ⟨ho', h3, _, h4⟩ := applyOp_has ho lt.ne_other h2 hr2
    simp only [if_true, hmut, h1, h3]
    exact ⟨ho', rfl, h4⟩
  · have hij : i ≠ j := by
      rintro rfl
      rw [hi] at hj; cases hj
      have := ho.1; rw [hp.1] at this; cases this; exact htu rfl
    rw [decide_eq_false hij] at hr
    have hdt : destType o t u = .ok (t.join u) := by
      rw [← promote_live lt lu]
      rcases hm with e | e <;> simp [destType, e]
    simp only [if_neg htu, hdt]
    rcases join_cases t u with hjn | hjn
    · -- the type of the left side
      rw [hjn] at ha hb ⊢
      have ea : a' = a := by rcases ha with ⟨_, e⟩ | ⟨e, _⟩; exacts [e, absurd ho.ty e]
      subst ea
      have hcb : conv P t b = .ok b' := by
        rcases hb with ⟨e, _⟩ | ⟨_, e⟩
        · rw [hp.ty] at e; exact absurd e htu
        · exact e
      obtain ⟨h1, hp', h2, h3, h4, h5, h6⟩ := tmp_has (h := s.heap) lt (conv_ty hcb)
      have hsrc : p.Has (ofInfo s.heap t).1 u b := hp.move (fun a0 hmt hadr => by
        have := hp.addr_lt hmt hadr
        unfold ofInfo
        split
        · simp only; rw [cell_alloc, if_neg (by omega)]
        · rfl)
      have hcf : convFrom P t (ofInfo s.heap t).1 p = .ok b' := by
        rw [convFrom_has hsrc lu.ne_other, hcb]
      have hot : o.Has hp'.1 t a' := ho.move (fun a0 hmt hadr => h5 a0 (ho.addr_lt hmt hadr))
      obtain ⟨b0, h7, h8⟩ := h3.read
      obtain ⟨ho', h9, h10, h11⟩ := applyOp_has (P := P) (op := op) (same := false) hot lt.ne_other h8 hr
      have hoo : ho'.2.mode = o.mode ∧ ho'.2.addr = o.addr := by
        obtain ⟨x, e1, _, _, e2, e3⟩ := hot.store (w := r) (by rw [opVal_ty hr, ho.ty])
        rw [h10] at e1; cases e1; exact ⟨e2, e3⟩
      have hd : ∃ h3, dtor ho'.1 hp'.2 = .ok h3 := by
        rcases h6 with ⟨e, _⟩ | ⟨e, e2, e3, c, e4, e5⟩
        · exact ⟨ho'.1, by simp [dtor, e]⟩
        · have hcell : ho'.1.cell s.heap.length = some c := by
            rw [store_other h10, e4]
            intro hmt hadr
            have := ho.addr_lt hmt hadr
            omega
          refine ⟨ho'.1.free s.heap.length, ?_⟩
          simp [dtor, e, e2, e3, freeSingle, hcell, e5]
      obtain ⟨h3', hd⟩ := hd
      refine ⟨(h3', ho'.2), ?_, ?_⟩
      · simp only [ne_eq, not_true, if_false, hmut, ho.1, if_neg htu, h1, hcf, h2, h7, h9, hd]
      · refine h11.move (fun a0 hmt hadr => dtor_cells hd a0 ?_)
        rw [hoo.1] at hmt
        rw [hoo.2] at hadr
        have := ho.addr_lt hmt hadr
        rcases h6 with ⟨e, _⟩ | ⟨e, e2, _⟩
        · rw [owns_of_not_owned (by simp [e])]; simp
        · rw [owns_owned e e2]; simp; omega
    · -- the type of the right side
      rw [hjn] at ha hb ⊢
      have eb : b' = b := by rcases hb with ⟨_, e⟩ | ⟨e, _⟩; exacts [e, absurd hp.ty e]
      subst eb
      have hca : conv P u a = .ok a' := by
        rcases ha with ⟨e, _⟩ | ⟨_, e⟩
        · rw [ho.ty] at e; exact absurd e.symm htu
        · exact e
      obtain ⟨h1, hp', h2, h3, h4, h5, h6⟩ := tmp_has (h := s.heap) lu (conv_ty hca)
      have hsrc : o.Has (ofInfo s.heap u).1 t a := ho.move (fun a0 hmt hadr => by
        have := ho.addr_lt hmt hadr
        unfold ofInfo
        split
        · simp only; rw [cell_alloc, if_neg (by omega)]
        · rfl)
      have hcf : convFrom P u (ofInfo s.heap u).1 o = .ok a' := by
        rw [convFrom_has hsrc lt.ne_other, hca]
      have hframe := tmp_does (h := s.heap) (t := u) (r := .ok a') lu.real
        (fun v hv => by cases hv; exact conv_ty hca) h2
      have hd0 : ∃ hd0, dtor hp'.1 o = .ok hd0 := by
        have f := hframe.1
        rw [empty_owns] at f
        obtain ⟨x, hx, _⟩ := dtor_does (go.frame_new f)
        exact ⟨x, hx⟩
      obtain ⟨hd0, hd⟩ := hd0
      have hct : changeType P s.heap o u = .ok (hd0, hp'.2) := by
        simp only [changeType, h1, Out.bind, hcf, h2, hd]
      have hnew : hp'.2.Has hd0 u a' := h3.move (fun a0 hmt hadr => dtor_cells hd a0 (fun hx => by
        have hl := go.owns_lt hx
        rcases h6 with ⟨e, _⟩ | ⟨e, e2, _⟩
        · exact hmt e
        · rw [e2] at hadr; cases hadr; omega))
      have hpd : p.Has hd0 u b' := hp.move (fun a0 hmt hadr => by
        rw [dtor_cells hd a0 (g.apart hij hi hj hp hmt hadr), h5 a0 (hp.addr_lt hmt hadr)])
      obtain ⟨b0, h7, h8⟩ := hpd.read
      have hso : sameObject hp'.2 p = false := by
        unfold sameObject
        rcases h6 with ⟨e, _⟩ | ⟨e, e2, _⟩
        · simp [e]
        · by_cases hpt : p.mode = .trivial
          · simp [hpt]
          · obtain ⟨a1, c, hadr, _⟩ := hp.addr hpt
            have := hp.addr_lt hpt hadr
            have hne : (some s.heap.length : Option ℕ) ≠ some a1 := by simp; omega
            simp only [e2, hadr, hne, decide_false, Bool.and_false]
      obtain ⟨ho', h9, h10, h11⟩ := applyOp_has (P := P) (op := op) (same := false) hnew lu.ne_other h8 hr
      refine ⟨ho', ?_, h11⟩
      simp only [ne_eq, htu, not_false_iff, if_true, hct, h4, h3.1, hso, h7, h9]

end RoughPy.Scalars
