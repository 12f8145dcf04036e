import Verif.Scalars.Spec
import Mathlib.Tactic.Linarith
import Mathlib.Tactic.NormNum

/-!
# Scalars: memory
-/

namespace RoughPy.Scalars

open RoughPy.Args (Out TypeInfo)
open RoughPy.Polys

theorem bind_ok {α β : Type} {x : Out α} {f : α → Out β} {b : β} (h : x.bind f = .ok b) :
    ∃ a, x = .ok a ∧ f a = .ok b := by
  cases x with
  | ok a => exact ⟨a, rfl, h⟩
  | err => cases h
  | ub => cases h

theorem map_ok {α β : Type} {x : Out α} {f : α → β} {b : β} (h : x.map f = .ok b) :
    ∃ a, x = .ok a ∧ f a = b := by
  cases x with
  | ok a => exact ⟨a, rfl, Out.ok.inj h⟩
  | err => cases h
  | ub => cases h

theorem as_ty {v w : Val} {t : Ty} (h : v.as t = .ok w) : w.ty = t := by
  unfold Val.as at h
  by_cases e : v.ty = t
  · rw [if_pos e] at h; cases h; exact e
  · rw [if_neg e] at h
    split at h
    · split at h
      · cases h; subst_vars; rfl
      · cases h
    · split at h
      · cases h; subst_vars; rfl
      · cases h
    · cases h

theorem as_self {v : Val} {t : Ty} (h : v.ty = t) : v.as t = .ok v := by
  unfold Val.as; rw [if_pos h]

theorem fits_self {v : Val} {t : Ty} (h : v.ty = t) : Fits t v := ⟨v, as_self h⟩

theorem fits_scalarType {v : Val} {t : Ty} (ht : t.IsScalarType) (h : Fits t v) : v.ty = t := by
  obtain ⟨w, h⟩ := h
  by_contra e
  unfold Val.as at h
  rw [if_neg e] at h
  rcases ht with rfl | rfl | rfl | rfl <;> cases v <;> simp_all

/-- Memory that can be read as `t` can be read as whatever a value of type `t` can. -/
theorem fits_trans {t : Ty} {v w : Val} (h : Fits t v) (hw : w.ty = t) (u : Ty) (hu : Fits u v) :
    Fits u w := by
  obtain ⟨x, hx⟩ := h
  obtain ⟨y, hy⟩ := hu
  subst hw
  cases v <;> cases w <;> cases u <;>
    simp_all [Val.as, Val.ty, Fits] <;> (try split_ifs at *) <;> simp_all

theorem toIntTy_ty {t : Ty} {n : ℤ} {w : Val} (h : toIntTy t n = .ok w) : w.ty = t := by
  unfold toIntTy at h
  split at h
  · split at h
    · cases h; rfl
    · cases h
  · split at h
    · cases h; rfl
    · cases h
  · cases h

theorem convNum_ty {P : FP} {t : Ty} {v w : Val} (h : convNum P t v = .ok w) : w.ty = t := by
  unfold convNum at h
  split at h <;> first
    | (cases h; rfl)
    | cases h
    | exact toIntTy_ty h
    | (obtain ⟨q, _, h⟩ := bind_ok h; first | exact toIntTy_ty h | (cases h; rfl))

theorem conv_ty {P : FP} {t : Ty} {v w : Val} (h : conv P t v = .ok w) : w.ty = t := by
  unfold conv at h
  split at h
  · split at h
    · cases h; rfl
    · cases h
    · split at h
      · exact convNum_ty h
      · split at h
        · exact convNum_ty h
        · cases h
      · cases h
  · exact convNum_ty h

theorem opVal_ty {P : FP} {op : AOp} {same : Bool} {a b r : Val} (h : opVal P op same a b = .ok r) :
    r.ty = a.ty := by
  unfold opVal at h
  split at h
  · split at h
    · cases h
    · cases h; rfl
  · cases h; rfl
  · cases h; rfl
  · cases h; rfl
  · cases h; rfl
  · cases op <;> simp only at h
    · split at h
      · split at h
        · cases h; rfl
        · cases h
      · cases h; rfl
    · split at h
      · split at h
        · cases h; rfl
        · cases h
      · cases h; rfl
    · cases h; rfl
  · cases h

theorem doOp_ty {P : FP} {op : AOp} {same : Bool} {t : Ty} {a b r : Val}
    (h : doOp P op same t a b = .ok r) : r.ty = t := by
  unfold doOp at h
  by_cases e : t = .other
  · rw [if_pos e] at h; cases h
  · rw [if_neg e] at h
    obtain ⟨a', ha, h⟩ := bind_ok h
    obtain ⟨b', hb, h⟩ := bind_ok h
    rw [opVal_ty h, as_ty ha]

/-! ## Types read back -/

theorem ofInfo_real (i : TypeInfo) (h : Ty.ofInfo i ≠ .other) : (Ty.ofInfo i).Real := by
  unfold Ty.ofInfo at h ⊢
  split
  · next h1 => simpa [Ty.Real] using h1.2
  · split
    · next h1 => simpa [Ty.Real] using h1.2
    · split
      · trivial
      · split
        · trivial
        · split
          · trivial
          · split
            · trivial
            · rename_i h1 h2 h3 h4 h5 h6
              rw [if_neg h1, if_neg h2, if_neg h3, if_neg h4, if_neg h5, if_neg h6] at h
              exact absurd rfl h

theorem readBack_int {b : ℕ} (h : b = 1 ∨ b = 2 ∨ b = 4 ∨ b = 8) :
    (Ty.int b).readBack = .int b := by
  rcases h with rfl | rfl | rfl | rfl <;> decide +kernel

theorem readBack_uint {b : ℕ} (h : b = 1 ∨ b = 2 ∨ b = 4 ∨ b = 8) :
    (Ty.uint b).readBack = .int b := by
  rcases h with rfl | rfl | rfl | rfl <;> decide +kernel

theorem readBack_f32 : Ty.f32.readBack = .f32 := by decide +kernel
theorem readBack_f64 : Ty.f64.readBack = .f64 := by decide +kernel
theorem readBack_rat : Ty.rat.readBack = .other := by decide +kernel
theorem readBack_poly : Ty.poly.readBack = .poly := by decide +kernel

theorem fundamental_int {b : ℕ} (h : b = 1 ∨ b = 2 ∨ b = 4 ∨ b = 8) :
    (Ty.int b).fundamental = true := by
  rcases h with rfl | rfl | rfl | rfl <;> rfl

theorem scalarType_ne_other {t : Ty} (h : t.IsScalarType) : t ≠ .other := by
  rcases h with rfl | rfl | rfl | rfl <;> simp

theorem fundamental_ne_other {t : Ty} (h : t.fundamental = true) : t ≠ .other := by
  rintro rfl; cases h

theorem zero_ty {t : Ty} (h : t.IsScalarType) : (Val.zero t).ty = t := by
  rcases h with rfl | rfl | rfl | rfl <;> rfl

/-! ## Memory -/

theorem cell_write (h : Heap) (a b : ℕ) (v : Val) :
    (h.write a v).cell b =
      if b = a then (h.cell a).map (fun c => { c with val := v }) else h.cell b := by
  unfold Heap.write
  cases hc : h.cell a with
  | none =>
    simp only
    by_cases e : b = a
    · subst e; simp [hc]
    · simp [e]
  | some c =>
    simp only [Option.map]
    have hlt : a < h.length := by
      by_contra hn
      unfold Heap.cell at hc
      rw [List.getElem?_eq_none (by omega)] at hc
      cases hc
    by_cases e : b = a
    · subst e
      unfold Heap.cell
      rw [List.getElem?_set_self hlt]; simp
    · unfold Heap.cell
      rw [List.getElem?_set_ne (fun x => e x.symm)]; simp [e]

theorem cell_free (h : Heap) (a b : ℕ) :
    (h.free a).cell b = if b = a then none else h.cell b := by
  unfold Heap.free Heap.cell
  by_cases e : b = a
  · subst e
    by_cases hlt : b < h.length
    · rw [List.getElem?_set_self hlt]; simp
    · rw [List.getElem?_eq_none (by simpa using hlt)]; simp
  · rw [List.getElem?_set_ne (fun x => e x.symm)]; simp [e]

theorem cell_alloc (h : Heap) (t : Ty) (b : ℕ) :
    (h.alloc t).1.cell b = if b = h.length then some ⟨Val.zero t, some t⟩ else h.cell b := by
  unfold Heap.alloc Heap.cell
  simp only
  by_cases e : b = h.length
  · subst e; simp
  · rcases Nat.lt_or_ge b h.length with hl | hl
    · rw [List.getElem?_append_left hl]; simp [e]
    · rw [List.getElem?_eq_none (by simp; omega), List.getElem?_eq_none (by omega)]; simp [e]

theorem cell_lt {h : Heap} {a : ℕ} {c : Cell} (hc : h.cell a = some c) : a < h.length := by
  by_contra hn
  unfold Heap.cell at hc
  rw [List.getElem?_eq_none (by omega)] at hc
  cases hc

theorem length_write (h : Heap) (a : ℕ) (v : Val) : (h.write a v).length = h.length := by
  unfold Heap.write; split <;> simp

theorem length_free (h : Heap) (a : ℕ) : (h.free a).length = h.length := by
  simp [Heap.free]

theorem length_alloc (h : Heap) (t : Ty) : (h.alloc t).1.length = h.length + 1 := by
  simp [Heap.alloc]

/-- Memory that can be read as a type can still be read as the type. -/
def CellRel (c c' : Cell) : Prop :=
  c'.owner = c.owner ∧ (c.owner ≠ none → c' = c) ∧ ∀ t, Fits t c.val → Fits t c'.val

/-- The memory changes from `h` to `h'` while somebody owns the addresses `own` at first and
`own'` afterwards: everything else stays. -/
structure Frame (own own' : List ℕ) (h h' : Heap) : Prop where
  grow : h.length ≤ h'.length
  keep : ∀ a, a < h.length → a ∉ own →
    (h.cell a = none → h'.cell a = none) ∧
      ∀ c, h.cell a = some c → ∃ c', h'.cell a = some c' ∧ CellRel c c'
  found : ∀ a c t, h'.cell a = some c → c.owner = some t → (a < h.length ∧ a ∉ own) ∨ a ∈ own'
  fresh : ∀ a, a ∈ own' → a ∈ own ∨ h.length ≤ a

theorem CellRel.refl (c : Cell) : CellRel c c := ⟨rfl, fun _ => rfl, fun _ h => h⟩

theorem CellRel.trans {a b c : Cell} (h1 : CellRel a b) (h2 : CellRel b c) : CellRel a c := by
  refine ⟨h2.1.trans h1.1, fun h => ?_, fun t h => h2.2.2 t (h1.2.2 t h)⟩
  have e := h1.2.1 h
  rw [h2.2.1 (by rw [e]; exact h), e]

theorem Frame.refl (own : List ℕ) (h : Heap) : Frame own own h h := by
  refine ⟨le_refl _, fun a _ _ => ⟨id, fun c hc => ⟨c, hc, CellRel.refl c⟩⟩, ?_, fun a ha => .inl ha⟩
  intro a c t hc _
  by_cases e : a ∈ own
  · exact .inr e
  · exact .inl ⟨cell_lt hc, e⟩

theorem Frame.trans {o0 o1 o2 : List ℕ} {h0 h1 h2 : Heap} (f : Frame o0 o1 h0 h1)
    (g : Frame o1 o2 h1 h2) : Frame o0 o2 h0 h2 := by
  have out : ∀ a, a < h0.length → a ∉ o0 → a ∉ o1 := by
    intro a hl hn hm
    rcases f.fresh a hm with h | h
    · exact hn h
    · omega
  refine ⟨le_trans f.grow g.grow, fun a hl hn => ?_, fun a c t hc ht => ?_, fun a ha => ?_⟩
  · have hl1 : a < h1.length := lt_of_lt_of_le hl f.grow
    have hn1 := out a hl hn
    refine ⟨fun h => (g.keep a hl1 hn1).1 ((f.keep a hl hn).1 h), fun c hc => ?_⟩
    obtain ⟨c1, hc1, r1⟩ := (f.keep a hl hn).2 c hc
    obtain ⟨c2, hc2, r2⟩ := (g.keep a hl1 hn1).2 c1 hc1
    exact ⟨c2, hc2, r1.trans r2⟩
  · rcases g.found a c t hc ht with ⟨hl1, hn1⟩ | h
    · left
      cases hc1 : h1.cell a with
      | none => rw [(g.keep a hl1 hn1).1 hc1] at hc; cases hc
      | some c1 =>
        obtain ⟨c2, hc2, r⟩ := (g.keep a hl1 hn1).2 c1 hc1
        rw [hc] at hc2
        cases hc2
        rcases f.found a c1 t hc1 (by rw [← r.1, ht]) with h | h
        · exact h
        · exact absurd h hn1
    · exact .inr h
  · rcases g.fresh a ha with h | h
    · exact f.fresh a h
    · exact .inr (le_trans f.grow h)

/-- Somebody else's address may be added on both sides. -/
theorem Frame.add {o0 o1 : List ℕ} {h0 h1 : Heap} (f : Frame o0 o1 h0 h1) (l : List ℕ) :
    Frame (l ++ o0) (l ++ o1) h0 h1 := by
  refine ⟨f.grow, fun a hl hn => f.keep a hl (fun h => hn (by simp [h])), fun a c t hc ht => ?_,
    fun a ha => ?_⟩
  · by_cases e : a ∈ l
    · exact .inr (by simp [e])
    · rcases f.found a c t hc ht with ⟨h, h'⟩ | h
      · exact .inl ⟨h, by simp [e, h']⟩
      · exact .inr (by simp [h])
  · rcases List.mem_append.1 ha with h | h
    · exact .inl (by simp [h])
    · rcases f.fresh a h with h | h
      · exact .inl (by simp [h])
      · exact .inr h

theorem Frame.alloc (h : Heap) (t : Ty) : Frame [] [h.length] h (h.alloc t).1 := by
  refine ⟨by rw [length_alloc]; omega, fun a hl _ => ?_, fun a c u hc _ => ?_, fun a ha => ?_⟩
  · rw [cell_alloc, if_neg (by omega)]
    exact ⟨id, fun c hc => ⟨c, hc, CellRel.refl c⟩⟩
  · rw [cell_alloc] at hc
    by_cases e : a = h.length
    · exact .inr (by simp [e])
    · rw [if_neg e] at hc
      exact .inl ⟨cell_lt hc, by simp⟩
  · right; simp at ha; omega

theorem Frame.free (h : Heap) (a : ℕ) : Frame [a] [] h (h.free a) := by
  refine ⟨by rw [length_free], fun b hl hn => ?_, fun b c u hc _ => ?_, fun b hb => by simp at hb⟩
  · rw [cell_free, if_neg (by simpa using hn)]
    exact ⟨id, fun c hc => ⟨c, hc, CellRel.refl c⟩⟩
  · rw [cell_free] at hc
    by_cases e : b = a
    · rw [if_pos e] at hc; cases hc
    · rw [if_neg e] at hc
      exact .inl ⟨cell_lt hc, by simpa using e⟩

/-- Writing into an owned object. -/
theorem Frame.writeOwned (h : Heap) (a : ℕ) (v : Val) : Frame [a] [a] h (h.write a v) := by
  refine ⟨by rw [length_write], fun b hl hn => ?_, fun b c u hc _ => ?_, fun b hb => .inl hb⟩
  · rw [cell_write, if_neg (by simpa using hn)]
    exact ⟨id, fun c hc => ⟨c, hc, CellRel.refl c⟩⟩
  · by_cases e : b = a
    · exact .inr (by simp [e])
    · exact .inl ⟨by simpa [length_write] using cell_lt hc, by simpa using e⟩

/-- Writing into an object of somebody else. -/
theorem Frame.writeRef (h : Heap) (a : ℕ) (v : Val) (c : Cell) (hc : h.cell a = some c)
    (ho : c.owner = none) (hf : ∀ t, Fits t c.val → Fits t v) : Frame [] [] h (h.write a v) := by
  refine ⟨by rw [length_write], fun b hl _ => ?_, fun b c' u hc' hu => ?_, fun b hb => .inl hb⟩
  · rw [cell_write]
    by_cases e : b = a
    · subst e
      rw [if_pos rfl, hc]
      refine ⟨fun h => by simp at h, fun c' h' => ⟨_, rfl, ?_⟩⟩
      simp at h'; subst h'
      exact ⟨rfl, fun h => absurd ho h, hf⟩
    · rw [if_neg e]; exact ⟨id, fun c hc => ⟨c, hc, CellRel.refl c⟩⟩
  · exact .inl ⟨by simpa [length_write] using cell_lt hc', by simp⟩

/-- A scalar apart from the changed memory stays in order. -/
theorem Obj.Good.frame {own own' : List ℕ} {h h' : Heap} {o : Obj} (g : o.Good h)
    (f : Frame own own' h h') (hd : ∀ a, a ∈ o.owns → a ∉ own)
    (ho : ∀ a, a ∈ own → ∀ c, h.cell a = some c → c.owner ≠ none) : o.Good h' := by
  refine ⟨g.noIface, g.inline, fun hm => ?_, fun hm => ?_⟩
  · obtain ⟨t, ht, hty, hc⟩ := g.owned hm
    refine ⟨t, ht, hty, fun a ha => ?_⟩
    obtain ⟨c, h1, h2, h3⟩ := hc a ha
    have hno : a ∉ own := hd a (by simp [Obj.owns, hm, ha])
    obtain ⟨c', hc', r⟩ := (f.keep a (cell_lt h1) hno).2 c h1
    have : c' = c := r.2.1 (by rw [h2]; simp)
    subst this
    exact ⟨c', hc', h2, h3⟩
  · obtain ⟨t, hi, hk, hc⟩ := g.reference hm
    refine ⟨t, hi, hk, fun a ha => ?_⟩
    obtain ⟨c, h1, h2, h3⟩ := hc a ha
    have hno : a ∉ own := fun hx => ho a hx c h1 h2
    obtain ⟨c', hc', r⟩ := (f.keep a (cell_lt h1) hno).2 c h1
    exact ⟨c', hc', by rw [r.1, h2], r.2.2 t h3⟩

/-! ## Operations on one scalar -/

/-- What an operation does that turns one scalar into another. -/
def Does (h : Heap) (o : Obj) (ho : Heap × Obj) : Prop :=
  Frame o.owns ho.2.owns h ho.1 ∧ ho.2.Good ho.1

theorem owns_of_not_owned {o : Obj} (h : o.mode ≠ .owned) : o.owns = [] := by
  simp [Obj.owns, h]

theorem owns_owned {o : Obj} {a : ℕ} (h : o.mode = .owned) (ha : o.addr = some a) : o.owns = [a] := by
  simp [Obj.owns, h, ha]

theorem owns_null {o : Obj} (ha : o.addr = none) : o.owns = [] := by
  unfold Obj.owns; split <;> simp [ha]

/-- A store of a value of the type of the scalar. -/
theorem store_does {h : Heap} {o : Obj} {v : Val} {t : Ty} {ho : Heap × Obj} (g : o.Good h)
    (hi : o.info = .ok t) (hv : v.ty = t) (hs : o.store h v = .ok ho) :
    Does h o ho ∧ ho.2.ty = o.ty ∧ ho.2.mode = o.mode ∧ ho.2.addr = o.addr := by
  unfold Obj.store at hs
  cases hm : o.mode with
  | trivial =>
    rw [hm] at hs
    cases hs
    refine ⟨⟨?_, ?_⟩, rfl, rfl, rfl⟩
    · rw [owns_of_not_owned (o := o) (by simp [hm]), owns_of_not_owned (by simp)]
      exact Frame.refl _ _
    · refine ⟨by simp, fun _ => ?_, fun hx => absurd hx (by simp),
        fun hx => absurd hx (by simp)⟩
      rcases g.inline hm with h1 | ⟨h1, t', h2, h3, _⟩
      · exact .inl h1
      · right
        refine ⟨h1, t, hi, ?_, fits_self hv⟩
        rw [hi] at h2; cases h2; exact h3
  | iface => exact absurd hm g.noIface
  | owned =>
    rw [hm] at hs
    obtain ⟨u, hu, hty, hcell⟩ := g.owned hm
    have hut : u = t := by
      have : o.info = .ok u := by simp [Obj.info, hty]
      rw [this] at hi; cases hi; rfl
    subst hut
    cases ha : o.addr with
    | none => rw [ha] at hs; cases hs
    | some a =>
      rw [ha] at hs
      obtain ⟨c, hc, hco, hcv⟩ := hcell a ha
      simp only [hc] at hs
      cases hs
      refine ⟨⟨?_, ?_⟩, rfl, hm, ha⟩
      · rw [owns_owned hm ha]; exact Frame.writeOwned h a v
      · refine ⟨g.noIface, g.inline, fun _ => ⟨u, hu, hty, fun b hb => ?_⟩, fun hx => ?_⟩
        · dsimp only at hb
          rw [ha] at hb; cases hb
          exact ⟨{ c with val := v }, by rw [cell_write, if_pos rfl, hc]; rfl, hco, hv⟩
        · rcases hx with hx | hx <;> rw [hm] at hx <;> cases hx
  | ref =>
    rw [hm] at hs
    obtain ⟨u, hu, hk, hcell⟩ := g.reference (.inl hm)
    rw [hi] at hu; cases hu
    cases ha : o.addr with
    | none => rw [ha] at hs; cases hs
    | some a =>
      rw [ha] at hs
      obtain ⟨c, hc, hco, hcv⟩ := hcell a ha
      simp only [hc] at hs
      cases hs
      have hfit : ∀ u, Fits u c.val → Fits u v := fits_trans hcv hv
      refine ⟨⟨?_, ?_⟩, rfl, hm, ha⟩
      · rw [owns_of_not_owned (by simp [hm])]; exact Frame.writeRef h a v c hc hco hfit
      · refine ⟨g.noIface, g.inline, fun hx => by simp [hm] at hx, fun _ => ⟨t, hi, hk, fun b hb => ?_⟩⟩
        dsimp only at hb
        rw [ha] at hb; cases hb
        exact ⟨{ c with val := v }, by rw [cell_write, if_pos rfl, hc]; rfl, hco, fits_self hv⟩
  | constRef =>
    rw [hm] at hs
    obtain ⟨u, hu, hk, hcell⟩ := g.reference (.inr hm)
    rw [hi] at hu; cases hu
    cases ha : o.addr with
    | none => rw [ha] at hs; cases hs
    | some a =>
      rw [ha] at hs
      obtain ⟨c, hc, hco, hcv⟩ := hcell a ha
      simp only [hc] at hs
      cases hs
      have hfit : ∀ u, Fits u c.val → Fits u v := fits_trans hcv hv
      refine ⟨⟨?_, ?_⟩, rfl, hm, ha⟩
      · rw [owns_of_not_owned (by simp [hm])]; exact Frame.writeRef h a v c hc hco hfit
      · refine ⟨g.noIface, g.inline, fun hx => by simp [hm] at hx, fun _ => ⟨t, hi, hk, fun b hb => ?_⟩⟩
        dsimp only at hb
        rw [ha] at hb; cases hb
        exact ⟨{ c with val := v }, by rw [cell_write, if_pos rfl, hc]; rfl, hco, fits_self hv⟩

theorem storeConv_does {h : Heap} {o : Obj} {r : Out Val} {t : Ty} {ho : Heap × Obj} (g : o.Good h)
    (hi : o.info = .ok t) (hr : ∀ v, r = .ok v → v.ty = t) (hs : storeConv h o r = .ok ho) :
    Does h o ho ∧ ho.2.ty = o.ty ∧ ho.2.mode = o.mode ∧ ho.2.addr = o.addr := by
  unfold storeConv at hs
  cases r with
  | ok v => exact store_does g hi (hr v rfl) hs
  | err => cases hs; exact ⟨⟨Frame.refl _ _, g⟩, rfl, rfl, rfl⟩
  | ub => cases hs

theorem Does.trans {h : Heap} {o : Obj} {ho hp : Heap × Obj} (a : Does h o ho)
    (b : Does ho.1 ho.2 hp) : Does h o hp := ⟨a.1.trans b.1, b.2⟩

theorem Frame.congr {o0 o1 o0' o1' : List ℕ} {h h' : Heap} (f : Frame o0 o1 h h')
    (e0 : ∀ a, a ∈ o0' ↔ a ∈ o0) (e1 : ∀ a, a ∈ o1' ↔ a ∈ o1) : Frame o0' o1' h h' := by
  refine ⟨f.grow, fun a hl hn => f.keep a hl (by rwa [← e0]), fun a c t hc ht => ?_, fun a ha => ?_⟩
  · rw [e0, e1]; exact f.found a c t hc ht
  · rw [e0]; exact f.fresh a ((e1 a).1 ha)

/-- A freshly allocated object. -/
theorem alloc_good (h : Heap) (t : Ty) (ht : t.IsScalarType) (v : Val) :
    Does h Obj.empty ((h.alloc t).1, ⟨.ptr t, .owned, v, some (h.alloc t).2⟩) := by
  refine ⟨?_, ⟨by simp, fun hx => absurd hx (by simp), fun _ => ⟨t, ht, rfl, fun a ha => ?_⟩,
    fun hx => absurd hx (by simp)⟩⟩
  · rw [owns_of_not_owned (o := Obj.empty) (by simp [Obj.empty]), owns_owned rfl rfl]
    exact Frame.alloc h t
  · simp only [Heap.alloc, Option.some.injEq] at ha
    subst ha
    exact ⟨⟨Val.zero t, some t⟩, by rw [cell_alloc, if_pos rfl], rfl, zero_ty ht⟩

theorem empty_owns : Obj.empty.owns = [] := rfl

theorem allocateData_does {h : Heap} {o : Obj} {t : Ty} {ho : Heap × Obj} (ht : t.IsScalarType)
    (hty : o.ty = .ptr t) (hn : o.owns = []) (ha : allocateData h o = .ok ho) :
    Does h o ho ∧ ho.2.ty = .ptr t ∧ ho.2.mode = .owned ∧ ho.1 = (h.alloc t).1 ∧
      ho.2.addr = some h.length := by
  unfold allocateData at ha
  rw [hty] at ha
  cases ha
  have := alloc_good h t ht o.bytes
  rw [Does, empty_owns] at this
  refine ⟨⟨?_, ?_⟩, rfl, rfl, rfl, rfl⟩
  · rw [hn]
    have h1 := this.1
    rw [owns_owned rfl rfl] at h1 ⊢
    exact h1
  · exact this.2

theorem info_ptr {o : Obj} {t : Ty} (h : o.ty = .ptr t) : o.info = .ok t := by
  simp [Obj.info, h]

/-- The type of a scalar that can be copied: a scalar type, or a number without one. -/
def Copyable (o : Obj) (t : Ty) : Prop :=
  o.info = .ok t ∧ ((t.IsScalarType ∧ o.ty = .ptr t) ∨ (t.fundamental = true ∧ ∃ t', o.ty = .info t'))

theorem scalarType_cases {t : Ty} (h : t.IsScalarType) : t.fundamental = true ∨ t = .rat ∨ t = .poly := by
  rcases h with rfl | rfl | rfl | rfl <;> simp [Ty.fundamental]

theorem copyFromOpaque_does {P : FP} {h : Heap} {o : Obj} {t : Ty} {src : Out Val}
    {ho : Heap × Obj} (hc : Copyable o t) (hn : o.addr = none) (hs : ∀ v, src = .ok v → Fits t v)
    (he : copyFromOpaque P h o t src = .ok ho) :
    Does h o ho ∧ ho.2.ty = o.ty ∧ (ho.2.mode = .trivial ∨ ho.2.mode = .owned) := by
  have hnn : o.isNull = false := by
    unfold Obj.isNull
    rcases hc.2 with ⟨_, h⟩ | ⟨_, t', h⟩ <;> simp [h]
  unfold copyFromOpaque at he
  simp only [hnn, Bool.false_eq_true, if_false, hc.1, Out.bind] at he
  by_cases hf : t.fundamental = true
  · rw [if_pos hf] at he
    cases src with
    | ok v =>
      simp only [if_true] at he
      cases he
      refine ⟨⟨?_, ?_⟩, rfl, .inl rfl⟩
      · rw [owns_null hn, owns_of_not_owned (by simp)]; exact Frame.refl _ _
      · refine ⟨by simp, fun _ => .inr ⟨fun u hu => ?_, t, ?_, hf, hs v rfl⟩,
          fun hx => absurd hx (by simp), fun hx => absurd hx (by simp)⟩
        · dsimp only at hu
          rcases hc.2 with ⟨h1, h2⟩ | ⟨_, t', h2⟩
          · rw [h2] at hu; cases hu; exact h1
          · rw [h2] at hu; cases hu
        · exact hc.1
    | err => cases he
    | ub => cases he
  · rw [if_neg hf] at he
    rcases hc.2 with ⟨h1, h2⟩ | ⟨h1, _⟩
    swap
    · exact absurd h1 hf
    obtain ⟨hp, ha, he⟩ := bind_ok he
    obtain ⟨d, hty, hmo, _, _⟩ := allocateData_does h1 h2 (owns_null hn) ha
    obtain ⟨d2, e1, e2, _⟩ := storeConv_does (t := t) d.2 (info_ptr hty)
      (fun v hv => by
        obtain ⟨a, _, hv⟩ := bind_ok hv
        obtain ⟨b, _, hv⟩ := bind_ok hv
        exact conv_ty hv) he
    exact ⟨d.trans d2, by rw [e1, hty, h2], .inr (by rw [e2, hmo])⟩

theorem read_fits {h : Heap} {o : Obj} {t : Ty} {v : Val} (g : o.Good h) (hi : o.info = .ok t)
    (hr : o.read h = .ok v) : Fits t v := by
  unfold Obj.read at hr
  cases hm : o.mode with
  | trivial =>
    rw [hm] at hr; cases hr
    rcases g.inline hm with h1 | ⟨_, t', h2, _, h4⟩
    · simp [Obj.info, h1] at hi
    · rw [hi] at h2; cases h2; exact h4
  | iface => exact absurd hm g.noIface
  | owned =>
    rw [hm] at hr
    obtain ⟨u, hu, hty, hcell⟩ := g.owned hm
    rw [info_ptr hty] at hi; cases hi
    cases ha : o.addr with
    | none => rw [ha] at hr; cases hr
    | some a =>
      obtain ⟨c, hc, _, hv⟩ := hcell a ha
      simp only [ha, hc] at hr
      cases hr; exact fits_self hv
  | ref =>
    rw [hm] at hr
    obtain ⟨u, hu, _, hcell⟩ := g.reference (.inl hm)
    rw [hu] at hi; cases hi
    cases ha : o.addr with
    | none => rw [ha] at hr; cases hr
    | some a =>
      obtain ⟨c, hc, _, hv⟩ := hcell a ha
      simp only [ha, hc] at hr
      cases hr; exact hv
  | constRef =>
    rw [hm] at hr
    obtain ⟨u, hu, _, hcell⟩ := g.reference (.inr hm)
    rw [hu] at hi; cases hi
    cases ha : o.addr with
    | none => rw [ha] at hr; cases hr
    | some a =>
      obtain ⟨c, hc, _, hv⟩ := hcell a ha
      simp only [ha, hc] at hr
      cases hr; exact hv

theorem fastZero_owns {o : Obj} (h : o.fastIsZero = true) (hm : o.mode ≠ .trivial) :
    o.addr = none := by
  unfold Obj.fastIsZero Obj.isNull Obj.zeroWord at h
  cases hm' : o.mode <;> simp_all

/-- A scalar without its pointer. -/
theorem Obj.Good.dropAddr {h : Heap} {o : Obj} (g : o.Good h) : ({ o with addr := none } : Obj).Good h :=
  ⟨g.noIface, g.inline,
    fun hm => by
      obtain ⟨t, h1, h2, _⟩ := g.owned hm
      exact ⟨t, h1, h2, fun a ha => by simp at ha⟩,
    fun hm => by
      obtain ⟨t, h1, h2, _⟩ := g.reference hm
      exact ⟨t, h1, h2, fun a ha => by simp at ha⟩⟩

theorem copyCtor_does {P : FP} {h : Heap} {o : Obj} {ho : Heap × Obj} (g : o.Good h)
    (he : copyCtor P h o = .ok ho) :
    Does h Obj.empty ho ∧ ho.2.ty = o.ty := by
  unfold copyCtor at he
  by_cases hz : o.fastIsZero = true
  · rw [if_pos hz] at he
    cases he
    refine ⟨⟨?_, g.dropAddr⟩, rfl⟩
    rw [owns_null (o := { o with addr := none }) rfl]; exact Frame.refl _ _
  · rw [if_neg hz] at he
    obtain ⟨t, hi, he⟩ := bind_ok he
    cases hm : o.mode with
    | trivial =>
      rw [hm] at he; cases he
      refine ⟨⟨?_, g⟩, rfl⟩
      rw [owns_of_not_owned (o := o) (by simp [hm])]; exact Frame.refl _ _
    | iface => exact absurd hm g.noIface
    | ref =>
      rw [hm] at he
      dsimp only at he
      obtain ⟨u, hu, hk, hcell⟩ := g.reference (.inl hm)
      rw [hu] at hi; cases hi
      obtain ⟨d, h1, _⟩ := copyFromOpaque_does (o := { o with mode := .ref, addr := none }) (t := t)
        ⟨hu, hk⟩ rfl (fun v hv => read_fits g hu hv) he
      refine ⟨⟨?_, d.2⟩, h1⟩
      have := d.1
      rwa [owns_null (o := { o with mode := .ref, addr := none }) rfl] at this
    | constRef =>
      rw [hm] at he
      dsimp only at he
      obtain ⟨u, hu, hk, hcell⟩ := g.reference (.inr hm)
      rw [hu] at hi; cases hi
      obtain ⟨d, h1, _⟩ := copyFromOpaque_does (o := { o with mode := .constRef, addr := none }) (t := t)
        ⟨hu, hk⟩ rfl (fun v hv => read_fits g hu hv) he
      refine ⟨⟨?_, d.2⟩, h1⟩
      have := d.1
      rwa [owns_null (o := { o with mode := .constRef, addr := none }) rfl] at this
    | owned =>
      rw [hm] at he
      dsimp only at he
      obtain ⟨u, hu, hty, hcell⟩ := g.owned hm
      rw [info_ptr hty] at hi; cases hi
      obtain ⟨hp, ha, he⟩ := bind_ok he
      have ha' : allocateData h { o with addr := none } = .ok hp := by
        rw [← ha]; unfold allocateData; simp only [hty]
      obtain ⟨d, hty', hmo, _, _⟩ := allocateData_does hu (o := { o with addr := none }) hty
        (owns_null rfl) ha'
      obtain ⟨d2, e1, e2, _⟩ := storeConv_does (t := t) d.2 (info_ptr hty')
        (fun v hv => by
          obtain ⟨a, _, hv⟩ := bind_ok hv
          obtain ⟨b, _, hv⟩ := bind_ok hv
          exact conv_ty hv) he
      have d3 := d.trans d2
      refine ⟨⟨?_, d3.2⟩, by rw [e1, hty', hty]⟩
      have := d3.1
      rwa [owns_null (o := { o with addr := none }) rfl] at this

theorem dtor_does {h : Heap} {o : Obj} (g : o.Good h) :
    ∃ h', dtor h o = .ok h' ∧ Frame o.owns [] h h' := by
  unfold dtor
  cases hm : o.mode with
  | owned =>
    obtain ⟨u, hu, hty, hcell⟩ := g.owned hm
    cases ha : o.addr with
    | none => exact ⟨h, rfl, by rw [owns_null ha]; exact Frame.refl _ _⟩
    | some a =>
      obtain ⟨c, hc, hco, _⟩ := hcell a ha
      refine ⟨h.free a, by simp [hty, freeSingle, hc, hco], ?_⟩
      rw [owns_owned hm ha]; exact Frame.free h a
  | trivial => exact ⟨h, rfl, by rw [owns_of_not_owned (by simp [hm])]; exact Frame.refl _ _⟩
  | ref => exact ⟨h, rfl, by rw [owns_of_not_owned (by simp [hm])]; exact Frame.refl _ _⟩
  | constRef => exact ⟨h, rfl, by rw [owns_of_not_owned (by simp [hm])]; exact Frame.refl _ _⟩
  | iface => exact ⟨h, rfl, by rw [owns_of_not_owned (by simp [hm])]; exact Frame.refl _ _⟩

theorem empty_good (h : Heap) : Obj.empty.Good h :=
  ⟨by simp [Obj.empty], fun _ => .inl rfl, fun hx => absurd hx (by simp [Obj.empty]),
    fun hx => absurd hx (by simp [Obj.empty])⟩

theorem ofType_does (h : Heap) {t : Ty} (ht : t.IsScalarType) : Does h Obj.empty (ofType h t) := by
  unfold ofType
  by_cases hc : t.content = .owned
  · rw [if_pos hc]; exact alloc_good h t ht _
  · rw [if_neg hc]
    have hcm : t.content = .trivial ∧ t.fundamental = true := by
      rcases ht with rfl | rfl | rfl | rfl <;> simp_all [Ty.content, Ty.fundamental]
    refine ⟨?_, ?_⟩
    · rw [owns_null (o := ⟨.ptr t, t.content, Val.zero t, none⟩) rfl]; exact Frame.refl _ _
    · rw [hcm.1]
      refine ⟨by simp, fun _ => .inr ⟨fun u hu => ?_, t, rfl, hcm.2, fits_self (zero_ty ht)⟩,
        fun hx => absurd hx (by simp), fun hx => absurd hx (by simp)⟩
      cases hu; exact ht

/-- A number of a type info, in the inline bytes. -/
theorem inline_good (h : Heap) {t : Ty} (ht : t.Real) (hc : t.content = .trivial) {v : Val}
    (hv : v.ty = t) : Does h Obj.empty (h, ⟨.info t, .trivial, v, none⟩) := by
  have key : t.readBack.fundamental = true ∧ Fits t.readBack v := by
   cases t with
   | int b =>
     rw [readBack_int ht]; exact ⟨fundamental_int ht, fits_self hv⟩
   | uint b =>
     rw [readBack_uint ht]
     refine ⟨fundamental_int ht, ?_⟩
     cases v <;> simp only [Val.ty, reduceCtorEq, Ty.uint.injEq] at hv
     subst hv
     rename_i b n
     exact ⟨.int b (wrapS b n), by simp [Val.as, Val.ty]⟩
   | f32 => rw [readBack_f32]; exact ⟨rfl, fits_self hv⟩
   | f64 => rw [readBack_f64]; exact ⟨rfl, fits_self hv⟩
   | rat => cases hc
   | poly => cases hc
   | other => cases hc
  refine ⟨Frame.refl _ _, ⟨by simp, fun _ => .inr ⟨fun u hu => ?_, t.readBack, rfl, key⟩,
    fun hx => absurd hx (by simp), fun hx => absurd hx (by simp)⟩⟩
  cases hu

theorem ofInfo_does (h : Heap) {t : Ty} (ht : t.Real) : Does h Obj.empty (ofInfo h t) := by
  unfold ofInfo
  by_cases hc : t.content = .owned
  · rw [if_pos hc]
    exact alloc_good h t (by cases t <;> simp_all [Ty.content, Ty.IsScalarType]) _
  · rw [if_neg hc]
    have hcm : t.content = .trivial ∧ (Val.zero t).ty = t := by
      cases t <;> simp_all [Ty.content, Val.zero, Val.ty, Ty.Real]
    rw [hcm.1]
    exact inline_good h ht hcm.1 hcm.2

theorem ofVal_does {h : Heap} {v : Val} {ho : Heap × Obj} (hv : v.ty.Real)
    (he : ofVal h v = .ok ho) : Does h Obj.empty ho := by
  unfold ofVal at he
  cases v with
  | rat q => simp [allocateData, readBack_rat] at he
  | poly p => simp [allocateData, readBack_poly] at he
  | int b n => cases he; exact inline_good h hv rfl rfl
  | uint b n => cases he; exact inline_good h hv rfl rfl
  | f32 x => cases he; exact inline_good h hv rfl rfl
  | f64 x => cases he; exact inline_good h hv rfl rfl

theorem convFrom_ty {P : FP} {t : Ty} {h : Heap} {o : Obj} {v : Val}
    (hv : convFrom P t h o = .ok v) : v.ty = t := by
  unfold convFrom at hv
  obtain ⟨s, _, hv⟩ := bind_ok hv
  split at hv
  · cases hv
  · obtain ⟨a, _, hv⟩ := bind_ok hv
    obtain ⟨b, _, hv⟩ := bind_ok hv
    exact conv_ty hv

theorem copyAssign_does {P : FP} {h : Heap} {o src : Obj} {ho : Heap × Obj} (g : o.Good h)
    (gs : src.Good h) (he : copyAssign P h o src = .ok ho) : Does h o ho := by
  unfold copyAssign at he
  by_cases hz : o.fastIsZero = true
  · rw [if_pos hz] at he
    have hno : o.owns = [] := by
      by_cases hm : o.mode = .trivial
      · exact owns_of_not_owned (by simp [hm])
      · exact owns_null (fastZero_owns hz hm)
    dsimp only at he
    obtain ⟨t, hi, he⟩ := bind_ok he
    have his : src.info = .ok t := hi
    cases hm : src.mode with
    | trivial =>
      simp only [hm] at he
      cases he
      refine ⟨?_, ?_⟩
      · rw [hno, owns_null (by rfl)]; exact Frame.refl _ _
      · refine ⟨by simp, fun _ => gs.inline hm, fun hx => absurd hx (by simp),
          fun hx => absurd hx (by simp)⟩
    | iface => exact absurd hm gs.noIface
    | ref =>
      simp only [hm] at he
      obtain ⟨u, hu, hk, hcell⟩ := gs.reference (.inl hm)
      rw [hu] at his; cases his
      obtain ⟨d, _⟩ := copyFromOpaque_does (t := t)
        (o := { o with ty := src.ty, mode := .ref, addr := none }) ⟨hu, hk⟩ rfl (fun v hv => read_fits gs hu hv) he
      refine ⟨?_, d.2⟩
      have := d.1
      rw [owns_null (by rfl)] at this
      rwa [hno]
    | constRef =>
      simp only [hm] at he
      obtain ⟨u, hu, hk, hcell⟩ := gs.reference (.inr hm)
      rw [hu] at his; cases his
      obtain ⟨d, _⟩ := copyFromOpaque_does (t := t)
        (o := { o with ty := src.ty, mode := .constRef, addr := none }) ⟨hu, hk⟩ rfl (fun v hv => read_fits gs hu hv) he
      refine ⟨?_, d.2⟩
      have := d.1
      rw [owns_null (by rfl)] at this
      rwa [hno]
    | owned =>
      simp only [hm] at he
      obtain ⟨u, hu, hty, hcell⟩ := gs.owned hm
      rw [info_ptr hty] at his; cases his
      obtain ⟨hp, ha, he⟩ := bind_ok he
      obtain ⟨d, hty', hmo, _, _⟩ := allocateData_does hu
        (o := { o with ty := src.ty, mode := .owned, addr := none }) hty (owns_null rfl) ha
      obtain ⟨d2, e1, e2, _⟩ := storeConv_does (t := t) d.2 (info_ptr hty')
        (fun v hv => by
          obtain ⟨a, _, hv⟩ := bind_ok hv
          obtain ⟨b, _, hv⟩ := bind_ok hv
          exact conv_ty hv) he
      have d3 := d.trans d2
      refine ⟨?_, d3.2⟩
      have := d3.1
      rw [owns_null (by rfl)] at this
      rwa [hno]
  · rw [if_neg hz] at he
    obtain ⟨_, _, he⟩ := bind_ok he
    obtain ⟨t, hi, he⟩ := bind_ok he
    exact (storeConv_does g hi (fun v hv => convFrom_ty hv) he).1

theorem assignVal_does {P : FP} {h : Heap} {o : Obj} {v : Val} {ho : Heap × Obj} (g : o.Good h)
    (hv : v.ty.Real) (he : assignVal P h o v = .ok ho) : Does h o ho := by
  unfold assignVal at he
  by_cases hn : o.isNull = true
  · rw [if_pos hn] at he
    have d := ofVal_does hv he
    refine ⟨?_, d.2⟩
    have hm : o.mode = .trivial := by
      unfold Obj.isNull at hn; simp at hn; exact hn.2
    rw [owns_of_not_owned (o := o) (by simp [hm])]
    exact d.1
  · rw [if_neg hn] at he
    have key : (o.info.bind fun t => (conv P t v).bind fun w => o.store h w) = .ok ho → Does h o ho := by
      intro he
      obtain ⟨t, hi, he⟩ := bind_ok he
      obtain ⟨w, hw, he⟩ := bind_ok he
      exact (store_does g hi (conv_ty hw) he).1
    cases hm : o.mode with
    | trivial => rw [hm] at he; exact key he
    | ref => rw [hm] at he; exact key he
    | owned => rw [hm] at he; exact key he
    | constRef => rw [hm] at he; cases he
    | iface => exact absurd hm g.noIface

/-- The addresses of a scalar in order are in use, by the table of a type. -/
theorem Obj.Good.owns_cell {h : Heap} {o : Obj} (g : o.Good h) {a : ℕ} (ha : a ∈ o.owns) :
    ∃ c t, h.cell a = some c ∧ c.owner = some t := by
  have hm : o.mode = .owned := by
    by_contra hm
    rw [owns_of_not_owned hm] at ha; cases ha
  obtain ⟨t, _, _, hc⟩ := g.owned hm
  cases hx : o.addr with
  | none => rw [owns_null hx] at ha; cases ha
  | some b =>
    rw [owns_owned hm hx] at ha
    simp at ha; subst ha
    obtain ⟨c, h1, h2, _⟩ := hc a hx
    exact ⟨c, t, h1, h2⟩

theorem Obj.Good.owns_lt {h : Heap} {o : Obj} (g : o.Good h) {a : ℕ} (ha : a ∈ o.owns) :
    a < h.length := by
  obtain ⟨c, _, hc, _⟩ := g.owns_cell ha
  exact cell_lt hc

theorem Obj.Good.owns_owner {h : Heap} {o : Obj} (g : o.Good h) (a : ℕ) (ha : a ∈ o.owns) (c : Cell)
    (hc : h.cell a = some c) : c.owner ≠ none := by
  obtain ⟨c', t, h1, h2⟩ := g.owns_cell ha
  rw [hc] at h1; cases h1; rw [h2]; simp

/-- A scalar stays in order while a new one is made. -/
theorem Obj.Good.frame_new {h h' : Heap} {o : Obj} {own : List ℕ} (g : o.Good h)
    (f : Frame [] own h h') : o.Good h' :=
  g.frame f (fun _ _ => by simp) (fun a ha => by cases ha)

/-- A new scalar has nothing of an old one. -/
theorem new_disjoint {h h' : Heap} {o : Obj} {own : List ℕ} (g : o.Good h) (f : Frame [] own h h')
    (a : ℕ) (ha : a ∈ o.owns) : a ∉ own := by
  intro hx
  rcases f.fresh a hx with h1 | h1
  · cases h1
  · have := g.owns_lt ha; omega

/-- A temporary of a type info, into which a value of the type is written. -/
theorem tmp_does {h : Heap} {t : Ty} {r : Out Val} {hp : Heap × Obj} (ht : t.Real)
    (hr : ∀ v, r = .ok v → v.ty = t) (hs : storeConv (ofInfo h t).1 (ofInfo h t).2 r = .ok hp) :
    Does h Obj.empty hp := by
  have d1 := ofInfo_does h ht
  suffices d2 : Does (ofInfo h t).1 (ofInfo h t).2 hp from d1.trans d2
  cases hi : (ofInfo h t).2.info with
  | ok s =>
    by_cases hst : s = t
    · subst hst
      exact (storeConv_does d1.2 hi hr hs).1
    · -- an unsigned type info, read back as a signed one
      unfold ofInfo at hi hs d1 ⊢
      by_cases hc : t.content = .owned
      · rw [if_pos hc] at hi; simp [Obj.info] at hi; exact absurd hi.symm hst
      · rw [if_neg hc] at hi hs d1 ⊢
        have hu : ∃ b, t = .uint b := by
          cases t with
          | int b => simp [Obj.info, readBack_int ht] at hi; exact absurd hi.symm hst
          | uint b => exact ⟨b, rfl⟩
          | f32 => simp [Obj.info, readBack_f32] at hi; exact absurd hi.symm hst
          | f64 => simp [Obj.info, readBack_f64] at hi; exact absurd hi.symm hst
          | rat => exact absurd rfl hc
          | poly => exact absurd rfl hc
          | other => cases ht
        obtain ⟨b, rfl⟩ := hu
        unfold storeConv at hs
        cases r with
        | ok v =>
          simp only [Obj.store, Ty.content] at hs
          cases hs
          have := inline_good h ht rfl (v := v) (hr v rfl)
          rw [Does, empty_owns] at this
          exact ⟨this.1, this.2⟩
        | err =>
          cases hs
          exact ⟨Frame.refl _ _, d1.2⟩
        | ub => cases hs
  | err => unfold Obj.info at hi; split at hi <;> cases hi
  | ub =>
    unfold ofInfo Obj.info at hi
    split at hi
    · next hn => split at hn <;> cases hn
    · cases hi
    · cases hi

theorem changeType_does {P : FP} {h : Heap} {o : Obj} {t : Ty} {ho : Heap × Obj} (g : o.Good h)
    (ht : t.Real) (he : changeType P h o t = .ok ho) : Does h o ho := by
  unfold changeType at he
  dsimp only at he
  obtain ⟨_, _, he⟩ := bind_ok he
  obtain ⟨hp, hs, he⟩ := bind_ok he
  obtain ⟨h2, hd, he⟩ := bind_ok he
  cases he
  have d2 := tmp_does ht (fun v hv => convFrom_ty hv) hs
  have f12 := d2.1
  rw [empty_owns] at f12
  have g2 : o.Good hp.1 := g.frame_new f12
  obtain ⟨h3, hd', f3⟩ := dtor_does g2
  rw [hd] at hd'; cases hd'
  have fa : Frame (o.owns ++ []) (o.owns ++ hp.2.owns) h hp.1 := f12.add o.owns
  have fb : Frame (hp.2.owns ++ o.owns) (hp.2.owns ++ []) hp.1 h2 := f3.add hp.2.owns
  have fab := fa.trans (fb.congr (o0' := o.owns ++ hp.2.owns) (fun a => by simp [or_comm]) (fun a => Iff.rfl))
  refine ⟨fab.congr (fun a => by simp) (fun a => by simp), ?_⟩
  refine d2.2.frame f3 (fun a ha hx => ?_) (fun a ha c hc => g2.owns_owner a ha c hc)
  exact new_disjoint g f12 a hx ha

/-- There are no scalars of an unknown type to write to. -/
theorem ofInfo_other {h : Heap} {t : Ty} {u : Unit} (hm : (ofInfo h t).2.mutPointer = .ok u) :
    t ≠ .other := by
  rintro rfl
  simp [ofInfo, Ty.content, Obj.mutPointer, Obj.isNull] at hm

theorem changeType_other {P : FP} {h : Heap} {o : Obj} {t : Ty} {ho : Heap × Obj}
    (he : changeType P h o t = .ok ho) : t ≠ .other := by
  unfold changeType at he
  dsimp only at he
  obtain ⟨_, hm, _⟩ := bind_ok he
  exact ofInfo_other hm

theorem info_real {h : Heap} {o : Obj} {t : Ty} (g : o.Good h) (hi : o.info = .ok t) : t.Real := by
  have sc : ∀ u : Ty, u.IsScalarType → u.Real := by
    intro u hu; rcases hu with rfl | rfl | rfl | rfl <;> trivial
  have rb : ∀ u : Ty, u.readBack ≠ .other → u.readBack.Real := fun u hu => ofInfo_real _ hu
  cases hty : o.ty with
  | null => simp [Obj.info, hty] at hi
  | ptr u =>
    have hu : u = t := by simpa [Obj.info, hty] using hi
    subst hu
    apply sc
    cases hm : o.mode with
    | trivial =>
      rcases g.inline hm with h1 | ⟨h1, _⟩
      · rw [hty] at h1; cases h1
      · exact h1 u hty
    | owned => obtain ⟨u', h1, h2, _⟩ := g.owned hm; rw [hty] at h2; cases h2; exact h1
    | iface => exact absurd hm g.noIface
    | ref =>
      obtain ⟨u', _, h2, _⟩ := g.reference (.inl hm)
      rcases h2 with ⟨h1, h2⟩ | ⟨_, _, h2⟩
      · rw [hty] at h2; cases h2; exact h1
      · rw [hty] at h2; cases h2
    | constRef =>
      obtain ⟨u', _, h2, _⟩ := g.reference (.inr hm)
      rcases h2 with ⟨h1, h2⟩ | ⟨_, _, h2⟩
      · rw [hty] at h2; cases h2; exact h1
      · rw [hty] at h2; cases h2
  | info u =>
    have hu : u.readBack = t := by simpa [Obj.info, hty] using hi
    subst hu
    apply rb
    cases hm : o.mode with
    | trivial =>
      rcases g.inline hm with h1 | ⟨_, t', h1, h2, _⟩
      · rw [hty] at h1; cases h1
      · rw [hi] at h1; cases h1; exact fundamental_ne_other h2
    | owned => obtain ⟨u', h1, h2, _⟩ := g.owned hm; rw [hty] at h2; cases h2
    | iface => exact absurd hm g.noIface
    | ref =>
      obtain ⟨u', h0, h2, _⟩ := g.reference (.inl hm)
      rw [hi] at h0; cases h0
      rcases h2 with ⟨h1, _⟩ | ⟨h1, _⟩
      · exact scalarType_ne_other h1
      · exact fundamental_ne_other h1
    | constRef =>
      obtain ⟨u', h0, h2, _⟩ := g.reference (.inr hm)
      rw [hi] at h0; cases h0
      rcases h2 with ⟨h1, _⟩ | ⟨h1, _⟩
      · exact scalarType_ne_other h1
      · exact fundamental_ne_other h1

theorem applyOp_does {P : FP} {op : AOp} {same : Bool} {h : Heap} {o : Obj} {t : Ty} {src : Out Val}
    {ho : Heap × Obj} (g : o.Good h) (hi : o.info = .ok t)
    (he : applyOp P op same h o t src = .ok ho) :
    Does h o ho ∧ ho.2.ty = o.ty ∧ ho.2.mode = o.mode ∧ ho.2.addr = o.addr := by
  unfold applyOp at he
  obtain ⟨a, _, he⟩ := bind_ok he
  obtain ⟨b, _, he⟩ := bind_ok he
  obtain ⟨r, hr, he⟩ := bind_ok he
  exact store_does g hi (doOp_ty hr) he

theorem inplace_does {P : FP} {op : AOp} {h : Heap} {o src : Obj} {ho : Heap × Obj} (g : o.Good h)
    (he : inplace P op h o src = .ok ho) : Does h o ho := by
  unfold inplace at he
  obtain ⟨dst, hi, he⟩ := bind_ok he
  obtain ⟨s, hs, he⟩ := bind_ok he
  by_cases e : s = dst
  · rw [if_pos e] at he
    obtain ⟨_, _, he⟩ := bind_ok he
    exact (applyOp_does g hi he).1
  · rw [if_neg e] at he
    obtain ⟨out, ho', he⟩ := bind_ok he
    obtain ⟨h1, hc, he⟩ := bind_ok he
    have d1 : Does h o h1 := by
      by_cases e2 : out ≠ dst
      · rw [if_pos e2] at hc
        have hne := changeType_other hc
        refine changeType_does g ?_ hc
        unfold destType at ho'
        have pr : ∀ a b, promote a b = .ok out → out.Real := by
          intro a b hp
          obtain ⟨i, _, hp⟩ := map_ok hp
          rw [← hp] at hne ⊢
          exact ofInfo_real i hne
        split at ho'
        · exact pr _ _ ho'
        · exact pr _ _ ho'
        · split at ho'
          · cases ho'
            exact ofInfo_real _ hne
          · cases ho'
      · rw [if_neg e2] at hc
        cases hc
        exact ⟨Frame.refl _ _, g⟩
    obtain ⟨_, _, he⟩ := bind_ok he
    obtain ⟨d, hd, he⟩ := bind_ok he
    by_cases e3 : s = d
    · rw [if_pos e3] at he
      exact d1.trans (applyOp_does d1.2 hd he).1
    · rw [if_neg e3] at he
      dsimp only at he
      obtain ⟨_, hm, he⟩ := bind_ok he
      obtain ⟨ht, hst, he⟩ := bind_ok he
      obtain ⟨hr, hap, he⟩ := bind_ok he
      obtain ⟨h3, hdt, he⟩ := bind_ok he
      cases he
      have dt := tmp_does (info_real d1.2 hd) (fun v hv => convFrom_ty hv) hst
      have ft := dt.1
      rw [empty_owns] at ft
      have gt : h1.2.Good ht.1 := d1.2.frame_new ft
      obtain ⟨da, _, em, ea⟩ := applyOp_does gt hd hap
      have eo : hr.2.owns = h1.2.owns := by simp [Obj.owns, em, ea]
      have hdis : ∀ a, a ∈ ht.2.owns → a ∉ h1.2.owns := fun a ha hx => new_disjoint d1.2 ft a hx ha
      have gtmp : ht.2.Good hr.1 :=
        dt.2.frame da.1 hdis (fun a ha c hc => gt.owns_owner a ha c hc)
      obtain ⟨h3', hd', f3⟩ := dtor_does gtmp
      rw [hdt] at hd'; cases hd'
      refine d1.trans ⟨?_, ?_⟩
      · have fa : Frame (h1.2.owns ++ []) (h1.2.owns ++ ht.2.owns) h1.1 ht.1 := ft.add h1.2.owns
        have fb : Frame (ht.2.owns ++ h1.2.owns) (ht.2.owns ++ hr.2.owns) ht.1 hr.1 := da.1.add ht.2.owns
        have fc : Frame (hr.2.owns ++ ht.2.owns) (hr.2.owns ++ []) hr.1 h3 := f3.add hr.2.owns
        have fab := fa.trans (fb.congr (o0' := h1.2.owns ++ ht.2.owns)
          (o1' := hr.2.owns ++ ht.2.owns) (fun a => by simp [or_comm]) (fun a => by simp [or_comm]))
        exact (fab.trans fc).congr (fun a => by simp) (fun a => by simp)
      · refine da.2.frame f3 (fun a ha hx => ?_) (fun a ha c hc => gtmp.owns_owner a ha c hc)
        rw [eo] at ha
        exact hdis a hx ha

theorem arith_does {P : FP} {op : AOp} {h : Heap} {o src : Obj} {ho : Heap × Obj} (g : o.Good h)
    (he : arith P op h o src = .ok ho) : Does h o ho := by
  unfold arith at he
  cases op with
  | add =>
    dsimp only at he
    split at he
    · exact inplace_does g he
    · cases he; exact ⟨Frame.refl _ _, g⟩
  | sub =>
    dsimp only at he
    split at he
    · exact inplace_does g he
    · cases he; exact ⟨Frame.refl _ _, g⟩
  | mul =>
    dsimp only at he
    split at he
    · exact inplace_does g he
    · exact assignVal_does g (by simp [Val.ty, Ty.Real]) he

theorem neg_does {h : Heap} {o : Obj} {ho : Heap × Obj} (g : o.Good h) (he : neg h o = .ok ho) :
    Does h Obj.empty ho := by
  unfold neg at he
  obtain ⟨t, hi, he⟩ := bind_ok he
  by_cases hz : o.fastIsZero = true
  · rw [if_pos hz] at he
    cases he
    exact ⟨Frame.refl _ _, empty_good h⟩
  · rw [if_neg hz] at he
    have hreal := info_real g hi
    have key : ∀ s : Ty, s.IsScalarType →
        allocateData h ⟨.ptr s, .owned, Val.zero s, none⟩ = .ok ho → Does h Obj.empty ho := by
      intro s hs ha
      have d := (allocateData_does hs (o := ⟨.ptr s, .owned, Val.zero s, none⟩) rfl (owns_null rfl) ha).1
      refine ⟨?_, d.2⟩
      have := d.1
      rwa [owns_null (o := ⟨.ptr s, .owned, Val.zero s, none⟩) rfl] at this
    have hptr : ∀ s, o.ty = .ptr s → s.IsScalarType := by
      intro s hs
      cases hm : o.mode with
      | trivial =>
        rcases g.inline hm with h1 | ⟨h1, _⟩
        · rw [hs] at h1; cases h1
        · exact h1 s hs
      | owned => obtain ⟨u', h1, h2, _⟩ := g.owned hm; rw [hs] at h2; cases h2; exact h1
      | iface => exact absurd hm g.noIface
      | ref =>
        obtain ⟨u', _, h2, _⟩ := g.reference (.inl hm)
        rcases h2 with ⟨h1, h2⟩ | ⟨_, _, h2⟩
        · rw [hs] at h2; cases h2; exact h1
        · rw [hs] at h2; cases h2
      | constRef =>
        obtain ⟨u', _, h2, _⟩ := g.reference (.inr hm)
        rcases h2 with ⟨h1, h2⟩ | ⟨_, _, h2⟩
        · rw [hs] at h2; cases h2; exact h1
        · rw [hs] at h2; cases h2
    have rest : negAlloc h o.ty t = Out.ok ho → Does h Obj.empty ho := by
      intro he
      unfold negAlloc at he
      split at he
      · next s hs => exact key s (hptr s hs) he
      · cases t with
        | int b => cases he
        | uint b => cases he
        | other => cases he
        | f32 => exact key _ (.inl rfl) he
        | f64 => exact key _ (.inr (.inl rfl)) he
        | rat => exact key _ (.inr (.inr (.inl rfl))) he
        | poly => exact key _ (.inr (.inr (.inr rfl))) he
    cases hm : o.mode with
    | trivial =>
      simp only [hm] at he
      cases he
      rcases g.inline hm with h1 | ⟨_, t', h2, h3, _⟩
      · simp [Obj.info, h1] at hi
      · rw [hi] at h2; cases h2
        refine inline_good h hreal ?_ ?_
        · cases t <;> simp_all [Ty.content, Ty.fundamental]
        · cases t <;> simp_all [Val.zero, Val.ty, Ty.fundamental]
    | iface => exact absurd hm g.noIface
    | owned => simp only [hm] at he; exact rest he
    | ref => simp only [hm] at he; exact rest he
    | constRef => simp only [hm] at he; exact rest he

end RoughPy.Scalars
