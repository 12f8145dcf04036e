import Verif.Arrays.Lemmas
import Verif.Scalars.History

/-!
# The operations on arrays that are in order
-/

namespace RoughPy.Arrays

open RoughPy.Args (Out)
open RoughPy.Scalars (Ty Val FP TRef conv Fits conv_ty conv_same zero_ty)

variable {n : ℕ} {w : World} {f : ℕ → ℕ}

/-! ## Filling elements -/

/-- The elements of one block are set where `g` says so, and nothing else changes. -/
structure Fill (w w' : World) (b : ℕ) (g : ℕ → Option Val) : Prop where
  bufs : w'.bufs = w.bufs
  len : w'.blocks.length = w.blocks.length
  other : ∀ m ≠ b, w'.blocks[m]? = w.blocks[m]?
  here : ∀ C : Block, w.blocks[b]? = some C → ∃ C' : Block, w'.blocks[b]? = some C' ∧
    C'.alive = C.alive ∧ C'.cells.length = C.cells.length ∧
    ∀ j < C.cells.length, C'.cells[j]? = match g j with
      | some u => some (some u)
      | none => C.cells[j]?

theorem Fill.refl (w : World) (b : ℕ) : Fill w w b (fun _ => none) :=
  ⟨rfl, rfl, fun _ _ => rfl, fun C h => ⟨C, h, rfl, rfl, fun _ _ => rfl⟩⟩

theorem Fill.congr {w w' : World} {b : ℕ} {g g' : ℕ → Option Val} (h : Fill w w' b g)
    (e : ∀ j, g j = g' j) : Fill w w' b g' := by
  rwa [show g' = g from funext fun j => (e j).symm]

theorem Fill.trans {w w' w'' : World} {b : ℕ} {g g' : ℕ → Option Val} (h : Fill w w' b g)
    (h' : Fill w' w'' b g') : Fill w w'' b (fun j => (g' j).or (g j)) := by
  refine ⟨h'.bufs.trans h.bufs, h'.len.trans h.len, fun m hm => (h'.other m hm).trans (h.other m hm),
    fun C hC => ?_⟩
  obtain ⟨C', h1, h2, h3, h4⟩ := h.here C hC
  obtain ⟨C'', h5, h6, h7, h8⟩ := h'.here C' h1
  refine ⟨C'', h5, h6.trans h2, h7.trans h3, fun j hj => ?_⟩
  rw [h8 j (by omega)]
  cases g' j with
  | none => simp only [Option.none_or]; exact h4 j hj
  | some u => rfl

theorem setCell_fill {b o : ℕ} {C : Block} (hC : w.blocks[b]? = some C) (v : Val) :
    Fill w (w.setCell b o v) b (fun j => if j = o then some v else none) := by
  have hlen : b < w.blocks.length := (List.getElem?_eq_some_iff.1 hC).1
  have e : w.setCell b o v = ⟨w.blocks.set b ⟨C.cells.set o (some v), C.alive⟩, w.bufs⟩ := by
    unfold World.setCell; rw [hC]
  rw [e]
  refine ⟨rfl, by simp, fun m hm => by simp [List.getElem?_set_ne (Ne.symm hm)], fun D hD => ?_⟩
  rw [hC] at hD; cases hD
  refine ⟨⟨C.cells.set o (some v), C.alive⟩, List.getElem?_set_self hlen, rfl, by simp,
    fun j hj => ?_⟩
  by_cases ej : j = o
  · subst ej
    simp only [if_true]
    exact List.getElem?_set_self hj
  · simp [ej, List.getElem?_set_ne (Ne.symm ej)]

theorem Fill.keeps {w' : World} {b : ℕ} {g : ℕ → Option Val} (h : Fill w w' b g)
    (hk : ∀ (C : Block) (j : ℕ) (u v : Val), w.blocks[b]? = some C → g j = some u →
      C.cells[j]? = some (some v) → kind u.ty = kind v.ty) : Keeps w w' := by
  refine ⟨fun k B hB => ⟨B, by rw [h.bufs]; exact hB, rfl⟩, fun m C hC => ?_⟩
  by_cases e : m = b
  · subst e
    obtain ⟨C', h1, h2, h3, h4⟩ := h.here C hC
    refine ⟨C', h1, h3, fun j v hv => ?_⟩
    have hj : j < C.cells.length := (List.getElem?_eq_some_iff.1 hv).1
    have h5 := h4 j hj
    cases hg : g j with
    | none => rw [hg] at h5; exact ⟨v, h5.trans hv, rfl⟩
    | some u => rw [hg] at h5; exact ⟨u, h5, hk C j u v hC hg hv⟩
  · exact ⟨C, by rw [h.other m e]; exact hC, rfl, fun _ v hv => ⟨v, hv, rfl⟩⟩

theorem Fill.alive {w' : World} {b : ℕ} {g : ℕ → Option Val} (h : Fill w w' b g) {m : ℕ} {C : Block}
    (hC : w.blocks[m]? = some C) : ∃ C', w'.blocks[m]? = some C' ∧ C'.alive = C.alive := by
  by_cases e : m = b
  · subst e
    obtain ⟨C', h1, h2, -⟩ := h.here C hC
    exact ⟨C', h1, h2⟩
  · exact ⟨C, by rw [h.other m e]; exact hC, rfl⟩

theorem Fill.books {w' : World} {b : ℕ} {g : ℕ → Option Val} (h : Fill w w' b g) (hb : Books n w f) :
    Books n w' f := by
  constructor
  · rw [h.bufs]; exact hb.alive
  · rw [h.bufs]; exact hb.count
  · rw [h.bufs]
    intro k B hB
    obtain ⟨C, h1, h2⟩ := hb.block k B hB
    obtain ⟨C', h3, h4⟩ := h.alive h1
    exact ⟨C', h3, h4.trans h2⟩
  · rw [h.bufs]; exact hb.inj
  · intro m C hm hC
    have hlen : m < w.blocks.length := h.len ▸ (List.getElem?_eq_some_iff.1 hC).1
    obtain ⟨C', h3, h4⟩ := h.alive (List.getElem?_eq_getElem hlen)
    rw [hC] at h3; cases h3
    rw [h4]
    exact hb.user m _ hm (List.getElem?_eq_getElem hlen)
  · rw [h.bufs]; exact hb.low
  · rw [h.bufs, h.len]; exact hb.lib
  · rw [h.len]; exact hb.size
  · rw [h.bufs]; exact hb.none

/-! ## Pointers -/

/-- The pointer to a place. -/
def ptrOf : Option (ℕ × ℕ) → Ptr
  | none => .null
  | some (b, o) => .elem b o

theorem Arr.Ok.ptr {a : Arr} (ha : a.Ok w) (hb : Books n w f) (hf : ∀ k, own a k ≤ f k) :
    a.ptr w = .ok (ptrOf (a.place w)) := by
  unfold Arr.ptr Arr.place
  cases hm : a.mode with
  | owned =>
    rcases (ha.owner hm).2 with h0 | ⟨k, B, C, h1, h2, h3, h4⟩
    · rw [h0]; rfl
    · rw [h1]
      simp only [h2]
      have : B.alive = true := by
        rw [hb.alive k B h2]
        have := hf k
        unfold own at this
        rw [if_pos ⟨hm, h1⟩] at this
        exact decide_eq_true (show 0 < f k by omega)
      rw [if_pos this]
      rfl
  | constB => rcases ha.view (by simp [hm]) with h0 | ⟨b, o, h0⟩ <;> rw [h0] <;> rfl
  | mutB => rcases ha.view (by simp [hm]) with h0 | ⟨b, o, h0⟩ <;> rw [h0] <;> rfl

theorem Arr.Ok.owned_alive {a : Arr} (ha : a.Ok w) (hb : Books n w f) (hf : ∀ k, own a k ≤ f k)
    (hm : a.mode = .owned) : a.Alive w := by
  intro b o hp
  rcases (ha.owner hm).2 with h0 | ⟨k, B, C, h1, h2, h3, h4⟩
  · unfold Arr.place at hp; rw [hm, h0] at hp; cases hp
  · unfold Arr.place at hp
    rw [hm, h1] at hp
    simp [h2] at hp
    obtain ⟨D, h5, h6⟩ := hb.block k B h2
    refine ⟨D, by rw [← hp.1]; exact h5, ?_⟩
    rw [h6, hb.alive k B h2]
    have := hf k
    unfold own at this
    rw [if_pos ⟨hm, h1⟩] at this
    exact decide_eq_true (show 0 < f k by omega)

theorem place_none_of_null {a : Arr} (h : a.word = .null) : a.place w = none := by
  unfold Arr.place
  rw [h]
  cases a.mode <;> rfl

theorem Arr.Ok.place_null {a : Arr} (ha : a.Ok w) (h : a.place w = none) : a.word = .null := by
  unfold Arr.place at h
  cases hm : a.mode with
  | owned =>
    rcases (ha.owner hm).2 with h0 | ⟨k, B, C, h1, h2, -⟩
    · exact h0
    · rw [hm, h1] at h; simp [h2] at h
  | constB =>
    rcases ha.view (by simp [hm]) with h0 | ⟨b, o, h0⟩
    · exact h0
    · rw [hm, h0] at h; cases h
  | mutB =>
    rcases ha.view (by simp [hm]) with h0 | ⟨b, o, h0⟩
    · exact h0
    · rw [hm, h0] at h; cases h

theorem read_elem {b o : ℕ} {C : Block} {v : Val} (hC : w.blocks[b]? = some C) (ha : C.alive = true)
    (hv : C.cells[o]? = some (some v)) : w.read (.elem b o) = .ok v := by
  unfold World.read World.cell
  simp only [hC, ha, if_true, hv]

/-- What an array in order, which has not lost its memory, has at an index. -/
theorem Arr.Ok.at {a : Arr} (ha : a.Ok w) (hl : a.Alive w) {b o : ℕ} (hp : a.place w = some (b, o))
    {i : ℕ} (hi : i < a.size) : ∃ t C v u, a.info = .ok t ∧ a.elemInfo = .ok t ∧ t.Real ∧
      w.blocks[b]? = some C ∧ C.alive = true ∧ C.cells[o + i]? = some (some v) ∧
      kind v.ty = kind t ∧ v.as t = .ok u ∧ w.read (.elem b (o + i)) = .ok v := by
  obtain ⟨t, C, h1, h2, h3, h4, h5, h6⟩ := ha.memory b o hp
  obtain ⟨v, hv, hk⟩ := h6 i hi
  obtain ⟨D, hD, hDa⟩ := hl b o hp
  rw [h4] at hD; cases hD
  obtain ⟨u, hu⟩ := fits_iff.2 hk
  exact ⟨t, C, v, u, h1, h2, h3, h4, hDa, hv, hk, hu, read_elem h4 hDa hv⟩

/-- Reading an element. -/
theorem Arr.Ok.get {a : Arr} (ha : a.Ok w) (hb : Books n w f) (hf : ∀ k, own a k ≤ f k)
    (ht : a.ty ≠ .null) (i : ℕ) :
    get w a i = if i < a.size then
      (match a.place w with
        | none => a.elemInfo.bind fun t => .ok (Val.zero t)
        | some (b, o) => a.elemInfo.bind fun t => (w.read (.elem b (o + i))).bind fun v => v.as t)
      else .err := by
  unfold RoughPy.Arrays.get Arr.checkAccess
  rw [if_neg ht]
  simp only [Bool.false_eq_true, false_and, if_false, Out.bind]
  split_ifs with hi
  · rw [ha.ptr hb hf]
    simp only
    cases hp : a.place w with
    | none => simp [ptrOf, Out.bind]
    | some q => obtain ⟨b, o⟩ := q; simp [ptrOf, Ptr.shift, Out.bind]
  · rfl

/-! ## Making and destroying arrays -/

/-- Where nothing is written, the elements stay; memory may be given back. -/
def SameCells (w w' : World) : Prop :=
  ∀ (b : ℕ) (C : Block), w.blocks[b]? = some C → ∃ C' : Block, w'.blocks[b]? = some C' ∧ C'.cells = C.cells

theorem SameCells.refl (w : World) : SameCells w w := fun _ C h => ⟨C, h, rfl⟩

theorem SameCells.trans {w w' w'' : World} (h : SameCells w w') (h' : SameCells w' w'') :
    SameCells w w'' := by
  intro b C hC
  obtain ⟨C', h1, h2⟩ := h b C hC
  obtain ⟨C'', h3, h4⟩ := h' b C' h1
  exact ⟨C'', h3, h4.trans h2⟩

theorem alloc_same (junk : ℕ → ℕ) (w : World) (cs : List (Option Val)) :
    SameCells w (w.alloc junk cs).1 := fun _ C h => ⟨C, getElem?_append_some h _, rfl⟩

theorem dtor_spec {a : Arr} (ha : a.Ok w) (hb : Books n w f) (hf : ∀ k, own a k ≤ f k)
    (hs : ∀ k, f k < 2 ^ 64) :
    ∃ w', dtor w a = .ok w' ∧ Keeps w w' ∧ SameCells w w' ∧ Books n w' (fun k => f k - own a k) ∧
      w'.blocks.length = w.blocks.length := by
  have h0 : (∀ k, own a k = 0) → Books n w (fun k => f k - own a k) := fun h => hb.congr (by simp [h])
  unfold dtor
  cases hm : a.mode with
  | owned =>
    rcases (ha.owner hm).2 with hw | ⟨k, B, C, h1, h2, h3, h4⟩
    · rw [hw]
      exact ⟨w, rfl, .refl w, .refl w, h0 fun k => by unfold own; rw [hw]; simp, rfl⟩
    · rw [h1]
      have hk : own a k = 1 := by unfold own; rw [if_pos ⟨hm, h1⟩]
      obtain ⟨w', e1, e2, e3, e4, e5⟩ := decRef_spec hb (k := k) (by have := hf k; omega) (hs k)
      refine ⟨w', e1, e2, fun b C hC => ?_, e3.congr fun l => ?_, e5⟩
      · obtain ⟨C', g1, g2, -⟩ := e4 b C hC
        exact ⟨C', g1, g2⟩
      · congr 1
        unfold own
        rw [hm, h1]
        by_cases e : l = k
        · subst e; simp
        · rw [if_neg e, if_neg]
          rintro ⟨-, h⟩
          exact e (Word.impl.inj h).symm
  | constB => exact ⟨w, rfl, .refl w, .refl w, h0 fun k => by unfold own; rw [hm]; simp, rfl⟩
  | mutB => exact ⟨w, rfl, .refl w, .refl w, h0 fun k => by unfold own; rw [hm]; simp, rfl⟩

theorem copyCtor_spec {a : Arr} (ha : a.Ok w) (hb : Books n w f) (hf : ∀ k, own a k ≤ f k)
    (hs : ∀ k, f k + 1 < 2 ^ 64) :
    ∃ w', copyCtor w a = .ok (w', a) ∧ Keeps w w' ∧ w'.blocks = w.blocks ∧
      Books n w' (fun k => f k + own a k) := by
  have h0 : (∀ k, own a k = 0) → Books n w (fun k => f k + own a k) := fun h => hb.congr (by simp [h])
  unfold copyCtor
  cases hm : a.mode with
  | owned =>
    rcases (ha.owner hm).2 with hw | ⟨k, B, C, h1, h2, h3, h4⟩
    · rw [hw]
      exact ⟨w, rfl, .refl w, rfl, h0 fun k => by unfold own; rw [hw]; simp⟩
    · rw [h1]
      have hk : own a k = 1 := by unfold own; rw [if_pos ⟨hm, h1⟩]
      obtain ⟨w', e1, e2, e3, e4⟩ := incRef_spec hb (k := k) (by have := hf k; omega) (hs k)
      refine ⟨w', by simp [e1, Out.map], e2, e3, e4.congr fun l => ?_⟩
      congr 1
      unfold own
      rw [hm, h1]
      by_cases e : l = k
      · subst e; simp
      · rw [if_neg e, if_neg]
        rintro ⟨-, h⟩
        exact e (Word.impl.inj h).symm
  | constB => exact ⟨w, rfl, .refl w, rfl, h0 fun k => by unfold own; rw [hm]; simp⟩
  | mutB => exact ⟨w, rfl, .refl w, rfl, h0 fun k => by unfold own; rw [hm]; simp⟩

theorem real_of_scalarType {t : Ty} (h : t.IsScalarType) : t.Real := by
  rcases h with rfl | rfl | rfl | rfl <;> trivial

theorem own_impl (t : Ty) (m k sz : ℕ) :
    own ⟨.ptr t, .owned, .impl m, sz⟩ k = if k = m then 1 else 0 := by
  unfold own
  by_cases e : k = m
  · subst e; simp
  · rw [if_neg e, if_neg]
    rintro ⟨-, h⟩
    exact e (Word.impl.inj h).symm

theorem typed_spec {junk : ℕ → ℕ} (hj : ∀ k, junk k = 0) (hb : Books n w f) {t : Ty}
    (ht : t.IsScalarType) (m : ℕ) :
    Keeps w (typed junk w t m).1 ∧ SameCells w (typed junk w t m).1 ∧
      Books n (typed junk w t m).1 (fun k => f k + own (typed junk w t m).2 k) ∧
      (typed junk w t m).2.Ok (typed junk w t m).1 := by
  unfold typed
  split_ifs with h0
  · refine ⟨.refl w, .refl w, hb.congr fun k => by simp [own], ?_⟩
    exact ⟨fun h => by simp at h, fun _ => .inl rfl, fun b o hp => by simp [Arr.place] at hp⟩
  · refine ⟨alloc_keeps _ _ _, alloc_same _ _ _, (alloc_books hj hb _).congr fun k => ?_, ?_⟩
    · rw [own_impl]; rfl
    · refine ⟨fun _ => ⟨⟨t, ht, rfl⟩, .inr ⟨w.bufs.length,
        ⟨w.blocks.length, (junk w.bufs.length + 1) % 2 ^ 64, true⟩,
        ⟨List.replicate m (some (Val.zero t)), true⟩, rfl, by simp [World.alloc],
        by simp [World.alloc], by simp⟩⟩, fun h => absurd rfl h, fun b o hp => ?_⟩
      simp [Arr.place, World.alloc] at hp
      obtain ⟨rfl, rfl⟩ := hp
      refine ⟨t, ⟨List.replicate m (some (Val.zero t)), true⟩, rfl, rfl, real_of_scalarType ht,
        by simp [World.alloc], by simp, fun i hi => ⟨Val.zero t, ?_, by rw [zero_ty ht]⟩⟩
      simp [List.getElem?_replicate]
      exact hi

/-! ## Writing an element -/

theorem write_elem {b o : ℕ} {C : Block} {t : Ty} {v : Val} (u : Val) (hC : w.blocks[b]? = some C)
    (ha : C.alive = true) (hv : C.cells[o]? = some (some v)) (hk : kind v.ty = kind t) :
    w.write t (.elem b o) u = .ok (w.setCell b o u) := by
  obtain ⟨x, hx⟩ := fits_iff.2 hk
  unfold World.write World.cell
  simp only [hC, ha, if_true, hv, hx]

theorem write_raw {b o : ℕ} {C : Block} {t : Ty} (u : Val) (hC : w.blocks[b]? = some C)
    (ha : C.alive = true) (hv : C.cells[o]? = some none) (ht : t.fundamental = true) :
    w.write t (.elem b o) u = .ok (w.setCell b o u) := by
  unfold World.write World.cell
  simp only [hC, ha, if_true, hv, ht]

/-- Writing an element: it is refused, or exactly that place changes. -/
theorem set_spec {P : FP} {a : Arr} (ha : a.Ok w) (hb : Books n w f) (hf : ∀ k, own a k ≤ f k)
    (ht : a.ty ≠ .null) (hl : a.Alive w) {i : ℕ} {v : Val}
    (hm : a.HasMemory w ∨ a.mode = .constB ∨ a.size ≤ i)
    (hc : ∀ t, a.info = .ok t → conv P t v ≠ .ub) :
    (set P w a i v = .err ∧ (a.mode = .constB ∨ a.size ≤ i ∨
      ∃ t, a.info = .ok t ∧ conv P t v = .err)) ∨
    ∃ b o t u, a.mode ≠ .constB ∧ i < a.size ∧ a.place w = some (b, o) ∧ a.info = .ok t ∧
      a.elemInfo = .ok t ∧ conv P t v = .ok u ∧ set P w a i v = .ok (w.setCell b (o + i) u) ∧
      Keeps w (w.setCell b (o + i) u) ∧
      Fill w (w.setCell b (o + i) u) b (fun j => if j = o + i then some u else none) := by
  unfold set Arr.checkAccess
  rw [if_neg ht]
  by_cases h1 : a.mode = .constB
  · left
    refine ⟨?_, .inl h1⟩
    rw [if_pos ⟨rfl, h1⟩]
    rfl
  · rw [if_neg (fun h => h1 h.2)]
    simp only [Out.bind]
    by_cases hi : i < a.size
    · rw [if_pos hi, ha.ptr hb hf]
      obtain ⟨⟨b, o⟩, hp⟩ := Option.isSome_iff_exists.1
        (hm.resolve_right (by rintro (h | h); exact h1 h; omega))
      obtain ⟨t, C, v', u', e1, e2, e3, e4, e5, e6, e7, e8, e9⟩ := ha.at hl hp hi
      rw [hp, e2]
      simp only [ptrOf, Ptr.shift]
      cases hcv : conv P t v with
      | ub => exact absurd hcv (hc t e1)
      | err => exact .inl ⟨rfl, .inr (.inr ⟨t, e1, hcv⟩)⟩
      | ok u =>
        right
        have hfill := setCell_fill (o := o + i) e4 u
        refine ⟨b, o, t, u, h1, hi, rfl, e1, rfl, hcv, write_elem u e4 e5 e6 e7,
          hfill.keeps ?_, hfill⟩
        intro D j x y hD hx hy
        split_ifs at hx with ej
        cases hx
        subst ej
        rw [e4] at hD; cases hD
        rw [e6] at hy; cases hy
        rw [conv_ty hcv, e7]
    · rw [if_neg hi]
      exact .inl ⟨rfl, .inr (.inl (by omega))⟩

/-! ## Copying elements -/

/-- The places from `o + i` on. -/
def span (o i m : ℕ) (us : ℕ → Val) (j : ℕ) : Option Val :=
  if o + i ≤ j ∧ j < o + i + m then some (us (j - o)) else none

theorem copyLoop_spec {P : FP} {dt st : Ty} {b o b2 o2 : ℕ} (hne : b2 ≠ b) (vals : ℕ → Val) (m i : ℕ)
    {w : World} {C D : Block} (hC : w.blocks[b]? = some C) (ha : C.alive = true)
    (hd : ∀ j, i ≤ j → j < i + m → (∃ v, C.cells[o + j]? = some (some v) ∧ kind v.ty = kind dt) ∨
      (C.cells[o + j]? = some none ∧ dt.fundamental = true))
    (hD : w.blocks[b2]? = some D) (hDa : D.alive = true)
    (hs : ∀ j, i ≤ j → j < i + m → ∃ v, D.cells[o2 + j]? = some (some v) ∧ v.as st = .ok (vals j) ∧
      conv P dt (vals j) ≠ .ub) :
    ∃ l us w', l ≤ m ∧ (∀ j, i ≤ j → j < i + l → conv P dt (vals j) = .ok (us j)) ∧
      Fill w w' b (span o i l us) ∧
      ((l = m ∧ copyLoop P dt st (.elem b o) (.elem b2 o2) m i w = .ok w') ∨
        (l < m ∧ conv P dt (vals (i + l)) = .err ∧
          copyLoop P dt st (.elem b o) (.elem b2 o2) m i w = .raised w')) := by
  induction m generalizing i w C D with
  | zero =>
    refine ⟨0, vals, w, le_rfl, fun j h1 h2 => by omega, (Fill.refl w b).congr fun j => ?_,
      .inl ⟨rfl, rfl⟩⟩
    unfold span; rw [if_neg (by omega)]
  | succ m ih =>
    obtain ⟨v, s1, s2, s3⟩ := hs i le_rfl (by omega)
    have hr : w.read (Ptr.shift (.elem b2 o2) i) = .ok v := read_elem hD hDa s1
    have hv : ((w.read (Ptr.shift (.elem b2 o2) i)).bind fun v => v.as st) = .ok (vals i) := by
      rw [hr]; exact s2
    cases hcv : conv P dt (vals i) with
    | ub => exact absurd hcv s3
    | err =>
      refine ⟨0, vals, w, by omega, fun j h1 h2 => by omega, (Fill.refl w b).congr fun j => ?_,
        .inr ⟨by omega, by rw [Nat.add_zero]; exact hcv, ?_⟩⟩
      · unfold span; rw [if_neg (by omega)]
      · unfold copyLoop
        rw [hv]; simp only [hcv]
    | ok u =>
      have hu := conv_ty hcv
      have hw : w.write dt (Ptr.shift (.elem b o) i) u = .ok (w.setCell b (o + i) u) := by
        rcases hd i le_rfl (by omega) with ⟨x, h1, h2⟩ | ⟨h1, h2⟩
        · exact write_elem u hC ha h1 h2
        · exact write_raw u hC ha h1 h2
      have hfill := setCell_fill (o := o + i) hC u
      obtain ⟨C', c1, c2, c3, c4⟩ := hfill.here C hC
      obtain ⟨l, us, w', g1, g2, g3, g4⟩ := ih (i := i + 1) (w := w.setCell b (o + i) u) (C := C')
        (D := D) c1 (c2.trans ha) (by
          intro j h1 h2
          have hj : o + j < C.cells.length := by
            rcases hd j (by omega) (by omega) with ⟨x, h3, -⟩ | ⟨h3, -⟩
            · exact (List.getElem?_eq_some_iff.1 h3).1
            · exact (List.getElem?_eq_some_iff.1 h3).1
          rw [c4 (o + j) hj, if_neg (by omega)]
          exact hd j (by omega) (by omega)) (by rw [hfill.other b2 hne]; exact hD) hDa
        (fun j h1 h2 => hs j (by omega) (by omega))
      have hloop : copyLoop P dt st (.elem b o) (.elem b2 o2) (m + 1) i w =
          copyLoop P dt st (.elem b o) (.elem b2 o2) m (i + 1) (w.setCell b (o + i) u) := by
        conv_lhs => unfold copyLoop
        rw [hv]; simp only [hcv, hw]
      refine ⟨l + 1, fun j => if j = i then u else us j, w', by omega, ?_, ?_, ?_⟩
      · intro j h1 h2
        by_cases e : j = i
        · subst e; simpa using hcv
        · simp only [if_neg e]; exact g2 j (by omega) (by omega)
      · refine (hfill.trans g3).congr fun j => ?_
        unfold span
        by_cases h1 : o + (i + 1) ≤ j ∧ j < o + (i + 1) + l
        · rw [if_pos h1]
          simp only [Option.some_or]
          rw [if_pos (by omega), if_neg (by omega)]
        · rw [if_neg h1]
          simp only [Option.none_or]
          by_cases h2 : j = o + i
          · rw [if_pos h2, if_pos (by omega)]
            simp [h2]
          · rw [if_neg h2, if_neg (by omega)]
      · rw [hloop]
        rcases g4 with ⟨h1, h2⟩ | ⟨h1, h2, h3⟩
        · exact .inl ⟨by omega, h2⟩
        · exact .inr ⟨by omega, by rw [show i + (l + 1) = i + 1 + l by omega]; exact h2, h3⟩

end RoughPy.Arrays
