import Verif.Arrays.Ops

/-!
# Converting copies between arrays in order
-/

namespace RoughPy.Arrays

open RoughPy.Args (Out)
open RoughPy.Scalars (Ty Val FP TRef conv Fits conv_ty conv_same zero_ty)

variable {n : ℕ} {w : World} {f : ℕ → ℕ}

theorem Arr.Ok.pointer {a : Arr} (ha : a.Ok w) (hb : Books n w f) (hf : ∀ k, own a k ≤ f k) {b o : ℕ}
    (hp : a.place w = some (b, o)) : a.pointer w = .ok (.elem b o) := by
  unfold Arr.pointer
  rw [if_neg, ha.ptr hb hf, hp]
  · rfl
  · rintro ⟨-, h⟩
    rw [place_none_of_null h] at hp
    cases hp

/-- What the elements of an array in order read as. -/
theorem Arr.Ok.get_at {a : Arr} (ha : a.Ok w) (hb : Books n w f) (hf : ∀ k, own a k ≤ f k)
    (hl : a.Alive w) {b o : ℕ} (hp : a.place w = some (b, o)) {i : ℕ} (hi : i < a.size) :
    ∃ t C v u, a.info = .ok t ∧ w.blocks[b]? = some C ∧ C.alive = true ∧
      C.cells[o + i]? = some (some v) ∧ kind v.ty = kind t ∧ v.as t = .ok u ∧
      RoughPy.Arrays.get w a i = .ok u := by
  obtain ⟨t, C, v, u, h1, h2, h3, h4, h5, h6, h7, h8, h9⟩ := ha.at hl hp hi
  refine ⟨t, C, v, u, h1, h4, h5, h6, h7, h8, ?_⟩
  have ht : a.ty ≠ .null := by
    intro h0; unfold Arr.info at h1; rw [h0] at h1; cases h1
  rw [ha.get hb hf ht, if_pos hi, hp]
  simp only [h2, Out.bind, h9, h8]

/-- The elements up to `l` are those of the source, converted. -/
def Copied (P : FP) (w : World) (d : Ty) (src : Arr) (l : ℕ) (us : ℕ → Val) : Prop :=
  ∀ j < l, ∃ v, get w src j = .ok v ∧ conv P d v = .ok (us j)

/-- A copy that may stop at an element that cannot be converted. -/
def Copies (P : FP) (w : World) (d : Ty) (src : Arr) (m o : ℕ) (r : Res World) : Prop :=
  ∃ l us w', l ≤ src.size ∧ Copied P w d src l us ∧ Fill w w' m (span o 0 l us) ∧
    ((l = src.size ∧ r = .ok w') ∨
      (l < src.size ∧ (∃ v, get w src l = .ok v ∧ conv P d v = .err) ∧ r = .raised w'))

/-- Which element a block has, and that it is readable, for all elements at once. -/
theorem Arr.Ok.vals {a : Arr} (ha : a.Ok w) (hb : Books n w f) (hf : ∀ k, own a k ≤ f k)
    (hl : a.Alive w) {b o : ℕ} (hp : a.place w = some (b, o)) :
    ∃ (t : Ty) (D : Block) (vals : ℕ → Val), a.info = .ok t ∧ t.Real ∧ w.blocks[b]? = some D ∧ D.alive = true ∧
      ∀ j < a.size, RoughPy.Arrays.get w a j = .ok (vals j) ∧
        ∃ v, D.cells[o + j]? = some (some v) ∧ v.as t = .ok (vals j) := by
  obtain ⟨t, C, h1, h2, h3, h4, h5, h6⟩ := ha.memory b o hp
  obtain ⟨D, hD, hDa⟩ := hl b o hp
  rw [h4] at hD; cases hD
  have : ∀ j, ∃ u, j < a.size → RoughPy.Arrays.get w a j = .ok u ∧
        ∃ v, C.cells[o + j]? = some (some v) ∧ v.as t = .ok u := by
    intro j
    by_cases hj : j < a.size
    · obtain ⟨t', C', v, u, e1, e2, e3, e4, e5, e6, e7⟩ := ha.get_at hb hf hl hp hj
      rw [h1] at e1; cases e1
      rw [h4] at e2; cases e2
      exact ⟨u, fun _ => ⟨e7, v, e4, e6⟩⟩
    · exact ⟨Val.zero t, fun h => absurd h hj⟩
  choose vals hv using this
  exact ⟨t, C, vals, h1, h3, h4, hDa, hv⟩

theorem real_ne_other {t : Ty} (h : t.Real) : t ≠ .other := by
  rintro rfl
  exact h

/-- The copy itself. -/
theorem convertBase_spec {P : FP} {dst src : Arr} {d : Ty} {m o m2 o2 : ℕ} (hsz : dst.size = src.size)
    (hdp : dst.mutPointer w = .ok (.elem m o)) (hdn : ¬ (dst.mode = .owned ∧ dst.word = .null))
    (hdi : dst.info = .ok d) (hdo : d ≠ .other) {C : Block} (hC : w.blocks[m]? = some C)
    (hCa : C.alive = true)
    (hd : ∀ j < dst.size, (∃ v, C.cells[o + j]? = some (some v) ∧ kind v.ty = kind d) ∨
      (C.cells[o + j]? = some none ∧ d.fundamental = true))
    (hs : src.Ok w) (hb : Books n w f) (hf : ∀ k, own src k ≤ f k) (hl : src.Alive w)
    (hp : src.place w = some (m2, o2)) (hne : m2 ≠ m)
    (hc : ∀ k v, get w src k = .ok v → conv P d v ≠ .ub) :
    Copies P w d src m o (convertBase P w dst src) := by
  obtain ⟨st, D, vals, h1, h2, h3, h4, h5⟩ := hs.vals hb hf hl hp
  have e : convertBase P w dst src = copyLoop P d st (.elem m o) (.elem m2 o2) dst.size 0 w := by
    unfold convertBase
    rw [if_neg (by omega), if_neg hdn, hdp]
    simp only [hdi, hs.pointer hb hf hp, h1]
    rw [if_neg]
    rintro (h | h)
    · exact hdo h
    · exact real_ne_other h2 h
  rw [e]
  obtain ⟨l, us, w', g1, g2, g3, g4⟩ := copyLoop_spec (P := P) (dt := d) (st := st) (o := o) (o2 := o2)
    hne vals dst.size 0 hC hCa (fun j _ hj => hd j (by omega)) h3 h4 (fun j _ hj => by
      obtain ⟨e1, v, e2, e3⟩ := h5 j (by omega)
      exact ⟨v, e2, e3, hc j _ e1⟩)
  refine ⟨l, us, w', by omega, fun j hj => ⟨vals j, (h5 j (by omega)).1, g2 j (by omega) (by omega)⟩, g3, ?_⟩
  rcases g4 with ⟨q1, q2⟩ | ⟨q1, q2, q3⟩
  · exact .inl ⟨by omega, q2⟩
  · exact .inr ⟨by omega, ⟨vals l, (h5 l (by omega)).1, by simpa using q2⟩, q3⟩

/-- The copy between arrays in order. -/
theorem convertBase_ok {P : FP} {dst src : Arr} {d : Ty} {m o m2 o2 : ℕ} (hsz : dst.size = src.size)
    (hd : dst.Ok w) (hs : src.Ok w) (hb : Books n w f) (hfd : ∀ k, own dst k ≤ f k)
    (hf : ∀ k, own src k ≤ f k) (hld : dst.Alive w) (hl : src.Alive w)
    (hpd : dst.place w = some (m, o)) (hp : src.place w = some (m2, o2)) (hne : m2 ≠ m)
    (hm : dst.mode ≠ .constB) (hdi : dst.info = .ok d)
    (hc : ∀ k v, get w src k = .ok v → conv P d v ≠ .ub) :
    Copies P w d src m o (convertBase P w dst src) := by
  obtain ⟨t, C, h1, h2, h3, h4, h5, h6⟩ := hd.memory m o hpd
  obtain ⟨D, hD, hDa⟩ := hld m o hpd
  rw [h4] at hD; cases hD
  rw [hdi] at h1; cases h1
  refine convertBase_spec hsz ?_ ?_ hdi (real_ne_other h3) h4 hDa (fun j hj => .inl (h6 j hj)) hs hb hf hl
    hp hne hc
  · unfold Arr.mutPointer
    rw [if_neg hm]
    exact hd.pointer hb hfd hpd
  · rintro ⟨-, h⟩
    rw [place_none_of_null h] at hpd
    cases hpd

theorem Fill.span_keeps {P : FP} {dst src : Arr} {d : Ty} {m o l : ℕ} {us : ℕ → Val} {w' : World}
    (hd : dst.Ok w) (hpd : dst.place w = some (m, o)) (hdi : dst.info = .ok d) (hl : l ≤ dst.size)
    (hc : Copied P w d src l us) (h : Fill w w' m (span o 0 l us)) : Keeps w w' := by
  refine h.keeps fun C j u v hC hg hv => ?_
  unfold span at hg
  split_ifs at hg with hj
  cases hg
  obtain ⟨x, -, hx⟩ := hc (j - o) (by omega)
  obtain ⟨t, D, h1, h2, h3, h4, h5, h6⟩ := hd.memory m o hpd
  rw [h4] at hC; cases hC
  rw [hdi] at h1; cases h1
  obtain ⟨y, hy, hk⟩ := h6 (j - o) (by omega)
  rw [show o + (j - o) = j by omega, hv] at hy
  cases hy
  rw [hk, conv_ty hx]

theorem get_other {a : Arr} {w' : World} (ha : a.Ok w) (hb : Books n w f) (hf : ∀ k, own a k ≤ f k)
    (ha' : a.Ok w') {n' : ℕ} {f' : ℕ → ℕ} (hb' : Books n' w' f') (hf' : ∀ k, own a k ≤ f' k)
    (ht : a.ty ≠ .null) {m o : ℕ} (hp : a.place w = some (m, o)) (hp' : a.place w' = some (m, o))
    (e : w'.blocks[m]? = w.blocks[m]?) (i : ℕ) : get w' a i = get w a i := by
  rw [ha.get hb hf ht, ha'.get hb' hf' ht, hp, hp']
  have : ∀ j, w'.read (.elem m j) = w.read (.elem m j) := by
    intro j; unfold World.read World.cell; simp only; rw [e]
  simp only [this]

theorem info_ty {a : Arr} {d : Ty} (h : a.info = .ok d) : a.ty ≠ .null := by
  intro h0; unfold Arr.info at h; rw [h0] at h; cases h

theorem Fill.alive_of {w' : World} {b : ℕ} {g : ℕ → Option Val} (h : Fill w w' b g) {a : Arr}
    (ha : a.Alive w) (hp : a.place w' = a.place w) : a.Alive w' := by
  intro m o hm
  rw [hp] at hm
  obtain ⟨C, h1, h2⟩ := ha m o hm
  obtain ⟨C', h3, h4⟩ := h.alive h1
  exact ⟨C', h3, h4.trans h2⟩

/-- Twice the same copy is the copy. -/
theorem convertBase_twice {P : FP} {dst src : Arr} {d : Ty} {m o m2 o2 : ℕ} (hsz : dst.size = src.size)
    (hd : dst.Ok w) (hs : src.Ok w) (hb : Books n w f) (hfd : ∀ k, own dst k ≤ f k)
    (hf : ∀ k, own src k ≤ f k) (hld : dst.Alive w) (hl : src.Alive w)
    (hpd : dst.place w = some (m, o)) (hp : src.place w = some (m2, o2)) (hne : m2 ≠ m)
    (hm : dst.mode ≠ .constB) (hdi : dst.info = .ok d)
    (hc : ∀ k v, get w src k = .ok v → conv P d v ≠ .ub) :
    Copies P w d src m o (match convertBase P w dst src with
      | .ok w' => convertBase P w' dst src
      | r => r) := by
  obtain ⟨l, us, w', g1, g2, g3, g4⟩ := convertBase_ok hsz hd hs hb hfd hf hld hl hpd hp hne hm hdi hc
  rcases g4 with ⟨q1, q2⟩ | ⟨q1, q2, q3⟩
  · rw [q2]
    simp only
    have hk := g3.span_keeps hd hpd hdi (by omega) g2
    have hst : src.ty ≠ .null := by
      obtain ⟨t, D, h1, -⟩ := hs.memory m2 o2 hp
      exact info_ty h1
    have hget := fun i => get_other hs hb hf (hs.keeps hk) (g3.books hb) hf hst hp
      ((place_keeps hk hs).trans hp) (g3.other m2 hne) i
    obtain ⟨l', us', w'', p1, p2, p3, p4⟩ := convertBase_ok hsz (hd.keeps hk) (hs.keeps hk) (g3.books hb)
      hfd hf (g3.alive_of hld (place_keeps hk hd)) (g3.alive_of hl (place_keeps hk hs))
      ((place_keeps hk hd).trans hpd) ((place_keeps hk hs).trans hp) hne hm hdi
      (fun k v hv => hc k v (by rw [← hget]; exact hv))
    have hsame : ∀ j, j < l → j < l' → us' j = us j := by
      intro j hj hj'
      obtain ⟨v, e1, e2⟩ := g2 j hj
      obtain ⟨v', e3, e4⟩ := p2 j hj'
      rw [hget, e1] at e3; cases e3
      rw [e2] at e4
      exact (Out.ok.inj e4).symm
    rcases p4 with ⟨r1, r2⟩ | ⟨r1, ⟨v, r2, r3⟩, r4⟩
    · refine ⟨l, us, w'', g1, g2, (g3.trans p3).congr fun j => ?_, .inl ⟨q1, r2⟩⟩
      unfold span
      by_cases hj : o + 0 ≤ j ∧ j < o + 0 + l'
      · rw [if_pos hj, if_pos (by omega)]
        simp only [Option.some_or]
        rw [hsame _ (by omega) (by omega)]
      · rw [if_neg hj, if_neg (by omega)]
        rfl
    · obtain ⟨v', e1, e2⟩ := g2 l' (by omega)
      rw [hget, e1] at r2; cases r2
      rw [r3] at e2; cases e2
  · rw [q3]
    exact ⟨l, us, w', g1, g2, g3, .inr ⟨q1, q2, rfl⟩⟩

theorem Arr.Ok.capacity {a : Arr} (ha : a.Ok w) (hb : Books n w f) (hf : ∀ k, own a k ≤ f k) {b o : ℕ}
    (hp : a.place w = some (b, o)) : a.capacity w = .ok a.size := by
  unfold Arr.capacity
  cases hm : a.mode with
  | owned =>
    rcases (ha.owner hm).2 with h0 | ⟨k, B, C, h1, h2, h3, h4⟩
    · rw [place_none_of_null h0] at hp; cases hp
    · rw [h1]
      have : B.alive = true := by
        rw [hb.alive k B h2]
        have := hf k
        unfold own at this
        rw [if_pos ⟨hm, h1⟩] at this
        exact decide_eq_true (show 0 < f k by omega)
      simp only [h2, this, if_true, h3, h4]
  | constB => cases a.word <;> rfl
  | mutB => cases a.word <;> rfl

theorem Res.map_map {α β γ : Type} (g : α → β) (h : β → γ) (r : Res α) :
    (r.map g).map h = r.map (fun x => h (g x)) := by cases r <;> rfl

theorem convertStd_eq {P : FP} {junk : ℕ → ℕ} {dst src : Arr} (t : Ty) (hsz : dst.size = src.size)
    (hd : dst.Ok w) (hb : Books n w f) (hfd : ∀ k, own dst k ≤ f k) {m o : ℕ}
    (hpd : dst.place w = some (m, o)) (hm : dst.mode ≠ .constB) (h0 : src.size ≠ 0) :
    convertStd P junk w t dst src = (convertBase P w dst src).map fun w' => (w', dst) := by
  unfold convertStd
  rw [if_neg h0, if_neg hm, hd.capacity hb hfd hpd]
  simp only
  rw [if_neg (by omega)]

/-- A converting copy between arrays in order. -/
theorem convertCopy_spec {P : FP} {junk : ℕ → ℕ} {dst src : Arr} {t d : Ty} {m o m2 o2 : ℕ}
    (hsz : dst.size = src.size)
    (hd : dst.Ok w) (hs : src.Ok w) (hb : Books n w f) (hfd : ∀ k, own dst k ≤ f k)
    (hf : ∀ k, own src k ≤ f k) (hld : dst.Alive w) (hl : src.Alive w)
    (hpd : dst.place w = some (m, o)) (hp : src.place w = some (m2, o2)) (hne : m2 ≠ m)
    (hdi : dst.info = .ok d) (hc : ∀ k v, get w src k = .ok v → conv P d v ≠ .ub) :
    (dst.mode = .constB ∧ (convertCopy P junk w t dst src = .raised (w, dst) ∨
      (src.size = 0 ∧ convertCopy P junk w t dst src = .ok (w, dst)))) ∨
    (dst.mode ≠ .constB ∧ ∃ r, convertCopy P junk w t dst src = r.map (fun w' => (w', dst)) ∧
      Copies P w d src m o r) := by
  have hty : ∀ {a : Arr} {q p : ℕ}, a.Ok w → a.place w = some (q, p) →
      (∃ u, a.scalarType = .ok (some u)) ∨ a.scalarType = .ok none := by
    intro a q p ha hq
    obtain ⟨t', D, h1, h2, h3, -⟩ := ha.memory q p hq
    unfold Arr.scalarType
    unfold Arr.info at h1
    cases e : a.ty with
    | null => rw [e] at h1; cases h1
    | ptr u => exact .inl ⟨u, rfl⟩
    | info u =>
      rw [e] at h1; cases h1
      simp only
      cases hu : u.readBack with
      | other => rw [hu] at h3; exact absurd rfl (real_ne_other h3)
      | int _ => exact .inr rfl
      | uint _ => exact .inr rfl
      | f32 => exact .inl ⟨_, rfl⟩
      | f64 => exact .inl ⟨_, rfl⟩
      | rat => exact .inl ⟨_, rfl⟩
      | poly => exact .inl ⟨_, rfl⟩
  by_cases hm : dst.mode = .constB
  · left
    refine ⟨hm, ?_⟩
    unfold convertCopy
    split_ifs with h1 h2
    · exact .inr ⟨h2, rfl⟩
    · exact .inl rfl
    · left
      unfold convertBase
      rw [if_neg (by omega), if_neg (fun h => by rw [hm] at h; exact absurd h.1 (by simp))]
      unfold Arr.mutPointer
      rw [if_pos hm]
      rfl
  · right
    refine ⟨hm, ?_⟩
    have base := convertBase_ok (P := P) hsz hd hs hb hfd hf hld hl hpd hp hne hm hdi hc
    have twice := convertBase_twice (P := P) hsz hd hs hb hfd hf hld hl hpd hp hne hm hdi hc
    have h1 : ∃ r, (convertBase P w dst src).map (fun w' => (w', dst)) = r.map (fun w' => (w', dst)) ∧
      Copies P w d src m o r := ⟨_, rfl, base⟩
    unfold convertCopy
    split_ifs with hfun h0
    · refine ⟨.ok w, rfl, 0, fun _ => Val.zero d, w, Nat.zero_le _, fun j hj => by omega,
        (Fill.refl w m).congr fun j => ?_, .inl ⟨h0.symm, rfl⟩⟩
      unfold span; rw [if_neg (by omega)]
    · have hstd : ∀ t, convertStd P junk w t dst src = (convertBase P w dst src).map fun w' => (w', dst) :=
        fun t => convertStd_eq t hsz hd hb hfd hpd hm h0
      have hwith : ∀ t, convertWith P junk w t dst src =
          (convertBase P w dst src).map fun w' => (w', dst) := by
        intro t; unfold convertWith; split_ifs
        · exact hstd t
        · rfl
      rcases hty hd hpd with ⟨u, hu⟩ | hu
      · rw [hu]; simp only [hwith]; exact h1
      · rw [hu]
        simp only
        rcases hty hs hp with ⟨u', hu'⟩ | hu'
        · rw [hu']
          simp only
          split_ifs
          · rw [hstd]; exact h1
          · rw [hwith]
            refine ⟨_, ?_, twice⟩
            cases hr : convertBase P w dst src with
            | ok w1 =>
              simp only [Res.map]
              obtain ⟨l, us, w', g1, g2, g3, g4⟩ := base
              have hw : w1 = w' := by
                rcases g4 with ⟨_, q⟩ | ⟨_, _, q⟩
                · rw [hr] at q; cases q; rfl
                · rw [hr] at q; cases q
              subst hw
              have hk := g3.span_keeps hd hpd hdi (by omega) g2
              exact convertStd_eq t hsz (hd.keeps hk) (g3.books hb) hfd ((place_keeps hk hd).trans hpd) hm h0
            | raised w1 => rfl
            | ub => rfl
        · rw [hu']; simp only [hstd]; exact h1
    · exact h1

end RoughPy.Arrays
