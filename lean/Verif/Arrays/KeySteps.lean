import Verif.Arrays.KeyLemmas

/-!
# The statements keep the books
-/

namespace RoughPy.Arrays

open RoughPy.Args (Out)
open RoughPy.Scalars (Ty Val FP TRef conv)

variable {U : List KBlock} {V : ℕ → Option KArr} {T : ℕ → Prop} {K : KWorld}

/-- What a destructor of an array of the books comes to. -/
theorem kdtor_cases (h : Inv U K.keys V) {i : ℕ} {a : KArr} (hi : V i = some a) :
    kdtor K a = .scalarUB ∨ ∃ K', kdtor K a = .ok K' ∧
      Go U K.keys V (· = i) K'.keys (Function.update V i none) := by
  unfold kdtor
  by_cases hc : a.owns = true ∧ ∃ p, a.keys = some p
  · obtain ⟨ho, p, hp⟩ := hc
    obtain ⟨ks', e1, e2⟩ := h.release hi ho hp
    rw [if_pos ho, hp]
    dsimp only
    rw [e1]
    dsimp only
    cases dtor K.world a.base with
    | ok w => exact .inr ⟨_, rfl, e2⟩
    | err => exact .inl rfl
    | ub => exact .inl rfl
  · have hn : (if a.owns = true then a.keys else none) = none := by
      by_cases ho : a.owns = true
      · rw [if_pos ho]
        cases hk : a.keys with
        | none => rfl
        | some p => exact absurd ⟨ho, p, hk⟩ hc
      · rw [if_neg ho]
    rw [hn]
    dsimp only
    have hp : ∀ b, V i = some b → b.owns = true → b.keys = none := by
      intro b hb ho
      rw [hi] at hb; cases hb
      rw [if_pos ho] at hn; exact hn
    cases dtor K.world a.base with
    | ok w => exact .inr ⟨_, rfl, h.passive hp (by simp)⟩
    | err => exact .inl rfl
    | ub => exact .inl rfl

/-- What a call that changes the array `i` comes to. -/
def Fine (U ks : List KBlock) (V : ℕ → Option KArr) (i : ℕ) (r : KRes (KWorld × KArr)) : Prop :=
  r ≠ .keyUB ∧ ∀ K' x, r = .ok (K', x) ∨ r = .raised (K', x) →
    Go U ks V (· = i) K'.keys (Function.update V i (some x))

theorem fine_scalarUB {ks : List KBlock} {i : ℕ} : Fine U ks V i .scalarUB :=
  ⟨by simp, by simp⟩

theorem fine_ok {ks : List KBlock} {i : ℕ} {K' : KWorld} {x : KArr}
    (h : Go U ks V (· = i) K'.keys (Function.update V i (some x))) : Fine U ks V i (.ok (K', x)) := by
  refine ⟨by simp, ?_⟩
  rintro K'' y (e | e)
  · cases e; exact h
  · cases e

theorem fine_raised {ks : List KBlock} {i : ℕ} {K' : KWorld} {x : KArr}
    (h : Go U ks V (· = i) K'.keys (Function.update V i (some x))) :
    Fine U ks V i (.raised (K', x)) := by
  refine ⟨by simp, ?_⟩
  rintro K'' y (e | e)
  · cases e
  · cases e; exact h

/-- After the destructor an array without own keys is put in its place. -/
theorem passive_after {ks ks' : List KBlock} {i : ℕ}
    (h : Go U ks V (· = i) ks' (Function.update V i none)) {x : KArr}
    (hx : (x.owns = true → x.keys = none) ∧ ∀ p, x.owns = false → x.keys = some p → p.1 < U.length) :
    Go U ks V (· = i) ks' (Function.update V i (some x)) := by
  have := h.inv.passive (i := i) (x := some x) (by simp) (by rintro a ⟨⟩; exact hx)
  rw [Function.update_idem] at this
  exact h.trans this

/-- After the destructor an array with new keys is put in its place. -/
theorem acquire_after {ks ks' : List KBlock} {i : ℕ}
    (h : Go U ks V (· = i) ks' (Function.update V i none)) {b : Arr} {l : List ℕ}
    (hl : l.length = b.size) :
    Go U ks V (· = i) (ks' ++ [⟨l, false, true⟩])
      (Function.update V i (some ⟨b, some (ks'.length, 0), true⟩)) := by
  have := h.inv.acquire (i := i) (by simp) hl
  rw [Function.update_idem] at this
  exact h.trans this

theorem newKeys_eq (ks : List KBlock) (n : ℕ) :
    newKeys ks n = ks ++ [⟨List.replicate n 0, false, true⟩] := rfl

/-- `allocate_keys` -/
theorem allocKeys_fine (h : Inv U K.keys V) {i : ℕ} {a : KArr} {count : ℤ} (hi : V i = some a)
    (hs : ∀ p, a.keys = some p → count ≠ 0 →
      a.owns = true ∧ (count = -1 ∨ count = (a.base.size : ℤ))) :
    Fine U K.keys V i (allocKeys K a count) := by
  have same : Function.update V i (some a) = V := by rw [← hi, Function.update_eq_self]
  unfold allocKeys
  by_cases h0 : count = 0
  · rw [if_pos h0]
    exact fine_ok (by rw [same]; exact Go.refl h _)
  · rw [if_neg h0]
    cases hk : a.keys with
    | none =>
      dsimp only [freeOld]
      by_cases hc : count = -1 ∨ count = (a.base.size : ℤ)
      · rw [if_pos hc]
        refine fine_ok (h.acquire (fun b hb _ => ?_) (by simp))
        rw [hi] at hb; cases hb; exact hk
      · rw [if_neg hc]
        exact fine_raised (by rw [same]; exact Go.refl h _)
    | some p =>
      obtain ⟨ho, hc⟩ := hs p hk h0
      obtain ⟨ks', e1, e2⟩ := h.release hi ho hk
      dsimp only [freeOld]
      rw [e1]
      dsimp only
      rw [if_pos hc]
      exact fine_ok (acquire_after e2 (by simp))

/-- `operator=(ScalarArray&&)` -/
theorem kmoveScalars_fine (h : Inv U K.keys V) {i : ℕ} {a : KArr} (hi : V i = some a) (o : Arr) :
    kmoveScalars K a o = .scalarUB ∨ ∃ K' x o', kmoveScalars K a o = .ok (K', x, o') ∧
      o'.size = o.size ∧ Go U K.keys V (· = i) K'.keys (Function.update V i (some x)) := by
  unfold kmoveScalars
  rcases kdtor_cases h hi with e | ⟨K1, e, g⟩
  · rw [e]; exact .inl rfl
  · rw [e]
    dsimp only
    unfold moveAssign
    cases dtor K1.world a.destroyed.base with
    | ok w =>
      refine .inr ⟨_, _, _, rfl, ?_, passive_after g ⟨by simp, by simp⟩⟩
      dsimp only
      split_ifs <;> rfl
    | err => exact .inl rfl
    | ub => exact .inl rfl

/-- `allocate_scalars` -/
theorem allocScalars_fine (h : Inv U K.keys V) {junk : ℕ → ℕ} {i : ℕ} {a : KArr} {count : ℤ}
    (hi : V i = some a) : Fine U K.keys V i (allocScalars junk K a count) := by
  have same : Function.update V i (some a) = V := by rw [← hi, Function.update_eq_self]
  have stay : Fine U K.keys V i (.ok (K, a)) := fine_ok (by rw [same]; exact Go.refl h _)
  unfold allocScalars
  cases a.base.scalarType with
  | ok o =>
    cases o with
    | none => exact stay
    | some t =>
      dsimp only
      by_cases hc : count < 0
      · rw [if_pos hc]; exact stay
      · rw [if_neg hc]
        cases allocate junk K.world t count.toNat with
        | none => exact fine_raised (by rw [same]; exact Go.refl h _)
        | some r =>
          dsimp only
          rcases kmoveScalars_fine (K := ⟨r.1, K.keys⟩) h hi r.2 with e | ⟨K', x, o', e, -, g⟩
          · rw [e]; exact fine_scalarUB
          · rw [e]; exact fine_ok g
  | err =>
    dsimp only
    by_cases hc : a.base.ty = .null ∧ count < 0
    · rw [if_pos hc]; exact stay
    · rw [if_neg hc]; exact fine_scalarUB
  | ub =>
    dsimp only
    by_cases hc : a.base.ty = .null ∧ count < 0
    · rw [if_pos hc]; exact stay
    · rw [if_neg hc]; exact fine_scalarUB

/-- `operator=(const ScalarArray&)` -/
theorem kassignScalars_fine (h : Inv U K.keys V) {P : FP} {junk : ℕ → ℕ} {i : ℕ} {a : KArr}
    (hi : V i = some a) (o : Arr) : Fine U K.keys V i (kassignScalars P junk K a o) := by
  unfold kassignScalars
  rcases kdtor_cases h hi with e | ⟨K1, e, g⟩
  · rw [e]; exact fine_scalarUB
  · rw [e]
    dsimp only
    cases copyAssign P junk K1.world a.destroyed.base o with
    | ok r => exact fine_ok (passive_after g ⟨by simp, by simp⟩)
    | raised r => exact fine_raised (passive_after g ⟨by simp, by simp⟩)
    | ub => exact fine_scalarUB

/-! ## Copies -/

theorem res_map_ok {α β : Type} {f : α → β} {r : Res α} {y : β} (h : r.map f = .ok y) :
    ∃ x, r = .ok x ∧ f x = y := by
  cases r with
  | ok a => exact ⟨a, rfl, by cases h; rfl⟩
  | raised a => cases h
  | ub => cases h

/-- Assigning scalars gives an array of the same size. -/
theorem copyAssign_size {P : FP} {junk : ℕ → ℕ} {w w' : World} {a o b : Arr}
    (h : copyAssign P junk w a o = .ok (w', b)) (ht : o.typeNull = false) : b.size = o.size := by
  unfold copyAssign at h
  rw [ht] at h
  rw [if_neg (by simp)] at h
  cases hd : dtor w a with
  | err => rw [hd] at h; cases h
  | ub => rw [hd] at h; cases h
  | ok w1 =>
    rw [hd] at h
    dsimp only at h
    cases hti : ({ a.destroyed with ty := o.ty, mode := o.mode } : Arr).info with
    | err => rw [hti] at h; cases h
    | ub => rw [hti] at h; cases h
    | ok t =>
      rw [hti] at h
      dsimp only at h
      have key : ∀ u, o.ty = .ptr u → convertCopy P junk
          (w1.alloc junk (List.replicate o.size none)).1 u
          ⟨o.ty, o.mode, .impl (w1.alloc junk (List.replicate o.size none)).2, o.size⟩ o = .ok (w', b) →
          b.size = o.size := by
        intro u hu hcv
        have hcap : ∀ c, (⟨o.ty, o.mode, .impl (w1.alloc junk (List.replicate o.size none)).2,
            o.size⟩ : Arr).capacity (w1.alloc junk (List.replicate o.size none)).1 = .ok c →
            c = o.size := by
          intro c hc
          unfold Arr.capacity World.alloc at hc
          cases hm : o.mode with
          | constB => rw [hm] at hc; simp at hc; exact hc.symm
          | mutB => rw [hm] at hc; simp at hc; exact hc.symm
          | owned => rw [hm] at hc; simp at hc; exact hc.symm
        have hstd : ∀ t, convertStd P junk (w1.alloc junk (List.replicate o.size none)).1 t
            ⟨o.ty, o.mode, .impl (w1.alloc junk (List.replicate o.size none)).2, o.size⟩ o
              = .ok (w', b) → b.size = o.size := by
          intro t hst
          unfold convertStd at hst
          by_cases h0 : o.size = 0
          · rw [if_pos h0] at hst; cases hst; rfl
          · rw [if_neg h0] at hst
            by_cases hm : o.mode = .constB
            · rw [if_pos hm] at hst; cases hst
            · rw [if_neg hm] at hst
              cases hc : (⟨o.ty, o.mode, .impl (w1.alloc junk (List.replicate o.size none)).2,
                  o.size⟩ : Arr).capacity (w1.alloc junk (List.replicate o.size none)).1 with
              | err => rw [hc] at hst; cases hst
              | ub => rw [hc] at hst; cases hst
              | ok c =>
                rw [hc] at hst
                dsimp only at hst
                rw [hcap c hc, if_neg (lt_irrefl _)] at hst
                obtain ⟨x, -, e⟩ := res_map_ok hst
                cases e; rfl
        have hbase : (convertBase P (w1.alloc junk (List.replicate o.size none)).1
            ⟨o.ty, o.mode, .impl (w1.alloc junk (List.replicate o.size none)).2, o.size⟩ o).map
              (fun w' => (w', (⟨o.ty, o.mode, .impl (w1.alloc junk (List.replicate o.size none)).2,
                o.size⟩ : Arr))) = .ok (w', b) → b.size = o.size := by
          intro hb
          obtain ⟨x, -, e⟩ := res_map_ok hb
          cases e; rfl
        unfold convertCopy at hcv
        by_cases hf : u.fundamental = true
        · rw [if_pos hf] at hcv
          by_cases h0 : o.size = 0
          · rw [if_pos h0] at hcv; cases hcv; rfl
          · rw [if_neg h0] at hcv
            by_cases hm : o.mode = .constB
            · rw [if_pos hm] at hcv; cases hcv
            · rw [if_neg hm] at hcv
              have hst : (⟨o.ty, o.mode, .impl (w1.alloc junk (List.replicate o.size none)).2,
                  o.size⟩ : Arr).scalarType = .ok (some u) := by
                unfold Arr.scalarType; rw [hu]
              rw [hst] at hcv
              dsimp only at hcv
              unfold convertWith at hcv
              rw [if_pos hf] at hcv
              exact hstd u hcv
        · rw [if_neg hf] at hcv
          exact hbase hcv
      have mem : (if t.fundamental = true then
          match o.ptr (w1.alloc junk (List.replicate o.size none)).1 with
          | .ok q => (memcpy (.elem w1.blocks.length 0) q o.size 0
              (w1.alloc junk (List.replicate o.size none)).1).map fun w' =>
                (w', (⟨o.ty, o.mode, .impl (w1.alloc junk (List.replicate o.size none)).2,
                  o.size⟩ : Arr))
          | _ => Res.ub
          else Res.raised (w1, ({ a.destroyed with ty := o.ty, mode := o.mode } : Arr))) = .ok (w', b) →
          b.size = o.size := by
        intro hm
        by_cases hf : t.fundamental = true
        · rw [if_pos hf] at hm
          cases hq : o.ptr (w1.alloc junk (List.replicate o.size none)).1 with
          | ok q =>
            rw [hq] at hm
            obtain ⟨x, -, e⟩ := res_map_ok hm
            cases e; rfl
          | err => rw [hq] at hm; cases hm
          | ub => rw [hq] at hm; cases hm
        · rw [if_neg hf] at hm; cases hm
      cases hty : o.ty with
      | ptr u =>
        refine key u hty ?_
        rw [hty] at h
        rw [hty]
        exact h
      | null =>
        refine mem ?_
        rw [hty] at h
        rw [hty]
        exact h
      | info u =>
        refine mem ?_
        rw [hty] at h
        rw [hty]
        exact h

/-- What an assignment of keyed arrays comes to. -/
theorem kcopyAssign_fine (h : Inv U K.keys V) {P : FP} {junk : ℕ → ℕ} {i j : ℕ} {a o : KArr}
    (hij : i ≠ j) (hi : V i = some a) (hj : V j = some o)
    (hs : o.owns = true → o.base.typeNull = false ∧ (o.keys = none → o.base.size = 0)) :
    Fine U K.keys V i (kcopyAssign P junk K a o) ∧
      ∀ K' x, kcopyAssign P junk K a o = .ok (K', x) → o.base.typeNull = false →
        x.base.size = o.base.size ∧ ∀ p l, o.keys = some p →
          readKeys K.keys (some p) o.base.size = some l → ∃ q, x.keys = some q ∧
            readKeys K'.keys (some q) x.base.size = some l := by
  unfold kcopyAssign
  rcases kdtor_cases h hi with e | ⟨K1, e, g⟩
  · rw [e]; exact ⟨fine_scalarUB, by simp⟩
  rw [e]
  dsimp only
  cases hca : copyAssign P junk K1.world a.destroyed.base o.base with
  | raised r => exact ⟨fine_raised (passive_after g ⟨by simp, by simp⟩), by simp⟩
  | ub => exact ⟨fine_scalarUB, by simp⟩
  | ok r =>
    obtain ⟨w, b⟩ := r
    dsimp only
    obtain ⟨f1, f2⟩ := g.frame j (Ne.symm hij)
    unfold kassignKeys
    by_cases ho : o.owns = true
    · rw [if_pos ho]
      obtain ⟨ht, hn⟩ := hs ho
      have hsz := copyAssign_size hca ht
      have hread : ∃ l, readKeys K1.keys o.keys o.base.size = some l ∧
          ∀ p, o.keys = some p → readKeys K.keys (some p) o.base.size = some l := by
        cases hk : o.keys with
        | none =>
          refine ⟨[], ?_, by simp⟩
          unfold readKeys; rw [if_pos (hn hk)]
        | some p =>
          obtain ⟨l, hl⟩ := h.readable hj ho hk
          refine ⟨l, ?_, ?_⟩
          · rw [readKeys_congr (f2 o p hj hk)]; exact hl
          · rintro q ⟨⟩; exact hl
      obtain ⟨l, hl, hl'⟩ := hread
      have hlen := readKeys_length hl
      dsimp only
      rw [hsz, copyKeys_new hl hlen]
      refine ⟨fine_ok (acquire_after g (by rw [hlen, hsz])), ?_⟩
      intro K' x hx _
      cases hx
      refine ⟨hsz, fun p l' hp hl2 => ⟨_, rfl, ?_⟩⟩
      have : l' = l := by
        have h3 := hl' p hp
        rw [hl2] at h3; exact Option.some.inj h3
      subst this
      exact readKeys_new _ _ (by rw [hlen, hsz])
    · rw [if_neg ho]
      have ho' : o.owns = false := by simpa using ho
      refine ⟨fine_ok (passive_after g ⟨by simp, fun p _ hp => h.lent j o p hj ho' hp⟩), ?_⟩
      intro K' x hx ht
      cases hx
      have hsz := copyAssign_size hca ht
      refine ⟨hsz, fun p l hp hl => ⟨p, hp, ?_⟩⟩
      dsimp only
      rw [hsz, readKeys_congr (f2 o p hj hp)]
      exact hl

/-- What a copy comes to: an array that was not there. -/
theorem kcopyCtor_fine (h : Inv U K.keys V) {i n : ℕ} {a : KArr} (hi : V i = some a)
    (hn : V n = none) :
    Fine U K.keys V n (kcopyCtor K a) ∧ ∀ K' x, kcopyCtor K a = .ok (K', x) →
      x.base.size = a.base.size ∧ (a.owns = true → ∀ p l, a.keys = some p →
        readKeys K.keys (some p) a.base.size = some l → ∃ q, x.keys = some q ∧
          readKeys K'.keys (some q) x.base.size = some l) := by
  have hnone : ∀ b, V n = some b → b.owns = true → b.keys = none := by
    intro b hb; rw [hn] at hb; cases hb
  have hsz : ∀ w b, copyCtor K.world a.base = .ok (w, b) → b.size = a.base.size := by
    intro w b hc
    unfold copyCtor at hc
    split at hc
    · cases hr : K.world.incRef _ with
      | ok w' => rw [hr] at hc; cases hc; rfl
      | err => rw [hr] at hc; cases hc
      | ub => rw [hr] at hc; cases hc
    · cases hc
    · cases hc; rfl
  unfold kcopyCtor
  cases hc : copyCtor K.world a.base with
  | err => exact ⟨fine_scalarUB, by simp⟩
  | ub => exact ⟨fine_scalarUB, by simp⟩
  | ok r =>
    obtain ⟨w, b⟩ := r
    have hb := hsz w b hc
    dsimp only
    by_cases ho : a.owns = true
    · rw [if_pos ho]
      cases hk : a.keys with
      | none =>
        refine ⟨fine_ok (h.passive hnone (by rintro x ⟨⟩; exact ⟨by simp, by simp⟩)), ?_⟩
        intro K' x hx
        cases hx
        exact ⟨hb, fun _ p l hp => by cases hp⟩
      | some p =>
        obtain ⟨l, hl⟩ := h.readable hi ho hk
        have hlen := readKeys_length hl
        dsimp only
        rw [hb, copyKeys_new hl hlen]
        refine ⟨fine_ok (h.acquire hnone (by rw [hlen, hb])), ?_⟩
        intro K' x hx
        cases hx
        refine ⟨hb, fun _ q l' hq hl2 => ⟨_, rfl, ?_⟩⟩
        cases hq
        rw [hl] at hl2; cases hl2
        exact readKeys_new _ _ (by rw [hlen, hb])
    · rw [if_neg ho]
      refine ⟨fine_ok (h.passive hnone (by rintro x ⟨⟩; exact ⟨by simp, by simp⟩)), ?_⟩
      intro K' x hx
      cases hx
      exact ⟨hb, fun h' => absurd h' ho⟩

/-! ## States -/

/-- The books of a state. -/
abbrev KBooks (U : List KBlock) (s : KSt) : Prop := Inv U s.mem.keys s.var

theorem KSt.var_push (s : KSt) (r : KWorld × KArr) :
    (s.push r).var = Function.update s.var s.vars.length (some r.2) := by
  funext m
  unfold KSt.var KSt.push
  by_cases hm : m = s.vars.length
  · subst hm
    rw [Function.update_self]
    simp
  · rw [Function.update_of_ne hm]
    dsimp only
    by_cases hl : m < s.vars.length
    · rw [List.getElem?_append_left hl]
    · rw [List.getElem?_eq_none (by simp; omega), List.getElem?_eq_none (by omega)]

theorem KSt.var_lt {s : KSt} {i : ℕ} {a : KArr} (h : s.var i = some a) : i < s.vars.length := by
  unfold KSt.var at h
  by_contra hl
  rw [List.getElem?_eq_none (by omega)] at h
  cases h

theorem KSt.var_length (s : KSt) : s.var s.vars.length = none := by
  unfold KSt.var
  rw [List.getElem?_eq_none (le_refl _)]
  rfl

theorem var_set {K : KWorld} {vs : List (Option KArr)} {i : ℕ} (hi : i < vs.length) (x : Option KArr) :
    (⟨K, vs.set i x⟩ : KSt).var = Function.update (⟨K, vs⟩ : KSt).var i x := by
  funext m
  unfold KSt.var
  by_cases hm : m = i
  · subst hm
    rw [Function.update_self]
    dsimp only
    rw [List.getElem?_set_self hi]
    rfl
  · rw [Function.update_of_ne hm]
    dsimp only
    rw [List.getElem?_set_ne (Ne.symm hm)]

theorem KSt.var_put {s : KSt} {i : ℕ} (hi : i < s.vars.length) (r : KWorld × KArr) :
    (s.put i r).var = Function.update s.var i (some r.2) := var_set hi _

/-- What a statement comes to. -/
def Step (U : List KBlock) (s : KSt) (T : ℕ → Prop) (r : KRes KSt) : Prop :=
  r ≠ .keyUB ∧ ∀ s', r = .ok s' ∨ r = .raised s' → Go U s.mem.keys s.var T s'.mem.keys s'.var

theorem step_scalarUB {s : KSt} : Step U s T .scalarUB := ⟨by simp, by simp⟩

theorem step_ok {s s' : KSt} (h : Go U s.mem.keys s.var T s'.mem.keys s'.var) : Step U s T (.ok s') := by
  refine ⟨by simp, ?_⟩
  rintro s'' (e | e)
  · cases e; exact h
  · cases e

theorem Fine.put {s : KSt} {i : ℕ} {r : KRes (KWorld × KArr)} (hi : i < s.vars.length)
    (h : Fine U s.mem.keys s.var i r) : Step U s (· = i) (r.map (s.put i)) := by
  obtain ⟨h1, h2⟩ := h
  cases r with
  | ok x =>
    refine ⟨by simp [KRes.map], ?_⟩
    rintro s' (e | e) <;> cases e
    rw [KSt.var_put hi]
    exact h2 x.1 x.2 (.inl rfl)
  | raised x =>
    refine ⟨by simp [KRes.map], ?_⟩
    rintro s' (e | e) <;> cases e
    rw [KSt.var_put hi]
    exact h2 x.1 x.2 (.inr rfl)
  | scalarUB => exact step_scalarUB
  | keyUB => exact absurd rfl h1

theorem Fine.push {s : KSt} {r : KRes (KWorld × KArr)}
    (h : Fine U s.mem.keys s.var s.vars.length r) :
    Step U s (· = s.vars.length) (r.map s.push) := by
  obtain ⟨h1, h2⟩ := h
  cases r with
  | ok x =>
    refine ⟨by simp [KRes.map], ?_⟩
    rintro s' (e | e) <;> cases e
    rw [KSt.var_push]
    exact h2 x.1 x.2 (.inl rfl)
  | raised x =>
    refine ⟨by simp [KRes.map], ?_⟩
    rintro s' (e | e) <;> cases e
    rw [KSt.var_push]
    exact h2 x.1 x.2 (.inr rfl)
  | scalarUB => exact step_scalarUB
  | keyUB => exact absurd rfl h1

theorem Step.mono {s : KSt} {T' : ℕ → Prop} {r : KRes KSt} (h : Step U s T r) (hT : ∀ m, T m → T' m) :
    Step U s T' r := ⟨h.1, fun s' hs => (h.2 s' hs).mono hT⟩

theorem withKVar_step {s : KSt} {i : ℕ} {f : KArr → KRes KSt}
    (h : ∀ a, s.var i = some a → Step U s T (f a)) : Step U s T (withKVar s i f) := by
  unfold withKVar
  cases hv : s.var i with
  | none => exact step_scalarUB
  | some a => exact h a hv

/-- A new array without own keys. -/
theorem push_passive {s : KSt} (h : KBooks U s) (r : KWorld × KArr) (hk : r.1.keys = s.mem.keys)
    (hx : (r.2.owns = true → r.2.keys = none) ∧
      ∀ p, r.2.owns = false → r.2.keys = some p → p.1 < U.length) :
    Step U s (· = s.vars.length) (.ok (s.push r)) := by
  refine step_ok ?_
  rw [KSt.var_push]
  have : (s.push r).mem.keys = s.mem.keys := hk
  rw [this]
  refine h.passive (fun a ha => ?_) (by rintro a ⟨⟩; exact hx)
  rw [KSt.var_length] at ha; cases ha

/-- Moving to a new array. -/
theorem move_step {s : KSt} (h : KBooks U s) {i : ℕ} {a : KArr} (hi : s.var i = some a) :
    Step U s (fun m => m = i ∨ m = s.vars.length)
      (.ok ((s.put i (s.mem, (kmoveCtor a).2)).push (s.mem, (kmoveCtor a).1))) := by
  have hlt := KSt.var_lt hi
  have hne : i ≠ s.vars.length := by omega
  refine step_ok ?_
  rw [KSt.var_push, KSt.var_put hlt]
  have hlen : (s.put i (s.mem, (kmoveCtor a).2)).vars.length = s.vars.length := by
    unfold KSt.put; simp
  rw [hlen]
  have g := h.transfer (b := (kmoveCtor a).1) hne hi (KSt.var_length s) rfl rfl rfl
  have g2 := g.inv.passive (i := i) (x := some (kmoveCtor a).2)
    (by rw [Function.update_of_ne hne, Function.update_self]; simp)
    (by rintro x ⟨⟩; exact ⟨by simp [kmoveCtor], by simp [kmoveCtor]⟩)
  have e : Function.update (Function.update (Function.update s.var i none) s.vars.length
      (some (kmoveCtor a).1)) i (some (kmoveCtor a).2) =
      Function.update (Function.update s.var i (some (kmoveCtor a).2)) s.vars.length
        (some (kmoveCtor a).1) := by
    rw [Function.update_comm hne.symm, Function.update_idem]
  rw [e] at g2
  exact g.trans (g2.mono fun m hm => .inl hm)

/-- `operator=(KeyScalarArray&&)` -/
theorem moveAssign_step {s : KSt} (h : KBooks U s) {i j : ℕ} {a b : KArr} (hij : i ≠ j)
    (hi : s.var i = some a) (hj : s.var j = some b) :
    Step U s (fun m => m = i ∨ m = j)
      ((kmoveAssign s.mem a b).map fun r => (s.put i (r.1, r.2.1)).put j (r.1, r.2.2)) := by
  unfold kmoveAssign
  rcases kdtor_cases h hi with e | ⟨K1, e, g⟩
  · rw [e]; exact step_scalarUB
  rw [e]
  dsimp only
  unfold moveAssign
  cases dtor K1.world a.destroyed.base with
  | err => exact step_scalarUB
  | ub => exact step_scalarUB
  | ok w =>
    refine step_ok ?_
    rw [KSt.var_put (by unfold KSt.put; simp; exact KSt.var_lt hj), KSt.var_put (KSt.var_lt hi)]
    have g1 := g.inv.transfer (i := j) (j := i) (a := b) (b := ⟨b.base, b.keys, b.owns⟩) (Ne.symm hij)
      (by rw [Function.update_of_ne (Ne.symm hij)]; exact hj) (Function.update_self _ _ _) rfl rfl rfl
    have g2 := g1.inv.passive (i := j)
      (x := some ⟨if b.base.mode = .owned then { b.base with word := .null } else b.base, none, b.owns⟩)
      (by rw [Function.update_of_ne (Ne.symm hij), Function.update_self]; simp)
      (by rintro x ⟨⟩; exact ⟨by simp, by simp⟩)
    have e : ∀ x y, Function.update (Function.update (Function.update (Function.update s.var i none) j
        none) i (some x)) j (some y) = Function.update (Function.update s.var i (some x)) j (some y) := by
      intro x y
      funext m
      by_cases hmj : m = j
      · subst hmj; rw [Function.update_self, Function.update_self]
      · rw [Function.update_of_ne hmj, Function.update_of_ne hmj]
        by_cases hmi : m = i
        · subst hmi; rw [Function.update_self, Function.update_self]
        · rw [Function.update_of_ne hmi, Function.update_of_ne hmi, Function.update_of_ne hmj,
            Function.update_of_ne hmi]
    rw [e] at g2
    exact (g.mono fun m hm => .inl hm).trans ((g1.mono fun m hm => hm.symm).trans
      (g2.mono fun m hm => .inr hm))

/-- `operator=(ScalarArray&&)` -/
theorem moveScalars_step {s : KSt} (h : KBooks U s) {i j : ℕ} {a b : KArr} (hij : i ≠ j)
    (hi : s.var i = some a) (hj : s.var j = some b) :
    Step U s (fun m => m = i ∨ m = j)
      ((kmoveScalars s.mem a b.base).map fun r =>
        (s.put i (r.1, r.2.1)).put j (r.1, ⟨r.2.2, b.keys, b.owns⟩)) := by
  rcases kmoveScalars_fine h hi b.base with e | ⟨K', x, o', e, hs, g⟩
  · rw [e]; exact step_scalarUB
  rw [e]
  refine step_ok ?_
  rw [KSt.var_put (by unfold KSt.put; simp; exact KSt.var_lt hj), KSt.var_put (KSt.var_lt hi)]
  dsimp only
  refine (g.mono fun m hm => .inl hm).trans ?_
  have hj' : Function.update s.var i (some x) j = some b := by
    rw [Function.update_of_ne (Ne.symm hij)]; exact hj
  -- the array `j` changes its scalars only
  have hinv := g.inv
  have back : ∀ {m y}, Function.update (Function.update s.var i (some x)) j
      (some ⟨o', b.keys, b.owns⟩) m = some y → ∃ z, Function.update s.var i (some x) m = some z ∧
        y.keys = z.keys ∧ y.owns = z.owns ∧ y.base.size = z.base.size := by
    intro m y hm
    by_cases hmj : m = j
    · subst hmj
      rw [Function.update_self] at hm
      cases hm
      exact ⟨b, hj', rfl, rfl, hs⟩
    · rw [Function.update_of_ne hmj] at hm
      exact ⟨y, hm, rfl, rfl, rfl⟩
  refine ⟨⟨?_, ?_, ?_, hinv.user, hinv.size, ?_⟩, fun m hm => ⟨?_, fun _ _ _ _ => rfl⟩⟩
  · intro m y p hm ho hp
    obtain ⟨z, hz, e1, e2, e3⟩ := back hm
    rw [e3]
    exact hinv.own m z p hz (e2 ▸ ho) (e1 ▸ hp)
  · intro m n y y' p q hm hn ho ho' hp hq he
    obtain ⟨z, hz, e1, e2, -⟩ := back hm
    obtain ⟨z', hz', e1', e2', -⟩ := back hn
    exact hinv.uniq m n z z' p q hz hz' (e2 ▸ ho) (e2' ▸ ho') (e1 ▸ hp) (e1' ▸ hq) he
  · intro m y p hm ho hp
    obtain ⟨z, hz, e1, e2, -⟩ := back hm
    exact hinv.lent m z p hz (e2 ▸ ho) (e1 ▸ hp)
  · intro c B hc hB hal
    obtain ⟨m, z, f1, f2, f3⟩ := hinv.lib c B hc hB hal
    by_cases hmj : m = j
    · subst hmj
      rw [hj'] at f1; cases f1
      exact ⟨m, _, Function.update_self _ _ _, f2, f3⟩
    · exact ⟨m, z, by rw [Function.update_of_ne hmj]; exact f1, f2, f3⟩
  · have : m ≠ j := fun hj => hm (.inr hj)
    rw [Function.update_of_ne this]

/-- `keys()[k] = x` -/
theorem setKey_step {s : KSt} (h : KBooks U s) {i k x : ℕ} {a : KArr} (hi : s.var i = some a)
    (hk : k < a.base.size) (ho : a.owns = true) (hn : a.keys ≠ none) :
    ∃ p B, a.keys = some p ∧ p.2 = 0 ∧ s.mem.keys[p.1]? = some B ∧ B.alive = true ∧
      B.cells.length = a.base.size ∧
      writeKeys s.mem.keys (shiftKey a.mutKeys k) [x] =
        some (s.mem.keys.set p.1 { B with cells := B.cells.set k x }) ∧
      Go U s.mem.keys s.var (· = i) (s.mem.keys.set p.1 { B with cells := B.cells.set k x }) s.var := by
  obtain ⟨p, hp⟩ := Option.ne_none_iff_exists'.1 hn
  obtain ⟨e1, e2, B, e3, e4, e5, e6⟩ := h.own i a p hi ho hp
  refine ⟨p, B, hp, e1, e3, e4, e6, ?_, h.write hi ho hp e3 (by simp)⟩
  unfold KArr.mutKeys shiftKey
  rw [if_pos ho, hp]
  unfold writeKeys
  rw [if_neg (by simp)]
  dsimp only [Option.map_some]
  rw [e3]
  dsimp only
  rw [if_pos ⟨e4, by simp; omega⟩, e1, Nat.zero_add]
  have hlt : k < B.cells.length := by omega
  have hset : B.cells.set k x = B.cells.take k ++ [x] ++ B.cells.drop (k + [x].length) := by
    rw [List.set_eq_take_append_cons_drop, if_pos hlt]
    simp
  rw [hset]

/-- Every statement that meets its precondition keeps the books. -/
theorem kstep_step {P : FP} {junk : ℕ → ℕ} {s : KSt} {c : KStmt} (h : KBooks U s)
    (hs : KSafe U.length s c) :
    Step U s (fun m => KTouches m c ∨ m = s.vars.length) (kstep P junk s c) := by
  cases c with
  | empty => exact (push_passive h _ rfl ⟨by simp, by simp⟩).mono fun m hm => .inr hm
  | typed t n => exact (push_passive h _ rfl ⟨by simp, by simp⟩).mono fun m hm => .inr hm
  | borrow c r b o n => exact (push_passive h _ rfl ⟨by simp, by simp⟩).mono fun m hm => .inr hm
  | withKeys i p =>
    refine withKVar_step fun a hi => ?_
    cases copyCtor s.mem.world a.base with
    | ok r =>
      refine (push_passive h _ rfl ⟨by simp, ?_⟩).mono fun m hm => .inr hm
      rintro q - ⟨⟩
      exact hs
    | err => exact step_scalarUB
    | ub => exact step_scalarUB
  | plain i =>
    refine withKVar_step fun a hi => ?_
    cases copyCtor s.mem.world a.base with
    | ok r => exact (push_passive h _ rfl ⟨by simp, by simp⟩).mono fun m hm => .inr hm
    | err => exact step_scalarUB
    | ub => exact step_scalarUB
  | copy i =>
    refine withKVar_step fun a hi => ?_
    exact ((kcopyCtor_fine h hi (KSt.var_length s)).1.push).mono fun m hm => .inr hm
  | move i =>
    refine withKVar_step fun a hi => ?_
    exact (move_step h hi).mono fun m hm => hm
  | assign i j =>
    refine withKVar_step fun a hi => withKVar_step fun b hj => ?_
    by_cases hij : i = j
    · rw [if_pos hij]; exact step_ok (Go.refl h _)
    · rw [if_neg hij]
      exact ((kcopyAssign_fine h hij hi hj (hs b hj)).1.put (KSt.var_lt hi)).mono fun m hm => .inl hm
  | moveAssign i j =>
    refine withKVar_step fun a hi => withKVar_step fun b hj => ?_
    by_cases hij : i = j
    · rw [if_pos hij]; exact step_ok (Go.refl h _)
    · rw [if_neg hij]
      exact (moveAssign_step h hij hi hj).mono fun m hm => .inl hm
  | assignScalars i j =>
    refine withKVar_step fun a hi => withKVar_step fun b hj => ?_
    by_cases hij : i = j
    · rw [if_pos hij]; exact step_ok (Go.refl h _)
    · rw [if_neg hij]
      exact ((kassignScalars_fine h hi b.base).put (KSt.var_lt hi)).mono fun m hm => .inl hm
  | moveScalars i j =>
    refine withKVar_step fun a hi => withKVar_step fun b hj => ?_
    by_cases hij : i = j
    · rw [if_pos hij]; exact step_ok (Go.refl h _)
    · rw [if_neg hij]
      exact (moveScalars_step h hij hi hj).mono fun m hm => .inl hm
  | allocScalars i count =>
    refine withKVar_step fun a hi => ?_
    exact ((allocScalars_fine h hi).put (KSt.var_lt hi)).mono fun m hm => .inl hm
  | allocKeys i count =>
    refine withKVar_step fun a hi => ?_
    exact ((allocKeys_fine h hi fun p hp h0 => hs a p hi hp h0).put (KSt.var_lt hi)).mono
      fun m hm => .inl hm
  | getKey i k =>
    refine withKVar_step fun a hi => ?_
    obtain ⟨hk, l, b, p, hb, hp, hr⟩ := hs a hi
    rw [hi] at hb; cases hb
    have : ∃ x, readKeys s.mem.keys (shiftKey a.keys k) 1 = some x := by
      rw [hp]
      unfold readKeys at hr
      rw [if_neg (by omega)] at hr
      dsimp only at hr
      unfold readKeys shiftKey
      rw [if_neg (by decide)]
      dsimp only [Option.map_some]
      cases hB : s.mem.keys[p.1]? with
      | none => rw [hB] at hr; cases hr
      | some B =>
        rw [hB] at hr
        dsimp only at hr ⊢
        by_cases hc : B.alive ∧ p.2 + a.base.size ≤ B.cells.length
        · exact ⟨_, if_pos ⟨hc.1, by omega⟩⟩
        · rw [if_neg hc] at hr; cases hr
    obtain ⟨x, hx⟩ := this
    rw [hx]
    exact step_ok (Go.refl h _)
  | setKey i k x =>
    refine withKVar_step fun a hi => ?_
    obtain ⟨hk, ho, hn⟩ := hs a hi
    obtain ⟨p, B, -, -, -, -, -, e, g⟩ := setKey_step (x := x) h hi hk ho hn
    rw [e]
    exact step_ok (g.mono fun m hm => .inl hm)
  | copyOrMove i =>
    refine withKVar_step fun a hi => ?_
    by_cases ho : a.owns = true
    · rw [if_pos ho]
      exact (move_step h hi).mono fun m hm => hm
    · rw [if_neg ho]
      have h0 : a.base.size = 0 := (hs a hi).resolve_left ho
      have : kclone s.mem a = .ok (⟨s.mem.world, newKeys s.mem.keys 0⟩,
          ⟨Arr.empty, some (s.mem.keys.length, 0), true⟩) := by
        unfold kclone allocKeys
        rw [if_neg (by decide)]
        dsimp only [freeOld]
        rw [if_pos (.inl rfl)]
        dsimp only
        rw [h0]
        rfl
      rw [this]
      refine (Fine.push (fine_ok ?_)).mono fun m hm => .inr hm
      refine h.acquire (fun b hb => ?_) rfl
      rw [KSt.var_length] at hb; cases hb
  | drop i =>
    refine withKVar_step fun a hi => ?_
    rcases kdtor_cases h hi with e | ⟨K', e, g⟩
    · rw [e]; exact step_scalarUB
    · rw [e]
      refine step_ok ?_
      rw [var_set (KSt.var_lt hi)]
      exact g.mono fun m hm => .inl hm

theorem KInitial.books {s : KSt} (h : KInitial s) : KBooks s.mem.keys s := by
  have hv : ∀ i, s.var i = none := by
    intro i; unfold KSt.var; rw [h.vars]; rfl
  refine ⟨?_, ?_, ?_, fun _ _ => rfl, le_refl _, ?_⟩
  · intro i a p hi; rw [hv] at hi; cases hi
  · intro i j a b p q hi; rw [hv] at hi; cases hi
  · intro i a p hi; rw [hv] at hi; cases hi
  · intro b B hb hB
    have := (List.getElem?_eq_some_iff.1 hB).1; omega

theorem KReaches.books {P : FP} {junk : ℕ → ℕ} {s₀ s : KSt} (h : KReaches P junk s₀ s) :
    KBooks s₀.mem.keys s := by
  induction h with
  | start h0 => exact h0.books
  | step _ hs hl ih => exact ((kstep_step ih hs).2 _ hl).inv

theorem KReaches.initial {P : FP} {junk : ℕ → ℕ} {s₀ s : KSt} (h : KReaches P junk s₀ s) :
    KInitial s₀ := by
  induction h with
  | start h0 => exact h0
  | step _ _ _ ih => exact ih

end RoughPy.Arrays
