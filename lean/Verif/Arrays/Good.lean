import Verif.Arrays.Steps

/-!
# Every statement keeps the arrays in order
-/

namespace RoughPy.Arrays

open RoughPy.Args (Out)
open RoughPy.Scalars (Ty Val FP TRef conv Fits conv_ty conv_same zero_ty)

variable {n : ℕ}

/-- All arrays are in order, and the counts of the buffers are the numbers of their owners. -/
structure Good (n : ℕ) (s : St) : Prop where
  ok : ∀ (i : ℕ) (a : Arr), s.vars[i]? = some (some a) → a.Ok s.world
  books : Books n s.world (owners s.vars)

theorem var_iff {s : St} {i : ℕ} {a : Arr} : s.var i = some a ↔ s.vars[i]? = some (some a) := by
  unfold St.var
  cases s.vars[i]? with
  | none => simp
  | some x => cases x <;> simp

theorem Initial.good {s : St} (h : Initial s) : Good s.world.blocks.length s := by
  refine ⟨fun i a hi => by rw [h.vars] at hi; simp at hi, ?_⟩
  constructor
  · intro k B hk; rw [h.bufs] at hk; simp at hk
  · intro k B hk; rw [h.bufs] at hk; simp at hk
  · intro k B hk; rw [h.bufs] at hk; simp at hk
  · intro k l B D hk; rw [h.bufs] at hk; simp at hk
  · intro b C hb hC; exact h.blocks C (List.mem_of_getElem? hC)
  · intro k B hk; rw [h.bufs] at hk; simp at hk
  · intro b h1 h2; omega
  · exact le_rfl
  · intro k _; rw [h.vars]; rfl

theorem good_push {s : St} (hg : Good n s) {w' : World} {a : Arr} (hk : Keeps s.world w')
    (hb : Books n w' (fun k => owners s.vars k + own a k)) (ha : a.Ok w') : Good n (s.push (w', a)) := by
  refine ⟨fun i x hi => ?_, hb.congr fun k => (owners_push _ _ _).symm⟩
  simp only [St.push] at hi
  rcases append_one hi with h | ⟨-, h⟩
  · exact (hg.ok i x h).keeps hk
  · cases h; exact ha

theorem owners_put {l : List (Option Arr)} {i : ℕ} {a : Arr} (h : l[i]? = some (some a)) (b : Option Arr)
    (k : ℕ) : owners (l.set i b) k = owners l k - own a k + b.elim 0 (own · k) := by
  have := owners_set b h k
  have := own_le_owners h k
  simp at *
  omega

theorem good_put {s : St} (hg : Good n s) {i : ℕ} {a : Arr} (hi : s.vars[i]? = some (some a)) {w' : World}
    {a' : Arr} (hk : Keeps s.world w')
    (hb : Books n w' (fun k => owners s.vars k - own a k + own a' k)) (ha : a'.Ok w') :
    Good n (s.put i (w', a')) := by
  refine ⟨fun j x hj => ?_, hb.congr fun k => (owners_put hi (some a') k).symm⟩
  simp only [St.put] at hj
  rcases getElem?_set_cases hj with ⟨-, h⟩ | ⟨-, h, -⟩
  · exact (hg.ok j x h).keeps hk
  · cases h; exact ha

theorem two_owners {l : List (Option Arr)} {i j : ℕ} {a b : Arr} (hne : i ≠ j)
    (hi : l[i]? = some (some a)) (hj : l[j]? = some (some b)) (k : ℕ) : own a k + own b k ≤ owners l k := by
  have h1 := owners_put hi none k
  have h2 := own_le_owners (l := l.set i none) (i := j) (a := b)
    (by rw [List.getElem?_set_ne hne]; exact hj) k
  have h3 := own_le_owners hi k
  simp at h1
  omega

/-- What a statement does to the memory and the other arrays. -/
structure Effect (n : ℕ) (s : St) (c : Stmt) (s' : St) : Prop where
  good : Good n s'
  keeps : Keeps s.world s'.world
  cells : ∀ (m : ℕ) (C : Block), s.world.blocks[m]? = some C → ∃ C' : Block,
    s'.world.blocks[m]? = some C' ∧ ∀ p, ¬ WritesAt s m p c → C'.cells[p]? = C.cells[p]?
  vars : ∀ j, ¬ Replaces j c → ∀ a, s.var j = some a → s'.var j = some a
  len : s.vars.length ≤ s'.vars.length ∧ s'.vars.length ≤ s.vars.length + 1

theorem SameCells.cells {s s' : St} {c : Stmt} (h : SameCells s.world s'.world) :
    ∀ (m : ℕ) (C : Block), s.world.blocks[m]? = some C → ∃ C' : Block,
      s'.world.blocks[m]? = some C' ∧ ∀ p, ¬ WritesAt s m p c → C'.cells[p]? = C.cells[p]? := by
  intro m C hC
  obtain ⟨C', h1, h2⟩ := h m C hC
  exact ⟨C', h1, fun p _ => by rw [h2]⟩

theorem effect_refl {s : St} (hg : Good n s) (c : Stmt) : Effect n s c s :=
  ⟨hg, .refl _, (SameCells.refl s.world).cells, fun _ _ _ h => h, le_rfl, Nat.le_succ _⟩

theorem var_push {s : St} {j : ℕ} {a : Arr} (r : World × Arr) (h : s.var j = some a) :
    (s.push r).var j = some a := by
  rw [var_iff] at h ⊢
  exact getElem?_append_some h _

theorem effect_push {s : St} (hg : Good n s) (c : Stmt) {w' : World} {a : Arr} (hk : Keeps s.world w')
    (hc : SameCells s.world w')
    (hb : Books n w' (fun k => owners s.vars k + own a k)) (ha : a.Ok w') :
    Effect n s c (s.push (w', a)) :=
  ⟨good_push hg hk hb ha, hk, SameCells.cells (s := s) (s' := s.push (w', a)) hc, fun _ _ _ h => var_push _ h,
    by simp [St.push], by simp [St.push]⟩

theorem var_put_ne {s : St} {i j : ℕ} (r : World × Arr) (h : i ≠ j) : (s.put i r).var j = s.var j := by
  unfold St.var St.put
  simp only
  rw [List.getElem?_set_ne h]

theorem empty_ok (w : World) : Arr.empty.Ok w :=
  ⟨fun h => by simp [Arr.empty] at h, fun _ => .inl rfl, fun b o hp => by simp [Arr.place, Arr.empty] at hp⟩

theorem own_empty (k : ℕ) : own Arr.empty k = 0 := by simp [own, Arr.empty]

theorem elements_ok {r : TRef} {t : Ty} (h : Elements r t) (m : Mode) (wd : Word) (sz : ℕ) :
    (⟨r, m, wd, sz⟩ : Arr).info = .ok t ∧ (⟨r, m, wd, sz⟩ : Arr).elemInfo = .ok t ∧ t.Real := by
  rcases h with ⟨rfl, h⟩ | ⟨u, rfl, h1, rfl, h2⟩
  · exact ⟨rfl, rfl, real_of_scalarType h⟩
  · refine ⟨rfl, ?_, h2⟩
    show Out.ok u.readBack.readBack = _
    congr 1
    cases u with
    | int b => rcases h1 with rfl | rfl | rfl | rfl <;> rfl
    | uint b => rcases h1 with rfl | rfl | rfl | rfl <;> rfl
    | _ => rfl

theorem borrowed_ok {s : St} {t : Ty} {c : Bool} {r : TRef} {b o m : ℕ} (he : Elements r t)
    (hu : UserMemory s t b o m) : (borrowed c r b o m).Ok s.world := by
  have hmode : (borrowed c r b o m).mode ≠ .owned := by cases c <;> simp [borrowed]
  refine ⟨fun h => absurd h hmode, fun _ => .inr ⟨b, o, rfl⟩, fun b' o' hp => ?_⟩
  have : b' = b ∧ o' = o := by cases c <;> (simp [Arr.place, borrowed] at hp; omega)
  obtain ⟨rfl, rfl⟩ := this
  obtain ⟨-, C, h1, h2, h3⟩ := hu
  obtain ⟨e1, e2, e3⟩ := elements_ok he (if c then .constB else .mutB) (.data b' o') m
  refine ⟨t, C, e1, e2, e3, h1, h2, fun i hi => ?_⟩
  obtain ⟨v, hv, hf⟩ := h3 i hi
  exact ⟨v, hv, fits_iff.1 hf⟩

theorem view_own {a : Arr} (h : a.mode ≠ .owned) (k : ℕ) : own a k = 0 := by
  unfold own; rw [if_neg (fun h' => h h'.1)]

theorem null_own {a : Arr} (h : a.word = .null) (k : ℕ) : own a k = 0 := by
  unfold own; rw [if_neg (fun h' => by rw [h] at h'; exact absurd h'.2 (by simp))]

theorem null_ok {w : World} {a : Arr} (ha : a.Ok w) : ({ a with word := .null } : Arr).Ok w := by
  refine ⟨fun h => ⟨(ha.owner h).1, .inl rfl⟩, fun _ => .inl rfl, fun b o hp => ?_⟩
  rw [place_none_of_null rfl] at hp
  cases hp

theorem ptrOf_shift_word (q : Option (ℕ × ℕ)) (b : ℕ) :
    ((ptrOf q).shift b).toWord = match q with
      | none => Word.null
      | some (m, o) => .data m (o + b) := by
  rcases q with _ | ⟨m, o⟩ <;> rfl

theorem sliceSize_eq {b e : ℕ} (h : b ≤ e) (he : e < 2 ^ 64) : sliceSize b e = e - b := by
  unfold sliceSize
  rw [Nat.mod_eq_of_lt (by omega : b < 2 ^ 64)]
  omega

/-- A part of an array is in order. -/
theorem part_ok {w : World} {a : Arr} (ha : a.Ok w) {c : Bool} {b e : ℕ} (hbe : b ≤ e) (he : e ≤ a.size)
    (wd : Word) (hw : wd = match a.place w with
      | none => Word.null
      | some (m, o) => .data m (o + b)) :
    (⟨a.ty, if c then .constB else .mutB, wd, e - b⟩ : Arr).Ok w := by
  have hmode : (if c then Mode.constB else .mutB) ≠ .owned := by cases c <;> simp
  refine ⟨fun h => absurd h hmode, fun _ => ?_, fun b' o' hp => ?_⟩
  · subst hw
    cases a.place w with
    | none => exact .inl rfl
    | some q => exact .inr ⟨_, _, rfl⟩
  · cases hq : a.place w with
    | none =>
      rw [hq] at hw
      subst hw
      rw [place_none_of_null rfl] at hp
      cases hp
    | some q =>
      obtain ⟨m, o⟩ := q
      rw [hq] at hw
      subst hw
      have : b' = m ∧ o' = o + b := by
        cases c <;> (simp [Arr.place] at hp; omega)
      obtain ⟨rfl, rfl⟩ := this
      obtain ⟨t, C, h1, h2, h3, h4, h5, h6⟩ := ha.memory b' o hq
      refine ⟨t, C, h1, h2, h3, h4, by dsimp only; omega, fun i hi => ?_⟩
      obtain ⟨v, hv, hk⟩ := h6 (b + i) (by dsimp only at hi; omega)
      exact ⟨v, by rw [Nat.add_assoc]; exact hv, hk⟩

theorem view_part_own (ty : TRef) (c : Bool) (wd : Word) (sz k : ℕ) :
    own ⟨ty, if c then .constB else .mutB, wd, sz⟩ k = 0 :=
  view_own (by cases c <;> simp) k

/-- A statement that meets its precondition is carried out or refused, and everything stays in
order. -/
theorem step_good {P : FP} {junk : ℕ → ℕ} (hj : ∀ k, junk k = 0) {s : St} (hg : Good n s) {c : Stmt}
    (hs : Safe P s c) (hlen : s.vars.length + 1 < 2 ^ 64) :
    ∃ s', (step P junk s c = .ok s' ∨ step P junk s c = .raised s') ∧ Effect n s c s' := by
  have hof : ∀ k, owners s.vars k < 2 ^ 64 := fun k => by have := owners_le s.vars k; omega
  have hof1 : ∀ k, owners s.vars k + 1 < 2 ^ 64 := fun k => by have := owners_le s.vars k; omega
  cases c with
  | empty =>
    exact ⟨_, .inl rfl, effect_push hg _ (.refl _) (.refl _) (hg.books.congr fun k => by rw [own_empty]; rfl)
      (empty_ok _)⟩
  | typed t m =>
    obtain ⟨h1, h2, h3, h4⟩ := typed_spec hj hg.books (t := t) hs m
    exact ⟨_, .inl rfl, effect_push hg _ h1 h2 h3 h4⟩
  | untyped t m => exact absurd hs id
  | borrow c r b o m =>
    obtain ⟨t, h1, h2⟩ := hs
    refine ⟨_, .inl rfl, effect_push hg _ (.refl _) (.refl _) (hg.books.congr fun k => ?_) (borrowed_ok h1 h2)⟩
    rw [show own (borrowed c r b o m) k = 0 from view_part_own _ _ _ _ _]; rfl
  | copy i =>
    obtain ⟨a, hi⟩ := hs
    have hi' := var_iff.1 hi
    obtain ⟨w', e1, e2, e3, e4⟩ := copyCtor_spec (hg.ok i a hi') hg.books (own_le_owners hi') hof1
    refine ⟨s.push (w', a), .inl ?_, effect_push hg _ e2 (fun m C hC => ⟨C, by rw [e3]; exact hC, rfl⟩) e4
      ((hg.ok i a hi').keeps e2)⟩
    simp only [step, withVar, hi, e1, Out.map, Res.ofOut]
  | move i =>
    obtain ⟨a, hi⟩ := hs
    have hi' := var_iff.1 hi
    have hlt : i < s.vars.length := (List.getElem?_eq_some_iff.1 hi').1
    have hok := hg.ok i a hi'
    refine ⟨(s.put i (s.world, (moveCtor a).2)).push (s.world, (moveCtor a).1), .inl ?_, ?_⟩
    · simp only [step, withVar, hi]
    · have hn := own_le_owners hi'
      have g1 : ∀ (j : ℕ) (x : Arr), (s.put i (s.world, (moveCtor a).2)).vars[j]? = some (some x) → x.Ok s.world := by
        intro j x hx
        simp only [St.put] at hx
        rcases getElem?_set_cases hx with ⟨-, h⟩ | ⟨-, h, -⟩
        · exact hg.ok j x h
        · cases h; exact null_ok hok
      refine ⟨⟨fun j x hx => ?_, hg.books.congr fun k => ?_⟩, .refl _, (SameCells.refl s.world).cells,
        fun j hr x hx => ?_, ?_, ?_⟩
      · simp only [St.push] at hx
        rcases append_one hx with h | ⟨-, h⟩
        · exact g1 j x h
        · cases h; exact hok
      · simp only [St.push]
        rw [owners_push]
        simp only [St.put]
        rw [owners_put hi']
        have h0 : own (moveCtor a).2 k = 0 := null_own rfl k
        have := hn k
        show owners s.vars k = owners s.vars k - own a k + own (moveCtor a).2 k + own a k
        rw [h0]
        omega
      · refine var_push _ ?_
        rw [var_put_ne _ hr]
        exact hx
      · simp [St.push, St.put]
      · simp [St.push, St.put]
  | assign i j =>
    obtain ⟨a, b, hi, hjv, h⟩ := hs
    have hi' := var_iff.1 hi
    have hj' := var_iff.1 hjv
    by_cases e : i = j
    · refine ⟨s, .inl ?_, effect_refl hg _⟩
      simp only [step, withVar, hi, hjv, if_pos e]
    · have hfin : ∀ w' a', copyAssign P junk s.world a b = .ok (w', a') → Keeps s.world w' →
          SameCells s.world w' → Books n w' (fun k => owners s.vars k - own a k + own a' k) → a'.Ok w' →
          ∃ s', (step P junk s (.assign i j) = .ok s' ∨ step P junk s (.assign i j) = .raised s') ∧
            Effect n s (.assign i j) s' := by
        intro w' a' e1 e2 e3 e4 e5
        refine ⟨s.put i (w', a'), .inl ?_, good_put hg hi' e2 e4 e5, e2,
          SameCells.cells (s := s) (s' := s.put i (w', a')) e3, fun l hr x hx => ?_, ?_, ?_⟩
        · simp only [step, withVar, hi, hjv, if_neg e, e1, Res.map]
        · rw [var_put_ne _ hr]; exact hx
        · simp [St.put]
        · simp [St.put]
      rcases h.resolve_left e with h0 | ⟨h1, h2, h3⟩
      · refine hfin s.world a ?_ (.refl _) (.refl _) (hg.books.congr fun k => ?_) (hg.ok i a hi')
        · unfold copyAssign; rw [if_pos h0]
        · have := own_le_owners hi' k; omega
      · have : ∃ d, b.ty = .ptr d ∧ (d = .f32 ∨ d = .f64) := by
          rcases h3 with h3 | h3
          · exact ⟨_, h3, .inl rfl⟩
          · exact ⟨_, h3, .inr rfl⟩
        obtain ⟨d, hd, hdd⟩ := this
        obtain ⟨w', a', e1, e2, e3, e4, e5, -⟩ := copyAssign_spec (P := P) hj (hg.ok i a hi') (hg.ok j b hj')
          hg.books (two_owners e hi' hj') hof h1 h2 hd hdd
        exact hfin w' a' e1 e2 e3 e4 e5
  | moveAssign i j =>
    obtain ⟨a, b, hi, hjv⟩ := hs
    have hi' := var_iff.1 hi
    have hj' := var_iff.1 hjv
    by_cases e : i = j
    · refine ⟨s, .inl ?_, effect_refl hg _⟩
      simp only [step, withVar, hi, hjv, if_pos e]
    · obtain ⟨w', e1, e2, e3, e4, e5⟩ := dtor_spec (hg.ok i a hi') hg.books (own_le_owners hi') hof
      set b' : Arr := if b.mode = .owned then { b with word := .null } else b with hb'
      have hbo := hg.ok j b hj'
      have hb'ok : b'.Ok s.world := by
        rw [hb']; split_ifs
        · exact null_ok hbo
        · exact hbo
      have hb'own : ∀ k, own b' k = 0 := by
        intro k; rw [hb']; split_ifs with hm
        · exact null_own rfl k
        · exact view_own hm k
      refine ⟨(s.put i (w', b)).put j (w', b'), .inl ?_, ⟨fun l x hx => ?_, e4.congr fun k => ?_⟩, e2,
        SameCells.cells (s := s) (s' := (s.put i (w', b)).put j (w', b')) e3, fun l hr x hx => ?_, ?_, ?_⟩
      · simp only [step, withVar, hi, hjv, if_neg e, moveAssign, e1, Out.map, Res.ofOut, ← hb']
      · simp only [St.put] at hx
        rcases getElem?_set_cases hx with ⟨-, h⟩ | ⟨-, h, -⟩
        · rcases getElem?_set_cases h with ⟨-, h'⟩ | ⟨-, h', -⟩
          · exact (hg.ok l x h').keeps e2
          · cases h'; exact hbo.keeps e2
        · cases h; exact hb'ok.keeps e2
      · simp only [St.put]
        have hj2 : (s.vars.set i (some b))[j]? = some (some b) := by
          rw [List.getElem?_set_ne e]; exact hj'
        rw [owners_put hj2, owners_put hi']
        simp only [Option.elim, hb'own]
        omega
      · have hij : i ≠ l ∧ j ≠ l := ⟨fun h => hr (.inl h), fun h => hr (.inr h)⟩
        rw [var_put_ne _ hij.2, var_put_ne _ hij.1]
        exact hx
      · simp [St.put]
      · simp [St.put]
  | get i k =>
    obtain ⟨a, hi, ht, hl⟩ := hs
    have hi' := var_iff.1 hi
    have hok := hg.ok i a hi'
    refine ⟨s, ?_, effect_refl hg _⟩
    have hcase : (∃ u, get s.world a k = .ok u) ∨ get s.world a k = .err := by
      rw [hok.get hg.books (own_le_owners hi') ht]
      split_ifs with hk
      · cases hp : a.place s.world with
        | none =>
          left
          unfold Arr.elemInfo
          cases hty : a.ty with
          | null => exact absurd hty ht
          | ptr t => exact ⟨_, rfl⟩
          | info t => exact ⟨_, rfl⟩
        | some q =>
          obtain ⟨m, o⟩ := q
          obtain ⟨t, C, v, u, h1, h2, h3, h4, h5, h6, h7, h8, h9⟩ := hok.at hl hp hk
          exact .inl ⟨u, by simp only [h2, Out.bind, h9, h8]⟩
      · exact .inr rfl
    rcases hcase with ⟨u, h⟩ | h
    · left; simp only [step, withVar, hi, h, Out.map, Res.ofOut]
    · right; simp only [step, withVar, hi, h, Out.map, Res.ofOut]
  | set i k v =>
    obtain ⟨a, hi, ht, hl, hm, hc⟩ := hs
    have hi' := var_iff.1 hi
    rcases set_spec (hg.ok i a hi') hg.books (own_le_owners hi') ht hl hm hc with ⟨h, -⟩ |
      ⟨b, o, t, u, h1, h2, h3, h4, h5, h6, h7, h8, h9⟩
    · exact ⟨s, .inr (by simp only [step, withVar, hi, h, Out.map, Res.ofOut]), effect_refl hg _⟩
    · refine ⟨s.mem (s.world.setCell b (o + k) u), .inl ?_, ⟨fun j x hx => ?_, h9.books hg.books⟩, h8,
        fun m C hC => ?_, fun j _ x hx => hx, le_rfl, Nat.le_succ _⟩
      · simp only [step, withVar, hi, h7, Out.map, Res.ofOut]
      · exact (hg.ok j x hx).keeps h8
      · by_cases e : m = b
        · subst e
          obtain ⟨C', g1, g2, g3, g4⟩ := h9.here C hC
          refine ⟨C', g1, fun p hp => ?_⟩
          by_cases hpl : p < C.cells.length
          · rw [g4 p hpl, if_neg]
            rintro rfl
            exact hp ⟨a, o, hi, h3, rfl⟩
          · rw [List.getElem?_eq_none (by omega), List.getElem?_eq_none (by omega)]
        · exact ⟨C, (h9.other m e).trans hC, fun _ _ => rfl⟩
  | slice c i b e =>
    obtain ⟨a, hi, hbe, he⟩ := hs
    have hi' := var_iff.1 hi
    have hok := hg.ok i a hi'
    have hraise : slice c s.world a b e = .err →
        ∃ s', (step P junk s (.slice c i b e) = .ok s' ∨ step P junk s (.slice c i b e) = .raised s') ∧
          Effect n s (.slice c i b e) s' := fun h =>
      ⟨s, .inr (by simp only [step, withVar, hi, h, Out.map, Res.ofOut]), effect_refl hg _⟩
    by_cases h1 : e ≤ a.size
    · by_cases h2 : a.mode = .owned ∧ a.word = .null
      · exact hraise (by unfold slice; rw [if_pos h1, if_pos h2])
      · by_cases h3 : ¬ (c = true) ∧ a.mode = .constB
        · exact hraise (by unfold slice; rw [if_pos h1, if_neg h2, if_pos h3])
        · have hsl : slice c s.world a b e = .ok ⟨a.ty, if c then .constB else .mutB,
              ((ptrOf (a.place s.world)).shift b).toWord, e - b⟩ := by
            unfold slice
            rw [if_pos h1, if_neg h2, if_neg h3, hok.ptr hg.books (own_le_owners hi'), sliceSize_eq hbe he]
            rfl
          refine ⟨s.push (s.world, ⟨a.ty, if c then .constB else .mutB,
              ((ptrOf (a.place s.world)).shift b).toWord, e - b⟩), .inl ?_, effect_push hg _ (.refl _) (.refl _)
            (hg.books.congr fun k => ?_) (part_ok hok hbe h1 _ (ptrOf_shift_word _ _))⟩
          · simp only [step, withVar, hi, hsl, Out.map, Res.ofOut]
          · rw [view_part_own]; rfl
    · exact hraise (by unfold slice; rw [if_neg h1])
  | view c i =>
    obtain ⟨a, hi⟩ := hs
    have hi' := var_iff.1 hi
    have hok := hg.ok i a hi'
    have hraise : view c s.world a = .err →
        ∃ s', (step P junk s (.view c i) = .ok s' ∨ step P junk s (.view c i) = .raised s') ∧
          Effect n s (.view c i) s' := fun h =>
      ⟨s, .inr (by simp only [step, withVar, hi, h, Out.map, Res.ofOut]), effect_refl hg _⟩
    by_cases h2 : a.mode = .owned ∧ a.word = .null
    · refine hraise ?_
      have hp : a.pointer s.world = .err := by unfold Arr.pointer; rw [if_pos h2]
      have hmp : a.mutPointer s.world = .err := by unfold Arr.mutPointer; rw [hp]; simp
      unfold view; cases c <;> simp [hp, hmp, Out.map]
    · by_cases h3 : ¬ (c = true) ∧ a.mode = .constB
      · refine hraise ?_
        unfold view Arr.mutPointer; simp [h3, Out.map]
      · have hpt : a.pointer s.world = .ok (ptrOf (a.place s.world)) := by
          unfold Arr.pointer; rw [if_neg h2, hok.ptr hg.books (own_le_owners hi')]
        have hv : view c s.world a = .ok ⟨a.ty, if c then .constB else .mutB,
            (ptrOf (a.place s.world)).toWord, a.size⟩ := by
          unfold view Arr.mutPointer
          rw [hpt]
          cases c with
          | true => rfl
          | false =>
            have : a.mode ≠ .constB := fun h => h3 ⟨by simp, h⟩
            simp [this, Out.map]
        refine ⟨s.push (s.world, ⟨a.ty, if c then .constB else .mutB,
            (ptrOf (a.place s.world)).toWord, a.size⟩), .inl ?_, effect_push hg _ (.refl _) (.refl _)
          (hg.books.congr fun k => ?_)
          (part_ok hok (b := 0) (Nat.zero_le _) le_rfl _ ?_)⟩
        · simp only [step, withVar, hi, hv, Out.map, Res.ofOut]
        · rw [view_part_own]; rfl
        · rcases a.place s.world with _ | ⟨m, o⟩ <;> rfl
  | convert t i j =>
    obtain ⟨a, b, hi, hjv, ht, hsz, hla, hlb, hma, hmb, hne, hc⟩ := hs
    have hi' := var_iff.1 hi
    have hj' := var_iff.1 hjv
    obtain ⟨⟨m, o⟩, hpa⟩ := Option.isSome_iff_exists.1 hma
    obtain ⟨⟨m2, o2⟩, hpb⟩ := Option.isSome_iff_exists.1 hmb
    have hoka := hg.ok i a hi'
    have hokb := hg.ok j b hj'
    obtain ⟨d, D, hdi, -⟩ := hoka.memory m o hpa
    have hput : s.put i (s.world, a) = s := by
      obtain ⟨h1, h2⟩ := List.getElem?_eq_some_iff.1 hi'
      unfold St.put
      dsimp only
      rw [← h2, List.set_getElem_self]
    have hlt : i < s.vars.length := (List.getElem?_eq_some_iff.1 hi').1
    rcases convertCopy_spec (P := P) (junk := junk) (t := t) hsz hoka hokb hg.books (own_le_owners hi')
      (own_le_owners hj') hla hlb hpa hpb (fun h => hne m o m2 o2 hpa hpb h.symm) hdi
      (fun k v hv => hc d k v hdi hv) with ⟨-, h⟩ | ⟨hm, r, h, l, us, w', q1, q2, q3, q4⟩
    · refine ⟨s, ?_, effect_refl hg _⟩
      rcases h with h | ⟨-, h⟩
      · right; simp only [step, withVar, hi, hjv, h, Res.map, hput]
      · left; simp only [step, withVar, hi, hjv, h, Res.map, hput]
    · have hk := q3.span_keeps hoka hpa hdi (by omega) q2
      refine ⟨s.put i (w', a), ?_, good_put hg hi' hk ((q3.books hg.books).congr fun k => ?_) (hoka.keeps hk), hk,
        fun q C hC => ?_, fun l hr x hx => ?_, ?_, ?_⟩
      · rcases q4 with ⟨-, h'⟩ | ⟨-, -, h'⟩
        · left; simp only [step, withVar, hi, hjv, h, h', Res.map]
        · right; simp only [step, withVar, hi, hjv, h, h', Res.map]
      · have := own_le_owners hi' k; omega
      · by_cases e : q = m
        · subst e
          obtain ⟨C', g1, g2, g3, g4⟩ := q3.here C hC
          refine ⟨C', g1, fun p hp => ?_⟩
          by_cases hpl : p < C.cells.length
          · rw [g4 p hpl]
            unfold span
            rw [if_neg]
            rintro ⟨r1, r2⟩
            exact hp ⟨a, o, hi, hpa, by omega, by omega⟩
          · rw [List.getElem?_eq_none (by omega), List.getElem?_eq_none (by omega)]
        · exact ⟨C, (q3.other q e).trans hC, fun _ _ => rfl⟩
      · by_cases e : i = l
        · subst e
          rw [hi] at hx; cases hx
          rw [var_iff]
          simp [St.put, hlt]
        · rw [var_put_ne _ e]; exact hx
      · simp [St.put]
      · simp [St.put]
  | drop i =>
    obtain ⟨a, hi⟩ := hs
    have hi' := var_iff.1 hi
    obtain ⟨w', e1, e2, e3, e4, e5⟩ := dtor_spec (hg.ok i a hi') hg.books (own_le_owners hi') hof
    refine ⟨⟨w', s.vars.set i none⟩, .inl ?_, ⟨fun l x hx => ?_, e4.congr fun k => ?_⟩, e2,
      SameCells.cells (s := s) (s' := ⟨w', s.vars.set i none⟩) e3, fun l hr x hx => ?_, ?_, ?_⟩
    · simp only [step, withVar, hi, e1, Out.map, Res.ofOut]
    · rcases getElem?_set_cases hx with ⟨-, h⟩ | ⟨-, h, -⟩
      · exact (hg.ok l x h).keeps e2
      · cases h
    · dsimp only; rw [owners_put hi']; rfl
    · rw [var_iff] at hx ⊢
      dsimp only
      rw [List.getElem?_set_ne hr]; exact hx
    · simp
    · simp

/-- A program that meets its preconditions runs to its end, and everything stays in order. -/
theorem run_good {P : FP} {junk : ℕ → ℕ} (hj : ∀ k, junk k = 0) (prog : List Stmt) {s : St}
    (hg : Good n s) (hs : SafeRun P junk s prog) (hlen : s.vars.length + prog.length < 2 ^ 64) :
    ∃ s', run P junk s prog = .ok s' ∧ Good n s' ∧ s'.vars.length ≤ s.vars.length + prog.length := by
  induction prog generalizing s with
  | nil => exact ⟨s, rfl, hg, le_rfl⟩
  | cons c cs ih =>
    obtain ⟨h1, h2⟩ := hs
    simp only [List.length_cons] at hlen
    obtain ⟨s1, e1, e2⟩ := step_good hj hg h1 (by omega)
    obtain ⟨s', r1, r2, r3⟩ := ih e2.good (h2 s1 e1) (by have := e2.len.2; omega)
    refine ⟨s', ?_, r2, by have := e2.len.2; simp only [List.length_cons]; omega⟩
    unfold run
    rcases e1 with e | e <;> rw [e] <;> exact r1

end RoughPy.Arrays
