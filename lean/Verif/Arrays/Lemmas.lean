import Verif.Arrays.Spec
import Verif.Scalars.Lemmas

/-!
# Lemmas on arrays of scalars
-/

namespace RoughPy.Arrays

open RoughPy.Args (Out)
open RoughPy.Scalars (Ty Val FP TRef conv Fits)

/-! ## Types -/

/-- The kinds of memory: integers of one size are one kind. -/
def kind : Ty → Ty
  | .uint b => .int b
  | t => t

theorem fits_iff {t : Ty} {v : Val} : Fits t v ↔ kind v.ty = kind t := by
  unfold Fits Val.as
  constructor
  · rintro ⟨w, h⟩
    split_ifs at h with h1
    · rw [h1]
    · cases v <;> cases t <;> simp [Val.ty, kind] at h ⊢ <;> (try (split_ifs at h; simp_all))
  · intro h
    by_cases h1 : v.ty = t
    · exact ⟨v, by rw [if_pos h1]⟩
    · rw [if_neg h1]
      cases v <;> cases t <;> simp_all [Val.ty, kind]

theorem as_kind {t : Ty} {v w : Val} (h : v.as t = .ok w) : kind w.ty = kind t := by
  unfold Val.as at h
  split_ifs at h with h1
  · cases h; rw [h1]
  · cases v <;> cases t <;> simp [Val.ty, kind] at h ⊢ <;> (split_ifs at h with h2; cases h; simp [Val.ty, kind, h2])

theorem as_ty {t : Ty} {v w : Val} (h : v.as t = .ok w) : w.ty = t := by
  unfold Val.as at h
  split_ifs at h with h1
  · cases h; exact h1
  · cases v <;> cases t <;> simp [Val.ty] at h ⊢ <;> (split_ifs at h with h2; cases h; simp [Val.ty, h2])

/-! ## Changes of the memory -/

/-- Memory stays where it is and keeps its kind. -/
structure Keeps (w w' : World) : Prop where
  bufs : ∀ (k : ℕ) (B : Buf), w.bufs[k]? = some B → ∃ B' : Buf, w'.bufs[k]? = some B' ∧ B'.block = B.block
  blocks : ∀ (b : ℕ) (C : Block), w.blocks[b]? = some C → ∃ C' : Block, w'.blocks[b]? = some C' ∧
    C'.cells.length = C.cells.length ∧
    ∀ (j : ℕ) (v : Val), C.cells[j]? = some (some v) → ∃ v' : Val, C'.cells[j]? = some (some v') ∧ kind v'.ty = kind v.ty

theorem Keeps.refl (w : World) : Keeps w w :=
  ⟨fun _ B h => ⟨B, h, rfl⟩, fun _ C h => ⟨C, h, rfl, fun _ v hv => ⟨v, hv, rfl⟩⟩⟩

theorem Keeps.trans {w w' w'' : World} (h : Keeps w w') (h' : Keeps w' w'') : Keeps w w'' := by
  constructor
  · intro k B hk
    obtain ⟨B', h1, h2⟩ := h.bufs k B hk
    obtain ⟨B'', h3, h4⟩ := h'.bufs k B' h1
    exact ⟨B'', h3, h4.trans h2⟩
  · intro b C hb
    obtain ⟨C', h1, h2, h3⟩ := h.blocks b C hb
    obtain ⟨C'', h4, h5, h6⟩ := h'.blocks b C' h1
    refine ⟨C'', h4, h5.trans h2, fun j v hv => ?_⟩
    obtain ⟨v', hv', e⟩ := h3 j v hv
    obtain ⟨v'', hv'', e'⟩ := h6 j v' hv'
    exact ⟨v'', hv'', e'.trans e⟩

/-- An array that is in order: an owner has a scalar type, and memory of its size or none; the memory
is filled with values of the type. -/
structure Arr.Ok (w : World) (a : Arr) : Prop where
  owner : a.mode = .owned → (∃ t, t.IsScalarType ∧ a.ty = .ptr t) ∧
    (a.word = .null ∨ ∃ (k : ℕ) (B : Buf) (C : Block), a.word = .impl k ∧ w.bufs[k]? = some B ∧
      w.blocks[B.block]? = some C ∧ C.cells.length = a.size)
  view : a.mode ≠ .owned → a.word = .null ∨ ∃ b o, a.word = .data b o
  memory : ∀ b o, a.place w = some (b, o) → ∃ (t : Ty) (C : Block), a.info = .ok t ∧ a.elemInfo = .ok t ∧ t.Real ∧
    w.blocks[b]? = some C ∧ o + a.size ≤ C.cells.length ∧
    ∀ i < a.size, ∃ v : Val, C.cells[o + i]? = some (some v) ∧ kind v.ty = kind t

theorem place_keeps {w w' : World} (h : Keeps w w') {a : Arr} (ha : a.Ok w) :
    a.place w' = a.place w := by
  unfold Arr.place
  cases hm : a.mode with
  | owned =>
    rcases (ha.owner hm).2 with h0 | ⟨k, B, C, h1, h2, -⟩
    · rw [h0]
    · rw [h1]
      obtain ⟨B', h3, h4⟩ := h.bufs k B h2
      simp [h2, h3, h4]
  | constB => cases a.word <;> rfl
  | mutB => cases a.word <;> rfl

theorem Arr.Ok.keeps {w w' : World} (h : Keeps w w') {a : Arr} (ha : a.Ok w) : a.Ok w' := by
  refine ⟨fun hm => ⟨(ha.owner hm).1, ?_⟩, ha.view, ?_⟩
  · rcases (ha.owner hm).2 with h0 | ⟨k, B, C, h1, h2, h3, h4⟩
    · exact .inl h0
    · obtain ⟨B', e1, e2⟩ := h.bufs k B h2
      obtain ⟨C', e3, e4, -⟩ := h.blocks _ C h3
      exact .inr ⟨k, B', C', h1, e1, by rw [e2]; exact e3, e4.trans h4⟩
  · intro b o hp
    rw [place_keeps h ha] at hp
    obtain ⟨t, C, h1, h2, h3, h4, h5, h6⟩ := ha.memory b o hp
    obtain ⟨C', e3, e4, e5⟩ := h.blocks _ C h4
    refine ⟨t, C', h1, h2, h3, e3, by rw [e4]; exact h5, fun i hi => ?_⟩
    obtain ⟨v, hv, hk⟩ := h6 i hi
    obtain ⟨v', hv', hk'⟩ := e5 _ v hv
    exact ⟨v', hv', hk'.trans hk⟩

/-! ## Counting owners -/

/-- One, if the array owns the buffer. -/
def own (a : Arr) (k : ℕ) : ℕ := if a.mode = .owned ∧ a.word = .impl k then 1 else 0

/-- How many arrays own a buffer. -/
def owners (l : List (Option Arr)) (k : ℕ) : ℕ := (l.map fun v => v.elim 0 (own · k)).sum

theorem sum_set {l : List ℕ} {i x : ℕ} (y : ℕ) (h : l[i]? = some x) :
    (l.set i y).sum + x = l.sum + y := by
  induction l generalizing i with
  | nil => simp at h
  | cons a l ih =>
    cases i with
    | zero => simp at h; subst h; simp; omega
    | succ i =>
      simp at h
      have := ih h
      simp
      omega

theorem owners_set {l : List (Option Arr)} {i : ℕ} {x : Option Arr} (y : Option Arr)
    (h : l[i]? = some x) (k : ℕ) :
    owners (l.set i y) k + x.elim 0 (own · k) = owners l k + y.elim 0 (own · k) := by
  unfold owners
  rw [List.map_set]
  exact sum_set _ (by rw [List.getElem?_map, h]; rfl)

theorem owners_push (l : List (Option Arr)) (a : Arr) (k : ℕ) :
    owners (l ++ [some a]) k = owners l k + own a k := by
  simp [owners]

theorem own_le_owners {l : List (Option Arr)} {i : ℕ} {a : Arr} (h : l[i]? = some (some a)) (k : ℕ) :
    own a k ≤ owners l k := by
  have := owners_set none h k
  simp at this
  omega

theorem own_le_one (a : Arr) (k : ℕ) : own a k ≤ 1 := by unfold own; split_ifs <;> omega

theorem owners_le (l : List (Option Arr)) (k : ℕ) : owners l k ≤ l.length := by
  induction l with
  | nil => simp [owners]
  | cons v l ih =>
    have : owners (v :: l) k = v.elim 0 (own · k) + owners l k := by simp [owners]
    rw [this]
    cases v with
    | none => simp; omega
    | some a => have := own_le_one a k; simp; omega

theorem owners_pos {l : List (Option Arr)} {k : ℕ} (h : 0 < owners l k) :
    ∃ (i : ℕ) (a : Arr), l[i]? = some (some a) ∧ a.mode = .owned ∧ a.word = .impl k := by
  induction l with
  | nil => simp [owners] at h
  | cons v l ih =>
    have e : owners (v :: l) k = v.elim 0 (own · k) + owners l k := by simp [owners]
    rw [e] at h
    by_cases hl : 0 < owners l k
    · obtain ⟨i, a, h1, h2⟩ := ih hl
      exact ⟨i + 1, a, by simpa using h1, h2⟩
    · cases v with
      | none => simp at h; omega
      | some a =>
        refine ⟨0, a, rfl, ?_⟩
        simp only [Option.elim] at h
        unfold own at h
        by_contra hc
        rw [if_neg hc] at h
        omega

/-- The books are in order: a buffer lives as long as somebody owns it, counts its owners, and its
memory lives as long as it does; no memory belongs to two buffers; the first `n` blocks belong to the
user and live, and the others belong to buffers. -/
structure Books (n : ℕ) (w : World) (f : ℕ → ℕ) : Prop where
  alive : ∀ (k : ℕ) (B : Buf), w.bufs[k]? = some B → B.alive = decide (0 < f k)
  count : ∀ (k : ℕ) (B : Buf), w.bufs[k]? = some B → B.alive = true → B.count = f k
  block : ∀ (k : ℕ) (B : Buf), w.bufs[k]? = some B → ∃ C : Block, w.blocks[B.block]? = some C ∧ C.alive = B.alive
  inj : ∀ (k l : ℕ) (B D : Buf), w.bufs[k]? = some B → w.bufs[l]? = some D → B.block = D.block → k = l
  user : ∀ (b : ℕ) (C : Block), b < n → w.blocks[b]? = some C → C.alive = true
  low : ∀ (k : ℕ) (B : Buf), w.bufs[k]? = some B → n ≤ B.block
  lib : ∀ b : ℕ, n ≤ b → b < w.blocks.length → ∃ (k : ℕ) (B : Buf), w.bufs[k]? = some B ∧ B.block = b
  size : n ≤ w.blocks.length
  none : ∀ k : ℕ, w.bufs[k]? = none → f k = 0

theorem Books.congr {n : ℕ} {w : World} {f g : ℕ → ℕ} (h : Books n w f) (e : ∀ k, f k = g k) :
    Books n w g := by
  rwa [show g = f from funext fun k => (e k).symm]

theorem getElem?_append_some {α : Type} {l : List α} {i : ℕ} {a : α} (h : l[i]? = some a) (m : List α) :
    (l ++ m)[i]? = some a := by
  obtain ⟨hi, rfl⟩ := List.getElem?_eq_some_iff.1 h
  rw [List.getElem?_append_left hi, List.getElem?_eq_getElem hi]

theorem append_one {α : Type} {l : List α} {i : ℕ} {a x : α} (h : (l ++ [x])[i]? = some a) :
    l[i]? = some a ∨ (i = l.length ∧ a = x) := by
  rcases Nat.lt_trichotomy i l.length with hi | hi | hi
  · left; rwa [List.getElem?_append_left hi] at h
  · right; subst hi; simp at h; exact ⟨rfl, h.symm⟩
  · rw [List.getElem?_eq_none (by simp; omega)] at h; cases h

theorem alloc_keeps (junk : ℕ → ℕ) (w : World) (cs : List (Option Val)) :
    Keeps w (w.alloc junk cs).1 := by
  constructor
  · intro k B h
    exact ⟨B, getElem?_append_some h _, rfl⟩
  · intro b C h
    exact ⟨C, getElem?_append_some h _, rfl, fun _ v hv => ⟨v, hv, rfl⟩⟩

theorem alloc_books {junk : ℕ → ℕ} (hj : ∀ k, junk k = 0) {n : ℕ} {w : World} {f : ℕ → ℕ} (h : Books n w f)
    (cs : List (Option Val)) :
    Books n (w.alloc junk cs).1 (fun k => f k + if k = w.bufs.length then 1 else 0) := by
  have hlt : ∀ (k : ℕ) (B : Buf), w.bufs[k]? = some B → k ≠ w.bufs.length := fun k B hk =>
    (List.getElem?_eq_some_iff.1 hk).1.ne
  have hb : ∀ (k : ℕ) (B : Buf), w.bufs[k]? = some B → B.block < w.blocks.length := by
    intro k B hk
    obtain ⟨C, hC, -⟩ := h.block k B hk
    exact (List.getElem?_eq_some_iff.1 hC).1
  have h0 : f w.bufs.length = 0 := h.none _ (by simp)
  have key : ∀ (k : ℕ) (B : Buf), (w.alloc junk cs).1.bufs[k]? = some B → (w.bufs[k]? = some B) ∨
      (k = w.bufs.length ∧ B = ⟨w.blocks.length, 1, true⟩) := by
    intro k B hk
    rcases append_one hk with h1 | ⟨h1, h2⟩
    · exact .inl h1
    · exact .inr ⟨h1, by rw [h2, hj]; norm_num⟩
  constructor
  · intro k B hk
    rcases key k B hk with h1 | ⟨rfl, rfl⟩
    · rw [h.alive k B h1]; simp [hlt k B h1]
    · simp
  · intro k B hk ha
    rcases key k B hk with h1 | ⟨rfl, rfl⟩
    · rw [h.count k B h1 ha]; simp [hlt k B h1]
    · simp [h0]
  · intro k B hk
    rcases key k B hk with h1 | ⟨rfl, rfl⟩
    · obtain ⟨C, h2, h3⟩ := h.block k B h1
      exact ⟨C, getElem?_append_some h2 _, h3⟩
    · exact ⟨⟨cs, true⟩, by simp [World.alloc], rfl⟩
  · intro k l B D hk hl e
    rcases key k B hk with h1 | ⟨rfl, rfl⟩ <;> rcases key l D hl with h2 | ⟨rfl, rfl⟩
    · exact h.inj k l B D h1 h2 e
    · have := hb k B h1; simp at e; omega
    · have := hb l D h2; simp at e; omega
    · rfl
  · intro b C hn hC
    rcases append_one hC with h1 | ⟨h1, h2⟩
    · exact h.user b C hn h1
    · rw [h2]
  · intro k B hk
    rcases key k B hk with h1 | ⟨rfl, rfl⟩
    · exact h.low k B h1
    · exact h.size
  · intro b hn hb'
    rcases Nat.lt_or_ge b w.blocks.length with hlt' | hge
    · obtain ⟨k, B, h1, h2⟩ := h.lib b hn hlt'
      exact ⟨k, B, getElem?_append_some h1 _, h2⟩
    · refine ⟨w.bufs.length, ⟨w.blocks.length, (junk w.bufs.length + 1) % 2 ^ 64, true⟩,
        by simp [World.alloc], ?_⟩
      simp [World.alloc] at hb'
      show w.blocks.length = b
      omega
  · have := h.size
    simp [World.alloc]
    omega
  · intro k hk
    simp only [World.alloc, List.getElem?_eq_none_iff, List.length_append, List.length_singleton] at hk
    have : f k = 0 := h.none k (by rw [List.getElem?_eq_none_iff]; omega)
    rw [this, if_neg (by omega)]

theorem getElem?_set_cases {α : Type} {l : List α} {i j : ℕ} {a x : α} (h : (l.set i x)[j]? = some a) :
    (j ≠ i ∧ l[j]? = some a) ∨ (j = i ∧ a = x ∧ i < l.length) := by
  by_cases e : i = j
  · subst e
    rw [List.getElem?_set] at h
    simp at h
    exact .inr ⟨rfl, h.2.symm, h.1⟩
  · rw [List.getElem?_set_ne e] at h
    exact .inl ⟨Ne.symm e, h⟩

theorem incRef_spec {n : ℕ} {w : World} {f : ℕ → ℕ} (h : Books n w f) {k : ℕ} (hk : 0 < f k)
    (hs : f k + 1 < 2 ^ 64) :
    ∃ w', w.incRef k = .ok w' ∧ Keeps w w' ∧ w'.blocks = w.blocks ∧
      Books n w' (fun l => f l + if l = k then 1 else 0) := by
  cases hB : w.bufs[k]? with
  | none => rw [h.none k hB] at hk; omega
  | some B =>
    have ha : B.alive = true := by rw [h.alive k B hB]; simpa using hk
    have hlen : k < w.bufs.length := (List.getElem?_eq_some_iff.1 hB).1
    have hc := h.count k B hB ha
    refine ⟨⟨w.blocks, w.bufs.set k ⟨B.block, (B.count + 1) % 2 ^ 64, B.alive⟩⟩, ?_, ?_, rfl, ?_⟩
    · unfold World.incRef; rw [hB]; simp only; rw [if_pos ha]
    · constructor
      · intro l D hl
        by_cases e : k = l
        · subst e
          rw [hB] at hl; cases hl
          exact ⟨⟨B.block, (B.count + 1) % 2 ^ 64, B.alive⟩, by simp [hlen], rfl⟩
        · exact ⟨D, by simp [List.getElem?_set_ne e, hl], rfl⟩
      · intro b C hb
        exact ⟨C, hb, rfl, fun _ v hv => ⟨v, hv, rfl⟩⟩
    · have key : ∀ (l : ℕ) (D : Buf), (w.bufs.set k ⟨B.block, (B.count + 1) % 2 ^ 64, B.alive⟩)[l]? = some D →
          ∃ E : Buf, w.bufs[l]? = some E ∧ D.block = E.block ∧ D.alive = E.alive ∧
            D.count = if l = k then f k + 1 else E.count := by
        intro l D hl
        rcases getElem?_set_cases hl with ⟨h1, h2⟩ | ⟨h1, h2, -⟩
        · exact ⟨D, h2, rfl, rfl, by rw [if_neg h1]⟩
        · subst h1; subst h2
          refine ⟨B, hB, rfl, rfl, ?_⟩
          rw [if_pos rfl, hc]
          exact Nat.mod_eq_of_lt hs
      constructor
      · intro l D hl
        obtain ⟨E, h1, -, h3, -⟩ := key l D hl
        rw [h3, h.alive l E h1]
        by_cases e : l = k
        · subst e; simp; omega
        · simp [e]
      · intro l D hl hD
        obtain ⟨E, h1, -, h3, h4⟩ := key l D hl
        rw [h4]
        by_cases e : l = k
        · subst e; simp
        · simp [e]; exact h.count l E h1 (h3 ▸ hD)
      · intro l D hl
        obtain ⟨E, h1, h2, h3, -⟩ := key l D hl
        rw [h2, h3]
        exact h.block l E h1
      · intro l m D D' hl hm e
        obtain ⟨E, h1, h2, -⟩ := key l D hl
        obtain ⟨E', h1', h2', -⟩ := key m D' hm
        exact h.inj l m E E' h1 h1' (by rw [← h2, ← h2', e])
      · exact h.user
      · intro l D hl
        obtain ⟨E, h1, h2, -⟩ := key l D hl
        rw [h2]
        exact h.low l E h1
      · intro b hn hb
        obtain ⟨l, E, hl, e1⟩ := h.lib b hn hb
        by_cases e : k = l
        · subst e
          rw [hB] at hl; cases hl
          exact ⟨k, ⟨B.block, (B.count + 1) % 2 ^ 64, B.alive⟩, by simp [hlen], e1⟩
        · exact ⟨l, E, by simp [List.getElem?_set_ne e, hl], e1⟩
      · exact h.size
      · intro l hl
        simp at hl
        have : f l = 0 := h.none l (by simpa using hl)
        rw [this, if_neg (by omega)]

theorem decRef_spec {n : ℕ} {w : World} {f : ℕ → ℕ} (h : Books n w f) {k : ℕ} (hk : 0 < f k)
    (hs : f k < 2 ^ 64) :
    ∃ w', w.decRef k = .ok w' ∧ Keeps w w' ∧ Books n w' (fun l => f l - if l = k then 1 else 0) ∧
      (∀ (b : ℕ) (C : Block), w.blocks[b]? = some C → ∃ C', w'.blocks[b]? = some C' ∧
        C'.cells = C.cells ∧
        (C'.alive = C.alive ∨ (f k = 1 ∧ ∃ B : Buf, w.bufs[k]? = some B ∧ B.block = b))) ∧
      w'.blocks.length = w.blocks.length := by
  cases hB : w.bufs[k]? with
  | none => rw [h.none k hB] at hk; omega
  | some B =>
    have ha : B.alive = true := by rw [h.alive k B hB]; simpa using hk
    have hlen : k < w.bufs.length := (List.getElem?_eq_some_iff.1 hB).1
    have hc := h.count k B hB ha
    obtain ⟨C, hC, hCa⟩ := h.block k B hB
    have hClen : B.block < w.blocks.length := (List.getElem?_eq_some_iff.1 hC).1
    set B' : Buf := ⟨B.block, (B.count + (2 ^ 64 - 1)) % 2 ^ 64, decide (B.count ≠ 1)⟩ with hB'
    have key : ∀ (l : ℕ) (D : Buf), (w.bufs.set k B')[l]? = some D →
        ∃ E : Buf, w.bufs[l]? = some E ∧ D.block = E.block ∧
          (if l = k then D.alive = decide (f k ≠ 1) ∧ D.count = f k - 1
            else D.alive = E.alive ∧ D.count = E.count) := by
      intro l D hl
      rcases getElem?_set_cases hl with ⟨h1, h2⟩ | ⟨h1, h2, -⟩
      · exact ⟨D, h2, rfl, by rw [if_neg h1]; exact ⟨rfl, rfl⟩⟩
      · subst h1; subst h2
        refine ⟨B, hB, rfl, ?_⟩
        rw [if_pos rfl, hB']
        simp only
        rw [hc]
        refine ⟨rfl, ?_⟩
        rw [show f l + (2 ^ 64 - 1) = (f l - 1) + 2 ^ 64 by omega, Nat.add_mod_right,
          Nat.mod_eq_of_lt (by omega)]
    have hbufs : ∀ (l : ℕ) (E : Buf), w.bufs[l]? = some E → ∃ D : Buf, (w.bufs.set k B')[l]? = some D ∧
        D.block = E.block := by
      intro l E hl
      by_cases e : k = l
      · subst e
        rw [hB] at hl; cases hl
        exact ⟨B', by simp [hlen], rfl⟩
      · exact ⟨E, by simp [List.getElem?_set_ne e, hl], rfl⟩
    by_cases h1 : f k = 1
    · -- the last owner
      refine ⟨⟨w.blocks.set B.block ⟨C.cells, false⟩, w.bufs.set k B'⟩, ?_, ?_, ?_, ?_, by simp⟩
      · unfold World.decRef
        rw [hB]; simp only
        rw [if_pos ha, if_pos (by rw [hc, h1])]
        unfold World.freeBlock
        simp only
        rw [hC]
      · constructor
        · exact hbufs
        · intro b D hb
          by_cases e : B.block = b
          · subst e
            rw [hC] at hb; cases hb
            exact ⟨⟨C.cells, false⟩, by simp [hClen], rfl, fun _ v hv => ⟨v, hv, rfl⟩⟩
          · exact ⟨D, by simp [List.getElem?_set_ne e, hb], rfl, fun _ v hv => ⟨v, hv, rfl⟩⟩
      · constructor
        · intro l D hl
          obtain ⟨E, e1, e2, e3⟩ := key l D hl
          split_ifs at e3 with e
          · subst e; rw [e3.1, h1]; simp
          · rw [e3.1, h.alive l E e1]; simp [e]
        · intro l D hl hD
          obtain ⟨E, e1, e2, e3⟩ := key l D hl
          split_ifs at e3 with e
          · subst e; rw [e3.2]; simp
          · rw [e3.2, h.count l E e1 (e3.1 ▸ hD)]; simp [e]
        · intro l D hl
          obtain ⟨E, e1, e2, e3⟩ := key l D hl
          split_ifs at e3 with e
          · subst e
            rw [hB] at e1; cases e1
            exact ⟨⟨C.cells, false⟩, by rw [e2]; simp [hClen], by rw [e3.1, h1]; simp⟩
          · obtain ⟨F, f1, f2⟩ := h.block l E e1
            refine ⟨F, ?_, by rw [e3.1, f2]⟩
            rw [e2]
            have : B.block ≠ E.block := fun hh => e (h.inj l k E B e1 hB hh.symm)
            simp [List.getElem?_set_ne this, f1]
        · intro l m D D' hl hm e
          obtain ⟨E, e1, e2, -⟩ := key l D hl
          obtain ⟨E', e1', e2', -⟩ := key m D' hm
          exact h.inj l m E E' e1 e1' (by rw [← e2, ← e2', e])
        · intro b D hn hb
          have hne : B.block ≠ b := by have := h.low k B hB; omega
          simp only [List.getElem?_set_ne hne] at hb
          exact h.user b D hn hb
        · intro l D hl
          obtain ⟨E, e1, e2, -⟩ := key l D hl
          rw [e2]
          exact h.low l E e1
        · intro b hn hb
          simp at hb
          obtain ⟨l, E, hl, e1⟩ := h.lib b hn hb
          obtain ⟨D', hD', hD2⟩ := hbufs l E hl
          exact ⟨l, D', hD', hD2.trans e1⟩
        · simpa using h.size
        · intro l hl
          simp at hl
          have : f l = 0 := h.none l (by simpa using hl)
          rw [this, Nat.zero_sub]
      · intro b D hb
        by_cases e : B.block = b
        · subst e
          rw [hC] at hb; cases hb
          exact ⟨⟨C.cells, false⟩, by simp [hClen], rfl, .inr ⟨h1, B, rfl, rfl⟩⟩
        · exact ⟨D, by simp [List.getElem?_set_ne e, hb], rfl, .inl rfl⟩
    · refine ⟨⟨w.blocks, w.bufs.set k B'⟩, ?_, ?_, ?_, ?_, rfl⟩
      · unfold World.decRef
        rw [hB]; simp only
        rw [if_pos ha, if_neg (by rw [hc]; exact h1)]
      · exact ⟨hbufs, fun b C hb => ⟨C, hb, rfl, fun _ v hv => ⟨v, hv, rfl⟩⟩⟩
      · constructor
        · intro l D hl
          obtain ⟨E, e1, e2, e3⟩ := key l D hl
          split_ifs at e3 with e
          · subst e; rw [e3.1]; simp only [if_true]; rw [decide_eq_decide]; omega
          · rw [e3.1, h.alive l E e1]; simp [e]
        · intro l D hl hD
          obtain ⟨E, e1, e2, e3⟩ := key l D hl
          split_ifs at e3 with e
          · subst e; rw [e3.2]; simp
          · rw [e3.2, h.count l E e1 (e3.1 ▸ hD)]; simp [e]
        · intro l D hl
          obtain ⟨E, e1, e2, e3⟩ := key l D hl
          obtain ⟨F, f1, f2⟩ := h.block l E e1
          refine ⟨F, by rw [e2]; exact f1, ?_⟩
          split_ifs at e3 with e
          · subst e
            rw [hB] at e1; cases e1
            rw [e3.1, f2, ha]; simpa using h1
          · rw [e3.1, f2]
        · intro l m D D' hl hm e
          obtain ⟨E, e1, e2, -⟩ := key l D hl
          obtain ⟨E', e1', e2', -⟩ := key m D' hm
          exact h.inj l m E E' e1 e1' (by rw [← e2, ← e2', e])
        · exact h.user
        · intro l D hl
          obtain ⟨E, e1, e2, -⟩ := key l D hl
          rw [e2]
          exact h.low l E e1
        · intro b hn hb
          obtain ⟨l, E, hl, e1⟩ := h.lib b hn hb
          obtain ⟨D', hD', hD2⟩ := hbufs l E hl
          exact ⟨l, D', hD', hD2.trans e1⟩
        · exact h.size
        · intro l hl
          simp at hl
          have : f l = 0 := h.none l (by simpa using hl)
          rw [this, Nat.zero_sub]
      · intro b D hb
        exact ⟨D, hb, rfl, .inl rfl⟩

end RoughPy.Arrays
