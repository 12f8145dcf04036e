import Verif.Arrays.StorageProps

/-!
# C117: the elements of arrays
-/

namespace RoughPy.Arrays

open RoughPy.Args (Out)
open RoughPy.Scalars (Ty Val FP TRef conv Fits exactFP conv_ty zero_ty)

variable {n : ℕ}

/-- **C117.** A statement that does not write to an element, and does not make its array another one,
leaves the element as it is, as long as the memory is there. -/
theorem C117_frame {P : FP} {s₀ s s' : St} (h : Reaches P s₀ s) {c : Stmt} (hs : Safe P s c)
    (hl : Leaves P s c s') {j l : ℕ} {x : Val} (hx : Holds s j l x) (hw : ¬ Writes s c j l)
    (hr : ¬ Replaces j c) (hu : Usable s' j) : Holds s' j l x := by
  obtain ⟨hg, hlen⟩ := h.good
  have he := leaves_effect hg hlen hs hl
  obtain ⟨a, ha, hx⟩ := hx
  have ha' := he.vars j hr a ha
  obtain ⟨a', q1, q2, q3⟩ := hu
  rw [ha'] at q1; cases q1
  exact ⟨a, ha', get_effect hg he ha ha' hx q3 fun m o hp h' => hw ⟨a, m, o, ha, hp, h'⟩⟩

/-- **C117.** The same for an array that owns its memory, whatever happens to others. -/
theorem C117_owner {P : FP} {s₀ s s' : St} (h : Reaches P s₀ s) {c : Stmt} (hs : Safe P s c)
    (hl : Leaves P s c s') {j l b : ℕ} {x : Val} (hx : Holds s j l x) (ho : Owns s j b)
    (hw : ¬ Writes s c j l) (hr : ¬ Replaces j c) : Holds s' j l x := by
  have ho' := (C116_owner h hs hl ho hr).1
  obtain ⟨hg, hlen⟩ := h.good
  have he := leaves_effect hg hlen hs hl
  refine C117_frame h hs hl hx hw hr ?_
  obtain ⟨a, h1, h2, h3⟩ := ho'
  have h1' := var_iff.1 h1
  refine ⟨a, h1, ?_, (he.good.ok j a h1').owned_alive he.good.books (own_le_owners h1') h2⟩
  obtain ⟨t, -, e⟩ := ((he.good.ok j a h1').owner h2).1
  rw [e]; simp

theorem get_written {w' : World} {f : ℕ → ℕ} {a : Arr} (ha : a.Ok w') (hb : Books n w' f)
    (hf : ∀ k, own a k ≤ f k) {m o k : ℕ} (hp : a.place w' = some (m, o)) (hk : k < a.size) {t : Ty} {u : Val}
    (ht : a.info = .ok t) (hu : u.ty = t) {C : Block} (hC : w'.blocks[m]? = some C) (hCa : C.alive = true)
    (hc : C.cells[o + k]? = some (some u)) : get w' a k = .ok u := by
  rw [ha.get hb hf (info_ty ht), if_pos hk, hp]
  obtain ⟨t', D, h1, h2, -⟩ := ha.memory m o hp
  rw [ht] at h1; cases h1
  simp only [h2, Out.bind, read_elem hC hCa hc]
  unfold Val.as
  rw [if_pos hu]

/-- **C117.** Writing a number: afterwards the element holds it, converted to the type of the array, and so
does every element of an array of this type that is the same element; all others hold what they held. -/
theorem C117_write {P : FP} {s₀ s s' : St} (h : Reaches P s₀ s) {i k : ℕ} {v : Val}
    (hs : Safe P s (.set i k v)) (hl : step P (fun _ => 0) s (.set i k v) = .ok s') :
    ∃ t sz u, Has s i t sz ∧ k < sz ∧ conv P t v = .ok u ∧ Holds s' i k u ∧
      (∀ j l m, Has s j t m → l < m → Shared s i k j l → Holds s' j l u) ∧
      ∀ j l x, Holds s j l x → ¬ Shared s i k j l → Holds s' j l x := by
  obtain ⟨hg, hlen⟩ := h.good
  have he := leaves_effect hg hlen hs (.inl hl)
  obtain ⟨a, hi, ht, hal, hm, hc⟩ := hs
  have hi' := var_iff.1 hi
  rcases set_spec (hg.ok i a hi') hg.books (own_le_owners hi') ht hal hm hc with ⟨h0, -⟩ |
    ⟨b, o, t, u, h1, h2, h3, h4, h5, h6, h7, h8, h9⟩
  · simp only [step, withVar, hi, h0, Out.map, Res.ofOut] at hl
    cases hl
  · have hs' : s' = s.mem (s.world.setCell b (o + k) u) := by
      simp only [step, withVar, hi, h7, Out.map, Res.ofOut] at hl
      cases hl; rfl
    have key : ∀ j l m, Has s j t m → l < m → Shared s i k j l → Holds s' j l u := by
      intro j l m hj hlm hsh
      obtain ⟨c, g1, g2, rfl⟩ := hj
      obtain ⟨a', c', q, p, r, e1, e2, e3, e4, e5⟩ := hsh
      rw [hi] at e1; cases e1
      rw [g1] at e2; cases e2
      rw [h3] at e3; cases e3
      have g1' := var_iff.1 g1
      have hv' : s'.var j = some c := he.vars j (by simp [Replaces]) c g1
      have hv'' := var_iff.1 hv'
      refine ⟨c, hv', ?_⟩
      obtain ⟨C, c1, c2⟩ := hal b o h3
      obtain ⟨C', d1, d2, d3, d4⟩ := h9.here C c1
      have hpos : o + k < C.cells.length := by
        obtain ⟨t', D, x1, x2, x3, x4, x5, x6⟩ := (hg.ok i a hi').memory b o h3
        rw [c1] at x4; cases x4
        omega
      have hw : s'.world = s.world.setCell b (o + k) u := by rw [hs']; rfl
      refine get_written (he.good.ok j c hv'') he.good.books (own_le_owners hv'')
        ((place_keeps he.keeps (hg.ok j c g1')).trans e4) hlm g2 (conv_ty h6) (by rw [hw]; exact d1)
        (d2.trans c2) ?_
      rw [← e5, d4 (o + k) hpos, if_pos rfl]
    refine ⟨t, a.size, u, ⟨a, hi, h4, rfl⟩, h2, h6, ?_, key, fun j l x hx hsh => ?_⟩
    · exact key i k a.size ⟨a, hi, h4, rfl⟩ h2 ⟨a, a, b, o, o, hi, hi, h3, h3, rfl⟩
    · obtain ⟨c, g1, g2⟩ := hx
      have hv' : s'.var j = some c := he.vars j (by simp [Replaces]) c g1
      have g1' := var_iff.1 g1
      obtain ⟨-, -, hca⟩ := get_ok (hg.ok j c g1') hg.books (own_le_owners g1') g2
      refine ⟨c, hv', get_effect hg he g1 hv' g2 ?_ ?_⟩
      · rw [hs']
        exact h9.alive_of hca (place_keeps h8 (hg.ok j c g1'))
      · rintro m p hp ⟨a', o', e1, e2, e3⟩
        rw [hi] at e1; cases e1
        exact hsh ⟨a, c, m, o', p, hi, g1, e2, hp, e3.symm⟩

/-- **C117.** A new array of `m` elements holds zeros, in memory of its own. -/
theorem C117_zeros {P : FP} {s₀ s s' : St} (h : Reaches P s₀ s) {t : Ty} {m : ℕ} (ht : t.IsScalarType)
    (hl : step P (fun _ => 0) s (.typed t m) = .ok s') :
    Has s' s.vars.length t m ∧ ∀ k < m, Holds s' s.vars.length k (Val.zero t) ∧
      ∀ j l, j ≠ s.vars.length → ¬ Shared s' s.vars.length k j l := by
  obtain ⟨hg, hlen⟩ := h.good
  have he := leaves_effect hg hlen (c := .typed t m) ht (.inl hl)
  have hs' : s' = s.push (typed (fun _ => 0) s.world t m) := by simp only [step] at hl; cases hl; rfl
  have hv := var_last s (typed (fun _ => 0) s.world t m)
  rw [← hs'] at hv
  have hty : (typed (fun _ => 0) s.world t m).2.info = .ok t ∧ (typed (fun _ => 0) s.world t m).2.size = m := by
    unfold typed
    split_ifs with h0
    · exact ⟨rfl, h0.symm⟩
    · exact ⟨rfl, rfl⟩
  refine ⟨⟨_, hv, hty.1, hty.2⟩, fun k hk => ?_⟩
  have hv' := var_iff.1 hv
  have e : typed (fun _ => 0) s.world t m =
      ((s.world.alloc (fun _ => 0) (List.replicate m (some (Val.zero t)))).1,
        ⟨.ptr t, .owned, .impl s.world.bufs.length, m⟩) := by
    unfold typed; rw [if_neg (by omega)]; rfl
  rw [e] at hs' hv hv'
  have hw : s'.world = (s.world.alloc (fun _ => 0) (List.replicate m (some (Val.zero t)))).1 := by rw [hs']; rfl
  have hpl : (⟨.ptr t, .owned, .impl s.world.bufs.length, m⟩ : Arr).place s'.world =
      some (s.world.blocks.length, 0) := by
    rw [hw]; simp [Arr.place, World.alloc]
  have hC : s'.world.blocks[s.world.blocks.length]? = some ⟨List.replicate m (some (Val.zero t)), true⟩ := by
    rw [hw]; simp [World.alloc]
  refine ⟨⟨_, hv, ?_⟩, fun j l hj hsh => ?_⟩
  · refine get_written (he.good.ok _ _ hv') he.good.books (own_le_owners hv') hpl hk rfl
      (zero_ty ht) hC rfl ?_
    simp [List.getElem?_replicate, hk]
  · obtain ⟨a, b, q, o, p, e1, e2, e3, e4, e5⟩ := hsh
    rw [hv] at e1; cases e1
    rw [hpl] at e3; cases e3
    have e2' := var_iff.1 e2
    have : s.vars[j]? = some (some b) := by
      rw [hs'] at e2'
      simp only [St.push] at e2'
      rcases append_one e2' with h' | ⟨h', -⟩
      · exact h'
      · exact absurd h' hj
    rw [place_keeps he.keeps (hg.ok j b this)] at e4
    obtain ⟨t', D, -, -, -, d4, -⟩ := (hg.ok j b this).memory _ _ e4
    rw [List.getElem?_eq_none (le_refl _)] at d4
    cases d4

/-- What a new array holds that has the same places as another one. -/
theorem push_same {s : St} (hg : Good n s) {c : Stmt} {w' : World} {r : Arr}
    (he : Effect n s c (s.push (w', r))) (hw : w'.blocks = s.world.blocks) {i : ℕ} {a : Arr}
    (hi : s.var i = some a) {d k : ℕ} {x : Val} (hx : get s.world a (d + k) = .ok x)
    (hty : r.ty = a.ty) (hk : k < r.size)
    (hp : r.place w' = (a.place s.world).map fun q => (q.1, q.2 + d)) :
    Holds (s.push (w', r)) s.vars.length k x := by
  have hi' := var_iff.1 hi
  have hok := hg.ok i a hi'
  obtain ⟨ht, hk', hal⟩ := get_ok hok hg.books (own_le_owners hi') hx
  have hv := var_last s (w', r)
  have hv' := var_iff.1 hv
  refine ⟨r, hv, ?_⟩
  have hei : r.elemInfo = a.elemInfo := by unfold Arr.elemInfo; rw [hty]
  rw [hok.get hg.books (own_le_owners hi') ht, if_pos hk'] at hx
  rw [(he.good.ok _ _ hv').get he.good.books (own_le_owners hv') (by rw [hty]; exact ht), if_pos hk, ← hx, hei]
  show (match r.place w' with | none => _ | some (b, o) => _) = _
  rw [hp]
  cases ha : a.place s.world with
  | none => rfl
  | some q =>
    obtain ⟨m, o⟩ := q
    have : (s.push (w', r)).world.read (.elem m (o + d + k)) = s.world.read (.elem m (o + (d + k))) := by
      rw [Nat.add_assoc]
      show w'.read _ = _
      unfold World.read World.cell
      simp only [hw]
    simp only [Option.map_some, this]

/-- **C117.** A copy of an array has the same type and size, holds the same and shares its elements; for
floating numbers and all others alike, what is written to one is seen in both. -/
theorem C117_copy {P : FP} {s₀ s s' : St} (h : Reaches P s₀ s) {i : ℕ} (hs : Safe P s (.copy i))
    (hl : step P (fun _ => 0) s (.copy i) = .ok s') :
    (∀ t m, Has s i t m → Has s' s.vars.length t m) ∧
      (∀ k x, Holds s i k x → Holds s' s.vars.length k x) ∧
      (Backed s i → ∀ k, Shared s' i k s.vars.length k) := by
  obtain ⟨hg, hlen⟩ := h.good
  have he := leaves_effect hg hlen hs (.inl hl)
  obtain ⟨a, hi⟩ := hs
  have hi' := var_iff.1 hi
  have hok := hg.ok i a hi'
  obtain ⟨w', e1, e2, e3, e4⟩ := copyCtor_spec hok hg.books (own_le_owners hi')
    (fun k => by have := owners_le s.vars k; omega)
  have hs' : s' = s.push (w', a) := by
    simp only [step, withVar, hi, e1, Out.map, Res.ofOut] at hl; cases hl; rfl
  subst hs'
  have hv := var_last s (w', a)
  refine ⟨?_, ?_, ?_⟩
  · rintro t m ⟨b, h1, h2, h3⟩
    rw [hi] at h1; cases h1
    exact ⟨a, hv, h2, h3⟩
  · rintro k x ⟨b, h1, h2⟩
    rw [hi] at h1; cases h1
    refine push_same hg he e3 hi (d := 0) (by rw [Nat.zero_add]; exact h2) rfl
      (get_ok hok hg.books (own_le_owners hi') h2).2.1 ?_
    rw [place_keeps e2 hok]
    cases a.place s.world <;> rfl
  · rintro ⟨b, h1, h2⟩ k
    rw [hi] at h1; cases h1
    obtain ⟨⟨m, o⟩, hp⟩ := Option.isSome_iff_exists.1 h2
    have hp' : a.place w' = some (m, o) := (place_keeps e2 hok).trans hp
    exact ⟨a, a, m, o, o, var_push _ hi, hv, hp', hp', rfl⟩

theorem place_view (w : World) (ty : TRef) (c : Bool) (wd : Word) (sz : ℕ) :
    (⟨ty, if c then .constB else .mutB, wd, sz⟩ : Arr).place w = match wd with
      | .data b o => some (b, o)
      | _ => none := by cases c <;> cases wd <;> rfl

/-- **C117.** A slice has the elements from `b` up to `e`, and shares them. -/
theorem C117_slice {P : FP} {s₀ s s' : St} (h : Reaches P s₀ s) {c : Bool} {i b e : ℕ}
    (hs : Safe P s (.slice c i b e)) (hl : step P (fun _ => 0) s (.slice c i b e) = .ok s') :
    (∀ t m, Has s i t m → e ≤ m ∧ Has s' s.vars.length t (e - b)) ∧
      (∀ k x, k < e - b → Holds s i (b + k) x → Holds s' s.vars.length k x) ∧
      (Backed s i → ∀ k, Shared s' i (b + k) s.vars.length k) ∧
      (c = true → IsConst s' s.vars.length) ∧ (IsConst s i → IsConst s' s.vars.length) := by
  obtain ⟨hg, hlen⟩ := h.good
  have he := leaves_effect hg hlen hs (.inl hl)
  obtain ⟨a, hi, hbe, hlt⟩ := hs
  have hi' := var_iff.1 hi
  have hok := hg.ok i a hi'
  have hsz : e ≤ a.size ∧ ¬ (a.mode = .owned ∧ a.word = .null) ∧ ¬ (¬ (c = true) ∧ a.mode = .constB) := by
    refine ⟨?_, ?_, ?_⟩ <;> by_contra hcon
    · simp only [step, withVar, hi, slice, if_neg hcon, Out.map, Res.ofOut] at hl
      cases hl
    · by_cases h1 : e ≤ a.size
      · simp only [step, withVar, hi, slice, if_pos h1, if_pos hcon, Out.map, Res.ofOut] at hl
        cases hl
      · simp only [step, withVar, hi, slice, if_neg h1, Out.map, Res.ofOut] at hl
        cases hl
    · by_cases h1 : e ≤ a.size
      · by_cases h2 : a.mode = .owned ∧ a.word = .null
        · simp only [step, withVar, hi, slice, if_pos h1, if_pos h2, Out.map, Res.ofOut] at hl
          cases hl
        · have : slice c s.world a b e = .err := by
            unfold slice; rw [if_pos h1, if_neg h2, if_pos hcon]
          simp only [step, withVar, hi, this, Out.map, Res.ofOut] at hl
          cases hl
      · simp only [step, withVar, hi, slice, if_neg h1, Out.map, Res.ofOut] at hl
        cases hl
  obtain ⟨h1, h2, h3⟩ := hsz
  set r : Arr := ⟨a.ty, if c then .constB else .mutB, ((ptrOf (a.place s.world)).shift b).toWord, e - b⟩ with hr
  have hsl : slice c s.world a b e = .ok r := by
    unfold slice
    rw [if_pos h1, if_neg h2, if_neg h3, hok.ptr hg.books (own_le_owners hi'), sliceSize_eq hbe hlt]
    rfl
  have hs' : s' = s.push (s.world, r) := by
    simp only [step, withVar, hi, hsl, Out.map, Res.ofOut] at hl; cases hl; rfl
  subst hs'
  have hv := var_last s (s.world, r)
  have hp : r.place s.world = (a.place s.world).map fun q => (q.1, q.2 + b) := by
    rw [hr, place_view, ptrOf_shift_word]
    cases a.place s.world <;> rfl
  refine ⟨?_, ?_, ?_, ?_, ?_⟩
  · rintro t m ⟨x, q1, q2, q3⟩
    rw [hi] at q1; cases q1
    exact ⟨by omega, r, hv, q2, rfl⟩
  · rintro k x hk ⟨y, q1, q2⟩
    rw [hi] at q1; cases q1
    exact push_same hg he rfl hi q2 rfl hk hp
  · rintro ⟨x, q1, q2⟩ k
    rw [hi] at q1; cases q1
    obtain ⟨⟨m, o⟩, hpa⟩ := Option.isSome_iff_exists.1 q2
    refine ⟨a, r, m, o, o + b, var_push _ hi, hv, hpa, ?_, by omega⟩
    show r.place s.world = _
    rw [hp, hpa]; rfl
  · rintro rfl
    exact ⟨r, hv, rfl⟩
  · rintro ⟨x, q1, q2⟩
    rw [hi] at q1; cases q1
    refine ⟨r, hv, ?_⟩
    cases c with
    | true => rfl
    | false => exact absurd ⟨by simp, q2⟩ h3

/-- **C117.** A view has all elements, and shares them. -/
theorem C117_view {P : FP} {s₀ s s' : St} (h : Reaches P s₀ s) {c : Bool} {i : ℕ}
    (hs : Safe P s (.view c i)) (hl : step P (fun _ => 0) s (.view c i) = .ok s') :
    (∀ t m, Has s i t m → Has s' s.vars.length t m) ∧
      (∀ k x, Holds s i k x → Holds s' s.vars.length k x) ∧
      (Backed s i → ∀ k, Shared s' i k s.vars.length k) ∧
      (c = true → IsConst s' s.vars.length) ∧ (IsConst s i → IsConst s' s.vars.length) := by
  obtain ⟨hg, hlen⟩ := h.good
  have he := leaves_effect hg hlen hs (.inl hl)
  obtain ⟨a, hi⟩ := hs
  have hi' := var_iff.1 hi
  have hok := hg.ok i a hi'
  have h2 : ¬ (a.mode = .owned ∧ a.word = .null) := by
    intro h2
    have hp : a.pointer s.world = .err := by unfold Arr.pointer; rw [if_pos h2]
    have hmp : a.mutPointer s.world = .err := by unfold Arr.mutPointer; rw [hp]; simp
    have : view c s.world a = .err := by unfold view; cases c <;> simp [hp, hmp, Out.map]
    simp only [step, withVar, hi, this, Out.map, Res.ofOut] at hl
    cases hl
  have h3 : ¬ (¬ (c = true) ∧ a.mode = .constB) := by
    intro h3
    have : view c s.world a = .err := by unfold view Arr.mutPointer; simp [h3, Out.map]
    simp only [step, withVar, hi, this, Out.map, Res.ofOut] at hl
    cases hl
  set r : Arr := ⟨a.ty, if c then .constB else .mutB, (ptrOf (a.place s.world)).toWord, a.size⟩ with hr
  have hvw : view c s.world a = .ok r := by
    have hpt : a.pointer s.world = .ok (ptrOf (a.place s.world)) := by
      unfold Arr.pointer; rw [if_neg h2, hok.ptr hg.books (own_le_owners hi')]
    unfold view Arr.mutPointer
    rw [hpt]
    cases c with
    | true => rfl
    | false =>
      have : a.mode ≠ .constB := fun h => h3 ⟨by simp, h⟩
      simp [this, Out.map, hr]
  have hs' : s' = s.push (s.world, r) := by
    simp only [step, withVar, hi, hvw, Out.map, Res.ofOut] at hl; cases hl; rfl
  subst hs'
  have hv := var_last s (s.world, r)
  have hp : r.place s.world = (a.place s.world).map fun q => (q.1, q.2 + 0) := by
    rw [hr, place_view]
    cases a.place s.world <;> rfl
  refine ⟨?_, ?_, ?_, ?_, ?_⟩
  · rintro t m ⟨x, q1, q2, q3⟩
    rw [hi] at q1; cases q1
    exact ⟨r, hv, q2, q3⟩
  · rintro k x ⟨y, q1, q2⟩
    rw [hi] at q1; cases q1
    exact push_same hg he rfl hi (d := 0) (by rw [Nat.zero_add]; exact q2) rfl
      (get_ok hok hg.books (own_le_owners hi') q2).2.1 hp
  · rintro ⟨x, q1, q2⟩ k
    rw [hi] at q1; cases q1
    obtain ⟨⟨m, o⟩, hpa⟩ := Option.isSome_iff_exists.1 q2
    refine ⟨a, r, m, o, o, var_push _ hi, hv, hpa, ?_, rfl⟩
    show r.place s.world = _
    rw [hp, hpa]; rfl
  · rintro rfl
    exact ⟨r, hv, rfl⟩
  · rintro ⟨x, q1, q2⟩
    rw [hi] at q1; cases q1
    refine ⟨r, hv, ?_⟩
    cases c with
    | true => rfl
    | false => exact absurd ⟨by simp, q2⟩ h3

/-- **C117.** An array made by moving holds what the other held, and owns what it owned; the other has no
memory afterwards. -/
theorem C117_move {P : FP} {s₀ s s' : St} (h : Reaches P s₀ s) {i : ℕ} (hs : Safe P s (.move i))
    (hl : step P (fun _ => 0) s (.move i) = .ok s') :
    (∀ t m, Has s i t m → Has s' s.vars.length t m) ∧
      (∀ k x, Holds s i k x → Holds s' s.vars.length k x) ∧
      (∀ b, Owns s i b → Owns s' s.vars.length b) ∧ ¬ Backed s' i := by
  obtain ⟨hg, hlen⟩ := h.good
  have he := leaves_effect hg hlen hs (.inl hl)
  obtain ⟨a, hi⟩ := hs
  have hi' := var_iff.1 hi
  have hlt : i < s.vars.length := (List.getElem?_eq_some_iff.1 hi').1
  have hs' : s' = (s.put i (s.world, (moveCtor a).2)).push (s.world, (moveCtor a).1) := by
    simp only [step, withVar, hi] at hl; cases hl; rfl
  have hv : s'.var s.vars.length = some a := by
    have := var_last (s.put i (s.world, (moveCtor a).2)) (s.world, (moveCtor a).1)
    rw [← hs'] at this
    rw [show s.vars.length = (s.put i (s.world, (moveCtor a).2)).vars.length by simp [St.put]]
    exact this
  have hw : s'.world = s.world := by rw [hs']; rfl
  refine ⟨?_, ?_, ?_, ?_⟩
  · rintro t m ⟨x, q1, q2, q3⟩
    rw [hi] at q1; cases q1
    exact ⟨a, hv, q2, q3⟩
  · rintro k x ⟨y, q1, q2⟩
    rw [hi] at q1; cases q1
    exact ⟨a, hv, by rw [hw]; exact q2⟩
  · rintro b ⟨x, q1, q2, q3⟩
    rw [hi] at q1; cases q1
    exact ⟨a, hv, q2, by rw [hw]; exact q3⟩
  · rintro ⟨x, q1, q2⟩
    have : s'.var i = some (moveCtor a).2 := by
      rw [hs']
      refine var_push _ ?_
      rw [var_iff]
      simp [St.put, hlt]
    rw [this] at q1; cases q1
    unfold Arr.HasMemory at q2
    rw [place_none_of_null rfl] at q2
    cases q2

/-- **C117.** A moving assignment hands over elements and ownership, as long as the memory was not that
of the array assigned to. -/
theorem C117_move_assign {P : FP} {s₀ s s' : St} (h : Reaches P s₀ s) {i j : ℕ} (hij : i ≠ j)
    (hs : Safe P s (.moveAssign i j)) (hl : step P (fun _ => 0) s (.moveAssign i j) = .ok s') :
    (∀ t m, Has s j t m → Has s' i t m) ∧
      (∀ k x, Holds s j k x → Usable s' i → Holds s' i k x) ∧
      (∀ b, Owns s j b → Owns s' i b ∧ Live s' b ∧ ¬ Backed s' j) := by
  obtain ⟨hg, hlen⟩ := h.good
  have he := leaves_effect hg hlen hs (.inl hl)
  obtain ⟨a, b, hi, hj⟩ := hs
  have hi' := var_iff.1 hi
  have hj' := var_iff.1 hj
  have hlt : i < s.vars.length := (List.getElem?_eq_some_iff.1 hi').1
  have hltj : j < s.vars.length := (List.getElem?_eq_some_iff.1 hj').1
  have hokb := hg.ok j b hj'
  obtain ⟨w', e1, e2, e3, e4, e5⟩ := dtor_spec (hg.ok i a hi') hg.books (own_le_owners hi')
    (fun k => by have := owners_le s.vars k; omega)
  have hs' : s' = (s.put i (w', b)).put j (w', if b.mode = .owned then { b with word := .null } else b) := by
    simp only [step, withVar, hi, hj, if_neg hij, moveAssign, e1, Out.map, Res.ofOut] at hl
    cases hl; rfl
  have hw : s'.world = w' := by rw [hs']; rfl
  have hv : s'.var i = some b := by
    rw [hs', var_put_ne _ hij.symm, var_iff]
    simp [St.put, hlt]
  have hv' := var_iff.1 hv
  have hvj : s'.var j = some (if b.mode = .owned then { b with word := .null } else b) := by
    rw [hs', var_iff]
    simp [St.put, hltj]
  have hpl : b.place s'.world = b.place s.world := place_keeps he.keeps hokb
  refine ⟨?_, ?_, ?_⟩
  · rintro t m ⟨x, q1, q2, q3⟩
    rw [hj] at q1; cases q1
    exact ⟨b, hv, q2, q3⟩
  · rintro k x ⟨y, q1, q2⟩ ⟨z, q3, q4, q5⟩
    rw [hj] at q1; cases q1
    rw [hv] at q3; cases q3
    refine ⟨b, hv, ?_⟩
    obtain ⟨ht, hk, hal⟩ := get_ok hokb hg.books (own_le_owners hj') q2
    rw [hokb.get hg.books (own_le_owners hj') ht, if_pos hk] at q2
    rw [(he.good.ok i b hv').get he.good.books (own_le_owners hv') ht, if_pos hk, hpl, ← q2]
    cases hp : b.place s.world with
    | none => rfl
    | some q =>
      obtain ⟨m, o⟩ := q
      obtain ⟨C, c1, c2⟩ := hal m o hp
      obtain ⟨C', c3, c4⟩ := q5 m o (hpl.trans hp)
      obtain ⟨C'', c5, c6⟩ := e3 m C c1
      rw [← hw, c3] at c5; cases c5
      simp only [read_same c1 c3 c2 c4 (by rw [c6])]
  · rintro m ⟨x, q1, q2, q3⟩
    rw [hj] at q1; cases q1
    have ho : Owns s' i m := ⟨b, hv, q2, hpl.trans q3⟩
    refine ⟨ho, ?_, ?_⟩
    · obtain ⟨k, B, f1, f2, f3⟩ := owns_buf he.good ho
      obtain ⟨C, c1, c2⟩ := he.good.books.block k B f1
      exact ⟨C, by rw [← f2]; exact c1, by rw [c2, he.good.books.alive k B f1]; exact decide_eq_true f3⟩
    · rintro ⟨y, r1, r2⟩
      rw [hvj, if_pos q2] at r1; cases r1
      unfold Arr.HasMemory at r2
      rw [place_none_of_null rfl] at r2
      cases r2

/-- **C117, refuted.** An array that has been moved from keeps its size: it still reads as zeros, and
writing to it is undefined. -/
theorem C117_moved_refuted : ∃ s, run exactFP (fun _ => 0) ⟨⟨[], []⟩, []⟩
      [.typed .f64 1, .set 0 0 (.f64 (.fin 5)), .move 0] = .ok s ∧ Holds s 1 0 (.f64 (.fin 5)) ∧
    Holds s 0 0 (.f64 (.fin 0)) ∧ step exactFP (fun _ => 0) s (.set 0 0 (.f64 (.fin 1))) = .ub := by
  refine ⟨_, rfl, ⟨_, rfl, ?_⟩, ⟨_, rfl, ?_⟩, ?_⟩ <;> decide +kernel

/-- **C117, refuted.** A borrowed array stays as it is when it is moved into another by assignment: the
two share the elements. -/
theorem C117_move_assign_refuted : ∃ s, run exactFP (fun _ => 0) userTwo
      [.borrow false (.ptr .f64) 0 0 2, .empty, .moveAssign 1 0] = .ok s ∧ Shared s 0 1 1 1 := by
  refine ⟨_, rfl, ⟨_, _, _, _, _, rfl, rfl, rfl, rfl, rfl⟩⟩

/-- The element of a slice is that of the array: `x[{1, 3}][0] = 7` is seen in `x[1]`, and in a copy. -/
example : ∃ s, run exactFP (fun _ => 0) ⟨⟨[], []⟩, []⟩
      [.typed .f64 3, .copy 0, .slice false 1 1 3, .set 2 0 (.int 4 7)] = .ok s ∧
    Holds s 0 1 (.f64 (.fin 7)) ∧ Holds s 1 1 (.f64 (.fin 7)) ∧ Holds s 2 0 (.f64 (.fin 7)) ∧
    Holds s 0 0 (.f64 (.fin 0)) ∧ Shared s 0 1 2 0 := by
  refine ⟨_, rfl, ⟨_, rfl, ?_⟩, ⟨_, rfl, ?_⟩, ⟨_, rfl, ?_⟩, ⟨_, rfl, ?_⟩,
    ⟨_, _, _, _, _, rfl, rfl, rfl, rfl, rfl⟩⟩ <;> decide +kernel

end RoughPy.Arrays
