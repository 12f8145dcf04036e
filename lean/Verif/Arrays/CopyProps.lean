import Verif.Arrays.ConstProps

/-!
# C119: assigning and converting arrays
-/

namespace RoughPy.Arrays

open RoughPy.Args (Out)
open RoughPy.Scalars (Ty Val FP TRef conv Fits exactFP conv_ty zero_ty)

variable {n : ℕ}

/-- **C119, in part.** Assigning an array that owns floating numbers: the target has its type and size
and holds the same numbers, in memory of its own; the source holds what it held. Missing: the other
arrays (see the refutations). -/
theorem C119_assign_partial {P : FP} {s₀ s : St} (h : Reaches P s₀ s) {i j m b : ℕ} {t : Ty} (hij : i ≠ j)
    (hi : ∃ a, s.var i = some a) (hj : Has s j t m) (ho : Owns s j b) (ht : t = .f32 ∨ t = .f64) :
    ∃ s', step P (fun _ => 0) s (.assign i j) = .ok s' ∧ Has s' i t m ∧ (∃ b', Owns s' i b') ∧
      (∀ k x, Holds s j k x → Holds s' i k x ∧ Holds s' j k x) ∧
      ∀ k q l, q ≠ i → ¬ Shared s' i k q l := by
  obtain ⟨hg, hlen⟩ := h.good
  obtain ⟨a, hi⟩ := hi
  obtain ⟨d, hj, hd1, rfl⟩ := hj
  obtain ⟨d', hj2, hd2, hd3⟩ := ho
  rw [hj] at hj2; cases hj2
  have hi' := var_iff.1 hi
  have hj' := var_iff.1 hj
  have hokd := hg.ok j d hj'
  have hwd : d.word ≠ .null := by
    intro e; rw [place_none_of_null e] at hd3; cases hd3
  have hty : d.ty = .ptr t := by
    obtain ⟨u, -, e⟩ := (hokd.owner hd2).1
    unfold Arr.info at hd1
    rw [e] at hd1
    cases hd1
    exact e
  have hsafe : Safe P s (.assign i j) := by
    refine ⟨a, d, hi, hj, .inr (.inr ⟨hd2, hwd, ?_⟩)⟩
    rcases ht with rfl | rfl
    · exact .inl hty
    · exact .inr hty
  obtain ⟨w', a', e1, e2, e3, e4, e5, e6, e7, e8, e9, e10⟩ := copyAssign_spec (P := P) (junk := fun _ => 0)
    (fun _ => rfl) (hg.ok i a hi') hokd hg.books (two_owners hij hi' hj')
    (fun k => by have := owners_le s.vars k; omega) hd2 hwd hty ht
  have hst : step P (fun _ => 0) s (.assign i j) = .ok (s.put i (w', a')) := by
    simp only [step, withVar, hi, hj, if_neg hij, e1, Res.map]
  have he := leaves_effect hg hlen hsafe (.inl hst)
  have hlt : i < s.vars.length := (List.getElem?_eq_some_iff.1 hi').1
  have hv : (s.put i (w', a')).var i = some a' := by rw [var_iff]; simp [St.put, hlt]
  have hvj : (s.put i (w', a')).var j = some d := by rw [var_put_ne _ hij]; exact hj
  have hvj' := var_iff.1 hvj
  have hinf : a'.info = .ok t := by unfold Arr.info; rw [e7, hty]
  refine ⟨_, hst, ⟨a', hv, hinf, e6⟩, ⟨_, a', hv, e8, e9⟩, ?_, ?_⟩
  · rintro k x ⟨y, q1, q2⟩
    rw [hj] at q1; cases q1
    refine ⟨⟨a', hv, ?_⟩, d, hvj, ?_⟩
    · show get w' a' k = .ok x
      rw [e10, q2]
    · refine get_effect hg he hj hvj q2 ?_ (fun _ _ _ h' => h')
      exact (he.good.ok j d hvj').owned_alive he.good.books (own_le_owners hvj') hd2
  · rintro k q l hq ⟨a1, a2, m, o, p, r1, r2, r3, r4, r5⟩
    rw [hv] at r1; cases r1
    rw [var_put_ne _ (Ne.symm hq)] at r2
    have r2' := var_iff.1 r2
    have hok2 := hg.ok q a2 r2'
    have r3' : a'.place w' = some (m, o) := r3
    rw [e9] at r3'; cases r3'
    rw [place_keeps he.keeps hok2] at r4
    obtain ⟨t', D, -, -, -, d4, -⟩ := hok2.memory _ _ r4
    rw [List.getElem?_eq_none (le_refl _)] at d4
    cases d4

/-- An assignment between two arrays of the library. -/
example : ∃ s, run exactFP (fun _ => 0) ⟨⟨[], []⟩, []⟩ [.typed .f64 2, .set 0 1 (.int 4 5), .typed .f32 7,
      .assign 1 0, .set 0 1 (.int 4 6)] = .ok s ∧ Has s 1 .f64 2 ∧ Holds s 1 1 (.f64 (.fin 5)) ∧
    Holds s 0 1 (.f64 (.fin 6)) := by
  refine ⟨_, rfl, ⟨_, rfl, rfl, ?_⟩, ⟨_, rfl, ?_⟩, ⟨_, rfl, ?_⟩⟩ <;> decide +kernel

/-- **C119.** Assigning an array to itself changes nothing. -/
theorem C119_self {P : FP} {junk : ℕ → ℕ} {s : St} {i : ℕ} (hi : ∃ a, s.var i = some a) :
    step P junk s (.assign i i) = .ok s ∧ step P junk s (.moveAssign i i) = .ok s := by
  obtain ⟨a, hi⟩ := hi
  constructor <;> simp only [step, withVar, hi, if_true]

/-- **C119, refuted.** Assigning a constant view raises, after the target has lost its numbers; it cannot
be used any more. -/
theorem C119_const_view_refuted : ∃ s s', run exactFP (fun _ => 0) ⟨⟨[], []⟩, []⟩
      [.typed .f64 1, .typed .f64 1, .set 1 0 (.int 4 5), .view true 0] = .ok s ∧
    Holds s 1 0 (.f64 (.fin 5)) ∧ step exactFP (fun _ => 0) s (.assign 1 2) = .raised s' ∧
    step exactFP (fun _ => 0) s' (.get 1 0) = .ub := by
  refine ⟨_, _, rfl, ⟨_, rfl, ?_⟩, rfl, ?_⟩ <;> decide +kernel

/-- **C119, refuted.** Assigning a view that can be changed writes the numbers over the buffer object of
the target. -/
theorem C119_view_refuted : run exactFP (fun _ => 0) ⟨⟨[], []⟩, []⟩
    [.typed .f64 1, .typed .f64 1, .view false 0, .assign 1 2] = .ub := by decide +kernel

/-- **C119, refuted.** So does assigning an array over memory of the user; with a type info the numbers are
copied, but afterwards the target takes its buffer object for the numbers. -/
theorem C119_borrowed_refuted :
    run exactFP (fun _ => 0) userTwo [.borrow false (.ptr .f64) 0 0 2, .empty, .assign 1 0] = .ub ∧
    ∃ s, run exactFP (fun _ => 0) userTwo [.borrow false (.info .f64) 0 0 2, .empty, .assign 1 0] = .ok s ∧
      Has s 1 .f64 2 ∧ step exactFP (fun _ => 0) s (.get 1 0) = .ub := by
  refine ⟨by decide +kernel, _, rfl, ⟨_, rfl, rfl, rfl⟩, ?_⟩
  decide +kernel

/-- **C119, refuted.** Rational numbers are assigned to memory in which no numbers have been made. -/
theorem C119_rational_refuted : run exactFP (fun _ => 0) ⟨⟨[], []⟩, []⟩
    [.typed .rat 1, .typed .rat 1, .assign 1 0] = .ub := by decide +kernel

/-- **C119, refuted.** Assigning an array without elements leaves the target as it is. -/
theorem C119_empty_refuted : ∃ s, run exactFP (fun _ => 0) ⟨⟨[], []⟩, []⟩
      [.typed .f64 1, .set 0 0 (.int 4 5), .empty, .assign 0 1] = .ok s ∧ Holds s 0 0 (.f64 (.fin 5)) := by
  refine ⟨_, rfl, ⟨_, rfl, ?_⟩⟩
  decide +kernel

/-- **C119, refuted.** Assigning an array that has been moved from raises. -/
theorem C119_moved_refuted : ∃ s s', run exactFP (fun _ => 0) ⟨⟨[], []⟩, []⟩
      [.typed .f64 1, .typed .f64 1, .move 0] = .ok s ∧
    step exactFP (fun _ => 0) s (.assign 1 0) = .raised s' := by
  exact ⟨_, _, rfl, rfl⟩

/-- **C119, in part.** Converting an array into another of the same size in other memory: every element
is the converted element of the source, which stays as it was; if an element cannot be converted, the call
raises, and the elements before it have been converted. Missing: other sizes and overlapping memory. -/
theorem C119_convert_partial {P : FP} {s₀ s : St} (h : Reaches P s₀ s) {t d : Ty} {i j m : ℕ}
    (hs : Safe P s (.convert t i j)) (hc : ¬ IsConst s i) (hd : Has s i d m) :
    ∃ s' l, Leaves P s (.convert t i j) s' ∧ l ≤ m ∧ Has s' i d m ∧
      (∀ k x, Holds s j k x → Holds s' j k x ∧
        (k < l → ∃ u, conv P d x = .ok u ∧ Holds s' i k u)) ∧
      (∀ k x, l ≤ k → Holds s i k x → Holds s' i k x) ∧
      (step P (fun _ => 0) s (.convert t i j) = .ok s' → l = m) ∧
      (step P (fun _ => 0) s (.convert t i j) = .raised s' → ∃ x, Holds s j l x ∧ conv P d x = .err) := by
  obtain ⟨hg, hlen⟩ := h.good
  obtain ⟨s1, hs1, he⟩ := step_good (P := P) (junk := fun _ => 0) (fun _ => rfl) hg hs hlen
  obtain ⟨a, b, hi, hj, ht, hsz, hla, hlb, hma, hmb, hne, hcv⟩ := hs
  obtain ⟨a', hi2, hdi, rfl⟩ := hd
  rw [hi] at hi2; cases hi2
  have hi' := var_iff.1 hi
  have hj' := var_iff.1 hj
  obtain ⟨⟨q, o⟩, hpa⟩ := Option.isSome_iff_exists.1 hma
  obtain ⟨⟨q2, o2⟩, hpb⟩ := Option.isSome_iff_exists.1 hmb
  have hqq : q ≠ q2 := hne q o q2 o2 hpa hpb
  have hoka := hg.ok i a hi'
  have hokb := hg.ok j b hj'
  have hm : a.mode ≠ .constB := fun e => hc ⟨a, hi, e⟩
  rcases convertCopy_spec (P := P) (junk := fun _ => 0) (t := t) hsz hoka hokb hg.books (own_le_owners hi')
    (own_le_owners hj') hla hlb hpa hpb hqq.symm hdi (fun k v hv => hcv d k v hdi hv) with
    ⟨h', -⟩ | ⟨-, r, hr, l, us, w', q1, q2', q3, q4⟩
  · exact absurd h' hm
  have hk := q3.span_keeps hoka hpa hdi (by omega) q2'
  have hs1' : s1 = s.put i (w', a) := by
    rcases q4 with ⟨-, e⟩ | ⟨-, -, e⟩
    · simp only [step, withVar, hi, hj, hr, e, Res.map] at hs1
      rcases hs1 with e | e <;> cases e
      rfl
    · simp only [step, withVar, hi, hj, hr, e, Res.map] at hs1
      rcases hs1 with e | e <;> cases e
      rfl
  have hvi := he.vars i (by simp [Replaces]) a hi
  have hvj := he.vars j (by simp [Replaces]) b hj
  have hvi' := var_iff.1 hvi
  have hw : s1.world = w' := by rw [hs1']; rfl
  obtain ⟨C, hC, hCa⟩ := hla q o hpa
  obtain ⟨C', g1, g2, g3, g4⟩ := q3.here C hC
  have hlenC : o + a.size ≤ C.cells.length := by
    obtain ⟨t', D, x1, x2, x3, x4, x5, x6⟩ := hoka.memory q o hpa
    rw [hC] at x4; cases x4
    exact x5
  refine ⟨s1, l, hs1, by omega, ⟨a, hvi, hdi, rfl⟩, ?_, ?_, ?_, ?_⟩
  · rintro k x ⟨y, e1, e2⟩
    rw [hj] at e1; cases e1
    refine ⟨⟨b, hvj, get_effect hg he hj hvj e2 ?_ ?_⟩, fun hkl => ?_⟩
    · rw [hw]; exact q3.alive_of hlb (place_keeps hk hokb)
    · rintro z p hp ⟨a'', o', r1, r2, r3, r4⟩
      rw [hi] at r1; cases r1
      rw [hpa] at r2; cases r2
      rw [hpb] at hp; cases hp
      exact hqq rfl
    · obtain ⟨v, f1, f2⟩ := q2' k hkl
      rw [e2] at f1; cases f1
      refine ⟨us k, f2, a, hvi, ?_⟩
      refine get_written (he.good.ok i a hvi') he.good.books (own_le_owners hvi')
        ((place_keeps he.keeps hoka).trans hpa) (by omega) hdi (conv_ty f2) (by rw [hw]; exact g1)
        (g2.trans hCa) ?_
      rw [g4 (o + k) (by omega)]
      unfold span
      rw [if_pos (by omega)]
      simp
  · rintro k x hkl ⟨y, e1, e2⟩
    rw [hi] at e1; cases e1
    obtain ⟨hty, hks, -⟩ := get_ok hoka hg.books (own_le_owners hi') e2
    refine ⟨a, hvi, ?_⟩
    rw [hoka.get hg.books (own_le_owners hi') hty, if_pos hks, hpa] at e2
    rw [(he.good.ok i a hvi').get he.good.books (own_le_owners hvi') hty, if_pos hks,
      (place_keeps he.keeps hoka).trans hpa, ← e2]
    have : s1.world.read (.elem q (o + k)) = s.world.read (.elem q (o + k)) := by
      refine read_same hC (by rw [hw]; exact g1) hCa (g2.trans hCa) ?_
      rw [g4 (o + k) (by omega)]
      unfold span
      rw [if_neg (by omega)]
    simp only [this]
  · intro e
    rcases q4 with ⟨f1, f2⟩ | ⟨f1, f2, f3⟩
    · omega
    · simp only [step, withVar, hi, hj, hr, f3, Res.map] at e
      cases e
  · intro e
    rcases q4 with ⟨f1, f2⟩ | ⟨f1, ⟨v, f2, f3⟩, f4⟩
    · simp only [step, withVar, hi, hj, hr, f2, Res.map] at e
      cases e
    · exact ⟨v, ⟨b, hj, f2⟩, f3⟩

/-- Rational numbers into an array over memory of the user. -/
example : ∃ s, run exactFP (fun _ => 0) userTwo [.borrow false (.info .f64) 0 0 2, .typed .rat 2,
      .set 1 1 (.rat (1/2)), .convert .rat 0 1] = .ok s ∧ Holds s 0 1 (.f64 (.fin (1/2))) ∧
    Holds s 0 0 (.f64 (.fin 0)) := by
  refine ⟨_, rfl, ⟨_, rfl, ?_⟩, ⟨_, rfl, ?_⟩⟩ <;> decide +kernel

/-- **C119, refuted.** The number of elements copied is the size of the target: if the source is shorter,
elements are read that it does not have. -/
theorem C119_shorter_refuted : run exactFP (fun _ => 0) ⟨⟨[], []⟩, []⟩
    [.typed .f64 2, .typed .f64 1, .convert .f64 0 1] = .ub := by decide +kernel

/-- **C119, refuted.** For rational numbers a longer source is refused although for floating numbers the
target grows. -/
theorem C119_longer_refuted :
    (∃ s s', run exactFP (fun _ => 0) ⟨⟨[], []⟩, []⟩ [.typed .rat 1, .typed .rat 2] = .ok s ∧
      step exactFP (fun _ => 0) s (.convert .rat 0 1) = .raised s') ∧
    ∃ s, run exactFP (fun _ => 0) ⟨⟨[], []⟩, []⟩ [.typed .f64 1, .typed .f64 2, .convert .f64 0 1] = .ok s ∧
      Has s 0 .f64 2 := by
  exact ⟨⟨_, _, rfl, rfl⟩, _, rfl, ⟨_, rfl, rfl, rfl⟩⟩

end RoughPy.Arrays
