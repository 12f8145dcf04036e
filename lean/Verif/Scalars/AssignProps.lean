import Verif.Scalars.Values
import Verif.Scalars.Props

/-!
# C100: assignment to a scalar
-/

namespace RoughPy.Scalars

open RoughPy.Args (Out TypeInfo)
open RoughPy.Polys

theorem put_holds {s : St} {i : ℕ} {ho : Heap × Obj} (hi : i < s.vars.length) {t : Ty} {v : Val}
    (h : ho.2.Has ho.1 t v) : Holds (s.put i ho) i t v :=
  ⟨ho.2, by rw [var_put hi, if_pos rfl], h⟩

/-- **C100.** Assigning a number to a scalar that has a type: the scalar keeps its type and holds
the converted number. -/
theorem C100_number {P : FP} {s : St} (g : Good s) {i : ℕ} {t : Ty} {old v w : Val}
    (hi : Holds s i t old) (hc : ¬ IsConst s i) (hw : conv P t v = .ok w) :
    ∃ s', step P s (.set i v) = .ok s' ∧ Holds s' i t w := by
  obtain ⟨o, hv, hh⟩ := hi
  have hhas : o.Has s.heap t old := hh
  have hmc : o.mode ≠ .constRef := fun e => hc ⟨o, hv, e⟩
  have hmi := (g.objs i o hv).noIface
  obtain ⟨ho, h1, h2, _⟩ := hhas.store (conv_ty hw)
  have ha : assignVal P s.heap o v = .ok ho := by
    unfold assignVal
    rw [if_neg (by rw [hhas.notNull]; simp)]
    cases hm : o.mode with
    | iface => exact absurd hm hmi
    | constRef => exact absurd hm hmc
    | trivial => simp only [hh.1, Out.bind, hw, h1]
    | ref => simp only [hh.1, Out.bind, hw, h1]
    | owned => simp only [hh.1, Out.bind, hw, h1]
  exact ⟨s.put i ho, by simp only [step, withVar, hv, ha]; rfl, put_holds (var_lt hv) h2⟩

/-- **C100.** If the number cannot be converted, or the scalar is a constant reference, the
assignment raises and nothing changes. -/
theorem C100_number_fails {P : FP} {s : St} (g : Good s) {i : ℕ} {t : Ty} {old v : Val}
    (hi : Holds s i t old) (hw : conv P t v = .err ∨ IsConst s i) :
    step P s (.set i v) = .err := by
  obtain ⟨o, hv, hh⟩ := hi
  have hhas : o.Has s.heap t old := hh
  have hmi := (g.objs i o hv).noIface
  have ha : assignVal P s.heap o v = .err := by
    unfold assignVal
    rw [if_neg (by rw [hhas.notNull]; simp)]
    rcases hw with hw | ⟨p, hp, hm⟩
    · cases hm : o.mode with
      | iface => exact absurd hm hmi
      | constRef => rfl
      | trivial => simp only [hh.1, Out.bind, hw]
      | ref => simp only [hh.1, Out.bind, hw]
      | owned => simp only [hh.1, Out.bind, hw]
    · rw [hv] at hp; cases hp
      simp only [hm]
  simp only [step, withVar, hv, ha]; rfl

/-- **C100.** Assigning a number to an empty scalar: the scalar takes the type of the number. -/
theorem C100_number_empty {P : FP} {s : St} {i : ℕ} {o : Obj} (hv : s.var i = some o)
    (he : o.isNull = true) {n : ℤ} {b : ℕ} (hb : b = 1 ∨ b = 2 ∨ b = 4 ∨ b = 8) :
    ∃ s', step P s (.set i (.int b n)) = .ok s' ∧ Holds s' i (.int b) (.int b n) := by
  have ha : assignVal P s.heap o (.int b n) =
      .ok (s.heap, ⟨.info (.int b), .trivial, .int b n, none⟩) := by
    simp only [assignVal, he, if_true, ofVal, Val.ty]
  refine ⟨_, by simp only [step, withVar, hv, ha]; rfl, put_holds (var_lt hv) ⟨?_, ?_⟩⟩
  · simp only [Obj.info, readBack_int hb]
  · simp only [Obj.read, Out.bind]; exact as_self rfl

/-- **C100** (in part). Assigning a scalar to one that has a type and does not hold an inline zero:
it keeps its type and holds the converted value. -/
theorem C100_scalar_partial {P : FP} {s : St} (g : Good s) {i j : ℕ} (hij : i ≠ j) {t u : Ty}
    {old v w : Val} (hi : Holds s i t old) (hc : ¬ IsConst s i) (hz : old.zeroBits = false)
    (hj : Holds s j u v) (hw : conv P t v = .ok w) :
    ∃ s', step P s (.assign i j) = .ok s' ∧ Holds s' i t w := by
  obtain ⟨o, hv, hh⟩ := hi
  obtain ⟨p, hp, hhj⟩ := hj
  have hhas : o.Has s.heap t old := hh
  have hhas2 : p.Has s.heap u v := hhj
  have hmc : o.mode ≠ .constRef := fun e => hc ⟨o, hv, e⟩
  obtain ⟨ho, h1, h2, _⟩ := hhas.store (conv_ty hw)
  have ha : copyAssign P s.heap o p = .ok ho := by
    unfold copyAssign
    rw [hhas.notFast (g.objs i o hv) hz]
    simp only [Bool.false_eq_true, if_false]
    simp only [hhas.mutPointer hmc (g.objs i o hv).noIface, hh.1, Out.bind,
      convFrom_has hhas2 (info_live (g.objs j p hp) hhj.1).ne_other, hw, storeConv, h1]
  exact ⟨s.put i ho, by simp only [step, withVar, hv, hp, if_neg hij, ha]; rfl,
    put_holds (var_lt hv) h2⟩

/-- **C100.** Moving a scalar into one that has a type, also an inline zero: it keeps its type and
holds the converted value. -/
theorem C100_move {P : FP} {s : St} (g : Good s) {i j : ℕ} (hij : i ≠ j) {t u : Ty}
    {old v w : Val} (hi : Holds s i t old) (hc : ¬ IsConst s i)
    (hj : Holds s j u v) (hw : conv P t v = .ok w) :
    ∃ s', step P s (.moveAssign i j) = .ok s' ∧ Holds s' i t w := by
  obtain ⟨o, hv, hh⟩ := hi
  obtain ⟨p, hp, hhj⟩ := hj
  have hhas : o.Has s.heap t old := hh
  have hhas2 : p.Has s.heap u v := hhj
  have hmc : o.mode ≠ .constRef := fun e => hc ⟨o, hv, e⟩
  obtain ⟨ho, h1, h2, _⟩ := hhas.store (conv_ty hw)
  have ha : moveAssign P s.heap o p = .ok (ho.1, ho.2, p) := by
    unfold moveAssign
    rw [hhas.notNull]
    simp only [Bool.false_eq_true, if_false]
    simp only [hhas.mutPointer hmc (g.objs i o hv).noIface, hh.1, Out.bind,
      convFrom_has hhas2 (info_live (g.objs j p hp) hhj.1).ne_other, hw, storeConv, h1]
  refine ⟨(s.put i (ho.1, ho.2)).put j (ho.1, p),
    by simp only [step, withVar, hv, hp, if_neg hij, ha]; rfl, ho.2, ?_, h2⟩
  rw [var_put (by simp [St.put, var_lt hp]), if_neg hij, var_put (var_lt hv), if_pos rfl]

/-- **C100, refuted.** Moving into a constant reference ends the program, while assigning throws: the
exception leaves a `noexcept` function. -/
theorem C100_move_const_refuted {P : FP} {s : St} {i j : ℕ} (hij : i ≠ j) {t u : Ty} {old v : Val}
    (hi : Holds s i t old) (hc : IsConst s i) (hj : Holds s j u v) :
    step P s (.moveAssign i j) = .ub := by
  obtain ⟨o, hv, hh⟩ := hi
  obtain ⟨p, hp, hhj⟩ := hj
  obtain ⟨o', hv', hm⟩ := hc
  rw [hv] at hv'; cases hv'
  have hhas : o.Has s.heap t old := hh
  have ha : moveAssign P s.heap o p = .ub := by
    unfold moveAssign
    rw [hhas.notNull]
    simp [Obj.mutPointer, hm]
  simp only [step, withVar, hv, hp, if_neg hij, ha]
  rfl

/-- A constant reference to a `double`, and a new scalar moved or assigned into it. -/
example : ∃ s, s = (⟨[some ⟨.f64 (.fin 1), none⟩], [some ⟨.ptr .f64, .constRef, .int 8 0, some 0⟩,
      some ⟨.info .f64, .trivial, .f64 (.fin 2), none⟩]⟩ : St) ∧ IsConst s 0 ∧
    Holds s 0 .f64 (.f64 (.fin 1)) ∧ Holds s 1 .f64 (.f64 (.fin 2)) ∧
    step exactFP s (.moveAssign 0 1) = .ub ∧ step exactFP s (.assign 0 1) = .err := by
  refine ⟨_, rfl, ⟨_, rfl, rfl⟩, ⟨_, rfl, ?_, ?_⟩, ⟨_, rfl, ?_, ?_⟩, ?_, ?_⟩ <;> decide +kernel

/-- **C100.** Moving a scalar into an empty one: it takes over type and value. -/
theorem C100_move_empty {P : FP} {s : St} {i j : ℕ} (hij : i ≠ j) {o : Obj}
    (hv : s.var i = some o) (he : o.isNull = true) {t : Ty} {v : Val} (hj : Holds s j t v) :
    ∃ s', step P s (.moveAssign i j) = .ok s' ∧ Holds s' i t v := by
  obtain ⟨p, hp, hhj⟩ := hj
  have ha : moveAssign P s.heap o p = .ok (s.heap, (moveCtor p).1, (moveCtor p).2) := by
    simp only [moveAssign, he, if_true]
  refine ⟨(s.put i (s.heap, (moveCtor p).1)).put j (s.heap, (moveCtor p).2),
    by simp only [step, withVar, hv, hp, if_neg hij, ha]; rfl, p, ?_, hhj⟩
  rw [var_put (by simp [St.put, var_lt hp]), if_neg hij, var_put (var_lt hv), if_pos rfl,
    moveCtor_fst]

/-- **C100, refuted.** Assigning a scalar to one that holds a zero in its own bytes: it loses its
type and takes over type and value of the other, whatever they are. -/
theorem C100_scalar_zero {P : FP} {s : St} (g : Good s) {i j : ℕ} (hij : i ≠ j) {t u : Ty}
    {old v : Val} (hi : Holds s i t old) (hn : Inline s i) (hz : old.zeroBits = true)
    (hj : Holds s j u v) :
    ∃ s', step P s (.assign i j) = .ok s' ∧ Holds s' i u v := by
  obtain ⟨o, hv, hh⟩ := hi
  obtain ⟨p, hp, hhj⟩ := hj
  have hhas : o.Has s.heap t old := hh
  have hhas2 : p.Has s.heap u v := hhj
  obtain ⟨o', hv', hm⟩ := hn
  rw [hv] at hv'; cases hv'
  have gp := g.objs j p hp
  obtain ⟨w, hr, hw⟩ := hhas2.read
  have hinfo : ∀ x : Obj, x.ty = p.ty → x.info = .ok u := by
    intro x hx; have := hhas2.1; simpa only [Obj.info, hx] using this
  suffices hs : ∃ ho, copyAssign P s.heap o p = .ok ho ∧ ho.2.Has ho.1 u v by
    obtain ⟨ho, h1, h2⟩ := hs
    exact ⟨s.put i ho, by simp only [step, withVar, hv, hp, if_neg hij, h1]; rfl,
      put_holds (var_lt hv) h2⟩
  unfold copyAssign
  rw [hhas.fast (g.objs i o hv) hm hz]
  simp only [if_true]
  rw [hinfo { o with ty := p.ty, mode := p.mode, addr := none } rfl]
  simp only [Out.bind]
  have viaPtr : p.mode = .ref ∨ p.mode = .constRef →
      ∃ ho, copyFromOpaque P s.heap { o with ty := p.ty, mode := p.mode, addr := none } u (.ok w) =
        .ok ho ∧ ho.2.Has ho.1 u v := by
    intro hpm
    obtain ⟨t', h1, h2, h3⟩ := gp.reference hpm
    rw [hhas2.1] at h1; cases h1
    obtain ⟨ho, h4, h5, _, h6⟩ := copyFromOpaque_has (P := P) (h := s.heap)
      (o := { o with ty := p.ty, mode := p.mode, addr := none }) (t := u) (w := w)
      ⟨hinfo _ rfl, h2⟩ ⟨v, hw⟩
    exact ⟨ho, h4, hinfo _ h5, by rw [h6]; exact hw⟩
  cases hpm : p.mode with
  | iface => exact absurd hpm gp.noIface
  | trivial =>
    refine ⟨_, rfl, hinfo _ rfl, ?_⟩
    simp only [Obj.read, hpm] at hr
    cases hr
    simp only [Obj.read]; exact hw
  | ref => rw [hr]; have := viaPtr (.inl hpm); rwa [hpm] at this
  | constRef => rw [hr]; have := viaPtr (.inr hpm); rwa [hpm] at this
  | owned =>
    obtain ⟨t', hst, hty, hc⟩ := gp.owned hpm
    have htu : t' = u := by
      have := info_ptr hty; rw [hhas2.1] at this; cases this; rfl
    subst htu
    obtain ⟨a, c, ha, hcell, hcv⟩ := hhas2.addr (by simp [hpm])
    obtain ⟨c', hc1, _, hc2⟩ := hc a ha
    rw [hcell] at hc1; cases hc1
    have hrd : p.read s.heap = .ok c.val := by simp [Obj.read, hpm, ha, hcell]
    rw [as_self hc2] at hcv
    cases hcv
    have hconv : conv P t' c.val = .ok c.val := conv_same hc2 hst
    have hcl := cell_alloc s.heap t' s.heap.length
    rw [if_pos rfl] at hcl
    have hal : (s.heap.alloc t').2 = s.heap.length := rfl
    simp only [allocateData, hty, hrd, as_self hc2, hconv, storeConv, Obj.store, hal, hcl]
    refine ⟨_, rfl, ?_, ?_⟩
    · simp only [Obj.info]
    · simp only [Obj.read]
      rw [cell_write, if_pos rfl, hcl]
      exact as_self hc2

/-- **C100.** What a conversion makes of a number: a rational number or a polynomial receives
exactly what was assigned, an integer receives every integer that it can hold. -/
theorem C100_value {P : FP} {t : Ty} {v w : Val} {x : Laurent} (h : conv P t v = .ok w)
    (hv : v.Is x) :
    (t = .rat ∨ t = .poly → w.Is x) ∧
      ∀ b n, t = .int b → 1 ≤ b → x = const (n : ℤ) → wrapS b n = n → w = .int b n :=
  conv_is h hv

/-- A polynomial with an indeterminate. -/
def anIndeterminate : Poly := [(Mono.ofLetter 1 1, 1)]

/-- **C100, refuted.** A scalar of type `double` that is zero becomes rational by an assignment, and
a scalar that cannot be converted is silently not assigned: `x = 1.0; x = y` for a polynomial `y`
leaves `x`. -/
theorem C100_type_refuted :
    (∃ s', run exactFP ⟨[], []⟩ [.num (.f64 (.fin 0)), .typed .rat, .set 1 (.int 4 3), .assign 0 1] =
      .ok s' ∧ Holds s' 0 .rat (.rat 3)) ∧
    ∃ s', run exactFP ⟨[some ⟨.poly anIndeterminate, none⟩],
        [some ⟨.ptr .poly, .ref, .int 8 0, some 0⟩]⟩ [.num (.f64 (.fin 1)), .assign 1 0] = .ok s' ∧
      Holds s' 1 .f64 (.f64 (.fin 1)) := by
  constructor
  · refine ⟨⟨[some ⟨.rat 3, some .rat⟩, some ⟨.rat 3, some .rat⟩],
      [some ⟨.ptr .rat, .owned, .f64 (.fin 0), some 1⟩, some ⟨.ptr .rat, .owned, .rat 0, some 0⟩]⟩,
      by decide +kernel, _, rfl, ?_, ?_⟩ <;> decide +kernel
  · refine ⟨⟨[some ⟨.poly anIndeterminate, none⟩], [some ⟨.ptr .poly, .ref, .int 8 0, some 0⟩,
      some ⟨.info .f64, .trivial, .f64 (.fin 1), none⟩]⟩, by decide +kernel, _, rfl, ?_, ?_⟩ <;>
      decide +kernel

example : Good ⟨[some ⟨.rat 3, some .rat⟩, some ⟨.f64 (.fin 2), none⟩],
      [some ⟨.ptr .rat, .owned, .rat 0, some 0⟩, some ⟨.ptr .f64, .ref, .int 8 0, some 1⟩]⟩ ∧
    conv exactFP .f64 (.rat 3) = .ok (.f64 (.fin 3)) := by
  refine ⟨⟨fun i o h => ?_, fun i j o p a h1 h2 h3 h4 => ?_, fun a c t h1 h2 => ?_⟩, by decide +kernel⟩
  · match i, h with
    | 0, h =>
      cases h
      exact ⟨by simp, by simp, fun _ => ⟨.rat, by simp [Ty.IsScalarType], rfl, fun a ha => by
        cases ha; exact ⟨_, rfl, rfl, rfl⟩⟩, by simp⟩
    | 1, h =>
      cases h
      exact ⟨by simp, by simp, by simp, fun _ => ⟨.f64, rfl, .inl ⟨by simp [Ty.IsScalarType], rfl⟩,
        fun a ha => by cases ha; exact ⟨_, rfl, rfl, _, rfl⟩⟩⟩
    | _ + 2, h => simp [St.var] at h
  · match i, h1 with
    | 0, h1 =>
      match j, h2 with
      | 0, _ => rfl
      | 1, h2 => cases h2; simp [Obj.owns] at h4
      | _ + 2, h => simp [St.var] at h
    | 1, h1 => cases h1; simp [Obj.owns] at h3
    | _ + 2, h => simp [St.var] at h
  · match a, h1 with
    | 0, h1 => exact ⟨0, _, rfl, by simp [Obj.owns]⟩
    | 1, h1 => cases h1; cases h2
    | _ + 2, h => simp [Heap.cell] at h

end RoughPy.Scalars
