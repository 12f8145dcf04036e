import Verif.Scalars.EqSpec
import Verif.Scalars.Arith

/-!
# Lemmas on the comparison of scalars
-/

namespace RoughPy.Scalars

open RoughPy.Args (Out TypeInfo)
open RoughPy.Polys

theorem const_iff (a b : ℚ) : const a = const b ↔ a = b := ⟨const_inj, fun h => by rw [h]⟩

theorem ofScalar_proper (c : ℚ) : (Poly.ofScalar c).Proper := by
  intro e he
  unfold Poly.ofScalar at he
  split at he
  · simp at he; subst he; intro x hx; simp [Mono.one] at hx
  · cases he

/-- A polynomial stands for a number only in the form that the library gives the number. -/
theorem val_const {p : Poly} (hp : p.WF) (pp : p.Proper) (c : ℚ) :
    p.val = const c ↔ p = Poly.ofScalar c := by
  have h := Poly.ofScalar_spec c
  constructor
  · intro e
    exact Poly.val_inj hp h.1 pp (ofScalar_proper c) (by rw [e, h.2])
  · rintro rfl; exact h.2

theorem zeroBits_zero {v : Val} {x : Laurent} (hl : v.ty.Live) (hv : v.Is x)
    (hz : v.zeroBits = true) : x = const 0 := by
  cases v with
  | int b n =>
    obtain ⟨h1, rfl⟩ := hv
    have hb : 1 ≤ b := by simp [Val.ty, Ty.Live] at hl; omega
    simp only [Val.zeroBits, beq_iff_eq, ← wrapU_eq_zero hb, h1] at hz
    rw [hz]; simp
  | uint b n => simp [Val.ty, Ty.Live] at hl
  | f32 y => simp [Val.zeroBits] at hz; subst hz; exact hv
  | f64 y => simp [Val.zeroBits] at hz; subst hz; exact hv
  | rat q => simp [Val.zeroBits] at hz
  | poly p => simp [Val.zeroBits] at hz

theorem zero_zeroBits {v : Val} (hf : v.ty.fundamental = true) (hn : ¬ v.NegZero)
    (hv : v.Is (const 0)) : v.zeroBits = true := by
  cases v with
  | int b n =>
    obtain ⟨_, h⟩ := hv
    have : (n : ℚ) = 0 := (const_inj h).symm
    have : n = 0 := by exact_mod_cast this
    subst this; simp [Val.zeroBits, wrapU]
  | uint b n =>
    obtain ⟨_, h⟩ := hv
    have : (n : ℚ) = 0 := (const_inj h).symm
    have : n = 0 := by exact_mod_cast this
    subst this; simp [Val.zeroBits, wrapU]
  | f32 y =>
    cases y with
    | fin q => have : 0 = q := const_inj hv; subst this; simp [Val.zeroBits]
    | negZero => exact absurd (.inl rfl) hn
    | inf _ => exact hv.elim
    | nan => exact hv.elim
  | f64 y =>
    cases y with
    | fin q => have : 0 = q := const_inj hv; subst this; simp [Val.zeroBits]
    | negZero => exact absurd (.inr rfl) hn
    | inf _ => exact hv.elim
    | nan => exact hv.elim
  | rat q => simp [Val.ty, Ty.fundamental] at hf
  | poly p => simp [Val.ty, Ty.fundamental] at hf

theorem isZero_iff {v : Val} {x : Laurent} (hv : v.Is x) (hp : v.Proper) :
    v.isZero = true ↔ x = const 0 := by
  cases v with
  | int b n => obtain ⟨_, rfl⟩ := hv; simp [Val.isZero, const_iff]
  | uint b n => obtain ⟨_, rfl⟩ := hv; simp [Val.isZero, const_iff]
  | f32 y =>
    cases y with
    | fin q => have h : x = const q := hv; subst h; simp [Val.isZero, const_iff]
    | negZero => have h : x = const 0 := hv; simp [Val.isZero, h]
    | inf _ => exact hv.elim
    | nan => exact hv.elim
  | f64 y =>
    cases y with
    | fin q => have h : x = const q := hv; subst h; simp [Val.isZero, const_iff]
    | negZero => have h : x = const 0 := hv; simp [Val.isZero, h]
    | inf _ => exact hv.elim
    | nan => exact hv.elim
  | rat q => have h : x = const q := hv; subst h; simp [Val.isZero, const_iff]
  | poly p =>
    obtain ⟨hw, rfl⟩ := hv
    rw [val_const hw hp]
    simp [Val.isZero, Poly.ofScalar]

theorem eqRat_iff {v : Val} {x : Laurent} (hv : v.Is x) (hp : v.ty ≠ .poly) (r : ℚ) :
    ∃ e, eqRat v r = .ok e ∧ (e = true ↔ x = const r) := by
  cases v with
  | int b n => obtain ⟨_, rfl⟩ := hv; exact ⟨_, rfl, by simp [const_iff]⟩
  | uint b n => obtain ⟨_, rfl⟩ := hv; exact ⟨_, rfl, by simp [const_iff]⟩
  | f32 y =>
    cases y with
    | fin q => have h : x = const q := hv; subst h; exact ⟨_, rfl, by simp [const_iff]⟩
    | negZero => have h : x = const 0 := hv; subst h; exact ⟨_, rfl, by simp [const_iff]⟩
    | inf _ => exact hv.elim
    | nan => exact hv.elim
  | f64 y =>
    cases y with
    | fin q => have h : x = const q := hv; subst h; exact ⟨_, rfl, by simp [const_iff]⟩
    | negZero => have h : x = const 0 := hv; subst h; exact ⟨_, rfl, by simp [const_iff]⟩
    | inf _ => exact hv.elim
    | nan => exact hv.elim
  | rat q => have h : x = const q := hv; subst h; exact ⟨_, rfl, by simp [const_iff]⟩
  | poly p => simp [Val.ty] at hp

theorem eqPoly_iff {v : Val} {x : Laurent} (P : FP) (hv : v.Is x) (hp : v.ty ≠ .poly) {p : Poly}
    (hw : p.WF) (pp : p.Proper) : ∃ e, eqPoly v p = .ok e ∧ (e = true ↔ x = p.val) := by
  obtain ⟨q, hx, -, -⟩ := hv.num (P := P) hp
  have hpr : v.Proper := by cases v <;> simp_all [Val.Proper, Val.ty]
  have key : x = p.val ↔ p = Poly.ofScalar q := by
    rw [← val_const hw pp, hx]; exact eq_comm
  unfold eqPoly
  split
  · refine ⟨_, rfl, ?_⟩
    rw [isZero_iff hv hpr, hx, Poly.val_nil]
    simp [const, term_zero]
  · next m c =>
    split
    · next hm =>
      obtain ⟨e, h1, h2⟩ := eqRat_iff hv hp c
      refine ⟨e, h1, h2.trans ?_⟩
      rw [Poly.val_cons, Poly.val_nil, add_zero, hm, exps_one]; rfl
    · next hm =>
      refine ⟨false, rfl, ?_⟩
      rw [key]
      unfold Poly.ofScalar
      split <;> simp [hm]
  · next h1 h2 =>
    refine ⟨false, rfl, ?_⟩
    rw [key]
    simp only [Bool.false_eq_true, false_iff]
    rintro rfl
    unfold Poly.ofScalar at h1 h2
    by_cases h0 : q = 0
    · simp [h0] at h1
    · simp [h0] at h2

theorem flEq_iff {a b : Fl} {x y : Laurent} (ha : (Val.f64 a).Is x) (hb : (Val.f64 b).Is y) :
    Fl.eq a b = true ↔ x = y := by
  have key : ∀ {a : Fl} {x : Laurent}, (Val.f64 a).Is x →
      (∃ q, a = .fin q ∧ x = const q) ∨ (a = .negZero ∧ x = const 0) := by
    intro a x h
    cases a with
    | fin q => exact .inl ⟨q, rfl, h⟩
    | negZero => exact .inr ⟨rfl, h⟩
    | inf _ => exact h.elim
    | nan => exact h.elim
  rcases key ha with ⟨q, rfl, rfl⟩ | ⟨rfl, rfl⟩ <;> rcases key hb with ⟨r, rfl, rfl⟩ | ⟨rfl, rfl⟩
  · simp [Fl.eq, const_iff]
  · simp [Fl.eq, const_iff]
  · simp only [Fl.eq, const_iff, beq_iff_eq]; exact eq_comm
  · simp [Fl.eq]

theorem toRat_is {a : Fl} {x : Laurent} (ha : (Val.f64 a).Is x) :
    ∃ q, a.toRat = .ok q ∧ x = const q := by
  cases a with
  | fin q => exact ⟨q, rfl, ha⟩
  | negZero => exact ⟨0, rfl, ha⟩
  | inf _ => exact ha.elim
  | nan => exact ha.elim

theorem f32_is {a : Fl} {x : Laurent} (h : (Val.f32 a).Is x) : (Val.f64 a).Is x := by
  cases a <;> exact h

theorem eqIntFl_iff {P : FP} (hP : P.Exact) {b : ℕ} {n : ℤ} {double : Bool} {a : Fl}
    {y : Laurent} (hs : if double then |n| < 2 ^ 53 else |n| < 2 ^ 24) (ha : (Val.f64 a).Is y) :
    eqIntFl P b n double a = true ↔ const (n : ℚ) = y := by
  have hr : P.rnd double n = .fin n := by
    cases double with
    | false => exact (hP n).1 (by simpa using hs)
    | true => exact (hP n).2 (by simpa using hs)
  have hm : n ≤ uniqueMax double ∧ -uniqueMax double ≤ n := by
    cases double with
    | false => simp only [Bool.false_eq_true, if_false, abs_lt] at hs; simp only [uniqueMax]; simp; omega
    | true => simp only [if_true, abs_lt] at hs; simp only [uniqueMax]; simp; omega
  unfold eqIntFl
  have h := flEq_iff (a := .fin n) (b := a) (x := const n) rfl ha
  rw [hr, decide_eq_true hm, Bool.true_and, ite_self]
  exact h

/-- The comparison of two values decides whether they stand for the same. -/
theorem eqVal_iff {P : FP} (hP : P.Exact) {a b : Val} {x y : Laurent} (ha : a.Is x) (hb : b.Is y)
    (pa : a.Proper) (pb : b.Proper) (la : a.ty.Live) (lb : b.ty.Live) (hs : Small a b) :
    ∃ r, eqVal P a b = .ok r ∧ (r = true ↔ x = y) := by
  cases a with
  | uint b n => simp [Val.ty, Ty.Live] at la
  | poly p =>
    obtain ⟨wp, rfl⟩ := ha
    cases b with
    | poly q =>
      obtain ⟨wq, rfl⟩ := hb
      refine ⟨_, rfl, ?_⟩
      rw [Poly.beq_iff wp wq]
      exact ⟨fun h => by rw [h], Poly.val_inj wp wq pa pb⟩
    | uint b n => simp [Val.ty, Ty.Live] at lb
    | int _ _ =>
      obtain ⟨e, h1, h2⟩ := eqPoly_iff P hb (by simp [Val.ty]) wp pa
      exact ⟨e, h1, h2.trans eq_comm⟩
    | f32 _ =>
      obtain ⟨e, h1, h2⟩ := eqPoly_iff P hb (by simp [Val.ty]) wp pa
      exact ⟨e, h1, h2.trans eq_comm⟩
    | f64 _ =>
      obtain ⟨e, h1, h2⟩ := eqPoly_iff P hb (by simp [Val.ty]) wp pa
      exact ⟨e, h1, h2.trans eq_comm⟩
    | rat _ =>
      obtain ⟨e, h1, h2⟩ := eqPoly_iff P hb (by simp [Val.ty]) wp pa
      exact ⟨e, h1, h2.trans eq_comm⟩
  | int c n =>
    cases b with
    | poly q => obtain ⟨wq, rfl⟩ := hb; exact eqPoly_iff P ha (by simp [Val.ty]) wq pb
    | uint b n => simp [Val.ty, Ty.Live] at lb
    | int d m =>
      obtain ⟨_, rfl⟩ := ha
      obtain ⟨_, rfl⟩ := hb
      exact ⟨_, rfl, by simp [const_iff]⟩
    | f32 z =>
      obtain ⟨_, rfl⟩ := ha
      exact ⟨_, rfl, eqIntFl_iff hP (by simpa [Small] using hs) (f32_is hb)⟩
    | f64 z =>
      obtain ⟨_, rfl⟩ := ha
      exact ⟨_, rfl, eqIntFl_iff hP (by simpa [Small] using hs) hb⟩
    | rat r =>
      have h : y = const r := hb
      subst h
      exact eqRat_iff ha (by simp [Val.ty]) r
  | rat q =>
    have h : x = const q := ha
    subst h
    cases b with
    | poly q => obtain ⟨wq, rfl⟩ := hb; exact eqPoly_iff P ha (by simp [Val.ty]) wq pb
    | uint b n => simp [Val.ty, Ty.Live] at lb
    | rat r => have h : y = const r := hb; subst h; exact eqRat_iff ha (by simp [Val.ty]) r
    | int d m =>
      obtain ⟨e, h1, h2⟩ := eqRat_iff hb (by simp [Val.ty]) q
      exact ⟨e, h1, h2.trans eq_comm⟩
    | f32 z =>
      obtain ⟨e, h1, h2⟩ := eqRat_iff hb (by simp [Val.ty]) q
      exact ⟨e, h1, h2.trans eq_comm⟩
    | f64 z =>
      obtain ⟨e, h1, h2⟩ := eqRat_iff hb (by simp [Val.ty]) q
      exact ⟨e, h1, h2.trans eq_comm⟩
  | f32 z =>
    cases b with
    | poly q => obtain ⟨wq, rfl⟩ := hb; exact eqPoly_iff P ha (by simp [Val.ty]) wq pb
    | uint b n => simp [Val.ty, Ty.Live] at lb
    | rat r => have h : y = const r := hb; subst h; exact eqRat_iff ha (by simp [Val.ty]) r
    | int d m =>
      obtain ⟨_, rfl⟩ := hb
      exact ⟨_, rfl, (eqIntFl_iff hP (by simpa [Small] using hs) (f32_is ha)).trans eq_comm⟩
    | f32 w => exact ⟨_, rfl, flEq_iff (f32_is ha) (f32_is hb)⟩
    | f64 w =>
      obtain ⟨q, h1, rfl⟩ := toRat_is (f32_is ha)
      obtain ⟨r, h2, rfl⟩ := toRat_is hb
      exact ⟨decide (q = r), by simp only [eqVal, h1, h2, Out.bind], by simp [const_iff]⟩
  | f64 z =>
    cases b with
    | poly q => obtain ⟨wq, rfl⟩ := hb; exact eqPoly_iff P ha (by simp [Val.ty]) wq pb
    | uint b n => simp [Val.ty, Ty.Live] at lb
    | rat r => have h : y = const r := hb; subst h; exact eqRat_iff ha (by simp [Val.ty]) r
    | int d m =>
      obtain ⟨_, rfl⟩ := hb
      exact ⟨_, rfl, (eqIntFl_iff hP (by simpa [Small] using hs) ha).trans eq_comm⟩
    | f64 w => exact ⟨_, rfl, flEq_iff ha hb⟩
    | f32 w =>
      obtain ⟨q, h1, rfl⟩ := toRat_is ha
      obtain ⟨r, h2, rfl⟩ := toRat_is (f32_is hb)
      exact ⟨decide (q = r), by simp only [eqVal, h1, h2, Out.bind], by simp [const_iff]⟩

/-- A scalar whose word is zero holds an inline zero. -/
theorem Obj.Has.fast_inv {h : Heap} {o : Obj} {t : Ty} {v : Val} (g : o.Good h) (hh : o.Has h t v)
    (hf : o.fastIsZero = true) : v.zeroBits = true := by
  cases hz : v.zeroBits with
  | true => rfl
  | false => rw [hh.notFast g hz] at hf; cases hf

/-- `is_zero` decides whether the value is zero. -/
theorem isZero_has {h : Heap} {o : Obj} {t : Ty} {v : Val} {x : Laurent} (g : o.Good h)
    (hh : o.Has h t v) (hv : v.Is x) (hp : v.Proper) (hn : ¬ v.NegZero) :
    ∃ r, isZero h o = .ok r ∧ (r = true ↔ x = const 0) := by
  have lt := info_live g hh.1
  have ht := hh.ty
  unfold isZero
  by_cases hf : o.fastIsZero = true
  · rw [if_pos hf]
    exact ⟨true, rfl, by simp [zeroBits_zero (by rw [ht]; exact lt) hv (hh.fast_inv g hf)]⟩
  · rw [if_neg hf]
    obtain ⟨w, h1, h2⟩ := hh.read
    by_cases hm : o.mode = .trivial
    · simp only [hm]
      refine ⟨_, rfl, ?_⟩
      simp only [Obj.read, hm] at h1
      cases h1
      rw [← as_zeroBits (info_real g hh.1) h2]
      constructor
      · exact zeroBits_zero (by rw [ht]; exact lt) hv
      · rintro rfl
        refine zero_zeroBits ?_ hn hv
        rw [ht]
        rcases g.inline hm with h3 | ⟨_, t', h3, h4, _⟩
        · have := hh.notNull; simp [Obj.isNull, h3, hm] at this
        · rw [hh.1] at h3; cases h3; exact h4
    · refine ⟨v.isZero, ?_, isZero_iff hv hp⟩
      cases hmode : o.mode with
      | trivial => exact absurd hmode hm
      | _ => simp only [hh.1, Out.bind, if_neg lt.ne_other, h1, h2]

end RoughPy.Scalars
