import Verif.Scalars.Arith
import Verif.Scalars.AssignProps

/-!
# C101, C102: arithmetic of scalars
-/

namespace RoughPy.Scalars

open RoughPy.Args (Out TypeInfo)
open RoughPy.Polys

theorem mode_of_notRef {s : St} (g : Good s) {i : ℕ} {o : Obj} (hi : s.var i = some o)
    (hr : ¬ IsRef s i) : o.mode = .trivial ∨ o.mode = .owned := by
  cases hm : o.mode with
  | trivial => simp
  | owned => simp
  | ref => exact absurd ⟨o, hi, .inl hm⟩ hr
  | constRef => exact absurd ⟨o, hi, .inr hm⟩ hr
  | iface => exact absurd hm (g.objs i o hi).noIface

theorem arith_has {P : FP} {op : AOp} {s : St} (g : Good s) {i j : ℕ} {t u : Ty}
    {a b a' b' r : Val} (hi : Holds s i t a) (hj : Holds s j u b) (hr : ¬ IsRef s i)
    (hz : b.zeroBits = false) (hz' : op = .mul → a.zeroBits = false)
    (ha : Operand P (t.join u) a a') (hb : Operand P (t.join u) b b')
    (hop : opVal P op (decide (i = j)) a' b' = .ok r) :
    ∃ s', step P s (.arith op i j) = .ok s' ∧ Holds s' i (t.join u) r := by
  obtain ⟨o, hv, hh⟩ := hi
  obtain ⟨p, hp, hhj⟩ := hj
  have ho : o.Has s.heap t a := hh
  have hq : p.Has s.heap u b := hhj
  obtain ⟨ho', h1, h2⟩ := inplace_has g hv hp ho hq (mode_of_notRef g hv hr) ha hb hop
  have hf := hq.notFast (g.objs j p hp) hz
  have har : arith P op s.heap o p = .ok ho' := by
    cases op with
    | add => simp only [arith, hf, Bool.not_false, if_true, h1]
    | sub => simp only [arith, hf, Bool.not_false, if_true, h1]
    | mul =>
      have hf' := ho.notFast (g.objs i o hv) (hz' rfl)
      simp only [arith, hf, hf', Bool.not_false, Bool.and_true, if_true, h1]
  exact ⟨s.put i ho', by simp only [step, withVar, hv, hp, har]; rfl, put_holds (var_lt hv) h2⟩

theorem const_op (op : AOp) (x y : ℚ) : const (op.on x y) = op.on (const x) (const y) := by
  cases op with
  | add => exact term_add 0 x y
  | sub => exact term_sub 0 x y
  | mul =>
    show term 0 (x * y) = term 0 x * term 0 y
    rw [term_mul, add_zero]

theorem operand_is {P : FP} {t : Ty} {v w : Val} {x : Laurent} (h : Operand P t v w) (hv : v.Is x)
    (ht : t = .rat ∨ t = .poly) : w.Is x := by
  rcases h with ⟨_, rfl⟩ | ⟨_, h⟩
  · exact hv
  · exact (conv_is h hv).1 ht

theorem operand_ty {P : FP} {t : Ty} {v w : Val} (h : Operand P t v w) : w.ty = t := by
  rcases h with ⟨h, rfl⟩ | ⟨_, h⟩
  · exact h
  · exact conv_ty h

theorem rank_poly {t : Ty} (ht : t.Live) (h : t.rank = 13) : t = .poly := by
  rcases ht with rfl | rfl | rfl | rfl | rfl | rfl | rfl | rfl <;> simp_all [Ty.rank]

theorem rank_le {t : Ty} (ht : t.Live) : t.rank ≤ 13 := by
  rcases ht with rfl | rfl | rfl | rfl | rfl | rfl | rfl | rfl <;> simp [Ty.rank]

/-- In a rational or polynomial calculation every operand with a meaning can be used. -/
theorem operand_exists (P : FP) {t : Ty} {v : Val} {x : Laurent} (hv : v.Is x)
    (ht : t = .rat ∧ v.ty ≠ .poly ∨ t = .poly) : ∃ w, Operand P t v w := by
  by_cases e : v.ty = t
  · exact ⟨v, .inl ⟨e, rfl⟩⟩
  · have hp : v.ty ≠ .poly := by
      rcases ht with ⟨_, h⟩ | rfl
      · exact h
      · exact e
    obtain ⟨q, _, h1, h2⟩ := hv.num (P := P) hp
    rcases ht with ⟨rfl, _⟩ | rfl
    · exact ⟨_, .inr ⟨e, h1⟩⟩
    · exact ⟨_, .inr ⟨e, h2⟩⟩

theorem opVal_is {P : FP} {op : AOp} {same : Bool} {a b : Val} {x y : Laurent} (ha : a.Is x)
    (hb : b.Is y) (ht : a.ty = .rat ∧ b.ty = .rat ∨ a.ty = .poly ∧ b.ty = .poly)
    (hs : same = true → a = b ∧ (op = .sub → a.ty ≠ .poly)) :
    ∃ r, opVal P op same a b = .ok r ∧ r.Is (op.on x y) := by
  rcases ht with ⟨h1, h2⟩ | ⟨h1, h2⟩
  · cases a with
    | rat q =>
      cases b with
      | rat q' =>
        have hx : x = const q := ha
        have hy : y = const q' := hb
        exact ⟨_, rfl, by rw [hx, hy, ← const_op]; rfl⟩
      | _ => simp [Val.ty] at h2
    | _ => simp [Val.ty] at h1
  · cases a with
    | poly p =>
      cases b with
      | poly q =>
        obtain ⟨hp, rfl⟩ := ha
        obtain ⟨hq, rfl⟩ := hb
        cases same with
        | false =>
          cases op with
          | add => exact ⟨_, rfl, (Poly.add_spec hp hq)⟩
          | sub => exact ⟨_, rfl, (Poly.sub_spec hp hq)⟩
          | mul => exact ⟨_, rfl, by rw [Poly.mulInplace_eq]; exact Poly.mul_spec hp hq⟩
        | true =>
          obtain ⟨e, h3⟩ := hs rfl
          cases e
          cases op with
          | add =>
            obtain ⟨r, h4, h5, h6⟩ := Poly.addSelf_spec hp
            exact ⟨.poly r, by simp only [opVal, if_true, h4], h5, h6⟩
          | sub => exact absurd rfl (h3 rfl)
          | mul => exact ⟨_, rfl, by rw [Poly.mulInplace_eq]; exact Poly.mul_spec hp hq⟩
      | _ => simp [Val.ty] at h2
    | _ => simp [Val.ty] at h1

/-- **C101.** `x += y`, `x -= y`, `x *= y` where one of the two is rational or polynomial: for all
numbers and polynomials that are not an inline zero, `x` afterwards has the more general of the two
types and exactly the sum, difference or product.  For polynomials `x -= x` is excepted. -/
theorem C101_exact_partial {P : FP} {op : AOp} {s : St} (g : Good s) {i j : ℕ} {t u : Ty}
    {a b : Val} {x y : Laurent} (hi : Holds s i t a) (hj : Holds s j u b) (hr : ¬ IsRef s i)
    (hz : b.zeroBits = false) (hz' : op = .mul → a.zeroBits = false)
    (ht : t.join u = .rat ∨ t.join u = .poly) (hx : a.Is x) (hy : b.Is y)
    (hself : i = j → op = .sub → t ≠ .poly) :
    ∃ s' r, step P s (.arith op i j) = .ok s' ∧ Holds s' i (t.join u) r ∧ r.Is (op.on x y) := by
  obtain ⟨o, hv, hh⟩ := hi
  obtain ⟨p, hp, hhj⟩ := hj
  have ho : o.Has s.heap t a := hh
  have hq : p.Has s.heap u b := hhj
  have lt := info_live (g.objs i o hv) ho.1
  have lu := info_live (g.objs j p hp) hq.1
  have hnp : t.join u = .rat → t ≠ .poly ∧ u ≠ .poly := by
    intro e
    unfold Ty.join at e
    split at e
    · subst e; refine ⟨by simp, fun e => ?_⟩; subst e; simp [Ty.rank] at *
    · subst e; refine ⟨fun e => ?_, by simp⟩; subst e; simp [Ty.rank] at *
  have oa : ∃ w, Operand P (t.join u) a w := operand_exists P hx (by
    rcases ht with e | e
    · exact .inl ⟨e, by rw [ho.ty]; exact (hnp e).1⟩
    · exact .inr e)
  have ob : ∃ w, Operand P (t.join u) b w := operand_exists P hy (by
    rcases ht with e | e
    · exact .inl ⟨e, by rw [hq.ty]; exact (hnp e).2⟩
    · exact .inr e)
  obtain ⟨a', ha⟩ := oa
  obtain ⟨b', hb⟩ := ob
  have hop := opVal_is (P := P) (op := op) (same := decide (i = j)) (operand_is ha hx ht)
    (operand_is hb hy ht)
    (by rw [operand_ty ha, operand_ty hb]; rcases ht with e | e <;> simp [e])
    (fun hs => by
      have hij : i = j := by simpa using hs
      subst hij
      rw [hv] at hp; cases hp
      have htu : t = u := by have := ho.1; rw [hq.1] at this; cases this; rfl
      subst htu
      have hab : a = b := by
        obtain ⟨w, h1, h2⟩ := ho.read
        obtain ⟨w', h3, h4⟩ := hq.read
        rw [h1] at h3; cases h3
        rw [h2] at h4; cases h4; rfl
      subst hab
      have hjn : t.join t = t := by simp [Ty.join]
      rw [hjn] at ha hb
      refine ⟨?_, fun hsub => ?_⟩
      · rcases ha with ⟨_, rfl⟩ | ⟨e, _⟩
        · rcases hb with ⟨_, rfl⟩ | ⟨e, _⟩
          · rfl
          · exact absurd ho.ty e
        · exact absurd ho.ty e
      · rw [operand_ty ha]; exact hself rfl hsub)
  obtain ⟨r, h1, h2⟩ := hop
  obtain ⟨s', h3, h4⟩ := arith_has g ⟨o, hv, hh⟩ ⟨p, hp, hhj⟩ hr hz hz' ha hb h1
  exact ⟨s', r, h3, h4, h2⟩

theorem wrapS_mono {b c : ℕ} (hb : 1 ≤ b) (hbc : b ≤ c) {n : ℤ} (h : wrapS b n = n) :
    wrapS c n = n := by
  unfold wrapS at *
  have e : ∀ d : ℕ, 1 ≤ d → (2 : ℤ) ^ (8 * d) = 2 * 2 ^ (8 * d - 1) := by
    intro d hd; rw [← pow_succ']; congr 1; omega
  have hle : (2 : ℤ) ^ (8 * b - 1) ≤ 2 ^ (8 * c - 1) :=
    pow_le_pow_right₀ (by norm_num) (by omega)
  have h1 := Int.emod_nonneg (n + 2 ^ (8 * b - 1)) (b := 2 ^ (8 * b)) (by positivity)
  have h2 := Int.emod_lt_of_pos (n + 2 ^ (8 * b - 1)) (b := 2 ^ (8 * b)) (by positivity)
  rw [e b hb] at h1 h2 h
  rw [e c (by omega), Int.emod_eq_of_lt (by omega) (by omega)]
  omega

theorem integer_operands {P : FP} {op : AOp} {s : St} (g : Good s) {i j b c : ℕ} {n m : ℤ}
    (hi : Holds s i (.int b) (.int b n)) (hj : Holds s j (.int c) (.int c m))
    (hn : wrapS b n = n) (hm : wrapS c m = m) (hz : m ≠ 0) (hz' : op = .mul → n ≠ 0) :
    Operand P ((Ty.int b).join (.int c)) (.int b n) (.int (max b c) n) ∧
    Operand P ((Ty.int b).join (.int c)) (.int c m) (.int (max b c) m) ∧
    (Ty.int b).join (.int c) = .int (max b c) ∧ (Val.int c m).zeroBits = false ∧
    (op = .mul → (Val.int b n).zeroBits = false) := by
  have lb : (Ty.int b).Live := by
    obtain ⟨o, hv, hh⟩ := hi; exact info_live (g.objs i o hv) hh.1
  have lc : (Ty.int c).Live := by
    obtain ⟨o, hv, hh⟩ := hj; exact info_live (g.objs j o hv) hh.1
  have hb1 : 1 ≤ b := by simp [Ty.Live] at lb; omega
  have hc1 : 1 ≤ c := by simp [Ty.Live] at lc; omega
  have hjn : (Ty.int b).join (.int c) = .int (max b c) := by
    unfold Ty.join
    by_cases h : (Ty.int c).rank ≤ (Ty.int b).rank
    · rw [if_pos h]; exact congrArg Ty.int (max_eq_left h).symm
    · rw [if_neg h]; exact congrArg Ty.int (max_eq_right (by simp only [Ty.rank] at h; omega)).symm
  have nz : ∀ {d : ℕ} {k : ℤ}, 1 ≤ d → wrapS d k = k → k ≠ 0 → (Val.int d k).zeroBits = false := by
    intro d k hd hk h0
    simp only [Val.zeroBits, beq_eq_false_iff_ne, ne_eq, ← wrapU_eq_zero hd, hk]
    exact h0
  have op1 : ∀ {d e : ℕ} {k : ℤ}, 1 ≤ d → d ≤ e → wrapS d k = k →
      Operand P (.int e) (.int d k) (.int e k) := by
    intro d e k hd hde hk
    by_cases h : d = e
    · subst h; exact .inl ⟨rfl, rfl⟩
    · exact .inr ⟨by simpa [Val.ty] using h, by simp only [conv, convNum, wrapS_mono hd hde hk]⟩
  have ha := op1 hb1 (le_max_left b c) hn
  have hb := op1 hc1 (le_max_right b c) hm
  rw [← hjn] at ha hb
  exact ⟨ha, hb, hjn, nz hc1 hm hz, fun h => nz hb1 hn (hz' h)⟩

/-- **C101.** The same for two integers: `x` afterwards has the larger of the two types and holds the
sum, difference or product, if the type can hold it. -/
theorem C101_integer {P : FP} {op : AOp} {s : St} (g : Good s) {i j b c : ℕ} {n m : ℤ}
    (hi : Holds s i (.int b) (.int b n)) (hj : Holds s j (.int c) (.int c m)) (hr : ¬ IsRef s i)
    (hn : wrapS b n = n) (hm : wrapS c m = m) (hz : m ≠ 0) (hz' : op = .mul → n ≠ 0)
    (hfit : wrapS (max b c) (op.on n m) = op.on n m) :
    ∃ s', step P s (.arith op i j) = .ok s' ∧
      Holds s' i (.int (max b c)) (.int (max b c) (op.on n m)) := by
  obtain ⟨ha, hb, hjn, h1, h2⟩ := integer_operands (P := P) (op := op) g hi hj hn hm hz hz'
  obtain ⟨s', h3, h4⟩ := arith_has (P := P) (op := op) (r := .int (max b c) (op.on n m)) g hi hj hr
    h1 h2 ha hb (by
      simp only [opVal, hfit]
      simp)
  rw [hjn] at h4
  exact ⟨s', h3, h4⟩

/-- **C101.** Two integers of less than four bytes: a result that the larger of the two types cannot
hold wraps around. -/
theorem C101_narrow {P : FP} {op : AOp} {s : St} (g : Good s) {i j b c : ℕ} {n m : ℤ}
    (hi : Holds s i (.int b) (.int b n)) (hj : Holds s j (.int c) (.int c m)) (hr : ¬ IsRef s i)
    (hn : wrapS b n = n) (hm : wrapS c m = m) (hz : m ≠ 0) (hz' : op = .mul → n ≠ 0)
    (hb4 : b < 4) (hc4 : c < 4) :
    ∃ s', step P s (.arith op i j) = .ok s' ∧
      Holds s' i (.int (max b c)) (.int (max b c) (wrapS (max b c) (op.on n m))) := by
  obtain ⟨ha, hb, hjn, h1, h2⟩ := integer_operands (P := P) (op := op) g hi hj hn hm hz hz'
  obtain ⟨s', h3, h4⟩ := arith_has (P := P) (op := op)
    (r := .int (max b c) (wrapS (max b c) (op.on n m))) g hi hj hr h1 h2 ha hb (by
      simp only [opVal]
      rw [if_neg (by omega)])
  rw [hjn] at h4
  exact ⟨s', h3, h4⟩

/-- **C101, refuted.** Adding two four byte integers is undefined if the type cannot hold the sum. -/
theorem C101_overflow_refuted :
    run exactFP ⟨[], []⟩ [.num (.int 4 (2 ^ 31 - 1)), .num (.int 4 1), .arith .add 0 1] = .ub := by
  decide +kernel

/-- Three times 100 in one byte: 100 + 100 wraps around to -56, -56 + 100 is 44. -/
example : ∃ s', run exactFP ⟨[], []⟩
      [.num (.int 1 100), .num (.int 1 100), .arith .add 0 1, .arith .add 0 1] = .ok s' ∧
    Holds s' 0 (.int 1) (.int 1 44) := by
  refine ⟨⟨[], [some ⟨.info (.int 1), .trivial, .int 1 44, none⟩,
    some ⟨.info (.int 1), .trivial, .int 1 100, none⟩]⟩, by decide +kernel, _, rfl, ?_, ?_⟩ <;>
    decide +kernel

/-- **C101.** The same for two floating numbers of one type, and for an integer and a floating
number: the calculation is the machine's in the floating type. -/
theorem C101_floating {P : FP} {op : AOp} {s : St} (g : Good s) {i j : ℕ} {x y : Fl}
    (hr : ¬ IsRef s i) (hz : y ≠ .fin 0) (hz' : op = .mul → x ≠ .fin 0) :
    (Holds s i .f64 (.f64 x) → Holds s j .f64 (.f64 y) →
      ∃ s', step P s (.arith op i j) = .ok s' ∧ Holds s' i .f64 (.f64 (P.arith true op x y))) ∧
    (Holds s i .f32 (.f32 x) → Holds s j .f32 (.f32 y) →
      ∃ s', step P s (.arith op i j) = .ok s' ∧ Holds s' i .f32 (.f32 (P.arith false op x y))) ∧
    (Holds s i .f64 (.f64 x) → Holds s j .f32 (.f32 y) →
      ∃ s', step P s (.arith op i j) = .ok s' ∧ Holds s' i .f64 (.f64 (P.arith true op x y))) ∧
    (Holds s i .f32 (.f32 x) → Holds s j .f64 (.f64 y) →
      ∃ s', step P s (.arith op i j) = .ok s' ∧ Holds s' i .f64 (.f64 (P.arith true op x y))) := by
  have zb : ∀ {z : Fl}, z ≠ .fin 0 → (Val.f64 z).zeroBits = false ∧ (Val.f32 z).zeroBits = false := by
    intro z hz; simp [Val.zeroBits, hz]
  refine ⟨fun hi hj => ?_, fun hi hj => ?_, fun hi hj => ?_, fun hi hj => ?_⟩
  · exact arith_has g hi hj hr (zb hz).1 (fun h => (zb (hz' h)).1) (.inl ⟨rfl, rfl⟩) (.inl ⟨rfl, rfl⟩) rfl
  · exact arith_has g hi hj hr (zb hz).2 (fun h => (zb (hz' h)).2) (.inl ⟨rfl, rfl⟩) (.inl ⟨rfl, rfl⟩) rfl
  · exact arith_has g hi hj hr (zb hz).2 (fun h => (zb (hz' h)).1) (.inl ⟨rfl, rfl⟩)
      (.inr ⟨by simp [Val.ty, Ty.join, Ty.rank], rfl⟩) rfl
  · exact arith_has g hi hj hr (zb hz).1 (fun h => (zb (hz' h)).2) (.inr ⟨by simp [Val.ty, Ty.join, Ty.rank], rfl⟩)
      (.inl ⟨rfl, rfl⟩) rfl

/-- **C101.** An integer and a floating number: the integer is rounded to the floating type. -/
theorem C101_mixed {P : FP} {op : AOp} {s : St} (g : Good s) {i j b : ℕ} {n : ℤ} {y : Fl}
    (hr : ¬ IsRef s i) (hz : y ≠ .fin 0) (hz' : op = .mul → (Val.int b n).zeroBits = false)
    (hi : Holds s i (.int b) (.int b n)) :
    (Holds s j .f64 (.f64 y) →
      ∃ s', step P s (.arith op i j) = .ok s' ∧
        Holds s' i .f64 (.f64 (P.arith true op (P.rnd true n) y))) ∧
    (Holds s j .f32 (.f32 y) →
      ∃ s', step P s (.arith op i j) = .ok s' ∧
        Holds s' i .f32 (.f32 (P.arith false op (P.rnd false n) y))) := by
  have lb : (Ty.int b).Live := by
    obtain ⟨o, hv, hh⟩ := hi; exact info_live (g.objs i o hv) hh.1
  have hb8 : b ≤ 8 := by simp [Ty.Live] at lb; omega
  have j1 : (Ty.int b).join .f64 = .f64 := by
    unfold Ty.join; rw [if_neg (by simp only [Ty.rank]; omega)]
  have j2 : (Ty.int b).join .f32 = .f32 := by
    unfold Ty.join; rw [if_neg (by simp only [Ty.rank]; omega)]
  refine ⟨fun hj => ?_, fun hj => ?_⟩
  · have := arith_has (P := P) (op := op) (a' := .f64 (P.rnd true n)) (b' := .f64 y)
      (r := .f64 (P.arith true op (P.rnd true n) y)) g hi hj hr (by simp [Val.zeroBits, hz]) hz'
      (by rw [j1]; exact .inr ⟨by simp [Val.ty], rfl⟩) (by rw [j1]; exact .inl ⟨rfl, rfl⟩) rfl
    rw [j1] at this; exact this
  · have := arith_has (P := P) (op := op) (a' := .f32 (P.rnd false n)) (b' := .f32 y)
      (r := .f32 (P.arith false op (P.rnd false n) y)) g hi hj hr (by simp [Val.zeroBits, hz]) hz'
      (by rw [j2]; exact .inr ⟨by simp [Val.ty], rfl⟩) (by rw [j2]; exact .inl ⟨rfl, rfl⟩) rfl
    rw [j2] at this; exact this

/-- **C101.** An inline zero on the right: `x += 0` and `x -= 0` leave `x`; `x *= 0` makes `x` the
zero of its own type.  The same product results if `x` is an inline zero. -/
theorem C101_zero {P : FP} {s : St} (g : Good s) {i j : ℕ} {t u : Ty} {a b : Val}
    (hi : Holds s i t a) (hj : Holds s j u b) :
    (Inline s j → b.zeroBits = true →
      step P s (.arith .add i j) = .ok s ∧ step P s (.arith .sub i j) = .ok s) ∧
    ((Inline s j ∧ b.zeroBits = true) ∨ (Inline s i ∧ a.zeroBits = true) → ¬ IsConst s i →
      ∀ w, conv P t (.int 4 0) = .ok w →
        ∃ s', step P s (.arith .mul i j) = .ok s' ∧ Holds s' i t w) := by
  obtain ⟨o, hv, hh⟩ := hi
  obtain ⟨p, hp, hhj⟩ := hj
  have ho : o.Has s.heap t a := hh
  have hq : p.Has s.heap u b := hhj
  have fast : ∀ {k : ℕ} {z : Obj} {t' : Ty} {v : Val}, s.var k = some z → z.Has s.heap t' v →
      Inline s k → v.zeroBits = true → z.fastIsZero = true := by
    rintro k z t' v hk hz ⟨z', hk', hm⟩ hb
    rw [hk] at hk'; cases hk'
    exact hz.fast (g.objs k z hk) hm hb
  have hput : s.put i (s.heap, o) = s := put_self hv rfl
  refine ⟨fun hn hb => ?_, fun hz hc w hw => ?_⟩
  · have hf := fast hp hq hn hb
    constructor
    · simp only [step, withVar, hv, hp, arith, hf, Bool.not_true, Bool.false_eq_true, if_false]
      exact congrArg Out.ok hput
    · simp only [step, withVar, hv, hp, arith, hf, Bool.not_true, Bool.false_eq_true, if_false]
      exact congrArg Out.ok hput
  · have hcond : (!o.fastIsZero && !p.fastIsZero) = false := by
      rcases hz with ⟨hn, hb⟩ | ⟨hn, hb⟩
      · rw [fast hp hq hn hb]; simp
      · rw [fast hv ho hn hb]; simp
    obtain ⟨s', h1, h2⟩ := C100_number (P := P) g ⟨o, hv, hh⟩ hc hw
    refine ⟨s', ?_, h2⟩
    rw [← h1]
    simp only [step, withVar, hv, hp, arith, hcond, Bool.false_eq_true, if_false]

/-- The cells that existed before are not touched by a copy. -/
theorem copyCtor_cells {P : FP} {h : Heap} {o : Obj} (g : o.Good h) {ho : Heap × Obj}
    (hc : copyCtor P h o = .ok ho) {a : ℕ} (ha : a < h.length) : ho.1.cell a = h.cell a := by
  have viaAlloc : ∀ {o' : Obj} {r : Out Val} {hp hq : Heap × Obj}, allocateData h o' = .ok hp →
      storeConv hp.1 hp.2 r = .ok hq → hq.1.cell a = h.cell a := by
    intro o' r hp hq h1 h2
    unfold allocateData at h1
    cases hty : o'.ty with
    | null => simp [hty] at h1
    | info t => simp only [hty] at h1; split at h1 <;> cases h1
    | ptr t =>
      simp only [hty] at h1
      cases h1
      unfold storeConv at h2
      cases r with
      | ub => simp at h2
      | err => cases h2; simp only; rw [cell_alloc, if_neg (by omega)]
      | ok v =>
        simp only at h2
        rw [store_other h2 (b := a), cell_alloc, if_neg (by omega)]
        intro _ e
        have : (h.alloc t).2 = h.length := rfl
        simp only [this] at e
        cases e; omega
  have viaOpaque : ∀ {o' : Obj} {t : Ty} {src : Out Val} {hq : Heap × Obj},
      copyFromOpaque P h o' t src = .ok hq → hq.1.cell a = h.cell a := by
    intro o' t src hq h1
    unfold copyFromOpaque at h1
    simp only at h1
    obtain ⟨dst, _, h1⟩ := bind_ok h1
    split at h1
    · obtain ⟨v, _, h1⟩ := bind_ok h1
      split at h1
      · cases h1; rfl
      · split at h1 <;> cases h1 <;> rfl
    · obtain ⟨hp, h2, h3⟩ := bind_ok h1
      exact viaAlloc h2 h3
  unfold copyCtor at hc
  split at hc
  · cases hc; rfl
  · obtain ⟨t, _, hc⟩ := bind_ok hc
    split at hc
    · cases hc; rfl
    · exact viaOpaque hc
    · exact viaOpaque hc
    · exact viaOpaque hc
    · obtain ⟨hp, h2, h3⟩ := bind_ok hc
      exact viaAlloc h2 h3

/-- **C101.** `z = x + y`, `x - y`, `x * y`: whenever the calculation is possible, the new scalar
holds what the in place operation on a copy of `x` would, also if `x` or `y` is a reference or the
two are one scalar, and `x` and `y` are as before. -/
theorem C101_binary {P : FP} {op : AOp} {s : St} (g : Good s) {i j : ℕ} {t u : Ty}
    {a b a' b' r : Val} (hi : Holds s i t a) (hj : Holds s j u b)
    (hz : b.zeroBits = false) (hz' : op = .mul → a.zeroBits = false)
    (ha : Operand P (t.join u) a a') (hb : Operand P (t.join u) b b')
    (hop : opVal P op false a' b' = .ok r) :
    ∃ s' o p, s.var i = some o ∧ s.var j = some p ∧
      (binary P op s.heap o p).map s.push = .ok s' ∧
      run P s [.copy i, .arith op s.vars.length j] = .ok s' ∧
      Holds s' s.vars.length (t.join u) r ∧
      ∀ k, k < s.vars.length → ¬ IsRef s k → ∀ t v, Holds s k t v → Holds s' k t v := by
  obtain ⟨s1, h1, g1, h2, h3⟩ := C99_copy (P := P) g hi
  obtain ⟨p, hp, hhj⟩ := hj
  have hjn : j ≠ s.vars.length := Nat.ne_of_lt (var_lt hp)
  have hj1 : Holds s1 j u b := by
    have hq : p.Has s.heap u b := hhj
    have h1' := h1
    obtain ⟨o, hv, h4⟩ := withVar_ok h1'
    obtain ⟨ho, h5, h6⟩ := map_ok h4
    subst h6
    refine ⟨p, by rw [var_push, if_neg hjn, hp], ?_⟩
    exact hq.move (fun a0 hm hadr => copyCtor_cells (g.objs i o hv) h5 (hq.addr_lt hm hadr))
  obtain ⟨s2, h4, h5⟩ := arith_has g1 h2 hj1 h3 hz hz' ha hb
    (by rw [decide_eq_false (fun e => hjn e.symm)]; exact hop)
  have hrun : run P s [.copy i, .arith op s.vars.length j] = .ok s2 := by
    simp only [run, h1, h4]
  obtain ⟨o, hv, h6⟩ := withVar_ok h1
  obtain ⟨ho, h7, h8⟩ := map_ok h6
  have hbin : (binary P op s.heap o p).map s.push = .ok s2 := by
    obtain ⟨o', hv', h9⟩ := withVar_ok h4
    obtain ⟨p', hp', h10⟩ := withVar_ok h9
    subst h8
    have e1 : o' = ho.2 := by
      rw [var_push, if_pos rfl] at hv'
      exact (Option.some.inj hv').symm
    have e2 : p' = p := by
      rw [var_push, if_neg hjn, hp] at hp'
      exact (Option.some.inj hp').symm
    subst e1 e2
    obtain ⟨hr, h11, h12⟩ := map_ok h10
    subst h12
    unfold binary
    rw [h7]
    show (arith P op ho.1 ho.2 p').map s.push = _
    have h11' : arith P op ho.1 ho.2 p' = .ok hr := h11
    rw [h11']
    show Out.ok (s.push hr) = Out.ok ((s.push ho).put s.vars.length hr)
    simp [St.push, St.put]
  refine ⟨s2, o, p, hv, hp, hbin, hrun, h5, fun k hk hkr t' v hkv => ?_⟩
  refine C99_history _ g (by simp [Stmt.Valid]) hrun (fun c hc => ?_) hkr hkv
  simp only [List.mem_cons, List.not_mem_nil, or_false] at hc
  rcases hc with rfl | rfl
  · simp [Stmt.target]
  · simp [Stmt.target]; omega

/-- **C101, refuted.** In place arithmetic on a reference to an element of another type is
undefined, and so is `p -= p` for a polynomial. -/
theorem C101_undefined_refuted :
    run exactFP ⟨[some ⟨.f64 (.fin 1), none⟩], [some ⟨.ptr .f64, .ref, .int 8 0, some 0⟩]⟩
      [.num (.int 4 1), .arith .add 0 1] = .ub ∧
    run exactFP ⟨[some ⟨.poly anIndeterminate, none⟩], [some ⟨.ptr .poly, .ref, .int 8 0, some 0⟩]⟩
      [.copy 0, .arith .sub 1 1] = .ub := by
  constructor <;> decide +kernel

/-- **C101, refuted.** Adding a number of a more general type that is an inline zero does not give
the more general type. -/
theorem C101_zero_type_refuted :
    ∃ s', run exactFP ⟨[], []⟩ [.num (.int 4 1), .num (.f64 (.fin 0)), .arith .add 0 1] = .ok s' ∧
      Holds s' 0 (.int 4) (.int 4 1) := by
  refine ⟨⟨[], [some ⟨.info (.int 4), .trivial, .int 4 1, none⟩,
    some ⟨.info .f64, .trivial, .f64 (.fin 0), none⟩]⟩, by decide +kernel, _, rfl, ?_, ?_⟩ <;>
    decide +kernel

/-! ## C102: negation -/

theorem zero_as {t u : Ty} (ht : t.Live) {v : Val} (h : (Val.zero t).as u = .ok v) :
    v = Val.zero v.ty := by
  unfold Val.as at h
  by_cases e : (Val.zero t).ty = u
  · rw [if_pos e] at h; cases h
    cases t <;> rfl
  · rw [if_neg e] at h
    rcases ht with rfl | rfl | rfl | rfl | rfl | rfl | rfl | rfl <;> simp only [Val.zero] at h
    all_goals (cases u <;> simp only [reduceCtorEq] at h)
    all_goals (split at h <;> cases h; simp [Val.ty, Val.zero, wrapU])

/-- **C102, refuted.** `-x` is never the negative of a scalar that is not zero: it is empty, or a
zero. -/
theorem C102_negation_refuted {P : FP} {s s' : St} (g : Good s) {i : ℕ}
    (h : step P s (.neg i) = .ok s') {t : Ty} {v : Val} (hv : Holds s' s.vars.length t v) :
    v = Val.zero v.ty := by
  obtain ⟨o, hvar, h⟩ := withVar_ok h
  obtain ⟨ho, h1, h2⟩ := map_ok h
  subst h2
  obtain ⟨z, hz, hh⟩ := hv
  have hzv : z = ho.2 := by
    rw [var_push, if_pos rfl] at hz; cases hz; rfl
  subst hzv
  have hhas : ho.2.Has ho.1 t v := hh
  have viaAlloc : ∀ {s' : Ty}, allocateData s.heap ⟨.ptr s', .owned, Val.zero s', none⟩ = .ok ho →
      v = Val.zero v.ty := by
    intro s' he
    simp only [allocateData] at he
    cases he
    obtain ⟨w, h3, h4⟩ := hhas.read
    have hal : (s.heap.alloc s').2 = s.heap.length := rfl
    simp only [Obj.read, hal] at h3
    rw [cell_alloc, if_pos rfl] at h3
    cases h3
    have hts : s' = t := by have := hhas.1; simp only [Obj.info] at this; cases this; rfl
    subst hts
    unfold Val.as at h4
    cases s' <;> simp [Val.zero, Val.ty] at h4 <;> subst h4 <;> rfl
  unfold neg at h1
  obtain ⟨t', hi, h1⟩ := bind_ok h1
  split at h1
  · cases h1
    have := hhas.1; simp [Obj.info, Obj.empty] at this
  · split at h1
    · cases h1
      obtain ⟨w, h3, h4⟩ := hhas.read
      simp only [Obj.read] at h3
      cases h3
      exact zero_as (info_live (g.objs i o hvar) hi) h4
    · cases h1
    · unfold negAlloc at h1
      split at h1
      · exact viaAlloc h1
      · split at h1
        · cases h1
        · cases h1
        · cases h1
        · exact viaAlloc h1

end RoughPy.Scalars
