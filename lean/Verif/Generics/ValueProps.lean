import Verif.Generics.Machine

/-!
# C150: arithmetic and comparison of values whose type is known at run time
-/

namespace RoughPy.Generics

/-- the number an operand refers to -/
def Src.num (E : Env) (s : Src) : Num := readAs E s.ty s.word

/-- all bytes of the object an operand refers to can be read -/
def Src.Whole (s : Src) : Prop := s.ty.size ≤ s.len

theorem size_le (t : Ty) : t.size ≤ 8 := by cases t <;> decide

theorem val_whole (v : Val) : v.src.Whole := size_le v.ty

theorem bytesOf_lt {E : Env} (hE : E.Ieee) {t : Ty} {v : Num} (h : InType t v) :
    bytesOf E t v < 2 ^ (8 * t.size) := by
  cases v with
  | int n =>
    have hp : (0:ℤ) < 2 ^ (8 * t.size) := by positivity
    have h1 := Int.emod_lt_of_pos n hp
    have h2 := Int.emod_nonneg n hp.ne'
    have : ((n % 2 ^ (8 * t.size)).toNat : ℤ) < ((2 ^ (8 * t.size) : ℕ) : ℤ) := by
      push_cast; omega
    exact_mod_cast this
  | flt x => exact hE.enc_lt t x h

theorem wrap_mod (t : Ty) (n : ℤ) : wrap t (n % 2 ^ (8 * t.size)) = wrap t n := by
  unfold wrap
  rw [Int.emod_emod_of_dvd _ dvd_rfl]

theorem readAs_low (E : Env) (t : Ty) (w : ℕ) : readAs E t (w % 2 ^ (8 * t.size)) = readAs E t w := by
  unfold readAs
  rw [Nat.mod_mod]
  have : wrap t ((w % 2 ^ (8 * t.size) : ℕ) : ℤ) = wrap t w := by
    rw [← wrap_mod t w]; push_cast; rfl
  rw [this]

theorem low_put (h b k : ℕ) (hb : b < 2 ^ k) : (h * 2 ^ k + b) % 2 ^ k = b := by
  rw [Nat.add_comm, Nat.add_mul_mod_self_right, Nat.mod_eq_of_lt hb]

theorem readAs_put {E : Env} (hE : E.Ieee) {t : Ty} (w : ℕ) {v : Num} (h : InType t v) :
    readAs E t (putAs E t w v) = v := by
  rw [← readAs_low, putAs, low_put _ _ _ (bytesOf_lt hE h)]
  cases v with
  | int n =>
    have ht : t.isInt = true := h.1
    unfold readAs
    rw [if_pos ht]
    have hp : (0:ℤ) < 2 ^ (8 * t.size) := by positivity
    have : ((bytesOf E t (.int n) : ℕ) : ℤ) = n % 2 ^ (8 * t.size) := by
      rw [bytesOf, Int.toNat_of_nonneg (Int.emod_nonneg n hp.ne')]
    rw [this, wrap_mod, wrap_id h]
  | flt x =>
    have ht : t.isInt = false := by
      cases x with
      | fin q => exact h.1
      | inf b => exact h
      | nan => exact h
    have hlt := hE.enc_lt t x h
    simp only [readAs, ht, bytesOf, Bool.false_eq_true, if_false, Nat.mod_eq_of_lt hlt, hE.dec_enc t x h]

theorem readAs_int {E : Env} {t : Ty} (ht : t.isInt = true) (w : ℕ) : ∃ n, readAs E t w = .int n ∧ IntIn t n :=
  ⟨wrap t w, by simp [readAs, ht], wrap_in _ ht⟩

/-- C150: a value made from a number holds that number. -/
theorem C150_of {E : Env} (hE : E.Ieee) {t : Ty} {v : Num} (h : InType t v) : (Val.of E t v).num E = v :=
  readAs_put hE 0 h

example : (Val.of machine .i16 (.int (-300))).num machine = .int (-300) :=
  C150_of machine_ieee (show IntIn .i16 _ by unfold IntIn; decide)

/-- C150, the part that holds: a value that is assigned something of its own type then holds the number it
was assigned (missing: other types, see `C150_assign_refuted`). -/
theorem C150_assign_partial (E : Env) (v : Val) (s : Src) (hs : s.Whole) (ht : v.ty = s.ty) :
    ∃ w, assign E v s = .ok w ∧ w.ty = v.ty ∧ w.num E = s.num E := by
  unfold assign
  rw [if_pos ht, if_neg (not_lt.2 hs)]
  refine ⟨_, rfl, rfl, ?_⟩
  unfold Val.num Src.num
  dsimp only
  rw [← readAs_low, low_put _ _ _ (Nat.mod_lt _ (by positivity)), readAs_low, ht]

/-- C150, the part that holds: the same for a value that is moved. -/
theorem C150_move_partial (E : Env) (v o : Val) (ht : v.ty = o.ty) :
    ∃ w, moveAssign v o = .ok w ∧ w.ty = v.ty ∧ w.num E = o.num E := by
  unfold moveAssign
  rw [if_pos ht]
  exact ⟨_, rfl, rfl, by simp [Val.num, ht]⟩

theorem arithAt_int {E : Env} (hE : E.Ieee) {t : Ty} (ht : t.isInt = true) (o : Op) (l : ℕ) (r : Src)
    (hr : t.size ≤ r.len) {x y z : ℤ} (hx : readAs E t l = .int x) (hy : readAs E t r.word = .int y)
    (hz : intOp t o x y = some z) (hin : IntIn t z) :
    ∃ w, arithAt E t o l r = .ok w ∧ readAs E t w = .int z := by
  unfold arithAt
  rw [if_neg (not_lt.2 hr), hx, hy]
  simp only [arith, hz, Option.elim, Res.bind]
  exact ⟨_, rfl, readAs_put hE l hin⟩

theorem intOp_fits {t : Ty} {o : Op} {x y r : ℤ} (he : exactOp o x y = some r) (hr : IntIn t r) :
    intOp t o x y = some r := by
  unfold intOp
  rw [he]
  have h1 : ¬ ((promoted t).isSigned = true ∧ ¬ ((promoted t).lo ≤ r ∧ r ≤ (promoted t).hi)) := by
    rintro ⟨_, h⟩
    apply h
    obtain ⟨h0, h1, h2⟩ := hr
    cases t <;> simp [Ty.isInt] at h0 <;>
      simp [promoted, Ty.size, Ty.lo, Ty.hi, Ty.digits, Ty.isSigned] at h1 h2 ⊢ <;> omega
  simp only [Option.bind_some, if_neg h1, wrap_id hr]

theorem inplace_same (E : Env) (o : Op) (l : Val) (r : Src) (ht : l.ty = r.ty) :
    inplace E o l r = (arithAt E l.ty o l.word r).bind fun w => .ok ⟨l.ty, w⟩ := by
  unfold inplace
  by_cases ho : o = .div
  · rw [if_pos ho, divideInplace, if_pos ht.symm, ho]
  · rw [if_neg ho, arithInplace, if_pos ht]

/-- the operations with assignment on an integer type, when the operation has an outcome -/
theorem inplace_int {E : Env} (hE : E.Ieee) (o : Op) (l : Val) (r : Src) (ht : l.ty = r.ty)
    (hi : l.ty.isInt = true) (hw : r.Whole) {x y z : ℤ} (hx : l.num E = .int x) (hy : r.num E = .int y)
    (hz : intOp l.ty o x y = some z) (hin : IntIn l.ty z) :
    ∃ w, inplace E o l r = .ok w ∧ w.ty = l.ty ∧ w.num E = .int z := by
  rw [inplace_same E o l r ht]
  obtain ⟨w, h1, h2⟩ := arithAt_int hE hi o l.word r (by rw [ht]; exact hw) hx
    (by rw [ht]; exact hy) hz hin
  exact ⟨⟨l.ty, w⟩, by rw [h1]; rfl, rfl, h2⟩

/-- C150, the part that holds: on two operands of the same integer type the operations `+`, `-`, `*`, `/`
give a value of that type with the sum, difference, product or quotient (truncated) if that fits, and the
operations with assignment leave it in the left operand.  (Missing: operands of different types, see
`C150_promotion_refuted`, `C150_divide_refuted`.) -/
theorem C150_integers_partial {E : Env} (hE : E.Ieee) (o : Op) (l : Val) (r : Src) (ht : l.ty = r.ty) (hw : r.Whole)
    {x y z : ℤ} (hx : l.num E = .int x) (hy : r.num E = .int y) (hz : exactOp o x y = some z)
    (hin : IntIn l.ty z) :
    (∃ w, binary E o l.src r = .ok w ∧ w.ty = l.ty ∧ w.num E = .int z) ∧
      (∃ w, inplace E o l r = .ok w ∧ w.ty = l.ty ∧ w.num E = .int z) ∧
      ∃ w, opAssign E o l r = .ok w ∧ w.ty = l.ty ∧ w.num E = .int z := by
  have hop := intOp_fits hz hin
  have h2 := inplace_int hE o l r ht hin.1 hw hx hy hop hin
  refine ⟨?_, h2, ?_⟩
  · obtain ⟨v, a1, a2, a3⟩ := C150_assign_partial E (Val.zero l.ty) l.src (val_whole l) rfl
    unfold binary
    have hp : promotion l.src.ty r.ty = some l.ty := by
      unfold promotion
      rw [if_pos (show l.src.ty = r.ty from ht)]
      rfl
    rw [hp]
    simp only
    rw [a1]
    have a2' : v.ty = l.ty := a2
    obtain ⟨w, b1, b2, b3⟩ := inplace_int hE o v r (a2'.trans ht) (by rw [a2']; exact hin.1) hw
      (x := x) (y := y) (z := z) (a3.trans hx) hy (by rw [a2']; exact hop) (by rw [a2']; exact hin)
    exact ⟨w, b1, b2.trans a2', b3⟩
  · unfold opAssign
    rw [if_pos ht]
    exact h2

example : ∃ w, binary machine .div (Val.of machine .i8 (.int (-7))).src (Val.of machine .i8 (.int 2)).src = .ok w ∧
    w.ty = .i8 ∧ w.num machine = .int (-3) :=
  (C150_integers_partial machine_ieee .div (Val.of machine .i8 (.int (-7))) (Val.of machine .i8 (.int 2)).src rfl
    (val_whole _) (C150_of machine_ieee (show IntIn .i8 _ by unfold IntIn; decide))
    (C150_of machine_ieee (show IntIn .i8 _ by unfold IntIn; decide)) rfl
    (show IntIn .i8 _ by unfold IntIn; decide)).1

/-- C150: on an unsigned type the sum, difference and product are taken modulo its range; the products of
`uint16` are the exception (see `C150_u16_refuted`). -/
theorem C150_modulo_partial {E : Env} (hE : E.Ieee) (o : Op) (l : Val) (r : Src) (ht : l.ty = r.ty) (hw : r.Whole)
    (hu : l.ty.isSigned = false) (hno : ¬ (l.ty = .u16 ∧ o = .mul)) {x y z : ℤ} (hx : l.num E = .int x)
    (hy : r.num E = .int y) (ho : o ≠ .div) (hz : exactOp o x y = some z) :
    ∃ w m, inplace E o l r = .ok w ∧ w.ty = l.ty ∧ w.num E = .int m ∧ IntIn l.ty m ∧
      (2 ^ (8 * l.ty.size) : ℤ) ∣ m - z := by
  have hi : l.ty.isInt = true := by revert hu; cases l.ty <;> simp [Ty.isSigned, Ty.isInt]
  have hxin : IntIn l.ty x := by
    obtain ⟨n, h1, h2⟩ := readAs_int (E := E) hi l.word
    have : readAs E l.ty l.word = .int x := hx
    rw [h1] at this; cases this; exact h2
  have hyin : IntIn l.ty y := by
    obtain ⟨n, h1, h2⟩ := readAs_int (E := E) hi r.word
    have : readAs E r.ty r.word = .int y := hy
    rw [← ht, h1] at this; cases this; exact h2
  have hop : intOp l.ty o x y = some (wrap l.ty z) := by
    unfold intOp
    rw [hz]
    simp only [Option.bind_some]
    rw [if_neg]
    rintro ⟨h1, h2⟩
    apply h2
    obtain ⟨_, a1, a2⟩ := hxin
    obtain ⟨_, b1, b2⟩ := hyin
    revert hu hno h1 a1 a2 b1 b2 hz ho
    cases l.ty <;> simp [Ty.isSigned, promoted, Ty.size] <;> cases o <;>
      simp [exactOp, Ty.lo, Ty.hi, Ty.digits, Ty.isSigned, Ty.size] <;> intros <;> subst_vars <;>
      first
        | omega
        | (constructor <;> nlinarith)
  obtain ⟨w, h1, h2, h3⟩ := inplace_int hE o l r ht hi hw hx hy hop (wrap_in z hi)
  refine ⟨w, _, h1, h2, h3, wrap_in z hi, ?_⟩
  unfold wrap
  dsimp only
  rw [hu]
  have := Int.emod_add_mul_ediv z (2 ^ (8 * l.ty.size))
  simp only [Bool.false_and, Bool.false_eq_true, if_false]
  exact ⟨-(z / 2 ^ (8 * l.ty.size)), by linarith⟩

example : ∃ w m, inplace machine .sub (Val.of machine .u8 (.int 3)) (Val.of machine .u8 (.int 5)).src = .ok w ∧
    w.ty = .u8 ∧ w.num machine = .int m ∧ IntIn .u8 m ∧ (2 ^ 8 : ℤ) ∣ m - (-2) :=
  C150_modulo_partial machine_ieee .sub (Val.of machine .u8 (.int 3)) (Val.of machine .u8 (.int 5)).src rfl
    (val_whole _) rfl (by decide) (C150_of machine_ieee (show IntIn .u8 _ by unfold IntIn; decide))
    (C150_of machine_ieee (show IntIn .u8 _ by unfold IntIn; decide)) (by decide) rfl

/-- C150, the part that holds: on two operands of the same floating-point type the operations are those of
the machine. -/
theorem C150_floats_partial {E : Env} (hE : E.Ieee) (o : Op) (l : Val) (r : Src) (ht : l.ty = r.ty) (hw : r.Whole)
    (hf : l.ty.isInt = false) {x y : Flt} (hx : l.num E = .flt x) (hy : r.num E = .flt y) :
    (∃ w, binary E o l.src r = .ok w ∧ w.ty = l.ty ∧ w.num E = .flt (E.op o l.ty x y)) ∧
      ∃ w, opAssign E o l r = .ok w ∧ w.ty = l.ty ∧ w.num E = .flt (E.op o l.ty x y) := by
  have hin : ∀ v : Val, v.ty = l.ty → v.num E = .flt x →
      ∃ w, inplace E o v r = .ok w ∧ w.ty = l.ty ∧ w.num E = .flt (E.op o l.ty x y) := by
    intro v h1 h2
    rw [inplace_same E o v r (h1.trans ht)]
    unfold arithAt
    have h3 : readAs E l.ty v.word = .flt x := by rw [← h1]; exact h2
    have h4 : readAs E l.ty r.word = .flt y := by rw [ht]; exact hy
    rw [h1, if_neg (not_lt.2 (by rw [ht]; exact hw)), h3, h4]
    exact ⟨_, rfl, rfl, readAs_put hE v.word (v := .flt _) (hE.op o l.ty x y hf)⟩
  refine ⟨?_, ?_⟩
  · obtain ⟨v, a1, a2, a3⟩ := C150_assign_partial E (Val.zero l.ty) l.src (val_whole l) rfl
    unfold binary
    have hp : promotion l.src.ty r.ty = some l.ty := by
      unfold promotion
      rw [if_pos (show l.src.ty = r.ty from ht)]
      rfl
    rw [hp]
    simp only
    rw [a1]
    exact hin v a2 (a3.trans hx)
  · unfold opAssign
    rw [if_pos ht]
    exact hin l rfl hx

example : ∃ w, opAssign machine .add (Val.of machine .f32 (.flt (.fin (1 / 2))))
    (Val.of machine .f32 (.flt (.fin (1 / 4)))).src = .ok w ∧ w.ty = .f32 ∧
    w.num machine = .flt (.fin (3 / 4)) := by
  have h1 : FltIn .f32 (.fin (1 / 2)) := ⟨rfl, 1, -1, by decide, by decide, by decide, by norm_num⟩
  have h2 : FltIn .f32 (.fin (1 / 4)) := ⟨rfl, 1, -2, by decide, by decide, by decide, by norm_num⟩
  have h3 : Rep .f32 (1 / 2 + 1 / 4) := ⟨3, -2, by decide, by decide, by decide, by norm_num⟩
  have hop : machine.op .add .f32 (.fin (1 / 2)) (.fin (1 / 4)) = .fin (3 / 4) := by
    have h4 : machine.op .add .f32 (.fin (1 / 2)) (.fin (1 / 4)) = .fin (1 / 2 + 1 / 4) := if_pos h3
    rw [h4]; norm_num
  have h := (C150_floats_partial machine_ieee .add (Val.of machine .f32 (.flt (.fin (1 / 2))))
    (Val.of machine .f32 (.flt (.fin (1 / 4)))).src rfl (val_whole _) rfl
    (C150_of machine_ieee (v := .flt _) h1) (C150_of machine_ieee (v := .flt _) h2)).2
  have e : (Val.of machine .f32 (.flt (.fin (1 / 2)))).ty = .f32 := rfl
  rw [e, hop] at h
  exact h

/-- the relation of a comparison -/
def Cmp.Holds {α : Type} [LE α] [LT α] : Cmp → α → α → Prop
  | .eq, x, y => x = y
  | .lt, x, y => x < y
  | .le, x, y => x ≤ y
  | .gt, x, y => y < x
  | .ge, x, y => y ≤ x

/-- C150, the part that holds: two operands of the same type compare as their numbers do. -/
theorem C150_compare_partial (E : Env) (c : Cmp) (l r : Src) (ht : l.ty = r.ty) (hl : l.Whole) (hr : r.Whole) :
    (∀ x y : ℤ, l.num E = .int x → r.num E = .int y → ∃ b, compare E c l r = .ok b ∧ (b = true ↔ c.Holds x y)) ∧
      (∀ x y : ℚ, l.num E = .flt (.fin x) → r.num E = .flt (.fin y) →
        ∃ b, compare E c l r = .ok b ∧ (b = true ↔ c.Holds x y)) ∧
      ∀ x y : Flt, l.num E = .flt x → r.num E = .flt y → x = .nan ∨ y = .nan → compare E c l r = .ok false := by
  have hc : compare E c l r = cmpNum c (l.num E) (r.num E) := by
    unfold compare
    rw [if_pos ht, compareAt, if_neg (by
      rintro (h | h)
      · exact absurd h (not_lt.2 hl)
      · rw [ht] at h; exact absurd h (not_lt.2 hr))]
    unfold Src.num
    rw [ht]
  refine ⟨?_, ?_, ?_⟩
  · intro x y hx hy
    refine ⟨cmpInt c x y, by rw [hc, hx, hy]; rfl, ?_⟩
    cases c <;> simp [cmpInt, Cmp.Holds]
  · intro x y hx hy
    refine ⟨cmpFlt c (.fin x) (.fin y), by rw [hc, hx, hy]; rfl, ?_⟩
    have hlt : ∀ p q : ℚ, fltLt (.fin p) (.fin q) = true ↔ p < q := fun p q => by
      unfold fltLt Flt.rank
      rw [Bool.or_eq_true, Bool.and_eq_true, decide_eq_true_iff, decide_eq_true_iff, decide_eq_true_iff]
      simp
    have hn : ∀ p : ℚ, Flt.fin p ≠ .nan := fun p => by simp
    cases c with
    | eq => simp [cmpFlt, Cmp.Holds]
    | lt => simp only [cmpFlt, hn, or_self, if_false, hlt, Cmp.Holds]
    | le => simp only [cmpFlt, hn, or_self, if_false, hlt, Cmp.Holds, Bool.or_eq_true, decide_eq_true_eq,
        Flt.fin.injEq, le_iff_lt_or_eq]
    | gt => simp only [cmpFlt, hn, or_self, if_false, hlt, Cmp.Holds]
    | ge =>
      simp only [cmpFlt, hn, or_self, if_false, hlt, Cmp.Holds, Bool.or_eq_true, decide_eq_true_eq,
        Flt.fin.injEq]
      rw [le_iff_lt_or_eq, @eq_comm _ y x]
  · intro x y hx hy hn
    rw [hc, hx, hy]
    simp [cmpNum, cmpFlt, hn]

/-- where a floating-point number that is no NaN is: among the rationals, below or above all of them -/
def Flt.place : Flt → Option (WithBot (WithTop ℚ))
  | .fin q => some (q : WithTop ℚ)
  | .inf true => some ⊥
  | .inf false => some ⊤
  | .nan => none

/-- C150, the part that holds: two floating-point operands of the same type, which may be infinite,
compare as their places do. -/
theorem C150_infinite_partial (E : Env) (c : Cmp) (l r : Src) (ht : l.ty = r.ty) (hl : l.Whole) (hr : r.Whole)
    (x y : Flt) (hx : l.num E = .flt x) (hy : r.num E = .flt y) (p q : WithBot (WithTop ℚ))
    (hp : x.place = some p) (hq : y.place = some q) :
    ∃ b, compare E c l r = .ok b ∧ (b = true ↔ c.Holds p q) := by
  have hc : compare E c l r = cmpNum c (l.num E) (r.num E) := by
    unfold compare
    rw [if_pos ht, compareAt, if_neg (by
      rintro (h | h)
      · exact absurd h (not_lt.2 hl)
      · rw [ht] at h; exact absurd h (not_lt.2 hr))]
    unfold Src.num
    rw [ht]
  refine ⟨cmpFlt c x y, by rw [hc, hx, hy]; rfl, ?_⟩
  have hlt : ∀ (x y : Flt) (p q : WithBot (WithTop ℚ)), x.place = some p → y.place = some q →
      (fltLt x y = true ↔ p < q) ∧ (x = y ↔ p = q) := by
    intro x y p q hp hq
    rcases x with a | (_ | _) | _ <;> rcases y with b | (_ | _) | _ <;>
      simp only [Flt.place, Option.some.injEq, reduceCtorEq] at hp hq <;> subst hp <;> subst hq <;>
      constructor <;> simp [fltLt, Flt.rank]
    · exact decide_eq_true_iff
    · exact WithBot.coe_lt_coe.2 (WithTop.coe_lt_top a)
  have hx' : x ≠ .nan := by rintro rfl; cases hp
  have hy' : y ≠ .nan := by rintro rfl; cases hq
  obtain ⟨h1, h2⟩ := hlt x y p q hp hq
  obtain ⟨h3, -⟩ := hlt y x q p hq hp
  cases c with
  | eq => simp only [cmpFlt, hx', hy', or_self, if_false, decide_eq_true_eq, Cmp.Holds, h2]
  | lt => simp only [cmpFlt, hx', hy', or_self, if_false, Cmp.Holds, h1]
  | le => simp only [cmpFlt, hx', hy', or_self, if_false, Cmp.Holds, Bool.or_eq_true, decide_eq_true_eq, h1, h2,
      le_iff_lt_or_eq]
  | gt => simp only [cmpFlt, hx', hy', or_self, if_false, Cmp.Holds, h3]
  | ge =>
    simp only [cmpFlt, hx', hy', or_self, if_false, Cmp.Holds, Bool.or_eq_true, decide_eq_true_eq, h3, h2]
    rw [le_iff_lt_or_eq, @eq_comm _ q p]

/-- Minus infinity is less than a half. -/
example : ∃ b, compare machine .lt (Val.of machine .f32 (.flt (.inf true))).src
    (Val.of machine .f32 (.flt (.fin (1 / 2)))).src = .ok b ∧
    (b = true ↔ (⊥ : WithBot (WithTop ℚ)) < ((1 / 2 : ℚ) : WithTop ℚ)) := by
  have h1 : FltIn .f32 (.fin (1 / 2)) := ⟨rfl, 1, -1, by decide, by decide, by decide, by norm_num⟩
  have h2 : FltIn .f32 (.inf true) := rfl
  exact C150_infinite_partial machine .lt (Val.of machine .f32 (.flt (.inf true))).src
    (Val.of machine .f32 (.flt (.fin (1 / 2)))).src rfl (val_whole _) (val_whole _) (.inf true) (.fin (1 / 2))
    (C150_of machine_ieee (t := .f32) (v := .flt (.inf true)) h2)
    (C150_of machine_ieee (t := .f32) (v := .flt (.fin (1 / 2))) h1) _ _ rfl rfl

example : ∃ b, compare machine .lt (Val.of machine .i64 (.int (-1))).src (Val.of machine .i64 (.int 1)).src = .ok b ∧
    (b = true ↔ (-1 : ℤ) < 1) :=
  (C150_compare_partial machine .lt (Val.of machine .i64 (.int (-1))).src (Val.of machine .i64 (.int 1)).src rfl
    (val_whole _) (val_whole _)).1 (-1) 1
    (C150_of machine_ieee (t := .i64) (v := .int (-1)) (show IntIn .i64 (-1) by unfold IntIn; decide))
    (C150_of machine_ieee (t := .i64) (v := .int 1) (show IntIn .i64 1 by unfold IntIn; decide))

/-- C150, the part that holds: no operation with assignment of a value accepts an operand of another
type. -/
theorem C150_assignment_throws (E : Env) (o : Op) (l : Val) (r : Src) (h : l.ty ≠ r.ty) :
    opAssign E o l r = .throws := if_neg h

/-- C150: operands of a signed and an unsigned integer type are refused, whatever the numbers are. -/
theorem C150_signs_throw (E : Env) (o : Op) (c : Cmp) (l r : Src) (hl : l.ty.isInt = true) (hr : r.ty.isInt = true)
    (h : l.ty.isSigned ≠ r.ty.isSigned) : binary E o l r = .throws ∧ compare E c l r = .throws := by
  have hp : promotion l.ty r.ty = none := by
    revert hl hr h
    cases l.ty <;> cases r.ty <;> decide
  refine ⟨by simp only [binary, hp], ?_⟩
  unfold compare
  rw [if_neg (fun he => h (by rw [he])), hp]

/-! ## The full claim is false -/

/-- an environment in which nothing can be said of floating-point numbers -/
def blank : Env := ⟨fun _ _ => .nan, fun _ _ _ _ => .nan, fun _ _ => 0, fun _ _ => .nan, fun _ _ => 0⟩

/-- C150 is false as stated: an `int32` that is assigned a value with the `int8` -1 holds 255. -/
theorem C150_assign_refuted : (Val.of blank .i8 (.int (-1))).num blank = .int (-1) ∧
    (assign blank (Val.zero .i32) (Val.of blank .i8 (.int (-1))).src).bind (fun v => .ok (v.num blank)) =
      .ok (.int 255) := by decide +kernel

/-- C150 is false as stated: an `int32` that is assigned an `int8` which is not in a value reads beyond its
end. -/
theorem C150_bounds_refuted (E : Env) (v : Val) (w : ℕ) (hv : v.ty = .i32) :
    assign E v ⟨.i8, w, 1⟩ = .undefined := by
  obtain ⟨t, x⟩ := v
  cases hv
  rfl

/-- C150 is false as stated: a value that is moved to one of another type is not moved at all. -/
theorem C150_move_refuted (v o : Val) (h : v.ty ≠ o.ty) : moveAssign v o = .ok v := by
  unfold moveAssign
  rw [if_neg h]
  have : ∃ c, convertFrom v.ty o.ty = some c := by
    cases v.ty <;> cases o.ty <;> exact ⟨_, rfl⟩
  obtain ⟨c, hc⟩ := this
  rw [hc]

/-- C150 is false as stated: the sum of the `int64` 300000 and the `int16` 1 is the `int16` -27679. -/
theorem C150_promotion_refuted :
    (binary blank .add (Val.of blank .i64 (.int 300000)).src (Val.of blank .i16 (.int 1)).src).bind
      (fun v => .ok (v.ty, v.num blank)) = .ok (.i16, .int (-27679)) := by decide +kernel

/-- C150 is false as stated: the `int16` 44 equals the `int64` 65580. -/
theorem C150_equal_refuted :
    compare blank .eq (Val.of blank .i16 (.int 44)).src (Val.of blank .i64 (.int 65580)).src = .ok true := by
  decide +kernel

/-- C150 is false as stated: to divide an `int64` in place by an `int32` that is positive leaves it as it
is. -/
theorem C150_divide_refuted (E : Env) (l : Val) (n : ℕ) (hl : l.ty = .i64) (hn : 0 < n) (hn' : n < 2 ^ 31) :
    inplace E .div l (Val.of E .i32 (.int n)).src = .ok l := by
  obtain ⟨t, x⟩ := l
  cases hl
  have e1 : ((n : ℤ) % 4294967296).toNat = n := by omega
  have e2 : (Val.of E .i32 (.int n)).src = ⟨.i32, n, 8⟩ := by
    simp only [Val.of, Val.src, putAs, bytesOf, Ty.size]
    norm_num [e1]
  have w64 : ∀ m : ℕ, m < 2 ^ 31 → wrap .i64 (m : ℤ) = m := fun m hm =>
    wrap_id ⟨rfl, by simp only [Ty.lo, Ty.isSigned, Ty.digits, Ty.size, if_true]; omega,
      by simp only [Ty.hi, Ty.isSigned, Ty.digits, Ty.size, if_true]; norm_num; omega⟩
  have w32 : wrap .i32 (n : ℤ) = n :=
    wrap_id ⟨rfl, by simp only [Ty.lo, Ty.isSigned, Ty.digits, Ty.size, if_true]; omega,
      by simp only [Ty.hi, Ty.isSigned, Ty.digits, Ty.size, if_true]; norm_num; omega⟩
  have ha : assign E (Val.zero .i64) ⟨.i32, n, 8⟩ = .ok ⟨.i64, n⟩ := by
    unfold assign Val.zero
    rw [if_neg (by simp)]
    have hc : convertFrom .i64 .i32 = some ⟨.i64, .i32, .i64, .i32⟩ := rfl
    dsimp only
    rw [hc]
    dsimp only
    unfold unsafeConvert
    simp only [Ty.size, readAs, Ty.isInt, if_true, w64 n hn', convert, intToInt, Bool.and_false, Bool.false_and,
      Bool.false_eq_true, if_false, w32, putAs, bytesOf]
    norm_num [e1, Res.bind]
  rw [e2]
  unfold inplace
  rw [if_pos rfl]
  unfold divideInplace
  dsimp only
  rw [if_neg (by simp), ha]
  have hd : ∃ w, arithAt E .i64 .div n (Val.src ⟨.i64, n⟩) = .ok w := by
    unfold arithAt Val.src
    have hq : intOp .i64 .div n n = some 1 := by
      refine intOp_fits (o := .div) ?_ (by unfold IntIn; decide)
      have h0 : (n : ℤ) ≠ 0 := by omega
      simp only [exactOp, if_neg h0, Int.tdiv_self h0]
    simp only [readAs, Ty.isInt, if_true, w64 n hn', arith, hq, Option.elim, Res.bind, Ty.size]
    norm_num
  obtain ⟨w, hw⟩ := hd
  simp only [Res.bind, hw]

/-- C150 is false as stated: the sum of the `int8` 5 and a `double` is that of 0 and the `double`. -/
theorem C150_mixed_refuted (E : Env) (hd : E.dec .f64 = ieeeDec .f64) (r : Src) (hr : r.ty = .f64) :
    binary E .add (Val.of E .i8 (.int 5)).src r = binary E .add (Val.zero .f64).src r := by
  obtain ⟨q, e5, h5⟩ : ∃ q, ieeeDec .f64 5 = .fin q ∧ trunc q = 0 := ⟨5 / 2 ^ 1074, by decide +kernel, by decide +kernel⟩
  have ha : assign E (Val.zero .f64) (Val.of E .i8 (.int 5)).src = .ok (Val.zero .f64) := by
    have e2 : (Val.of E .i8 (.int 5)).src = ⟨.i8, 5, 8⟩ := rfl
    have hc : convertFrom .f64 .i8 = some ⟨.f64, .i8, .f64, .i8⟩ := rfl
    have hr : readAs E .f64 5 = .flt (.fin q) := by
      simp only [readAs, Ty.isInt, Bool.false_eq_true, if_false, hd, Ty.size]
      norm_num [e5]
    have hv : convert E .f64 .i8 (.flt (.fin q)) false = .success (.int 0) := by
      have hdig : decide (Ty.digits .f64 < Ty.digits .i8) = false := by decide
      simp only [convert, Ty.isInt, fltToInt, hdig, Bool.false_and, castToInt, h5]
      rfl
    rw [e2]
    unfold assign Val.zero
    rw [if_neg (by simp)]
    dsimp only
    rw [hc]
    simp only [unsafeConvert, hr, hv, Ty.size, Nat.lt_irrefl, if_false]
    rfl
  have hz : assign E (Val.zero .f64) (Val.zero .f64).src = .ok (Val.zero .f64) := by
    simp [assign, Val.zero, Val.src, Ty.size]
  have p1 : promotion (Val.of E .i8 (.int 5)).src.ty r.ty = some .f64 := by rw [hr]; rfl
  have p2 : promotion (Val.zero .f64).src.ty r.ty = some .f64 := by rw [hr]; rfl
  simp only [binary, p1, p2, ha, hz]

/-- C150 is false as stated: the largest `uint16` cannot be multiplied by itself, as the product is taken
as `int`; neither can integers be divided by zero. -/
theorem C150_u16_refuted :
    (∀ E : Env, arith E .u16 .mul (.int 65535) (.int 65535) = .undefined) ∧
      ∀ (E : Env) (t : Ty) (x : ℤ), arith E t .div (.int x) (.int 0) = .undefined := by
  refine ⟨fun E => ?_, fun E t x => rfl⟩
  have : intOp .u16 .mul 65535 65535 = none := by decide +kernel
  simp [arith, this]

end RoughPy.Generics
