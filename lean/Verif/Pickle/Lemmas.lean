import Verif.Pickle.Spec
import Verif.Lite.ContextStored
import Verif.Lite.ContextSig
import Mathlib.Tactic.Ring
import Mathlib.Tactic.Linarith

/-! # Lemmas about archives -/

namespace RoughPy.Pickle

open RoughPy.Lite RoughPy.Intervals
open RoughPy.Handles (Outcome)

/-! ### Numbers in bytes -/

theorem length_le (w n : ℕ) : (le w n).length = w := by
  induction w generalizing n with
  | zero => rfl
  | succ w ih => simp only [le, List.length_cons, ih]

theorem ofLe_le (w n : ℕ) (h : n < 256 ^ w) : ofLe (le w n) = n := by
  induction w generalizing n with
  | zero => simp only [pow_zero] at h; simp only [le, ofLe]; omega
  | succ w ih =>
    have h1 : n / 256 < 256 ^ w := by
      rw [Nat.div_lt_iff_lt_mul (by norm_num)]
      rw [pow_succ] at h
      exact h
    simp only [le, ofLe, ih _ h1, UInt8.toNat_ofNat']
    omega

theorem ofLe_append (a b : Bytes) : ofLe (a ++ b) = ofLe a + 256 ^ a.length * ofLe b := by
  induction a with
  | nil => simp [ofLe]
  | cons x a ih => simp only [List.cons_append, ofLe, ih, List.length_cons, pow_succ]; ring

theorem ofLe_lt (a : Bytes) : ofLe a < 256 ^ a.length := by
  induction a with
  | nil => simp [ofLe]
  | cons x a ih =>
    simp only [ofLe, List.length_cons, pow_succ]
    have := x.toNat_lt
    have : (2:ℕ) ^ 8 = 256 := by norm_num
    omega

theorem ofLe_zeros (n : ℕ) : ofLe (List.replicate n 0) = 0 := by
  induction n with
  | zero => rfl
  | succ n ih => simp only [List.replicate_succ, ofLe, ih]; rfl

/-! ### Readers -/

/-- More bytes at the end do not change what is read. -/
structure Mono {α : Type} (r : Reader α) : Prop where
  ok : ∀ s a t q, r s = .ok (a, t) → r (s ++ q) = .ok (a, t ++ q)
  undefined : ∀ s q, r s = .undefined → r (s ++ q) = .undefined

theorem bind_run {α β : Type} (r : Reader α) (f : α → Reader β) (s : Bytes) :
    (r >>= f) s = (r s).bind fun p => f p.1 p.2 := rfl

theorem bind_ok {α β : Type} {r : Reader α} {f : α → Reader β} {s : Bytes} {a : α} {t : Bytes}
    (h : r s = .ok (a, t)) : (r >>= f) s = f a t := by
  rw [bind_run, h]; rfl

theorem lift_ok {α : Type} (a : α) (s : Bytes) : Reader.lift (.ok a) s = .ok (a, s) := rfl

theorem pure_run {α : Type} (a : α) (s : Bytes) : (pure a : Reader α) s = .ok (a, s) := rfl

theorem Mono.pure {α : Type} (a : α) : Mono (Pure.pure a : Reader α) :=
  ⟨fun s b t q h => by
    rw [pure_run] at h ⊢
    obtain ⟨rfl, rfl⟩ := Prod.mk.inj (Outcome.ok.inj h)
    rfl, fun s q h => by rw [pure_run] at h; cases h⟩

theorem Mono.lift {α : Type} (o : Outcome α) : Mono (Reader.lift o) := by
  cases o with
  | ok a => exact Mono.pure a
  | refused => exact ⟨fun s b t q h => (by cases h), fun s q h => (by cases h)⟩
  | undefined => exact ⟨fun s b t q h => (by cases h), fun s q h => rfl⟩

theorem Mono.bind {α β : Type} {r : Reader α} {f : α → Reader β} (hr : Mono r)
    (hf : ∀ a, Mono (f a)) : Mono (r >>= f) := by
  constructor
  · intro s b t q h
    rw [bind_run] at h
    rcases hrs : r s with ⟨a, u⟩ | _ | _
    · rw [hrs] at h
      rw [bind_ok (hr.ok s a u q hrs)]
      exact (hf a).ok _ _ _ _ h
    · rw [hrs] at h; cases h
    · rw [hrs] at h; cases h
  · intro s q h
    rw [bind_run] at h
    rcases hrs : r s with ⟨a, u⟩ | _ | _
    · rw [hrs] at h
      rw [bind_ok (hr.ok s a u q hrs)]
      exact (hf a).undefined _ _ h
    · rw [hrs] at h; cases h
    · rw [bind_run, hr.undefined s q hrs]; rfl

theorem Mono.take (n : ℕ) : Mono (Reader.take n) := by
  constructor
  · intro s a t q h
    unfold Reader.take at h ⊢
    by_cases hn : n ≤ s.length
    · rw [if_pos hn] at h
      obtain ⟨rfl, rfl⟩ := Prod.mk.inj (Outcome.ok.inj h)
      rw [if_pos (by rw [List.length_append]; omega), List.take_append_of_le_length hn,
        List.drop_append_of_le_length hn]
    · rw [if_neg hn] at h; cases h
  · intro s q h
    unfold Reader.take at h
    split at h <;> cases h

theorem Mono.num (w : ℕ) : Mono (Reader.num w) := (Mono.take w).bind fun _ => Mono.pure _

theorem Mono.vec : Mono Reader.vec := (Mono.num 8).bind fun _ => Mono.take _

variable {F : Formats}

theorem mono_loadArray : Mono (loadArray F) :=
  (Mono.take 4).bind fun _ => (Mono.num 8).bind fun _ => Mono.vec.bind fun _ =>
    (Mono.lift _).bind fun _ => (Mono.lift _).bind fun _ => Mono.pure _

theorem mono_loadScalar : Mono (loadScalar F) :=
  (Mono.take 4).bind fun _ => Mono.vec.bind fun _ =>
    (Mono.lift _).bind fun _ => (Mono.lift _).bind fun _ => Mono.pure _

theorem mono_loadEntries (c : LiteCtx) (a : AlgType) (n : ℕ) : Mono (loadEntries F c a n) := by
  cases n with
  | zero => exact Mono.pure _
  | succ n =>
    exact (Mono.num 8).bind fun _ => mono_loadScalar.bind fun _ => (Mono.lift _).bind fun _ => Mono.lift _

theorem Mono.ite {α : Type} {p : Prop} [Decidable p] {r r' : Reader α} (h : Mono r) (h' : Mono r') :
    Mono (if p then r else r') := by
  split
  · exact h
  · exact h'

theorem mono_load (a : AlgType) : Mono (load F a) := by
  unfold load
  refine (Mono.num 4).bind fun _ => (Mono.num 4).bind fun _ => Mono.vec.bind fun _ =>
    Mono.vec.bind fun _ => (Mono.lift _).bind fun _ => (Mono.num 2).bind fun _ =>
    (Mono.num 2).bind fun _ => (Mono.num 1).bind fun _ => Mono.ite (Mono.pure _) (Mono.ite ?_ ?_)
  · exact mono_loadArray.bind fun _ => (Mono.lift _).bind fun _ => (Mono.lift _).bind fun _ =>
      Mono.ite (Mono.pure _) (Mono.lift _)
  · exact (Mono.lift _).bind fun _ => (Mono.num 8).bind fun _ =>
      Mono.ite ((mono_loadEntries _ _ _).bind fun _ => Mono.pure _) (Mono.lift _)

/-! ### What is written is read -/

theorem take_run {n : ℕ} {b : Bytes} (h : b.length = n) (s : Bytes) :
    Reader.take n (b ++ s) = .ok (b, s) := by
  subst h
  unfold Reader.take
  rw [if_pos (by rw [List.length_append]; omega), List.take_left, List.drop_left]

theorem num_run {w n : ℕ} (h : n < 256 ^ w) (s : Bytes) :
    Reader.num w (le w n ++ s) = .ok (n, s) := by
  unfold Reader.num
  rw [bind_ok (take_run (length_le w n) s), ofLe_le w n h]
  rfl

theorem vec_run {b : Bytes} (h : b.length < 256 ^ 8) (s : Bytes) :
    Reader.vec (vec b ++ s) = .ok (b, s) := by
  unfold Reader.vec vec
  rw [List.append_assoc, bind_ok (num_run h (b ++ s))]
  exact take_run rfl s

theorem typeOf_info (t : CType) : typeOf t.info = .ok t := by cases t <;> rfl

theorem length_info (t : CType) : t.info.length = 4 := by cases t <;> rfl

theorem getType_id (t : CType) : getType t.id = some t := by cases t <;> decide

theorem id_length (t : CType) : t.id.length < 256 ^ 8 := by cases t <;> decide

/-! ### Coefficients -/

theorem length_floatsToRaw (f : Format) (l : List ℚ) :
    (floatsToRaw f l).length = l.length * f.width := by
  unfold floatsToRaw
  induction l with
  | nil => simp
  | cons x l ih => rw [List.flatMap_cons, List.length_append, ih, f.length_enc, List.length_cons]; ring

theorem floatsOf_toRaw (f : Format) (l : List ℚ) (h : ∀ x ∈ l, f.dec (f.enc x) = x) :
    floatsOf f l.length (floatsToRaw f l) = l := by
  induction l with
  | nil => rfl
  | cons x l ih =>
    have e : floatsToRaw f (x :: l) = f.enc x ++ floatsToRaw f l := rfl
    rw [List.length_cons, floatsOf, e, List.take_append_of_le_length (by rw [f.length_enc]),
      List.take_of_length_le (by rw [f.length_enc]),
      List.drop_append_of_le_length (by rw [f.length_enc]),
      List.drop_of_length_le (by rw [f.length_enc]), List.nil_append, h x (List.mem_cons_self),
      ih fun y hy => h y (List.mem_cons_of_mem _ hy)]

theorem floatsFromRaw_toRaw (f : Format) (l : List ℚ) (h : ∀ x ∈ l, f.dec (f.enc x) = x) :
    floatsFromRaw f l.length (floatsToRaw f l) = .ok l := by
  unfold floatsFromRaw
  rw [if_pos (by rw [length_floatsToRaw]), floatsOf_toRaw f l h]

theorem fromRaw_toRaw {t : CType} (ht : t ≠ .rational) {l : List ℚ}
    (h : ∀ x ∈ l, Representable F t x) : fromRaw F t l.length (toRaw F t l) = .ok l := by
  cases t with
  | f32 => exact floatsFromRaw_toRaw F.f32 l h
  | f64 => exact floatsFromRaw_toRaw F.f64 l h
  | rational => exact absurd rfl ht

theorem length_toRaw {t : CType} (ht : t ≠ .rational) (l : List ℚ) :
    (toRaw F t l).length ≤ l.length * 8 := by
  cases t with
  | f32 => simp only [toRaw, length_floatsToRaw, F.width32]; omega
  | f64 => simp only [toRaw, length_floatsToRaw, F.width64]; omega
  | rational => exact absurd rfl ht

theorem floatsOf_length (f : Format) (n : ℕ) (b : Bytes) : (floatsOf f n b).length = n := by
  induction n generalizing b with
  | zero => rfl
  | succ n ih => rw [floatsOf, List.length_cons, ih]

/-! ### Rational coefficients -/

theorem limbCount_spec {m : ℕ} (hm : m ≠ 0) :
    1 ≤ limbCount m ∧ 256 ^ (8 * (limbCount m - 1)) ≤ m ∧ m < 256 ^ (8 * limbCount m) := by
  unfold limbCount
  rw [if_neg hm]
  have e : ∀ k, (256 : ℕ) ^ (8 * k) = 2 ^ (64 * k) := fun k => by
    rw [show (256:ℕ) = 2 ^ 8 by norm_num, ← pow_mul]; congr 1; ring
  refine ⟨by omega, ?_, ?_⟩
  · rw [e]
    refine le_trans (Nat.pow_le_pow_right (by norm_num) ?_) (Nat.log2_self_le hm)
    omega
  · rw [e]
    refine lt_of_lt_of_le Nat.lt_log2_self (Nat.pow_le_pow_right (by norm_num) ?_)
    omega

theorem length_writeInt (neg : Bool) (m : ℕ) : (writeInt neg m).length = 9 + 8 * limbCount m := by
  unfold writeInt
  simp only [List.length_append, List.length_cons, List.length_nil, List.length_take, length_le,
    List.length_replicate]
  omega

/-- an integer other than zero is never read back -/
theorem readInt_writeInt {neg : Bool} {m : ℕ} (hm : m ≠ 0) (s : Bytes) {z : ℤ} {t : Bytes}
    (h : readInt (writeInt neg m ++ s) = .ok (z, t)) : z.natAbs ≠ m := by
  obtain ⟨h1, h2, h3⟩ := limbCount_spec hm
  set L := limbCount m with hL
  -- the bytes after the first nine
  have hA : ∃ A : Bytes, (writeInt neg m ++ s).drop 9 = A ++ s ∧ A.length = 8 * L ∧ ofLe A < m := by
    refine ⟨(writeInt neg m).drop 9, ?_, ?_, ?_⟩
    · rw [List.drop_append_of_le_length (by rw [length_writeInt]; omega)]
    · rw [List.length_drop, length_writeInt]; omega
    · have e : (writeInt neg m).drop 9 =
          (((le (8 * L) m).take L).drop 7) ++ ((List.replicate (7 + 8 * L - L) (0 : UInt8)).drop (7 - L)) := by
        unfold writeInt
        rw [← hL]
        rw [List.append_assoc]
        rw [show (9 : ℕ) = [if neg then (1 : UInt8) else 0, UInt8.ofNat L].length + 7 from rfl,
          ← List.drop_drop, List.drop_left, List.drop_append]
        rw [List.length_take, length_le, Nat.min_eq_left (by omega)]
      rw [e, ofLe_append, List.drop_replicate, ofLe_zeros, Nat.mul_zero, Nat.add_zero]
      refine lt_of_lt_of_le (ofLe_lt _) (le_trans (Nat.pow_le_pow_right (by norm_num) ?_) h2)
      rw [List.length_drop, List.length_take, length_le]
      omega
  obtain ⟨A, a1, a2, a3⟩ := hA
  unfold readInt at h
  rw [a1] at h
  generalize ofLe (((writeInt neg m ++ s).drop 1).take 8) = count at h
  dsimp only at h
  split at h
  · cases h
  split at h
  · cases h
  split at h
  · cases h
  have hz : z.natAbs = ofLe ((A ++ s).take count) := by
    have := (Prod.mk.inj (Outcome.ok.inj h)).1
    rw [← this]
    split_ifs
    · exact Int.natAbs_natCast _
    · rw [Int.natAbs_neg]; exact Int.natAbs_natCast _
  rw [hz, List.take_append, ofLe_append]
  by_cases hc : count ≤ A.length
  · have h0 : count - A.length = 0 := by omega
    rw [h0, List.take_zero]
    have : ofLe (A.take count) ≤ ofLe A := by
      conv_rhs => rw [← List.take_append_drop count A, ofLe_append]
      exact Nat.le_add_right _ _
    simp only [ofLe, Nat.mul_zero]
    omega
  · rw [List.take_of_length_le (by omega), a2]
    rcases Nat.eq_zero_or_pos (ofLe (s.take (count - 8 * L))) with h0 | h0
    · rw [h0]; omega
    · have : 256 ^ (8 * L) * 1 ≤ 256 ^ (8 * L) * ofLe (s.take (count - 8 * L)) :=
        Nat.mul_le_mul_left _ h0
      omega

theorem readInt_one (s : Bytes) (z : ℤ) (t : Bytes) : readInt (writeInt false 1 ++ s) ≠ .ok (z, t) := by
  intro h
  have e : writeInt false 1 = [0, 1, 1, 0, 0, 0, 0, 0, 0, 0, 0, 0, 0, 0, 0, 0, 0] := by decide +kernel
  rw [e] at h
  unfold readInt at h
  simp only [List.cons_append, List.nil_append, List.length_cons, List.drop_succ_cons, List.drop_zero,
    List.take_succ_cons, List.take_zero] at h
  have e2 : ofLe [1, 1, 0, 0, 0, 0, 0, 0] = 257 := by decide +kernel
  rw [e2] at h
  split at h
  · cases h
  split at h
  · cases h
  split at h
  · cases h
  · rename_i hh
    exact hh (Or.inr (by norm_num))

theorem readInt_zero (s : Bytes) {z : ℤ} {t : Bytes} (h : readInt (writeInt false 0 ++ s) = .ok (z, t)) :
    t = s := by
  have e : writeInt false 0 = [0, 0, 0, 0, 0, 0, 0, 0, 0] := by decide +kernel
  rw [e] at h
  unfold readInt at h
  simp only [List.cons_append, List.nil_append, List.length_cons, List.drop_succ_cons, List.drop_zero,
    List.take_succ_cons, List.take_zero] at h
  have e2 : ofLe [0, 0, 0, 0, 0, 0, 0, 0] = 0 := by decide +kernel
  rw [e2] at h
  split at h
  · cases h
  split at h
  · cases h
  split at h
  · cases h
  · have := (Prod.mk.inj (Outcome.ok.inj h)).2
    rw [← this]
    rfl

theorem readRat_writeRat (q : ℚ) (s : Bytes) {t : Bytes} : readRat (writeRat q ++ s) ≠ .ok (q, t) := by
  intro h
  unfold readRat writeRat at h
  rw [List.append_assoc] at h
  change Outcome.bind _ _ = _ at h
  rcases h1 : readInt (writeInt (decide (q < 0)) q.num.natAbs ++ (writeInt false q.den ++ s)) with ⟨n, s1⟩ | _ | _
  rotate_left
  · rw [h1] at h; cases h
  · rw [h1] at h; cases h
  rw [h1] at h
  change Outcome.bind (readInt s1) _ = _ at h
  rcases h2 : readInt s1 with ⟨d, s2⟩ | _ | _
  rotate_left
  · rw [h2] at h; cases h
  · rw [h2] at h; cases h
  rw [h2] at h
  simp only [Outcome.bind] at h
  split at h
  rotate_left
  · cases h
  rename_i hd
  have hq := (Prod.mk.inj (Outcome.ok.inj h)).1
  -- the fraction read is in lowest terms
  have hnum : q.num = n := by
    rw [← hq]
    exact Rat.num_div_eq_of_coprime hd.1 hd.2
  by_cases h0 : q = 0
  · subst h0
    have := readInt_zero (writeInt false (0 : ℚ).den ++ s) (by simpa using h1)
    rw [this] at h2
    exact readInt_one s d s2 h2
  · have hz : q.num.natAbs ≠ 0 := by
      rw [Int.natAbs_ne_zero]
      exact Rat.num_ne_zero.2 h0
    exact readInt_writeInt hz _ h1 (by rw [hnum])

theorem ratsFromRaw_length {n : ℕ} {s : Bytes} {l : List ℚ} (h : ratsFromRaw n s = .ok l) :
    l.length = n := by
  induction n generalizing s l with
  | zero => rw [← Outcome.ok.inj h]; rfl
  | succ n ih =>
    unfold ratsFromRaw at h
    change Outcome.bind _ _ = _ at h
    rcases h1 : readRat s with ⟨q, s1⟩ | _ | _
    rotate_left
    · rw [h1] at h; cases h
    · rw [h1] at h; cases h
    rw [h1] at h
    change Outcome.bind (ratsFromRaw n s1) _ = _ at h
    rcases h2 : ratsFromRaw n s1 with l2 | _ | _
    rotate_left
    · rw [h2] at h; cases h
    · rw [h2] at h; cases h
    rw [h2] at h
    rw [← Outcome.ok.inj h, List.length_cons, ih h2]

theorem ratsFromRaw_toRaw {l : List ℚ} (hl : l ≠ []) : ratsFromRaw l.length (ratsToRaw l) ≠ .ok l := by
  cases l with
  | nil => exact absurd rfl hl
  | cons q qs =>
    intro h
    rw [List.length_cons] at h
    have e : ratsToRaw (q :: qs) = (List.replicate (qs.length + 1) (writeRat q)).flatten := rfl
    unfold ratsFromRaw at h
    rw [e, List.replicate_succ, List.flatten_cons] at h
    change Outcome.bind _ _ = _ at h
    rcases h1 : readRat (writeRat q ++ (List.replicate qs.length (writeRat q)).flatten) with ⟨p, s1⟩ | _ | _
    rotate_left
    · rw [h1] at h; cases h
    · rw [h1] at h; cases h
    rw [h1] at h
    change Outcome.bind (ratsFromRaw _ s1) _ = _ at h
    rcases h2 : ratsFromRaw qs.length s1 with l2 | _ | _
    rotate_left
    · rw [h2] at h; cases h
    · rw [h2] at h; cases h
    rw [h2] at h
    obtain ⟨rfl, -⟩ := List.cons.inj (Outcome.ok.inj h)
    exact readRat_writeRat p _ h1

end RoughPy.Pickle
