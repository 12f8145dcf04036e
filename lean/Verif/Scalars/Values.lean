import Verif.Scalars.History
import Verif.Poly.Lemmas

/-!
# Scalars: lemmas about values
-/

namespace RoughPy.Scalars

open RoughPy.Args (Out TypeInfo)
open RoughPy.Polys

/-! ## The types of living scalars -/

theorem readBack_even (i : TypeInfo) : (Args.readBack i).code % 2 = 0 := by
  unfold Args.readBack Args.getInfo TypeInfo.ofWord
  simp only
  rw [Nat.mod_mod_of_dvd _ (by norm_num), Nat.mod_mod_of_dvd _ (by norm_num)]
  have : ((Args.packInfo i 0 &&& ((2 ^ 32 - 1) <<< 4)) >>> 3).testBit 0 = false := by
    have h3 : Nat.testBit 68719476720 3 = false := by decide +kernel
    simp [h3]
  rw [Nat.testBit_zero] at this
  have := of_decide_eq_false this
  omega

theorem readBack_ne_uint (t : Ty) (b : ℕ) : t.readBack ≠ .uint b := by
  intro h
  have e := readBack_even t.info
  unfold Ty.readBack Ty.ofInfo at h
  split at h
  · cases h
  · split at h
    · next h1 => rw [h1.1] at e; simp at e
    · split at h
      · cases h
      · split at h
        · cases h
        · split at h
          · cases h
          · split at h <;> cases h

/-- The types a living scalar can have. -/
def Ty.Live (t : Ty) : Prop :=
  t = .int 1 ∨ t = .int 2 ∨ t = .int 4 ∨ t = .int 8 ∨ t = .f32 ∨ t = .f64 ∨ t = .rat ∨ t = .poly

theorem info_live {h : Heap} {o : Obj} {t : Ty} (g : o.Good h) (hi : o.info = .ok t) : t.Live := by
  have hr := info_real g hi
  cases t with
  | int b => simp only [Ty.Real] at hr; rcases hr with rfl | rfl | rfl | rfl <;> simp [Ty.Live]
  | f32 => simp [Ty.Live]
  | f64 => simp [Ty.Live]
  | rat => simp [Ty.Live]
  | poly => simp [Ty.Live]
  | other => cases hr
  | uint b =>
    exfalso
    have sc : ∀ u : Ty, u.IsScalarType → u ≠ .uint b := by
      intro u hu; rcases hu with rfl | rfl | rfl | rfl <;> simp
    cases hty : o.ty with
    | null => simp [Obj.info, hty] at hi
    | info u =>
      have hu : u.readBack = .uint b := by simpa [Obj.info, hty] using hi
      exact readBack_ne_uint u b hu
    | ptr u =>
      have hu : u = .uint b := by simpa [Obj.info, hty] using hi
      subst hu
      refine sc _ ?_ rfl
      cases hm : o.mode with
      | trivial =>
        rcases g.inline hm with h1 | ⟨h1, _⟩
        · rw [hty] at h1; cases h1
        · exact h1 _ hty
      | owned => obtain ⟨u', h1, h2, _⟩ := g.owned hm; rw [hty] at h2; cases h2; exact h1
      | iface => exact absurd hm g.noIface
      | ref =>
        obtain ⟨u', _, h2, _⟩ := g.reference (.inl hm)
        rcases h2 with ⟨h1, h2⟩ | ⟨_, _, h2⟩
        · rw [hty] at h2; cases h2; exact h1
        · rw [hty] at h2; cases h2
      | constRef =>
        obtain ⟨u', _, h2, _⟩ := g.reference (.inr hm)
        rcases h2 with ⟨h1, h2⟩ | ⟨_, _, h2⟩
        · rw [hty] at h2; cases h2; exact h1
        · rw [hty] at h2; cases h2

theorem promote_live {t u : Ty} (ht : t.Live) (hu : u.Live) : promote u t = .ok (t.join u) := by
  rcases ht with rfl | rfl | rfl | rfl | rfl | rfl | rfl | rfl <;>
    rcases hu with rfl | rfl | rfl | rfl | rfl | rfl | rfl | rfl <;> decide +kernel

theorem Ty.Live.ne_other {t : Ty} (h : t.Live) : t ≠ .other := by
  rintro rfl; simp [Ty.Live] at h

theorem Ty.Live.real {t : Ty} (h : t.Live) : t.Real := by
  rcases h with rfl | rfl | rfl | rfl | rfl | rfl | rfl | rfl <;> simp [Ty.Real]

theorem ofInfo_info {h : Heap} {t : Ty} (ht : t.Live) : (ofInfo h t).2.info = .ok t := by
  rcases ht with rfl | rfl | rfl | rfl | rfl | rfl | rfl | rfl <;>
    simp [ofInfo, Ty.content, Obj.info] <;> decide +kernel

theorem join_live {t u : Ty} (ht : t.Live) (hu : u.Live) : (t.join u).Live := by
  unfold Ty.join; split <;> assumption

theorem join_cases (t u : Ty) : t.join u = t ∨ t.join u = u := by
  unfold Ty.join; split <;> simp

/-! ## Reading and writing -/

theorem Obj.Has.notNull {h : Heap} {o : Obj} {t : Ty} {v : Val} (hh : o.Has h t v) :
    o.isNull = false := by
  unfold Obj.isNull
  have := hh.1
  unfold Obj.info at this
  cases hty : o.ty <;> simp_all

theorem Obj.Has.addr {h : Heap} {o : Obj} {t : Ty} {v : Val} (hh : o.Has h t v)
    (hm : o.mode ≠ .trivial) : ∃ a c, o.addr = some a ∧ h.cell a = some c ∧ c.val.as t = .ok v := by
  obtain ⟨w, h1, h2⟩ := hh.read
  unfold Obj.read at h1
  cases ha : o.addr with
  | none => cases hm' : o.mode <;> simp_all
  | some a =>
    cases hc : h.cell a with
    | none => cases hm' : o.mode <;> simp_all
    | some c =>
      have : c.val = w := by cases hm' : o.mode <;> simp_all
      exact ⟨a, c, rfl, hc, by rw [this]; exact h2⟩

theorem Obj.Has.mutPointer {h : Heap} {o : Obj} {t : Ty} {v : Val} (hh : o.Has h t v)
    (hc : o.mode ≠ .constRef) (hi : o.mode ≠ .iface) : o.mutPointer = .ok () := by
  unfold Obj.mutPointer
  rw [if_neg (by rw [hh.notNull]; simp)]
  cases hm : o.mode with
  | trivial => rfl
  | constRef => exact absurd hm hc
  | iface => exact absurd hm hi
  | ref => obtain ⟨a, c, ha, _⟩ := hh.addr (by simp [hm]); simp [ha]
  | owned => obtain ⟨a, c, ha, _⟩ := hh.addr (by simp [hm]); simp [ha]

theorem Obj.Has.store {h : Heap} {o : Obj} {t : Ty} {v w : Val} (hh : o.Has h t v) (hw : w.ty = t) :
    ∃ ho, o.store h w = .ok ho ∧ ho.2.Has ho.1 t w ∧ ho.2.ty = o.ty ∧ ho.2.mode = o.mode ∧
      ho.2.addr = o.addr := by
  unfold Obj.store
  by_cases hm : o.mode = .trivial
  · simp only [hm]
    refine ⟨_, rfl, ⟨?_, ?_⟩, rfl, ?_, rfl⟩
    · exact hh.1
    · simp only [Obj.read]; exact as_self hw
    · rfl
  · obtain ⟨a, c, ha, hc, _⟩ := hh.addr hm
    have key : (match o.mode with
      | .trivial => (Out.ok (h, { o with bytes := w }) : Out (Heap × Obj))
      | _ =>
        match o.addr with
        | none => .ub
        | some a =>
          match h.cell a with
          | none => .ub
          | some _ => .ok (h.write a w, o)) = .ok (h.write a w, o) := by
      cases hm' : o.mode <;> simp_all
    refine ⟨_, key, ⟨hh.1, ?_⟩, rfl, rfl, rfl⟩
    have : o.read (h.write a w) = .ok w := by
      unfold Obj.read
      have hcw : (h.write a w).cell a = some { c with val := w } := by
        rw [cell_write, if_pos rfl, hc]; rfl
      cases hm' : o.mode <;> simp_all
    rw [this]; exact as_self hw

theorem convFrom_has {P : FP} {h : Heap} {o : Obj} {t u : Ty} {v : Val} (hh : o.Has h u v)
    (hu : u ≠ .other) : convFrom P t h o = conv P t v := by
  obtain ⟨w, h1, h2⟩ := hh.read
  unfold convFrom
  simp only [hh.1, Out.bind, if_neg hu, h1, h2]

theorem wrapU_zero (b : ℕ) : wrapU b 0 = 0 := by simp [wrapU]

theorem wrapU_eq_zero {b : ℕ} (hb : 1 ≤ b) (n : ℤ) : wrapS b n = 0 ↔ wrapU b n = 0 := by
  unfold wrapS wrapU
  have e : (2 : ℤ) ^ (8 * b) = 2 * 2 ^ (8 * b - 1) := by
    rw [← pow_succ']; congr 1; omega
  have hp : (0 : ℤ) < 2 ^ (8 * b - 1) := by positivity
  rw [e]
  generalize (2 : ℤ) ^ (8 * b - 1) = m at *
  constructor
  · intro h
    have h1 : (n + m) % (2 * m) = m := by omega
    have h2 := Int.emod_add_mul_ediv (n + m) (2 * m)
    rw [h1] at h2
    have : n = 2 * m * ((n + m) / (2 * m)) := by linarith
    rw [this]; exact Int.mul_emod_right _ _
  · intro h
    have h2 := Int.emod_add_mul_ediv n (2 * m)
    rw [h, zero_add] at h2
    rw [← h2, add_comm, Int.add_mul_emod_self_left, Int.emod_eq_of_lt (by omega) (by omega)]
    omega

/-- Reading as a type keeps the bits. -/
theorem as_zeroBits {v w : Val} {t : Ty} (ht : t.Real) (h : v.as t = .ok w) :
    w.zeroBits = v.zeroBits := by
  unfold Val.as at h
  by_cases e : v.ty = t
  · rw [if_pos e] at h; cases h; rfl
  · rw [if_neg e] at h
    split at h
    · next b n b' =>
      split at h
      · next hb =>
        cases h
        simp only [Val.zeroBits, wrapU, Int.emod_emod_of_dvd _ dvd_rfl]
      · cases h
    · next b n b' =>
      split at h
      · next hb =>
        cases h
        subst hb
        have hb1 : 1 ≤ b := by simp only [Ty.Real] at ht; omega
        simp only [Val.zeroBits]
        have : wrapU b (wrapS b n) = wrapU b n := by
          unfold wrapU wrapS
          rw [Int.sub_emod, Int.emod_emod_of_dvd _ dvd_rfl, ← Int.sub_emod]
          congr 1; ring
        rw [this]
      · cases h
    · cases h

/-- A value that is not zero bits is not a fast zero. -/
theorem Obj.Has.notFast {h : Heap} {o : Obj} {t : Ty} {v : Val} (g : o.Good h) (hh : o.Has h t v)
    (hz : v.zeroBits = false) : o.fastIsZero = false := by
  unfold Obj.fastIsZero
  rw [hh.notNull, Bool.false_or]
  unfold Obj.zeroWord
  by_cases hm : o.mode = .trivial
  · obtain ⟨w, h1, h2⟩ := hh.read
    simp only [hm]
    simp only [Obj.read, hm] at h1
    cases h1
    rw [← as_zeroBits (info_real g hh.1) h2]; exact hz
  · obtain ⟨a, c, ha, _⟩ := hh.addr hm
    cases hm' : o.mode <;> simp_all

/-- An inline zero is a fast zero. -/
theorem Obj.Has.fast {h : Heap} {o : Obj} {t : Ty} {v : Val} (g : o.Good h) (hh : o.Has h t v)
    (hm : o.mode = .trivial) (hz : v.zeroBits = true) : o.fastIsZero = true := by
  unfold Obj.fastIsZero Obj.zeroWord
  obtain ⟨w, h1, h2⟩ := hh.read
  simp only [Obj.read, hm] at h1
  cases h1
  simp only [hm, ← as_zeroBits (info_real g hh.1) h2, hz, Bool.or_true]

/-! ## Meanings -/

theorem const_inj {a b : ℚ} (h : const a = const b) : a = b := by
  have ha := Poly.ofScalar_spec a
  have hb := Poly.ofScalar_spec b
  have pr : ∀ c : ℚ, Poly.Proper (Poly.ofScalar c) := by
    intro c e he
    unfold Poly.ofScalar at he
    split at he
    · simp at he; subst he; intro x hx; simp [Mono.one] at hx
    · cases he
  have := Poly.val_inj ha.1 hb.1 (pr a) (pr b) (by rw [ha.2, hb.2, h])
  unfold Poly.ofScalar at this
  by_cases h1 : a = 0 <;> by_cases h2 : b = 0 <;> simp_all

/-- A number converts exactly to a rational number and to a polynomial. -/
theorem Val.Is.num {P : FP} {v : Val} {x : Laurent} (h : v.Is x) (hp : v.ty ≠ .poly) :
    ∃ q : ℚ, x = const q ∧ conv P .rat v = .ok (.rat q) ∧ conv P .poly v = .ok (.poly (Poly.ofScalar q)) := by
  cases v with
  | int b n => exact ⟨n, h.2, rfl, rfl⟩
  | uint b n => exact ⟨n, h.2, rfl, rfl⟩
  | f32 y => cases y with
    | fin q => exact ⟨q, h, rfl, rfl⟩
    | negZero => exact ⟨0, h, rfl, rfl⟩
    | inf b => cases h
    | nan => cases h
  | f64 y => cases y with
    | fin q => exact ⟨q, h, rfl, rfl⟩
    | negZero => exact ⟨0, h, rfl, rfl⟩
    | inf b => cases h
    | nan => cases h
  | rat q => exact ⟨q, h, rfl, rfl⟩
  | poly p => exact absurd rfl hp

theorem trunc_int (n : ℤ) : trunc (n : ℚ) = n := by
  unfold trunc; split <;> simp

theorem convNum_int {P : FP} {b : ℕ} {v w : Val} {n : ℤ} (h : convNum P (.int b) v = .ok w)
    (hv : v.Is (const n)) (hp : v.ty ≠ .poly) (hn : wrapS b n = n) : w = .int b n := by
  have key : ∀ q : ℚ, const (n : ℚ) = const q → toIntTy (.int b) (trunc q) = .ok w → w = .int b n := by
    intro q hq ht
    have := const_inj hq
    subst this
    rw [trunc_int] at ht
    simp only [toIntTy, hn, if_true] at ht
    cases ht; rfl
  cases v with
  | int c m =>
    have : (n : ℚ) = m := const_inj hv.2
    have : n = m := by exact_mod_cast this
    subst this
    simp only [convNum, hn] at h; cases h; rfl
  | uint c m =>
    have : (n : ℚ) = m := const_inj hv.2
    have : n = m := by exact_mod_cast this
    subst this
    simp only [convNum, hn] at h; cases h; rfl
  | f32 y => cases y with
    | fin q => exact key q hv h
    | negZero => exact key 0 hv h
    | inf b => cases hv
    | nan => cases hv
  | f64 y => cases y with
    | fin q => exact key q hv h
    | negZero => exact key 0 hv h
    | inf b => cases hv
    | nan => cases hv
  | rat q => exact key q hv h
  | poly p => exact absurd rfl hp

theorem exps_one : Mono.one.exps = 0 := by simp [Mono.one, Mono.exps]

/-- A conversion that succeeds keeps the meaning, if the target can express it. -/
theorem conv_is {P : FP} {t : Ty} {v w : Val} {x : Laurent} (h : conv P t v = .ok w) (hv : v.Is x) :
    (t = .rat ∨ t = .poly → w.Is x) ∧
      ∀ b n, t = .int b → 1 ≤ b → x = const (n : ℤ) → wrapS b n = n → w = .int b n := by
  by_cases hp : v.ty = .poly
  · cases v with
    | poly p =>
      obtain ⟨hw, rfl⟩ := hv
      refine ⟨fun ht => ?_, fun b n ht hb hx hn => ?_⟩
      · rcases ht with rfl | rfl
        · unfold conv at h
          simp only at h
          split at h
          · cases h; exact (Poly.val_nil).trans (term_zero 0).symm
          · split at h
            · next hm =>
              cases h
              show Poly.val _ = const _
              rw [Poly.val_cons, Poly.val_nil, add_zero, hm, exps_one]; rfl
            · cases h
          · cases h
        · cases h; exact ⟨hw, rfl⟩
      · subst ht
        unfold conv at h
        simp only at h
        split at h
        · refine convNum_int h ⟨by simp [wrapS], ?_⟩ (by simp [Val.ty]) hn
          rw [← hx, Poly.val_nil]; simp [const, term_zero]
        · split at h
          · next hm =>
            refine convNum_int h ?_ (by simp [Val.ty]) hn
            show const _ = const _
            rw [← hx, Poly.val_cons, Poly.val_nil, add_zero, hm, exps_one]; rfl
          · cases h
        · cases h
    | _ => simp [Val.ty] at hp
  · obtain ⟨q, hx, h1, h2⟩ := hv.num (P := P) hp
    refine ⟨fun ht => ?_, fun b n ht hb hxn hn => ?_⟩
    · rcases ht with rfl | rfl
      · rw [h1] at h; cases h; exact hx
      · rw [h2] at h; cases h
        rw [hx]; exact Poly.ofScalar_spec q
    · subst ht
      have : conv P (.int b) v = convNum P (.int b) v := by
        cases v <;> simp_all [conv, Val.ty]
      rw [this] at h
      exact convNum_int h (by rw [← hxn]; exact hv) hp hn

end RoughPy.Scalars
