import Verif.Arrays.KeySteps
import Verif.Scalars.Props

/-!
# C145: arrays of scalars with keys
-/

namespace RoughPy.Arrays

open RoughPy.Args (Out)
open RoughPy.Scalars (Ty Val FP TRef conv exactFP)

variable {P : FP} {junk : ℕ → ℕ} {s₀ s s' : KSt}

/-- **C145, in part.** No statement of a program that meets its preconditions misuses the memory of
keys: nothing is freed twice, used after it was freed, read or written out of bounds, and keys of the
user are not freed.  Missing: the statements `KSafe` excludes, which have defects. -/
theorem C145_memory_partial (h : KReaches P junk s₀ s) {c : KStmt} (hs : KSafe s₀.mem.keys.length s c) :
    kstep P junk s c ≠ .keyUB := (kstep_step h.books hs).1

/-- **C145.** Keys of the user are what they were. -/
theorem C145_user (h : KReaches P junk s₀ s) {b : ℕ} (hb : b < s₀.mem.keys.length) :
    s.mem.keys[b]? = s₀.mem.keys[b]? := h.books.user b hb

/-- **C145.** The keys an array owns are there, no two arrays own the same, and they are not those of
the user. -/
theorem C145_owner (h : KReaches P junk s₀ s) {i b : ℕ} (ho : OwnsKeys s i b) :
    KeysLive s b ∧ s₀.mem.keys.length ≤ b ∧ ∀ j, OwnsKeys s j b → j = i := by
  obtain ⟨a, h1, h2, h3⟩ := ho
  obtain ⟨-, e2, B, e3, e4, -⟩ := h.books.own i a _ h1 h2 h3
  refine ⟨⟨B, e3, e4⟩, e2, ?_⟩
  rintro j ⟨c, f1, f2, f3⟩
  exact h.books.uniq j i c a _ _ f1 h1 f2 h2 f3 h3 rfl

/-- **C145.** Keys that the library allocated and that are still there have an owner: when no array is
left, all have been given back. -/
theorem C145_no_leak (h : KReaches P junk s₀ s) {b : ℕ} (hb : s₀.mem.keys.length ≤ b)
    (hl : KeysLive s b) : ∃ i, OwnsKeys s i b := by
  obtain ⟨B, h1, h2⟩ := hl
  obtain ⟨i, a, e⟩ := h.books.lib b B hb h1 h2
  exact ⟨i, a, e⟩

/-- **C145.** A statement does not change the keys of an array it does not name. -/
theorem C145_frame (h : KReaches P junk s₀ s) {c : KStmt} (hs : KSafe s₀.mem.keys.length s c)
    (hl : KLeaves P junk s c s') {m : ℕ} (hm : ¬ KTouches m c) :
    (∀ l, HasKeys s m l → HasKeys s' m l) ∧ (NoKeys s m → NoKeys s' m) := by
  have g := (kstep_step h.books hs).2 _ hl
  have key : ∀ a, s.var m = some a → s'.var m = some a ∧
      ∀ p, a.keys = some p → s'.mem.keys[p.1]? = s.mem.keys[p.1]? := by
    intro a ha
    have hlt := KSt.var_lt ha
    obtain ⟨e1, e2⟩ := g.frame m (by rintro (x | x); exacts [hm x, by omega])
    exact ⟨e1.trans ha, fun p hp => e2 a p ha hp⟩
  constructor
  · rintro l ⟨a, p, ha, hp, hr⟩
    obtain ⟨e1, e2⟩ := key a ha
    exact ⟨a, p, e1, hp, by rw [readKeys_congr (e2 p hp)]; exact hr⟩
  · rintro ⟨a, ha, hp⟩
    exact ⟨a, (key a ha).1, hp⟩

/-- **C145, in part.** A copy of an array that owns its keys has the same keys, in memory of its own.
Missing: keys that are not owned are not copied, `C145_copy_refuted`. -/
theorem C145_copy_partial (h : KReaches P junk s₀ s) {i b : ℕ} {l : List ℕ} (hk : HasKeys s i l)
    (ho : OwnsKeys s i b) (hc : kstep P junk s (.copy i) = .ok s') :
    HasKeys s' s.vars.length l ∧ HasKeys s' i l ∧
      ∃ c, c ≠ b ∧ OwnsKeys s' i b ∧ OwnsKeys s' s.vars.length c := by
  obtain ⟨a, p, ha, hp, hr⟩ := hk
  obtain ⟨a', ha', ho, hb⟩ := ho
  rw [ha] at ha'; cases ha'
  rw [hp] at hb; cases hb
  have hreach : KReaches P junk s₀ s' := h.step (c := .copy i) trivial (.inl hc)
  have hframe := (C145_frame h (c := .copy i) trivial (.inl hc) (m := i) (by simp [KTouches])).1
  have g := (kstep_step (P := P) (junk := junk) h.books (c := .copy i) trivial).2 _ (.inl hc)
  have hlt := KSt.var_lt ha
  have hvi : s'.var i = some a := by
    rw [(g.frame i (by rintro (x | x); exacts [by simp [KTouches] at x, by omega])).1]; exact ha
  dsimp only [kstep, withKVar] at hc
  rw [ha] at hc
  dsimp only at hc
  obtain ⟨-, hspec⟩ := kcopyCtor_fine h.books ha (KSt.var_length s)
  cases hcc : kcopyCtor s.mem a with
  | raised r => rw [hcc] at hc; cases hc
  | scalarUB => rw [hcc] at hc; cases hc
  | keyUB => rw [hcc] at hc; cases hc
  | ok r =>
    obtain ⟨K', x⟩ := r
    rw [hcc] at hc
    cases hc
    obtain ⟨hsz, hval⟩ := hspec K' x hcc
    obtain ⟨q, hq, hrq⟩ := hval ho _ l hp hr
    have hvn : (s.push (K', x)).var s.vars.length = some x := by
      rw [KSt.var_push, Function.update_self]
    have hxo : x.owns = true := by
      unfold kcopyCtor at hcc
      cases hb : copyCtor s.mem.world a.base with
      | err => rw [hb] at hcc; cases hcc
      | ub => rw [hb] at hcc; cases hcc
      | ok r =>
        rw [hb] at hcc
        dsimp only at hcc
        rw [if_pos ho, hp] at hcc
        dsimp only at hcc
        cases hkk : copyKeys (newKeys s.mem.keys r.2.size) (some (b, 0)) a.base.size
            (some (s.mem.keys.length, 0)) with
        | none => rw [hkk] at hcc; cases hcc
        | some ks => rw [hkk] at hcc; cases hcc; rfl
    have hq0 := (hreach.books.own _ x q hvn hxo hq).1
    have hqe : q = (q.1, 0) := by rw [← hq0]
    refine ⟨⟨x, q, hvn, hq, hrq⟩, hframe l ⟨a, _, ha, hp, hr⟩, q.1, ?_, ⟨a, hvi, ho, hp⟩,
      ⟨x, hvn, hxo, by rw [hq, ← hqe]⟩⟩
    intro he
    have := hreach.books.uniq _ _ x a q _ hvn hvi hxo ho hq hp he
    omega

/-- **C145, in part.** After `i = j` the array `i` has the keys of `j`, which keeps them; `j` must have
a type. -/
theorem C145_assign_partial (h : KReaches P junk s₀ s) {i j : ℕ} {l : List ℕ} (hij : i ≠ j)
    (hk : HasKeys s j l) (ht : ∀ b, s.var j = some b → b.base.typeNull = false)
    (hc : kstep P junk s (.assign i j) = .ok s') : HasKeys s' i l ∧ HasKeys s' j l := by
  obtain ⟨b, p, hb, hp, hr⟩ := hk
  have hsafe : KSafe s₀.mem.keys.length s (.assign i j) := by
    intro c hcv _
    rw [hb] at hcv; cases hcv
    exact ⟨ht b hb, fun hn => by rw [hp] at hn; cases hn⟩
  refine ⟨?_, (C145_frame h hsafe (.inl hc) (m := j) (fun e => hij e.symm)).1 l ⟨b, p, hb, hp, hr⟩⟩
  dsimp only [kstep, withKVar] at hc
  cases ha : s.var i with
  | none => rw [ha] at hc; cases hc
  | some a =>
    rw [ha] at hc
    dsimp only at hc
    rw [hb] at hc
    dsimp only at hc
    rw [if_neg hij] at hc
    obtain ⟨-, hspec⟩ := kcopyAssign_fine (P := P) (junk := junk) h.books hij ha hb (hsafe b hb)
    cases hcc : kcopyAssign P junk s.mem a b with
    | raised r => rw [hcc] at hc; cases hc
    | scalarUB => rw [hcc] at hc; cases hc
    | keyUB => rw [hcc] at hc; cases hc
    | ok r =>
      obtain ⟨K', x⟩ := r
      rw [hcc] at hc
      cases hc
      obtain ⟨-, hval⟩ := hspec K' x hcc (ht b hb)
      obtain ⟨q, hq, hrq⟩ := hval p l hp hr
      exact ⟨x, q, by rw [KSt.var_put (KSt.var_lt ha), Function.update_self], hq, hrq⟩

/-- **C145.** Moving hands the keys over: the new array has them, the old one has none. -/
theorem C145_move {i : ℕ} {l : List ℕ} (hk : HasKeys s i l)
    (hc : kstep P junk s (.move i) = .ok s') : HasKeys s' s.vars.length l ∧ NoKeys s' i := by
  obtain ⟨a, p, ha, hp, hr⟩ := hk
  have hlt := KSt.var_lt ha
  dsimp only [kstep, withKVar] at hc
  rw [ha] at hc
  cases hc
  have hlen : (s.put i (s.mem, (kmoveCtor a).2)).vars.length = s.vars.length := by
    unfold KSt.put; simp
  constructor
  · refine ⟨(kmoveCtor a).1, p, ?_, hp, hr⟩
    rw [KSt.var_push, hlen, Function.update_self]
  · refine ⟨(kmoveCtor a).2, ?_, rfl⟩
    rw [KSt.var_push, hlen, Function.update_of_ne (by omega), KSt.var_put hlt, Function.update_self]

/-- **C145.** The same for `i = std::move(j)`. -/
theorem C145_move_assign (h : KReaches P junk s₀ s) {i j : ℕ} {l : List ℕ} (hij : i ≠ j)
    (hk : HasKeys s j l) (hc : kstep P junk s (.moveAssign i j) = .ok s') :
    HasKeys s' i l ∧ NoKeys s' j := by
  obtain ⟨b, p, hb, hp, hr⟩ := hk
  dsimp only [kstep, withKVar] at hc
  cases ha : s.var i with
  | none => rw [ha] at hc; cases hc
  | some a =>
    rw [ha] at hc
    dsimp only at hc
    rw [hb] at hc
    dsimp only at hc
    rw [if_neg hij] at hc
    unfold kmoveAssign at hc
    rcases kdtor_cases h.books ha with e | ⟨K1, e, g⟩
    · rw [e] at hc; cases hc
    rw [e] at hc
    dsimp only at hc
    unfold moveAssign at hc
    cases hd : dtor K1.world a.destroyed.base with
    | err => rw [hd] at hc; cases hc
    | ub => rw [hd] at hc; cases hc
    | ok w =>
      rw [hd] at hc
      cases hc
      have e1 : ∀ r : KWorld × KArr, j < (s.put i r).vars.length := by
        intro r; unfold KSt.put; simp; exact KSt.var_lt hb
      constructor
      · refine ⟨⟨b.base, b.keys, b.owns⟩, p, ?_, hp, ?_⟩
        · rw [KSt.var_put (e1 _), Function.update_of_ne hij, KSt.var_put (KSt.var_lt ha),
            Function.update_self]
        · rw [← hr]
          exact readKeys_congr ((g.frame j (Ne.symm hij)).2 b p hb hp) _
      · exact ⟨⟨if b.base.mode = .owned then { b.base with word := .null } else b.base, none, b.owns⟩,
          by rw [KSt.var_put (e1 _), Function.update_self], rfl⟩

/-- **C145.** New keys are zeros, one for each element. -/
theorem C145_allocate {i : ℕ} {a : KArr} (ha : s.var i = some a)
    (hc : kstep P junk s (.allocKeys i (-1)) = .ok s') :
    HasKeys s' i (List.replicate a.base.size 0) := by
  dsimp only [kstep, withKVar] at hc
  rw [ha] at hc
  dsimp only at hc
  unfold allocKeys at hc
  rw [if_neg (by decide)] at hc
  cases hm : freeOld s.mem.keys a.keys with
  | none => rw [hm] at hc; cases hc
  | some ks =>
    rw [hm] at hc
    dsimp only at hc
    rw [if_pos (.inl rfl)] at hc
    cases hc
    refine ⟨⟨a.base, some (ks.length, 0), true⟩, (ks.length, 0), ?_, rfl, ?_⟩
    · rw [KSt.var_put (KSt.var_lt ha), Function.update_self]
    · exact readKeys_new _ _ (by simp)

/-- **C145.** Setting a key sets that key. -/
theorem C145_set (h : KReaches P junk s₀ s) {i k x : ℕ} {l : List ℕ} (hk : HasKeys s i l)
    (hs : KSafe s₀.mem.keys.length s (.setKey i k x))
    (hc : kstep P junk s (.setKey i k x) = .ok s') : HasKeys s' i (l.set k x) := by
  obtain ⟨a, q, ha, hq, hr⟩ := hk
  obtain ⟨hk, ho, hn⟩ := hs a ha
  obtain ⟨p, B, hp, h0, hB, hal, hlen, e, -⟩ := setKey_step (x := x) h.books ha hk ho hn
  rw [hp] at hq; cases hq
  dsimp only [kstep, withKVar] at hc
  rw [ha] at hc
  dsimp only at hc
  rw [e] at hc
  cases hc
  have hlt := (List.getElem?_eq_some_iff.1 hB).1
  refine ⟨a, q, ha, hp, ?_⟩
  unfold readKeys at hr ⊢
  rw [if_neg (by omega)] at hr ⊢
  dsimp only at hr ⊢
  rw [hB] at hr
  rw [List.getElem?_set_self hlt]
  dsimp only at hr ⊢
  rw [if_pos ⟨hal, by omega⟩] at hr
  rw [if_pos ⟨hal, by simp; omega⟩]
  cases hr
  rw [h0]
  simp [List.take_set]

/-! ## A program -/

/-- Two keys of the user. -/
def twoKeys : KSt := ⟨⟨⟨[⟨[some (Val.zero .f64), some (Val.zero .f64)], true⟩], []⟩,
  [⟨[4, 7], true, true⟩]⟩, []⟩

/-- The hypotheses can be met: an array with two keys is made, the keys are set, it is copied, and the
copy has them. -/
example : ∃ s s', KReaches exactFP (fun _ => 0) twoKeys s ∧
    HasKeys s 0 [0, 9] ∧ OwnsKeys s 0 1 ∧
    kstep exactFP (fun _ => 0) s (.copy 0) = .ok s' ∧ HasKeys s' 1 [0, 9] := by
  have r0 : KReaches exactFP (fun _ => 0) twoKeys twoKeys :=
    .start ⟨rfl, by simp [twoKeys]⟩
  have r1 := r0.step (c := .typed .f64 2) trivial (.inl rfl)
  have r2 := r1.step (c := .allocKeys 0 (-1)) (by
    intro a p ha hp
    cases ha; cases hp) (.inl rfl)
  have r3 := r2.step (c := .setKey 0 1 9) (by
    intro a ha
    cases ha
    exact ⟨by decide, rfl, by decide⟩) (.inl rfl)
  exact ⟨_, _, r3, ⟨_, _, rfl, rfl, rfl⟩, ⟨_, rfl, rfl, rfl⟩, rfl, ⟨_, _, rfl, rfl, rfl⟩⟩

/-! ## Defects -/

/-- A program starting with the two keys of the user. -/
def runTwo (prog : List KStmt) : KRes KSt := krun exactFP (fun _ => 0) twoKeys prog

/-- **C145 fails:** a copy of an array over keys of the user has no keys. -/
theorem C145_copy_refuted : ∃ s, runTwo [.typed .f64 2, .withKeys 0 (0, 0), .copy 1] = .ok s ∧
    HasKeys s 1 [4, 7] ∧ NoKeys s 2 :=
  ⟨_, rfl, ⟨_, _, rfl, rfl, rfl⟩, ⟨_, rfl, rfl⟩⟩

/-- **C145 fails:** `allocate_keys` frees keys of the user. -/
theorem C145_user_freed_refuted :
    runTwo [.typed .f64 2, .withKeys 0 (0, 0), .allocKeys 1 (-1)] = .keyUB := by decide +kernel

/-- **C145 fails:** `allocate_keys` with a wrong number frees the keys and raises; when the array is
destroyed they are freed again. -/
theorem C145_twice_refuted : (∃ s, runTwo [.typed .f64 2, .allocKeys 0 2, .allocKeys 0 3] = .ok s) ∧
    runTwo [.typed .f64 2, .allocKeys 0 2, .allocKeys 0 3, .drop 0] = .keyUB :=
  ⟨⟨_, rfl⟩, by decide +kernel⟩

/-- **C145 fails:** `copy_or_move` of an array over keys of the user writes them past the end of an
array of no keys. -/
theorem C145_copy_or_move_refuted :
    runTwo [.typed .f64 2, .withKeys 0 (0, 0), .copyOrMove 1] = .keyUB := by decide +kernel

/-- **C145 fails:** `copy_or_move` of an array without keys reads keys from a null pointer. -/
theorem C145_copy_or_move_null_refuted :
    runTwo [.typed .f64 2, .copyOrMove 0] = .keyUB := by decide +kernel

/-- **C145 fails:** an array that was assigned by moving from `j` leaves `j` an owner of no keys;
assigning `j` reads keys from a null pointer. -/
theorem C145_moved_refuted :
    runTwo [.borrow true (.info .f64) 0 0 2, .allocKeys 0 (-1), .empty, .moveAssign 1 0, .empty,
      .assign 2 0] = .keyUB := by decide +kernel

/-- **C145 fails:** an array that an empty array is assigned to keeps its size; as many keys are
allocated for it, and assigning it writes past the end of the keys. -/
theorem C145_empty_refuted :
    runTwo [.typed .f64 3, .empty, .assign 0 1, .allocKeys 0 (-1), .typed .f64 1, .assign 2 0] =
      .keyUB := by decide +kernel

/-- **C145 fails:** the keys of an array cannot be written to if it does not own them: `keys()` is
null although `has_keys()` is true. -/
theorem C145_write_refuted : (∃ s, runTwo [.typed .f64 2, .withKeys 0 (0, 0)] = .ok s ∧
      HasKeys s 1 [4, 7]) ∧
    runTwo [.typed .f64 2, .withKeys 0 (0, 0), .setKey 1 0 5] = .keyUB :=
  ⟨⟨_, rfl, ⟨_, _, rfl, rfl, rfl⟩⟩, by decide +kernel⟩

end RoughPy.Arrays
