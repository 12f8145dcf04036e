import Verif.Tensor.Loops
import Mathlib.Algebra.BigOperators.Group.Finset.Piecewise

/-! # Multiplication kernels compute the concatenation product -/

set_option linter.unusedSectionVars false

open Finset

namespace RoughPy.Tensor

variable {K : Type} [CommRing K]

theorem div_mod_unique {i j n r : ℕ} (hj : j < n) : r = i * n + j ↔ i = r / n ∧ j = r % n := by
  constructor
  · rintro rfl
    rw [mul_comm, Nat.mul_add_div (by omega), Nat.div_eq_of_lt hj, Nat.mul_add_mod,
      Nat.mod_eq_of_lt hj]
    simp
  · rintro ⟨rfl, rfl⟩
    exact (Nat.div_add_mod' r n).symm

theorem mulAccumulate_spec {op : K → K} {fo fl fr : Frag} {readL : Buf K → ℕ → Option K}
    {rhs : Buf K} {P : Buf K → Prop} {A : ℕ → K} {N : ℕ}
    (hsz : fo.size = fl.size * fr.size)
    (hPs : ∀ b, P b → b.size = N)
    (hfo : fo.start + fo.size ≤ N)
    (hfr : fr.start + fr.size ≤ rhs.size)
    (hA : ∀ b, P b → ∀ i, i < fl.size → readL b (fl.start + i) = some (A i))
    (hPw : ∀ b, P b → ∀ p v, fo.start ≤ p → p < fo.start + fo.size →
      P ⟨b.size, Function.update b.get p v⟩) :
    ∀ b, P b → ∃ b', mulAccumulate op fo fl fr readL rhs b = some b' ∧ P b' ∧
      ∀ p, b'.get p = b.get p +
        if fo.start ≤ p ∧ p < fo.start + fo.size then
          op (A ((p - fo.start) / fr.size) * rhs.get (fr.start + (p - fo.start) % fr.size))
        else 0 := by
  intro b hb
  have hlt : ∀ {i j}, i < fl.size → j < fr.size → i * fr.size + j < fo.size := by
    intro i j hi hj
    rw [hsz]
    calc i * fr.size + j < i * fr.size + fr.size := by omega
      _ = (i + 1) * fr.size := by ring
      _ ≤ _ := Nat.mul_le_mul_right _ hi
  let F : ℕ → ℕ → ℕ → K := fun i j p =>
    if p = fo.start + (i * fr.size + j) then op (A i * rhs.get (fr.start + j)) else 0
  obtain ⟨b', h1, h2, h3⟩ := loop_add (P := P) (List.range fl.size)
    (fun out i => loop (List.range fr.size) out fun out j => do
      let a ← readL out (← fl.at i)
      let b ← rhs.read (← fr.at j)
      out.addAt (← fo.at (i * fr.size + j)) (op (a * b)))
    (fun i p => ((List.range fr.size).map fun j => F i j p).sum) (by
      intro i hi
      refine loop_add (P := P) (List.range fr.size) _ (fun j p => F i j p) ?_
      intro j hj b hb
      rw [List.mem_range] at hi hj
      have hl := hlt hi hj
      have hsize := hPs b hb
      refine ⟨_, ?_, hPw b hb (fo.start + (i * fr.size + j))
        (b.get (fo.start + (i * fr.size + j)) + op (A i * rhs.get (fr.start + j)))
        (by omega) (by omega), ?_⟩
      · rw [Frag.at_eq hi, Frag.at_eq hj, Frag.at_eq hl]
        simp only [Option.bind_eq_bind, Option.bind_some]
        rw [hA b hb i hi, Buf.read_eq (by omega)]
        simp only [Option.bind_some]
        rw [Buf.addAt_eq (by omega)]
      · intro p
        simp only [F]
        by_cases hp : p = fo.start + (i * fr.size + j)
        · subst hp; simp
        · rw [Function.update_of_ne hp, if_neg hp, add_zero]) b hb
  refine ⟨b', h1, h2, fun p => ?_⟩
  rw [h3 p]
  congr 1
  rw [sum_list_range]
  simp_rw [sum_list_range]
  by_cases hp : fo.start ≤ p ∧ p < fo.start + fo.size
  · rw [if_pos hp]
    have hn : 0 < fr.size := by
      rcases Nat.eq_zero_or_pos fr.size with h | h
      · rw [h, mul_zero] at hsz; omega
      · exact h
    have hq : (p - fo.start) / fr.size < fl.size := by
      rw [Nat.div_lt_iff_lt_mul hn]; omega
    have hr := Nat.mod_lt (p - fo.start) hn
    have hF : ∀ i j, j < fr.size → F i j p =
        if i = (p - fo.start) / fr.size ∧ j = (p - fo.start) % fr.size then
          op (A i * rhs.get (fr.start + j)) else 0 := by
      intro i j hj
      have : p = fo.start + (i * fr.size + j) ↔
          i = (p - fo.start) / fr.size ∧ j = (p - fo.start) % fr.size := by
        rw [← div_mod_unique hj]; omega
      simp only [F, this]
    rw [sum_eq_single ((p - fo.start) / fr.size), sum_eq_single ((p - fo.start) % fr.size)]
    · rw [hF _ _ hr, if_pos ⟨rfl, rfl⟩]
    · intro j hj hne
      rw [hF _ _ (mem_range.1 hj), if_neg (fun h => hne h.2)]
    · intro h; simp [hr] at h
    · intro i hi hne
      exact sum_eq_zero fun j hj => by rw [hF _ _ (mem_range.1 hj), if_neg (fun h => hne h.1)]
    · intro h; simp [hq] at h
  · rw [if_neg hp]
    refine sum_eq_zero fun i hi => sum_eq_zero fun j hj => if_neg ?_
    rw [mem_range] at hi hj
    have := hlt hi hj
    rintro rfl
    exact hp ⟨by omega, by omega⟩

/-- contribution of the pair of levels `(ld, od - ld)` to position `p` -/
def pairTerm (op : K → K) (w : ℕ) (A B : ℕ → K) (od ld p : ℕ) : K :=
  if InLevel w od p then
    op (A (wordsBelow w ld + (p - wordsBelow w od) / w ^ (od - ld)) *
      B (wordsBelow w (od - ld) + (p - wordsBelow w od) % w ^ (od - ld)))
  else 0

theorem pairTerm_wordIndex (op : K → K) {w : ℕ} (A B : ℕ → K) {ld : ℕ} (u : List (Fin w))
    (hl : ld ≤ u.length) :
    pairTerm op w A B u.length ld (wordIndex u) =
      op (A (wordIndex (u.take ld)) * B (wordIndex (u.drop ld))) := by
  unfold pairTerm
  rw [if_pos ((inLevel_wordIndex u _).2 rfl)]
  have : wordIndex u - wordsBelow w u.length = wordOffset u := by unfold wordIndex; omega
  rw [this, wordOffset_div, wordOffset_mod]
  unfold wordIndex
  rw [List.length_take, min_eq_left hl, List.length_drop]

/-- one pair of levels, as executed by both multiplication kernels -/
theorem mulAccumulate_level {op : K → K} {w od ld N : ℕ} {readL : Buf K → ℕ → Option K}
    {rhs : Buf K} {P : Buf K → Prop} {A : ℕ → K} (hld : ld ≤ od)
    (hPs : ∀ b, P b → b.size = N)
    (hfo : wordsBelow w (od + 1) ≤ N)
    (hfr : wordsBelow w (od - ld + 1) ≤ rhs.size)
    (hA : ∀ b, P b → ∀ p, InLevel w ld p → readL b p = some (A p))
    (hPw : ∀ b, P b → ∀ p v, InLevel w od p → P ⟨b.size, Function.update b.get p v⟩) :
    ∀ b, P b → ∃ b', mulAccumulate op ⟨wordsBelow w od, w ^ od⟩ ⟨wordsBelow w ld, w ^ ld⟩
        ⟨wordsBelow w (od - ld), w ^ (od - ld)⟩ readL rhs b = some b' ∧ P b' ∧
      ∀ p, b'.get p = b.get p + pairTerm op w A rhs.get od ld p := by
  intro b hb
  rw [wordsBelow_succ] at hfo hfr
  have hsz : w ^ od = w ^ ld * w ^ (od - ld) := by rw [← pow_add]; congr 1; omega
  obtain ⟨b', h1, h2, h3⟩ := mulAccumulate_spec (op := op) (fo := ⟨wordsBelow w od, w ^ od⟩)
    (fl := ⟨wordsBelow w ld, w ^ ld⟩) (fr := ⟨wordsBelow w (od - ld), w ^ (od - ld)⟩)
    (readL := readL) (rhs := rhs) (P := P) (A := fun i => A (wordsBelow w ld + i)) (N := N)
    hsz hPs hfo hfr
    (fun b hb i hi => hA b hb _ ⟨Nat.le_add_right _ _, Nat.add_lt_add_left hi _⟩)
    (fun b hb p v hp1 hp2 => hPw b hb p v ⟨hp1, hp2⟩) b hb
  exact ⟨b', h1, h2, h3⟩

theorem inLevel_lt {w d D N p : ℕ} (h : InLevel w d p) (hd : d ≤ D)
    (hN : wordsBelow w (D + 1) ≤ N) : p < N := by
  have := wordsBelow_mono (w := w) (d := d + 1) (e := D + 1) (by omega)
  rw [wordsBelow_succ (w := w) d] at this
  have := h.2
  omega

/-! ### `ft_fma` -/

/-- the total added at position `p` by the levels loop of `ft_fma` -/
def fmaTerm (op : K → K) (vo vl vr : View) (A B : ℕ → K) (p : ℕ) : K :=
  ∑ od ∈ range (vo.maxDeg + 1), if max 1 vo.minDeg ≤ od then
    ∑ ld ∈ range (od + 1),
      if (vl.minDeg ≤ ld ∧ ld ≤ vl.maxDeg) ∧ (vr.minDeg ≤ od - ld ∧ od - ld ≤ vr.maxDeg) then
        pairTerm op vo.width A B od ld p else 0
    else 0

theorem ftFma_spec (op : K → K) {vo vl vr : View} {out lhs rhs : Buf K}
    (hwl : vl.width = vo.width) (hwr : vr.width = vo.width)
    (ho : vo.Valid out.size) (hl : vl.Valid lhs.size) (hr : vr.Valid rhs.size) :
    ∃ out', ftFma op vo vl vr out lhs rhs = some out' ∧ out'.size = out.size ∧
      ∀ p, out'.get p = out.get p + fmaTerm op vo vl vr lhs.get rhs.get p +
        if p = 0 ∧ vo.minDeg = 0 ∧ vl.minDeg = 0 ∧ vr.minDeg = 0 then
          op (lhs.get 0 * rhs.get 0) else 0 := by
  obtain ⟨w, Do, mo, xo⟩ := vo
  obtain ⟨wl, Dl, ml, xl⟩ := vl
  obtain ⟨wr, Dr, mr, xr⟩ := vr
  obtain rfl : wl = w := hwl
  obtain rfl : wr = wl := hwr
  rename' wr => w
  obtain ⟨ho1, ho2⟩ := ho
  obtain ⟨hl1, hl2⟩ := hl
  obtain ⟨hr1, hr2⟩ := hr
  dsimp only at ho1 ho2 hl1 hl2 hr1 hr2
  let P : Buf K → Prop := fun b => b.size = out.size
  obtain ⟨b', h1, h2, h3⟩ := loop_add (P := P)
    (degreesDown (xo : ℕ) (max 1 mo : ℕ))
    (fun out od => do
      let lhsMax : ℤ := min (xl : ℤ) ((od : ℤ) - mr)
      let lhsMin : ℤ := max (ml : ℤ) ((od : ℤ) - xr)
      let fo ← View.atLevel ⟨w, Do, mo, xo⟩ od
      loop (degreesDown lhsMax lhsMin) out fun out ld => do
        let fl ← View.atLevel ⟨w, Dl, ml, xl⟩ ld
        let fr ← View.atLevel ⟨w, Dr, mr, xr⟩ (od - ld)
        mulAccumulate op fo fl fr (fun _ i => lhs.read i) rhs out)
    (fun od p => ((degreesDown (min (xl : ℤ) ((od : ℤ) - mr)) (max (ml : ℤ) ((od : ℤ) - xr))).map
      fun ld => pairTerm op w lhs.get rhs.get od ld p).sum) (by
      intro od hod
      rw [mem_degreesDown (by omega)] at hod
      have hfo := View.atLevel_eq (v := ⟨w, Do, mo, xo⟩) (d := od) ho1 (by dsimp only; omega)
        (by dsimp only; omega)
      rw [hfo]
      refine loop_add (P := P) _ _ (fun ld p => pairTerm op w lhs.get rhs.get od ld p) ?_
      intro ld hld
      rw [mem_degreesDown (by omega)] at hld
      have hfl := View.atLevel_eq (v := ⟨w, Dl, ml, xl⟩) (d := ld) hl1 (by dsimp only; omega)
        (by dsimp only; omega)
      have hfr := View.atLevel_eq (v := ⟨w, Dr, mr, xr⟩) (d := od - ld) hr1
        (by dsimp only; omega) (by dsimp only; omega)
      rw [hfl, hfr]
      refine mulAccumulate_level (N := out.size) (by omega) (fun b hb => hb)
        ((wordsBelow_mono (by omega)).trans ho2) ((wordsBelow_mono (by omega)).trans hr2) ?_ ?_
      · intro b _ p hp
        exact Buf.read_eq (inLevel_lt hp (by omega) hl2)
      · intro b hb p v _
        exact hb) out rfl
  have hterm : ∀ p, ((degreesDown (xo : ℕ) (max 1 mo : ℕ)).map fun od : ℕ =>
      ((degreesDown (min (xl : ℤ) ((od : ℤ) - mr)) (max (ml : ℤ) ((od : ℤ) - xr))).map
      fun ld => pairTerm op w lhs.get rhs.get od ld p).sum).sum =
      fmaTerm op ⟨w, Do, mo, xo⟩ ⟨w, Dl, ml, xl⟩ ⟨w, Dr, mr, xr⟩ lhs.get rhs.get p := by
    intro p
    rw [sum_degreesDown (by omega) _ (N := xo + 1) (by omega)]
    unfold fmaTerm
    refine sum_congr rfl fun od hod => ?_
    rw [mem_range] at hod
    dsimp only at hod ⊢
    have : ((max 1 mo : ℕ) : ℤ) ≤ od ∧ (od : ℤ) ≤ xo ↔ max 1 mo ≤ od := by omega
    simp only [this]
    split_ifs with h
    · rw [sum_degreesDown (by omega) _ (N := od + 1) (by omega)]
      refine sum_congr rfl fun ld hld => ?_
      rw [mem_range] at hld
      refine if_congr ?_ rfl rfl
      omega
    · rfl
  have hsz : 0 < wordsBelow w 1 := by simp [wordsBelow]
  have hszo : 0 < out.size :=
    lt_of_lt_of_le hsz (le_trans (wordsBelow_mono (Nat.succ_le_succ (Nat.zero_le xo))) ho2)
  unfold ftFma
  dsimp only
  have h1' := h1
  dsimp only at h1'
  rw [h1']
  simp only [Option.bind_eq_bind, Option.bind_some]
  by_cases hc : mo = 0 ∧ ml = 0 ∧ mr = 0
  · rw [if_pos hc, Buf.read_eq (lt_of_lt_of_le hsz (le_trans (wordsBelow_mono (Nat.succ_le_succ (Nat.zero_le xl))) hl2)),
      Buf.read_eq (lt_of_lt_of_le hsz (le_trans (wordsBelow_mono (Nat.succ_le_succ (Nat.zero_le xr))) hr2))]
    simp only [Option.bind_some]
    refine ⟨_, Buf.addAt_eq (by rw [h2]; exact hszo) _, h2, fun p => ?_⟩
    dsimp only
    by_cases hp : p = 0
    · subst hp
      rw [Function.update_self, if_pos ⟨rfl, hc⟩, h3, hterm]
    · rw [Function.update_of_ne hp, if_neg (fun h => hp h.1), add_zero, h3, hterm]
  · rw [if_neg hc]
    refine ⟨b', rfl, h2, fun p => ?_⟩
    rw [if_neg (fun h => hc h.2), add_zero, h3, hterm]

/-- on words, the total added is the concatenation product -/
theorem fmaTerm_wordIndex {op : K → K} (hop : op 0 = 0) {vo vl vr : View}
    (hwl : vl.width = vo.width) (hwr : vr.width = vo.width) (lhs rhs : Buf K)
    (u : List (Fin vo.width)) (h1 : vo.minDeg ≤ u.length) (h2 : u.length ≤ vo.maxDeg) :
    fmaTerm op vo vl vr lhs.get rhs.get (wordIndex u) +
      (if wordIndex u = 0 ∧ vo.minDeg = 0 ∧ vl.minDeg = 0 ∧ vr.minDeg = 0 then
          op (lhs.get 0 * rhs.get 0) else 0) =
      ∑ k ∈ range (u.length + 1), op
        (vl.series vo.width lhs (u.take k) * vr.series vo.width rhs (u.drop k)) := by
  obtain ⟨w, Do, mo, xo⟩ := vo
  obtain ⟨wl, Dl, ml, xl⟩ := vl
  obtain ⟨wr, Dr, mr, xr⟩ := vr
  obtain rfl : wl = w := hwl
  obtain rfl : wr = wl := hwr
  dsimp only at h1 h2 u ⊢
  have hterm : ∀ k ∈ range (u.length + 1), op
        ((View.series ⟨wr, Dl, ml, xl⟩ wr lhs) (u.take k) *
          (View.series ⟨wr, Dr, mr, xr⟩ wr rhs) (u.drop k)) =
      if (ml ≤ k ∧ k ≤ xl) ∧ (mr ≤ u.length - k ∧ u.length - k ≤ xr) then
        op (lhs.get (wordIndex (u.take k)) * rhs.get (wordIndex (u.drop k))) else 0 := by
    intro k hk
    rw [mem_range] at hk
    unfold View.series
    dsimp only
    rw [List.length_take, List.length_drop, min_eq_left (by omega)]
    split_ifs <;> simp_all
  rw [sum_congr rfl hterm]
  rcases Nat.eq_zero_or_pos u.length with h0 | hpos
  · have hu : u = [] := List.length_eq_zero_iff.1 h0
    subst hu
    have hF : fmaTerm op ⟨wr, Do, mo, xo⟩ ⟨wr, Dl, ml, xl⟩ ⟨wr, Dr, mr, xr⟩ lhs.get rhs.get
        (wordIndex ([] : List (Fin wr))) = 0 := by
      unfold fmaTerm
      refine sum_eq_zero fun od _ => ?_
      split_ifs with h
      · refine sum_eq_zero fun ld _ => ?_
        split_ifs with h'
        · unfold pairTerm
          rw [if_neg]
          rw [inLevel_wordIndex]
          dsimp only at h
          simp only [List.length_nil]
          omega
        · rfl
      · rfl
    rw [hF, zero_add]
    have hi0 : wordIndex ([] : List (Fin wr)) = 0 := by simp [wordIndex, wordOffset, wordsBelow]
    simp only [List.length_nil, zero_add, sum_range_one, List.take_nil, List.drop_nil, hi0]
    refine if_congr ?_ rfl rfl
    simp only [List.length_nil] at h1
    rw [true_and]
    omega
  · have hne : wordIndex u ≠ 0 := by
      have := wordsBelow_mono (w := wr) (d := 1) (e := u.length) hpos
      simp [wordsBelow] at this
      unfold wordIndex wordsBelow
      omega
    rw [if_neg (fun h => hne h.1), add_zero]
    unfold fmaTerm
    rw [sum_eq_single u.length]
    · rw [if_pos (by dsimp only; omega)]
      refine sum_congr rfl fun k hk => ?_
      rw [mem_range] at hk
      rw [pairTerm_wordIndex op _ _ u (by omega)]
    · intro od _ hne'
      split_ifs with h
      · refine sum_eq_zero fun ld _ => ?_
        split_ifs with h'
        · unfold pairTerm
          rw [if_neg]
          rw [inLevel_wordIndex]
          omega
        · rfl
      · rfl
    · intro h; simp at h; omega

/-- outside the levels of the output view nothing is added -/
theorem fmaTerm_outside {op : K → K} {vo vl vr : View} {A B : ℕ → K} {p : ℕ}
    (h : ∀ d, vo.minDeg ≤ d → d ≤ vo.maxDeg → ¬ InLevel vo.width d p) :
    fmaTerm op vo vl vr A B p = 0 := by
  unfold fmaTerm
  refine sum_eq_zero fun od hod => ?_
  rw [mem_range] at hod
  split_ifs with h1
  · refine sum_eq_zero fun ld _ => ?_
    split_ifs
    · exact if_neg (h od (by omega) (by omega))
    · rfl
  · rfl

/-! ### `ft_inplace_mul` -/

theorem scaleLevel_spec (op : K → K) {w od rmin : ℕ} {rhs b : Buf K}
    (hfo : wordsBelow w (od + 1) ≤ b.size) (hr : 0 < rhs.size) :
    ∃ b', scaleLevel op rmin ⟨wordsBelow w od, w ^ od⟩ rhs b = some b' ∧ b'.size = b.size ∧
      ∀ p, b'.get p = if InLevel w od p then
        (if rmin = 0 then op (b.get p * rhs.get 0) else 0) else b.get p := by
  rw [wordsBelow_succ] at hfo
  have key : ∀ (g : K → K) (body : Buf K → ℕ → Option (Buf K)),
      (∀ s i, s.size = b.size → i < w ^ od → body s i =
        some ⟨s.size, Function.update s.get (wordsBelow w od + i)
          (g (s.get (wordsBelow w od + i)))⟩) →
      ∃ b', loop (List.range (w ^ od)) b body = some b' ∧ b'.size = b.size ∧
        ∀ p, b'.get p = if InLevel w od p then g (b.get p) else b.get p := by
    intro g body hbody
    obtain ⟨b', h1, h2, h3⟩ := loop_range_inv
      (fun i s => s.size = b.size ∧ ∀ p, s.get p =
        if wordsBelow w od ≤ p ∧ p < wordsBelow w od + i then g (b.get p) else b.get p)
      (w ^ od) body b ⟨rfl, fun p => by rw [if_neg (by omega)]⟩ (by
        rintro i hi s ⟨hs, hg⟩
        refine ⟨_, hbody s i hs hi, hs, fun p => ?_⟩
        dsimp only
        by_cases hp : p = wordsBelow w od + i
        · subst hp
          rw [Function.update_self, if_pos (by omega), hg, if_neg (by omega)]
        · rw [Function.update_of_ne hp, hg]
          refine if_congr ?_ rfl rfl
          omega)
    exact ⟨b', h1, h2, h3⟩
  unfold scaleLevel
  split_ifs with h
  · refine key (fun x => op (x * rhs.get 0)) _ ?_
    intro s i hs hi
    rw [Frag.at_eq (by exact hi)]
    simp only [Option.bind_eq_bind, Option.bind_some]
    rw [Buf.read_eq (by omega), Buf.read_eq hr]
    simp only [Option.bind_some]
    rw [Buf.write_eq (by omega)]
  · refine key (fun _ => 0) _ ?_
    intro s i hs hi
    rw [Frag.at_eq (by exact hi)]
    simp only [Option.bind_eq_bind, Option.bind_some]
    rw [Buf.write_eq (by omega)]

/-- new value of position `p` of level `od` after `ft_inplace_mul` -/
def inplaceVal (op : K → K) (vl vr : View) (A B : ℕ → K) (od p : ℕ) : K :=
  (if vr.minDeg = 0 then op (A p * B 0) else 0) +
    ∑ ld ∈ range od,
      if vl.minDeg ≤ ld ∧ (vr.minDeg ≤ od - ld ∧ od - ld ≤ vr.maxDeg) then
        pairTerm op vl.width A B od ld p else 0

theorem inplaceVal_congr {op : K → K} {vl vr : View} {A A' B : ℕ → K} {od p : ℕ}
    (h : ∀ q, (∃ d, d ≤ od ∧ InLevel vl.width d q) → A q = A' q) (hp : InLevel vl.width od p) :
    inplaceVal op vl vr A B od p = inplaceVal op vl vr A' B od p := by
  unfold inplaceVal
  rw [h p ⟨od, le_rfl, hp⟩]
  congr 1
  refine sum_congr rfl fun ld hld => ?_
  rw [mem_range] at hld
  refine if_congr Iff.rfl ?_ rfl
  unfold pairTerm
  rw [if_pos hp, if_pos hp, h]
  refine ⟨ld, by omega, Nat.le_add_right _ _, Nat.add_lt_add_left ?_ _⟩
  obtain ⟨h1, h2⟩ := hp
  have hpow : vl.width ^ od = vl.width ^ ld * vl.width ^ (od - ld) := by
    rw [← pow_add]; congr 1; omega
  have hpos : 0 < vl.width ^ (od - ld) := by
    rcases Nat.eq_zero_or_pos (vl.width ^ (od - ld)) with h0 | h0
    · rw [h0, mul_zero] at hpow; omega
    · exact h0
  rw [Nat.div_lt_iff_lt_mul hpos]
  omega

/-- one iteration of the outer loop of `ft_inplace_mul` -/
theorem inplaceLevel_spec (op : K → K) {vl vr : View} {lhs rhs : Buf K} {od : ℕ}
    (hw : vr.width = vl.width) (hl : vl.Valid lhs.size) (hr : vr.Valid rhs.size)
    (_h1 : 1 ≤ od) (hmin : vl.minDeg ≤ od) (hmax : od ≤ vl.maxDeg) :
    ∃ b', (do
      let lhsMin : ℤ := max (vl.minDeg : ℤ) ((od : ℤ) - vr.maxDeg)
      let lhsMax : ℤ := (od : ℤ) - max 1 (vr.minDeg : ℤ)
      let fo ← vl.atLevel od
      let lhs ← scaleLevel op vr.minDeg fo rhs lhs
      loop (degreesDown lhsMax lhsMin) lhs fun lhs ld => do
        let fl ← vl.atLevel ld
        let fr ← vr.atLevel (od - ld)
        mulAccumulate op fo fl fr (fun st i => st.read i) rhs lhs) = some b' ∧
      b'.size = lhs.size ∧
      ∀ p, b'.get p = if InLevel vl.width od p then
        inplaceVal op vl vr lhs.get rhs.get od p else lhs.get p := by
  obtain ⟨w, Dl, ml, xl⟩ := vl
  obtain ⟨wr, Dr, mr, xr⟩ := vr
  obtain rfl : wr = w := hw
  rename' wr => w
  obtain ⟨hl1, hl2⟩ := hl
  obtain ⟨hr1, hr2⟩ := hr
  dsimp only at *
  have hrpos : 0 < rhs.size := by
    have : 0 < wordsBelow w 1 := by simp [wordsBelow]
    exact lt_of_lt_of_le this (le_trans (wordsBelow_mono (Nat.succ_le_succ (Nat.zero_le xr))) hr2)
  have hfo := View.atLevel_eq (v := ⟨w, Dl, ml, xl⟩) (d := od) hl1 hmin hmax
  rw [hfo]
  obtain ⟨s, hs1, hs2, hs3⟩ := scaleLevel_spec op (w := w) (od := od) (rmin := mr) (rhs := rhs)
    (b := lhs) ((wordsBelow_mono (by omega)).trans hl2) hrpos
  simp only [Option.bind_eq_bind, Option.bind_some]
  rw [hs1]
  simp only [Option.bind_some]
  let P : Buf K → Prop := fun b => b.size = lhs.size ∧
    ∀ p, ¬ InLevel w od p → b.get p = lhs.get p
  obtain ⟨b', h2, h3, h4⟩ := loop_add (P := P)
    (degreesDown ((od : ℤ) - max 1 (mr : ℤ)) (max (ml : ℤ) ((od : ℤ) - xr)))
    (fun st ld => do
      let fl ← View.atLevel ⟨w, Dl, ml, xl⟩ ld
      let fr ← View.atLevel ⟨w, Dr, mr, xr⟩ (od - ld)
      mulAccumulate op ⟨wordsBelow w od, w ^ od⟩ fl fr (fun st i => st.read i) rhs st)
    (fun ld p => pairTerm op w lhs.get rhs.get od ld p) (by
      intro ld hld
      rw [mem_degreesDown (by omega)] at hld
      have hfl := View.atLevel_eq (v := ⟨w, Dl, ml, xl⟩) (d := ld) hl1 (by dsimp only; omega)
        (by dsimp only; omega)
      have hfr := View.atLevel_eq (v := ⟨w, Dr, mr, xr⟩) (d := od - ld) hr1
        (by dsimp only; omega) (by dsimp only; omega)
      rw [hfl, hfr]
      refine mulAccumulate_level (N := lhs.size) (by omega) (fun b hb => hb.1)
        ((wordsBelow_mono (by omega)).trans hl2) ((wordsBelow_mono (by omega)).trans hr2) ?_ ?_
      · intro b hb p hp
        have hne : ¬ InLevel w od p := fun h => by have := h.unique hp; omega
        rw [Buf.read_eq, hb.2 p hne]
        rw [hb.1]
        exact inLevel_lt hp (by omega) hl2
      · intro b hb p v hp
        refine ⟨hb.1, fun q hq => ?_⟩
        dsimp only
        rw [Function.update_of_ne, hb.2 q hq]
        rintro rfl; exact hq hp) s ⟨hs2, fun p hp => by rw [hs3, if_neg hp]⟩
  refine ⟨b', ?_, h3.1, fun p => ?_⟩
  · simpa only [Option.bind_eq_bind] using h2
  · rw [h4, hs3, sum_degreesDown (by omega) _ (N := od) (by omega)]
    by_cases hp : InLevel w od p
    · rw [if_pos hp, if_pos hp]
      unfold inplaceVal
      dsimp only
      congr 1
      refine sum_congr rfl fun ld hld => ?_
      rw [mem_range] at hld
      refine if_congr ?_ rfl rfl
      omega
    · rw [if_neg hp, if_neg hp, sum_eq_zero, add_zero]
      intro ld _
      split_ifs
      · exact if_neg hp
      · rfl

theorem ftInplaceMul_spec (op : K → K) {vl vr : View} {lhs rhs : Buf K}
    (hw : vr.width = vl.width) (hl : vl.Valid lhs.size) (hr : vr.Valid rhs.size) :
    ∃ out, ftInplaceMul op vl vr lhs rhs = some out ∧ out.size = lhs.size ∧
      (∀ d p, InLevel vl.width d p → max 1 vl.minDeg ≤ d → d ≤ vl.maxDeg →
        out.get p = inplaceVal op vl vr lhs.get rhs.get d p) ∧
      (out.get 0 = if vl.minDeg = 0 then
          (if vr.minDeg = 0 then op (lhs.get 0 * rhs.get 0) else 0) else lhs.get 0) ∧
      (∀ p, p ≠ 0 → (∀ d, max 1 vl.minDeg ≤ d → d ≤ vl.maxDeg → ¬ InLevel vl.width d p) →
        out.get p = lhs.get p) := by
  set lo := max 1 vl.minDeg with hlo
  have hlev0 : ∀ d, 1 ≤ d → ¬ InLevel vl.width d 0 := by
    intro d hd h
    have := wordsBelow_mono (w := vl.width) (d := 1) (e := d) hd
    have h1 : wordsBelow vl.width 1 = 1 := by simp [wordsBelow]
    have := h.1
    omega
  obtain ⟨b', h1, h2, h3⟩ := loop_map_range_inv
    (fun i (s : Buf K) => s.size = lhs.size ∧ ∀ p,
      (∀ d, InLevel vl.width d p → lo ≤ d → d ≤ vl.maxDeg → vl.maxDeg < d + i →
        s.get p = inplaceVal op vl vr lhs.get rhs.get d p) ∧
      ((∀ d, lo ≤ d → d ≤ vl.maxDeg → vl.maxDeg < d + i → ¬ InLevel vl.width d p) →
        s.get p = lhs.get p))
    (vl.maxDeg + 1 - lo) (fun i => vl.maxDeg - i)
    (fun lhs od => do
      let lhsMin : ℤ := max (vl.minDeg : ℤ) ((od : ℤ) - vr.maxDeg)
      let lhsMax : ℤ := (od : ℤ) - max 1 (vr.minDeg : ℤ)
      let fo ← vl.atLevel od
      let lhs ← scaleLevel op vr.minDeg fo rhs lhs
      loop (degreesDown lhsMax lhsMin) lhs fun lhs ld => do
        let fl ← vl.atLevel ld
        let fr ← vr.atLevel (od - ld)
        mulAccumulate op fo fl fr (fun st i => st.read i) rhs lhs) lhs
    ⟨rfl, fun p => ⟨fun d _ _ h1 h2 => by omega, fun _ => rfl⟩⟩ (by
      rintro i hi s ⟨hs, hg⟩
      have hod : vl.maxDeg - i ≤ vl.maxDeg := Nat.sub_le _ _
      have hod2 : lo ≤ vl.maxDeg - i := by omega
      obtain ⟨s', e1, e2, e3⟩ := inplaceLevel_spec op (lhs := s) (rhs := rhs)
        (od := vl.maxDeg - i) hw (by rw [hs]; exact hl) hr (by omega) (by omega) hod
      refine ⟨s', e1, e2.trans hs, fun p => ⟨fun d hd h1 h2 h3 => ?_, fun h => ?_⟩⟩
      · rw [e3]
        by_cases hp : InLevel vl.width (vl.maxDeg - i) p
        · obtain rfl := hd.unique hp
          rw [if_pos hp]
          refine inplaceVal_congr (fun q hq => ?_) hp
          refine (hg q).2 fun d' h1' h2' h3' hd' => ?_
          obtain ⟨d'', hle, hd''⟩ := hq
          have := hd'.unique hd''
          omega
        · rw [if_neg hp]
          refine (hg p).1 d hd h1 h2 ?_
          by_contra hcon
          have : d = vl.maxDeg - i := by omega
          rw [this] at hd
          exact hp hd
      · rw [e3, if_neg (h _ hod2 hod (by omega))]
        exact (hg p).2 fun d h1 h2 h3 => h d h1 h2 (by omega))
  have hsz : 0 < lhs.size := by
    have h1 : wordsBelow vl.width 1 = 1 := by simp [wordsBelow]
    have := wordsBelow_mono (w := vl.width) (d := 1) (e := vl.maxDeg + 1) (by omega)
    have := hl.fits
    omega
  have hszr : 0 < rhs.size := by
    have h1 : wordsBelow vr.width 1 = 1 := by simp [wordsBelow]
    have := wordsBelow_mono (w := vr.width) (d := 1) (e := vr.maxDeg + 1) (by omega)
    have := hr.fits
    omega
  have hb0 : b'.get 0 = lhs.get 0 := (h3 0).2 fun d h1 _ _ => hlev0 d (by omega)
  -- the final write only touches position 0
  have fin : ∀ x : K, ∀ r : Option (Buf K), r = b'.write 0 x →
      (x = if vl.minDeg = 0 then
          (if vr.minDeg = 0 then op (lhs.get 0 * rhs.get 0) else 0) else lhs.get 0) →
      ∃ out, r = some out ∧ out.size = lhs.size ∧
      (∀ d p, InLevel vl.width d p → lo ≤ d → d ≤ vl.maxDeg →
        out.get p = inplaceVal op vl vr lhs.get rhs.get d p) ∧
      (out.get 0 = if vl.minDeg = 0 then
          (if vr.minDeg = 0 then op (lhs.get 0 * rhs.get 0) else 0) else lhs.get 0) ∧
      (∀ p, p ≠ 0 → (∀ d, lo ≤ d → d ≤ vl.maxDeg → ¬ InLevel vl.width d p) →
        out.get p = lhs.get p) := by
    rintro x r rfl hx
    refine ⟨_, Buf.write_eq (by omega) x, h2, ?_, ?_, ?_⟩
    · intro d p hp h1 h2
      have : p ≠ 0 := by rintro rfl; exact hlev0 d (by omega) hp
      dsimp only
      rw [Function.update_of_ne this]
      exact (h3 p).1 d hp h1 h2 (by omega)
    · dsimp only; rw [Function.update_self, hx]
    · intro p hp h
      dsimp only
      rw [Function.update_of_ne hp]
      exact (h3 p).2 fun d h1 h2 _ => h d h1 h2
  unfold ftInplaceMul
  rw [degreesDown_nat, ← hlo]
  simp only [] at h1
  rw [h1]
  simp only [Option.bind_eq_bind, Option.bind_some]
  by_cases c1 : vl.minDeg = 0
  · by_cases c2 : vr.minDeg = 0
    · rw [if_pos ⟨c1, c2⟩, Buf.read_eq (by omega), Buf.read_eq hszr]
      refine fin (op (b'.get 0 * rhs.get 0)) _ rfl ?_
      rw [if_pos c1, if_pos c2, hb0]
    · rw [if_neg (fun h => c2 h.2), if_pos c1]
      refine fin 0 _ rfl ?_
      rw [if_pos c1, if_neg c2]
  · rw [if_neg (fun h => c1 h.1), if_neg c1]
    refine ⟨b', rfl, h2, ?_, ?_, ?_⟩
    · intro d p hp h1 h2
      exact (h3 p).1 d hp h1 h2 (by omega)
    · rw [if_neg c1, hb0]
    · intro p _ h
      exact (h3 p).2 fun d h1 h2 _ => h d h1 h2

/-- In terms of words: every coefficient within the degree range of `lhs` becomes the
coefficient of the product. -/
theorem ftInplaceMul_word {op : K → K} (hop : op 0 = 0) {vl vr : View} {lhs rhs : Buf K}
    (hw : vr.width = vl.width) (hl : vl.Valid lhs.size) (hr : vr.Valid rhs.size) :
    ∃ out, ftInplaceMul op vl vr lhs rhs = some out ∧ out.size = lhs.size ∧
      (∀ u : List (Fin vl.width), vl.minDeg ≤ u.length → u.length ≤ vl.maxDeg →
        out.get (wordIndex u) = ∑ k ∈ range (u.length + 1),
          op (vl.series vl.width lhs (u.take k) * vr.series vl.width rhs (u.drop k))) ∧
      (∀ p, (∀ d, vl.minDeg ≤ d → d ≤ vl.maxDeg → ¬ InLevel vl.width d p) →
        out.get p = lhs.get p) := by
  obtain ⟨out, h1, h2, h3, h4, h5⟩ := ftInplaceMul_spec op hw hl hr
  refine ⟨out, h1, h2, fun u hu1 hu2 => ?_, fun p hp => ?_⟩
  · rcases Nat.eq_zero_or_pos u.length with h0 | hpos
    · have hu : u = [] := List.length_eq_zero_iff.1 h0
      subst hu
      have hi0 : wordIndex ([] : List (Fin vl.width)) = 0 := by
        simp [wordIndex, wordOffset, wordsBelow]
      have hm : vl.minDeg = 0 := by simpa using hu1
      rw [hi0, h4, if_pos hm]
      simp only [List.length_nil, zero_add, sum_range_one, List.take_nil, View.series, hi0, hm,
        le_refl, true_and, Nat.zero_le, if_true]
      by_cases h : vr.minDeg = 0
      · rw [if_pos h, h]; simp [hi0]
      · rw [if_neg h]; simp [h, hop]
    · rw [h3 u.length _ ((inLevel_wordIndex u _).2 rfl) (by omega) hu2, sum_range_succ, add_comm]
      unfold inplaceVal
      congr 1
      · simp only [List.take_length, List.drop_length, View.series]
        rw [if_pos (And.intro hu1 hu2)]
        have hi0 : wordIndex ([] : List (Fin vl.width)) = 0 := by
          simp [wordIndex, wordOffset, wordsBelow]
        by_cases h : vr.minDeg = 0
        · rw [if_pos h]; simp [h, hi0]
        · rw [if_neg h]; simp [h, hop]
      · refine sum_congr rfl fun k hk => ?_
        rw [mem_range] at hk
        rw [pairTerm_wordIndex op _ _ u (by omega)]
        unfold View.series
        rw [List.length_take, List.length_drop, min_eq_left (by omega)]
        by_cases c1 : vl.minDeg ≤ k
        · by_cases c2 : vr.minDeg ≤ u.length - k ∧ u.length - k ≤ vr.maxDeg
          · rw [if_pos ⟨c1, c2⟩, if_pos ⟨c1, by omega⟩, if_pos c2]
          · rw [if_neg (fun h => c2 h.2), if_neg c2, mul_zero, hop]
        · rw [if_neg (fun h => c1 h.1), if_neg (fun h => c1 h.1), zero_mul, hop]
  · by_cases h0 : p = 0
    · subst h0
      have hm : vl.minDeg ≠ 0 := by
        intro h
        refine hp 0 (by omega) (by omega) ?_
        simp [InLevel, wordsBelow]
      rw [h4, if_neg hm]
    · exact h5 p h0 fun d h1 h2 => hp d (by omega) h2

end RoughPy.Tensor
