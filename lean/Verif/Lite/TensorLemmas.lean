import Verif.Lite.HistoryLemmas
import Verif.Tensor.MulLemmas

set_option linter.unusedSectionVars false

/-! # Products of sparse and dense free tensors are truncated concatenation products -/

namespace RoughPy.Lite

open RoughPy.Tensor RoughPy.Tensor.Series Finset

variable {K : Type}

/-- the key of a word -/
def wordKey {w : ℕ} (u : List (Fin w)) : Key := ⟨u.length, wordOffset u⟩

theorem wordKey_nil (w : ℕ) : wordKey ([] : List (Fin w)) = ⟨0, 0⟩ := rfl

theorem wordKey_inj {w : ℕ} {u v : List (Fin w)} (h : wordKey u = wordKey v) : u = v := by
  unfold wordKey at h
  rw [Key.mk.injEq] at h
  exact wordOffset_inj h.1 h.2

theorem keyIndex_wordKey {w : ℕ} (u : List (Fin w)) :
    keyIndex (wordsBelow w) (wordKey u) = wordIndex u := rfl

theorem wordKey_valid {w depth : ℕ} {u : List (Fin w)} (h : u.length ≤ depth) :
    ValidKey (wordsBelow w) depth (wordKey u) := by
  refine ⟨h, ?_⟩
  rw [wordsBelow_succ]
  have := wordOffset_lt u
  simp only [wordKey]
  omega

theorem exists_wordKey {w depth : ℕ} {k : Key} (h : ValidKey (wordsBelow w) depth k) :
    ∃ u : List (Fin w), u.length ≤ depth ∧ wordKey u = k := by
  obtain ⟨d, i⟩ := k
  obtain ⟨h1, h2⟩ := h
  rw [wordsBelow_succ] at h2
  obtain ⟨u, hu, hi⟩ := exists_word (w := w) (d := d) (r := i) (by dsimp only at h2; omega)
  exact ⟨u, by rw [hu]; exact h1, by rw [wordKey, hu, hi]⟩

/-! ### Dense tensors -/

namespace Dense
variable [CommRing K] [DecidableEq K]

/-- the tensor stored in a dense vector -/
def ser (w : ℕ) (v : Dense K) : Series (Fin w) K := fun u => v.entry (wordIndex u)

/-- the storage is empty or consists of exactly the degrees up to `degree` -/
def Whole (w depth : ℕ) (v : Dense K) : Prop :=
  v.storage = [] ∨ (v.degree ≤ depth ∧ v.storage.length = wordsBelow w (v.degree + 1))

theorem ser_eq_zero {w : ℕ} {v : Dense K} {d : ℕ} (h : v.storage.length ≤ wordsBelow w (d + 1))
    {u : List (Fin w)} (hu : d < u.length) : v.ser w u = 0 := by
  refine entry_of_le (h.trans ?_)
  refine (wordsBelow_mono (show d + 1 ≤ u.length by omega)).trans ?_
  unfold wordIndex; omega

theorem Whole.length_le {w depth : ℕ} {v : Dense K} (h : v.Whole w depth) :
    v.storage.length ≤ wordsBelow w (depth + 1) := by
  rcases h with h | ⟨h1, h2⟩
  · rw [h]; exact Nat.zero_le _
  · rw [h2]; exact wordsBelow_mono (by omega)

/-- the sum added at position `p` -/
def fmaSum (fn : K → K) (w L R O : ℕ) (A B : ℕ → K) (p : ℕ) : K :=
  ∑ od ∈ range (O + 1), ∑ ld ∈ range (od + 1),
    if ld ≤ L ∧ od - ld ≤ R then pairTerm fn w A B od ld p else 0

theorem fmaDenseTraditional_spec (fn : K → K) {w depth L R O : ℕ} {out lhs rhs : Buf K}
    (hO : O ≤ depth) (ho : wordsBelow w (O + 1) ≤ out.size)
    (hl : wordsBelow w (L + 1) ≤ lhs.size) (hr : wordsBelow w (R + 1) ≤ rhs.size) :
    ∃ out', fmaDenseTraditional w depth L R fn O out lhs rhs = some out' ∧
      out'.size = out.size ∧
      ∀ p, out'.get p = out.get p + fmaSum fn w L R O lhs.get rhs.get p := by
  let P : Buf K → Prop := fun b => b.size = out.size
  obtain ⟨b', h1, h2, h3⟩ := loop_add (P := P) (degreesDown (O : ℕ) 0)
    (fun out od => do
      let lhsMin : ℤ := max 0 ((od : ℤ) - R)
      let lhsMax : ℤ := min od L
      let o ← tensorStart w depth od
      loop (degreesDown lhsMax lhsMin) out fun out ld => do
        let l ← tensorStart w depth ld
        let r ← tensorStart w depth (od - ld)
        let ls ← (tensorPowers w depth)[ld]?
        let rs ← (tensorPowers w depth)[od - ld]?
        mulAccumulate fn ⟨o, ls * rs⟩ ⟨l, ls⟩ ⟨r, rs⟩ (fun _ i => lhs.read i) rhs out)
    (fun od p => ((degreesDown (min (od : ℤ) L) (max 0 ((od : ℤ) - R))).map
      fun ld => pairTerm fn w lhs.get rhs.get od ld p).sum) (by
      intro od hod
      rw [mem_degreesDown (by omega)] at hod
      rw [tensorStart_eq (by omega)]
      refine loop_add (P := P) _ _ (fun ld p => pairTerm fn w lhs.get rhs.get od ld p) ?_
      intro ld hld
      rw [mem_degreesDown (by omega)] at hld
      rw [tensorStart_eq (d := ld) (by omega), tensorStart_eq (d := od - ld) (by omega),
        tensorPowers_get (d := ld) (by omega), tensorPowers_get (d := od - ld) (by omega)]
      have hsz : w ^ ld * w ^ (od - ld) = w ^ od := by rw [← pow_add]; congr 1; omega
      simp only [Option.bind_eq_bind, Option.bind_some, hsz]
      refine mulAccumulate_level (N := out.size) (by omega) (fun b hb => hb)
        ((wordsBelow_mono (by omega)).trans ho) ((wordsBelow_mono (by omega)).trans hr) ?_ ?_
      · intro b _ p hp
        exact Buf.read_eq (inLevel_lt hp (by omega) hl)
      · intro b hb p v _
        exact hb) out rfl
  refine ⟨b', h1, h2, fun p => ?_⟩
  rw [h3]
  congr 1
  rw [sum_degreesDown (by omega) _ (N := O + 1) (by omega)]
  unfold fmaSum
  refine sum_congr rfl fun od hod => ?_
  rw [mem_range] at hod
  rw [if_pos (by omega), sum_degreesDown (by omega) _ (N := od + 1) (by omega)]
  refine sum_congr rfl fun ld hld => ?_
  rw [mem_range] at hld
  refine if_congr ?_ rfl rfl
  omega

theorem fmaSum_wordIndex {fn : K → K} {w L R O : ℕ} (A B : ℕ → K) (u : List (Fin w)) :
    fmaSum fn w L R O A B (wordIndex u) =
      if u.length ≤ O then ∑ k ∈ range (u.length + 1),
        if k ≤ L ∧ u.length - k ≤ R then
          fn (A (wordIndex (u.take k)) * B (wordIndex (u.drop k))) else 0
      else 0 := by
  unfold fmaSum
  have hz : ∀ od, od ≠ u.length → (∑ ld ∈ range (od + 1),
      if ld ≤ L ∧ od - ld ≤ R then pairTerm fn w A B od ld (wordIndex u) else 0) = 0 := by
    intro od hod
    refine sum_eq_zero fun ld _ => ?_
    split_ifs
    · unfold pairTerm
      rw [if_neg]
      rw [inLevel_wordIndex]
      exact fun h => hod h.symm
    · rfl
  split_ifs with h
  · rw [sum_eq_single u.length (fun od _ hod => hz od hod)
      (fun hn => absurd (mem_range.2 (by omega)) hn)]
    refine sum_congr rfl fun k hk => ?_
    rw [mem_range] at hk
    rw [pairTerm_wordIndex fn A B u (by omega)]
  · refine sum_eq_zero fun od hod => hz od ?_
    rw [mem_range] at hod
    omega

/-- the terms of the product restricted to the stored degrees -/
theorem sum_stored {fn : K → K} (h0 : fn 0 = 0) {w : ℕ} {a b : Dense K}
    (ha : a.storage.length = wordsBelow w (a.degree + 1))
    (hb : b.storage.length = wordsBelow w (b.degree + 1)) (u : List (Fin w)) :
    (∑ k ∈ range (u.length + 1), if k ≤ a.degree ∧ u.length - k ≤ b.degree then
      fn (a.entry (wordIndex (u.take k)) * b.entry (wordIndex (u.drop k))) else 0) =
    ∑ k ∈ range (u.length + 1), fn (a.ser w (u.take k) * b.ser w (u.drop k)) := by
  refine sum_congr rfl fun k hk => ?_
  rw [mem_range] at hk
  split_ifs with h
  · rfl
  · by_cases hk' : k ≤ a.degree
    · rw [ser_eq_zero (v := b) (d := b.degree) hb.le
        (by rw [List.length_drop]; omega), mul_zero, h0]
    · rw [ser_eq_zero (v := a) (d := a.degree) ha.le
        (by rw [List.length_take]; omega), zero_mul, h0]

theorem entry_toList (b : Buf K) (d i : ℕ) :
    (⟨b.toList, d⟩ : Dense K).entry i = if i < b.size then b.get i else 0 := by
  unfold entry Buf.toList
  dsimp only
  rw [List.getElem?_map]
  by_cases h : i < b.size
  · rw [List.getElem?_range h, if_pos h]; rfl
  · rw [List.getElem?_eq_none (by simpa using h), if_neg h]; rfl

theorem length_toList (b : Buf K) : b.toList.length = b.size := by simp [Buf.toList]

/-- resizing to the size of a degree -/
theorem resize_degree (w depth : ℕ) (v : Dense K) {d : ℕ} (hd : d ≤ depth) :
    ∃ e, e ≤ d ∧ (v.resize (tensorBasis w depth) (wordsBelow w (d + 1) - 1)).degree = e ∧
      wordsBelow w (e + 1) = wordsBelow w (d + 1) ∧
      (v.resize (tensorBasis w depth) (wordsBelow w (d + 1) - 1)).storage.length =
        wordsBelow w (d + 1) ∧
      ∀ i, (v.resize (tensorBasis w depth) (wordsBelow w (d + 1) - 1)).entry i =
        if i < wordsBelow w (d + 1) then v.entry i else 0 := by
  have hpos : 0 < wordsBelow w (d + 1) := by rw [wordsBelow_succ']; omega
  have hlt : wordsBelow w (d + 1) - 1 < wordsBelow w ((tensorBasis w depth).depth + 1) := by
    have := wordsBelow_mono (w := w) (show d + 1 ≤ depth + 1 by omega)
    show _ < wordsBelow w (depth + 1)
    omega
  obtain ⟨e, h1, h2, h3, h4⟩ := (tensorBasis_lawful w depth).nextDimension hlt
  have hed : e ≤ d := by
    by_contra hcon
    have := wordsBelow_mono (w := w) (show d + 1 ≤ e by omega)
    omega
  have he : wordsBelow w (e + 1) = wordsBelow w (d + 1) := by
    have := wordsBelow_mono (w := w) (show e + 1 ≤ d + 1 by omega)
    omega
  refine ⟨e, hed, ?_, he, ?_, fun i => ?_⟩
  · unfold resize; rw [h2]; rfl
  · unfold resize; rw [h2, length_resizeExact]; exact he
  · unfold resize; rw [h2, entry_resizeExact, he]

/-- The dense product into `out`, when `out` has no more entries than the result. -/
theorem denseFma_spec {w depth : ℕ} (hdep : 1 ≤ depth) {fn : K → K} (h0 : fn 0 = 0)
    {out a b : Dense K} {m : ℕ} (ha : a.Whole w depth) (hb : b.Whole w depth)
    (hane : a.storage ≠ []) (hbne : b.storage ≠ [])
    (hout : out.storage.length ≤ wordsBelow w (min (min m depth) (a.degree + b.degree) + 1)) 
    (hout' : out.storage = [] ∨ (out.degree ≤ depth ∧
      out.storage.length = wordsBelow w (out.degree + 1))) :
    ∃ r, denseFma w depth out a b fn m = some r ∧ r.degree ≤ depth ∧
      r.storage.length = wordsBelow w (r.degree + 1) ∧
      r.storage.length = wordsBelow w (min (min m depth) (a.degree + b.degree) + 1) ∧
      ∀ u : List (Fin w), r.ser w u = out.ser w u + if u.length ≤ min m depth then
        ∑ k ∈ range (u.length + 1), fn (a.ser w (u.take k) * b.ser w (u.drop k)) else 0 := by
  obtain ⟨ha1, ha2⟩ := ha.resolve_left hane
  obtain ⟨hb1, hb2⟩ := hb.resolve_left hbne
  unfold denseFma
  have hm : (if m ≥ depth then depth else m) = min m depth := by
    split_ifs <;> omega
  dsimp only
  rw [hm]
  set O := min (min m depth) (a.degree + b.degree) with hO
  have hOd : O ≤ depth := by omega
  rw [tensorSizes_get (show O ≤ depth + 1 by omega), tensorPowers_get hdep]
  simp only [Option.bind_eq_bind, Option.bind_some]
  obtain ⟨e, e1, e2, e3, e4, e5⟩ := resize_degree w depth out hOd
  set out' := if out.size < wordsBelow w (O + 1) then
    out.resize (tensorBasis w depth) (wordsBelow w (O + 1) - 1) else out with hout'def
  have hsizele : out.size ≤ out.storage.length := List.countP_le_length
  have hlen : out'.storage.length = wordsBelow w (O + 1) := by
    rw [hout'def]; split_ifs with h
    · exact e4
    · omega
  have hdeg : out'.degree ≤ depth ∧ out'.storage.length = wordsBelow w (out'.degree + 1) := by
    rw [hout'def]; split_ifs with h
    · rw [e2, e4]; exact ⟨by omega, e3.symm⟩
    · refine hout'.resolve_left ?_
      intro hnil
      rw [hnil] at hsizele
      have : 0 < wordsBelow w (O + 1) := by rw [wordsBelow_succ']; omega
      simp only [List.length_nil] at hsizele
      omega
  have hent : ∀ i, out'.entry i = out.entry i := by
    intro i
    rw [hout'def]; split_ifs with h
    · rw [e5]
      split_ifs with hi
      · rfl
      · rw [entry_of_le]; omega
    · rfl
  obtain ⟨r, r1, r2, r3⟩ := fmaDenseTraditional_spec fn (w := w) (L := a.degree) (R := b.degree)
    (out := Buf.ofList out'.storage) (lhs := Buf.ofList a.storage) (rhs := Buf.ofList b.storage)
    hOd hlen.ge ha2.ge hb2.ge
  rw [r1]
  have hrsize : r.size = wordsBelow w (O + 1) := r2.trans hlen
  refine ⟨_, rfl, hdeg.1, ?_, ?_, fun u => ?_⟩
  · rw [length_toList, hrsize, ← hlen]; exact hdeg.2
  · rw [length_toList, hrsize]
  · show (⟨r.toList, out'.degree⟩ : Dense K).entry (wordIndex u) = _
    have hA : (Buf.ofList a.storage).get = a.entry := rfl
    have hB : (Buf.ofList b.storage).get = b.entry := rfl
    have hC : (Buf.ofList out'.storage).get = out'.entry := rfl
    rw [entry_toList, r3, hA, hB, hC, fmaSum_wordIndex, sum_stored h0 ha2 hb2, hent, hrsize]
    show _ = out.entry (wordIndex u) + _
    by_cases hu : u.length ≤ O
    · rw [if_pos (wordIndex_lt hu), if_pos hu, if_pos (by omega)]
    · have hge : wordsBelow w (O + 1) ≤ wordIndex u := by
        refine (wordsBelow_mono (show O + 1 ≤ u.length by omega)).trans ?_
        unfold wordIndex; omega
      rw [if_neg (by omega), entry_of_le (hout.trans hge), zero_add]
      split_ifs with h
      · -- beyond the sum of the degrees
        symm
        refine sum_eq_zero fun k hk => ?_
        rw [mem_range] at hk
        by_cases hk' : k ≤ a.degree
        · rw [ser_eq_zero (v := b) (d := b.degree) hb2.le
            (by rw [List.length_drop]; omega), mul_zero, h0]
        · rw [ser_eq_zero (v := a) (d := a.degree) ha2.le
            (by rw [List.length_take]; omega), zero_mul, h0]
      · rfl

end Dense

end RoughPy.Lite
