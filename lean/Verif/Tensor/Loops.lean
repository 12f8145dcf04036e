import Verif.Tensor.Meaning
import Verif.Tensor.Index
import Mathlib.Algebra.BigOperators.Group.List.Lemmas
import Mathlib.Tactic.Linarith

/-! # Reasoning about the loops and views of the kernels -/

open Finset

namespace RoughPy.Tensor

/-! ### Option monad and loops -/

theorem loop_nil {σ ι : Type} (s : σ) (body : σ → ι → Option σ) : loop [] s body = some s := rfl

theorem loop_cons {σ ι : Type} (x : ι) (l : List ι) (s : σ) (body : σ → ι → Option σ) :
    loop (x :: l) s body = (body s x).bind fun s' => loop l s' body := rfl

/-- Invariant rule for a loop running over `f 0, f 1, …, f (n-1)`. -/
theorem loop_map_range_inv {σ ι : Type} (I : ℕ → σ → Prop) (n : ℕ) (f : ℕ → ι)
    (body : σ → ι → Option σ) (s : σ) (h0 : I 0 s)
    (hstep : ∀ i, i < n → ∀ s, I i s → ∃ s', body s (f i) = some s' ∧ I (i + 1) s') :
    ∃ s', loop ((List.range n).map f) s body = some s' ∧ I n s' := by
  have key : ∀ m k s, k + m = n → I k s →
      ∃ s', loop ((List.range' k m).map f) s body = some s' ∧ I n s' := by
    intro m
    induction m with
    | zero => intro k s hk hI; exact ⟨s, rfl, by rwa [← hk]⟩
    | succ m ih =>
      intro k s hk hI
      obtain ⟨s1, h1, hI1⟩ := hstep k (by omega) s hI
      obtain ⟨s2, h2, hI2⟩ := ih (k + 1) s1 (by omega) hI1
      refine ⟨s2, ?_, hI2⟩
      rw [List.range'_succ, List.map_cons, loop_cons, h1]
      exact h2
  rw [List.range_eq_range']
  exact key n 0 s (by omega) h0

theorem loop_range_inv {σ : Type} (I : ℕ → σ → Prop) (n : ℕ)
    (body : σ → ℕ → Option σ) (s : σ) (h0 : I 0 s)
    (hstep : ∀ i, i < n → ∀ s, I i s → ∃ s', body s i = some s' ∧ I (i + 1) s') :
    ∃ s', loop (List.range n) s body = some s' ∧ I n s' := by
  have := loop_map_range_inv I n id body s h0 hstep
  rwa [List.map_id] at this

variable {K : Type}

/-- Rule for loops whose body adds something to the array, independent of its contents. -/
theorem loop_add [AddCommMonoid K] {ι : Type} {P : Buf K → Prop} (l : List ι)
    (body : Buf K → ι → Option (Buf K)) (F : ι → ℕ → K)
    (h : ∀ x ∈ l, ∀ b, P b →
      ∃ b', body b x = some b' ∧ P b' ∧ ∀ p, b'.get p = b.get p + F x p) :
    ∀ b, P b → ∃ b', loop l b body = some b' ∧ P b' ∧
      ∀ p, b'.get p = b.get p + (l.map fun x => F x p).sum := by
  induction l with
  | nil => intro b hb; exact ⟨b, rfl, hb, fun p => by simp⟩
  | cons x l ih =>
    intro b hb
    obtain ⟨b1, h1, hP1, hF1⟩ := h x (by simp) b hb
    obtain ⟨b2, h2, hP2, hF2⟩ := ih (fun y hy => h y (by simp [hy])) b1 hP1
    refine ⟨b2, ?_, hP2, fun p => ?_⟩
    · rw [loop_cons, h1]; exact h2
    · rw [hF2, hF1, List.map_cons, List.sum_cons, add_assoc]

theorem sum_list_range {M : Type*} [AddCommMonoid M] (n : ℕ) (f : ℕ → M) :
    ((List.range n).map f).sum = ∑ i ∈ range n, f i := by
  induction n with
  | zero => simp
  | succ n ih => rw [List.range_succ, List.map_append, List.sum_append, ih, sum_range_succ]; simp

/-! ### Degree ranges -/

theorem degreesDown_nat (hi lo : ℕ) :
    degreesDown hi lo = (List.range (hi + 1 - lo)).map fun i => hi - i := by
  unfold degreesDown
  have h : ((hi : ℤ) + 1 - lo).toNat = hi + 1 - lo := by omega
  rw [h]
  refine List.map_congr_left fun i hi' => ?_
  simp only [List.mem_range] at hi'
  omega

theorem mem_degreesDown {hi lo : ℤ} (hlo : 0 ≤ lo) (d : ℕ) :
    d ∈ degreesDown hi lo ↔ lo ≤ d ∧ (d : ℤ) ≤ hi := by
  unfold degreesDown
  simp only [List.mem_map, List.mem_range]
  constructor
  · rintro ⟨i, hi', rfl⟩; omega
  · rintro ⟨h1, h2⟩
    exact ⟨(hi - d).toNat, by omega, by omega⟩

theorem nodup_degreesDown {hi lo : ℤ} (hlo : 0 ≤ lo) : (degreesDown hi lo).Nodup := by
  unfold degreesDown
  refine List.Nodup.map_on ?_ List.nodup_range
  intro i hi' j hj h
  simp only [List.mem_range] at hi' hj
  omega

theorem sum_degreesDown {M : Type*} [AddCommMonoid M] {hi lo : ℤ} (hlo : 0 ≤ lo) (f : ℕ → M)
    {N : ℕ} (hN : hi < N) :
    ((degreesDown hi lo).map f).sum =
      ∑ d ∈ range N, if lo ≤ d ∧ (d : ℤ) ≤ hi then f d else 0 := by
  rw [← List.sum_toFinset _ (nodup_degreesDown hlo), ← sum_filter]
  refine sum_congr ?_ fun _ _ => rfl
  ext d
  simp only [List.mem_toFinset, mem_degreesDown hlo, mem_filter, mem_range]
  omega

theorem degreesUp_eq (lo hi : ℕ) :
    degreesUp lo hi = (List.range (hi + 1 - lo)).map fun i => lo + i := rfl

theorem mem_degreesUp {lo hi d : ℕ} : d ∈ degreesUp lo hi ↔ lo ≤ d ∧ d ≤ hi := by
  unfold degreesUp
  simp only [List.mem_map, List.mem_range]
  constructor
  · rintro ⟨i, hi', rfl⟩; omega
  · rintro ⟨h1, h2⟩; exact ⟨d - lo, by omega, by omega⟩

theorem nodup_degreesUp {lo hi : ℕ} : (degreesUp lo hi).Nodup := by
  unfold degreesUp
  refine List.Nodup.map_on ?_ List.nodup_range
  intro i _ j _ h; omega

theorem sum_degreesUp {M : Type*} [AddCommMonoid M] {hi lo : ℕ} (f : ℕ → M)
    {N : ℕ} (hN : hi < N) :
    ((degreesUp lo hi).map f).sum = ∑ d ∈ range N, if lo ≤ d ∧ d ≤ hi then f d else 0 := by
  rw [← List.sum_toFinset _ nodup_degreesUp, ← sum_filter]
  refine sum_congr ?_ fun _ _ => rfl
  ext d
  simp only [List.mem_toFinset, mem_degreesUp, mem_filter, mem_range]
  omega

/-! ### Views -/

theorem degreeBegin_eq (w d : ℕ) : degreeBegin w d = wordsBelow w d := by
  induction d with
  | zero => rfl
  | succ d ih => rw [degreeBegin, ih, wordsBelow_succ', mul_comm]

theorem View.Valid.truncate {v : View} {size : ℕ} (h : v.Valid size) (a b : ℕ) :
    (v.truncate a b).Valid size := by
  refine ⟨?_, ?_⟩
  · exact (min_le_left _ _).trans h.maxDeg_le
  · refine le_trans (wordsBelow_mono ?_) h.fits
    exact Nat.succ_le_succ (min_le_left _ _)

theorem View.atLevel_eq {v : View} {d : ℕ} (hv : v.maxDeg ≤ v.depth) (h1 : v.minDeg ≤ d)
    (h2 : d ≤ v.maxDeg) : v.atLevel d = some ⟨wordsBelow v.width d, v.width ^ d⟩ := by
  unfold View.atLevel View.degBegin?
  rw [if_pos ⟨h1, h2⟩, if_pos (by omega), if_pos (by omega)]
  simp only [Option.bind_eq_bind, Option.bind_some, degreeBegin_eq, wordsBelow_succ]
  congr 2
  omega

theorem View.size_eq {v : View} (hv : v.maxDeg ≤ v.depth) (h : v.minDeg = 0) :
    v.size = some (wordsBelow v.width (v.maxDeg + 1)) := by
  unfold View.size View.degBegin?
  rw [if_pos (by omega), if_pos (by omega), h]
  simp [degreeBegin_eq, wordsBelow_zero]

/-- position `p` belongs to level `d` -/
def InLevel (w d p : ℕ) : Prop := wordsBelow w d ≤ p ∧ p < wordsBelow w d + w ^ d

instance (w d p : ℕ) : Decidable (InLevel w d p) := inferInstanceAs (Decidable (_ ∧ _))

theorem inLevel_wordIndex {w : ℕ} (u : List (Fin w)) (d : ℕ) :
    InLevel w d (wordIndex u) ↔ u.length = d := by
  constructor
  · rintro ⟨h1, h2⟩
    exact (level_unique (s := wordIndex u - wordsBelow w d) (wordOffset_lt u) (by omega)
      (by rw [wordIndex] at *; omega)).1
  · rintro rfl
    have := wordOffset_lt u
    constructor <;> unfold wordIndex <;> omega

theorem InLevel.unique {w d e p : ℕ} (h1 : InLevel w d p) (h2 : InLevel w e p) : d = e := by
  obtain ⟨a, b⟩ := h1
  obtain ⟨a', b'⟩ := h2
  exact (level_unique (w := w) (d := d) (e := e) (r := p - wordsBelow w d)
    (s := p - wordsBelow w e) (by omega) (by omega) (by omega)).1

/-! ### Single accesses -/

theorem Buf.read_eq {b : Buf K} {i : ℕ} (h : i < b.size) : b.read i = some (b.get i) := if_pos h

theorem Buf.write_eq {b : Buf K} {i : ℕ} (h : i < b.size) (v : K) :
    b.write i v = some ⟨b.size, Function.update b.get i v⟩ := if_pos h

theorem Buf.addAt_eq [Add K] {b : Buf K} {i : ℕ} (h : i < b.size) (v : K) :
    b.addAt i v = some ⟨b.size, Function.update b.get i (b.get i + v)⟩ := by
  unfold Buf.addAt
  rw [Buf.read_eq h]
  exact Buf.write_eq h _

theorem Frag.at_eq {f : Frag} {i : ℕ} (h : i < f.size) : f.at i = some (f.start + i) := if_pos h

end RoughPy.Tensor
