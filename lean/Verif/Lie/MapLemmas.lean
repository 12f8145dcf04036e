import Verif.Lie.Maps
import Verif.Lie.HistoryLemmas
import Verif.Sparse.RunLemmas
import Verif.Tensor.Index
import Verif.Tensor.Dynkin

set_option linter.unusedSectionVars false

/-!
# The columns of the matrix from Lie elements to tensors
-/

namespace RoughPy.Lie

open RoughPy.Tensor (loop loop_nil loop_cons degreesUp Buf Series wordIndex wordOffset wordsBelow loop_range_inv
  loop_map_range_inv wordIndex_inj)
open RoughPy.Sparse

attribute [local instance] LieRing.ofAssociativeRing

/-! ## Operations on the current column -/

section Step

variable {K : Type} [AddCommMonoid K] [DecidableEq K]

/-- Same shape of the matrix. -/
def Shape (h h' : Helper K) : Prop := h'.alloc = h.alloc ∧ h'.rows = h.rows ∧ h'.cols = h.cols ∧ h'.csc = h.csc

theorem Shape.trans {a b c : Helper K} (h : Shape a b) (h' : Shape b c) : Shape a c :=
  ⟨h'.1.trans h.1, h'.2.1.trans h.2.1, h'.2.2.1.trans h.2.2.1, h'.2.2.2.trans h.2.2.2⟩

theorem Shape.refl (h : Helper K) : Shape h h := ⟨rfl, rfl, rfl, rfl⟩

/-- The operation succeeds, adds `F k` to the coefficient `k` of the current column, and touches only the indices in
`S`. -/
def Step (done : List (List (ℕ × K))) (F : ℕ → K) (S : ℕ → Prop) (f : Helper K → Option (Helper K)) : Prop :=
  ∀ h cur, Holds h done cur → ∃ h' cur', f h = some h' ∧ Holds h' done cur' ∧ (∀ k, coeff cur' k = coeff cur k + F k) ∧
    (∀ e ∈ cur', S e.1 ∨ ∃ e' ∈ cur, e'.1 = e.1) ∧ Shape h h'

theorem Step.insert (done : List (List (ℕ × K))) (index : ℕ) (v : K) (S : ℕ → Prop) (hS : S index) :
    Step done (fun k => if k = index then v else 0) S fun h => insertValue h index v := by
  intro h cur hh
  obtain ⟨h', cur', h1, h2, h3, h4, h5, h6, h7⟩ := hh.insertValue index v
  refine ⟨h', cur', h1, h2, h3.coeff, ?_, h4, h5, h6, h7⟩
  intro e he
  rcases h3.mem e he with h | h
  · exact Or.inl (h ▸ hS)
  · exact Or.inr h

theorem Step.bind {done : List (List (ℕ × K))} {F G : ℕ → K} {S : ℕ → Prop} {f g : Helper K → Option (Helper K)}
    (hf : Step done F S f) (hg : Step done G S g) : Step done (fun k => F k + G k) S fun h => (f h).bind g := by
  intro h cur hh
  obtain ⟨h1, c1, a1, a2, a3, a4, a5⟩ := hf h cur hh
  obtain ⟨h2, c2, b1, b2, b3, b4, b5⟩ := hg h1 c1 a2
  refine ⟨h2, c2, by show (f h).bind g = _; rw [a1]; exact b1, b2, fun k => by rw [b3, a3, add_assoc], ?_, a5.trans b5⟩
  intro e he
  rcases b4 e he with h | ⟨e', he', h⟩
  · exact Or.inl h
  · rcases a4 e' he' with h' | ⟨e'', he'', h'⟩
    · exact Or.inl (h ▸ h')
    · exact Or.inr ⟨e'', he'', h'.trans h⟩

theorem Step.congr {done : List (List (ℕ × K))} {F : ℕ → K} {S : ℕ → Prop} {f g : Helper K → Option (Helper K)}
    (hf : Step done F S f) (hg : ∀ h cur, Holds h done cur → g h = f h) : Step done F S g := by
  intro h cur hh
  rw [hg h cur hh]
  exact hf h cur hh

theorem Step.range {done : List (List (ℕ × K))} {α : Type} {c : List α} {F : α → ℕ → K} {S : ℕ → Prop}
    {body : Helper K → ℕ → Option (Helper K)}
    (hb : ∀ i e, c[i]? = some e → Step done (F e) S fun h => body h i) :
    Step done (fun k => (c.map fun e => F e k).sum) S fun h => loop (List.range c.length) h body := by
  intro h cur hh
  obtain ⟨h', h1, cur', h2, h3, h4, h5⟩ := loop_range_inv
    (fun i h' => ∃ cur', Holds h' done cur' ∧ (∀ k, coeff cur' k = coeff cur k + ((c.take i).map fun e => F e k).sum) ∧
      (∀ e ∈ cur', S e.1 ∨ ∃ e' ∈ cur, e'.1 = e.1) ∧ Shape h h') c.length body h
    ⟨cur, hh, fun k => by simp, fun e he => Or.inr ⟨e, he, rfl⟩, Shape.refl h⟩ (by
      rintro i hi h' ⟨c1, a2, a3, a4, a5⟩
      have hci : c[i]? = some c[i] := List.getElem?_eq_getElem hi
      obtain ⟨h2, c2, b1, b2, b3, b4, b5⟩ := hb i c[i] hci h' c1 a2
      refine ⟨h2, b1, c2, b2, ?_, ?_, a5.trans b5⟩
      · intro k
        rw [b3, a3, List.take_add_one, hci, List.map_append, List.sum_append, add_assoc]
        simp
      · intro e he
        rcases b4 e he with h | ⟨e', he', h⟩
        · exact Or.inl h
        · rcases a4 e' he' with h' | ⟨e'', he'', h'⟩
          · exact Or.inl (h ▸ h')
          · exact Or.inr ⟨e'', he'', h'.trans h⟩)
  rw [List.take_length] at h3
  exact ⟨h', cur', h1, h2, h3, h4, h5⟩

/-- Read an entry of a finished column. -/
theorem Holds.read {h : Helper K} {done : List (List (ℕ × K))} {cur : List (ℕ × K)} (hh : Holds h done cur) {f i : ℕ}
    {c : List (ℕ × K)} {e : ℕ × K} (hc : done[f]? = some c) (he : c[i]? = some e) :
    h.frames[f]? = some ⟨(done.take f).flatten.length, c.length⟩ ∧
      h.entry ⟨(done.take f).flatten.length, c.length⟩ i = some e := by
  obtain ⟨h1, h2⟩ := hh.frame hc
  refine ⟨h1, ?_⟩
  unfold Helper.entry
  rw [h2 i (List.getElem?_eq_some_iff.1 he).1, he]

/-- All columns, with the zeros of the current one removed. -/
structure Cols (h : Helper K) (cols : List (List (ℕ × K))) : Prop where
  holds : ∃ done cur, Holds h done cur ∧ cols = done ++ [purge cur]

theorem Cols.frame {h : Helper K} {cols : List (List (ℕ × K))} (hc : Cols h cols) (hf : cols.flatten ≠ [])
    (ha : cols.length < h.alloc) : ∃ h', insertFrame h = some h' ∧ Holds h' cols [] ∧ Shape h h' := by
  obtain ⟨done, cur, hh, rfl⟩ := hc.holds
  obtain ⟨h', h1, h2, h3, -, h4, h5, h6⟩ := hh.insertFrame (by
    rw [List.flatten_append] at hf
    by_cases hp : purge cur = []
    · right; right
      rw [hp] at hf
      simpa using hf
    · exact Or.inr (Or.inl hp)) (by simpa using ha)
  exact ⟨h', h1, h2, h3, h4, h5, h6⟩

theorem Cols.build {h : Helper K} {cols : List (List (ℕ × K))} (hc : Cols h cols) (hf : cols.flatten ≠ [])
    (ha : cols.length = h.alloc) :
    ∃ m, build h = some m ∧ Built m cols ∧ m.rows = h.rows ∧ m.cols = h.cols ∧ m.csc = h.csc := by
  obtain ⟨done, cur, hh, rfl⟩ := hc.holds
  exact hh.build (by
    rw [List.flatten_append] at hf
    by_cases hp : purge cur = []
    · right; right
      rw [hp] at hf
      simpa using hf
    · exact Or.inr (Or.inl hp)) (by simpa using ha)

end Step

/-! ## Words and their indices -/

theorem wordsBelow_append {w : ℕ} (m n : ℕ) : wordsBelow w (m + n) = wordsBelow w m * w ^ n + wordsBelow w n := by
  induction m with
  | zero => simp [RoughPy.Tensor.wordsBelow_zero]
  | succ m ih =>
    rw [show m + 1 + n = m + n + 1 by omega, Tensor.wordsBelow_succ, Tensor.wordsBelow_succ, ih, pow_add]
    ring

theorem wordIndex_append {w : ℕ} (u v : List (Fin w)) :
    wordIndex (u ++ v) = wordIndex u * w ^ v.length + wordIndex v := by
  unfold wordIndex
  rw [List.length_append, wordsBelow_append, Tensor.wordOffset_append]
  ring

theorem wordIndex_letter {w : ℕ} (a : Fin w) : wordIndex [a] = a.val + 1 := by
  unfold wordIndex
  rw [Tensor.wordOffset_singleton]
  simp [wordsBelow]
  omega

theorem foldl_pow (w n : ℕ) : (List.range n).foldl (fun s _ => s * w) 1 = w ^ n := by
  induction n with
  | zero => rfl
  | succ n ih => rw [List.range_succ, List.foldl_append, ih, pow_succ]; rfl

theorem tensorSizeOfDegree_eq (b : Basis) (n : ℕ) : b.tensorSizeOfDegree n = b.width ^ n := foldl_pow _ _

theorem tensorSize_eq (b : Basis) : b.tensorSize = wordsBelow b.width (b.depth + 1) := by
  unfold Basis.tensorSize
  rw [Tensor.degreesUp_eq, Nat.add_sub_cancel, List.foldl_map]
  induction b.depth with
  | zero => simp [wordsBelow]
  | succ n ih => rw [List.range_succ, List.foldl_append, ih, Tensor.wordsBelow_succ' (n + 1)]; rfl

section L2T

variable {K : Type} [Field K] [DecidableEq K]

theorem sum_map_sub {α : Type*} (l : List α) (f g : α → K) :
    (l.map fun x => f x - g x).sum = (l.map f).sum - (l.map g).sum := by
  induction l with
  | nil => simp
  | cons x l ih => simp only [List.map_cons, List.sum_cons, ih]; ring

theorem sum_sub_swap {α : Type*} (cl cr : List α) (A B : α → α → K) :
    (cl.map fun x => (cr.map fun y => A x y - B y x).sum).sum =
      (cl.map fun x => (cr.map fun y => A x y).sum).sum - (cr.map fun y => (cl.map fun x => B y x).sum).sum := by
  induction cl with
  | nil => simp
  | cons x cl ih =>
    simp only [List.map_cons, List.sum_cons]
    rw [List.sum_map_add, ih, sum_map_sub]
    ring

/-- Products of homogeneous series. -/
theorem Homog.mul_apply {w p q : ℕ} {f g : Series (Fin w) K} (hf : Homog p f) (hg : Homog q g) (z : List (Fin w)) :
    (f * g) z = if z.length = p + q then f (z.take p) * g (z.drop p) else 0 := by
  by_cases h : z.length = p + q
  · rw [if_pos h, Tensor.Series.mul_apply, Finset.sum_eq_single p]
    · intro k hk hkp
      rw [Finset.mem_range] at hk
      rw [hf (z.take k) (by rw [List.length_take]; omega), zero_mul]
    · intro hn
      exact absurd (Finset.mem_range.2 (by omega)) hn
  · rw [if_neg h]
    exact (hf.mul hg) z h

/-- Only words of length `n` occur. -/
def OnWords (w n : ℕ) (c : List (ℕ × K)) : Prop := ∀ e ∈ c, ∃ z : List (Fin w), e.1 = wordIndex z ∧ z.length = n

/-- The products of the entries of two columns are the coefficients of the product. -/
theorem sum_products {w p q : ℕ} {cl cr : List (ℕ × K)} (hl : OnWords w p cl) (hr : OnWords w q cr) (z : List (Fin w)) :
    (cl.map fun le => (cr.map fun re => if wordIndex z = le.1 * w ^ q + re.1 then le.2 * re.2 else 0).sum).sum =
      if z.length = p + q then coeff cl (wordIndex (z.take p)) * coeff cr (wordIndex (z.drop p)) else 0 := by
  have hiff : ∀ le ∈ cl, ∀ re ∈ cr, (wordIndex z = le.1 * w ^ q + re.1) ↔
      z.length = p + q ∧ le.1 = wordIndex (z.take p) ∧ re.1 = wordIndex (z.drop p) := by
    intro le hle re hre
    obtain ⟨u, hu, hul⟩ := hl le hle
    obtain ⟨v, hv, hvl⟩ := hr re hre
    rw [hu, hv, ← hvl, ← wordIndex_append]
    constructor
    · intro h
      have := wordIndex_inj h
      subst this
      refine ⟨by rw [List.length_append, hul, hvl], ?_, ?_⟩
      · rw [← hul, List.take_left]
      · rw [← hul, List.drop_left]
    · rintro ⟨h1, h2, h3⟩
      have h2 := wordIndex_inj h2
      have h3 := wordIndex_inj h3
      rw [h2, h3, List.take_append_drop]
  by_cases h : z.length = p + q
  · rw [if_pos h]
    unfold coeff
    rw [← List.sum_map_mul_right]
    congr 1
    refine List.map_congr_left fun le hle => ?_
    rw [← List.sum_map_mul_left]
    congr 1
    refine List.map_congr_left fun re hre => ?_
    by_cases h1 : le.1 = wordIndex (z.take p)
    · by_cases h2 : re.1 = wordIndex (z.drop p)
      · rw [if_pos ((hiff le hle re hre).2 ⟨h, h1, h2⟩), if_pos h1, if_pos h2]
      · rw [if_neg (fun hh => h2 ((hiff le hle re hre).1 hh).2.2), if_neg h2, mul_zero]
    · rw [if_neg (fun hh => h1 ((hiff le hle re hre).1 hh).2.1), if_neg h1, zero_mul]
  · rw [if_neg h]
    refine List.sum_eq_zero fun x hx => ?_
    obtain ⟨le, hle, rfl⟩ := List.mem_map.1 hx
    refine List.sum_eq_zero fun y hy => ?_
    obtain ⟨re, hre, rfl⟩ := List.mem_map.1 hy
    exact if_neg fun hh => h ((hiff le hle re hre).1 hh).1

/-- The column of a key. -/
structure L2TCol (b : Basis) (k : ℕ) (c : List (ℕ × K)) : Prop where
  coeff : ∀ z : List (Fin b.width), Sparse.coeff c (wordIndex z) = hallPoly K b k z
  words : OnWords b.width (b.deg k) c

theorem L2TCol.purge {b : Basis} {k : ℕ} {c : List (ℕ × K)} (h : L2TCol b k c) : L2TCol b k (purge c) :=
  ⟨fun z => by rw [coeff_purge, h.coeff], fun e he => h.words e (mem_purge.1 he).1⟩

/-- The columns of the first keys. -/
def L2TCols (b : Basis) (cols : List (List (ℕ × K))) : Prop := ∀ i c, cols[i]? = some c → L2TCol b (i + 1) c

theorem L2TCols.append {b : Basis} {cols : List (List (ℕ × K))} (h : L2TCols b cols) {c : List (ℕ × K)}
    (hc : L2TCol b (cols.length + 1) c) : L2TCols b (cols ++ [c]) := by
  intro i c' hc'
  rcases Nat.lt_or_ge i cols.length with hi | hi
  · rw [List.getElem?_append_left hi] at hc'
    exact h i c' hc'
  · rw [List.getElem?_append_right hi] at hc'
    have hi0 : i - cols.length = 0 := by
      by_contra hne
      rw [List.getElem?_eq_none (by simp; omega)] at hc'
      cases hc'
    rw [hi0] at hc'
    simp only [List.getElem?_cons_zero, Option.some.injEq] at hc'
    subst hc'
    have : i = cols.length := by omega
    rw [this]
    exact hc

theorem L2TCols.flatten_ne {b : Basis} (hb : IsHallTable b) (hw : 0 < b.width) {cols : List (List (ℕ × K))}
    (h : L2TCols b cols) (hne : cols ≠ []) : cols.flatten ≠ [] := by
  intro hf
  cases cols with
  | nil => exact hne rfl
  | cons c cols =>
    have h1 := (h 0 c rfl).coeff [⟨0, hw⟩]
    have h2 := hallPoly_letter (K := K) hb ⟨0, hw⟩
    rw [show 0 + 1 = (⟨0, hw⟩ : Fin b.width).val + 1 from rfl, h2] at h1
    have hc : c = [] := by
      rw [List.flatten_cons, List.append_eq_nil_iff] at hf
      exact hf.1
    rw [hc, coeff_nil] at h1
    unfold Tensor.Series.letter at h1
    rw [if_pos rfl] at h1
    exact zero_ne_one h1

theorem l2tCommutator_ok {b : Basis} (hb : IsHallTable b) (hw : 0 < b.width) {h : Helper K} {cols : List (List (ℕ × K))}
    (hc : Cols h cols) (hcols : L2TCols b cols) (hne : cols ≠ []) (ha : cols.length < h.alloc)
    (hk : cols.length + 1 < b.data.length) (hd : 2 ≤ b.deg (cols.length + 1)) :
    ∃ h' cols', l2tCommutator b h (cols.length + 1) = some h' ∧ Cols h' cols' ∧ L2TCols b cols' ∧
      cols'.length = cols.length + 1 ∧ Shape h h' := by
  obtain ⟨h1, i1, hh, hs⟩ := hc.frame (hcols.flatten_ne hb hw hne) ha
  set k := cols.length + 1 with hkdef
  obtain ⟨r1, r2, r3, r4, r5⟩ := hb.row hk hd
  set l := left b.data k with hl
  set r := right b.data k with hr
  have hrow : b.data[k]? = some (l, r) := row_eq hk
  have hll : l < b.data.length := by omega
  have hdr : b.deg r < b.deg k := by have := hb.deg_pos hll r1; omega
  have hrk : r < k := hb.lt_of_degree_lt (hb.hasDegree_deg r3) (hb.hasDegree_deg hk) hdr
  have hlk : l < k := by omega
  obtain ⟨cl, hcl⟩ : ∃ c, cols[l - 1]? = some c := ⟨_, List.getElem?_eq_getElem (by omega)⟩
  obtain ⟨cr, hcr⟩ : ∃ c, cols[r - 1]? = some c := ⟨_, List.getElem?_eq_getElem (by omega)⟩
  have hCl := hcols _ _ hcl
  have hCr := hcols _ _ hcr
  rw [show l - 1 + 1 = l by omega] at hCl
  rw [show r - 1 + 1 = r by omega] at hCr
  have hstep := Step.range (done := cols) (c := cl) (S := fun x => ∃ z : List (Fin b.width), x = wordIndex z ∧
      z.length = b.deg k)
    (F := fun le x => (cr.map fun re => (if x = le.1 * b.width ^ b.deg r + re.1 then le.2 * re.2 else 0) +
      (if x = re.1 * b.width ^ b.deg l + le.1 then -(re.2 * le.2) else 0)).sum)
    (body := fun h i => do
      let rf ← h.frames[r - 1]?
      loop (List.range rf.size) h fun h j => do
        let lf ← h.frames[l - 1]?
        let rf ← h.frames[r - 1]?
        let le ← h.entry lf i
        let re ← h.entry rf j
        let h ← insertValue h (le.1 * b.width ^ b.deg r + re.1) (le.2 * re.2)
        let lf ← h.frames[l - 1]?
        let rf ← h.frames[r - 1]?
        let le ← h.entry lf i
        let re ← h.entry rf j
        insertValue h (re.1 * b.width ^ b.deg l + le.1) (-(re.2 * le.2)))
    (by
      intro i le hle
      have hin := Step.range (done := cols) (c := cr) (S := fun x => ∃ z : List (Fin b.width), x = wordIndex z ∧
          z.length = b.deg k)
        (F := fun re x => (if x = le.1 * b.width ^ b.deg r + re.1 then le.2 * re.2 else 0) +
          (if x = re.1 * b.width ^ b.deg l + le.1 then -(re.2 * le.2) else 0))
        (body := fun h j => do
          let lf ← h.frames[l - 1]?
          let rf ← h.frames[r - 1]?
          let le ← h.entry lf i
          let re ← h.entry rf j
          let h ← insertValue h (le.1 * b.width ^ b.deg r + re.1) (le.2 * re.2)
          let lf ← h.frames[l - 1]?
          let rf ← h.frames[r - 1]?
          let le ← h.entry lf i
          let re ← h.entry rf j
          insertValue h (re.1 * b.width ^ b.deg l + le.1) (-(re.2 * le.2)))
        (by
          intro j re hre
          obtain ⟨u, hu, hul⟩ := hCl.words le (List.mem_of_getElem? hle)
          obtain ⟨v, hv, hvl⟩ := hCr.words re (List.mem_of_getElem? hre)
          refine Step.congr (Step.bind
            (Step.insert cols (le.1 * b.width ^ b.deg r + re.1) (le.2 * re.2) _
              ⟨u ++ v, by rw [wordIndex_append, hvl, hu, hv], by rw [List.length_append]; omega⟩)
            (Step.congr (Step.insert cols (re.1 * b.width ^ b.deg l + le.1) (-(re.2 * le.2)) _
              ⟨v ++ u, by rw [wordIndex_append, hul, hu, hv], by rw [List.length_append]; omega⟩)
              (g := fun h => do
                let lf ← h.frames[l - 1]?
                let rf ← h.frames[r - 1]?
                let le ← h.entry lf i
                let re ← h.entry rf j
                insertValue h (re.1 * b.width ^ b.deg l + le.1) (-(re.2 * le.2))) ?_)) ?_
          · intro h cur hh
            obtain ⟨a1, a2⟩ := Holds.read hh hcl hle
            obtain ⟨a3, a4⟩ := Holds.read hh hcr hre
            simp only [a1, a3, a2, a4, Option.bind_eq_bind, Option.bind_some]
          · intro h cur hh
            obtain ⟨a1, a2⟩ := Holds.read hh hcl hle
            obtain ⟨a3, a4⟩ := Holds.read hh hcr hre
            simp only [a1, a3, a2, a4, Option.bind_eq_bind, Option.bind_some])
      refine Step.congr hin ?_
      intro h cur hh
      simp only [(hh.frame hcr).1, Option.bind_eq_bind, Option.bind_some])
  obtain ⟨h2, cur, e1, e2, e3, e4, e5⟩ := hstep h1 [] hh
  have hcol : L2TCol b k cur := by
    constructor
    · intro z
      rw [e3, coeff_nil, zero_add]
      have hsub : ∀ (P : Prop) [Decidable P] (x : K), (if P then -x else 0) = -(if P then x else 0) := by
        intro P _ x
        by_cases hP : P
        · rw [if_pos hP, if_pos hP]
        · rw [if_neg hP, if_neg hP, neg_zero]
      simp only [hsub, ← sub_eq_add_neg]
      rw [sum_sub_swap cl cr (fun le re => if wordIndex z = le.1 * b.width ^ b.deg r + re.1 then le.2 * re.2 else 0)
        (fun re le => if wordIndex z = re.1 * b.width ^ b.deg l + le.1 then re.2 * le.2 else 0),
        sum_products hCl.words hCr.words, sum_products hCr.words hCl.words,
        hallPoly_isHallMap hb (b.deg k) k l r hd (hb.hasDegree_deg hk) hrow, Ring.lie_def, Tensor.Series.sub_apply,
        Homog.mul_apply (hallPoly_homog hb _ l (hb.hasDegree_deg hll) (hb.deg_pos hll r1))
          (hallPoly_homog hb _ r (hb.hasDegree_deg r3) (hb.deg_pos r3 (by omega))),
        Homog.mul_apply (hallPoly_homog hb _ r (hb.hasDegree_deg r3) (hb.deg_pos r3 (by omega)))
          (hallPoly_homog hb _ l (hb.hasDegree_deg hll) (hb.deg_pos hll r1))]
      simp only [hCl.coeff, hCr.coeff]
    · intro e he
      rcases e4 e he with h | ⟨e', he', -⟩
      · exact h
      · cases he'
  refine ⟨h2, cols ++ [purge cur], ?_, ⟨cols, cur, e2, rfl⟩, hcols.append hcol.purge, by simp [hkdef], hs.trans e5⟩
  unfold l2tCommutator
  rw [hrow, Option.bind_eq_bind, Option.bind_some, if_neg (by omega), i1, Option.bind_eq_bind, Option.bind_some,
    hb.degree_of (hb.hasDegree_deg hll), Option.bind_eq_bind, Option.bind_some,
    hb.degree_of (hb.hasDegree_deg r3), Option.bind_eq_bind, Option.bind_some, tensorSizeOfDegree_eq,
    tensorSizeOfDegree_eq, Int.toNat_natCast, Int.toNat_natCast]
  dsimp only
  rw [(hh.frame hcl).1, Option.bind_eq_bind, Option.bind_some]
  exact e1

/-! ## The whole matrix -/

theorem IsHallTable.sizeToDegree {b : Basis} (hb : IsHallTable b) : b.sizeToDegree b.depth = some (b.data.length - 1) := by
  unfold Basis.sizeToDegree
  have := hb.depth_pos
  rw [if_neg (by omega)]
  simp only
  rw [if_neg (by omega), hb.db_last]
  rfl

theorem IsHallTable.l2tNnz {b : Basis} (hb : IsHallTable b) (hw : 0 < b.width) : ∃ n, b.l2tNnz = some n ∧ 0 < n := by
  have hdp := hb.depth_pos
  obtain ⟨n, h1, h2⟩ := loop_range_inv (fun i est => 0 < i → 0 < est) b.depth
    (fun est degree => do
      let count ← b.sizeOfDegree (degree + 1)
      some (est + 2 ^ degree * count)) 0 (by omega) (by
      intro i hi est hI
      have hsz : b.sizeOfDegree (i + 1) = some (b.start (i + 2) - b.start (i + 1)) := by
        unfold Basis.sizeOfDegree
        rw [if_neg (by omega)]
        simp only
        rw [if_neg (by omega), hb.start_get (by omega), hb.start_get (by omega)]
        rfl
      refine ⟨est + 2 ^ i * (b.start (i + 2) - b.start (i + 1)), by rw [hsz]; rfl, fun _ => ?_⟩
      cases i with
      | zero =>
        rw [hb.start_two, hb.start_one]
        simp
        omega
      | succ i =>
        have := hI (by omega)
        omega)
  exact ⟨n, h1, h2 hdp⟩

theorem l2tLetters_ok {b : Basis} (hb : IsHallTable b) (hw : 0 < b.width) (rows cols nnz : ℕ) (hn : 0 < nnz)
    (hcols : b.width ≤ cols) : ∃ (h : Helper K) (cs : List (List (ℕ × K))),
      l2tLetters (init rows cols nnz true) b.width = some h ∧ Cols h cs ∧ L2TCols b cs ∧ cs.length = b.width ∧
      h.alloc = cols ∧ h.rows = rows ∧ h.cols = cols ∧ h.csc = true := by
  have hlet : ∀ (i : ℕ) (cs : List (List (ℕ × K))) (h : Helper K), i < b.width → cs.length = i → L2TCols b cs → Holds h cs [] →
      ∃ h' cs', insertValue h (i + 1) 1 = some h' ∧ Cols h' cs' ∧ L2TCols b cs' ∧ cs'.length = i + 1 ∧ Shape h h' := by
    intro i cs h hi hcs hC hh
    obtain ⟨h', cur', h1, h2, h3, h4⟩ := hh.insertValue (i + 1) 1
    have hcol : L2TCol b (cs.length + 1) cur' := by
      rw [hcs]
      constructor
      · intro z
        rw [h3.coeff, coeff_nil, zero_add, show i + 1 = (⟨i, hi⟩ : Fin b.width).val + 1 from rfl, hallPoly_letter hb,
          ← wordIndex_letter]
        unfold Tensor.Series.letter
        by_cases hz : z = [⟨i, hi⟩]
        · rw [if_pos (by rw [hz]), if_pos hz]
        · rw [if_neg (fun hh => hz (wordIndex_inj hh)), if_neg hz]
      · intro e he
        rcases h3.mem e he with h | ⟨e', he', -⟩
        · refine ⟨[⟨i, hi⟩], by rw [h, wordIndex_letter], ?_⟩
          rw [hb.deg_eq (hb.letter_iff.2 (by omega : 1 ≤ i + 1 ∧ i + 1 ≤ b.width))]
          rfl
        · cases he'
    exact ⟨h', cs ++ [purge cur'], h1, ⟨cs, cur', h2, rfl⟩, hC.append hcol.purge, by simp [hcs], h4⟩
  obtain ⟨h, h1, h2⟩ := loop_range_inv
    (fun i (h : Helper K) => (i = 0 ∧ h = init rows cols nnz true) ∨ (0 < i ∧ ∃ cs, Cols h cs ∧ L2TCols b cs ∧ cs.length = i ∧
      h.alloc = cols ∧ h.rows = rows ∧ h.cols = cols ∧ h.csc = true)) b.width
    (fun h i => do
      let h ← insertFrame h
      insertValue h (i + 1) 1) (init rows cols nnz true) (Or.inl ⟨rfl, rfl⟩) (by
      intro i hi h hI
      rcases hI with ⟨rfl, rfl⟩ | ⟨hi0, cs, c1, c2, c3, c4, c5, c6, c7⟩
      · obtain ⟨h1, a1, a2, a3, a4, a5, a6⟩ := insertFrame_first (h := (init rows cols nnz true : Helper K)) rfl rfl rfl rfl
          (by show 0 < cols; omega) (by
            show 0 < (if ((nnz : ℕ) : ℤ) < 0 then cols else ((nnz : ℕ) : ℤ).toNat)
            rw [if_neg (by omega)]
            simpa using hn)
        obtain ⟨h2, cs', b1, b2, b3, b4, b5⟩ := hlet 0 [] h1 hi rfl (by intro i c h; cases h) a2
        refine ⟨h2, ?_, Or.inr ⟨by omega, cs', b2, b3, b4, ?_, ?_, ?_, ?_⟩⟩
        · rw [a1]; exact b1
        · rw [b5.1, a3]; rfl
        · rw [b5.2.1, a4]; rfl
        · rw [b5.2.2.1, a5]; rfl
        · rw [b5.2.2.2, a6]; rfl
      · obtain ⟨h1, a1, a2, a3⟩ := c1.frame (c2.flatten_ne hb hw (by rintro rfl; simp at c3; omega)) (by omega)
        obtain ⟨h2, cs', b1, b2, b3, b4, b5⟩ := hlet i cs h1 hi c3 c2 a2
        have b6 := a3.trans b5
        refine ⟨h2, ?_, Or.inr ⟨by omega, cs', b2, b3, b4, ?_, ?_, ?_, ?_⟩⟩
        · rw [a1]; exact b1
        · rw [b6.1, c4]
        · rw [b6.2.1, c5]
        · rw [b6.2.2.1, c6]
        · rw [b6.2.2.2, c7])
  rcases h2 with ⟨h0, -⟩ | ⟨-, cs, c1, c2, c3, c4, c5, c6, c7⟩
  · omega
  · exact ⟨h, cs, h1, c1, c2, c3, c4, c5, c6, c7⟩

/-- The matrix is built, and its columns are the Hall polynomials. -/
theorem l2tMatrix_ok {b : Basis} (hb : IsHallTable b) (hw : 0 < b.width) :
    ∃ (m : Matrix K) (cols : List (List (ℕ × K))), l2tMatrix b = some m ∧ Built m cols ∧ L2TCols b cols ∧
      cols.length = b.data.length - 1 ∧ m.rows = wordsBelow b.width (b.depth + 1) ∧ m.cols = b.data.length - 1 ∧
      m.csc = true := by
  have hdp := hb.depth_pos
  obtain ⟨nnz, n1, n2⟩ := hb.l2tNnz hw
  have hwl : b.width ≤ b.data.length - 1 := by
    have := hb.start_mono (c := 2) (d := b.depth + 1) (by omega) le_rfl
    rw [hb.start_two, hb.start_last] at this
    omega
  obtain ⟨h0, cs0, a1, a2, a3, a4, a5, a6, a7, a8⟩ := l2tLetters_ok (K := K) hb hw b.tensorSize (b.data.length - 1) nnz n2 hwl
  obtain ⟨h, h1, cs, c1, c2, c3, c4⟩ := loop_map_range_inv
    (fun i (h : Helper K) => ∃ cs, Cols h cs ∧ L2TCols b cs ∧ cs.length = b.start (i + 2) - 1 ∧ Shape h0 h) (b.depth + 1 - 2)
    (fun i => 2 + i) (fun h degree => do
      let lo ← b.db[degree]?
      let hi ← b.db[degree + 1]?
      loop (upTo lo hi) h (l2tCommutator b)) h0
    ⟨cs0, a2, a3, by rw [a4, hb.start_two]; omega, Shape.refl _⟩ (by
      rintro i hi h ⟨cs, c1, c2, c3, c4⟩
      have hs1 := hb.start_mono (c := 1) (d := i + 2) (by omega) (by omega)
      rw [hb.start_one] at hs1
      have hs2 := hb.start_mono (c := i + 2) (d := i + 3) (by omega) (by omega)
      have hs3 := hb.start_mono (c := i + 3) (d := b.depth + 1) (by omega) (by omega)
      rw [hb.start_last] at hs3
      have hs4 := hb.start_mono (c := 2) (d := i + 2) (by omega) (by omega)
      rw [hb.start_two] at hs4
      obtain ⟨h', d1, cs', d2, d3, d4, d5⟩ := loop_map_range_inv
        (fun j (h : Helper K) => ∃ cs, Cols h cs ∧ L2TCols b cs ∧ cs.length = b.start (i + 2) - 1 + j ∧ Shape h0 h)
        (b.start (i + 3) - b.start (i + 2)) (fun j => b.start (i + 2) + j) (l2tCommutator b) h ⟨cs, c1, c2, c3, c4⟩ (by
          rintro j hj h ⟨cs, c1, c2, c3, c4⟩
          have hkey : b.start (i + 2) + j = cs.length + 1 := by omega
          have hdeg : HasDegree b (cs.length + 1) (i + 2) := by
            rw [hb.hasDegree_iff]
            exact ⟨by omega, by omega, by show cs.length + 1 < b.start (i + 3); omega⟩
          obtain ⟨h', cs', e1, e2, e3, e4, e5⟩ := l2tCommutator_ok hb hw c1 c2 (by rintro rfl; simp at c3; omega)
            (by rw [c4.1, a5]; omega) (by omega) (by rw [hb.deg_eq hdeg]; omega)
          exact ⟨h', by rw [hkey]; exact e1, cs', e2, e3, by omega, c4.trans e5⟩)
      refine ⟨h', ?_, cs', d2, d3, by show cs'.length = b.start (i + 3) - 1; omega, d5⟩
      rw [show 2 + i = i + 2 by omega, hb.start_get (by omega), hb.start_get (by omega)]
      exact d1)
  rw [show b.depth + 1 - 2 + 2 = b.depth + 1 by omega, hb.start_last] at c3
  obtain ⟨m, m1, m2, m3, m4, m5⟩ := c1.build (c2.flatten_ne hb hw (by rintro rfl; simp at c3; omega)) (by
    rw [c4.1, a5]; exact c3)
  refine ⟨m, cs, ?_, m2, c2, c3, ?_, ?_, ?_⟩
  · unfold l2tMatrix
    rw [hb.sizeToDegree, n1]
    simp only [Option.bind_eq_bind, Option.bind_some]
    rw [a1]
    simp only [Option.bind_some]
    have : loop (degreesUp 2 b.depth) h0 (fun h degree => do
        let lo ← b.db[degree]?
        let hi ← b.db[degree + 1]?
        loop (upTo lo hi) h (l2tCommutator b)) = some h := h1
    simp only [Option.bind_eq_bind] at this
    rw [this]
    exact m1
  · rw [m3, c4.2.1, a6, tensorSize_eq]
  · rw [m4, c4.2.2.1, a7]
  · rw [m5, c4.2.2.2, a8]

end L2T

end RoughPy.Lie
