import Verif.Sparse.Spec
import Verif.Tensor.Loops
import Mathlib.Data.List.Basic
import Mathlib.Tactic.Ring

set_option linter.unusedSectionVars false

/-! # The builder refines a list of columns -/

namespace RoughPy.Sparse

open RoughPy.Tensor (loop Buf)

variable {K : Type} [AddCommMonoid K] [DecidableEq K]

/-- The coefficient of an index in a list of entries. -/
def coeff (c : List (ℕ × K)) (i : ℕ) : K := (c.map fun e => if e.1 = i then e.2 else 0).sum

theorem coeff_nil (i : ℕ) : coeff ([] : List (ℕ × K)) i = 0 := rfl

theorem coeff_cons (e : ℕ × K) (c : List (ℕ × K)) (i : ℕ) :
    coeff (e :: c) i = (if e.1 = i then e.2 else 0) + coeff c i := by
  simp [coeff]

theorem coeff_append (a b : List (ℕ × K)) (i : ℕ) : coeff (a ++ b) i = coeff a i + coeff b i := by
  simp [coeff]

def Sorted (c : List (ℕ × K)) : Prop := c.Pairwise fun a b => a.1 < b.1

theorem coeff_eq_zero {c : List (ℕ × K)} {i : ℕ} (h : ∀ e ∈ c, e.1 ≠ i) : coeff c i = 0 := by
  induction c with
  | nil => rfl
  | cons e c ih =>
    rw [coeff_cons, if_neg (h e (List.mem_cons_self ..)), zero_add]
    exact ih fun e he => h e (List.mem_cons_of_mem _ he)

theorem Sorted.coeff_mem {c : List (ℕ × K)} (hc : Sorted c) {e : ℕ × K} (he : e ∈ c) : coeff c e.1 = e.2 := by
  induction c with
  | nil => cases he
  | cons x c ih =>
    unfold Sorted at hc
    rw [List.pairwise_cons] at hc
    rw [coeff_cons]
    rcases List.mem_cons.1 he with rfl | he
    · rw [if_pos rfl, coeff_eq_zero, add_zero]
      intro y hy
      have := hc.1 y hy
      omega
    · have := hc.1 e he
      rw [if_neg (by omega), zero_add]
      exact ih hc.2 he

theorem mem_of_coeff {c : List (ℕ × K)} {i : ℕ} (h : coeff c i ≠ 0) : ∃ e ∈ c, e.1 = i := by
  by_contra hn
  push Not at hn
  exact h (coeff_eq_zero hn)

theorem mem_iff_coeff {c : List (ℕ × K)} (hc : Sorted c) (hz : ∀ e ∈ c, e.2 ≠ 0) (i : ℕ) (v : K) :
    (i, v) ∈ c ↔ v ≠ 0 ∧ coeff c i = v := by
  constructor
  · intro h
    exact ⟨hz _ h, hc.coeff_mem h⟩
  · rintro ⟨h1, h2⟩
    obtain ⟨e, he, hi⟩ := mem_of_coeff (c := c) (i := i) (by rw [h2]; exact h1)
    have := hc.coeff_mem he
    rw [hi, h2] at this
    have he' : e = (i, v) := Prod.ext hi this.symm
    rwa [he'] at he

/-- The entries that are not zero. -/
def purge (c : List (ℕ × K)) : List (ℕ × K) := c.filter fun e => decide (e.2 ≠ 0)

theorem purge_append (a b : List (ℕ × K)) : purge (a ++ b) = purge a ++ purge b := List.filter_append ..

theorem coeff_purge (c : List (ℕ × K)) (i : ℕ) : coeff (purge c) i = coeff c i := by
  induction c with
  | nil => rfl
  | cons e c ih =>
    rw [coeff_cons, ← ih]
    unfold purge
    rw [List.filter_cons]
    by_cases h : e.2 = 0
    · simp [h]
    · simp [h, coeff_cons]

theorem Sorted.purge {c : List (ℕ × K)} (hc : Sorted c) : Sorted (purge c) := List.Pairwise.filter _ hc

theorem purge_ne {c : List (ℕ × K)} : ∀ e ∈ purge c, e.2 ≠ 0 := by
  intro e he
  have := (List.mem_filter.1 he).2
  simpa using this

theorem mem_purge {c : List (ℕ × K)} {e : ℕ × K} : e ∈ purge c ↔ e ∈ c ∧ e.2 ≠ 0 := by
  unfold purge
  rw [List.mem_filter]
  simp

theorem purge_eq_self {c : List (ℕ × K)} (h : ∀ e ∈ c, e.2 ≠ 0) : purge c = c := by
  unfold purge
  rw [List.filter_eq_self]
  intro e he
  simpa using h e he

/-! ### Removal of zeros -/

theorem zeroLoop_eq (pre : List (ℕ × K)) (a b : List (ℕ × K)) (k : ℕ) :
    zeroLoop pre.length a.length (pre ++ (a ++ b), a.length + k) =
      some (pre ++ (purge a ++ b), (purge a).length + k) := by
  induction a using List.reverseRecOn generalizing b k with
  | nil => rfl
  | append_singleton a x ih =>
    rw [List.length_append, List.length_singleton]
    unfold zeroLoop
    have hget : (pre ++ (a ++ [x] ++ b))[pre.length + a.length]? = some x := by
      rw [List.getElem?_append_right (by omega), List.getElem?_append_left (by simp),
        List.getElem?_append_right (by omega)]
      simp
    simp only [hget]
    by_cases hx : x.2 = 0
    · rw [if_pos hx]
      have : (pre ++ (a ++ [x] ++ b)).eraseIdx (pre.length + a.length) = pre ++ (a ++ b) := by
        rw [List.eraseIdx_append_of_length_le (by omega), List.append_assoc,
          List.eraseIdx_append_of_length_le (by omega)]
        simp
      rw [this, show a.length + 1 + k - 1 = a.length + k by omega, ih]
      have hp : purge (a ++ [x]) = purge a := by rw [purge_append]; simp [purge, hx]
      rw [hp]
    · rw [if_neg hx]
      have := ih ([x] ++ b) (1 + k)
      rw [show a ++ [x] ++ b = a ++ ([x] ++ b) by simp, show a.length + 1 + k = a.length + (1 + k) by omega, this]
      have hp : purge (a ++ [x]) = purge a ++ [x] := by rw [purge_append]; simp [purge, hx]
      rw [hp]
      simp [Nat.add_assoc]

/-- The frame `c` after the entries `pre` can be cleaned. -/
def Removable (pre c : List (ℕ × K)) : Prop := c = [] ∨ purge c ≠ [] ∨ pre ≠ []

theorem removeZeros_eq {pre c : List (ℕ × K)} (hpre : ∀ e ∈ pre, e.2 ≠ 0) (hc : Removable pre c) :
    removeZeros (pre ++ c) ⟨pre.length, c.length⟩ = some (pre ++ purge c, ⟨pre.length, (purge c).length⟩) := by
  unfold removeZeros
  simp only
  by_cases h0 : c.length ≤ 0
  · rw [if_pos h0]
    have : c = [] := List.length_eq_zero_iff.1 (by omega)
    subst this
    rfl
  rw [if_neg h0]
  have hz := zeroLoop_eq pre c [] 0
  simp only [List.append_nil, Nat.add_zero] at hz
  rw [hz]
  have hne : pre ++ purge c ≠ [] := by
    rcases hc with h | h | h
    · subst h; exact absurd (Nat.le_refl 0) h0
    · simp [h]
    · simp [h]
  have hlen : pre.length + (purge c).length = (pre ++ purge c).length := (List.length_append ..).symm
  have hpos : 0 < (pre ++ purge c).length := List.length_pos_iff.2 hne
  simp only
  rw [if_neg (by omega), hlen, List.getElem?_eq_getElem (by omega)]
  simp only
  have hall : ∀ e ∈ pre ++ purge c, e.2 ≠ 0 := by
    intro e he
    rcases List.mem_append.1 he with he | he
    · exact hpre e he
    · exact purge_ne e he
  rw [if_neg (hall _ (List.getElem_mem _))]

/-! ### The search -/

theorem searchLoop_spec {pre c : List (ℕ × K)} (hc : Sorted c) (index : ℕ) :
    ∀ fuel pos diff, diff < fuel → pos + diff ≤ c.length →
      (∀ k e, k < pos → c[k]? = some e → e.1 < index) → (∀ k e, pos + diff ≤ k → c[k]? = some e → index < e.1) →
      ∃ r, searchLoop (pre ++ c) pre.length index fuel pos diff = some r ∧
        match r with
        | .inl p => ∃ e, c[p]? = some e ∧ e.1 = index
        | .inr p => p ≤ c.length ∧ (∀ k e, k < p → c[k]? = some e → e.1 < index) ∧
            ∀ k e, p ≤ k → c[k]? = some e → index < e.1 := by
  have hmono : ∀ {k l : ℕ} {x y : ℕ × K}, c[k]? = some x → c[l]? = some y → k < l → x.1 < y.1 := by
    intro k l x y h1 h2 hkl
    obtain ⟨a1, a2⟩ := List.getElem?_eq_some_iff.1 h1
    obtain ⟨b1, b2⟩ := List.getElem?_eq_some_iff.1 h2
    have := (List.pairwise_iff_getElem.1 hc) k l a1 b1 hkl
    rwa [a2, b2] at this
  intro fuel
  induction fuel with
  | zero => intro pos diff h; omega
  | succ fuel ih =>
    intro pos diff hf hle hlo hhi
    unfold searchLoop
    by_cases hd : 0 < diff
    · rw [if_pos hd]
      have hmid : pos + diff / 2 < c.length := by omega
      simp only
      rw [List.getElem?_append_right (by omega), show pre.length + (pos + diff / 2) - pre.length = pos + diff / 2 by omega,
        List.getElem?_eq_getElem hmid]
      have hge := List.getElem?_eq_getElem hmid
      simp only
      by_cases h1 : index = (c[pos + diff / 2]).1
      · rw [if_pos h1]
        exact ⟨_, rfl, _, hge, h1.symm⟩
      rw [if_neg h1]
      by_cases h2 : (c[pos + diff / 2]).1 < index
      · rw [if_pos h2]
        refine ih _ _ (by omega) (by omega) ?_ ?_
        · intro k e hk hke
          by_cases hk' : k = pos + diff / 2
          · subst hk'
            rw [hge, Option.some.injEq] at hke
            rw [← hke]
            exact h2
          · have := hmono hke hge (by omega)
            omega
        · intro k e hk hke
          exact hhi k e (by omega) hke
      · rw [if_neg h2]
        refine ih _ _ (by omega) (by omega) hlo ?_
        intro k e hk hke
        by_cases hk' : k = pos + diff / 2
        · subst hk'
          rw [hge, Option.some.injEq] at hke
          rw [← hke]
          omega
        · have := hmono hge hke (by omega)
          omega
    · rw [if_neg hd]
      have : diff = 0 := by omega
      subst this
      exact ⟨_, rfl, by omega, hlo, fun k e hk hke => hhi k e (by omega) hke⟩

/-! ### The builder -/

/-- The frames of a list of columns stored one after the other. -/
def framesOf : ℕ → List (List (ℕ × K)) → List Frame
  | _, [] => []
  | pos, c :: cs => ⟨pos, c.length⟩ :: framesOf (pos + c.length) cs

theorem framesOf_append (pos : ℕ) (a b : List (List (ℕ × K))) :
    framesOf pos (a ++ b) = framesOf pos a ++ framesOf (pos + a.flatten.length) b := by
  induction a generalizing pos with
  | nil => rfl
  | cons c a ih =>
    simp only [List.cons_append, framesOf, ih, List.flatten_cons, List.length_append, Nat.add_assoc]

theorem framesOf_length (pos : ℕ) (a : List (List (ℕ × K))) : (framesOf pos a).length = a.length := by
  induction a generalizing pos with
  | nil => rfl
  | cons c a ih => simp [framesOf, ih]

theorem framesOf_get (pos : ℕ) (a : List (List (ℕ × K))) (f : ℕ) :
    (framesOf pos a)[f]? = (a[f]?).map fun c => ⟨pos + (a.take f).flatten.length, c.length⟩ := by
  induction a generalizing pos f with
  | nil => rfl
  | cons c a ih =>
    cases f with
    | zero => rfl
    | succ f =>
      simp only [framesOf, List.getElem?_cons_succ, ih, List.take_succ_cons, List.flatten_cons, List.length_append,
        Nat.add_assoc]

theorem relocate_framesOf (pos pos' : ℕ) (a : List (List (ℕ × K))) :
    relocate pos (framesOf pos' a) = framesOf pos a := by
  induction a generalizing pos pos' with
  | nil => rfl
  | cons c a ih => simp only [framesOf, relocate, ih]

/-- The offsets of a list of columns: the start of each. -/
def starts (pos : ℕ) (a : List (List (ℕ × K))) : List ℕ := (framesOf pos a).map Frame.start

/-- The helper holds finished columns `done` and the current column `cur`. -/
structure Holds (h : Helper K) (done : List (List (ℕ × K))) (cur : List (ℕ × K)) : Prop where
  entries : h.entries = done.flatten ++ cur
  frames : h.frames = framesOf 0 (done ++ [cur])
  nnz : h.nnz = done.flatten.length
  indptr : h.indptr = starts 0 (done ++ [cur])
  fit : (done.flatten ++ cur).length ≤ h.cap
  cap : 0 < h.cap
  len : done.length + 1 ≤ h.alloc
  sorted : ∀ c ∈ done, Sorted c
  pure : ∀ c ∈ done, ∀ e ∈ c, e.2 ≠ 0
  cur_sorted : Sorted cur

theorem Holds.last {h : Helper K} {done : List (List (ℕ × K))} {cur : List (ℕ × K)} (hh : Holds h done cur) :
    h.frames.getLast? = some ⟨done.flatten.length, cur.length⟩ := by
  rw [hh.frames, framesOf_append]
  simp [framesOf]

theorem Holds.frames_length {h : Helper K} {done : List (List (ℕ × K))} {cur : List (ℕ × K)} (hh : Holds h done cur) :
    h.frames.length = done.length + 1 := by
  rw [hh.frames, framesOf_length, List.length_append]
  rfl

theorem Holds.flat_pure {h : Helper K} {done : List (List (ℕ × K))} {cur : List (ℕ × K)} (hh : Holds h done cur) :
    ∀ e ∈ done.flatten, e.2 ≠ 0 := by
  intro e he
  obtain ⟨c, hc, he⟩ := List.mem_flatten.1 he
  exact hh.pure c hc e he

theorem framesOf_dropLast (pos : ℕ) (done : List (List (ℕ × K))) (cur : List (ℕ × K)) :
    (framesOf pos (done ++ [cur])).dropLast = framesOf pos done := by
  rw [framesOf_append]
  simp [framesOf]

theorem setIndptr_push {h : Helper K} {i v : ℕ} (hi : i < h.alloc + 1) (hl : h.indptr.length = i) :
    setIndptr h i v = some { h with indptr := h.indptr ++ [v] } := by
  unfold setIndptr
  rw [if_neg (by omega), if_neg (by omega), if_pos hl.symm]

theorem insertFrame_first {h : Helper K} (hf : h.frames = []) (he : h.entries = []) (hn : h.nnz = 0) (hi : h.indptr = [0])
    (ha : 0 < h.alloc) (hc : 0 < h.cap) : ∃ h', insertFrame h = some h' ∧ Holds h' [] [] ∧ h'.alloc = h.alloc ∧
      h'.rows = h.rows ∧ h'.cols = h.cols ∧ h'.csc = h.csc := by
  unfold insertFrame setIndptr
  rw [hf, hn, hi]
  simp only [List.length_nil, List.getLast?_nil]
  rw [if_neg (by omega), if_neg (by omega), if_pos (by simp)]
  refine ⟨_, rfl, ⟨?_, ?_, ?_, ?_, ?_, hc, ?_, ?_, ?_, ?_⟩, rfl, rfl, rfl, rfl⟩
  · exact he
  · simp [hf, framesOf]
  · rfl
  · simp [starts, framesOf]
  · simp
  · simp only [List.length_nil]; omega
  · intro c hc; cases hc
  · intro c hc; cases hc
  · exact List.Pairwise.nil

theorem Holds.insertFrame {h : Helper K} {done : List (List (ℕ × K))} {cur : List (ℕ × K)} (hh : Holds h done cur)
    (hr : Removable done.flatten cur) (ha : done.length + 1 < h.alloc) :
    ∃ h', insertFrame h = some h' ∧ Holds h' (done ++ [purge cur]) [] ∧ h'.alloc = h.alloc ∧ h'.cap = h.cap ∧
      h'.rows = h.rows ∧ h'.cols = h.cols ∧ h'.csc = h.csc := by
  unfold Sparse.insertFrame
  rw [hh.frames_length, if_neg (by omega), hh.last]
  simp only
  rw [hh.entries, removeZeros_eq hh.flat_pure hr]
  simp only
  have hlen : (h.frames.dropLast ++ [(⟨done.flatten.length, (purge cur).length⟩ : Frame)]).length = done.length + 1 := by
    rw [hh.frames, framesOf_dropLast, List.length_append, framesOf_length]
    rfl
  rw [hlen]
  have hind : h.indptr.length = done.length + 1 := by
    rw [hh.indptr, starts, List.length_map, framesOf_length, List.length_append]
    rfl
  have hs : ∀ (g : Helper K) (v : ℕ), g.alloc = h.alloc → g.indptr = h.indptr →
      setIndptr g (done.length + 1) v = some { g with indptr := g.indptr ++ [v] } := by
    intro g v h1 h2
    exact setIndptr_push (by omega) (by rw [h2]; exact hind)
  rw [hs]
  rotate_left
  · rfl
  · rfl
  have hflat : (done ++ [purge cur]).flatten = done.flatten ++ purge cur := by simp
  refine ⟨_, rfl, ⟨?_, ?_, ?_, ?_, ?_, hh.cap, ?_, ?_, ?_, List.Pairwise.nil⟩, rfl, rfl, rfl, rfl, rfl⟩
  · simp [hflat]
  · simp only [hh.frames, framesOf_dropLast]
    rw [framesOf_append 0 (done ++ [purge cur]), framesOf_append 0 done]
    simp [framesOf, hflat]
  · simp only [hh.nnz, hflat, List.length_append]
  · simp only [hh.indptr, hh.nnz, starts]
    rw [framesOf_append 0 (done ++ [purge cur]), framesOf_append 0 done, framesOf_append 0 done]
    simp [framesOf, hflat]
  · rw [hflat]
    have := hh.fit
    have hle : (purge cur).length ≤ cur.length := List.length_filter_le ..
    simp only [List.length_append, List.length_nil] at this ⊢
    omega
  · simp only [List.length_append, List.length_singleton]
    omega
  · intro c hc
    rcases List.mem_append.1 hc with hc | hc
    · exact hh.sorted c hc
    · rw [List.mem_singleton.1 hc]; exact hh.cur_sorted.purge
  · intro c hc
    rcases List.mem_append.1 hc with hc | hc
    · exact hh.pure c hc
    · rw [List.mem_singleton.1 hc]; exact purge_ne

/-- Inserting into a sorted list at the right place. -/
theorem Sorted.insert {c : List (ℕ × K)} (hc : Sorted c) {p index : ℕ} {v : K} (hp : p ≤ c.length)
    (hlo : ∀ k e, k < p → c[k]? = some e → e.1 < index) (hhi : ∀ k e, p ≤ k → c[k]? = some e → index < e.1) :
    Sorted (c.take p ++ (index, v) :: c.drop p) := by
  have htake : ∀ e ∈ c.take p, e.1 < index := by
    intro e he
    obtain ⟨k, hk, rfl⟩ := List.mem_iff_getElem.1 he
    rw [List.length_take] at hk
    rw [List.getElem_take]
    exact hlo k _ (by omega) (List.getElem?_eq_getElem (by omega))
  have hdrop : ∀ e ∈ c.drop p, index < e.1 := by
    intro e he
    obtain ⟨k, hk, rfl⟩ := List.mem_iff_getElem.1 he
    rw [List.length_drop] at hk
    rw [List.getElem_drop]
    exact hhi (p + k) _ (by omega) (List.getElem?_eq_getElem (by omega))
  unfold Sorted at hc ⊢
  rw [← List.take_append_drop p c, List.pairwise_append] at hc
  rw [List.pairwise_append, List.pairwise_cons]
  refine ⟨hc.1, ⟨hdrop, hc.2.1⟩, ?_⟩
  intro a ha b hb
  rcases List.mem_cons.1 hb with rfl | hb
  · exact htake a ha
  · exact (htake a ha).trans (hdrop b hb)

theorem coeff_set {c : List (ℕ × K)} {p : ℕ} {e : ℕ × K} (he : c[p]? = some e) (v : K) (k : ℕ) :
    coeff (c.set p (e.1, e.2 + v)) k = coeff c k + if k = e.1 then v else 0 := by
  induction c generalizing p with
  | nil => cases he
  | cons x c ih =>
    cases p with
    | zero =>
      simp only [List.getElem?_cons_zero, Option.some.injEq] at he
      subst he
      rw [List.set_cons_zero, coeff_cons, coeff_cons]
      by_cases h : x.1 = k
      · simp only [h, if_true]
        rw [add_assoc, add_comm v, ← add_assoc]
      · rw [if_neg h, if_neg h, if_neg (fun h' => h h'.symm), zero_add, add_zero]
    | succ p =>
      rw [List.getElem?_cons_succ] at he
      rw [List.set_cons_succ, coeff_cons, coeff_cons, ih he, add_assoc]

theorem Sorted.set {c : List (ℕ × K)} (hc : Sorted c) {p : ℕ} {e : ℕ × K} (he : c[p]? = some e) (v : K) :
    Sorted (c.set p (e.1, v)) := by
  have hm : (c.set p (e.1, v)).map Prod.fst = c.map Prod.fst := by
    rw [List.map_set]
    apply List.ext_getElem? fun k => ?_
    rw [List.getElem?_set]
    by_cases hk : p = k
    · subst hk
      have := (List.getElem?_eq_some_iff.1 he).1
      obtain ⟨h1, h2⟩ := List.getElem?_eq_some_iff.1 he
      simp [this, h2]
    · rw [if_neg hk]
  have h2 : ∀ l : List (ℕ × K), Sorted l ↔ (l.map Prod.fst).Pairwise (· < ·) := fun l => by
    unfold Sorted; rw [List.pairwise_map]
  rw [h2, hm, ← h2]
  exact hc

/-- What an insertion does to the current column. -/
structure Added (c c' : List (ℕ × K)) (index : ℕ) (v : K) : Prop where
  coeff : ∀ k, Sparse.coeff c' k = Sparse.coeff c k + if k = index then v else 0
  mem : ∀ e ∈ c', e.1 = index ∨ ∃ e' ∈ c, e'.1 = e.1
  le : c'.length ≤ c.length + 1
  ne : v ≠ 0 → c' ≠ []
  same : v = 0 → c' = c

theorem Holds.insertValue {h : Helper K} {done : List (List (ℕ × K))} {cur : List (ℕ × K)} (hh : Holds h done cur)
    (index : ℕ) (v : K) :
    ∃ h' cur', insertValue h index v = some h' ∧ Holds h' done cur' ∧ Added cur cur' index v ∧ h'.alloc = h.alloc ∧
      h'.rows = h.rows ∧ h'.cols = h.cols ∧ h'.csc = h.csc := by
  unfold Sparse.insertValue
  by_cases hv : v = 0
  · rw [if_pos hv]
    exact ⟨h, cur, rfl, hh, ⟨by simp [hv], fun e he => Or.inr ⟨e, he, rfl⟩, by omega, fun h => absurd hv h, fun _ => rfl⟩,
      rfl, rfl, rfl, rfl⟩
  rw [if_neg hv]
  unfold getScalar
  rw [hh.last]
  simp only
  obtain ⟨r, hr, hspec⟩ := searchLoop_spec (pre := done.flatten) hh.cur_sorted index (cur.length + 1) 0 cur.length
    (by omega) (by omega) (fun k e hk => by omega) (fun k e hk hke => by
      have := (List.getElem?_eq_some_iff.1 hke).1
      omega)
  rw [hh.entries, hr]
  have found : ∀ p e, cur[p]? = some e → e.1 = index →
      ∃ h' cur', (match (some (h, done.flatten.length + p) : Option (Helper K × ℕ)) with
        | none => none
        | some (h, pos) => match h.entries[pos]? with
          | none => none
          | some e => some { h with entries := h.entries.set pos (e.1, e.2 + v) }) = some h' ∧ Holds h' done cur' ∧
        Added cur cur' index v ∧ h'.alloc = h.alloc ∧ h'.rows = h.rows ∧ h'.cols = h.cols ∧ h'.csc = h.csc := by
    intro p e he hi
    have hlt := (List.getElem?_eq_some_iff.1 he).1
    have hget : h.entries[done.flatten.length + p]? = some e := by
      rw [hh.entries, List.getElem?_append_right (by omega), show done.flatten.length + p - done.flatten.length = p by omega, he]
    simp only [hget]
    have hlen : (cur.set p (e.1, e.2 + v)).length = cur.length := List.length_set
    refine ⟨_, cur.set p (e.1, e.2 + v), rfl, ⟨?_, ?_, hh.nnz, ?_, ?_, hh.cap, hh.len, hh.sorted, hh.pure,
      hh.cur_sorted.set he _⟩, ⟨?_, ?_, by omega, ?_, fun h0 => absurd h0 hv⟩, rfl, rfl, rfl, rfl⟩
    · simp only [hh.entries]
      rw [List.set_append_right _ _ (by omega), show done.flatten.length + p - done.flatten.length = p by omega]
    · simp only [hh.frames]
      rw [framesOf_append, framesOf_append]
      simp [framesOf]
    · simp only [hh.indptr, starts]
      rw [framesOf_append, framesOf_append]
      simp [framesOf]
    · have := hh.fit
      rw [List.length_append] at this ⊢
      rw [hlen]
      exact this
    · intro k
      rw [coeff_set he, hi]
    · intro x hx
      rcases List.mem_or_eq_of_mem_set hx with h1 | h1
      · exact Or.inr ⟨x, h1, rfl⟩
      · left; rw [h1]; exact hi
    · intro _ h0
      have : (cur.set p (e.1, e.2 + v)).length = 0 := by rw [h0]; rfl
      omega
  cases r with
  | inl p =>
    obtain ⟨e, he, hi⟩ := hspec
    exact found p e he hi
  | inr p =>
    obtain ⟨hp, hlo, hhi⟩ := hspec
    simp only
    by_cases hcond : p < cur.length ∧ ((done.flatten ++ cur)[done.flatten.length + p]?).map Prod.fst = some index
    · rw [if_pos hcond]
      have hge := List.getElem?_eq_getElem hcond.1
      have := hhi p _ (Nat.le_refl p) hge
      exfalso
      have h2 := hcond.2
      rw [List.getElem?_append_right (by omega), show done.flatten.length + p - done.flatten.length = p by omega, hge,
        Option.map_some, Option.some.injEq] at h2
      omega
    rw [if_neg hcond]
    unfold newScalar
    rw [hh.last]
    simp only
    set g : Helper K := if h.nnz + cur.length = h.cap then resize h (h.cap * 2) else h with hg
    have g1 : g.frames = framesOf 0 (done ++ [cur]) := by
      rw [hg]
      split
      · simp only [resize, hh.frames, relocate_framesOf]
      · exact hh.frames
    have g2 : done.flatten.length + cur.length < g.cap := by
      have := hh.fit
      have hc := hh.cap
      have hn := hh.nnz
      rw [List.length_append] at this
      rw [hg]
      split
      · simp only [resize]; omega
      · omega
    have g3 : g.entries = h.entries ∧ g.nnz = h.nnz ∧ g.indptr = h.indptr ∧ g.alloc = h.alloc ∧ g.rows = h.rows ∧
        g.cols = h.cols ∧ g.csc = h.csc := by
      rw [hg]
      split <;> exact ⟨rfl, rfl, rfl, rfl, rfl, rfl, rfl⟩
    clear_value g
    have g4 : g.frames.getLast? = some ⟨done.flatten.length, cur.length⟩ := by
      rw [g1, framesOf_append]
      simp [framesOf]
    rw [g4]
    simp only
    rw [if_pos g2]
    simp only
    have htake : (done.flatten ++ cur).take (done.flatten.length + p) = done.flatten ++ cur.take p := by
      rw [List.take_append, List.take_of_length_le (by omega), show done.flatten.length + p - done.flatten.length = p by omega]
    have hdrop : (done.flatten ++ cur).drop (done.flatten.length + p) = cur.drop p := by
      rw [List.drop_append, List.drop_of_length_le (by omega), List.nil_append,
        show done.flatten.length + p - done.flatten.length = p by omega]
    rw [g3.1, hh.entries, htake, hdrop, List.append_assoc]
    have hget : (done.flatten ++ (cur.take p ++ (index, (0 : K)) :: cur.drop p))[done.flatten.length + p]? = some (index, 0) := by
      rw [List.getElem?_append_right (by omega), List.getElem?_append_right (by rw [List.length_take]; omega)]
      simp [hp]
    rw [hget]
    simp only [zero_add]
    have hset : (done.flatten ++ (cur.take p ++ (index, (0 : K)) :: cur.drop p)).set (done.flatten.length + p) (index, v) =
        done.flatten ++ (cur.take p ++ (index, v) :: cur.drop p) := by
      rw [List.set_append_right _ _ (by omega), List.set_append_right _ _ (by rw [List.length_take]; omega)]
      simp [hp]
    rw [hset]
    have hl : (cur.take p ++ (index, v) :: cur.drop p).length = cur.length + 1 := by
      simp only [List.length_append, List.length_take, List.length_cons, List.length_drop]
      omega
    refine ⟨_, cur.take p ++ (index, v) :: cur.drop p, rfl, ⟨rfl, ?_, ?_, ?_, ?_, ?_, ?_, hh.sorted, hh.pure,
      hh.cur_sorted.insert hp hlo hhi⟩, ⟨?_, ?_, by omega, ?_, fun h0 => absurd h0 hv⟩, g3.2.2.2.1, g3.2.2.2.2.1, g3.2.2.2.2.2.1, g3.2.2.2.2.2.2⟩
    · simp only [g1, framesOf_dropLast]
      rw [framesOf_append]
      simp only [framesOf, hl, Nat.zero_add]
    · simp only [g3.2.1, hh.nnz]
    · simp only [g3.2.2.1, hh.indptr, starts]
      rw [framesOf_append, framesOf_append]
      simp [framesOf]
    · rw [List.length_append, hl]
      simp only
      omega
    · simp only; omega
    · simp only [g3.2.2.2.1]; exact hh.len
    · intro k
      rw [coeff_append, coeff_cons]
      have : coeff cur k = coeff (cur.take p) k + coeff (cur.drop p) k := by
        rw [← coeff_append, List.take_append_drop]
      rw [this, add_assoc, add_comm (coeff (cur.drop p) k)]
      simp only [eq_comm (a := index)]
    · intro e he
      rcases List.mem_append.1 he with he | he
      · exact Or.inr ⟨e, List.mem_of_mem_take he, rfl⟩
      · rcases List.mem_cons.1 he with rfl | he
        · exact Or.inl rfl
        · exact Or.inr ⟨e, List.mem_of_mem_drop he, rfl⟩
    · intro _ h0
      have : (cur.take p ++ (index, v) :: cur.drop p).length = 0 := by rw [h0]; rfl
      omega

/-- Reading a finished column. -/
theorem Holds.frame {h : Helper K} {done : List (List (ℕ × K))} {cur : List (ℕ × K)} (hh : Holds h done cur) {f : ℕ}
    {c : List (ℕ × K)} (hc : done[f]? = some c) :
    h.frames[f]? = some ⟨(done.take f).flatten.length, c.length⟩ ∧
    ∀ i, i < c.length → h.entries[(done.take f).flatten.length + i]? = c[i]? := by
  have hf : f < done.length := (List.getElem?_eq_some_iff.1 hc).1
  constructor
  · rw [hh.frames, framesOf_get, List.getElem?_append_left hf, hc, List.take_append_of_le_length (by omega)]
    simp
  · intro i hi
    have : done = done.take f ++ c :: done.drop (f + 1) := by
      obtain ⟨h1, h2⟩ := List.getElem?_eq_some_iff.1 hc
      rw [← h2, List.getElem_cons_drop, List.take_append_drop]
    have hfl : done.flatten ++ cur = (done.take f).flatten ++ (c ++ ((done.drop (f + 1)).flatten ++ cur)) := by
      conv_lhs => rw [this]
      simp
    rw [hh.entries, hfl, List.getElem?_append_right (by omega), List.getElem?_append_left (by omega)]
    congr 1
    omega

/-- A finished matrix: the columns `cols`. -/
structure Built (m : Matrix K) (cols : List (List (ℕ × K))) : Prop where
  entries : m.entries = cols.flatten
  indptr : m.indptr = starts 0 cols ++ [cols.flatten.length]
  sorted : ∀ c ∈ cols, Sorted c
  pure : ∀ c ∈ cols, ∀ e ∈ c, e.2 ≠ 0

theorem Holds.build {h : Helper K} {done : List (List (ℕ × K))} {cur : List (ℕ × K)} (hh : Holds h done cur)
    (hr : Removable done.flatten cur) (ha : done.length + 1 = h.alloc) :
    ∃ m, build h = some m ∧ Built m (done ++ [purge cur]) ∧ m.rows = h.rows ∧ m.cols = h.cols ∧ m.csc = h.csc := by
  unfold Sparse.build
  rw [hh.frames_length, if_neg (by omega), hh.last]
  simp only
  rw [hh.entries, removeZeros_eq hh.flat_pure hr]
  simp only
  have hind : h.indptr.length = done.length + 1 := by
    rw [hh.indptr, starts, List.length_map, framesOf_length, List.length_append]
    rfl
  have hs : ∀ (g : Helper K) (v : ℕ), g.alloc = h.alloc → g.indptr = h.indptr →
      setIndptr g (done.length + 1) v = some { g with indptr := g.indptr ++ [v] } := by
    intro g v h1 h2
    exact setIndptr_push (by omega) (by rw [h2]; exact hind)
  rw [hs]
  rotate_left
  · rfl
  · rfl
  refine ⟨_, rfl, ⟨by simp, ?_, ?_, ?_⟩, rfl, rfl, rfl⟩
  · simp only [hh.indptr, hh.nnz, starts]
    rw [framesOf_append 0 done, framesOf_append 0 done]
    simp [framesOf]
  · intro c hc
    rcases List.mem_append.1 hc with hc | hc
    · exact hh.sorted c hc
    · rw [List.mem_singleton.1 hc]; exact hh.cur_sorted.purge
  · intro c hc
    rcases List.mem_append.1 hc with hc | hc
    · exact hh.pure c hc
    · rw [List.mem_singleton.1 hc]; exact purge_ne

theorem starts_get (pos : ℕ) (a : List (List (ℕ × K))) (f : ℕ) :
    (starts pos a)[f]? = if f < a.length then some (pos + (a.take f).flatten.length) else none := by
  unfold starts
  rw [List.getElem?_map, framesOf_get]
  by_cases h : f < a.length
  · rw [if_pos h, List.getElem?_eq_getElem h]
    rfl
  · rw [if_neg h, List.getElem?_eq_none (by omega)]
    rfl

theorem Built.offset {m : Matrix K} {cols : List (List (ℕ × K))} (hb : Built m cols) {f : ℕ} (hf : f ≤ cols.length) :
    m.indptr[f]? = some (cols.take f).flatten.length := by
  rw [hb.indptr]
  have hl : (starts 0 cols).length = cols.length := by rw [starts, List.length_map, framesOf_length]
  rcases Nat.lt_or_ge f cols.length with h | h
  · rw [List.getElem?_append_left (by omega), starts_get, if_pos h, Nat.zero_add]
  · have : f = cols.length := by omega
    subst this
    rw [List.getElem?_append_right (by omega), hl, List.take_length]
    simp

theorem Built.frame {m : Matrix K} {cols : List (List (ℕ × K))} (hb : Built m cols) {f : ℕ} {c : List (ℕ × K)}
    (hc : cols[f]? = some c) : m.frame f = some c := by
  obtain ⟨hf, h2⟩ := List.getElem?_eq_some_iff.1 hc
  unfold Matrix.frame
  rw [hb.offset (by omega), hb.offset (by omega)]
  simp only [Option.bind_eq_bind, Option.bind_some]
  have htake : cols.take (f + 1) = cols.take f ++ [c] := by
    rw [List.take_succ, hc]
    rfl
  have hfl : cols.flatten = (cols.take f).flatten ++ (c ++ (cols.drop (f + 1)).flatten) := by
    conv_lhs => rw [← List.take_append_drop (f + 1) cols, htake]
    simp
  rw [if_pos]
  · rw [hb.entries, hfl, htake]
    simp
  · rw [hb.entries, hfl, htake]
    simp

theorem Built.stores {m : Matrix K} {cols : List (List (ℕ × K))} (hb : Built m cols) {n : ℕ} (hn : cols.length = n)
    {M : ℕ → ℕ → K} (hM : ∀ f c, cols[f]? = some c → ∀ i, coeff c i = M f i) : Stores m n M := by
  subst hn
  have hl : (starts 0 cols).length = cols.length := by rw [starts, List.length_map, framesOf_length]
  refine ⟨?_, ?_, ?_, ?_⟩
  · rw [hb.indptr, List.length_append, hl]
    rfl
  · rw [hb.offset (Nat.zero_le _)]
    rfl
  · rw [hb.offset (Nat.le_refl _), List.take_length, hb.entries]
  · intro f hf
    have hc := List.getElem?_eq_getElem hf
    refine ⟨cols[f], hb.frame hc, hb.sorted _ (List.getElem_mem _), fun i v => ?_⟩
    rw [mem_iff_coeff (hb.sorted _ (List.getElem_mem _)) (hb.pure _ (List.getElem_mem _)), hM f _ hc]

end RoughPy.Sparse
