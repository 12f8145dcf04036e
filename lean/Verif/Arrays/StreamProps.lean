import Verif.Arrays.StreamModel
import Verif.Arrays.KeyProps

/-!
# C146: streams of rows
-/

namespace RoughPy.Arrays

open RoughPy.Args (Out)
open RoughPy.Scalars (Ty Val FP TRef conv exactFP)

/-- The stream that rows, each with keys or without, have been pushed to. -/
def pushAll (l : List (Arr × Option KPtr)) : RowStream :=
  l.foldl (fun s r => s.push r.1 r.2) RowStream.empty

/-- After the first row with keys all rows have keys. -/
def KeysStay (l : List (Arr × Option KPtr)) : Prop :=
  ∀ (i j : ℕ) (r q : Arr × Option KPtr), i < j → l[i]? = some r → l[j]? = some q → r.2 ≠ none → q.2 ≠ none

theorem pushAll_append (l : List (Arr × Option KPtr)) (r : Arr × Option KPtr) :
    pushAll (l ++ [r]) = (pushAll l).push r.1 r.2 := by
  unfold pushAll; rw [List.foldl_append]; rfl

theorem pushAll_rows (l : List (Arr × Option KPtr)) : (pushAll l).rows = l.map Prod.fst := by
  induction l using List.reverseRecOn with
  | nil => rfl
  | append_singleton l r ih =>
    rw [pushAll_append, List.map_append]
    unfold RowStream.push
    cases r.2 <;> simp [ih]

theorem keysStay_left {l : List (Arr × Option KPtr)} {r : Arr × Option KPtr} (h : KeysStay (l ++ [r])) :
    KeysStay l := by
  intro i j a b hij ha hb
  have h1 := (List.getElem?_eq_some_iff.1 ha).1
  have h2 := (List.getElem?_eq_some_iff.1 hb).1
  exact h i j a b hij (by rw [List.getElem?_append_left h1]; exact ha)
    (by rw [List.getElem?_append_left h2]; exact hb)

theorem pushAll_keys {l : List (Arr × Option KPtr)} (h : KeysStay l) :
    ((∀ r ∈ l, r.2 = none) ∧ (pushAll l).keys = []) ∨
      ((∃ r ∈ l, r.2 ≠ none) ∧ (pushAll l).keys = l.map Prod.snd) := by
  induction l using List.reverseRecOn with
  | nil => exact .inl ⟨by simp, rfl⟩
  | append_singleton l r ih =>
    rw [pushAll_append]
    rcases ih (keysStay_left h) with ⟨h1, h2⟩ | ⟨⟨q, hq, hn⟩, h2⟩
    · cases hr : r.2 with
      | none =>
        refine .inl ⟨?_, ?_⟩
        · intro q hq
          rcases List.mem_append.1 hq with h' | h'
          · exact h1 q h'
          · rw [List.mem_singleton.1 h']; exact hr
        · unfold RowStream.push; exact h2
      | some p =>
        refine .inr ⟨⟨r, by simp, by rw [hr]; simp⟩, ?_⟩
        unfold RowStream.push
        dsimp only
        rw [if_pos h2, pushAll_rows, List.length_map, List.map_append, List.map_singleton, hr]
        congr 1
        symm
        rw [List.eq_replicate_iff]
        refine ⟨by simp, ?_⟩
        intro b hb
        obtain ⟨q, hq, rfl⟩ := List.mem_map.1 hb
        exact h1 q hq
    · obtain ⟨i, hi, rfl⟩ := List.mem_iff_getElem.1 hq
      have hr : r.2 ≠ none :=
        h i l.length l[i] r hi (by rw [List.getElem?_append_left hi]; exact List.getElem?_eq_getElem hi)
          (by simp) hn
      refine .inr ⟨⟨r, by simp, hr⟩, ?_⟩
      obtain ⟨p, hp⟩ := Option.ne_none_iff_exists'.1 hr
      rw [hp]
      unfold RowStream.push
      dsimp only
      have hne : (pushAll l).keys ≠ [] := by
        rw [h2]; intro e
        have := List.map_eq_nil_iff.1 e
        subst this; cases hi
      rw [if_neg hne, h2, List.map_append, List.map_singleton, hp]

/-- Once keys are missing, they stay missing. -/
theorem pushAll_short {l : List (Arr × Option KPtr)} (h : ¬ KeysStay l) :
    (pushAll l).keys ≠ [] ∧ (pushAll l).keys.length < l.length := by
  induction l using List.reverseRecOn with
  | nil => exact absurd (fun i j r q _ hi => by simp at hi) h
  | append_singleton l r ih =>
    rw [pushAll_append, List.length_append, List.length_singleton]
    by_cases hl : KeysStay l
    · -- the last row has no keys
      have hr : r.2 = none ∧ ∃ q ∈ l, q.2 ≠ none := by
        unfold KeysStay at h
        push Not at h
        obtain ⟨i, j, a, b, hij, ha, hb, hna, hnb⟩ := h
        have hi : i < l.length := by
          have := (List.getElem?_eq_some_iff.1 hb).1
          rw [List.length_append, List.length_singleton] at this
          omega
        rw [List.getElem?_append_left hi] at ha
        by_cases hj : j < l.length
        · rw [List.getElem?_append_left hj] at hb
          exact absurd hnb (hl i j a b hij ha hb hna)
        · rw [List.getElem?_append_right (by omega)] at hb
          have hj0 : j - l.length = 0 := by
            have := (List.getElem?_eq_some_iff.1 hb).1
            rw [List.length_singleton] at this
            omega
          rw [hj0] at hb
          cases hb
          exact ⟨hnb, a, List.mem_of_getElem? ha, hna⟩
      obtain ⟨hr, q, hq, hqn⟩ := hr
      rcases pushAll_keys hl with ⟨h1, -⟩ | ⟨-, h2⟩
      · exact absurd (h1 q hq) hqn
      · rw [hr]
        unfold RowStream.push
        dsimp only
        rw [h2]
        refine ⟨?_, by simp⟩
        intro e
        have := List.map_eq_nil_iff.1 e
        subst this; cases hq
    · obtain ⟨h1, h2⟩ := ih hl
      unfold RowStream.push
      cases r.2 with
      | none => exact ⟨h1, by dsimp only; omega⟩
      | some p =>
        dsimp only
        rw [if_neg h1]
        refine ⟨by simp, by rw [List.length_append, List.length_singleton]; omega⟩

/-- **C146, in part.** The rows and keys that were pushed can be read back exactly if no row without keys
was pushed after a row with keys; else reading the last row is undefined. -/
theorem C146_rows_partial (l : List (Arr × Option KPtr)) :
    (KeysStay l → ∀ i r, l[i]? = some r → (pushAll l).row i = .ok r) ∧
      (¬ KeysStay l → (pushAll l).row (l.length - 1) = .ub) := by
  constructor
  · intro h i r hi
    have hrow : (pushAll l).rows[i]? = some r.1 := by
      rw [pushAll_rows, List.getElem?_map, hi]; rfl
    unfold RowStream.row
    rw [hrow]
    dsimp only
    rcases pushAll_keys h with ⟨h1, h2⟩ | ⟨⟨q, hq, -⟩, h2⟩
    · rw [if_pos h2, ← h1 r (List.mem_of_getElem? hi)]
    · rw [if_neg, h2, List.getElem?_map, hi]
      · rfl
      · rw [h2]; intro e
        have := List.map_eq_nil_iff.1 e
        subst this; cases hq
  · intro h
    obtain ⟨h1, h2⟩ := pushAll_short h
    have h0 : l.length - 1 < l.length := by omega
    unfold RowStream.row
    rw [pushAll_rows, List.getElem?_map, List.getElem?_eq_getElem h0]
    dsimp only [Option.map_some]
    rw [if_neg h1, List.getElem?_eq_none (by omega)]

/-- A row of two numbers of the user. -/
def someRow : Arr := borrowed false (.ptr .f64) 0 0 2

/-- Rows without keys first, then rows with keys. -/
example : KeysStay [(someRow, none), (someRow, some (0, 0)), (someRow, some (1, 0))] := by
  intro i j r q hij hi hj hr
  match i, j, hij, hi, hj with
  | 0, _, _, hi, _ => cases hi; exact absurd rfl hr
  | 1, 2, _, _, hj => cases hj; simp
  | 1, j + 3, _, _, hj => simp at hj
  | 2, j + 3, _, _, hj => simp at hj
  | i + 3, _, _, hi, _ => simp at hi

/-- **C146 fails:** of three rows the second has no keys; it gets those of the third, and reading the
third is undefined. -/
theorem C146_keys_refuted (p q : KPtr) :
    (pushAll [(someRow, some p), (someRow, none), (someRow, some q)]).row 1 = .ok (someRow, some q) ∧
      (pushAll [(someRow, some p), (someRow, none), (someRow, some q)]).row 2 = .ub := ⟨rfl, rfl⟩

/-- **C146 fails:** a row that is not there does not raise: the check is inside a function that is
`noexcept`, so the program is terminated. -/
theorem C146_range_refuted (s : RowStream) {i : ℕ} (hi : s.rowCount ≤ i) :
    s.row i = .ub ∧ s.colCount i = .ub := by
  have : s.rows[i]? = none := List.getElem?_eq_none hi
  unfold RowStream.row RowStream.colCount
  rw [this]
  exact ⟨rfl, rfl⟩

/-- **C146.** The counts: as many rows as were pushed, each of its size, and the largest size is that of
a row and not less than that of any. -/
theorem C146_counts (l : List (Arr × Option KPtr)) :
    (pushAll l).rowCount = l.length ∧
      (∀ i r, l[i]? = some r → (pushAll l).colCount i = .ok r.1.size) ∧
      (∀ r ∈ l, r.1.size ≤ (pushAll l).maxRowSize) ∧
      (l ≠ [] → ∃ r ∈ l, r.1.size = (pushAll l).maxRowSize) := by
  refine ⟨by unfold RowStream.rowCount; rw [pushAll_rows, List.length_map], ?_, ?_⟩
  · intro i r hi
    unfold RowStream.colCount
    rw [pushAll_rows, List.getElem?_map, hi]
    rfl
  have best : ∀ (ns : List ℕ) (n : ℕ),
      (∀ x ∈ n :: ns, x ≤ ns.foldl (fun best x => if best < x then x else best) n) ∧
        ns.foldl (fun best x => if best < x then x else best) n ∈ n :: ns := by
    intro ns
    induction ns with
    | nil => intro n; simp
    | cons m ns ih =>
      intro n
      obtain ⟨h1, h2⟩ := ih (if n < m then m else n)
      rw [List.foldl_cons]
      refine ⟨?_, ?_⟩
      · intro x hx
        have hm := h1 (if n < m then m else n) (by simp)
        rcases List.mem_cons.1 hx with rfl | hx
        · refine le_trans ?_ hm; split_ifs <;> omega
        · rcases List.mem_cons.1 hx with rfl | hx
          · refine le_trans ?_ hm; split_ifs <;> omega
          · exact h1 x (List.mem_cons_of_mem _ hx)
      · rcases List.mem_cons.1 h2 with e | h2
        · rw [e]; split_ifs <;> simp
        · exact List.mem_cons_of_mem _ (List.mem_cons_of_mem _ h2)
  have hmax : ∀ (ns : List ℕ), (pushAll l).rows.map Arr.size = ns →
      (∀ x ∈ ns, x ≤ (pushAll l).maxRowSize) ∧ (ns ≠ [] → (pushAll l).maxRowSize ∈ ns) := by
    intro ns hns
    unfold RowStream.maxRowSize
    rw [hns]
    cases ns with
    | nil => exact ⟨by simp, by simp⟩
    | cons n ns => exact ⟨(best ns n).1, fun _ => (best ns n).2⟩
  have hsz : (pushAll l).rows.map Arr.size = l.map fun r => r.1.size := by
    rw [pushAll_rows, List.map_map]; rfl
  obtain ⟨h1, h2⟩ := hmax _ hsz
  refine ⟨fun r hr => h1 _ (List.mem_map.2 ⟨r, hr, rfl⟩), fun hl => ?_⟩
  obtain ⟨r, hr, e⟩ := List.mem_map.1 (h2 (by simpa using hl))
  exact ⟨r, hr, e⟩

/-! ## Streams of an array with a shape -/

/-- A row of an array over memory of the user. -/
theorem slice_borrowed {w : World} {r : TRef} {b o n cols i : ℕ} (hn : n < 2 ^ 64)
    (h1 : (i + 1) * cols ≤ n) :
    slice false w (borrowed false r b o n) (i * cols) ((i + 1) * cols) =
      .ok ⟨r, .mutB, .data b (o + i * cols), cols⟩ := by
  have hsz : sliceSize (i * cols) ((i + 1) * cols) = cols := by
    unfold sliceSize
    have e : (i + 1) * cols = i * cols + cols := by ring
    rw [e] at h1 ⊢
    rw [Nat.mod_eq_of_lt (by omega : i * cols < 2 ^ 64)]
    have : i * cols + cols + (2 ^ 64 - i * cols) = cols + 2 ^ 64 := by omega
    rw [this, Nat.add_mod_right, Nat.mod_eq_of_lt (by omega)]
  unfold slice
  rw [if_pos (show (i + 1) * cols ≤ (borrowed false r b o n).size from h1)]
  rw [if_neg (by simp [borrowed]), if_neg (by simp [borrowed])]
  have hp : (borrowed false r b o n).ptr w = .ok (.elem b o) := rfl
  rw [hp]
  show Out.ok _ = _
  rw [hsz]
  rfl

/-- The rows of an array over memory of the user. -/
theorem cutRows_borrowed {w : World} {r : TRef} {b o n cols : ℕ} (hn : n < 2 ^ 64) :
    ∀ (k i : ℕ), (i + k) * cols ≤ n →
      cutRows w (borrowed false r b o n) cols k i =
        .ok ((List.range k).map fun j => ⟨r, .mutB, .data b (o + (i + j) * cols), cols⟩) := by
  intro k
  induction k with
  | zero => intro i _; rfl
  | succ k ih =>
    intro i hi
    have h1 : (i + 1) * cols ≤ n := le_trans (Nat.mul_le_mul_right _ (by omega)) hi
    unfold cutRows
    rw [slice_borrowed hn h1]
    show (cutRows w (borrowed false r b o n) cols k (i + 1)).map _ = _
    rw [ih (i + 1) (by rw [show i + 1 + k = i + (k + 1) by ring]; exact hi)]
    show Out.ok _ = _
    rw [List.range_succ_eq_map, List.map_cons, List.map_map]
    congr 2
    refine List.map_congr_left fun j _ => ?_
    show _ = Arr.mk r .mutB (.data b (o + (i + (j + 1)) * cols)) cols
    rw [show i + 1 + j = i + (j + 1) by ring]

/-- **C146, in part.** A stream of an array over memory of the user, with a number of rows and columns
that fit, has these rows, and the element `k` of row `i` is the element `i * cols + k` of the array.
Missing: arrays that own their memory, `C146_dangling_refuted`, and arrays of constants,
`C146_const_refuted`. -/
theorem C146_shape_partial {w : World} {t : Ty} {b o n rows cols : ℕ} (hn : n < 2 ^ 64)
    (h0 : 0 < n) (hf : rows * cols ≤ n) :
    ∃ S, scalarStream w (borrowed false (.ptr t) b o n) [rows, cols] = .ok (w, S) ∧
      S.rowCount = rows ∧ ∀ i, i < rows → S.colCount i = .ok cols ∧
        ∃ a, S.row i = .ok (a, none) ∧ ∀ k, k < cols →
          get w a k = get w (borrowed false (.ptr t) b o n) (i * cols + k) := by
  have hcut := cutRows_borrowed (w := w) (r := .ptr t) (b := b) (o := o) (cols := cols) hn rows 0
    (by rw [Nat.zero_add]; exact hf)
  refine ⟨⟨(List.range rows).map fun j => ⟨.ptr t, .mutB, .data b (o + (0 + j) * cols), cols⟩, []⟩,
    ?_, ?_, ?_⟩
  · unfold scalarStream
    rw [if_neg (by unfold Arr.isNull Arr.typeNull borrowed; simp)]
    show cutStream w (borrowed false (.ptr t) b o n) [rows, cols] = _
    unfold cutStream rowsCols
    dsimp only
    rw [hcut]
    rfl
  · unfold RowStream.rowCount; simp
  · intro i hi
    have hrow : ((List.range rows).map fun j =>
        (⟨.ptr t, .mutB, .data b (o + (0 + j) * cols), cols⟩ : Arr))[i]? =
          some ⟨.ptr t, .mutB, .data b (o + (0 + i) * cols), cols⟩ := by
      rw [List.getElem?_map, List.getElem?_range hi]; rfl
    refine ⟨?_, ⟨.ptr t, .mutB, .data b (o + (0 + i) * cols), cols⟩, ?_, ?_⟩
    · unfold RowStream.colCount; dsimp only; rw [hrow]
    · unfold RowStream.row; dsimp only; rw [hrow]; rfl
    · intro k hk
      have hik : i * cols + k < n := by
        have : (i + 1) * cols ≤ rows * cols := Nat.mul_le_mul_right _ hi
        have e : (i + 1) * cols = i * cols + cols := by ring
        omega
      unfold get
      have c1 : (⟨.ptr t, .mutB, .data b (o + (0 + i) * cols), cols⟩ : Arr).checkAccess false = .ok () := by
        unfold Arr.checkAccess; simp
      have c2 : (borrowed false (.ptr t) b o n).checkAccess false = .ok () := by
        unfold Arr.checkAccess borrowed; simp
      rw [c1, c2]
      show (if k < cols then _ else _) = (if i * cols + k < n then _ else _)
      rw [if_pos hk, if_pos hik]
      have e : o + (0 + i) * cols + k = o + (i * cols + k) := by ring
      show (w.read (.elem b (o + (0 + i) * cols + k))).bind _ =
        (w.read (.elem b (o + (i * cols + k)))).bind _
      rw [e]

/-- Four numbers of the user. -/
def fourNumbers : World := ⟨[⟨[some (.rat 1), some (.rat 2), some (.rat 3), some (.rat 4)], true⟩], []⟩

/-- In two rows: the second starts with the third number. -/
example : ∃ S a, scalarStream fourNumbers (borrowed false (.ptr .rat) 0 0 4) [2, 2] = .ok (fourNumbers, S) ∧
    S.row 1 = .ok (a, none) ∧ fourNumbers.read (.elem 0 2) = .ok (.rat 3) ∧ a.word = .data 0 2 :=
  ⟨_, _, rfl, rfl, rfl, rfl⟩

/-- **C146.** More rows than the array has are refused. -/
theorem C146_too_many {w : World} {t : Ty} {b o n rows cols : ℕ} (hn : n < 2 ^ 64) (h0 : 0 < n)
    (hf : n < rows * cols) :
    scalarStream w (borrowed false (.ptr t) b o n) [rows, cols] = .err := by
  have key : ∀ k i, i * cols ≤ n → n < (i + k) * cols →
      cutRows w (borrowed false (.ptr t) b o n) cols k i = .err := by
    intro k
    induction k with
    | zero => intro i h1 h2; rw [Nat.add_zero] at h2; omega
    | succ k ih =>
      intro i h1 h2
      unfold cutRows
      by_cases hi : (i + 1) * cols ≤ n
      · have := ih (i + 1) hi (by rw [show i + 1 + k = i + (k + 1) by ring]; exact h2)
        rw [this, slice_borrowed hn hi]
        rfl
      · unfold slice
        rw [if_neg (show ¬ (i + 1) * cols ≤ (borrowed false (.ptr t) b o n).size from hi)]
        rfl
  unfold scalarStream
  rw [if_neg (by unfold Arr.isNull Arr.typeNull borrowed; simp)]
  show cutStream w (borrowed false (.ptr t) b o n) [rows, cols] = _
  unfold cutStream rowsCols
  dsimp only
  rw [key rows 0 (by simp) (by rw [Nat.zero_add]; exact hf)]
  rfl

/-- **C146.** A shape without numbers is refused. -/
theorem C146_no_shape {w : World} {t : Ty} {b o n : ℕ} (h0 : 0 < n) :
    scalarStream w (borrowed false (.ptr t) b o n) [] = .err := by
  unfold scalarStream
  rw [if_neg (by unfold Arr.isNull Arr.typeNull borrowed; simp)]
  rfl

/-- **C146 fails:** the rows of an array that owns its memory point into it, but the array is destroyed:
reading a row is undefined. -/
theorem C146_dangling_refuted : ∃ w S a,
    scalarStream (typed (fun _ => 0) ⟨[], []⟩ .f64 4).1 (typed (fun _ => 0) ⟨[], []⟩ .f64 4).2 [2, 2] =
      .ok (w, S) ∧ S.row 0 = .ok (a, none) ∧ get w a 0 = .ub :=
  ⟨_, _, _, rfl, rfl, rfl⟩

/-- **C146 fails:** an array of constants is refused. -/
theorem C146_const_refuted :
    scalarStream fourNumbers (borrowed true (.ptr .rat) 0 0 4) [2, 2] = .err := rfl

/-- **C146 fails:** of a shape with three numbers the third is not looked at: `(2, 1, 2)` gives two rows
with one number each. -/
theorem C146_third_refuted : ∃ w S,
    scalarStream fourNumbers (borrowed false (.ptr .rat) 0 0 4) [2, 1, 2] = .ok (w, S) ∧
      S.rowCount = 2 ∧ S.colCount 0 = .ok 1 ∧ S.colCount 1 = .ok 1 :=
  ⟨_, _, rfl, rfl, rfl, rfl⟩

end RoughPy.Arrays
