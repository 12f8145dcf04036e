import Verif.Args.Lemmas
import Verif.Args.Spec

/-!
# Properties of array arguments

C90: an array handed over through DLPack is read element by element, whatever its strides.
C91: the same for the buffer protocol.
C92: the same for the array of time stamps.
C93: the type tag of a scalar or an array reads back as it was stored.
C94: the scalar type chosen for a data argument.

None of them holds in full; every property comes with the part that holds and with the failures.
-/

namespace RoughPy.Args

/-! ## C90: DLPack arrays -/

/-- A one dimensional array becomes one row holding its elements in order, converted to the scalar
type. `hg` excludes the strides that the library mistakes for contiguous ones, `hu` unsigned
elements with the top bit set; `Plain` excludes other devices and byte offsets. -/
theorem C90_vector_partial {R : Type} (T : DL) (C : Conv R) (target : Target) (maxNested m : ℕ)
    (s : ℤ) (hp : T.Plain) (hu : T.Small) (hs : T.shape = [m]) (hm : 0 < m) (hn : 1 ≤ maxNested)
    (hst : T.strides = some [s] ∨ (T.strides = none ∧ s = 1))
    (hg : T.strides = none ∨ ¬ T.SameType target ∨ (s % 2 ^ 32 ≠ 0 ∧ s ≠ (T.bits / 8 : ℕ)))
    (he : ∀ j, j < m → (T.at1 s j).isSome) :
    ∃ rows, T.rows C target maxNested = .ok rows ∧ T.IsRows1 C m s rows := by
  refine ⟨[(List.range m).map fun j => valueOf C T.code (T.bits / 8) ((T.at1 s j).getD 0)],
    ?_, _, rfl, ?_⟩
  · unfold DL.rows
    rw [if_neg (by rw [hs]; simp; omega), leaf1 T C target m s hp hu hs hst hg he, hs]
    simp only [Out.bind, arrayRows, List.prod_cons, List.prod_nil, Nat.mul_one]
    rw [if_neg hm.ne']
  · refine ⟨by simp, fun j hj => ?_⟩
    obtain ⟨raw, hr⟩ := Option.isSome_iff_exists.1 (he j hj)
    refine ⟨raw, hr, ?_⟩
    rw [List.getElem?_map, List.getElem?_range hj]
    simp [hr]

/-- A two dimensional array becomes its rows in order. Besides the exclusions above, `hc` excludes
arrays whose rows are dense but do not follow each other without gaps. -/
theorem C90_matrix_partial {R : Type} (T : DL) (C : Conv R) (target : Target) (maxNested n m : ℕ)
    (s₀ s₁ : ℤ) (hp : T.Plain) (hu : T.Small) (hs : T.shape = [n, m]) (hn : 0 < n) (hm : 0 < m)
    (hmax : 2 ≤ maxNested)
    (hst : T.strides = some [s₀, s₁] ∨ (T.strides = none ∧ s₀ = m ∧ s₁ = 1))
    (hg : T.strides = none ∨ ¬ T.SameType target ∨
      ((s₀ + s₁) % 2 ^ 32 ≠ 0 ∧ ¬ (s₁ = (T.bits / 8 : ℕ) ∧ s₀ = (T.bits / 8 : ℕ) * m)))
    (hc : s₁ ≠ 1 ∨ s₀ = m ∨ n ≤ 1 ∨ m = 1)
    (he : ∀ i, i < n → ∀ j, j < m → (T.at2 s₀ s₁ i j).isSome) :
    ∃ rows, T.rows C target maxNested = .ok rows ∧ T.IsRows2 C n m s₀ s₁ rows := by
  obtain ⟨rows, h1, h2, h3⟩ := arrayRows2 n m hn hm ((List.range (n * m)).map fun k =>
      valueOf C T.code (T.bits / 8) ((T.at2 s₀ s₁ (k / m) (k % m)).getD 0)) (by simp)
  refine ⟨rows, ?_, h2, fun i hi => ⟨_, h3 i hi, ?_, fun j hj => ?_⟩⟩
  · unfold DL.rows
    rw [if_neg (by rw [hs]; simp; omega), leaf2 T C target n m s₀ s₁ hp hu hs hm hst hg hc he, hs]
    exact h1
  · have : (i + 1) * m ≤ n * m := Nat.mul_le_mul_right m hi
    simp only [List.length_take, List.length_drop, List.length_map, List.length_range]
    rw [Nat.succ_mul] at this
    omega
  · obtain ⟨raw, hr⟩ := Option.isSome_iff_exists.1 (he i hi j hj)
    refine ⟨raw, hr, ?_⟩
    have hlt : i * m + j < n * m := by
      have : (i + 1) * m ≤ n * m := Nat.mul_le_mul_right m hi
      rw [Nat.succ_mul] at this
      omega
    rw [List.getElem?_take_of_lt hj, List.getElem?_drop, List.getElem?_map,
      List.getElem?_range hlt]
    have e1 : (i * m + j) / m = i := by
      rw [Nat.mul_comm, Nat.mul_add_div hm, Nat.div_eq_of_lt hj]; rfl
    have e2 : (i * m + j) % m = j := by
      rw [Nat.mul_comm, Nat.mul_add_mod, Nat.mod_eq_of_lt hj]
    simp [e1, e2, hr]

/-- An array of more dimensions than allowed raises. -/
theorem C90_dims {R : Type} (T : DL) (C : Conv R) (target : Target) (maxNested : ℕ)
    (h : maxNested < T.shape.length) : T.rows C target maxNested = .err := by
  unfold DL.rows; rw [if_pos h]

/-- Conversions that keep what was read, for the examples. -/
def keep : Conv (ℤ ⊕ ℕ) := ⟨.inl, fun _ r => .inr r, .inr, .inl 0⟩

/-- The memory of an array of `n` elements of `b` bytes with the given bits. -/
def denseMem (b n : ℕ) (f : ℕ → ℕ) : Mem := fun o =>
  if 0 ≤ o ∧ o < (b * n : ℕ) ∧ o % (b : ℤ) = 0 then some (f (o / (b : ℤ)).toNat) else none

/-- `np.arange(6, dtype=np.int32)[::2]`. -/
def evens : DL := ⟨true, cInt, 32, 1, [3], some [2], 0, denseMem 4 6 id⟩

example : evens.Plain ∧ evens.Small ∧ (∀ j, j < 3 → (evens.at1 2 j).isSome) ∧
    ¬ evens.SameType .double :=
  ⟨by decide, fun h => absurd h (by decide), by decide, by decide⟩
example : evens.rows keep .double 2 = .ok [[.inl 0, .inl 2, .inl 4]] := by decide +kernel

/-- The transposed of a 2 × 3 array of 32 bit integers. -/
def transposed : DL := ⟨true, cInt, 32, 1, [3, 2], some [1, 3], 0, denseMem 4 6 id⟩

example : transposed.Plain ∧ transposed.Small ∧
    (∀ i, i < 3 → ∀ j, j < 2 → (transposed.at2 1 3 i j).isSome) ∧
    ¬ transposed.SameType .double :=
  ⟨by decide, fun h => absurd h (by decide), by decide, by decide⟩
example : transposed.rows keep .double 2 =
    .ok [[.inl 0, .inl 3], [.inl 1, .inl 4], [.inl 2, .inl 5]] := by decide +kernel

/-- Rows that are dense but do not follow each other without gaps are written over each other: the
last entry of the last row is zero, whatever the array holds. -/
theorem C90_wrong_rows {R : Type} (T : DL) (C : Conv R) (target : Target) (maxNested n m : ℕ)
    (s₀ : ℤ) (hp : T.Plain) (hu : T.Small) (hs : T.shape = [n, m]) (hn : 2 ≤ n) (hm : 2 ≤ m)
    (hmax : 2 ≤ maxNested) (hst : T.strides = some [s₀, 1]) (h0 : s₀ ≠ m)
    (hg : ¬ T.SameType target)
    (he : ∀ i, i < n → ∀ j, j < m → (T.at2 s₀ 1 i j).isSome) :
    ∃ rows row, T.rows C target maxNested = .ok rows ∧ rows[n - 1]? = some row ∧
      row[m - 1]? = some C.zero := by
  have hi := info_plain T hp
  obtain ⟨hh, ho, -, -, -, hsup⟩ := id hp
  have hbz : ((T.bits / 8 : ℕ) : ℤ) ≠ 0 := by exact_mod_cast (supported_bounds hsup).2.1.ne'
  have hlast : n - 1 + m ≤ n * m - 1 := by
    obtain ⟨a, rfl⟩ : ∃ a, n = a + 2 := ⟨n - 2, by omega⟩
    obtain ⟨b, rfl⟩ : ∃ b, m = b + 2 := ⟨m - 2, by omega⟩
    have : (a + 2) * (b + 2) = a * b + 2 * a + 2 * b + 4 := by ring
    have h2 : 0 ≤ a * b := Nat.zero_le _
    rw [this]
    omega
  have hpos : 0 < n * m := Nat.mul_pos (by omega) (by omega)
  have hleaf : ∃ data, T.leaf C target = .ok data ∧ data.length = n * m ∧
      data[n * m - 1]? = some C.zero := by
    unfold DL.leaf
    simp only [hh, if_true]
    rw [if_neg (by
      simp only [Bool.and_eq_true, beq_iff_eq]
      exact fun h => hg (sameType_of_eq T hp target h.2))]
    rw [hst, hs]
    simp only [Option.map_some, List.map_cons, List.map_nil, Option.some.injEq, List.cons_ne_nil,
      if_false, List.prod_cons, List.prod_nil, Nat.mul_one, List.length_cons,
      List.length_nil, Nat.zero_add, Nat.reduceAdd]
    have hrb : (readBack T.info).bytes = T.bits / 8 := by rw [hi, readBack_plain hsup]; rfl
    have hbytes : T.info.bytes = T.bits / 8 := by rw [hi]; rfl
    have hcd : compressedDims (readBack T.info).bytes [n, m]
        (some [s₀ * (T.info.bytes : ℤ), 1 * (T.info.bytes : ℤ)]) = 1 := by
      have : s₀ * ((T.bits / 8 : ℕ) : ℤ) ≠ ((T.bits / 8 : ℕ) : ℤ) * m := by
        intro hx
        rw [mul_comm] at hx
        exact h0 (mul_left_cancel₀ hbz hx)
      rw [hrb, hbytes]
      simp only [compressedDims, List.reverse_cons, List.reverse_nil, List.nil_append,
        List.cons_append, compressedFrom, one_mul, ne_eq, not_true, if_false, this, not_false_iff,
        if_true]
    unfold strideCopy
    rw [if_neg (by decide), if_neg (by simp)]
    simp only [Option.map_some, List.take_succ_cons, List.take_nil]
    rw [hcd, if_neg (by decide)]
    simp only [Nat.reduceSub, Option.getD_some, List.take_succ_cons, List.take_zero,
      List.drop_succ_cons, List.drop_zero, List.prod_cons, List.prod_nil, Nat.mul_one,
      List.reverse_cons, List.reverse_nil, List.nil_append, List.replicate]
    rw [visit_one]
    have := copyAll_keep C (fun o => T.mem o) (readBack T.info) [n] [s₀ * (T.info.bytes : ℤ)] m
      (n * m - 1) (((List.range n).map fun k => [k]).map List.reverse)
      (List.replicate (n * m) C.zero) (by
        intro ix hix
        simp only [List.map_map, List.mem_map, List.mem_range, Function.comp_apply,
          List.reverse_singleton] at hix
        obtain ⟨k, hk, rfl⟩ := hix
        refine ⟨(List.range m).map fun j =>
          valueOf C T.code (T.bits / 8) ((T.at2 s₀ 1 k j).getD 0), ?_, by simp⟩
        apply readRun_ok
        intro j hj
        obtain ⟨raw, hr⟩ := Option.isSome_iff_exists.1 (he k hk j hj)
        have hr' : T.mem (srcOffset [s₀ * (T.info.bytes : ℤ)] [k] +
            ((readBack T.info).bytes : ℤ) * j) = some raw := by
          rw [← hr, hrb, hbytes]
          simp only [DL.at2, ho, zero_add, srcOffset]
          congr 1
          ring
        refine ⟨raw, hr', ?_⟩
        rw [hi, decode_readBack C hsup fun hc => hu hc _ _ hr', hr]; rfl)
      (by
        intro ix hix
        simp only [List.map_map, List.mem_map, List.mem_range, Function.comp_apply,
          List.reverse_singleton] at hix
        obtain ⟨k, hk, rfl⟩ := hix
        simp only [dstOffset, List.getLast?_singleton, Option.getD_some, List.drop_succ_cons,
          List.drop_zero, dstSum]
        omega)
      (by simp; omega)
    obtain ⟨out, h1, h2, h3⟩ := this
    refine ⟨out, h1, by simpa using h2, ?_⟩
    rw [h3, List.getElem?_replicate, if_pos (by omega)]
  obtain ⟨data, hd, hl, hz⟩ := hleaf
  obtain ⟨rows, h1, h2, h3⟩ := arrayRows2 n m (by omega) (by omega) data hl
  refine ⟨rows, _, ?_, h3 (n - 1) (by omega), ?_⟩
  · unfold DL.rows
    rw [if_neg (by rw [hs]; simp; omega), hd, hs]
    exact h1
  · rw [List.getElem?_take_of_lt (by omega), List.getElem?_drop, ← hz]
    congr 1
    obtain ⟨a, rfl⟩ : ∃ a, n = a + 1 := ⟨n - 1, by omega⟩
    rw [Nat.add_sub_cancel, Nat.succ_mul]
    omega

/-- Every second row of a 4 × 2 array of 32 bit integers, `np.arange(1, 9).reshape(4, 2)[::2]`. -/
def everySecond : DL := ⟨true, cInt, 32, 1, [2, 2], some [4, 1], 0, denseMem 4 8 (· + 1)⟩

example : everySecond.Plain ∧ everySecond.Small ∧ ¬ everySecond.SameType .double ∧
    (∀ i, i < 2 → ∀ j, j < 2 → (everySecond.at2 4 1 i j).isSome) :=
  ⟨by decide, fun h => absurd h (by decide), by decide, by decide⟩

/-- The rows should be `[1, 2]` and `[5, 6]`; they are `[1, 5]` and `[6, 0]`. -/
theorem C90_wrong_rows_refuted :
    everySecond.rows keep .double 2 = .ok [[.inl 1, .inl 5], [.inl 6, .inl 0]] ∧
    ¬ ∃ rows, everySecond.rows keep .double 2 = .ok rows ∧
      everySecond.IsRows2 keep 2 2 4 1 rows := by
  have h : everySecond.rows keep .double 2 = .ok [[.inl 1, .inl 5], [.inl 6, .inl 0]] := by
    decide +kernel
  refine ⟨h, ?_⟩
  rintro ⟨rows, h1, -, h2⟩
  rw [h] at h1
  injection h1 with h1
  subst h1
  obtain ⟨row, hr, -, h3⟩ := h2 0 (by decide)
  obtain ⟨raw, h4, h5⟩ := h3 1 (by decide)
  have e1 : everySecond.at2 4 1 0 1 = some 2 := by decide +kernel
  rw [e1] at h4
  simp at hr h4
  subst hr; subst h4
  revert h5; decide +kernel

/-- Every eighth entry of an array of doubles, `np.arange(9.0)[::8]`: two elements, the number eight
steps after the first being the second one. -/
def everyEighth : DL := ⟨true, cFloat, 64, 1, [2], some [8], 0, denseMem 8 9 id⟩

/-- The stride counts elements and is compared with a size in bytes: an array of doubles of step 8
counts as contiguous, and its neighbours in memory are read instead of its elements. -/
theorem C90_step_refuted :
    everyEighth.Plain ∧ (∀ j, j < 2 → (everyEighth.at1 8 j).isSome) ∧
    everyEighth.at1 8 1 = some 8 ∧
    everyEighth.rows keep .double 2 = .ok [[.inr 0, .inr 1]] ∧
    ¬ ∃ rows, everyEighth.rows keep .double 2 = .ok rows ∧
      everyEighth.IsRows1 keep 2 8 rows := by
  have h : everyEighth.rows keep .double 2 = .ok [[.inr 0, .inr 1]] := by decide +kernel
  have e1 : everyEighth.at1 8 1 = some 8 := by decide +kernel
  refine ⟨by decide, by decide +kernel, e1, h, ?_⟩
  rintro ⟨rows, h1, row, h2, -, h3⟩
  rw [h] at h1
  injection h1 with h1
  subst h1
  simp at h2
  subst h2
  obtain ⟨raw, h4, h5⟩ := h3 1 (by decide)
  rw [e1] at h4
  simp at h4
  subst h4
  revert h5; decide +kernel

/-- For every array of doubles of step 8 with at least two elements, whatever it holds: the second
number of the row is the neighbour of the first element in memory. -/
theorem C90_step {R : Type} (T : DL) (C : Conv R) (m : ℕ) (hp : T.Plain)
    (hs : T.shape = [m]) (hm : 2 ≤ m) (hst : T.strides = some [8])
    (hf : T.code = cFloat) (hb : T.bits = 64) (hd : ∀ k : ℕ, k < m → (T.mem (8 * k)).isSome) :
    ∃ row, T.rows C .double 2 = .ok [row] ∧
      ∃ raw, T.mem 8 = some raw ∧ row[1]? = some (C.ofFloat 8 raw) := by
  have hi := info_plain T hp
  rw [hf, hb] at hi
  obtain ⟨hh, ho, -, -, -, hsup⟩ := id hp
  obtain ⟨raw, hraw⟩ := Option.isSome_iff_exists.1 (hd 1 (by omega))
  have hleaf : T.leaf C .double =
      .ok ((List.range m).map fun (k : ℕ) => C.ofFloat 8 ((T.mem (8 * (k : ℤ))).getD 0)) := by
    unfold DL.leaf
    rw [if_pos (by rw [hst, hs, hi]; rfl), hs]
    simp only [hh, if_true, List.prod_cons, List.prod_nil, Nat.mul_one]
    apply readRun_ok
    intro j hj
    obtain ⟨r, hr⟩ := Option.isSome_iff_exists.1 (hd j hj)
    refine ⟨r, ?_, ?_⟩
    · rw [← hr]; simp [Target.info, float64]
    · rw [hr]; rfl
  refine ⟨(List.range m).map fun (k : ℕ) => C.ofFloat 8 ((T.mem (8 * (k : ℤ))).getD 0), ?_, raw,
    by simpa using hraw, ?_⟩
  · unfold DL.rows
    rw [if_neg (by rw [hs]; simp), hleaf, hs]
    simp only [Out.bind, arrayRows, List.prod_cons, List.prod_nil, Nat.mul_one]
    rw [if_neg (by omega)]
  · rw [List.getElem?_map, List.getElem?_range (by omega)]
    simp only [Option.map_some]
    rw [hraw]; rfl

/-- One double repeated by a stride of zero, `np.broadcast_to(1.0, 3)`. -/
def repeated : DL := ⟨true, cFloat, 64, 1, [3], some [0], 0, denseMem 8 1 id⟩

/-- A stride of zero counts as contiguous: the memory behind the element is read. -/
theorem C90_broadcast_refuted :
    repeated.Plain ∧ (∀ j, j < 3 → (repeated.at1 0 j).isSome) ∧
    repeated.rows keep .double 2 = .ub := by
  refine ⟨by decide, ?_, by decide +kernel⟩
  intro j _
  simp only [DL.at1, repeated, zero_mul, mul_zero, add_zero]
  decide +kernel

/-- An array of unsigned bytes holding 200. -/
def unsignedBytes : DL := ⟨true, cUInt, 8, 1, [1], some [1], 0, denseMem 1 1 (fun _ => 200)⟩

/-- Unsigned elements are read as signed: 200 becomes −56. -/
theorem C90_unsigned_refuted :
    unsignedBytes.Plain ∧ unsignedBytes.rows keep .double 2 = .ok [[.inl (-56)]] ∧
    valueOf keep cUInt 1 200 = .inl 200 := ⟨by decide, by decide +kernel, by decide⟩

/-- The device of an array is never looked at: for every array that lives elsewhere and has an element,
its address is used as if it were host memory. -/
theorem C90_device_refuted {R : Type} (T : DL) (C : Conv R) (target : Target) (maxNested m : ℕ)
    (hd : T.onHost = false) (hs : T.shape = [m + 1]) (hn : 1 ≤ maxNested)
    (hst : T.strides = none) : T.rows C target maxNested = .ub := by
  have hrun : ∀ i, readRun C (fun _ => none) i 0 (m + 1) = .ub := by
    intro i
    simp only [readRun]
    rw [List.range_succ_eq_map]
    rfl
  have hleaf : T.leaf C target = .ub := by
    unfold DL.leaf
    simp only [hd, Bool.false_eq_true, if_false]
    split_ifs with h
    · rw [hs]; simpa using hrun _
    · rw [hst] at *; simp at *
    · rw [hst]
      simp only [Option.map_none]
      rw [strideCopyNull _ _ _ _ _ (by rw [hs]; simp), hs]
      simpa using hrun _
  unfold DL.rows
  rw [if_neg (by rw [hs]; simp; omega), hleaf]
  rfl

/-- An array without dimensions, `np.array(2.0)`, as the data of a stream: the last entry of an empty
shape is read. -/
theorem C90_scalar_array_refuted {R : Type} (T : DL) (C : Conv R) (target : Target) (maxNested : ℕ)
    (hs : T.shape = []) : T.rows C target maxNested = .ub ∨ T.rows C target maxNested = .err := by
  have : ∀ d : Out (List R), d.bind (fun data => arrayRows [] data) = .ub ∨
      d.bind (fun data => arrayRows [] data) = .err := by
    intro d; cases d <;> simp [Out.bind, arrayRows]
  unfold DL.rows
  rw [if_neg (by rw [hs]; simp), hs]
  exact this _

/-- `np.array(2.0)` -/
def zeroDim : DL := ⟨true, cFloat, 64, 1, [], some [], 0, denseMem 8 1 id⟩

/-- It is undefined, not an error, once the element can be read. -/
theorem C90_scalar_array_undefined {R : Type} (T : DL) (C : Conv R) (target : Target) (maxNested : ℕ)
    (hs : T.shape = []) (d : List R) (hd : T.leaf C target = .ok d) :
    T.rows C target maxNested = .ub := by
  unfold DL.rows
  rw [if_neg (by rw [hs]; simp), hs, hd]
  rfl

example : zeroDim.leaf keep .double = .ok [.inr 0] ∧ zeroDim.rows keep .double 2 = .ub := by
  decide +kernel

/-! ## C91: buffers -/

/-- A buffer whose memory is taken over gives its elements when it is row major. -/
theorem C91_same_type_partial {R : Type} (B : Buf) (C : Conv R) (target : Target)
    (maxNested m : ℕ) (hn : 1 ≤ maxNested) (hi : B.info = target.info)
    (ht : target = .float ∨ target = .double)
    (hsize : B.itemsize = B.info.bytes) (hs : B.shape = [m]) (hm : 0 < m)
    (hst : B.strides = [(B.itemsize : ℤ)])
    (he : ∀ j, j < m → (B.at1 B.itemsize j).isSome) :
    ∃ row, B.rows C target maxNested = .ok [row] ∧
      IsRow C B.info.code B.info.bytes m (B.at1 B.itemsize) row := by
  have hsup : Supported B.info.code B.info.bytes := by
    rcases ht with rfl | rfl <;> rw [hi] <;> decide
  have hpl : B.info = plainInfo B.info.code B.info.bytes := by
    rcases ht with rfl | rfl <;> rw [hi] <;> rfl
  have hleaf : B.leaf C target = .ok ((List.range m).map fun j =>
      valueOf C B.info.code B.info.bytes ((B.at1 B.itemsize j).getD 0)) := by
    unfold Buf.leaf
    rw [if_pos (by
      rw [hi]
      simp [Buf.contiguous, hs, hst, contiguousFrom]), hs]
    simp only [List.prod_cons, List.prod_nil, Nat.mul_one]
    apply readRun_ok
    intro j hj
    obtain ⟨raw, hr⟩ := Option.isSome_iff_exists.1 (he j hj)
    refine ⟨raw, ?_, ?_⟩
    · rw [← hr, ← hi]; simp [Buf.at1, hsize]
    · rw [hr, ← hi]
      conv_lhs => rw [hpl]
      rw [decode_plain C hsup]; rfl
  refine ⟨(List.range m).map fun j =>
      valueOf C B.info.code B.info.bytes ((B.at1 B.itemsize j).getD 0), ?_, ?_, fun j hj => ?_⟩
  · unfold Buf.rows
    rw [if_neg (by rw [hs]; simp; omega), hleaf, hs]
    simp only [Out.bind, arrayRows, List.prod_cons, List.prod_nil, Nat.mul_one]
    rw [if_neg hm.ne']
  · simp
  · obtain ⟨raw, hr⟩ := Option.isSome_iff_exists.1 (he j hj)
    refine ⟨raw, hr, ?_⟩
    rw [List.getElem?_map, List.getElem?_range hj]
    simp [hr]

/-- A one dimensional buffer of single bytes gives its elements, whatever its stride. -/
theorem C91_bytes_partial {R : Type} (B : Buf) (C : Conv R) (target : Target) (maxNested m : ℕ)
    (s : ℤ) (hn : 1 ≤ maxNested) (code : ℕ) (hi : B.info = plainInfo code 1)
    (hsup : Supported code 1) (hsize : B.itemsize = 1) (hs : B.shape = [m]) (hm : 0 < m)
    (hst : B.strides = [s]) (he : ∀ j, j < m → (B.at1 s j).isSome)
    (hu : code = cUInt → ∀ o raw, B.mem o = some raw → 2 * raw < 2 ^ 8) :
    ∃ row, B.rows C target maxNested = .ok [row] ∧ IsRow C code 1 m (B.at1 s) row := by
  have hleaf : B.leaf C target = .ok ((List.range m).map fun j =>
      valueOf C code 1 ((B.at1 s j).getD 0)) := by
    unfold Buf.leaf
    rw [if_neg (by
      have hne : target.info ≠ B.info := by
        rw [hi]; intro h
        have := congrArg TypeInfo.bytes h
        cases target <;> simp [Target.info, plainInfo, float32, float64] at this
      simp [hne])]
    rw [hs, hst, show B.ndim = 1 from hsize]
    simp only [List.prod_cons, List.prod_nil, Nat.mul_one]
    apply strideCopy1
    intro j hj
    obtain ⟨raw, hr⟩ := Option.isSome_iff_exists.1 (he j hj)
    refine ⟨raw, hr, ?_⟩
    rw [hi, decode_readBack C hsup fun hc => hu hc _ _ hr, hr]; rfl
  refine ⟨(List.range m).map fun j => valueOf C code 1 ((B.at1 s j).getD 0), ?_, ?_,
    fun j hj => ?_⟩
  · unfold Buf.rows
    rw [if_neg (by rw [hs]; simp; omega), hleaf, hs]
    simp only [Out.bind, arrayRows, List.prod_cons, List.prod_nil, Nat.mul_one]
    rw [if_neg hm.ne']
  · simp
  · obtain ⟨raw, hr⟩ := Option.isSome_iff_exists.1 (he j hj)
    refine ⟨raw, hr, ?_⟩
    rw [List.getElem?_map, List.getElem?_range hj]
    simp [hr]

/-- `array.array('d', [.., .., ..])`. -/
def arrayD : Buf := ⟨float64, 8, [3], [8], denseMem 8 3 (· + 5)⟩

example : arrayD.info = Target.info .double ∧ arrayD.itemsize = arrayD.info.bytes ∧
    (∀ j, j < 3 → (arrayD.at1 arrayD.itemsize j).isSome) := by decide +kernel
example : arrayD.rows keep .double 2 = .ok [[.inr 5, .inr 6, .inr 7]] := by decide +kernel

/-- `b'\x01\x02\x03'[::-1]` through a `memoryview`. -/
def bytesBack : Buf := ⟨plainInfo cUInt 1, 1, [3], [-1], fun o =>
  if -2 ≤ o ∧ o ≤ 0 then some (o + 3).toNat else none⟩

example : (∀ j, j < 3 → (bytesBack.at1 (-1) j).isSome) ∧
    bytesBack.rows keep .double 2 = .ok [[.inl 3, .inl 2, .inl 1]] := by decide +kernel

/-- The number of dimensions is taken from the size of an item: every buffer with fewer dimensions than
bytes per item that needs a conversion, or has gaps, reads shape and strides past their end. -/
theorem C91_dimensions_refuted {R : Type} (B : Buf) (C : Conv R) (target : Target) (maxNested : ℕ)
    (hd : B.shape.length ≤ maxNested) (hi : B.info ≠ target.info ∨ B.contiguous = false)
    (hlt : B.shape.length < B.itemsize) : B.rows C target maxNested = .ub := by
  unfold Buf.rows
  rw [if_neg (by omega)]
  have : B.leaf C target = .ub := by
    unfold Buf.leaf
    rw [if_neg (by
      rcases hi with hi | hi
      · simp [Ne.symm hi]
      · simp [hi])]
    unfold strideCopy
    rw [if_neg (by unfold Buf.ndim; omega), if_pos (by left; exact hlt)]
  rw [this]; rfl

/-- `array.array('i', [7])`. -/
def arrayI : Buf := ⟨int32, 4, [1], [4], denseMem 4 1 (fun _ => 7)⟩

example : arrayI.rows keep .double 2 = .ub :=
  C91_dimensions_refuted arrayI keep .double 2 (by decide) (.inl (by decide)) (by decide)

/-- Every second of four doubles. -/
def gaps : Buf := ⟨float64, 8, [2], [16], denseMem 8 4 id⟩

example : gaps.rows keep .double 2 = .ub :=
  C91_dimensions_refuted gaps keep .double 2 (by decide) (.inr (by decide)) (by decide)

/-- A column major 2 × 2 array of doubles. -/
def columns : Buf := ⟨float64, 8, [2, 2], [8, 16], denseMem 8 4 id⟩

/-- The memory of a column major buffer is taken over as if it were row major: the rows are the
columns. -/
theorem C91_columns_refuted :
    columns.at2 8 16 0 1 = some 2 ∧
    columns.rows keep .double 2 = .ok [[.inr 0, .inr 1], [.inr 2, .inr 3]] := by decide +kernel

/-! ## C92: time stamps -/

/-- The time stamps are the elements of the buffer when it has no gaps. -/
theorem C92_dense_partial {R : Type} (B : Buf) (C : Conv R) (m code b : ℕ)
    (hi : B.info = plainInfo code b) (hsup : Supported code b) (hs : B.shape = [m])
    (he : ∀ j, j < m → (B.at1 b j).isSome)
    (hu : code = cUInt → ∀ o raw, B.mem o = some raw → 2 * raw < 2 ^ (8 * b)) :
    ∃ row, B.indices C = .ok row ∧ IsRow C code b m (B.at1 b) row := by
  refine ⟨(List.range m).map fun j => valueOf C code b ((B.at1 b j).getD 0), ?_, by simp,
    fun j hj => ?_⟩
  · unfold Buf.indices
    rw [hs]
    simp only [List.prod_cons, List.prod_nil, Nat.mul_one]
    apply readRun_ok
    intro j hj
    obtain ⟨raw, hr⟩ := Option.isSome_iff_exists.1 (he j hj)
    have hr' : B.mem (0 + ((readBack B.info).bytes : ℤ) * j) = some raw := by
      rw [← hr, hi, readBack_plain hsup]; simp [Buf.at1, plainInfo]
    refine ⟨raw, hr', ?_⟩
    rw [hi, decode_readBack C hsup fun hc => hu hc _ _ hr', hr]; rfl
  · obtain ⟨raw, hr⟩ := Option.isSome_iff_exists.1 (he j hj)
    refine ⟨raw, hr, ?_⟩
    rw [List.getElem?_map, List.getElem?_range hj]
    simp [hr]

example : arrayD.indices keep = .ok [.inr 5, .inr 6, .inr 7] ∧
    (∀ j, j < 3 → (arrayD.at1 8 j).isSome) := by decide +kernel

/-- Every second of four time stamps, `np.array([1., 2., 3., 4.])[::2]`: elements 1 and 3. -/
def stamps : Buf := ⟨float64, 8, [2], [16], denseMem 8 4 (· + 1)⟩

/-- The strides of the time stamps are ignored. -/
theorem C92_strides_refuted :
    stamps.at1 16 1 = some 3 ∧ stamps.indices keep = .ok [.inr 1, .inr 2] := by decide +kernel

/-! ## C93: type tags -/

/-- A scalar or an array made from a type of the library reads back this type and its mode. The
address of a type is a multiple of 16. -/
theorem C93_pointer (p e : ℕ) (hp : p % 16 = 0) (hl : p < 2 ^ 64) (he : e < 8) :
    isPtr (packPtr p e) = true ∧ getPtr (packPtr p e) = p ∧ getEnum (packPtr p e) = e :=
  ptr_roundtrip p e hp hl he

example : isPtr (packPtr 4096 3) = true ∧ getPtr (packPtr 4096 3) = 4096 ∧
    getEnum (packPtr 4096 3) = 3 := by decide

/-- One made from a description of an element type reads back this description and its mode, if the
code of the type is even. -/
theorem C93_info_partial (i : TypeInfo) (e : ℕ) (hb : i.Bytes) (he : e < 8)
    (hc : i.code % 2 = 0) :
    isPtr (packInfo i e) = false ∧ getInfo (packInfo i e) = i ∧ getEnum (packInfo i e) = e := by
  refine ⟨isPtr_packInfo i e, ?_, getEnum_packInfo i e he⟩
  rw [getInfo_packInfo i e hb, hc]
  rfl

example : float64.Bytes ∧ float64.code % 2 = 0 := by
  refine ⟨⟨?_, ?_, ?_, ?_⟩, ?_⟩ <;> decide

/-- An odd code never survives: unsigned integers read back as signed ones, opaque objects as
floating point numbers, complex numbers as bfloat16, rationals as the code before them. -/
theorem C93_info_refuted (i : TypeInfo) (e : ℕ) (hb : i.Bytes) (hc : i.code % 2 = 1) :
    getInfo (packInfo i e) = { i with code := i.code - 1 } ∧ getInfo (packInfo i e) ≠ i := by
  have h := getInfo_packInfo i e hb
  rw [hc] at h
  refine ⟨h, ?_⟩
  rw [h]
  intro hx
  have := congrArg TypeInfo.code hx
  simp at this
  omega

example : getInfo (packInfo ⟨cUInt, 4, 4, 1⟩ 2) = ⟨cInt, 4, 4, 1⟩ := by decide +kernel

/-- Changing the mode keeps the type. -/
theorem C93_update (e e' : ℕ) (he' : e' < 8) :
    (∀ p, p % 16 = 0 → p < 2 ^ 64 → e < 8 → updateEnum (packPtr p e) e' = packPtr p e') ∧
    (∀ i : TypeInfo, i.Bytes → e < 8 →
      isPtr (updateEnum (packInfo i e) e') = false ∧
      getInfo (updateEnum (packInfo i e) e') = getInfo (packInfo i e') ∧
      getEnum (updateEnum (packInfo i e) e') = e') := by
  have bit : ∀ {e : ℕ}, e < 8 → ∀ k, 3 ≤ k → e.testBit k = false := fun {e} he k hk => by
    apply Nat.testBit_lt_two_pow
    exact lt_of_lt_of_le he (Nat.pow_le_pow_right (n := 2) (i := 3) (by norm_num) hk)
  have seven : ∀ {e : ℕ}, e < 8 → e &&& 7 = e := fun {e} he => by
    rw [show (7 : ℕ) = 2 ^ 3 - 1 from rfl, Nat.and_two_pow_sub_one_eq_mod, Nat.mod_eq_of_lt he]
  have b8 : ∀ k, Nat.testBit 8 k = decide (3 = k) := fun k => by
    rw [show (8 : ℕ) = 2 ^ 3 from rfl, Nat.testBit_two_pow]
  have b7 : ∀ k, Nat.testBit 7 k = decide (k < 3) := fun k => by
    rw [show (7 : ℕ) = 2 ^ 3 - 1 from rfl, Nat.testBit_two_pow_sub_one]
  refine ⟨fun p hp hl he => ?_, fun i hi he => ⟨?_, ?_, ?_⟩⟩
  · apply Nat.eq_of_testBit_eq
    intro k
    simp only [updateEnum, packPtr, seven he', Nat.testBit_and, Nat.testBit_or, Nat.testBit_shiftLeft,
      Nat.testBit_two_pow_sub_one, b8]
    by_cases hk : k < 4
    · by_cases h3 : 3 = k
      · subst h3; simp [low_bits p hp 3 (by norm_num), bit he 3 le_rfl]
      · simp [show ¬ k ≥ 4 by omega, h3, low_bits p hp k hk]
    · by_cases h60 : k - 4 < 60
      · simp [show k ≥ 4 by omega, h60, bit he k (by omega)]
      · have : p.testBit k = false := Nat.testBit_lt_two_pow
          (lt_of_lt_of_le hl (Nat.pow_le_pow_right (by norm_num) (by omega)))
        simp [show k ≥ 4 by omega, h60, this, bit he' k (by omega), bit he k (by omega)]
  · have : updateEnum (packInfo i e) e' &&& 8 = 8 := by
      apply Nat.eq_of_testBit_eq
      intro k
      simp only [updateEnum, packInfo, Nat.testBit_and, Nat.testBit_or, b8]
      by_cases h3 : 3 = k <;> simp [h3]
    simp [isPtr, this]
  · have : updateEnum (packInfo i e) e' &&& ((2 ^ 32 - 1) <<< 4) =
        packInfo i e' &&& ((2 ^ 32 - 1) <<< 4) := by
      apply Nat.eq_of_testBit_eq
      intro k
      simp only [updateEnum, packInfo, Nat.testBit_and, Nat.testBit_or, Nat.testBit_shiftLeft,
        Nat.testBit_two_pow_sub_one, b8, b7]
      by_cases hk : k ≥ 4
      · by_cases h32 : k - 4 < 32
        · simp [hk, h32, show k - 4 < 60 by omega, show ¬ k < 3 by omega]
        · simp [h32]
      · simp [hk]
    unfold getInfo
    rw [this]
  · apply Nat.eq_of_testBit_eq
    intro k
    simp only [getEnum, updateEnum, packInfo, Nat.testBit_and, Nat.testBit_or, Nat.testBit_shiftLeft,
      Nat.testBit_two_pow_sub_one, b8, b7]
    by_cases hk : k < 3
    · simp [hk, show ¬ k ≥ 4 by omega, show ¬ 3 = k by omega]
    · simp [hk, bit he' k (by omega)]

example : updateEnum (packPtr 4096 3) 5 = packPtr 4096 5 ∧ getEnum (updateEnum (packInfo float64 1) 6) = 6 := by
  decide

/-! ## C94: the scalar type of a data argument -/

/-- A requested type is used. -/
theorem C94_requested (t : Target) (leaves : List TypeInfo) :
    computeScalarType (some t) leaves = .ok t := rfl

/-- How general a type is: integers, single precision, double precision, rationals, polynomials. -/
def level (i : TypeInfo) : Option ℕ :=
  if i.code = cInt ∨ i.code = cUInt then some 0
  else if i.code = cFloat ∧ i.bytes = 4 then some 1
  else if i.code = cFloat ∧ i.bytes = 8 then some 2
  else if i.code = cRational then some 3
  else if i.code = cPoly then some 4
  else none

/-- The scalar type of a level: integers alone become double precision numbers. -/
def levelType : ℕ → Target
  | 1 => .float
  | 3 => .rational
  | 4 => .poly
  | _ => .double

theorem level_cases {i : TypeInfo} {a : ℕ} (h : level i = some a) :
    (a = 0 ∧ (i.code = cInt ∨ i.code = cUInt)) ∨ (a = 1 ∧ i.code = cFloat ∧ i.bytes = 4) ∨
    (a = 2 ∧ i.code = cFloat ∧ i.bytes = 8) ∨ (a = 3 ∧ i.code = cRational) ∨
    (a = 4 ∧ i.code = cPoly) := by
  unfold level at h
  split_ifs at h with h1 h2 h3 h4 h5 <;> simp_all

theorem level_promotion (i l : TypeInfo) (a b : ℕ) (hi : level i = some a) (hl : level l = some b) :
    ∃ j, promotion i l = .ok j ∧ level j = some (max a b) := by
  unfold promotion
  by_cases he : i = l
  · subst he
    rw [hi] at hl
    injection hl with hl
    subst hl
    exact ⟨i, by simp, by simpa using hi⟩
  rw [if_neg he]
  have ha := level_cases hi
  rcases level_cases hl with ⟨rfl, h⟩ | ⟨rfl, h, h4⟩ | ⟨rfl, h, h8⟩ | ⟨rfl, h⟩ | ⟨rfl, h⟩
  · rw [if_pos h]
    refine ⟨_, rfl, ?_⟩
    rw [Nat.max_zero]
    rcases ha with ⟨rfl, h'⟩ | ⟨rfl, h', -⟩ | ⟨rfl, h', -⟩ | ⟨rfl, h'⟩ | ⟨rfl, h'⟩
    · have : (intPromotion l i).code = cInt ∨ (intPromotion l i).code = cUInt := by
        unfold intPromotion
        have : i.isIntegral = true := by simpa [TypeInfo.isIntegral] using h'
        simp only [this, if_true]
        split_ifs <;> simp_all
      unfold level
      rw [if_pos this]
    all_goals
      have : i.isIntegral = false := by simp [TypeInfo.isIntegral, h']
      simp only [intPromotion, this, Bool.false_eq_true, if_false]
      exact hi
  · have hf : (4 : ℕ) ≤ 4 := le_rfl
    rw [if_neg (by simp [h]), if_pos h]
    refine ⟨_, rfl, ?_⟩
    rcases ha with ⟨rfl, h'⟩ | ⟨rfl, h', hb⟩ | ⟨rfl, h', hb⟩ | ⟨rfl, h'⟩ | ⟨rfl, h'⟩
    · have : i.isIntegral = true := by simpa [TypeInfo.isIntegral] using h'
      simp only [floatPromotion, this, if_true]
      simpa using hl
    · simp [floatPromotion, TypeInfo.isIntegral, TypeInfo.isFloating, h', hb, h4, hl]
    · simp [floatPromotion, TypeInfo.isIntegral, TypeInfo.isFloating, h', hb, h4, level]
    · simp [floatPromotion, TypeInfo.isIntegral, TypeInfo.isFloating, h', hi]
    · simp [floatPromotion, TypeInfo.isIntegral, TypeInfo.isFloating, h', hi]
  · rw [if_neg (by simp [h]), if_pos h]
    refine ⟨_, rfl, ?_⟩
    rcases ha with ⟨rfl, h'⟩ | ⟨rfl, h', hb⟩ | ⟨rfl, h', hb⟩ | ⟨rfl, h'⟩ | ⟨rfl, h'⟩
    · have : i.isIntegral = true := by simpa [TypeInfo.isIntegral] using h'
      simp only [floatPromotion, this, if_true]
      simpa using hl
    · simp [floatPromotion, TypeInfo.isIntegral, TypeInfo.isFloating, h', hb, h8, hl]
    · simp [floatPromotion, TypeInfo.isIntegral, TypeInfo.isFloating, h', hb, h8, hl]
    · simp [floatPromotion, TypeInfo.isIntegral, TypeInfo.isFloating, h', hi]
    · simp [floatPromotion, TypeInfo.isIntegral, TypeInfo.isFloating, h', hi]
  · rw [if_neg (by simp [h]), if_neg (by simp [h]), if_neg (by simp [h]), if_pos h]
    refine ⟨_, rfl, ?_⟩
    rcases ha with ⟨rfl, h' | h'⟩ | ⟨rfl, h', hb⟩ | ⟨rfl, h', hb⟩ | ⟨rfl, h'⟩ | ⟨rfl, h'⟩ <;>
      simp [rationalPromotion, h', hi, hl]
  · rw [if_neg (by simp [h]), if_neg (by simp [h]), if_neg (by simp [h]), if_neg (by simp [h]),
      if_pos h]
    refine ⟨_, rfl, ?_⟩
    rcases ha with ⟨rfl, -⟩ | ⟨rfl, -⟩ | ⟨rfl, -⟩ | ⟨rfl, -⟩ | ⟨rfl, -⟩ <;> simpa using hl

theorem level_promoteAll : ∀ (ls : List TypeInfo) (bs : List ℕ) (i : TypeInfo) (a : ℕ),
    level i = some a → ls.map level = bs.map some →
    ∃ j, promoteAll i ls = .ok j ∧ level j = some (bs.foldl max a)
  | [], bs, i, a, hi, hb => by
    have : bs = [] := by simpa using hb.symm
    subst this
    exact ⟨i, rfl, hi⟩
  | l :: ls, bs, i, a, hi, hb => by
    cases bs with
    | nil => simp at hb
    | cons b bs =>
      simp only [List.map_cons, List.cons.injEq] at hb
      obtain ⟨j, h1, h2⟩ := level_promotion i l a b hi hb.1
      obtain ⟨k, h3, h4⟩ := level_promoteAll ls bs j (max a b) h2 hb.2
      exact ⟨k, by simp only [promoteAll, h1, Out.bind]; exact h3, h4⟩

/-- For leaves of integers, single and double precision numbers, rationals and polynomials the scalar
type is the most general one among them, so it does not depend on their order. -/
theorem C94_most_general_partial (leaves : List TypeInfo) (levels : List ℕ)
    (h : leaves.map level = levels.map some) :
    computeScalarType none leaves = .ok (levelType (levels.foldl max 0)) := by
  obtain ⟨j, h1, h2⟩ := level_promoteAll leaves levels int32 0 (by decide) h
  unfold computeScalarType
  simp only [h1, Out.bind]
  rcases level_cases h2 with ⟨h3, h4⟩ | ⟨h3, h4, h5⟩ | ⟨h3, h4, h5⟩ | ⟨h3, h4⟩ | ⟨h3, h4⟩
  · rw [h3]; unfold forInfo; rw [if_pos h4]; rfl
  · rw [h3]; simp [forInfo, h4, h5, levelType]
  · rw [h3]; simp [forInfo, h4, h5, levelType]
  · rw [h3]; simp [forInfo, h4, levelType]
  · rw [h3]; simp [forInfo, h4, levelType]

/-- The same leaves in another order give the same scalar type. -/
theorem C94_order_partial (l₁ l₂ : List TypeInfo) (hp : l₁.Perm l₂)
    (h : ∀ i ∈ l₁, (level i).isSome) :
    computeScalarType none l₁ = computeScalarType none l₂ := by
  have key : ∀ l : List TypeInfo, (∀ i ∈ l, (level i).isSome) →
      l.map level = (l.map fun i => (level i).getD 0).map some := by
    intro l hl
    rw [List.map_map]
    apply List.map_congr_left
    intro i hi
    obtain ⟨a, ha⟩ := Option.isSome_iff_exists.1 (hl i hi)
    simp [ha]
  have h2 : ∀ i ∈ l₂, (level i).isSome := fun i hi => h i (hp.mem_iff.2 hi)
  rw [C94_most_general_partial l₁ _ (key l₁ h), C94_most_general_partial l₂ _ (key l₂ h2)]
  congr 2
  exact (hp.map _).foldl_eq' (fun a _ b _ c => by omega) 0

example : computeScalarType none [int32, float32, float64, ⟨cInt, 8, 8, 1⟩] = .ok .double := by
  decide
example : (∀ i ∈ [int32, float32, float64], (level i).isSome) := by decide

/-- With half precision and bfloat16 arrays the order decides: one order gives single precision, the
other raises. -/
theorem C94_order_refuted :
    computeScalarType none [⟨cBFloat, 2, 2, 1⟩, ⟨cFloat, 2, 2, 1⟩] ≠
      computeScalarType none [⟨cFloat, 2, 2, 1⟩, ⟨cBFloat, 2, 2, 1⟩] := by decide

/-- An array of half precision numbers alone has no scalar type. -/
theorem C94_half_refuted : computeScalarType none [⟨cFloat, 2, 2, 1⟩] = .err := by decide

/-- 64 bit integers beside single precision numbers are stored in single precision. -/
theorem C94_precision_refuted :
    computeScalarType none [⟨cInt, 8, 8, 1⟩, float32] = .ok .float ∧
    computeScalarType none [⟨cInt, 8, 8, 1⟩] = .ok .double := by decide

/-- The common type of a signed and an unsigned integer of one size depends on their order: only one of
the two results can hold both. -/
theorem C94_integers_refuted :
    promotion ⟨cInt, 1, 1, 1⟩ ⟨cUInt, 1, 1, 1⟩ = .ok ⟨cInt, 1, 1, 1⟩ ∧
    promotion ⟨cUInt, 1, 1, 1⟩ ⟨cInt, 1, 1, 1⟩ = .ok ⟨cInt, 2, 2, 1⟩ := by decide

/-- Two integers of one signedness: the larger one. -/
theorem C94_integers (c a b : ℕ) (hc : c = cInt ∨ c = cUInt) :
    promotion ⟨c, a, a, 1⟩ ⟨c, b, b, 1⟩ = .ok ⟨c, max a b, max a b, 1⟩ := by
  unfold promotion
  split
  · next h =>
    simp only [TypeInfo.mk.injEq] at h
    obtain ⟨-, rfl, -⟩ := h
    simp
  · have : (c == cInt || c == cUInt) = true := by rcases hc with rfl | rfl <;> decide
    simp [intPromotion, TypeInfo.isIntegral, this, max_comm]

/-- Integers beside bfloat16 numbers: single precision up to four bytes, then double precision. -/
theorem C94_bfloat :
    computeScalarType none [⟨cBFloat, 2, 2, 1⟩] = .ok .float ∧
    computeScalarType none [⟨cInt, 8, 8, 1⟩, ⟨cBFloat, 2, 2, 1⟩] = .ok .double := by decide

end RoughPy.Args
