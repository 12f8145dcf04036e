import Verif.HostMem.Spec
import Mathlib.Data.Nat.Bitwise

/-!
# Properties of memory on the host device

Vocabulary: `Verif/HostMem/Spec.lean`.
-/

namespace RoughPy.HostMem

variable {α : Type}

/-! ## Helper lemmas -/

theorem readCells_some (xs : List α) (rest : List (Option α)) :
    readCells (xs.map some ++ rest) xs.length = some xs := by
  have h : ((xs.map some).mapM id : Option (List α)) = some xs := by
    induction xs with
    | nil => rfl
    | cons x xs ih =>
      simp only [List.map_cons, List.mapM_cons, ih]
      rfl
  simp [readCells, h]

theorem readCells_prefix (xs : List α) (rest : List (Option α)) (k : ℕ) (hk : k ≤ xs.length) :
    readCells (xs.map some ++ rest) k = some (xs.take k) := by
  have := readCells_some (xs.take k) ((xs.drop k).map some ++ rest)
  rw [List.length_take, min_eq_left hk] at this
  rw [← this, ← List.append_assoc, ← List.map_append, List.take_append_drop]

theorem pow2_of_and (a : ℕ) : 0 < a → a &&& (a - 1) = 0 → PowerOfTwo a := by
  induction a using Nat.strong_induction_on with
  | _ a ih =>
    intro h0 h
    have h2 : (a &&& (a - 1)) / 2 = 0 := by rw [h]
    rw [Nat.and_div_two] at h2
    rcases Nat.even_or_odd' a with ⟨b, hb | hb⟩
    · have e1 : a / 2 = b := by omega
      have e2 : (a - 1) / 2 = b - 1 := by omega
      rw [e1, e2] at h2
      obtain ⟨k, hk⟩ := ih b (by omega) (by omega) h2
      exact ⟨k + 1, by rw [pow_succ]; omega⟩
    · have e1 : a / 2 = b := by omega
      have e2 : (a - 1) / 2 = b := by omega
      rw [e1, e2, Nat.and_self] at h2
      exact ⟨0, by simp; omega⟩

theorem isPow2_iff (a : ℕ) : isPow2 a = true ↔ PowerOfTwo a := by
  constructor
  · intro h
    simp only [isPow2, Bool.and_eq_true, decide_eq_true_eq, beq_iff_eq] at h
    exact pow2_of_and a h.1 h.2
  · rintro ⟨k, rfl⟩
    simp only [isPow2, Bool.and_eq_true, decide_eq_true_eq, beq_iff_eq]
    exact ⟨Nat.two_pow_pos k, by rw [Nat.and_two_pow_sub_one_eq_mod]; simp⟩

theorem holds_of_cells {m : Mem α} {xs : List α} (h : Holds m xs) :
    ∃ b rest, m.data = some b ∧ b.cells = xs.map some ++ rest ∧ xs.length * m.ty.size ≤ b.cap ∧
      m.n = xs.length := by
  obtain ⟨hn, b, hb, hc, rest, hr⟩ := h
  exact ⟨b, rest, hb, hr, hc, hn⟩

theorem getElem_cells (xs : List α) (rest : List (Option α)) (i : ℕ) (hi : i < xs.length) :
    (xs.map some ++ rest)[i]? = some (some xs[i]) := by
  rw [List.getElem?_append_left (by simpa using hi)]
  simp [hi]

/-! ## Views -/

/-- C162, a view: mapping from an element of the memory gives a view of the elements from there on, as
many as were asked for or as there are, and each reads as what the memory holds. -/
theorem C162_view_partial {m : Mem α} {xs : List α} (h : Holds m xs) (offset npos : ℕ)
    (ho : offset < xs.length) (hw : npos = 2 ^ 64 - 1 ∨ offset + npos < 2 ^ 64)
    (hx : xs.length < 2 ^ 64) :
    ∃ v, m.mapMemory offset npos = .ok v ∧ m.mapConstMemory offset npos = .ok v ∧
      v.len = min npos (xs.length - offset) ∧
      ∀ i (_ : i < v.len), ∃ hi : offset + i < xs.length, m.read v i = .ok xs[offset + i] := by
  obtain ⟨b, rest, hb, hr, -, hn⟩ := holds_of_cells h
  have key : ∀ len, len = min npos (xs.length - offset) → ∀ i, i < (⟨offset, len⟩ : View).len →
      ∃ hi : offset + i < xs.length, m.read ⟨offset, len⟩ i = .ok xs[offset + i] := by
    intro len hl i hi
    have hi' : offset + i < xs.length := by
      have : i < len := hi
      omega
    refine ⟨hi', ?_⟩
    simp only [Mem.read, hb, hr, getElem_cells xs rest _ hi']
  by_cases h1 : npos = 2 ^ 64 - 1
  · refine ⟨⟨offset, xs.length - offset⟩, ?_, ?_, ?_, key _ ?_⟩
    · simp [Mem.mapMemory, hn, ho, h1]
    · simp [Mem.mapConstMemory, hn, ho, h1]
    · show xs.length - offset = _
      omega
    · omega
  · have hw' : offset + npos < 2 ^ 64 := hw.resolve_left h1
    by_cases h2 : xs.length < offset + npos
    · refine ⟨⟨offset, xs.length - offset⟩, ?_, ?_, ?_, key _ ?_⟩
      · simp only [Mem.mapMemory, hn, ho, h1, Nat.mod_eq_of_lt hw', h2, if_true, if_false]
      · simp only [Mem.mapConstMemory, hn, ho, h1, Nat.mod_eq_of_lt hw', h2, if_true, if_false]
      · show xs.length - offset = _
        omega
      · omega
    · refine ⟨⟨offset, npos⟩, ?_, ?_, ?_, key _ ?_⟩
      · simp only [Mem.mapMemory, hn, ho, h1, Nat.mod_eq_of_lt hw', h2, if_true, if_false]
      · simp only [Mem.mapConstMemory, hn, ho, h1, Nat.mod_eq_of_lt hw', h2, if_true, if_false]
      · show npos = _
        omega
      · omega

/-- C162, a view past the end is refused: also of memory without elements. -/
theorem C162_view_refuses (m : Mem α) (offset npos : ℕ) (h : m.n ≤ offset) :
    m.mapMemory offset npos = .throws ∧ m.mapConstMemory offset npos = .throws := by
  simp [Mem.mapMemory, Mem.mapConstMemory, Nat.not_lt.mpr h]

/-- Four numbers in a block, used below -/
def four (mode : Mode) : Mem ℤ :=
  ⟨⟨0, 8, true⟩, some ⟨32, [some 5, some 6, some 7, some 8]⟩, 4, 32, mode⟩

theorem four_holds (mode : Mode) : Holds (four mode) [5, 6, 7, 8] :=
  ⟨rfl, _, rfl, by show 4 * 8 ≤ 32; decide, [], rfl⟩

example : (four .readWrite).mapMemory 1 2 = .ok ⟨1, 2⟩ ∧ (four .readWrite).read ⟨1, 2⟩ 1 = .ok 7 := by
  decide

/-- C162 fails for counts near the largest number: the view of four elements, from the third, of
`2^64 - 2` elements says that it has them all, because the sum of offset and count wraps.  Its third
element is outside the block. -/
theorem C162_view_refuted :
    Holds (four .readWrite) [5, 6, 7, 8] ∧
    (four .readWrite).mapConstMemory 2 (2 ^ 64 - 2) = .ok ⟨2, 2 ^ 64 - 2⟩ ∧
    (four .readWrite).read ⟨2, 2 ^ 64 - 2⟩ 2 = .ub :=
  ⟨four_holds _, by decide, by decide⟩

/-- C162, writing through a view changes the element it is at and no other. -/
theorem C162_write {m : Mem α} {xs : List α} (h : Holds m xs) (v : View) (i : ℕ) (x : α)
    (hi : v.start + i < xs.length) :
    ∃ m', m.write v i x = .ok m' ∧ Holds m' (xs.set (v.start + i) x) ∧ m'.mode = m.mode ∧
      m'.ty = m.ty := by
  obtain ⟨b, rest, hb, hr, hc, hn⟩ := holds_of_cells h
  refine ⟨{ m with data := some ⟨b.cap, b.cells.set (v.start + i) (some x)⟩ }, ?_, ?_, rfl, rfl⟩
  · simp only [Mem.write, hb, hr, getElem_cells xs rest _ hi]
    simp
  · refine ⟨by simpa using hn, _, rfl, by simpa using hc, rest, ?_⟩
    simp only [hr]
    rw [List.set_append_left _ _ (by simpa using hi), List.map_set]

example : ∃ m', (four .readWrite).write ⟨1, 2⟩ 1 9 = .ok m' ∧ Holds m' [5, 6, 9, 8] :=
  let ⟨m', h, h', _⟩ := C162_write (four_holds .readWrite) ⟨1, 2⟩ 1 9 (by decide)
  ⟨m', h, h'⟩

/-! ## Modes -/

/-- C162, modes: the pointer to memory which is read only is not given out for writing, and that to
memory which is write only is not given out for reading; all other requests are met. -/
theorem C162_mode_partial (m : Mem α) :
    (m.mutData = .throws ↔ m.mode = .readOnly) ∧ (m.constData = .throws ↔ m.mode = .writeOnly) ∧
    (m.mode ≠ .readOnly → m.mutData = .ok m.data) ∧
    (m.mode ≠ .writeOnly → m.constData = .ok m.data) := by
  cases h : m.mode <;> simp [Mem.mutData, Mem.constData, h]

/-- C162 fails for views: memory which is read only is mapped for writing, and is changed. -/
theorem C162_mode_refuted :
    (four .readOnly).mutData = .throws ∧
    (∃ v m', (four .readOnly).mapMemory 0 4 = .ok v ∧ (four .readOnly).write v 0 9 = .ok m' ∧
      m'.mode = .readOnly ∧ m'.read v 0 = .ok 9) ∧
    (four .writeOnly).constData = .throws ∧
    (∃ v, (four .writeOnly).mapConstMemory 0 4 = .ok v ∧ (four .writeOnly).read v 0 = .ok 5) :=
  ⟨by decide,
    ⟨⟨0, 4⟩, ⟨⟨0, 8, true⟩, some ⟨32, [some 9, some 6, some 7, some 8]⟩, 4, 32, .readOnly⟩,
      by decide, by decide, by decide, by decide⟩,
    by decide, ⟨⟨0, 4⟩, by decide, by decide⟩⟩

/-! ## Allocation -/

/-- The largest of 16 and the alignment asked for -/
theorem raised (alignment : ℕ) : (if alignment ≤ 16 then 16 else alignment) = max 16 alignment := by
  split <;> omega

theorem powerOfTwo_raised (a : ℕ) :
    PowerOfTwo (if a < 8 then 8 else a) ↔ a < 8 ∨ PowerOfTwo a := by
  split
  · next h => exact ⟨fun _ => .inl h, fun _ => ⟨3, rfl⟩⟩
  · next h => exact ⟨.inr, fun h' => h'.resolve_left h⟩

theorem alignedAlloc_some (ty : Ty) (avail a size : ℕ) (h : a < 8 ∨ PowerOfTwo a)
    (hs : size ≤ avail) :
    alignedAlloc α ty avail a size = some ⟨size, List.replicate (size / ty.size) none⟩ := by
  have := (isPow2_iff _).2 ((powerOfTwo_raised a).2 h)
  simp only [alignedAlloc, this, hs, decide_true, Bool.and_self, if_true]

theorem alignedAlloc_none (ty : Ty) (avail a size : ℕ) (h : ¬ (a < 8 ∨ PowerOfTwo a)) :
    alignedAlloc α ty avail a size = none := by
  have : isPow2 (if a < 8 then 8 else a) = false := by
    rw [Bool.eq_false_iff]
    intro h'
    exact h ((powerOfTwo_raised a).1 ((isPow2_iff _).1 h'))
  simp [alignedAlloc, this]

/-- C162, allocation: if the elements take at most 16 bytes (or at most the alignment asked for) and
their number of bytes is less than eight or a power of two, then the new memory holds that many zeros. -/
theorem C162_allocate_partial [Zero α] (avail : ℕ) (ty : Ty) (size alignment : ℕ)
    (hfit : size * ty.size ≤ max 16 alignment)
    (hpow : size * ty.size < 8 ∨ PowerOfTwo (size * ty.size))
    (havail : max 16 alignment ≤ avail) (ha : alignment < 2 ^ 64) :
    ∃ m, allocateMemory α avail ty size alignment = .ok m ∧ Holds m (List.replicate size 0) ∧
      m.ty = ty ∧ m.bytes = size * ty.size ∧ m.mode = .readWrite := by
  have hb : size * ty.size % 2 ^ 64 = size * ty.size := Nat.mod_eq_of_lt (by omega)
  have hal := alignedAlloc_some (α := α) ty avail (size * ty.size) (max 16 alignment) hpow havail
  by_cases h0 : size = 0
  · subst h0
    refine ⟨⟨ty, some ⟨max 16 alignment, List.replicate (max 16 alignment / ty.size) none⟩, 0,
      0 * ty.size, .readWrite⟩, ?_, ?_, rfl, rfl, rfl⟩
    · simp only [allocateMemory, raised, scopedSafePtr, hb, hal, copyOrFill, if_true]
    · exact ⟨rfl, _, rfl, by simp, _, rfl⟩
  · refine ⟨⟨ty, some ⟨max 16 alignment, List.replicate size (some 0) ++
      (List.replicate (max 16 alignment / ty.size) none).drop size⟩, size, size * ty.size,
      .readWrite⟩, ?_, ?_, rfl, rfl, rfl⟩
    · simp only [allocateMemory, raised, scopedSafePtr, hb, hal, copyOrFill, h0,
        Nat.not_lt.mpr hfit, if_false]
      simp
    · exact ⟨by simp, _, rfl, by simpa using hfit, _, by rw [List.map_replicate]⟩

/-- C162, allocation, the rest: if the elements take more bytes than the larger of 16 and the alignment
asked for, then no memory which holds them is made: the behaviour is undefined, or the memory has no
block but says it has the elements. -/
theorem C162_allocate_short [Zero α] (avail : ℕ) (ty : Ty) (size alignment : ℕ)
    (hbig : max 16 alignment < size * ty.size) :
    allocateMemory α avail ty size alignment = .ub ∨
    ∃ m, allocateMemory α avail ty size alignment = .ok m ∧ m.n = size ∧ m.data = none := by
  have h0 : size ≠ 0 := by
    rintro rfl
    simp at hbig
  simp only [allocateMemory, raised, scopedSafePtr]
  cases hh : alignedAlloc α ty avail (size * ty.size % 2 ^ 64) (max 16 alignment) with
  | none =>
    simp only [copyOrFill]
    cases ty.builtin with
    | true => exact .inr ⟨_, rfl, rfl, rfl⟩
    | false => exact .inl (by simp [h0])
  | some b =>
    have hc : b.cap = max 16 alignment := by
      unfold alignedAlloc at hh
      simp only at hh
      generalize (isPow2 _ && _) = t at hh
      cases t with
      | true =>
        simp only [if_true, Option.some.injEq] at hh
        rw [← hh]
      | false => simp at hh
    refine .inl ?_
    simp only [copyOrFill, h0, hc, hbig, if_true, if_false]

/-- C162, allocation, the rest: if the number of bytes is at least eight and no power of two, there is
no block either. -/
theorem C162_allocate_null [Zero α] (avail : ℕ) (ty : Ty) (size alignment : ℕ)
    (hlt : size * ty.size < 2 ^ 64) (h8 : 8 ≤ size * ty.size) (hpow : ¬ PowerOfTwo (size * ty.size)) :
    allocateMemory α avail ty size alignment =
      if ty.builtin then .ok ⟨ty, none, size, size * ty.size, .readWrite⟩ else .ub := by
  have h0 : size ≠ 0 := by
    rintro rfl
    simp at h8
  have hal := alignedAlloc_none (α := α) ty avail (size * ty.size) (max 16 alignment)
    (by rintro (h | h); exacts [by omega, hpow h])
  simp only [allocateMemory, raised, scopedSafePtr, Nat.mod_eq_of_lt hlt, hal, copyOrFill]
  cases ty.builtin with
  | true => rfl
  | false => simp [h0]

/-- Memory with two numbers of eight bytes is allocated as it should be. -/
example : ∃ m, allocateMemory ℤ (2 ^ 30) ⟨0, 8, true⟩ 2 16 = .ok m ∧ Holds m [0, 0] :=
  let ⟨m, h, h', _⟩ := C162_allocate_partial (α := ℤ) (2 ^ 30) ⟨0, 8, true⟩ 2 16 (by decide)
    (.inr ⟨4, rfl⟩) (by decide) (by decide)
  ⟨m, h, h'⟩

/-- C162 fails for allocation, whatever memory the system has: memory for three numbers of eight bytes
has no block, says that it has three elements, is not empty, and its first element cannot be read; with
memory for four, or for three rationals of 32 bytes, the behaviour is undefined. -/
theorem C162_allocate_refuted (avail : ℕ) (h : 16 ≤ avail) :
    (∃ m, allocateMemory ℤ avail ⟨0, 8, true⟩ 3 16 = .ok m ∧ m.n = 3 ∧ m.data = none ∧
      ∃ v, m.mapConstMemory 0 3 = .ok v ∧ v.len = 3 ∧ m.read v 0 = .ub) ∧
    allocateMemory ℤ avail ⟨0, 8, true⟩ 4 16 = .ub ∧
    allocateMemory ℤ avail ⟨1, 32, false⟩ 3 16 = .ub := by
  have p24 : isPow2 24 = false := by decide
  have p96 : isPow2 96 = false := by decide
  have p32 : isPow2 32 = true := by decide
  refine ⟨⟨⟨⟨0, 8, true⟩, none, 3, 24, .readWrite⟩, ?_, rfl, rfl, ⟨0, 3⟩, by decide, rfl, rfl⟩, ?_, ?_⟩
  · simp [allocateMemory, scopedSafePtr, alignedAlloc, p24, copyOrFill]
  · simp [allocateMemory, scopedSafePtr, alignedAlloc, p32, copyOrFill, h]
  · simp [allocateMemory, scopedSafePtr, alignedAlloc, p96, copyOrFill]

/-! ## Copies -/

theorem copy_cells [Zero α] {dst src : Mem α} {xs ys : List α} (hs : Holds src xs) (hd : Holds dst ys)
    (hlen : xs.length ≤ ys.length) :
    ∃ d, copyOrFill dst.ty dst.data src.data src.n false = .ok d ∧
      Holds { dst with data := d } (xs ++ ys.drop xs.length) := by
  obtain ⟨bs, rs, hbs, hrs, -, hns⟩ := holds_of_cells hs
  obtain ⟨bd, rd, hbd, hrd, hcd, hnd⟩ := holds_of_cells hd
  have hle : xs.length * dst.ty.size ≤ bd.cap := le_trans (Nat.mul_le_mul_right _ hlen) hcd
  by_cases h0 : xs.length = 0
  · have hx : xs = [] := List.length_eq_zero_iff.1 h0
    subst hx
    refine ⟨some bd, ?_, ?_⟩
    · simp [copyOrFill, hbd, hns]
    · exact ⟨by simpa using hnd, bd, rfl, by simpa using hcd, rd, by simpa using hrd⟩
  · have r1 := readCells_prefix ys rd xs.length hlen
    have r2 := readCells_some xs rs
    refine ⟨some ⟨bd.cap, xs.map some ++ bd.cells.drop xs.length⟩, ?_, ?_⟩
    · simp only [copyOrFill, hbd, hns, h0, Nat.not_lt.mpr hle, if_false, hbs, hrs, r2, hrd, r1]
      simp
    · refine ⟨?_, _, rfl, ?_, rd, ?_⟩
      · simp only [List.length_append, List.length_drop]
        have : dst.n = ys.length := hnd
        omega
      · have e : (xs ++ ys.drop xs.length).length = ys.length := by
          simp only [List.length_append, List.length_drop]
          omega
        rw [e]
        exact hcd
      · simp only [hrd, List.map_append, List.append_assoc]
        rw [List.drop_append_of_le_length (by simpa using hlen), List.map_drop]

/-- C162, copying between memories: the first elements of the destination become those of the source,
the others stay, and so do its type and mode. -/
theorem C162_copy [Zero α] {dst src : Mem α} {xs ys : List α} (hs : Holds src xs) (hd : Holds dst ys)
    (hty : dst.ty.id = src.ty.id) (hr : src.mode ≠ .writeOnly) (hw : dst.mode ≠ .readOnly)
    (hlen : xs.length ≤ ys.length) :
    ∃ m, copyMemory dst src = .ok m ∧ Holds m (xs ++ ys.drop xs.length) ∧ m.ty = dst.ty ∧
      m.mode = dst.mode := by
  obtain ⟨d, h1, h2⟩ := copy_cells hs hd hlen
  refine ⟨{ dst with data := d }, ?_, h2, rfl, rfl⟩
  have hn : src.n ≤ dst.n := by rw [hs.1, hd.1]; exact hlen
  simp only [copyMemory, hty, ne_eq, not_true, if_false, (C162_mode_partial dst).2.2.1 hw,
    (C162_mode_partial src).2.2.2 hr, hn, if_true, h1]

/-- C162, copying is refused between types, into read only memory, from write only memory and into
memory with fewer elements. -/
theorem C162_copy_refuses [Zero α] (dst src : Mem α)
    (h : dst.ty.id ≠ src.ty.id ∨ dst.mode = .readOnly ∨ src.mode = .writeOnly ∨ dst.n < src.n) :
    copyMemory dst src = .throws := by
  unfold copyMemory
  by_cases h1 : dst.ty.id ≠ src.ty.id
  · rw [if_pos h1]
  · rw [if_neg h1]
    rcases h with h | h | h | h
    · exact absurd h h1
    · simp [Mem.mutData, h]
    · cases hm : dst.mode <;> simp [Mem.mutData, Mem.constData, h, hm]
    · cases hm : dst.mode <;> cases hm' : src.mode <;>
        simp [Mem.mutData, Mem.constData, hm, hm', Nat.not_le.mpr h]

/-- Two numbers in a block -/
def two : Mem ℤ := ⟨⟨0, 8, true⟩, some ⟨16, [some 1, some 2]⟩, 2, 16, .readOnly⟩

example : ∃ m, copyMemory (four .readWrite) two = .ok m ∧ Holds m [1, 2, 7, 8] :=
  let ⟨m, h, h', _⟩ := C162_copy (src := two) (xs := [1, 2]) ⟨rfl, _, rfl, by decide, [], rfl⟩
    (four_holds .readWrite) rfl (by decide) (by decide) (by decide)
  ⟨m, h, h'⟩

/-- C162, a copy on the host device: if the elements fit as in `C162_allocate_partial`, the copy holds
what the memory holds. -/
theorem C162_to_partial [Zero α] {m : Mem α} {xs : List α} (h : Holds m xs) (avail : ℕ)
    (hr : m.mode ≠ .writeOnly) (hfit : xs.length * m.ty.size ≤ 16)
    (hpow : xs.length * m.ty.size < 8 ∨ PowerOfTwo (xs.length * m.ty.size)) (havail : 16 ≤ avail) :
    ∃ m', m.to avail = .ok m' ∧ Holds m' xs ∧ m'.ty = m.ty ∧ m'.mode = .readWrite := by
  obtain ⟨b, hb, hh, hty, -, hmode⟩ := C162_allocate_partial (α := α) avail m.ty xs.length 16
    (by simpa using hfit) hpow (by simpa using havail) (by decide)
  obtain ⟨m', h1, h2, h3, h4⟩ := C162_copy h hh (by rw [hty]) hr (by rw [hmode]; decide) (by simp)
  refine ⟨m', ?_, by simpa using h2, h3.trans hty, h4.trans hmode⟩
  have hn : m.n = xs.length := h.1
  simp only [Mem.to, hn, hb]
  exact h1

example : ∃ m, two.to (2 ^ 30) = .ok m ∧ Holds m [1, 2] :=
  let ⟨m, h, h', _⟩ := C162_to_partial (m := two) (xs := [1, 2]) ⟨rfl, _, rfl, by decide, [], rfl⟩
    (2 ^ 30) (by decide) (by decide) (.inr ⟨4, rfl⟩) (by decide)
  ⟨m, h, h'⟩

/-- C162 fails for copies: the copy of memory with four numbers is undefined, however much memory there
is. -/
theorem C162_to_refuted (avail : ℕ) (h : 16 ≤ avail) :
    Holds (four .readWrite) [5, 6, 7, 8] ∧ (four .readWrite).to avail = .ub := by
  refine ⟨four_holds _, ?_⟩
  have := (C162_allocate_refuted avail h).2.1
  simp only [Mem.to, four, this]

/-! ## Destruction -/

/-- C162, destruction: memory is freed unless it is read only, which is borrowed. -/
theorem C162_destroy {m : Mem α} {xs : List α} (h : Holds m xs) :
    m.destroy = .ok (decide (m.mode ≠ .readOnly)) := by
  obtain ⟨b, rest, hb, hr, -, hn⟩ := holds_of_cells h
  by_cases hm : m.mode = .readOnly
  · simp [Mem.destroy, hb, hm]
  · simp [Mem.destroy, hb, hm, hr, hn, readCells_some]

example : (four .readOnly).destroy = .ok false ∧ (four .readWrite).destroy = .ok true := by decide

end RoughPy.HostMem
