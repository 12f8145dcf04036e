import Verif.CacheArr.Spec
import Mathlib.Data.Int.Notation

/-!
# Properties of scratch arrays

Vocabulary: `Verif/CacheArr/Spec.lean`.
-/

namespace RoughPy.CacheArr

variable {α : Type}

/-! ## Helper lemmas -/

/-- The array is as it should be: it is inline with a buffer large enough, or its last block is the only
one alive and has exactly the elements. -/
inductive Good (N : ℕ) (c : Content α) : Arr α → Prop
  | inline (inl : List (Option α)) (alloc : ℕ) (h : c.size ≤ N) (hl : inl.length = N)
      (hc : ∀ i, i < c.size → inl[i]? = some (c.at_ i)) : Good N c ⟨inl, [], none, c.size, alloc⟩
  | heap (inl : List (Option α)) (dead : List (Block α)) (cells : List (Option α)) (h : N < c.size)
      (hd : ∀ b ∈ dead, b.live = false) (hl : cells.length = c.size)
      (hc : ∀ i, i < c.size → cells[i]? = some (c.at_ i)) :
      Good N c ⟨inl, dead ++ [⟨cells, true⟩], some dead.length, c.size, c.size⟩

theorem make_good (N n : ℕ) : Good N (.new α n) (make α N n) := by
  unfold make
  split
  · next h =>
    exact .heap (c := .new α n) _ [] (List.replicate n none) h (by simp) (by simp [Content.new])
      (fun i hi => by
        have : i < n := hi
        simp [Content.new, this])
  · next h =>
    exact .inline (c := .new α n) _ 0 (Nat.not_lt.mp h) (by simp) (fun i hi => by
        have : i < n := hi
        have : i < N := by omega
        simp [Content.new, this])

theorem set_good {N : ℕ} {c : Content α} {a : Arr α} (h : Good N c a) (i : ℕ) (x : α)
    (hi : i < c.size) : ∃ b, a.set i x = .ok b ∧ Good N (c.step (.set i x)) b := by
  have upd : ∀ cells : List (Option α), i < cells.length →
      (∀ j, j < c.size → cells[j]? = some (c.at_ j)) →
      ∀ j, j < c.size → (cells.set i (some x))[j]? = some ((c.step (.set i x)).at_ j) := by
    intro cells hlen hc j hj
    by_cases e : j = i
    · subst e
      simp [Content.step, hlen]
    · rw [List.getElem?_set_ne (Ne.symm e), hc j hj]
      simp [Content.step, Function.update_of_ne e]
  cases h with
  | inline inl alloc h hl hc =>
    have hi' : i < inl.length := by omega
    refine ⟨⟨inl.set i (some x), [], none, c.size, alloc⟩, by simp [Arr.set, hi'], ?_⟩
    exact .inline (c := c.step (.set i x)) _ _ h (by simpa using hl) (upd inl hi' hc)
  | heap inl dead cells h hd hl hc =>
    have hi' : i < cells.length := by omega
    refine ⟨⟨inl, dead ++ [⟨cells.set i (some x), true⟩], some dead.length, c.size, c.size⟩, ?_, ?_⟩
    · simp [Arr.set, hi']
    · exact .heap (c := c.step (.set i x)) _ _ _ h hd ((List.length_set ..).trans hl) (upd cells hi' hc)

theorem resize_good {N : ℕ} {c : Content α} {a : Arr α} (h : Good N c a) (n : ℕ) (hN : N < n)
    (hn : c.size < n) : ∃ b, a.resize N n = .ok b ∧ Good N (c.step (.resize n)) b := by
  cases h with
  | inline inl alloc h hl hc =>
    refine ⟨⟨inl, [⟨List.replicate n none, true⟩], some 0, n, n⟩, ?_, ?_⟩
    · simp [Arr.resize, Arr.isInline, h, hN, allocate]
    · exact .heap (c := .new α n) inl [] (List.replicate n none) hN (by simp) (by simp [Content.new])
        (fun i hi => by
          have : i < n := hi
          simp [Content.new, this])
  | heap inl dead cells h hd hl hc =>
    refine ⟨⟨inl, (dead ++ [⟨cells, false⟩]) ++ [⟨List.replicate n none, true⟩],
      some (dead ++ [(⟨cells, false⟩ : Block α)]).length, n, n⟩, ?_, ?_⟩
    · simp [Arr.resize, Arr.isInline, Nat.not_le.mpr h, hn, deallocate, hl, Out.bind, allocate]
    · exact .heap (c := .new α n) inl (dead ++ [⟨cells, false⟩]) (List.replicate n none) hN
        (by
          intro b hb
          rcases List.mem_append.1 hb with hb | hb
          · exact hd b hb
          · simp only [List.mem_singleton] at hb
            rw [hb])
        (by simp [Content.new])
        (fun i hi => by
          have : i < n := hi
          simp [Content.new, this])

theorem run_good {N : ℕ} (os : List (Op α)) : ∀ {c : Content α} {a : Arr α}, Good N c a →
    InRange c os → Grows N c.size os →
    ∃ b, a.run N os = .ok b ∧ Good N (os.foldl Content.step c) b := by
  induction os with
  | nil => exact fun h _ _ => ⟨_, rfl, h⟩
  | cons o os ih =>
    intro c a h hr hg
    cases o with
    | resize n =>
      obtain ⟨b, hb, hgood⟩ := resize_good h n hg.1 hg.2.1
      obtain ⟨d, hd, hgood'⟩ := ih hgood hr hg.2.2
      exact ⟨d, by simp [Arr.run, Arr.step, hb, Out.bind, hd], hgood'⟩
    | set i x =>
      obtain ⟨b, hb, hgood⟩ := set_good h i x hr.1
      obtain ⟨d, hd, hgood'⟩ := ih hgood hr.2 hg
      exact ⟨d, by simp [Arr.run, Arr.step, hb, Out.bind, hd], hgood'⟩

/-! ## The property -/

/-- C163, the part that holds: if an array is only given sizes that are larger than before and than its
inline buffer (in particular if it is given none, as everywhere in the library), and only elements that
exist are written, then nothing undefined happens, it has the size last asked for and room for as many
elements, each element reads as what was last written to it, and its destruction frees all its blocks. -/
theorem C163_partial (N n : ℕ) (os : List (Op α)) (hr : InRange (.new α n) os) (hg : Grows N n os) :
    ∃ a, (make α N n).run N os = .ok a ∧ a.size = (os.foldl Content.step (.new α n)).size ∧
      a.size ≤ a.capacity N ∧
      (∀ i x, i < a.size → (os.foldl Content.step (.new α n)).at_ i = some x → a.get i = .ok x) ∧
      ∃ bs, a.destroy N = .ok bs ∧ ∀ b ∈ bs, b.live = false := by
  obtain ⟨a, ha, h⟩ := run_good os (make_good (α := α) N n) hr hg
  refine ⟨a, ha, ?_⟩
  generalize os.foldl Content.step (.new α n) = c at h
  cases h with
  | inline inl alloc h hl hc =>
    refine ⟨rfl, by simp [Arr.capacity, Arr.isInline, h], ?_, [], by simp [Arr.destroy, Arr.isInline, h],
      by simp⟩
    intro i x hi hx
    simp only [Arr.get, hc i hi, hx]
  | heap inl dead cells h hd hl hc =>
    refine ⟨rfl, by simp [Arr.capacity, Arr.isInline, Nat.not_le.mpr h], ?_, dead ++ [⟨cells, false⟩], ?_,
      ?_⟩
    · intro i x hi hx
      simp [Arr.get, hc i hi, hx]
    · simp [Arr.destroy, Arr.isInline, Nat.not_le.mpr h, deallocate, hl]
    · intro b hb
      rcases List.mem_append.1 hb with hb | hb
      · exact hd b hb
      · simp only [List.mem_singleton] at hb
        rw [hb]

/-- An array of three letters in a buffer for two, which then gets four -/
example : InRange (.new ℤ 3) [.set 2 7, .resize 4, .set 3 9] ∧
    Grows (α := ℤ) 2 3 [.set 2 7, .resize 4, .set 3 9] ∧
    ((make ℤ 2 3).run 2 [.set 2 7, .resize 4, .set 3 9]).bind (fun a => a.get 3) = .ok 9 := by
  refine ⟨⟨by decide, by show 3 < 4; decide, trivial⟩, ⟨by decide, by decide, trivial⟩, by decide⟩

/-- C163 fails for inline arrays: an array of one element in a buffer for four, which gets three, still
says that it has one. -/
theorem C163_size_refuted :
    ((make ℤ 4 1).run 4 [.resize 3]).bind (fun a => .ok a.size) = .ok 1 := by decide

/-- C163 fails for smaller sizes: an array with a block, which gets a size below that of its buffer, does
not free the block; if it grows again, a second block is made and the first is lost. -/
theorem C163_leak_refuted :
    ((make ℤ 2 3).run 2 [.resize 1]).bind (fun a => a.destroy 2) = .ok [⟨[none, none, none], true⟩] ∧
    ((make ℤ 2 3).run 2 [.resize 1, .resize 3]).bind (fun a => a.destroy 2) =
      .ok [⟨[none, none, none], true⟩, ⟨[none, none, none], false⟩] := by decide

/-- C163 fails for smaller sizes above the buffer: the block is given back as one of another size, which
is undefined. -/
theorem C163_free_refuted :
    ((make ℤ 2 5).run 2 [.resize 4]).bind (fun a => .ok a.size) = .ok 4 ∧
    ((make ℤ 2 5).run 2 [.resize 4]).bind (fun a => a.destroy 2) = .ub := by decide

end RoughPy.CacheArr
