import Verif.Arrays.Values
import Verif.Scalars.Props

/-!
# C116: the memory of arrays
-/

namespace RoughPy.Arrays

open RoughPy.Args (Out)
open RoughPy.Scalars (Ty Val FP TRef conv Fits exactFP)

variable {n : ℕ}

theorem owns_buf {s : St} (hg : Good n s) {i b : ℕ} (h : Owns s i b) :
    ∃ k B, s.world.bufs[k]? = some B ∧ B.block = b ∧ 0 < owners s.vars k := by
  obtain ⟨a, h1, h2, h3⟩ := h
  have h1' := var_iff.1 h1
  rcases ((hg.ok i a h1').owner h2).2 with h0 | ⟨k, B, C, e1, e2, e3, e4⟩
  · rw [place_none_of_null h0] at h3; cases h3
  · refine ⟨k, B, e2, ?_, ?_⟩
    · unfold Arr.place at h3; rw [h2, e1] at h3; simp [e2] at h3; exact h3
    · have := own_le_owners h1' k
      unfold own at this
      rw [if_pos ⟨h2, e1⟩] at this
      omega

/-- **C116, in part.** A program that meets its preconditions runs to its end without undefined
behaviour (so no memory is given back twice or used after that), and then the memory of every owner is
there, memory of the library that is still there has an owner, and memory of the user has not been given
back. Missing: the counts of new buffers start at an arbitrary number, and `Safe` excludes statements
with defects. -/
theorem C116_storage_partial {P : FP} {s₀ : St} (hi : Initial s₀) {prog : List Stmt}
    (hl : prog.length + 1 < 2 ^ 64) (hs : SafeRun P (fun _ => 0) s₀ prog) :
    ∃ s, run P (fun _ => 0) s₀ prog = .ok s ∧
      (∀ i b, Owns s i b → Live s b) ∧
      (∀ b, Library s₀ s b → Live s b → ∃ i, Owns s i b) ∧
      ∀ b, b < s₀.world.blocks.length → Live s b := by
  obtain ⟨s, h1, hg, -⟩ := run_good (fun _ => rfl) prog hi.good hs (by rw [hi.vars]; simp; omega)
  refine ⟨s, h1, fun i b ho => ?_, fun b hb hlv => ?_, fun b hb => ?_⟩
  · obtain ⟨k, B, e1, e2, e3⟩ := owns_buf hg ho
    obtain ⟨C, c1, c2⟩ := hg.books.block k B e1
    exact ⟨C, by rw [← e2]; exact c1, by rw [c2, hg.books.alive k B e1]; exact decide_eq_true e3⟩
  · obtain ⟨k, B, e1, e2⟩ := hg.books.lib b hb.1 hb.2
    obtain ⟨C, c1, c2⟩ := hg.books.block k B e1
    obtain ⟨D, d1, d2⟩ := hlv
    rw [e2, d1] at c1; cases c1
    have hpos : 0 < owners s.vars k := by
      rw [d2, hg.books.alive k B e1] at c2
      exact of_decide_eq_true c2.symm
    obtain ⟨i, a, f1, f2, f3⟩ := owners_pos hpos
    refine ⟨i, a, var_iff.2 f1, f2, ?_⟩
    unfold Arr.place
    rw [f2, f3]
    simp [e1, e2]
  · have hb' : b < s.world.blocks.length := by have := hg.books.size; omega
    exact ⟨_, List.getElem?_eq_getElem hb', hg.books.user b _ hb (List.getElem?_eq_getElem hb')⟩

/-- **C116.** When no array is left, all memory of the library has been given back. -/
theorem C116_no_leak {P : FP} {s₀ s : St} (h : Reaches P s₀ s) (hv : ∀ i, s.var i = none) {b : ℕ}
    (hb : Library s₀ s b) : ¬ Live s b := by
  intro hl
  obtain ⟨hi, prog, h1, h2, h3⟩ := h
  obtain ⟨s', e1, -, e2, -⟩ := C116_storage_partial hi h1 h2
  rw [h3] at e1; cases e1
  obtain ⟨i, a, ha, -⟩ := e2 b hb hl
  rw [hv i] at ha
  cases ha

/-- **C116.** While an array owns memory, no statement takes it away: whatever happens to other arrays,
what it holds can be read as before, unless it is written to. -/
theorem C116_owner {P : FP} {s₀ s s' : St} (h : Reaches P s₀ s) {c : Stmt} (hs : Safe P s c)
    (hl : Leaves P s c s') {i b : ℕ} (ho : Owns s i b) (hr : ¬ Replaces i c) :
    Owns s' i b ∧ Live s' b := by
  obtain ⟨hg, hlen⟩ := h.good
  have he := leaves_effect hg hlen hs hl
  have ho' : Owns s' i b := by
    obtain ⟨a, h1, h2, h3⟩ := ho
    exact ⟨a, he.vars i hr a h1, h2, by rw [place_keeps he.keeps (hg.ok i a (var_iff.1 h1))]; exact h3⟩
  refine ⟨ho', ?_⟩
  obtain ⟨k, B, e1, e2, e3⟩ := owns_buf he.good ho'
  obtain ⟨C, c1, c2⟩ := he.good.books.block k B e1
  exact ⟨C, by rw [← e2]; exact c1, by rw [c2, he.good.books.alive k B e1]; exact decide_eq_true e3⟩

theorem conv_f64 {P : FP} (v : Val) : conv P .f64 v ≠ .ub := by
  cases v with
  | poly p =>
    rcases p with _ | ⟨⟨m, c⟩, _ | ⟨q, p⟩⟩
    · simp [conv, RoughPy.Scalars.convNum]
    · simp only [conv]
      split_ifs <;> simp [RoughPy.Scalars.convNum]
    · simp [conv]
  | _ => simp [conv, RoughPy.Scalars.convNum]

/-- Memory of the user with two numbers. -/
def userTwo : St := ⟨⟨[⟨[some (.f64 (.fin 3)), some (.f64 (.fin 4))], true⟩], []⟩, []⟩

theorem userTwo_initial : Initial userTwo :=
  ⟨rfl, rfl, fun C hC => by simp [userTwo] at hC; subst hC; rfl⟩

/-- A program with two owners of one buffer, a view of it, and an array over the memory of the user:
the first owner dies, the second is used, all die. -/
def sharing : List Stmt :=
  [.typed .f64 3, .copy 0, .borrow false (.ptr .f64) 0 0 2, .slice false 1 1 3, .drop 0,
   .set 3 0 (.f64 (.fin 7)), .get 1 1, .convert .f64 2 3, .drop 1, .drop 2, .drop 3]

/-- The program runs, and in the end the memory of the library has been given back. -/
example : ∃ s, run exactFP (fun _ => 0) userTwo sharing = .ok s ∧ (∀ i < 4, s.var i = none) ∧
    s.world.blocks.map Block.alive = [true, false] ∧
    s.world.blocks.map Block.cells = [[some (.f64 (.fin 7)), some (.f64 (.fin 0))],
      [some (.f64 (.fin 0)), some (.f64 (.fin 7)), some (.f64 (.fin 0))]] := by
  refine ⟨_, rfl, ?_, ?_, ?_⟩ <;> decide +kernel

/-- What the first program of `C116_storage_partial` can be. -/
example : SafeRun exactFP (fun _ => 0) userTwo
    [.typed .f64 2, .copy 0, .drop 0, .borrow true (.ptr .f64) 0 0 2, .convert .f64 1 2, .get 1 1, .drop 1,
     .drop 2] := by
  refine SafeRun.cons (by simp [Safe, Ty.IsScalarType]) rfl ?_
  refine SafeRun.cons ⟨_, rfl⟩ rfl ?_
  refine SafeRun.cons ⟨_, rfl⟩ rfl ?_
  refine SafeRun.cons ⟨.f64, .inl ⟨rfl, by simp [Ty.IsScalarType]⟩, ?_, _, rfl, by simp, ?_⟩ rfl ?_
  · intro k B hB
    rcases k with _ | k
    · cases hB; decide
    · simp [step, withVar, St.var, St.push, typed, World.alloc, userTwo, copyCtor, World.incRef, Out.map, Res.ofOut, dtor] at hB
  · intro i hi
    rcases i with _ | _ | i
    · exact ⟨.f64 (.fin 3), rfl, .f64 (.fin 3), rfl⟩
    · exact ⟨.f64 (.fin 4), rfl, .f64 (.fin 4), rfl⟩
    · omega
  refine SafeRun.cons ⟨_, _, rfl, rfl, by simp [Ty.IsScalarType], rfl, ?_, ?_, rfl, rfl, ?_, ?_⟩ rfl ?_
  · intro b o h; cases h; exact ⟨_, rfl, rfl⟩
  · intro b o h; cases h; exact ⟨_, rfl, rfl⟩
  · intro m o m' p h h'; cases h; cases h'; decide
  · intro d k v hd hv
    cases hd
    exact conv_f64 v
  refine SafeRun.cons ⟨_, rfl, (fun h => by cases h), ?_⟩ rfl ?_
  · intro b o h; cases h; exact ⟨_, rfl, rfl⟩
  refine SafeRun.cons ⟨_, rfl⟩ rfl ?_
  refine SafeRun.cons ⟨_, rfl⟩ rfl ?_
  trivial

/-- **C116, refuted.** The count of a new buffer is one more than the word that was in its memory: if
that word is one, the memory is not given back. -/
theorem C116_leak_refuted : ∃ s, run exactFP (fun _ => 1) ⟨⟨[], []⟩, []⟩ [.typed .f64 1, .drop 0] = .ok s ∧
    s.var 0 = none ∧ s.vars.length = 1 ∧ Live s 0 :=
  ⟨⟨⟨[⟨[some (.f64 (.fin 0))], true⟩], [⟨0, 1, true⟩]⟩, [none]⟩, by decide +kernel, by decide +kernel,
    rfl, ⟨_, rfl, rfl⟩⟩

/-- **C116, refuted.** If all bits of the word are set, the end of a copy gives back the memory of the
array that was copied; the next use of it is undefined. -/
theorem C116_freed_refuted : ∃ s, run exactFP (fun _ => 2 ^ 64 - 1) ⟨⟨[], []⟩, []⟩
      [.typed .f64 1, .copy 0, .drop 1] = .ok s ∧ (∃ a, s.var 0 = some a ∧ a.size = 1) ∧ ¬ Live s 0 ∧
    step exactFP (fun _ => 2 ^ 64 - 1) s (.get 0 0) = .ub := by
  refine ⟨⟨⟨[⟨[some (.f64 (.fin 0))], false⟩], [⟨0, 0, false⟩]⟩,
    [some ⟨.ptr .f64, .owned, .impl 0, 1⟩, none]⟩, by decide +kernel, ⟨_, rfl, rfl⟩, ?_, by decide +kernel⟩
  rintro ⟨C, h1, h2⟩
  cases h1
  cases h2

/-- **C116, refuted.** An array made with a type info and a size is assigned to memory that was never
initialised. -/
theorem C116_untyped_refuted (P : FP) (junk : ℕ → ℕ) (s : St) (m : ℕ) :
    step P junk s (.untyped .f64 m) = .ub := rfl

/-- **C116, refuted.** A view keeps nothing alive: it is left behind when the owner dies, and reading it
is undefined. -/
theorem C116_dangling_refuted : run exactFP (fun _ => 0) ⟨⟨[], []⟩, []⟩
    [.typed .f64 1, .view true 0, .drop 0, .get 1 0] = .ub := by decide +kernel

end RoughPy.Arrays
