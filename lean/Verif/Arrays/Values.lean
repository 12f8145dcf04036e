import Verif.Arrays.Good

/-!
# What the elements of arrays are after a statement
-/

namespace RoughPy.Arrays

open RoughPy.Args (Out)
open RoughPy.Scalars (Ty Val FP TRef conv Fits conv_ty conv_same zero_ty)

variable {n : ℕ}

theorem SafeRun.cons {P : FP} {junk : ℕ → ℕ} {s s1 : St} {c : Stmt} {cs : List Stmt} (hs : Safe P s c)
    (h : step P junk s c = .ok s1) (hr : SafeRun P junk s1 cs) : SafeRun P junk s (c :: cs) := by
  refine ⟨hs, fun s' h' => ?_⟩
  rcases h' with h' | h' <;> rw [h] at h' <;> cases h'
  exact hr

theorem Reaches.good {P : FP} {s₀ s : St} (h : Reaches P s₀ s) :
    Good s₀.world.blocks.length s ∧ s.vars.length + 1 < 2 ^ 64 := by
  obtain ⟨hi, prog, hl, hs, hr⟩ := h
  obtain ⟨s', h1, h2, h3⟩ := run_good (fun _ => rfl) prog hi.good hs (by rw [hi.vars]; simp; omega)
  rw [hr] at h1; cases h1
  rw [hi.vars] at h3
  simp at h3
  exact ⟨h2, by omega⟩

theorem leaves_effect {P : FP} {s s' : St} {c : Stmt} (hg : Good n s) (hlen : s.vars.length + 1 < 2 ^ 64)
    (hs : Safe P s c) (h : Leaves P s c s') : Effect n s c s' := by
  obtain ⟨s1, h1, h2⟩ := step_good (P := P) (junk := fun _ => 0) (fun _ => rfl) hg hs hlen
  rcases h with h | h <;> rcases h1 with h1 | h1 <;> rw [h] at h1 <;> cases h1 <;> exact h2

theorem cell_some {w : World} {b p : ℕ} {x : Option Val} (h : w.cell b p = some x) :
    ∃ C, w.blocks[b]? = some C ∧ C.alive = true ∧ C.cells[p]? = some x := by
  unfold World.cell at h
  cases hC : w.blocks[b]? with
  | none => rw [hC] at h; cases h
  | some C =>
    rw [hC] at h
    dsimp only at h
    split_ifs at h with ha
    exact ⟨C, rfl, ha, h⟩

/-- What it means that an element can be read. -/
theorem get_ok {w : World} {f : ℕ → ℕ} {a : Arr} (ha : a.Ok w) (hb : Books n w f)
    (hf : ∀ k, own a k ≤ f k) {k : ℕ} {x : Val} (h : get w a k = .ok x) :
    a.ty ≠ .null ∧ k < a.size ∧ a.Alive w := by
  have ht : a.ty ≠ .null := by
    intro h0
    unfold get Arr.checkAccess at h
    rw [if_pos h0] at h
    cases h
  rw [ha.get hb hf ht] at h
  split_ifs at h with hk
  refine ⟨ht, hk, fun b o hp => ?_⟩
  rw [hp] at h
  obtain ⟨t, C, h1, h2, h3, h4, h5, h6⟩ := ha.memory b o hp
  simp only [h2, Out.bind] at h
  cases hr : w.read (.elem b (o + k)) with
  | err => rw [hr] at h; cases h
  | ub => rw [hr] at h; cases h
  | ok v =>
    unfold World.read at hr
    dsimp only at hr
    cases hc : w.cell b (o + k) with
    | none => rw [hc] at hr; cases hr
    | some y =>
      obtain ⟨D, g1, g2, -⟩ := cell_some hc
      exact ⟨D, g1, g2⟩

theorem read_same {w w' : World} {b p : ℕ} {C C' : Block} (hC : w.blocks[b]? = some C)
    (hC' : w'.blocks[b]? = some C') (ha : C.alive = true) (ha' : C'.alive = true)
    (h : C'.cells[p]? = C.cells[p]?) : w'.read (.elem b p) = w.read (.elem b p) := by
  unfold World.read World.cell
  simp only [hC, hC', ha, ha', if_true, h]

/-- An element that is not written to stays. -/
theorem get_effect {s s' : St} {c : Stmt} (hg : Good n s) (he : Effect n s c s') {j : ℕ} {a : Arr}
    (hj : s.var j = some a) (hj' : s'.var j = some a) {l : ℕ} {x : Val}
    (hx : get s.world a l = .ok x) (hl : a.Alive s'.world)
    (hw : ∀ m o, a.place s.world = some (m, o) → ¬ WritesAt s m (o + l) c) :
    get s'.world a l = .ok x := by
  have hv := var_iff.1 hj
  have hv' := var_iff.1 hj'
  have hok := hg.ok j a hv
  have hok' := he.good.ok j a hv'
  obtain ⟨ht, hk, hal⟩ := get_ok hok hg.books (own_le_owners hv) hx
  rw [hok.get hg.books (own_le_owners hv) ht, if_pos hk] at hx
  rw [hok'.get he.good.books (own_le_owners hv') ht, if_pos hk, place_keeps he.keeps hok, ← hx]
  cases hp : a.place s.world with
  | none => rfl
  | some q =>
    obtain ⟨m, o⟩ := q
    obtain ⟨C, h1, h2⟩ := hal m o hp
    obtain ⟨C', h3, h4⟩ := he.cells m C h1
    obtain ⟨D, h5, h6⟩ := hl m o (by rw [place_keeps he.keeps hok]; exact hp)
    rw [h3] at h5; cases h5
    simp only [read_same h1 h3 h2 h6 (h4 (o + l) (hw m o hp))]

theorem var_last (s : St) (r : World × Arr) : (s.push r).var s.vars.length = some r.2 := by
  rw [var_iff]
  simp [St.push]

end RoughPy.Arrays
