import Verif.Arrays.Convert

/-!
# Every statement keeps the arrays in order
-/

namespace RoughPy.Arrays

open RoughPy.Args (Out)
open RoughPy.Scalars (Ty Val FP TRef conv Fits conv_ty conv_same zero_ty)

variable {n : ℕ} {w : World} {f : ℕ → ℕ}

/-! ## Assignment -/

theorem copyAssign_spec {P : FP} {junk : ℕ → ℕ} (hj : ∀ k, junk k = 0) {a b : Arr} (ha : a.Ok w)
    (hbk : b.Ok w) (hb : Books n w f) (hf : ∀ k, own a k + own b k ≤ f k) (hs : ∀ k, f k < 2 ^ 64)
    (hm : b.mode = .owned) (hw : b.word ≠ .null) {d : Ty} (hd : b.ty = .ptr d)
    (hdd : d = .f32 ∨ d = .f64) :
    ∃ w' a', copyAssign P junk w a b = .ok (w', a') ∧ Keeps w w' ∧ SameCells w w' ∧
      Books n w' (fun k => f k - own a k + own a' k) ∧ a'.Ok w' ∧ a'.size = b.size ∧ a'.ty = b.ty ∧
      a'.mode = .owned ∧ a'.place w' = some (w.blocks.length, 0) ∧
      ∀ k, get w' a' k = get w b k := by
  obtain ⟨w1, d1, d2, d3, d4, d5⟩ := dtor_spec ha hb (fun k => by have := hf k; omega) hs
  set f1 : ℕ → ℕ := fun k => f k - own a k with hf1
  have hb1 : ∀ k, own b k ≤ f1 k := fun k => by have := hf k; simp only [hf1]; omega
  have hbk1 := hbk.keeps d2
  set w2 := (w1.alloc junk (List.replicate b.size none)).1 with hw2
  have k2 : Keeps w1 w2 := alloc_keeps _ _ _
  have B2 := alloc_books hj d4 (List.replicate b.size none)
  rw [← hw2] at B2
  set f2 : ℕ → ℕ := fun k => f k - own a k + if k = w1.bufs.length then 1 else 0 with hf2
  have hb2 : ∀ k, own b k ≤ f2 k := fun k => by have := hb1 k; simp only [hf2, hf1] at this ⊢; omega
  have hbk2 := hbk1.keeps k2
  have hba2 := hbk2.owned_alive B2 hb2 hm
  have hfd : d.fundamental = true := by rcases hdd with rfl | rfl <;> rfl
  have hst : d.IsScalarType := by rcases hdd with rfl | rfl <;> simp [Ty.IsScalarType]
  have hdr := real_of_scalarType hst
  -- the source
  obtain ⟨⟨m2, o2⟩, hp⟩ : ∃ q, b.place w = some q := by
    cases h : b.place w with
    | none => exact absurd (hbk.place_null h) hw
    | some q => exact ⟨q, rfl⟩
  have hp1 := (place_keeps d2 hbk).trans hp
  have hp2 := (place_keeps k2 hbk1).trans hp1
  obtain ⟨C0, hC0, -⟩ := (hbk.keeps d2).owned_alive d4 hb1 hm m2 o2 hp1
  have hm2 : m2 < w1.blocks.length := (List.getElem?_eq_some_iff.1 hC0).1
  have hne : m2 ≠ w1.blocks.length := by omega
  have hbi : b.info = .ok d := by unfold Arr.info; rw [hd]
  have hbt : b.ty ≠ .null := info_ty hbi
  have hbe : b.elemInfo = .ok d := by unfold Arr.elemInfo; rw [hd]
  -- the target
  set a2 : Arr := ⟨b.ty, b.mode, .impl w1.bufs.length, b.size⟩ with ha2
  have hB : w2.bufs[w1.bufs.length]? = some ⟨w1.blocks.length, (junk w1.bufs.length + 1) % 2 ^ 64, true⟩ := by
    rw [hw2]; simp [World.alloc]
  have hC : w2.blocks[w1.blocks.length]? = some ⟨List.replicate b.size none, true⟩ := by
    rw [hw2]; simp [World.alloc]
  have hptr : a2.mutPointer w2 = .ok (.elem w1.blocks.length 0) := by
    unfold Arr.mutPointer Arr.pointer Arr.ptr
    simp only [ha2, hm, hB]
    simp
  have hget2 : ∀ k, get w2 b k = get w b k := by
    intro k
    rw [hbk2.get B2 hb2 hbt, hbk.get hb (fun k => by have := hf k; omega) hbt, hp, hp2]
    have hl := hbk.owned_alive hb (fun k => by have := hf k; omega) hm
    obtain ⟨D, hD, hDa⟩ := hl m2 o2 hp
    obtain ⟨D', hD', hDa'⟩ := hba2 m2 o2 hp2
    obtain ⟨D1, e1, e2⟩ := d3 m2 D hD
    obtain ⟨D2, e3, e4⟩ := alloc_same junk w1 (List.replicate b.size none) m2 D1 e1
    rw [← hw2, hD'] at e3
    cases e3
    have : ∀ j, w2.read (.elem m2 j) = w.read (.elem m2 j) := by
      intro j
      unfold World.read World.cell
      simp only [hD, hD', hDa, hDa', if_true, e4, e2]
    simp only [this]
  have hgd : ∀ k v, get w2 b k = .ok v → conv P d v = .ok v := by
    intro k v hv
    have : v.ty = d := by
      rw [hbk2.get B2 hb2 hbt, hp2] at hv
      split_ifs at hv with hk
      obtain ⟨t, C, x, u, q1, q2, q3, q4, q5, q6, q7, q8, q9⟩ := hbk2.at hba2 hp2 hk
      rw [hbi] at q1; cases q1
      simp only [hbe, Out.bind, q9, q8] at hv
      cases hv
      exact as_ty q8
    exact conv_same this hst
  have hcop : Copies P w2 d b w1.blocks.length 0 (convertBase P w2 a2 b) := by
    refine convertBase_spec rfl hptr (fun h => by simp [ha2] at h) (by unfold Arr.info; simp only [ha2, hd])
      (real_ne_other hdr) hC rfl (fun j hj' => .inr ⟨?_, hfd⟩) hbk2 B2 hb2 hba2 hp2 hne
      (fun k v hv => by rw [hgd k v hv]; simp)
    simp only [List.getElem?_replicate, Nat.zero_add]
    rw [if_pos hj']
  obtain ⟨l, us, w3, g1, g2, g3, g4⟩ := hcop
  have g4' : l = b.size ∧ convertBase P w2 a2 b = .ok w3 := by
    rcases g4 with h | ⟨-, ⟨v, h1, h2⟩, -⟩
    · exact h
    · rw [hgd l v h1] at h2; cases h2
  obtain ⟨rfl, g5⟩ := g4'
  have k3 : Keeps w2 w3 := by
    refine g3.keeps fun C j u v hC' hg hv => ?_
    rw [hC] at hC'; cases hC'
    simp [List.getElem?_replicate] at hv
  have B3 := g3.books B2
  have hown : ∀ k, own a2 k = if k = w1.bufs.length then 1 else 0 := by
    intro k
    rw [ha2, hd, hm]
    exact own_impl _ _ _ _
  obtain ⟨C3, c1, c2, c3, c4⟩ := g3.here _ hC
  simp only [List.length_replicate] at c3 c4
  have hus : ∀ j < b.size, get w b j = .ok (us j) ∧ (us j).ty = d := by
    intro j hj'
    obtain ⟨v, e1, e2⟩ := g2 j hj'
    have e3 := hgd j v e1
    rw [e2] at e3
    cases e3
    exact ⟨by rw [← hget2]; exact e1, conv_ty e2⟩
  have hcell : ∀ j < b.size, C3.cells[j]? = some (some (us j)) := by
    intro j hj'
    rw [c4 j hj']
    unfold span
    rw [if_pos (by omega)]
    simp
  have hB3 : w3.bufs[w1.bufs.length]? = some ⟨w1.blocks.length, (junk w1.bufs.length + 1) % 2 ^ 64, true⟩ := by
    rw [g3.bufs]; exact hB
  have hpl : a2.place w3 = some (w1.blocks.length, 0) := by
    unfold Arr.place
    simp only [ha2, hm, hB3]
    rfl
  have hok : a2.Ok w3 := by
    refine ⟨fun _ => ⟨⟨d, hst, hd⟩, .inr ⟨_, _, C3, rfl, hB3, c1, c3⟩⟩, fun h => absurd hm h, ?_⟩
    intro b' o' hp'
    rw [hpl] at hp'
    cases hp'
    refine ⟨d, C3, hbi, hbe, hdr, c1, by rw [c3, Nat.zero_add], fun i hi => ⟨us i, ?_, ?_⟩⟩
    · rw [Nat.zero_add]; exact hcell i hi
    · rw [(hus i hi).2]
  refine ⟨w3, a2, ?_, (d2.trans k2).trans k3, ?_, B3.congr fun k => by rw [hown], hok, rfl, rfl, hm, ?_, ?_⟩
  · unfold copyAssign
    have htn : b.typeNull = false := by unfold Arr.typeNull; simp [hbt]
    rw [htn, d1]
    simp only [Bool.false_eq_true, if_false]
    have : ({ a.destroyed with ty := b.ty, mode := b.mode } : Arr).info = .ok d := hbi
    rw [this]
    simp only
    rw [show (w1.alloc junk (List.replicate b.size none)).2 = w1.bufs.length from rfl, ← hw2, ← ha2, hd]
    simp only
    unfold convertCopy
    rw [if_pos hfd]
    have hnc : a2.mode ≠ .constB := by simp [ha2, hm]
    by_cases h0 : b.size = 0
    · rw [if_pos h0]
      have : w3 = w2 := by
        unfold convertBase at g5
        rw [if_neg (by simp [ha2]), if_neg (by simp [ha2]), hptr] at g5
        have hai : a2.info = .ok d := hbi
        rw [hai] at g5
        simp only [hbk2.pointer B2 hb2 hp2, hbi] at g5
        rw [if_neg (by simp [real_ne_other hdr])] at g5
        simp only [ha2, h0, copyLoop] at g5
        cases g5; rfl
      rw [this]
    · rw [if_neg h0, if_neg hnc]
      have hsc : a2.scalarType = .ok (some d) := by unfold Arr.scalarType; simp only [ha2, hd]
      rw [hsc]
      simp only
      unfold convertWith
      rw [if_pos hfd]
      unfold convertStd
      have hcap : a2.capacity w2 = .ok b.size := by
        unfold Arr.capacity
        simp only [ha2, hm, hB, hC]
        simp
      rw [if_neg h0, if_neg hnc, hcap]
      simp only
      rw [if_neg (lt_irrefl _)]
      show (convertBase P w2 a2 b).map _ = _
      rw [g5]
      rfl
  · intro m D hD
    obtain ⟨D2, e1, e2⟩ := (d3.trans (alloc_same junk w1 (List.replicate b.size none))) m D hD
    have : m < w.blocks.length := (List.getElem?_eq_some_iff.1 hD).1
    exact ⟨D2, by rw [g3.other m (by omega)]; exact e1, e2⟩
  · rw [hpl, d5]
  · intro k
    have hf3 : ∀ k, own a2 k ≤ f2 k := fun k => by rw [hown]; simp only [hf2]; omega
    rw [hok.get B3 hf3 hbt, hbk.get hb (fun k => by have := hf k; omega) hbt]
    show (if k < b.size then _ else _) = _
    by_cases hk : k < b.size
    · rw [if_pos hk]
      have := (hus k hk).1
      rw [hbk.get hb (fun k => by have := hf k; omega) hbt] at this
      rw [this, hpl]
      have he : a2.elemInfo = .ok d := hbe
      have hCa : C3.alive = true := c2
      have hr : w3.read (.elem w1.blocks.length (0 + k)) = .ok (us k) :=
        read_elem c1 hCa (by rw [Nat.zero_add]; exact hcell k hk)
      simp only [he, Out.bind, hr]
      unfold Val.as
      rw [if_pos (hus k hk).2]
    · rw [if_neg hk, if_neg hk]

end RoughPy.Arrays
