import Verif.GenArr.Lemmas

/-! # The functions of an array, one by one -/

namespace RoughPy.GenArr

variable {V : Type}

/-- a function of an array has given it the value `v`; only its own memory and new memory is changed -/
structure Upd (h h' : Heap V) (a a' : Arr) (v : Option (Kind × List V)) : Prop where
  rep : Rep h' a' v
  same : Same h h' a.data
  lost : h'.lost = h.lost
  data : ∀ b, a'.data = some b → a.data = some b ∨ h.next ≤ b

/-- blocks in use belong to the array, or were in use before and did not belong to it -/
def Acc (h h' : Heap V) (a a' : Arr) : Prop :=
  ∀ b, b < h'.next → (h'.block b).freed = false →
    a'.data = some b ∨ (b < h.next ∧ (h.block b).freed = false ∧ a.data ≠ some b)

theorem Upd.trans {h h1 h2 : Heap V} {a a1 a2 : Arr} {v1 v2 : Option (Kind × List V)}
    (u : Upd h h1 a a1 v1) (w : Upd h1 h2 a1 a2 v2) : Upd h h2 a a2 v2 := by
  refine ⟨w.rep, ⟨u.same.next_le.trans w.same.next_le, fun b hb hd => ?_⟩, w.lost.trans u.lost,
    fun b hb => ?_⟩
  · rw [w.same.block_eq b (lt_of_lt_of_le hb u.same.next_le) ?_, u.same.block_eq b hb hd]
    intro e
    rcases u.data b e.symm with h1 | h1
    · exact hd h1.symm
    · omega
  · rcases w.data b hb with h1 | h1
    · exact u.data b h1
    · exact Or.inr (u.same.next_le.trans h1)

theorem Acc.trans {h h1 h2 : Heap V} {a a1 a2 : Arr} (u : Acc h h1 a a1) (w : Acc h1 h2 a1 a2) :
    Acc h h2 a a2 := by
  intro b hb hf
  rcases w b hb hf with h1 | ⟨h1, h2, h3⟩
  · exact Or.inl h1
  · rcases u b h1 h2 with h4 | h4
    · exact absurd h4 h3
    · exact Or.inr h4

/-- seen from an array that is overwritten -/
theorem Upd.over {h h' : Heap V} {a' : Arr} {v : Option (Kind × List V)} (u : Upd h h' .empty a' v) (a : Arr) :
    Upd h h' a a' v :=
  ⟨u.rep, ⟨u.same.next_le, fun b hb _ => u.same.block_eq b hb (by simp [Arr.empty])⟩, u.lost,
    fun b hb => Or.inr ((u.data b hb).resolve_left (by simp [Arr.empty]))⟩

theorem Rep.data_lt {h : Heap V} {a : Arr} {v : Option (Kind × List V)} (r : Rep h a v) {b : ℕ}
    (hb : a.data = some b) : b < h.next := by
  cases v with
  | none => rw [show a = Arr.empty from r] at hb; simp [Arr.empty] at hb
  | some p => exact Typed.below (k := p.1) (l := p.2) r b hb

/-- the block, freed -/
def Block.release (B : Block V) : Block V := ⟨B.cap, B.kind, B.cells, true⟩

theorem free_eq {h : Heap V} {b cap : ℕ} {k : Kind} {l : List V} (hb : b < h.next)
    (hh : Holds (h.block b) cap k l) (hk : k = .managed → l = []) :
    h.free (some b) = some (h.withBlock b (h.block b).release) := by
  unfold Heap.free
  simp only [hb, hh.inUse, and_self, if_true, Heap.withBlock, Block.release]
  congr 2
  by_cases hm : (h.block b).kind = .managed
  · rw [if_pos hm]
    have hkm : k = .managed := hh.kind_eq.symm.trans hm
    have : ((List.range (h.block b).cap).filter fun i => ((h.block b).cells i).isLive) = [] := by
      rw [List.filter_eq_nil_iff]
      intro i hi
      rw [hh.rest hkm i (by rw [hk hkm]; simp) (by rw [← hh.cap_eq]; exact List.mem_range.1 hi)]
      simp [Cell.isLive]
    rw [this]; rfl
  · rw [if_neg hm]; rfl

theorem withBlock_block (h : Heap V) (b : ℕ) (B : Block V) : (h.withBlock b B).block b = B := by
  simp [Heap.withBlock]

theorem withBlock_ne (h : Heap V) {b c : ℕ} (B : Block V) (hc : c ≠ b) :
    (h.withBlock b B).block c = h.block c := by
  simp [Heap.withBlock, hc]

/-- after the destruction of elements and before the memory is freed -/
theorem destroyRange_eq {h : Heap V} {a : Arr} {k : Kind} {l : List V} (t : Typed h a k l) {n : ℕ}
    (hn : n ≤ l.length) :
    ∃ h', destroyRange k h a.data n (a.size - n) = some h' ∧ h'.lost = h.lost ∧ h'.next = h.next ∧
      Typed h' { a with size := n } k (l.take n) ∧ Same h h' a.data ∧
      (∀ b, (h'.block b).freed = (h.block b).freed) := by
  cases k with
  | plain =>
    refine ⟨h, rfl, rfl, rfl, ?_, Same.refl _ _, fun _ => rfl⟩
    refine ⟨t.type_eq, by simp [hn], hn.trans (t.size_eq ▸ t.size_le), t.noData, t.below, fun b hb => ?_⟩
    have H := t.holds b hb
    exact ⟨H.cap_eq, H.kind_eq, H.inUse, fun i hi => by
      rw [H.elements i (by simp at hi; omega)]; simp, fun e => by cases e⟩
  | managed =>
    by_cases h0 : a.size - n = 0
    · have hl : n = l.length := by have := t.size_eq; omega
      refine ⟨h, by simp [destroyRange, h0], rfl, rfl, ?_, Same.refl _ _, fun _ => rfl⟩
      subst hl
      have hs := t.size_eq
      refine ⟨t.type_eq, by simp, hs ▸ t.size_le, t.noData, t.below, fun b hb => ?_⟩
      rw [List.take_length]; exact t.holds b hb
    · have hs := t.size_eq
      have hle := t.size_le
      cases hd : a.data with
      | none => have := t.noData hd; omega
      | some b =>
        have H := t.holds b hd
        have hb := t.below b hd
        refine ⟨h.withBlock b ((h.block b).cleared n (a.size - n)), ?_, rfl, rfl, ?_,
          same_withBlock _ _ _, fun c => ?_⟩
        · simp only [destroyRange, h0, if_false]
          refine clearLoop_eq hb H.inUse (by rw [H.cap_eq]; omega) fun i h1 h2 => ?_
          exact ⟨_, H.elements i (by omega)⟩
        · refine ⟨t.type_eq, by simp [hn], hn.trans (hs ▸ hle), fun e => (by cases e),
            fun c hc => (by cases hc; exact hb), fun c hc => ?_⟩
          cases hc
          rw [withBlock_block]
          refine ⟨H.cap_eq, H.kind_eq, H.inUse, fun i hi => ?_, fun _ i h1 h2 => ?_⟩
          · simp at hi
            show (if _ then _ else _) = _
            rw [if_neg (by omega), H.elements i (by omega)]; simp
          · show (if _ then _ else _) = _
            simp [hn] at h1
            by_cases h3 : i < l.length
            · rw [if_pos (by omega)]
            · rw [if_neg (by omega)]
              exact H.rest rfl i (by omega) h2
        · by_cases e : c = b
          · subst e; rw [withBlock_block]; rfl
          · rw [withBlock_ne _ _ e]

theorem destroy_eq {h : Heap V} {a : Arr} {v : Option (Kind × List V)} (r : Rep h a v) :
    ∃ h', a.destroy h = some h' ∧ Upd h h' a .empty none ∧ Acc h h' a .empty := by
  cases v with
  | none =>
    have : a = Arr.empty := r
    subst this
    exact ⟨h, rfl, ⟨rfl, Same.refl _ _, rfl, fun b hb => by simp [Arr.empty] at hb⟩,
      fun b hb hf => Or.inr ⟨hb, hf, by simp [Arr.empty]⟩⟩
  | some p =>
    obtain ⟨k, l⟩ := p
    have t : Typed h a k l := r
    obtain ⟨h1, e1, e2, e3, t1, s1, f1⟩ := destroyRange_eq t (Nat.zero_le _)
    have key : a.destroy h = h1.free a.data := by
      unfold Arr.destroy
      rw [t.type_eq]
      dsimp only
      by_cases h0 : a.size = 0
      · have : h1 = h := by
          have e1' := e1
          rw [h0] at e1'
          cases k <;> simpa [destroyRange, eq_comm] using e1'
        rw [if_neg (by omega), this]
      · rw [if_pos h0]
        rw [Nat.sub_zero] at e1
        rw [e1]; rfl
    rw [key]
    cases hd : a.data with
    | none =>
      refine ⟨h1, rfl, ⟨rfl, hd ▸ s1, e2, fun b hb => by simp [Arr.empty] at hb⟩, fun b hb hf => ?_⟩
      exact Or.inr ⟨e3 ▸ hb, (f1 b) ▸ hf, by rw [hd]; simp⟩
    | some b =>
      have hb := t1.below b hd
      refine ⟨_, free_eq hb (t1.holds b hd) (fun _ => by simp), ?_, ?_⟩
      · refine ⟨rfl, by rw [hd] at s1 ⊢; exact s1.trans (same_withBlock _ _ _), e2,
          fun c hc => by simp [Arr.empty] at hc⟩
      · intro c hc hf
        by_cases e : c = b
        · subst e; rw [withBlock_block] at hf; simp [Block.release] at hf
        · rw [withBlock_ne _ _ e, f1] at hf
          exact Or.inr ⟨e3 ▸ hc, hf, by rw [hd]; simp; omega⟩

/-- a new block -/
theorem alloc_block (h : Heap V) (k : Kind) (cap : ℕ) :
    (h.alloc k cap).1.block h.next = ⟨cap, k, fun _ => .raw, false⟩ := by
  simp [Heap.alloc]

theorem alloc_ne (h : Heap V) (k : Kind) (cap : ℕ) {b : ℕ} (hb : b ≠ h.next) :
    (h.alloc k cap).1.block b = h.block b := by
  simp [Heap.alloc, hb]

theorem alloc_same (h : Heap V) (k : Kind) (cap : ℕ) (d) : Same h (h.alloc k cap).1 d :=
  ⟨Nat.le_succ _, fun b hb _ => alloc_ne h k cap (by omega)⟩

/-- elements in a new block -/
theorem fresh_holds {B : Block V} {cap : ℕ} {k : Kind} (hB : B = ⟨cap, k, fun _ => .raw, false⟩)
    (l : List V) (f : ℕ → V) (hf : ∀ i (hi : i < l.length), f i = l[i]) :
    Holds (B.filled 0 f 0 l.length) cap k l := by
  subst hB
  refine ⟨rfl, rfl, rfl, fun i hi => ?_, fun _ i h1 _ => ?_⟩
  · show (if _ then _ else _) = _
    rw [if_pos (by omega), Nat.sub_zero, hf i hi]
  · show (if _ then _ else _) = _
    rw [if_neg (by omega)]

theorem fresh_upd {h : Heap V} {k : Kind} {cap : ℕ} {l : List V} (hl : l.length ≤ cap) {B : Block V}
    (hB : Holds B cap k l) {h' : Heap V} (e : h' = (h.alloc k cap).1.withBlock h.next B) :
    Upd h h' .empty ⟨some k, l.length, cap, some h.next⟩ (some (k, l)) ∧
    Acc h h' .empty ⟨some k, l.length, cap, some h.next⟩ := by
  subst e
  refine ⟨⟨?_, ?_, rfl, fun b hb => Or.inr ?_⟩, fun b hb hf => ?_⟩
  · refine ⟨rfl, rfl, hl, fun e => by simp at e, fun b hb => ?_, fun b hb => ?_⟩
    · cases hb; exact Nat.lt_succ_self _
    · cases hb; rw [withBlock_block]; exact hB
  · refine ⟨Nat.le_succ _, fun b hb _ => ?_⟩
    have e : b ≠ h.next := by omega
    rw [withBlock_ne _ _ e, alloc_ne _ _ _ e]
  · cases hb; exact le_rfl
  · by_cases e : b = h.next
    · exact Or.inl (by rw [e])
    · rw [withBlock_ne _ _ e, alloc_ne _ _ _ e] at hf
      have : b < h.next + 1 := hb
      exact Or.inr ⟨by omega, hf, by simp [Arr.empty]⟩

theorem make_eq (zero : V) (h : Heap V) (k : Kind) (n : ℕ) :
    ∃ h' a', Arr.make zero h k n = some (h', a') ∧
      Upd h h' .empty a' (some (k, List.replicate n zero)) ∧ Acc h h' .empty a' := by
  unfold Arr.make
  by_cases hn : n = 0
  · subst hn
    refine ⟨h, _, by simp; rfl, ⟨?_, Same.refl _ _, rfl, fun b hb => by simp at hb⟩,
      fun b hb hf => Or.inr ⟨hb, hf, by simp [Arr.empty]⟩⟩
    exact ⟨rfl, rfl, le_rfl, fun _ => rfl, fun b hb => by simp at hb, fun b hb => by simp at hb⟩
  · rw [if_pos hn]
    have hl : (List.replicate n zero).length = n := List.length_replicate
    have hB := fresh_holds (alloc_block h k n) (List.replicate n zero) (fun _ => zero) (by simp)
    obtain ⟨u, w⟩ := fresh_upd (h := h) (l := List.replicate n zero) (by rw [hl]) hB rfl
    rw [hl] at u w
    refine ⟨_, _, ?_, u, w⟩
    show Option.map _ (copyOrFill zero k (h.alloc k n).1 (some h.next) 0 none n true) = _
    unfold copyOrFill
    rw [if_neg hn]
    dsimp only
    rw [putLoop_eq (f := fun _ => zero) (by exact Nat.lt_succ_self _) (by rw [alloc_block])
      (by rw [alloc_block]; simp) (fun i _ _ => Or.inr ⟨rfl, by rw [alloc_block]⟩)
      (fun _ _ _ _ => rfl)]
    rfl

theorem read_holds {h : Heap V} {b cap : ℕ} {k : Kind} {l : List V} (hb : b < h.next)
    (H : Holds (h.block b) cap k l) (hl : l.length ≤ cap) {i : ℕ} (hi : i < l.length) :
    h.read b i = some l[i] := by
  unfold Heap.read
  rw [cell_eq hb H.inUse (by rw [H.cap_eq]; omega), H.elements i hi]

/-- The copy of the elements of an array to a new block.  For elements that own memory and `uninit` not set
there must be none. -/
theorem copy_eq {zero : V} {h : Heap V} {k : Kind} {l : List V} {data : Option ℕ} {ocap cap : ℕ}
    (hl : l.length ≤ cap) (ho : l.length ≤ ocap) (hn : data = none → l = [])
    (hbelow : ∀ b, data = some b → b < h.next)
    (H : ∀ b, data = some b → Holds (h.block b) ocap k l) (u : Bool)
    (hu : u = true ∨ k = .plain ∨ l = []) :
    ∃ B, copyOrFill zero k (h.alloc k cap).1 (some h.next) 0 data l.length u =
      some ((h.alloc k cap).1.withBlock h.next B) ∧ Holds B cap k l := by
  by_cases h0 : l.length = 0
  · have hl0 : l = [] := List.length_eq_zero_iff.1 h0
    subst hl0
    refine ⟨_, ?_, fresh_holds (alloc_block h k cap) [] (fun _ => zero) (by simp)⟩
    simp only [copyOrFill, List.length_nil, if_true]
    congr 1
    rw [alloc_block]
    simp only [Heap.withBlock, Block.filled, Heap.alloc]
    congr 1
    rw [Function.update_idem]
    congr 2
  · cases hd : data with
    | none => exact absurd (hn hd) (by intro e; rw [e] at h0; exact h0 rfl)
    | some b =>
      have hb := hbelow b hd
      have Hb := H b hd
      refine ⟨_, ?_, fresh_holds (alloc_block h k cap) l
        (fun i => (l[i]?).getD zero) (by intro i hi; simp [hi])⟩
      unfold copyOrFill
      rw [if_neg h0]
      dsimp only
      refine putLoop_eq (by exact Nat.lt_succ_self _) (by rw [alloc_block])
        (by rw [alloc_block]; show 0 + 0 + l.length ≤ cap; omega) (fun i _ _ => ?_) (fun B i _ hi => ?_)
      · rcases hu with hu | hu | hu
        · exact Or.inr ⟨hu, by rw [alloc_block]⟩
        · exact Or.inl hu
        · rw [hu] at h0; exact absurd rfl h0
      · have e : ((h.alloc k cap).1.withBlock h.next B).block b = h.block b := by
          rw [withBlock_ne _ _ (by omega), alloc_ne _ _ _ (by omega)]
        have hi' : i < l.length := by omega
        rw [read_holds (h := (h.alloc k cap).1.withBlock h.next B) (k := k) (l := l) (cap := ocap)
          (Nat.lt_succ_of_lt hb) (by rw [e]; exact Hb) ho hi']
        simp [hi']

theorem copyFrom_eq (zero : V) {h : Heap V} {a : Arr} {k : Kind} {l : List V} (t : Typed h a k l) :
    ∃ h' a', a.copyFrom zero h false = some (h', a') ∧
      Upd h h' .empty a' (some (k, l)) ∧ Acc h h' .empty a' := by
  have hs := t.size_eq
  have hle : l.length ≤ a.cap := hs ▸ t.size_le
  obtain ⟨B, e, hB⟩ := copy_eq (zero := zero) (cap := a.cap) hle hle (fun e => by
    have := t.noData e
    exact List.length_eq_zero_iff.1 (by omega)) t.below t.holds true (Or.inl rfl)
  obtain ⟨u, w⟩ := fresh_upd (h := h) hle hB rfl
  refine ⟨_, _, ?_, u, w⟩
  unfold Arr.copyFrom
  rw [t.type_eq]
  show Option.map _ (copyOrFill zero k (h.alloc k a.cap).1 (some h.next) 0 a.data a.size true) = _
  rw [hs, e]
  rfl

theorem reserve_eq (zero : V) {h : Heap V} {a : Arr} {k : Kind} {l : List V} (t : Typed h a k l) (n : ℕ)
    (hk : k = .managed → a.size = 0 ∨ n ≤ a.cap) :
    ∃ h' a', a.reserve zero h k n = some (h', a') ∧
      Upd h h' a a' (some (k, l)) ∧ Acc h h' a a' ∧ n ≤ a'.cap := by
  unfold Arr.reserve
  by_cases hn : n > a.cap
  · rw [if_pos hn]
    have hs := t.size_eq
    have hle : l.length ≤ a.cap := hs ▸ t.size_le
    have hkl : k = .managed → l = [] := fun e =>
      List.length_eq_zero_iff.1 (by have := hk e; omega)
    have hu : false = true ∨ k = .plain ∨ l = [] := by
      cases k with
      | plain => exact Or.inr (Or.inl rfl)
      | managed => exact Or.inr (Or.inr (hkl rfl))
    obtain ⟨B, e, hB⟩ := copy_eq (zero := zero) (cap := n) (by omega) hle (fun e => by
      have := t.noData e
      exact List.length_eq_zero_iff.1 (by omega)) t.below t.holds false hu
    obtain ⟨u, w⟩ := fresh_upd (h := h) (cap := n) (by omega) hB rfl
    have ha : ({ a with cap := n, data := some h.next } : Arr) = ⟨some k, l.length, n, some h.next⟩ := by
      rw [← t.type_eq, ← hs]
    dsimp only [Heap.alloc] at e ⊢
    rw [hs, e, Option.bind_some, ← hs, ha]
    cases hd : a.data with
    | none =>
      refine ⟨_, _, rfl, u.over a, fun b hb hf => ?_, le_rfl⟩
      rcases w b hb hf with h1 | ⟨h1, h2, -⟩
      · exact Or.inl h1
      · exact Or.inr ⟨h1, h2, by rw [hd]; simp⟩
    | some b =>
      have hb := t.below b hd
      have hne : b ≠ h.next := by omega
      have eb : ((h.alloc k n).1.withBlock h.next B).block b = h.block b := by
        rw [withBlock_ne _ _ hne, alloc_ne _ _ _ hne]
      have hf := free_eq (h := (h.alloc k n).1.withBlock h.next B) (b := b) (k := k) (l := l) (cap := a.cap)
        (Nat.lt_succ_of_lt hb) (by rw [eb]; exact t.holds b hd) hkl
      have hf' := hf
      dsimp only [Heap.alloc] at hf'
      rw [hf']
      refine ⟨_, _, rfl, ⟨?_, ?_, ?_, fun c hc => Or.inr ?_⟩, fun c hc hfr => ?_, le_rfl⟩
      · exact u.rep.mono (same_withBlock _ _ _) (by
          intro c hc e; cases hc; cases e; exact hne rfl)
      · refine ⟨u.same.next_le, fun c hc hcd => ?_⟩
        rw [hd] at hcd
        rw [withBlock_ne _ _ (fun e => hcd (by rw [e]))]
        exact u.same.block_eq c hc (by simp [Arr.empty])
      · exact u.lost
      · cases hc; exact le_rfl
      · by_cases ec : c = b
        · subst ec; rw [withBlock_block] at hfr; simp [Block.release] at hfr
        · rw [withBlock_ne _ _ ec] at hfr
          rcases w c hc hfr with h1 | ⟨h1, h2, -⟩
          · exact Or.inl h1
          · exact Or.inr ⟨h1, h2, by rw [hd]; simp; omega⟩
  · rw [if_neg hn]
    refine ⟨h, a, rfl, ⟨t, Same.refl _ _, rfl, fun b hb => Or.inl hb⟩, fun b hb hf => ?_, by omega⟩
    by_cases e : a.data = some b
    · exact Or.inl e
    · exact Or.inr ⟨hb, hf, e⟩

theorem resize_eq (zero : V) {h : Heap V} {a : Arr} {k : Kind} {l : List V} (t : Typed h a k l) (n : ℕ)
    (hk : k = .managed → a.size = 0 ∨ n ≤ a.cap) :
    ∃ h' a', a.resize zero h k n = some (h', a') ∧
      Upd h h' a a' (some (k, toLength zero l n)) ∧ Acc h h' a a' ∧ (n ≤ a.cap → a'.data = a.data ∧ a'.cap = a.cap) := by
  have hs := t.size_eq
  unfold Arr.resize
  by_cases h1 : n < a.size
  · rw [if_pos h1]
    obtain ⟨h', e1, e2, e3, t', s', f'⟩ := destroyRange_eq t (n := n) (by omega)
    rw [e1]
    refine ⟨_, _, rfl, ⟨?_, s', e2, fun b hb => Or.inl hb⟩, fun b hb hf => ?_, fun _ => ⟨rfl, rfl⟩⟩
    · have : toLength zero l n = l.take n := by
        simp [toLength, show n - l.length = 0 by omega]
      rw [this]; exact t'
    · by_cases e : a.data = some b
      · exact Or.inl e
      · exact Or.inr ⟨e3 ▸ hb, f' b ▸ hf, e⟩
  · rw [if_neg h1]
    by_cases h2 : n > a.size
    · rw [if_pos h2]
      obtain ⟨h', a', e1, u, w, hc⟩ := reserve_eq zero t n hk
      rw [e1, Option.bind_some]
      dsimp only
      have t' : Typed h' a' k l := u.rep
      have hs' := t'.size_eq
      cases hd : a'.data with
      | none => have := t'.noData hd; omega
      | some b =>
        have hb := t'.below b hd
        have H := t'.holds b hd
        have hn0 : n - a'.size ≠ 0 := by omega
        unfold copyOrFill
        rw [if_neg hn0]
        dsimp only
        rw [putLoop_eq (f := fun _ => zero) hb H.inUse (by rw [H.cap_eq]; omega) (fun i h3 h4 => by
          cases k with
          | plain => exact Or.inl rfl
          | managed => exact Or.inr ⟨rfl, H.rest rfl i (by omega) (by omega)⟩) (fun _ _ _ _ => rfl)]
        have hlen : (toLength zero l n).length = n := by simp [toLength]; omega
        refine ⟨_, _, rfl, u.trans (v1 := some (k, l)) ⟨?_, ?_, rfl, fun c hc => Or.inl (hd.trans hc)⟩,
          w.trans (fun c hc hf => ?_), fun hna => ?_⟩
        · refine ⟨t'.type_eq, hlen.symm, hc, fun e => (by cases e), fun c hc => (by cases hc; exact hb),
            fun c hcd => ?_⟩
          cases hcd
          rw [withBlock_block]
          refine ⟨H.cap_eq, H.kind_eq, H.inUse, fun i hi => ?_, fun hm i h3 h4 => ?_⟩
          · show (if _ then _ else _) = _
            by_cases h3 : i < l.length
            · rw [if_neg (by omega), H.elements i h3]
              have htk : l.take n = l := List.take_of_length_le (by omega)
              simp [toLength, htk, List.getElem_append_left h3]
            · rw [if_pos (by omega)]
              have htk : l.take n = l := List.take_of_length_le (by omega)
              simp [toLength, htk, List.getElem_append_right (by omega : l.length ≤ i)]
          · rw [hlen] at h3
            show (if _ then _ else _) = _
            rw [if_neg (by omega)]
            exact H.rest hm i (by omega) h4
        · rw [hd]; exact same_withBlock _ _ _
        · by_cases e : c = b
          · exact Or.inl (by rw [e])
          · rw [withBlock_ne _ _ e] at hf
            exact Or.inr ⟨hc, hf, by rw [hd]; simp; omega⟩
        · have : a.reserve zero h k n = some (h, a) := by
            unfold Arr.reserve; rw [if_neg (by omega)]
          rw [this] at e1
          simp only [Option.some.injEq, Prod.mk.injEq] at e1
          obtain ⟨-, rfl⟩ := e1
          exact ⟨hd.symm, rfl⟩
    · rw [if_neg h2]
      have hn : n = a.size := by omega
      subst hn
      have : toLength zero l a.size = l := by simp [toLength, hs]
      rw [this]
      refine ⟨h, a, rfl, ⟨t, Same.refl _ _, rfl, fun b hb => Or.inl hb⟩, fun b hb hf => ?_,
        fun _ => ⟨rfl, rfl⟩⟩
      by_cases e : a.data = some b
      · exact Or.inl e
      · exact Or.inr ⟨hb, hf, e⟩

end RoughPy.GenArr
