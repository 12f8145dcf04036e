import Verif.GenArr.Spec
import Mathlib.Tactic.SplitIfs
import Mathlib.Tactic.Use
import Mathlib.Order.Nat
import Mathlib.Tactic.Ring

/-! # Lemmas for C156 -/

namespace RoughPy.GenArr

variable {V : Type}

/-- the block holds the elements, and no objects behind them that own memory -/
structure Holds (B : Block V) (cap : ℕ) (k : Kind) (l : List V) : Prop where
  cap_eq : B.cap = cap
  kind_eq : B.kind = k
  inUse : B.freed = false
  elements : ∀ i (hi : i < l.length), B.cells i = .live l[i]
  rest : k = .managed → ∀ i, l.length ≤ i → i < cap → B.cells i = .raw

/-- what an array with the given elements looks like -/
structure Typed (h : Heap V) (a : Arr) (k : Kind) (l : List V) : Prop where
  type_eq : a.type = some k
  size_eq : a.size = l.length
  size_le : a.size ≤ a.cap
  noData : a.data = none → a.cap = 0
  below : ∀ b, a.data = some b → b < h.next
  holds : ∀ b, a.data = some b → Holds (h.block b) a.cap k l

def Rep (h : Heap V) (a : Arr) : Option (Kind × List V) → Prop
  | none => a = Arr.empty
  | some (k, l) => Typed h a k l

/-- nothing has changed in memory but the block `d` and new blocks -/
structure Same (h h' : Heap V) (d : Option ℕ) : Prop where
  next_le : h.next ≤ h'.next
  block_eq : ∀ b, b < h.next → some b ≠ d → h'.block b = h.block b

theorem Same.refl (h : Heap V) (d) : Same h h d := ⟨le_rfl, fun _ _ _ => rfl⟩

theorem Same.trans {h h' h'' : Heap V} {d} (a : Same h h' d) (b : Same h' h'' d) : Same h h'' d :=
  ⟨a.next_le.trans b.next_le, fun c hc hd =>
    (b.block_eq c (lt_of_lt_of_le hc a.next_le) hd).trans (a.block_eq c hc hd)⟩

/-- a change of a block that was not there before -/
theorem Same.fresh {h h' : Heap V} {b : ℕ} (a : Same h h' (some b)) (hb : h.next ≤ b) (d) : Same h h' d :=
  ⟨a.next_le, fun c hc _ => a.block_eq c hc (by intro e; cases e; omega)⟩

theorem Rep.mono {h h' : Heap V} {a : Arr} {v : Option (Kind × List V)} {d}
    (hr : Rep h a v) (hs : Same h h' d) (hd : ∀ b, a.data = some b → some b ≠ d) : Rep h' a v := by
  cases v with
  | none => exact hr
  | some p =>
    obtain ⟨k, l⟩ := p
    have hr : Typed h a k l := hr
    refine ⟨hr.type_eq, hr.size_eq, hr.size_le, hr.noData, fun b hb => ?_, fun b hb => ?_⟩
    · exact lt_of_lt_of_le (hr.below b hb) hs.next_le
    · rw [hs.block_eq b (hr.below b hb) (hd b hb)]; exact hr.holds b hb

/-- the memory with a block replaced -/
def Heap.withBlock (h : Heap V) (b : ℕ) (B : Block V) : Heap V :=
  ⟨h.next, Function.update h.block b B, h.lost⟩

theorem same_withBlock (h : Heap V) (b : ℕ) (B : Block V) : Same h (h.withBlock b B) (some b) :=
  ⟨le_rfl, fun c _ hc => Function.update_of_ne (fun e => hc (by rw [e])) _ _⟩

/-- the block with values in a range -/
def Block.filled (B : Block V) (off : ℕ) (f : ℕ → V) (j n : ℕ) : Block V :=
  ⟨B.cap, B.kind, fun i => if off + j ≤ i ∧ i < off + j + n then .live (f (i - off)) else B.cells i, B.freed⟩

theorem cell_eq {h : Heap V} {b i : ℕ} (hb : b < h.next) (hf : (h.block b).freed = false)
    (hi : i < (h.block b).cap) : h.cell b i = some ((h.block b).cells i) := by
  simp [Heap.cell, hb, hf, hi]

theorem put_eq {h : Heap V} {k : Kind} {u : Bool} {b i : ℕ} {v : V} (hb : b < h.next)
    (hf : (h.block b).freed = false) (hi : i < (h.block b).cap)
    (hk : k = .plain ∨ (u = true ∧ (h.block b).cells i = .raw) ∨
      (u = false ∧ ∃ w, (h.block b).cells i = .live w)) :
    h.put k u b i v = some (h.withBlock b ((h.block b).filled i (fun _ => v) 0 1)) := by
  have e : h.setCell b i (.live v) = h.withBlock b ((h.block b).filled i (fun _ => v) 0 1) := by
    simp only [Heap.setCell, Heap.withBlock, Block.filled]
    congr 3
    funext x
    by_cases hx : x = i
    · subst hx; simp
    · rw [Function.update_of_ne hx, if_neg (by omega)]
  rw [← e]
  unfold Heap.put
  rw [cell_eq hb hf hi]
  rcases hk with rfl | ⟨rfl, hc⟩ | ⟨rfl, w, hc⟩
  · rfl
  · rw [hc]; cases k <;> rfl
  · rw [hc]; cases k <;> rfl

theorem putLoop_eq {k : Kind} {u : Bool} {b off : ℕ} {source : ℕ → Heap V → Option V} {f : ℕ → V} :
    ∀ {n j : ℕ} {h : Heap V}, b < h.next → (h.block b).freed = false →
      off + j + n ≤ (h.block b).cap →
      (∀ i, off + j ≤ i → i < off + j + n → k = .plain ∨ (u = true ∧ (h.block b).cells i = .raw)) →
      (∀ B i, j ≤ i → i < j + n → source i (h.withBlock b B) = some (f i)) →
      putLoop k u b off source j n h = some (h.withBlock b ((h.block b).filled off f j n)) := by
  intro n
  induction n with
  | zero =>
    intro j h _ _ _ _ _
    simp only [putLoop, Heap.withBlock, Block.filled]
    congr 1
    have : (fun i => if off + j ≤ i ∧ i < off + j + 0 then Cell.live (f (i - off))
        else (h.block b).cells i) = (h.block b).cells := by
      funext i; rw [if_neg (by omega)]
    rw [this]
    cases h
    simp
  | succ n ih =>
    intro j h hb hf hc hk hs
    have hself : h.withBlock b (h.block b) = h := by cases h; simp [Heap.withBlock]
    have h0 := hs (h.block b) j le_rfl (by omega)
    rw [hself] at h0
    simp only [putLoop]
    rw [h0, Option.bind_some, put_eq hb hf (by omega) ((hk (off + j) le_rfl (by omega)).imp_right Or.inl),
      Option.bind_some]
    have hw : ∀ B B' : Block V, (h.withBlock b B).withBlock b B' = h.withBlock b B' := by
      intro B B'; simp [Heap.withBlock]
    have hbl : ∀ B : Block V, (h.withBlock b B).block b = B := by intro B; simp [Heap.withBlock]
    rw [ih (j := j + 1) (by exact hb) (by rw [hbl]; exact hf) (by rw [hbl]; simp only [Block.filled]; omega)
      (by
        intro i h1 h2
        rw [hbl]
        refine (hk i (by omega) (by omega)).imp_right fun ⟨e, hr⟩ => ⟨e, ?_⟩
        simp only [Block.filled]
        rw [if_neg (by omega)]; exact hr)
      (by
        intro B i h1 h2
        rw [hw]
        exact hs B i (by omega) (by omega)), hw, hbl]
    congr 2
    simp only [Block.filled]
    congr 1
    funext i
    by_cases h1 : off + j + 1 ≤ i ∧ i < off + j + 1 + n
    · rw [if_pos (by omega), if_pos (by omega)]
    · rw [if_neg (by omega)]
      by_cases h2 : i = off + j
      · subst h2
        rw [if_pos (by omega), if_pos (by omega)]
        congr 2
        omega
      · rw [if_neg (by omega), if_neg (by omega)]

/-- the block with a range cleared -/
def Block.cleared (B : Block V) (off n : ℕ) : Block V :=
  ⟨B.cap, B.kind, fun i => if off ≤ i ∧ i < off + n then .raw else B.cells i, B.freed⟩

theorem clearLoop_eq {b : ℕ} : ∀ {n off : ℕ} {h : Heap V}, b < h.next → (h.block b).freed = false →
    off + n ≤ (h.block b).cap → (∀ i, off ≤ i → i < off + n → ∃ v, (h.block b).cells i = .live v) →
    clearLoop b off n h = some (h.withBlock b ((h.block b).cleared off n)) := by
  intro n
  induction n with
  | zero =>
    intro off h _ _ _ _
    simp only [clearLoop, Heap.withBlock, Block.cleared]
    congr 1
    have : (fun i => if off ≤ i ∧ i < off + 0 then Cell.raw else (h.block b).cells i) =
        (h.block b).cells := by
      funext i; rw [if_neg (by omega)]
    rw [this]
    cases h
    simp
  | succ n ih =>
    intro off h hb hf hc hl
    obtain ⟨v, hv⟩ := hl off le_rfl (by omega)
    simp only [clearLoop]
    rw [cell_eq hb hf (by omega), hv]
    have hbl : (h.setCell b off .raw).block b =
        ⟨(h.block b).cap, (h.block b).kind, Function.update (h.block b).cells off .raw,
          (h.block b).freed⟩ := by simp [Heap.setCell]
    rw [ih (off := off + 1) (h := h.setCell b off .raw) hb (by rw [hbl]; exact hf)
      (by rw [hbl]; show _ ≤ (h.block b).cap; omega) (by
        intro i h1 h2
        rw [hbl]
        obtain ⟨w, hw⟩ := hl i (by omega) (by omega)
        exact ⟨w, by show Function.update _ _ _ i = _; rw [Function.update_of_ne (by omega)]; exact hw⟩),
      hbl]
    congr 1
    simp only [Heap.withBlock, Heap.setCell, Block.cleared, Function.update_idem]
    congr 4
    funext i
    by_cases h1 : off + 1 ≤ i ∧ i < off + 1 + n
    · rw [if_pos h1, if_pos (by omega)]
    · rw [if_neg h1]
      by_cases h2 : i = off
      · subst h2; rw [Function.update_self, if_pos (by omega)]
      · rw [Function.update_of_ne h2, if_neg (by omega)]

end RoughPy.GenArr
