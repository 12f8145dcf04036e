import Verif.Sound.Spec
import Verif.Streams.CellLemmas
import Verif.Streams.Props
import Mathlib.Tactic.Linarith
import Mathlib.Tactic.FieldSimp

/-!
# Lemmas about streams over sound files
-/

namespace RoughPy.Sound

open RoughPy.Intervals RoughPy.Streams RoughPy.Schema

/-- The channel types of a schema. -/
abbrev kindsOf (s : Schema) : List Channel := s.channels.map fun c => c.2

theorem foldl_width (l : List (Str × Channel)) (h : ∀ c ∈ l, c.2 = .increment false ∨ c.2 = .value false)
    (n : ℕ) : l.foldl (fun n c => n + c.2.numVariants) n = n + l.length := by
  induction l generalizing n with
  | nil => rfl
  | cons c l ih =>
    rw [List.foldl_cons, ih fun c hc => h c (List.mem_cons_of_mem _ hc)]
    have : c.2.numVariants = 1 := by
      rcases h c List.mem_cons_self with h | h <;> rw [h] <;> rfl
    rw [this, List.length_cons]
    omega

theorem widthTo_plain (s : Schema) (h : ∀ c ∈ s.channels, c.2 = .increment false ∨ c.2 = .value false)
    (i : ℕ) (hi : i ≤ s.channels.length) : s.widthTo i = i := by
  unfold Schema.widthTo
  rw [foldl_width _ (fun c hc => h c (List.mem_of_mem_take hc)), List.length_take]
  omega

theorem width_plain (s : Schema) (f : SoundFile) (h : PlainFor s f) : s.width = f.channels := by
  unfold Schema.width Schema.widthWithoutParam
  rw [h.noTime, widthTo_plain s h.kinds _ le_rfl, h.count]
  rfl

theorem movement_length (chans : List Channel) (a b : List ℚ) (n : ℕ) (h1 : chans.length = n)
    (h2 : a.length = n) (h3 : b.length = n) : (movement chans a b).length = n := by
  simp [movement, h1, h2, h3]

theorem writeRow_eq (s : Schema) (f : SoundFile) (h : PlainFor s f) (cur prev : List ℚ)
    (hc : cur.length = f.channels) (hp : prev.length = f.channels) :
    ∀ (cs pre : List (Str × Channel)) (w : List ℚ), s.channels = pre ++ cs →
      w.length = f.channels →
      writeRow s cur prev cs pre.length w = some (w.take pre.length ++
        movement (cs.map fun c => c.2) (prev.drop pre.length) (cur.drop pre.length)) := by
  intro cs
  induction cs with
  | nil =>
    intro pre w hs hw
    have := h.count
    rw [hs, List.append_nil] at this
    simp only [writeRow, List.map_nil, movement, List.zipWith_nil_left, List.append_nil]
    rw [List.take_of_length_le (by omega)]
  | cons c cs ih =>
    intro pre w hs hw
    obtain ⟨name, chan⟩ := c
    have hl : pre.length < f.channels := by
      rw [← h.count, hs]; simp
    have hd : s.channelToStreamDim pre.length = some pre.length := by
      unfold Schema.channelToStreamDim
      rw [if_pos (by rw [h.count]; exact hl), widthTo_plain s h.kinds _ (by rw [h.count]; exact hl.le)]
    have hcur : cur[pre.length]? = some (cur[pre.length]'(by omega)) := List.getElem?_eq_getElem _
    have hprev : prev[pre.length]? = some (prev[pre.length]'(by omega)) := List.getElem?_eq_getElem _
    have hdc : cur.drop pre.length = cur[pre.length]'(by omega) :: cur.drop (pre.length + 1) :=
      List.drop_eq_getElem_cons _
    have hdp : prev.drop pre.length = prev[pre.length]'(by omega) :: prev.drop (pre.length + 1) :=
      List.drop_eq_getElem_cons _
    have ih' := fun w' hw' => ih (pre ++ [(name, chan)]) w' (by rw [hs]; simp) hw'
    simp only [List.length_append, List.length_cons, List.length_nil, Nat.zero_add] at ih'
    have htake : ∀ x : ℚ, (w.set pre.length x).take (pre.length + 1) = w.take pre.length ++ [x] := by
      intro x
      rw [List.take_succ_eq_append_getElem (by rw [List.length_set]; omega), List.getElem_set_self,
        List.take_set_of_le (le_refl _)]
    simp only [writeRow, hd, hcur, Option.bind_eq_bind, Option.bind_some]
    rcases hv : isValue chan with _ | _
    · simp only [Bool.false_eq_true, if_false, Option.bind_some]
      rw [if_pos (by omega), ih' _ (by rw [List.length_set]; exact hw), htake]
      rw [hdc, hdp]
      simp only [movement, List.map_cons, List.zip_cons_cons, List.zipWith_cons_cons, hv,
        Bool.false_eq_true, if_false, if_true, List.append_assoc, List.singleton_append]
    · simp only [if_true, hprev, Option.bind_some]
      rw [if_pos (by omega), ih' _ (by rw [List.length_set]; exact hw), htake]
      rw [hdc, hdp]
      simp only [movement, List.map_cons, List.zip_cons_cons, List.zipWith_cons_cons, hv,
        Bool.false_eq_true, if_false, if_true, List.append_assoc, List.singleton_append]

/-- Consecutive frames. -/
abbrev steps (f : SoundFile) : List (List ℚ × List ℚ) := f.frames.zip f.frames.tail

theorem steps_length (f : SoundFile) : (steps f).length = f.frames.length - 1 := by
  simp [steps]

theorem rowLoop_eq (s : Schema) (f : SoundFile) (hw : WellFormed f) (h : PlainFor s f) :
    ∀ (n p : ℕ) (prev working out : List ℚ), f.frames[p]? = some prev → p + n < f.frames.length →
      working.length = f.channels →
      rowLoop s n ⟨f, p + 1⟩ prev working out =
        some (out ++ (((steps f).drop p).take n).flatMap fun q => movement (kindsOf s) q.1 q.2,
          ⟨f, p + 1 + n⟩) := by
  intro n
  induction n with
  | zero => intro p prev working out _ _ _; simp [rowLoop]
  | succ n ih =>
    intro p prev working out hp hn hwl
    have hcur : f.frames[p + 1]? = some (f.frames[p + 1]'(by omega)) := List.getElem?_eq_getElem _
    set cur := f.frames[p + 1]'(by omega) with hcurdef
    have hread : Handle.readf ⟨f, p + 1⟩ = (cur, ⟨f, p + 1 + 1⟩) := by
      unfold Handle.readf
      simp only [hcur]
    have hpl : prev.length = f.channels := hw.frames _ (List.mem_of_getElem? hp)
    have hcl : cur.length = f.channels := hw.frames _ (List.getElem_mem _)
    have hrow := writeRow_eq s f h cur prev hcl hpl s.channels [] working rfl hwl
    simp only [List.length_nil, List.take_zero, List.nil_append, List.drop_zero] at hrow
    simp only [rowLoop, hread, hrow]
    rw [ih (p + 1) cur _ _ hcur (by omega)
      (movement_length _ _ _ _ (by rw [List.length_map]; exact h.count) hpl hcl)]
    have hstep : (steps f).drop p = (prev, cur) :: (steps f).drop (p + 1) := by
      rw [List.drop_eq_getElem_cons (by rw [steps_length]; omega)]
      congr 1
      have hpp : p < f.frames.length := by omega
      have : prev = f.frames[p] := by
        rw [List.getElem?_eq_getElem hpp] at hp
        exact (Option.some.inj hp).symm
      simp [steps, this, hcurdef]
    rw [hstep, List.take_succ_cons, List.flatMap_cons, List.append_assoc]
    simp only [Option.some.injEq, Prod.mk.injEq, Handle.mk.injEq, true_and]
    omega

theorem zipIdx_filter_range {α : Type} (l : List α) : ∀ (n : ℕ) (lo hi : ℤ),
    (l.zipIdx n).filter (fun p => decide (lo ≤ (p.2 : ℤ) ∧ (p.2 : ℤ) < hi)) =
      ((l.zipIdx n).drop (lo - n).toNat).take (hi - max lo n).toNat := by
  induction l with
  | nil => intro n lo hi; simp
  | cons a l ih =>
    intro n lo hi
    rw [List.zipIdx_cons, List.filter_cons, ih]
    push_cast
    by_cases h1 : lo ≤ (n : ℤ)
    · have e1 : (lo - n).toNat = 0 := by omega
      have e2 : (lo - (n + 1)).toNat = 0 := by omega
      rw [e1, e2, List.drop_zero, List.drop_zero, max_eq_right h1, max_eq_right (by omega)]
      by_cases h2 : (n : ℤ) < hi
      · rw [if_pos (by simpa using ⟨h1, h2⟩), show (hi - (n : ℤ)).toNat = (hi - (n + 1)).toNat + 1 by omega,
          List.take_succ_cons]
      · rw [if_neg (by simp; omega), show (hi - (n : ℤ)).toNat = 0 by omega,
          show (hi - ((n : ℤ) + 1)).toNat = 0 by omega]
        simp
    · rw [if_neg (by simp; omega), show (lo - (n : ℤ)).toNat = (lo - (n + 1)).toNat + 1 by omega,
        List.drop_succ_cons, max_eq_left (by omega), max_eq_left (by omega)]

theorem mem_Ico_frame (f : SoundFile) (hr : 0 < f.rate) (a b : ℚ) (k : ℕ) :
    ((k : ℚ) / (f.rate : ℚ) ∈ Set.Ico a b) ↔
      (paramToFrame f a ≤ (k : ℤ) ∧ (k : ℤ) < paramToFrame f b) := by
  have hr' : (0 : ℚ) < f.rate := by exact_mod_cast hr
  unfold paramToFrame
  rw [sub_zero, mul_one, sub_zero, mul_one, Int.ceil_le, Int.lt_ceil, Set.mem_Ico, le_div_iff₀ hr',
    div_lt_iff₀ hr']
  push_cast
  exact Iff.rfl

theorem movements_in (chans : List Channel) (f : SoundFile) (hr : 0 < f.rate) (a b : ℚ) :
    (eventsIn (movements chans f) (Set.Ico a b)).map (fun r => r.2) =
      (((steps f).drop (paramToFrame f a - 1).toNat).take
        (paramToFrame f b - max (paramToFrame f a) 1).toNat).map fun q => movement chans q.1 q.2 := by
  unfold eventsIn movements
  rw [List.filter_map, List.map_map]
  have : ((f.frames.zip f.frames.tail).zipIdx.filter
      ((fun r : ℚ × List ℚ => @decide (r.1 ∈ Set.Ico a b) (Classical.propDecidable _)) ∘ fun p =>
        (((p.2 + 1 : ℕ) : ℚ) / (f.rate : ℚ), movement chans p.1.1 p.1.2))) =
      (f.frames.zip f.frames.tail).zipIdx.filter fun p =>
        decide (paramToFrame f a - 1 ≤ (p.2 : ℤ) ∧ (p.2 : ℤ) < paramToFrame f b - 1) := by
    apply List.filter_congr
    intro p _
    simp only [Function.comp_apply]
    have := mem_Ico_frame f hr a b (p.2 + 1)
    push_cast at this ⊢
    have h2 : ((p.2 : ℚ) + 1) / (f.rate : ℚ) ∈ Set.Ico a b ↔
        (paramToFrame f a - 1 ≤ (p.2 : ℤ) ∧ (p.2 : ℤ) < paramToFrame f b - 1) := by
      rw [this]; constructor <;> intro h <;> omega
    by_cases hh : ((p.2 : ℚ) + 1) / (f.rate : ℚ) ∈ Set.Ico a b
    · simp only [hh, decide_true, h2.1 hh, and_self]
    · have hn := fun h => hh (h2.2 h)
      simp only [hh, decide_false]
      exact (decide_eq_false hn).symm
  rw [this, zipIdx_filter_range]
  have e : ((fun r : ℚ × List ℚ => r.2) ∘ fun p : (List ℚ × List ℚ) × ℕ =>
      (((p.2 + 1 : ℕ) : ℚ) / (f.rate : ℚ), movement chans p.1.1 p.1.2)) =
      (fun q : List ℚ × List ℚ => movement chans q.1 q.2) ∘ Prod.fst := rfl
  rw [e, ← List.map_map, List.map_take, List.map_drop, List.zipIdx_map_fst]
  have e1 : (paramToFrame f a - 1 - ((0 : ℕ) : ℤ)).toNat = (paramToFrame f a - 1).toNat := by omega
  have e2 : (paramToFrame f b - 1 - max (paramToFrame f a - 1) ((0 : ℕ) : ℤ)).toNat =
      (paramToFrame f b - max (paramToFrame f a) 1).toNat := by omega
  rw [e1, e2]

theorem movements_chronological (chans : List Channel) (f : SoundFile) (hr : 0 < f.rate) :
    Chronological (movements chans f) := by
  unfold Chronological movements
  have hr' : (0 : ℚ) < f.rate := by exact_mod_cast hr
  rw [List.pairwise_map, List.pairwise_iff_getElem]
  intro i j hi hj hij
  simp only [List.getElem_zipIdx, Nat.zero_add]
  apply div_lt_div_of_pos_right _ hr'
  exact_mod_cast Nat.succ_lt_succ hij

theorem cutRows_eq (w : ℕ) : ∀ (rows : List (List ℚ)), (∀ r ∈ rows, r.length = w) →
    cutRows w rows.length rows.flatten = some rows := by
  intro rows
  induction rows with
  | nil => intro _; rfl
  | cons r rows ih =>
    intro h
    have hr := h r List.mem_cons_self
    simp only [List.length_cons, cutRows, List.flatten_cons]
    rw [if_neg (by rw [List.length_append]; omega), List.take_left' hr, List.drop_left' hr,
      ih fun r hr => h r (List.mem_cons_of_mem _ hr)]
    rfl

end RoughPy.Sound
