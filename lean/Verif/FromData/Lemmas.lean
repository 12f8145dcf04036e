import Verif.FromData.Spec
import Verif.Ticks.Props
import Verif.Query.MetaLemmas
import Verif.Streams.TickProps

/-!
# Lemmas for streams made from tick data
-/

namespace RoughPy.FromData

open RoughPy.Intervals RoughPy.Schema RoughPy.Streams RoughPy.Query

/-! ## Keys of labels -/

theorem before_ones {cs : List (Str × Channel)} {i : ℕ} (hi : i ≤ cs.length)
    (h : ∀ c ∈ cs.take i, c.2.numVariants = 1) : before cs i = i := by
  unfold before
  have : (cs.take i).map (fun c => c.2.numVariants) = List.replicate i 1 := by
    rw [List.eq_replicate_iff]
    refine ⟨by simp [hi], ?_⟩
    intro b hb
    obtain ⟨c, hc, rfl⟩ := List.mem_map.1 hb
    exact h c hc
  rw [this]
  simp

/-- where a label of the data is found -/
theorem key_of_label {s : Schema} {L : List Str} {f : Str → Channel} {extra : List (Str × Channel)}
    (hc : s.channels = (L.map fun x => (x, f x)) ++ extra) (hf : ∀ x ∈ L, (f x).numVariants = 1)
    {l : Str} (hl : l ≠ []) (hp : PlainLabel l) (hm : l ∈ L) :
    s.find l = some (L.idxOf l) ∧ s.labelToStreamDim l = some (L.idxOf l) ∧
      s.channels[L.idxOf l]? = some (l, f l) := by
  have hlt : L.idxOf l < L.length := List.idxOf_lt_length_of_mem hm
  have hat : s.channels[L.idxOf l]? = some (l, f l) := by
    rw [hc, List.getElem?_append_left (by simpa using hlt), List.getElem?_map, List.getElem?_eq_getElem hlt]
    simp
  have hfind : s.find l = some (L.idxOf l) := by
    rw [find_iff]
    refine ⟨(l, f l), hat, Matches.refl hl, fun j hj c' hc' hmt => ?_⟩
    have hjl : j < L.length := hj.trans hlt
    rw [hc, List.getElem?_append_left (by simpa using hjl), List.getElem?_map, List.getElem?_eq_getElem hjl] at hc'
    have e := Option.some.inj hc'
    rw [← e] at hmt
    have := Ticks.matches_plain hp hmt
    dsimp only at this
    have hle : L.idxOf l ≤ j := by
      by_contra hn
      have := List.not_of_lt_findIdx (p := (· == l)) (xs := L) (i := j) (by
        have : L.idxOf l = L.findIdx (· == l) := rfl
        omega)
      simp_all
    omega
  refine ⟨hfind, ?_, hat⟩
  unfold Schema.labelToStreamDim
  rw [hfind]
  simp only [hat, List.drop_length, widthTo_eq]
  congr 1
  apply before_ones
  · rw [hc]; simp; omega
  · intro c hcm
    rw [hc, List.take_append_of_le_length (by simpa using hlt.le)] at hcm
    obtain ⟨x, hx, rfl⟩ := List.mem_map.1 (List.mem_of_mem_take hcm)
    exact hf x hx

theorem insertMany_extra {k : ChanKind} : ∀ {n : ℕ} {s s' : Schema}, insertMany k n s = some s' →
    ∃ extra, s'.channels = s.channels ++ extra := by
  intro n
  induction n with
  | zero => intro s s' h; simp only [insertMany, Option.some.injEq] at h; subst h; exact ⟨[], by simp⟩
  | succ n ih =>
    intro s s' h
    unfold insertMany at h
    cases hi : s.insert [] k.channel with
    | none => rw [hi] at h; cases h
    | some p =>
      obtain ⟨s1, i⟩ := p
      rw [hi] at h
      obtain ⟨extra, he⟩ := ih h
      obtain ⟨_, l', _, h1 | ⟨_, _, h1⟩⟩ := insert_cases hi
      · rw [h1.2] at he; exact ⟨extra, he⟩
      · rw [h1] at he
        exact ⟨[(l', k.channel)] ++ extra, by rw [he]; simp⟩

theorem lastMinute_extra {m : PyMeta} {s : Schema} (h : lastMinuteSetup m = some s) :
    ∃ extra, s.channels = m.schema.channels ++ extra := by
  unfold lastMinuteSetup at h
  by_cases hf : m.schema.isFinal = true
  · rw [if_pos hf] at h
    have := Option.some.inj h
    exact ⟨[], by rw [this]; simp⟩
  · rw [if_neg hf] at h
    cases hi : insertMany m.channel (m.width - m.schema.width).toNat m.schema with
    | none => rw [hi] at h; cases h
    | some s1 =>
      rw [hi] at h
      dsimp only at h
      obtain ⟨extra, he⟩ := insertMany_extra hi
      rw [finalize_zero] at h
      have := Option.some.inj h
      refine ⟨extra, ?_⟩
      rw [← this, ← he]
      dsimp only
      split <;> rfl

/-! ## The loop -/

/-- what a recorded tick says -/
def Recorded (t0 : ℚ) (t : Ticks.Tick) (v : Event) : Prop :=
  t.label = v.label ∧ t.type = (if v.isValue then .value else .increment) ∧ t.data = .num v.amount ∧
    t.time = v.time - t0

theorem valueAfter_snoc (l : Str) (before : List Event) (v : Event) :
    valueAfter l (before ++ [v]) = if v.isValue = true ∧ v.label = l then v.amount else valueAfter l before := by
  unfold valueAfter
  rw [List.foldl_append]
  rfl

theorem timeKey_eq {s : Schema} (h : s.needsAdding = true) : s.timeKey = s.width := by
  unfold Schema.timeKey Schema.width
  rw [if_pos h, if_pos h]

theorem loop_changes (ops : LieOps Vec) {s : Schema} {L : List Str} {f : Str → Channel}
    {extra : List (Str × Channel)} (hc : s.channels = (L.map fun x => (x, f x)) ++ extra)
    (hf : ∀ x ∈ L, (f x).numVariants = 1 ∧ (f x).isLeadLag = false) (t0 : ℚ) :
    ∀ (ts : List Ticks.Tick) (vs before : List Event) (prev : ℕ → Vec),
      List.Forall₂ (Recorded t0) ts vs → (∀ v ∈ vs, v.label ≠ [] ∧ PlainLabel v.label ∧ v.label ∈ L) →
      (∀ l ∈ L, prev (L.idxOf l) = single (L.idxOf l + 1) (valueAfter l before)) →
      loop ops s prev (match before.getLast? with | some u => u.time - t0 | none => 0) ts =
        some (changes (fun l => L.idxOf l + 1) (if s.needsAdding then some s.width else none) t0 before vs) := by
  intro ts
  induction ts with
  | nil => intro vs before prev h _ _; cases h; rfl
  | cons t ts ih =>
    intro vs before prev h hv hprev
    cases h with
    | cons h1 h2 =>
      rename_i v vs
      obtain ⟨e1, e2, e3, e4⟩ := h1
      obtain ⟨hl, hp, hm⟩ := hv v (by simp)
      obtain ⟨k1, k2, k3⟩ := key_of_label hc (fun x hx => (hf x hx).1) hl hp hm
      have hnl := (hf _ hm).2
      rw [loop]
      -- the element recorded
      have hinc : ∃ prev', increment ops s prev t = some (single (L.idxOf v.label + 1)
            (if v.isValue then v.amount - valueAfter v.label before else v.amount), prev') ∧
          ∀ l ∈ L, prev' (L.idxOf l) = single (L.idxOf l + 1) (valueAfter l (before ++ [v])) := by
        unfold increment
        rw [e1, k1, k2]
        simp only [k3, e2, e3, toScalar, Option.map_some]
        cases hb : v.isValue with
        | false =>
          refine ⟨prev, by simp, fun l hlm => ?_⟩
          rw [valueAfter_snoc, if_neg (by simp [hb])]
          exact hprev l hlm
        | true =>
          refine ⟨Function.update prev (L.idxOf v.label) (single (L.idxOf v.label + 1) v.amount), ?_, fun l hlm => ?_⟩
          · simp only [if_true, hnl, Bool.false_eq_true, if_false, Option.some.injEq, Prod.mk.injEq, and_true]
            funext k
            rw [hprev _ hm]
            unfold single
            split <;> simp
          · rw [valueAfter_snoc]
            by_cases he : v.label = l
            · subst he
              rw [if_pos ⟨hb, rfl⟩, Function.update_self]
            · rw [if_neg (fun h => he h.2), Function.update_of_ne]
              · exact hprev l hlm
              · intro h
                exact he ((List.idxOf_inj (x := v.label) (y := l) hm).1 h.symm)
      obtain ⟨prev', hi, hprev'⟩ := hinc
      rw [hi]
      dsimp only
      have := ih vs (before ++ [v]) prev' h2 (fun w hw => hv w (by simp [hw])) hprev'
      simp only [List.getLast?_append, List.getLast?_singleton, Option.some_or] at this
      rw [e4, this]
      simp only [Option.map_some, changes, Option.some.injEq, List.cons.injEq, Prod.mk.injEq, true_and, and_true]
      funext c
      unfold change
      cases hn : s.needsAdding with
      | false => simp [single]
      | true =>
        simp only [if_true]
        rw [timeKey_eq hn]
        by_cases hcw : c = s.width
        · subst hcw
          rw [Function.update_self, if_pos rfl]
          cases before.getLast? with
          | none => simp
          | some u => dsimp only; ring
        · have hne : ¬ (some c = some s.width) := by simpa using hcw
          rw [Function.update_of_ne hcw, if_neg hne]
          rfl

/-! ## The order of the ticks -/

theorem sort_order {sort : List Ticks.Tick → List Ticks.Tick} (hs : Sorts sort) {ticks : List Ticks.Tick}
    (hp : ∀ (i : ℕ) (t : Ticks.Tick), ticks[i]? = some t → t.precedence = ((ticks.take i).map (·.time)).count t.time) :
    (sort ticks).Perm ticks ∧ (sort ticks).Pairwise (fun a b => a.time ≤ b.time) ∧
      ∀ x, (sort ticks).filter (fun t => decide (t.time = x)) = ticks.filter fun t => decide (t.time = x) := by
  obtain ⟨h1, h2⟩ := hs ticks
  refine ⟨h1, h2.imp fun {a b} h => ?_, fun x => ?_⟩
  · by_contra hn; exact h (.inl (not_le.1 hn))
  · -- precedences increase among ticks at the same time
    have hinc : (ticks.filter fun t => decide (t.time = x)).Pairwise fun a b => a.precedence < b.precedence := by
      have : ticks.Pairwise fun a b => a.time = b.time → a.precedence < b.precedence := by
        rw [List.pairwise_iff_getElem]
        intro i j hi hj hij he
        rw [hp i _ (List.getElem?_eq_getElem hi), hp j _ (List.getElem?_eq_getElem hj), ← he]
        have : ticks.take j = ticks.take (i + 1) ++ (ticks.take j).drop (i + 1) := by
          conv_lhs => rw [← List.take_append_drop (i + 1) (ticks.take j)]
          rw [List.take_take, min_eq_left (by omega)]
        rw [this, List.take_succ_eq_append_getElem hi]
        simp only [List.map_append, List.count_append, List.map_cons, List.map_nil, List.count_singleton_self]
        omega
      refine (List.Pairwise.filter _ this).imp_of_mem fun {a b} ha hb h => ?_
      have ha := (List.mem_filter.1 ha).2
      have hb := (List.mem_filter.1 hb).2
      simp only [decide_eq_true_eq] at ha hb
      exact h (by rw [ha, hb])
    have hsort : ((sort ticks).filter fun t => decide (t.time = x)).Pairwise fun a b => a.precedence ≤ b.precedence := by
      refine (List.Pairwise.filter _ h2).imp_of_mem fun {a b} ha hb h => ?_
      have ha := (List.mem_filter.1 ha).2
      have hb := (List.mem_filter.1 hb).2
      simp only [decide_eq_true_eq] at ha hb
      by_contra hn
      exact h (.inr ⟨by rw [ha, hb], not_le.1 hn⟩)
    refine List.Perm.eq_of_pairwise (le := fun a b : Ticks.Tick => a.precedence ≤ b.precedence) ?_ hsort
      (hinc.imp fun h => le_of_lt h) (h1.filter _)
    intro a b ha hb hab hba
    have ha' := (h1.filter (fun t => decide (t.time = x))).mem_iff.1 ha
    by_contra hne
    obtain ⟨i, hi, rfl⟩ := List.getElem_of_mem ha'
    obtain ⟨j, hj, rfl⟩ := List.getElem_of_mem hb
    rcases Nat.lt_trichotomy i j with hij | hij | hij
    · have := List.pairwise_iff_getElem.1 hinc i j hi hj hij; omega
    · subst hij; exact hne rfl
    · have := List.pairwise_iff_getElem.1 hinc j i hj hi hij; omega

/-! ## The schema and the stages -/

theorem addToSchema_needs {s s' : Schema} {e : Ticks.Entry} (h : Ticks.addToSchema s e = some s') :
    s'.needsAdding = s.needsAdding := by
  have ins : ∀ {l : Str} {c : Channel} {p : Schema × ℕ}, s.insert l c = some p → p.1.needsAdding = s.needsAdding := by
    intro l c p hp
    obtain ⟨_, l', _, h1 | ⟨_, _, h1⟩⟩ := insert_cases (s' := p.1) (i := p.2) hp
    · rw [h1.2]
    · rw [h1]
  unfold Ticks.addToSchema at h
  cases ht : e.type with
  | increment =>
    rw [ht] at h
    obtain ⟨p, hp, rfl⟩ := Option.map_eq_some_iff.1 h
    exact ins hp
  | value =>
    rw [ht] at h
    obtain ⟨p, hp, rfl⟩ := Option.map_eq_some_iff.1 h
    exact ins hp
  | categorical =>
    rw [ht] at h
    dsimp only at h
    cases hi : s.insert e.label (.categorical []) with
    | none => rw [hi] at h; cases h
    | some p =>
      obtain ⟨s1, i⟩ := p
      rw [hi] at h
      have h1 := ins hi
      dsimp only at h h1
      split at h
      · have := Option.some.inj h; rw [← this]; exact h1
      · obtain ⟨c, c', _, _, h2⟩ := modify_cases h
        rw [h2]; exact h1
      · cases h

theorem build_needs {s : Schema} {es : List Ticks.Entry} {h : Ticks.Helper} (hb : Ticks.build s false es = some h) :
    h.schema.needsAdding = s.needsAdding := by
  have go : ∀ (es : List Ticks.Entry) (g g' : Ticks.Helper), Ticks.addAll g es = some g' →
      g'.schema.needsAdding = g.schema.needsAdding := by
    intro es
    induction es with
    | nil => intro g g' h; simp only [Ticks.addAll, Option.some.injEq] at h; rw [h]
    | cons e es ih =>
      intro g g' h
      rw [Ticks.addAll] at h
      obtain ⟨g1, h1, h2⟩ := Option.bind_eq_some_iff.1 h
      rw [ih g1 g' h2]
      unfold Ticks.add at h1
      by_cases hf : g.schema.isFinal = true
      · rw [if_pos hf] at h1; rw [Ticks.addTick_schema h1]
      · rw [if_neg hf] at h1
        cases hs : Ticks.addToSchema g.schema e with
        | none => rw [hs] at h1; cases h1
        | some s' =>
          rw [hs] at h1
          rw [Ticks.addTick_schema h1]
          exact addToSchema_needs hs
  unfold Ticks.build at hb
  obtain ⟨h0, hn, ha⟩ := Option.bind_eq_some_iff.1 hb
  have := Ticks.new_some hn
  subst this
  exact go es _ h ha

theorem build_inferred {s : Schema} (hc : s.channels = []) (hf : s.isFinal = false) {es : List Ticks.Entry}
    (hg : Ticks.GoodEntries es) {h : Ticks.Helper} (hb : Ticks.build s false es = some h) :
    h.schema.channels = Ticks.inferred es ∧ h.schema.isFinal = false := by
  unfold Ticks.build at hb
  obtain ⟨h0, hn, ha⟩ := Option.bind_eq_some_iff.1 hb
  have := Ticks.new_some hn
  subst this
  simpa using Ticks.addAll_schema es [] _ h hg hf (by rw [hc]; rfl) ha

theorem prepare_ok {sort : List Ticks.Tick → List Ticks.Tick} {ops : LieOps Vec} {k : KW} {es : List Ticks.Entry}
    {made : Made} (hm : prepare sort ops k es = some made) :
    ∃ m h m', kwargsToMetadata k = .ok m ∧ Ticks.build m.schema false es = some h ∧ h.ticks ≠ [] ∧
      finalizeSchema { m with schema := h.schema } = .ok m' ∧
      loop ops m'.schema (fun _ _ => 0) 0 (sort h.ticks) = some made.items ∧ made.info = m' := by
  unfold prepare at hm
  cases h1 : kwargsToMetadata k with
  | raised e => rw [h1] at hm; cases hm
  | terminated => rw [h1] at hm; cases hm
  | undefined => rw [h1] at hm; cases hm
  | ok m =>
    rw [h1] at hm
    dsimp only at hm
    cases h2 : Ticks.build m.schema false es with
    | none => rw [h2] at hm; cases hm
    | some h =>
      rw [h2] at hm
      dsimp only at hm
      by_cases h3 : h.ticks = []
      · rw [if_pos h3] at hm; cases hm
      · rw [if_neg h3] at hm
        cases h4 : finalizeSchema { m with schema := h.schema } with
        | raised e => rw [h4] at hm; cases hm
        | terminated => rw [h4] at hm; cases hm
        | undefined => rw [h4] at hm; cases hm
        | ok m' =>
          rw [h4] at hm
          obtain ⟨items, h5, h6⟩ := Option.map_eq_some_iff.1 hm
          refine ⟨m, h, m', rfl, h2, h3, h4, ?_, ?_⟩
          · rw [h5, ← h6]
          · rw [← h6]

theorem loop_times (ops : LieOps Vec) (s : Schema) : ∀ (ts : List Ticks.Tick) (prev : ℕ → Vec) (last : ℚ)
    (items : List (ℚ × Vec)), loop ops s prev last ts = some items → items.map (·.1) = ts.map (·.time) := by
  intro ts
  induction ts with
  | nil => intro prev last items h; simp only [loop, Option.some.injEq] at h; subst h; rfl
  | cons t ts ih =>
    intro prev last items h
    rw [loop] at h
    cases hi : increment ops s prev t with
    | none => rw [hi] at h; cases h
    | some p =>
      obtain ⟨v, prev'⟩ := p
      rw [hi] at h
      obtain ⟨r, hr, rfl⟩ := Option.map_eq_some_iff.1 h
      simp [ih prev' t.time r hr]

/-! ## Grid points -/

theorem gridFloor_onGrid {R res : ℤ} (h : R ≤ res) {a : ℚ} (ha : OnGrid R a) : gridFloor res a = a := by
  obtain ⟨i, rfl⟩ := ha
  have e : (i : ℚ) / 2 ^ R = ((i * Intervals.Dyadic.pow2 (res - R) : ℤ) : ℚ) / 2 ^ res :=
    (dyadicValue_shift i R res h).symm
  have h2 := two_zpow_pos res
  rw [e]
  unfold gridFloor
  rw [div_mul_cancel₀ _ h2.ne', Int.floor_intCast]

theorem onGrid_le {R : ℤ} {a : ℚ} (ha : OnGrid R a) (t : ℚ) : a ≤ gridFloor R t ↔ a ≤ t := by
  obtain ⟨i, rfl⟩ := ha
  have h2 := two_zpow_pos R
  unfold gridFloor
  rw [div_le_div_iff_of_pos_right h2, Int.cast_le, Int.le_floor, div_le_iff₀ h2]

end RoughPy.FromData
