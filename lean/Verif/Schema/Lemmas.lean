import Verif.Schema.Model
import Mathlib.Algebra.BigOperators.Group.List.Basic
import Mathlib.Tactic.Linarith
import Mathlib.Tactic.Ring

set_option linter.unusedSectionVars false

/-! # Helper lemmas about schemas -/

namespace RoughPy.Schema

/-- `label` is `item`, or `item` followed by `:` (or by a NUL character) and more. -/
def Matches (item label : Str) : Prop :=
  item ≠ [] ∧ (label = item ∨ ∃ rest, label = item ++ ':' :: rest ∨ label = item ++ '\x00' :: rest)

/-- A label without `:` and NUL. -/
def PlainLabel (l : Str) : Prop := ':' ∉ l ∧ '\x00' ∉ l

theorem compareLoop_iff : ∀ item ref : Str, compareLoop item ref = true ↔
    (ref = item ∨ ∃ rest, ref = item ++ ':' :: rest ∨ ref = item ++ '\x00' :: rest) := by
  intro item
  induction item with
  | nil =>
    intro ref
    cases ref with
    | nil => simp [compareLoop]
    | cons r ref =>
      simp only [compareLoop, List.nil_append, Bool.or_eq_true, decide_eq_true_eq, List.cons.injEq]
      constructor
      · rintro (rfl | rfl)
        · exact Or.inr ⟨ref, Or.inr ⟨rfl, rfl⟩⟩
        · exact Or.inr ⟨ref, Or.inl ⟨rfl, rfl⟩⟩
      · rintro (h | ⟨rest, h | h⟩)
        · cases h
        · exact Or.inr h.1
        · exact Or.inl h.1
  | cons c item ih =>
    intro ref
    cases ref with
    | nil => simp [compareLoop]
    | cons r ref =>
      simp only [compareLoop, List.cons_append, List.cons.injEq]
      by_cases h : r = c
      · subst h
        rw [if_pos rfl, ih]
        simp
      · rw [if_neg h]
        simp [h]

theorem compareLabels_iff (item ref : Str) : compareLabels item ref = true ↔ Matches item ref := by
  unfold compareLabels Matches
  by_cases h1 : ref.length < item.length
  · rw [if_pos h1]
    refine ⟨fun h => (by cases h), ?_⟩
    rintro ⟨_, h | ⟨rest, h | h⟩⟩ <;> · rw [h] at h1; simp at h1
  · rw [if_neg h1]
    by_cases h2 : ref = []
    · rw [if_pos h2]
      refine ⟨fun h => (by cases h), ?_⟩
      rintro ⟨h, h3 | ⟨rest, h3 | h3⟩⟩
      · exact absurd (h3.symm.trans h2) h
      · rw [h2] at h3; simp at h3
      · rw [h2] at h3; simp at h3
    · rw [if_neg h2]
      by_cases h3 : item = []
      · rw [if_pos h3]
        exact ⟨fun h => (by cases h), fun h => absurd h3 h.1⟩
      · rw [if_neg h3, compareLoop_iff]
        exact ⟨fun h => ⟨h3, h⟩, fun h => h.2⟩

theorem Matches.refl {l : Str} (h : l ≠ []) : Matches l l := ⟨h, Or.inl rfl⟩

/-- Plain labels only match themselves. -/
theorem Matches.eq_of_plain {a b : Str} (h : Matches a b) (hb : PlainLabel b) : a = b := by
  rcases h.2 with h | ⟨rest, h | h⟩
  · exact h.symm
  · exact absurd (by rw [h]; simp) hb.1
  · exact absurd (by rw [h]; simp) hb.2

/-- If a plain label `a` matches `b ++ ':' :: v` with `b` plain, then `a = b`. -/
theorem Matches.eq_of_plain_append {a b v : Str} (h : Matches a (b ++ ':' :: v)) (ha : PlainLabel a)
    (hb : PlainLabel b) : a = b := by
  rcases h.2 with h | ⟨rest, h | h⟩
  · exact absurd (by rw [← h]; simp) ha.1
  · -- b ++ ':' :: v = a ++ ':' :: rest
    have : ∀ (a b v rest : Str), ':' ∉ a → ':' ∉ b → b ++ ':' :: v = a ++ ':' :: rest → a = b := by
      intro a
      induction a with
      | nil =>
        intro b v rest _ hb h
        cases b with
        | nil => rfl
        | cons x b =>
          simp only [List.cons_append, List.nil_append, List.cons.injEq] at h
          exact absurd (by simp [h.1]) hb
      | cons x a ih =>
        intro b v rest ha hb h
        cases b with
        | nil =>
          simp only [List.cons_append, List.nil_append, List.cons.injEq] at h
          exact absurd (by rw [h.1]; exact List.mem_cons_self) ha
        | cons y b =>
          simp only [List.cons_append, List.cons.injEq] at h
          rw [ih b v rest (fun h => ha (List.mem_cons_of_mem _ h)) (fun h => hb (List.mem_cons_of_mem _ h)) h.2,
            h.1]
    exact this a b v rest ha.1 hb.1 h
  · -- b ++ ':' :: v = a ++ NUL :: rest : position of the first ':'
    have : ∀ (a b v rest : Str), ':' ∉ a → '\x00' ∉ b → b ++ ':' :: v = a ++ '\x00' :: rest → False := by
      intro a
      induction a with
      | nil =>
        intro b v rest _ hb h
        cases b with
        | nil =>
          simp only [List.nil_append, List.cons.injEq] at h
          exact absurd h.1 (by decide)
        | cons x b =>
          simp only [List.cons_append, List.nil_append, List.cons.injEq] at h
          exact absurd (by simp [h.1]) hb
      | cons x a ih =>
        intro b v rest ha hb h
        cases b with
        | nil =>
          simp only [List.cons_append, List.nil_append, List.cons.injEq] at h
          exact absurd (by rw [h.1]; exact List.mem_cons_self) ha
        | cons y b =>
          simp only [List.cons_append, List.cons.injEq] at h
          exact ih b v rest (fun h => ha (List.mem_cons_of_mem _ h)) (fun h => hb (List.mem_cons_of_mem _ h)) h.2
    exact (this a b v rest ha.1 hb.2 h).elim

/-! ## Decimal labels -/

theorem toStr_injective {a b : ℕ} (h : toStr a = toStr b) : a = b := by
  have h1 : Nat.ofDigitChars 10 (toStr a) 0 = a := Nat.ofDigitChars_ten_toDigits
  have h2 : Nat.ofDigitChars 10 (toStr b) 0 = b := Nat.ofDigitChars_ten_toDigits
  rw [← h1, h, h2]

theorem toStr_ne_nil (n : ℕ) : toStr n ≠ [] := Nat.toDigits_ne_nil

theorem toStr_plain (n : ℕ) : PlainLabel (toStr n) := by
  constructor
  · intro h
    exact absurd (Nat.isDigit_of_mem_toDigits (by decide) (by decide) h) (by decide)
  · intro h
    exact absurd (Nat.isDigit_of_mem_toDigits (by decide) (by decide) h) (by decide)

/-! ## Widths -/

/-- The number of variants of the channels before `i`. -/
def before (cs : List (Str × Channel)) (i : ℕ) : ℕ := ((cs.take i).map fun c => c.2.numVariants).sum

theorem foldl_add (cs : List (Str × Channel)) (n : ℕ) :
    cs.foldl (fun n c => n + c.2.numVariants) n = n + (cs.map fun c => c.2.numVariants).sum := by
  induction cs generalizing n with
  | nil => simp
  | cons c cs ih => rw [List.foldl_cons, ih, List.map_cons, List.sum_cons]; omega

theorem widthTo_eq (s : Schema) (i : ℕ) : s.widthTo i = before s.channels i := by
  unfold Schema.widthTo before
  rw [foldl_add]
  omega

theorem widthWithoutParam_eq (s : Schema) :
    s.widthWithoutParam = (s.channels.map fun c => c.2.numVariants).sum := by
  unfold Schema.widthWithoutParam
  rw [widthTo_eq]
  unfold before
  rw [List.take_length]

theorem before_succ {cs : List (Str × Channel)} {i : ℕ} {c : Str × Channel} (h : cs[i]? = some c) :
    before cs (i + 1) = before cs i + c.2.numVariants := by
  unfold before
  rw [List.take_succ, h]
  simp

theorem before_mono (cs : List (Str × Channel)) {i j : ℕ} (h : i ≤ j) : before cs i ≤ before cs j := by
  unfold before
  obtain ⟨k, rfl⟩ := Nat.exists_eq_add_of_le h
  rw [List.take_add, List.map_append, List.sum_append]
  omega

theorem before_le_total (cs : List (Str × Channel)) (i : ℕ) :
    before cs i ≤ (cs.map fun c => c.2.numVariants).sum := by
  have h := before_mono cs (le_max_left i cs.length)
  unfold before at h ⊢
  rwa [List.take_of_length_le (le_max_right _ _)] at h

/-! ## Dimensions to channels -/

theorem dimLoop_iff : ∀ (cs : List (Str × Channel)) (k dim i v : ℕ),
    Schema.dimLoop cs k dim = some (i, v) ↔
      ∃ j c, i = k + j ∧ cs[j]? = some c ∧ v < c.2.numVariants ∧ dim = before cs j + v := by
  intro cs
  induction cs with
  | nil => intro k dim i v; simp [Schema.dimLoop]
  | cons c cs ih =>
    intro k dim i v
    unfold Schema.dimLoop
    by_cases h : dim < c.2.numVariants
    · rw [if_pos h]
      constructor
      · intro h'
        simp only [Option.some.injEq, Prod.mk.injEq] at h'
        refine ⟨0, c, by omega, rfl, by omega, ?_⟩
        simp [before]
        omega
      · rintro ⟨j, c', h1, h2, h3, h4⟩
        cases j with
        | zero =>
          simp only [List.getElem?_cons_zero, Option.some.injEq] at h2
          simp [before] at h4
          simp
          omega
        | succ j =>
          have : c.2.numVariants ≤ before (c :: cs) (j + 1) := by
            unfold before
            rw [List.take_succ_cons, List.map_cons, List.sum_cons]
            omega
          omega
    · rw [if_neg h, ih]
      constructor
      · rintro ⟨j, c', h1, h2, h3, h4⟩
        refine ⟨j + 1, c', by omega, h2, h3, ?_⟩
        unfold before at h4 ⊢
        rw [List.take_succ_cons, List.map_cons, List.sum_cons]
        omega
      · rintro ⟨j, c', h1, h2, h3, h4⟩
        cases j with
        | zero =>
          simp only [List.getElem?_cons_zero, Option.some.injEq] at h2
          subst h2
          simp [before] at h4
          omega
        | succ j =>
          refine ⟨j, c', by omega, h2, h3, ?_⟩
          unfold before at h4 ⊢
          rw [List.take_succ_cons, List.map_cons, List.sum_cons] at h4
          omega

theorem dimLoop_isSome : ∀ (cs : List (Str × Channel)) (k dim : ℕ),
    dim < (cs.map fun c => c.2.numVariants).sum → ∃ p, Schema.dimLoop cs k dim = some p := by
  intro cs
  induction cs with
  | nil => intro k dim h; simp at h
  | cons c cs ih =>
    intro k dim h
    unfold Schema.dimLoop
    by_cases h' : dim < c.2.numVariants
    · rw [if_pos h']
      exact ⟨_, rfl⟩
    · rw [if_neg h']
      refine ih _ _ ?_
      rw [List.map_cons, List.sum_cons] at h
      omega

theorem channelVariant_iff (s : Schema) (i v d : ℕ) : s.channelVariantToStreamDim i v = some d ↔
    ∃ c, s.channels[i]? = some c ∧ v < c.2.numVariants ∧ d = before s.channels i + v := by
  unfold Schema.channelVariantToStreamDim
  cases h : s.channels[i]? with
  | none => simp
  | some c =>
    simp only [Option.some.injEq, exists_eq_left']
    by_cases hv : v < c.2.numVariants
    · rw [if_pos hv, widthTo_eq]
      simp only [Option.some.injEq, hv, true_and]
      exact eq_comm
    · rw [if_neg hv]
      simp [hv]

/-! ## Finding labels -/

theorem find_iff (s : Schema) (l : Str) (i : ℕ) : s.find l = some i ↔
    ∃ c, s.channels[i]? = some c ∧ Matches c.1 l ∧
      ∀ j < i, ∀ c', s.channels[j]? = some c' → ¬ Matches c'.1 l := by
  unfold Schema.find
  rw [List.findIdx?_eq_some_iff_getElem]
  constructor
  · rintro ⟨h, h1, h2⟩
    refine ⟨s.channels[i], by simp, (compareLabels_iff _ _).1 h1, fun j hj c' hc' => ?_⟩
    have := h2 j hj
    rw [List.getElem?_eq_some_iff] at hc'
    obtain ⟨hj', rfl⟩ := hc'
    rw [← compareLabels_iff]
    simpa using this
  · rintro ⟨c, h1, h2, h3⟩
    rw [List.getElem?_eq_some_iff] at h1
    obtain ⟨h, rfl⟩ := h1
    refine ⟨h, (compareLabels_iff _ _).2 h2, fun j hj => ?_⟩
    have := h3 j hj s.channels[j] (by simp)
    rw [← compareLabels_iff] at this
    simpa using this

theorem find_none (s : Schema) (l : Str) : s.find l = none ↔ ∀ c ∈ s.channels, ¬ Matches c.1 l := by
  unfold Schema.find
  rw [List.findIdx?_eq_none_iff]
  constructor
  · intro h c hc hm
    have := h c hc
    rw [(compareLabels_iff _ _).2 hm] at this
    cases this
  · intro h c hc
    have := h c hc
    rw [← compareLabels_iff] at this
    simpa using this

/-! ## Reachable schemas -/

/-- No channel label matches the label of a later channel, labels are not empty, the variants of a
categorical channel are different. -/
structure Inv (s : Schema) : Prop where
  noMatch : s.channels.Pairwise fun a b => ¬ Matches a.1 b.1
  nonempty : ∀ c ∈ s.channels, c.1 ≠ []
  variants : ∀ c ∈ s.channels, ∀ vs, c.2 = .categorical vs → vs.Nodup

theorem insert_cases {s s' : Schema} {l : Str} {c : Channel} {i : ℕ} (h : s.insert l c = some (s', i)) :
    s.isFinal = false ∧ ∃ l', l' = (if l = [] then toStr s.channels.length else l) ∧
      (s.find l' = some i ∧ s' = s ∨
        s.find l' = none ∧ i = s.channels.length ∧ s' = { s with channels := s.channels ++ [(l', c)] }) := by
  unfold Schema.insert at h
  cases hf : s.isFinal with
  | true => rw [hf] at h; simp at h
  | false =>
    rw [hf] at h
    simp only [Bool.false_eq_true, if_false] at h
    refine ⟨rfl, _, rfl, ?_⟩
    cases hfi : s.find (if l = [] then toStr s.channels.length else l) with
    | some j =>
      rw [hfi] at h
      simp only [Option.some.injEq, Prod.mk.injEq] at h
      exact Or.inl ⟨by rw [h.2], h.1.symm⟩
    | none =>
      rw [hfi] at h
      simp only [Option.some.injEq, Prod.mk.injEq] at h
      exact Or.inr ⟨rfl, h.2.symm, h.1.symm⟩

theorem default_ne_nil (l : Str) (n : ℕ) : (if l = [] then toStr n else l) ≠ [] := by
  split
  · exact toStr_ne_nil _
  · assumption

theorem Inv.insert {s s' : Schema} {l : Str} {c : Channel} {i : ℕ} (hs : Inv s)
    (hc : ∀ vs, c = .categorical vs → vs.Nodup) (h : s.insert l c = some (s', i)) : Inv s' := by
  obtain ⟨_, l', hl', h | ⟨h1, _, rfl⟩⟩ := insert_cases h
  · rw [h.2]; exact hs
  · rw [find_none] at h1
    refine ⟨?_, ?_, ?_⟩
    · rw [List.pairwise_append]
      exact ⟨hs.noMatch, List.pairwise_singleton _ _, fun a ha b hb => by
        rw [List.mem_singleton] at hb
        rw [hb]
        exact h1 a ha⟩
    · intro x hx
      rcases List.mem_append.1 hx with hx | hx
      · exact hs.nonempty x hx
      · rw [List.mem_singleton] at hx
        rw [hx, hl']
        exact default_ne_nil _ _
    · intro x hx vs hvs
      rcases List.mem_append.1 hx with hx | hx
      · exact hs.variants x hx vs hvs
      · rw [List.mem_singleton] at hx
        rw [hx] at hvs
        exact hc vs hvs

theorem modify_cases {s s' : Schema} {i : ℕ} {f : Channel → Option Channel} (h : s.modify i f = some s') :
    ∃ c c', s.channels[i]? = some c ∧ f c.2 = some c' ∧ s' = { s with channels := s.channels.set i (c.1, c') } := by
  unfold Schema.modify at h
  cases h1 : s.channels[i]? with
  | none => rw [h1] at h; cases h
  | some c =>
    rw [h1] at h
    simp only at h
    cases h2 : f c.2 with
    | none => rw [h2] at h; cases h
    | some c' =>
      rw [h2] at h
      exact ⟨c, c', rfl, h2, (Option.some.inj h).symm⟩

theorem map_fst_set (cs : List (Str × Channel)) (i : ℕ) (c : Str × Channel) (c' : Channel)
    (h : cs[i]? = some c) : (cs.set i (c.1, c')).map Prod.fst = cs.map Prod.fst := by
  rw [List.map_set]
  refine List.ext_getElem? fun j => ?_
  rw [List.getElem?_set]
  split
  · rename_i hij
    subst hij
    rw [List.getElem?_map, h]
    split
    · rfl
    · rename_i hl
      rw [List.getElem?_eq_some_iff] at h
      simp at hl
      exact absurd h.1 (by omega)
  · rfl

theorem Inv.modify {s s' : Schema} {i : ℕ} {f : Channel → Option Channel} (hs : Inv s)
    (hf : ∀ c c' vs', (∀ vs, c = .categorical vs → vs.Nodup) → f c = some c' → c' = .categorical vs' → vs'.Nodup)
    (h : s.modify i f = some s') : Inv s' := by
  obtain ⟨c, c', h1, h2, rfl⟩ := modify_cases h
  have hfst := map_fst_set s.channels i c c' h1
  refine ⟨?_, ?_, ?_⟩
  · have := hs.noMatch
    rw [← List.pairwise_map (f := Prod.fst) (R := fun a b => ¬ Matches a b)] at this ⊢
    show List.Pairwise _ ((s.channels.set i (c.1, c')).map Prod.fst)
    rw [hfst]
    exact this
  · intro x hx
    have : x.1 ∈ (s.channels.set i (c.1, c')).map Prod.fst := List.mem_map_of_mem hx
    rw [hfst] at this
    obtain ⟨y, hy, hxy⟩ := List.mem_map.1 this
    rw [← hxy]
    exact hs.nonempty y hy
  · intro x hx vs hvs
    rcases List.mem_or_eq_of_mem_set hx with hx | hx
    · exact hs.variants x hx vs hvs
    · rw [hx] at hvs
      exact hf c.2 c' vs (hs.variants c (List.mem_of_getElem? h1)) h2 hvs

theorem addVariant_nodup {c c' : Channel} {v : Str} {vs' : List Str}
    (h : ∀ vs, c = .categorical vs → vs.Nodup) (h1 : c.addVariant v = some c') (h2 : c' = .categorical vs') :
    vs'.Nodup := by
  cases c with
  | categorical vs =>
    simp only [Channel.addVariant] at h1
    generalize (if v = [] then toStr vs.length else v) = label at h1
    by_cases hn : label ∈ vs
    · rw [if_pos hn] at h1; cases h1
    · rw [if_neg hn, h2] at h1
      have h3 := Channel.categorical.inj (Option.some.inj h1)
      rw [← h3]
      exact List.nodup_append.2 ⟨h vs rfl, (by simp), by
        intro a ha b hb hab
        rw [List.mem_singleton] at hb
        exact hn (hb ▸ hab ▸ ha)⟩
  | increment b => simp only [Channel.addVariant, Option.some.injEq] at h1; rw [h2] at h1; cases h1
  | value b => simp only [Channel.addVariant, Option.some.injEq] at h1; rw [h2] at h1; cases h1
  | lie => simp only [Channel.addVariant, Option.some.injEq] at h1; rw [h2] at h1; cases h1

theorem insertVariant_nodup {c : Channel} {v : Str} {vs' : List Str}
    (h : ∀ vs, c = .categorical vs → vs.Nodup) (h2 : c.insertVariant v = .categorical vs') : vs'.Nodup := by
  cases c with
  | categorical vs =>
    simp only [Channel.insertVariant] at h2
    generalize (if v = [] then toStr vs.length else v) = label at h2
    by_cases hn : label ∈ vs
    · rw [if_pos hn] at h2
      rw [← Channel.categorical.inj h2]; exact h vs rfl
    · rw [if_neg hn] at h2
      rw [← Channel.categorical.inj h2]
      exact List.nodup_append.2 ⟨h vs rfl, (by simp), by
        intro a ha b hb hab
        rw [List.mem_singleton] at hb
        exact hn (hb ▸ hab ▸ ha)⟩
  | increment b => simp only [Channel.insertVariant] at h2; cases h2
  | value b => simp only [Channel.insertVariant] at h2; cases h2
  | lie => simp only [Channel.insertVariant] at h2; cases h2

theorem pad_inv : ∀ (n : ℕ) (s s' : Schema), Inv s → Schema.pad n s = some s' → Inv s' := by
  intro n
  induction n with
  | zero => intro s s' hs h; rw [← Option.some.inj h]; exact hs
  | succ n ih =>
    intro s s' hs h
    unfold Schema.pad at h
    cases hi : s.insert [] (.increment false) with
    | none => rw [hi] at h; cases h
    | some p =>
      rw [hi] at h
      exact ih p.1 s' (hs.insert (fun vs h => by cases h) hi) h

theorem finalize_cases {s s' : Schema} {n : ℤ} (h : s.finalize n = some s') :
    ¬ (0 < n ∧ n < s.width) ∧ ∃ s₁, Schema.pad (n - s.width).toNat s = some s₁ ∧ s' = { s₁ with isFinal := true } := by
  unfold Schema.finalize at h
  by_cases hc : 0 < n ∧ n < s.width
  · rw [if_pos hc] at h; cases h
  · rw [if_neg hc] at h
    cases hp : Schema.pad (n - s.width).toNat s with
    | none => rw [hp] at h; cases h
    | some s₁ =>
      rw [hp] at h
      exact ⟨hc, s₁, rfl, (Option.some.inj h).symm⟩

theorem Inv.congr {s s' : Schema} (hs : Inv s) (h : s'.channels = s.channels) : Inv s' :=
  ⟨h ▸ hs.noMatch, h ▸ hs.nonempty, h ▸ hs.variants⟩

theorem Reachable.inv {s : Schema} (h : Reachable s) : Inv s := by
  induction h with
  | empty => exact ⟨List.Pairwise.nil, fun c hc => (by cases hc), fun c hc => (by cases hc)⟩
  | @insert s l c hc _ ih =>
    show Inv (((s.insert l c).map Prod.fst).getD s)
    cases hi : s.insert l c with
    | none => exact ih
    | some p =>
      refine ih.insert (l := l) (c := c) (i := p.2) ?_ hi
      intro vs hvs
      rcases hc with h | h | h | h <;> rw [h] at hvs
      · cases hvs
      · cases hvs
      · rw [← Channel.categorical.inj hvs]; exact List.nodup_nil
      · cases hvs
  | @setLeadLag s i b _ ih =>
    show Inv ((s.modify i fun c => some (c.setLeadLag b)).getD s)
    cases hm : s.modify i fun c => some (c.setLeadLag b) with
    | none => exact ih
    | some s' =>
      refine ih.modify ?_ hm
      intro c c' vs' h1 h2 h3
      rw [← Option.some.inj h2] at h3
      cases c <;> simp only [Channel.setLeadLag] at h3
      · cases h3
      · cases h3
      · exact h1 vs' h3
      · cases h3
  | @addVariant s i v _ ih =>
    show Inv ((s.modify i fun c => c.addVariant v).getD s)
    cases hm : s.modify i fun c => c.addVariant v with
    | none => exact ih
    | some s' => exact ih.modify (fun c c' vs' h1 h2 h3 => addVariant_nodup h1 h2 h3) hm
  | @insertVariant s i v _ ih =>
    show Inv ((s.modify i fun c => some (c.insertVariant v)).getD s)
    cases hm : s.modify i fun c => some (c.insertVariant v) with
    | none => exact ih
    | some s' =>
      exact ih.modify (fun c c' vs' h1 h2 h3 => insertVariant_nodup h1 ((Option.some.inj h2).trans h3)) hm
  | @addTimeChannel s _ ih => exact ih.congr rfl
  | @finalize s n _ ih =>
    show Inv ((s.finalize n).getD s)
    cases hm : s.finalize n with
    | none => exact ih
    | some s' =>
      obtain ⟨_, s₁, h1, rfl⟩ := finalize_cases hm
      exact (pad_inv _ _ _ ih h1).congr rfl

/-! ## Lookups are stable -/

/-- The labels of `s` are the first labels of `s'`. -/
def Extends (s s' : Schema) : Prop := s.channels.map Prod.fst <+: s'.channels.map Prod.fst

theorem Extends.refl (s : Schema) : Extends s s := List.prefix_rfl

theorem Extends.trans {s s' s'' : Schema} (h : Extends s s') (h' : Extends s' s'') : Extends s s'' :=
  List.IsPrefix.trans h h'

theorem Extends.find {s s' : Schema} (h : Extends s s') {l : Str} {i : ℕ} (hf : s.find l = some i) :
    s'.find l = some i := by
  have key : ∀ t : Schema, t.find l = (t.channels.map Prod.fst).findIdx? fun c => compareLabels c l := by
    intro t
    unfold Schema.find
    rw [List.findIdx?_map]
    rfl
  rw [key] at hf ⊢
  obtain ⟨r, hr⟩ := h
  rw [← hr, List.findIdx?_append, hf]
  rfl

theorem insert_extends {s s' : Schema} {l : Str} {c : Channel} {i : ℕ} (h : s.insert l c = some (s', i)) :
    Extends s s' := by
  obtain ⟨_, l', _, h | ⟨_, _, rfl⟩⟩ := insert_cases h
  · rw [h.2]; exact Extends.refl s
  · unfold Extends
    simp

theorem modify_extends {s s' : Schema} {i : ℕ} {f : Channel → Option Channel} (h : s.modify i f = some s') :
    Extends s s' := by
  obtain ⟨c, c', h1, _, rfl⟩ := modify_cases h
  unfold Extends
  rw [show ({ s with channels := s.channels.set i (c.1, c') } : Schema).channels = s.channels.set i (c.1, c')
    from rfl, map_fst_set _ _ _ _ h1]
  exact List.prefix_rfl

theorem pad_extends : ∀ (n : ℕ) (s s' : Schema), Schema.pad n s = some s' → Extends s s' := by
  intro n
  induction n with
  | zero => intro s s' h; rw [← Option.some.inj h]; exact Extends.refl s
  | succ n ih =>
    intro s s' h
    unfold Schema.pad at h
    cases hi : s.insert [] (.increment false) with
    | none => rw [hi] at h; cases h
    | some p =>
      rw [hi] at h
      exact (insert_extends (i := p.2) hi).trans (ih p.1 s' h)

theorem step_extends (s : Schema) (op : Op) : Extends s (s.step op) := by
  cases op with
  | insert l c =>
    show Extends s (((s.insert l c).map Prod.fst).getD s)
    cases hi : s.insert l c with
    | none => exact Extends.refl s
    | some p => exact insert_extends (i := p.2) hi
  | setLeadLag i b =>
    show Extends s ((s.modify i fun c => some (c.setLeadLag b)).getD s)
    cases hm : s.modify i fun c => some (c.setLeadLag b) with
    | none => exact Extends.refl s
    | some s' => exact modify_extends hm
  | addVariant i v =>
    show Extends s ((s.modify i fun c => c.addVariant v).getD s)
    cases hm : s.modify i fun c => c.addVariant v with
    | none => exact Extends.refl s
    | some s' => exact modify_extends hm
  | insertVariant i v =>
    show Extends s ((s.modify i fun c => some (c.insertVariant v)).getD s)
    cases hm : s.modify i fun c => some (c.insertVariant v) with
    | none => exact Extends.refl s
    | some s' => exact modify_extends hm
  | addTimeChannel => exact List.prefix_rfl
  | finalize n =>
    show Extends s ((s.finalize n).getD s)
    cases hm : s.finalize n with
    | none => exact Extends.refl s
    | some s' =>
      obtain ⟨_, s₁, h1, rfl⟩ := finalize_cases hm
      have := pad_extends _ _ _ h1
      exact this

/-! ## Padding -/

theorem insert_default {s : Schema} (hf : s.isFinal = false)
    (h : ∀ c ∈ s.channels, ¬ Matches c.1 (toStr s.channels.length)) (c : Channel) :
    s.insert [] c = some ({ s with channels := s.channels ++ [(toStr s.channels.length, c)] }, s.channels.length) := by
  unfold Schema.insert
  rw [hf]
  simp only [Bool.false_eq_true, if_false, if_true]
  rw [(find_none s _).2 h]

/-- No label of the channels matches the default labels still to come. -/
def Free (s : Schema) : Prop := ∀ c ∈ s.channels, ∀ k, s.channels.length ≤ k → ¬ Matches c.1 (toStr k)

theorem Free.push {s : Schema} (h : Free s) (c : Channel) :
    Free { s with channels := s.channels ++ [(toStr s.channels.length, c)] } := by
  intro x hx k hk
  simp only [List.length_append, List.length_singleton] at hk
  rcases List.mem_append.1 hx with hx | hx
  · exact h x hx k (by omega)
  · rw [List.mem_singleton] at hx
    rw [hx]
    intro hm
    have := toStr_injective (hm.eq_of_plain (toStr_plain k))
    omega

theorem pad_free : ∀ (n : ℕ) (s : Schema), s.isFinal = false → Free s →
    ∃ s', Schema.pad n s = some s' ∧ s'.widthWithoutParam = s.widthWithoutParam + n ∧
      s'.needsAdding = s.needsAdding ∧
      s'.channels = s.channels ++ (List.range n).map fun i => (toStr (s.channels.length + i), .increment false) := by
  intro n
  induction n with
  | zero => intro s _ _; exact ⟨s, rfl, rfl, rfl, by simp⟩
  | succ n ih =>
    intro s hf hs
    have h1 := insert_default hf (fun c hc => hs c hc _ le_rfl) (.increment false)
    unfold Schema.pad
    rw [h1]
    obtain ⟨s', h2, h3, h4, h5⟩ :=
      ih { s with channels := s.channels ++ [(toStr s.channels.length, .increment false)] } hf (hs.push _)
    refine ⟨s', h2, ?_, h4, ?_⟩
    · rw [h3, widthWithoutParam_eq, widthWithoutParam_eq]
      simp [Channel.numVariants]
      omega
    · rw [h5]
      simp only [List.length_append, List.length_singleton, List.append_assoc, List.range_succ_eq_map,
        List.map_cons, List.map_map, List.singleton_append, Nat.add_zero]
      congr 2
      refine List.map_congr_left fun i _ => ?_
      simp only [Function.comp]
      congr 2
      omega

end RoughPy.Schema
