import Verif.FromData.Lemmas
import Verif.Parse.Props
import Mathlib.Data.List.Sort

/-!
# Properties of streams made from tick data (C140)

Each theorem is followed by a case that meets its hypotheses.
-/

namespace RoughPy.FromData

open RoughPy.Intervals RoughPy.Schema RoughPy.Streams RoughPy.Query

variable {G : Type} [Monoid G]

theorem says_times {kind : Ticks.TimeKind} {es : List Ticks.Entry} {vs : List Event}
    (h : List.Forall₂ (Says kind) es vs) :
    List.Forall₂ (fun e q => Ticks.IsTime kind e.time q) es (vs.map (·.time)) := by
  induction h with
  | nil => exact .nil
  | cons h1 _ ih => exact .cons h1.2.2.1 ih

theorem says_labels {kind : Ticks.TimeKind} {es : List Ticks.Entry} {vs : List Event}
    (h : List.Forall₂ (Says kind) es vs) : es.map (·.label) = vs.map (·.label) := by
  induction h with
  | nil => rfl
  | cons h1 _ ih => simp only [List.map_cons, h1.1, ih]

theorem says_good {kind : Ticks.TimeKind} {es : List Ticks.Entry} {vs : List Event}
    (h : List.Forall₂ (Says kind) es vs) (hl : ∀ v ∈ vs, v.label ≠ [] ∧ PlainLabel v.label) :
    Ticks.GoodEntries es ∧ ∀ e ∈ es, e.type ≠ .categorical := by
  have : ∀ e ∈ es, e.label ≠ [] ∧ PlainLabel e.label ∧ e.data ≠ .str [] ∧ e.type ≠ .categorical := by
    intro e he
    obtain ⟨v, hv, hs⟩ : ∃ v ∈ vs, Says kind e v := by
      obtain ⟨i, hi, rfl⟩ := List.getElem_of_mem he
      have hlen := h.length_eq
      exact ⟨vs[i]'(by omega), List.getElem_mem _, (List.forall₂_iff_get.1 h).2 i hi (by omega)⟩
    have h1 := hl v hv
    obtain ⟨a, b, c, d⟩ := hs
    refine ⟨by rw [a]; exact h1.1, by rw [a]; exact h1.2, by rw [d]; simp, ?_⟩
    rw [b]; split <;> simp
  exact ⟨⟨fun e he => (this e he).1, fun e he => (this e he).2.1, fun e he => (this e he).2.2.1⟩,
    fun e he => (this e he).2.2.2⟩

theorem says_recorded {kind : Ticks.TimeKind} {s : Schema} {es : List Ticks.Entry} {vs : List Event}
    (h : List.Forall₂ (Says kind) es vs) {t0 : ℚ} (h0 : vs.head?.map (·.time) = some t0) {g : Ticks.Helper}
    (hb : Ticks.build s false es = some g) : List.Forall₂ (Recorded t0) g.ticks vs := by
  cases h with
  | nil => simp at h0
  | cons h1 h2 =>
    rename_i e v es vs
    simp only [List.head?_cons, Option.map_some, Option.some.injEq] at h0
    have key := Ticks.C138_differences_partial s kind e es v.time (vs.map (·.time)) h1.2.2.1 (says_times h2) g hb
    have : ∀ (ts : List Ticks.Tick) (vs : List Event),
        ts.map (fun t => (t.label, t.type, t.data, t.time)) =
          vs.map (fun v => (v.label, (if v.isValue then TickType.value else .increment), Ticks.Data.num v.amount, v.time - t0)) →
        List.Forall₂ (Recorded t0) ts vs := by
      intro ts
      induction ts with
      | nil => intro vs h; cases vs with
        | nil => exact .nil
        | cons v vs => simp at h
      | cons t ts ih =>
        intro vs h
        cases vs with
        | nil => simp at h
        | cons v vs =>
          simp only [List.map_cons, List.cons.injEq, Prod.mk.injEq] at h
          exact .cons h.1 (ih vs h.2)
    apply this
    rw [key]
    simp only [List.map_cons, List.cons.injEq, Prod.mk.injEq]
    refine ⟨⟨h1.1, h1.2.1, h1.2.2.2, by rw [h0]; ring⟩, ?_⟩
    rw [h0]
    clear key hb h1
    induction h2 with
    | nil => rfl
    | cons h3 _ ih =>
      simp only [List.map_cons, List.zipWith_cons_cons, List.cons.injEq, Prod.mk.injEq, ih, and_true]
      exact ⟨h3.1, h3.2.1, h3.2.2.2⟩

/-- the ticks in the order of `ticks()` are the events in order of time -/
theorem ordered_events {t0 : ℚ} {ticks l : List Ticks.Tick} {vs : List Event} (h : List.Forall₂ (Recorded t0) ticks vs)
    (h1 : l.Perm ticks) (h2 : l.Pairwise fun a b => a.time ≤ b.time)
    (h3 : ∀ x, l.filter (fun t => decide (t.time = x)) = ticks.filter fun t => decide (t.time = x)) :
    ∃ ordered, InTimeOrder vs ordered ∧ List.Forall₂ (Recorded t0) l ordered := by
  let ev : Ticks.Tick → Event := fun t =>
    ⟨t.label, decide (t.type = .value), t.time + t0, match t.data with | .num q => q | _ => 0⟩
  have hev : ∀ {t v}, Recorded t0 t v → ev t = v := by
    rintro t ⟨l, b, q, x⟩ ⟨e1, e2, e3, e4⟩
    simp only [ev, e1, e2, e3, e4, Event.mk.injEq, true_and, and_true, sub_add_cancel]
    cases b <;> simp
  have hmap : ticks.map ev = vs := by
    clear h1 h2 h3
    induction h with
    | nil => rfl
    | cons a _ ih => rw [List.map_cons, hev a, ih]
  have hrec : ∀ t ∈ ticks, Recorded t0 t (ev t) := by
    intro t ht
    obtain ⟨i, hi, rfl⟩ := List.getElem_of_mem ht
    have := (List.forall₂_iff_get.1 h).2 i hi (by rw [← h.length_eq]; exact hi)
    simp only [List.get_eq_getElem] at this
    rw [hev this]; exact this
  refine ⟨l.map ev, ⟨?_, ?_, fun x => ?_⟩, ?_⟩
  · rw [← hmap]; exact h1.map ev
  · rw [List.pairwise_map]
    exact h2.imp fun h => by simp only [ev]; linarith
  · rw [← hmap, List.filter_map, List.filter_map]
    have : ((fun v : Event => decide (v.time = x)) ∘ ev) = fun t => decide (t.time = x - t0) := by
      funext t
      simp only [Function.comp_apply, ev]
      rw [Bool.eq_iff_iff, decide_eq_true_iff, decide_eq_true_iff]
      constructor <;> intro h <;> linarith
    rw [this, h3]
  · have : ∀ t ∈ l, Recorded t0 t (ev t) := fun t ht => hrec t (h1.mem_iff.1 ht)
    clear h1 h2 h3
    induction l with
    | nil => exact .nil
    | cons t l ih => exact .cons (this t (by simp)) (ih fun x hx => this x (by simp [hx]))

theorem channelFor_plain {es : List Ticks.Entry} (hcat : ∀ e ∈ es, e.type ≠ .categorical) :
    ∀ l ∈ Ticks.firsts (es.map (·.label)), (Ticks.channelFor es l).numVariants = 1 ∧
      (Ticks.channelFor es l).isLeadLag = false := by
  intro l _
  unfold Ticks.channelFor
  cases hfd : es.find? (fun e => e.label = l) with
  | none => exact ⟨rfl, rfl⟩
  | some e =>
    have := hcat e (List.mem_of_find?_eq_some hfd)
    cases ht : e.type with
    | increment => simp only [Option.map_some, ht]; exact ⟨rfl, rfl⟩
    | value => simp only [Option.map_some, ht]; exact ⟨rfl, rfl⟩
    | categorical => exact absurd ht this

/-- the items of the stream -/
theorem prepare_items {sort : List Ticks.Tick → List Ticks.Tick} (hsort : Sorts sort) (ops : LieOps Vec) {k : KW}
    (hk1 : k.schema = none) (hk2 : k.channelTypes = none) {kind : Ticks.TimeKind} {es : List Ticks.Entry}
    {vs : List Event} (hes : List.Forall₂ (Says kind) es vs) (hlab : ∀ v ∈ vs, v.label ≠ [] ∧ PlainLabel v.label)
    {t0 : ℚ} (h0 : vs.head?.map (·.time) = some t0) {made : Made} (hm : prepare sort ops k es = some made) :
    ∃ ordered, InTimeOrder vs ordered ∧
      made.items = changes (channelOf vs) (if k.includeTime then some made.info.schema.width else none) t0 [] ordered ∧
      made.info.resolution = k.resolution ∧
      (k.support = none ∧ made.info.support = none ∨ ∃ i, k.support = some (some i) ∧ made.info.support = some i) ∧
      (k.ctx = none → k.context = none → k.width = none →
        made.info.schema.width = (Ticks.firsts (vs.map (·.label))).length + (if k.includeTime then 1 else 0)) := by
  obtain ⟨m, h, m', a1, a2, a3, a4, a5, a6⟩ := prepare_ok hm
  obtain ⟨b1, b2, b3, b4, b5, b6, b7, b8, b9, b10, b11, b12⟩ := kwargs_ok a1
  have hch := (b12 hk1 hk2).1
  have hnf := b8 hk1
  obtain ⟨hg, hcat⟩ := says_good hes hlab
  obtain ⟨c1, c2⟩ := build_inferred hch hnf hg a2
  have c3 := build_needs a2
  have hneeds : m.schema.needsAdding = k.includeTime := by
    cases hb : k.includeTime with
    | true => exact (b7 hb).2
    | false => exact b9 hb hnf
  obtain ⟨s, w, d1, d2, d3, d4, d5⟩ := finalizeSchema_ok a4
  obtain ⟨extra, hx⟩ := lastMinute_extra d1
  obtain ⟨l1, l2, l3, l4, l5⟩ := lastMinute_ok d1
  dsimp only at hx l1 l2 l3 l4 l5
  have hsn : s.needsAdding = k.includeTime := by
    rw [(l5 (by intro h; rw [c3, hneeds, ← b1]; exact h)).2, c3, hneeds]
  have hsch : made.info.schema = s := by rw [a6, d5]
  have hcf := channelFor_plain hcat
  have hsc : s.channels = ((Ticks.firsts (es.map (·.label))).map fun x => (x, Ticks.channelFor es x)) ++ extra := by
    rw [hx, c1]; rfl
  obtain ⟨o1, o2, o3⟩ := sort_order hsort (fun i t ht => Ticks.C138_precedence _ es h a2 i t ht)
  obtain ⟨ordered, p1, p2⟩ := ordered_events (says_recorded hes h0 a2) o1 o2 o3
  refine ⟨ordered, p1, ?_, ?_, ?_, ?_⟩
  · have := loop_changes ops hsc hcf t0 (sort h.ticks) ordered [] (fun _ _ => 0) p2 (fun v hv => ?_) (fun l _ => ?_)
    · simp only [List.getLast?_nil] at this
      have hs' : m'.schema = s := by rw [d5]
      rw [hs', this] at a5
      rw [← Option.some.inj a5, hsch, hsn]
      congr 1
      funext l
      unfold channelOf
      rw [says_labels hes]
    · have hv' := p1.perm.mem_iff.1 hv
      refine ⟨(hlab v hv').1, (hlab v hv').2, ?_⟩
      rw [Ticks.mem_firsts, says_labels hes]
      exact List.mem_map_of_mem hv'
    · funext c; simp [single, valueAfter]
  · rw [a6, d5]; exact b2
  · rw [a6, d5]; exact b6
  · intro e1 e2 e3
    rw [hsch]
    have hctx : (algebraConfig k).ctx = none := by simp [algebraConfig, e1, e2]
    have hw : m.width = 0 := by rw [b11 hnf, hctx, e3]; rfl
    have hwid : s.width = h.schema.width := by
      have := (l5 (by intro h; rw [c3, hneeds, ← b1]; exact h)).1
      rw [hw] at this
      have : (s.width : ℤ) ≤ h.schema.width := le_trans this (by simp)
      omega
    rw [hwid]
    unfold Schema.width
    rw [c3, hneeds]
    have : h.schema.widthWithoutParam = (Ticks.firsts (vs.map (·.label))).length := by
      rw [widthWithoutParam_eq, c1]
      unfold Ticks.inferred
      rw [List.map_map, ← says_labels hes]
      have : (Ticks.firsts (es.map (·.label))).map ((fun c : Str × Channel => c.2.numVariants) ∘ fun l => (l, Ticks.channelFor es l)) =
          (Ticks.firsts (es.map (·.label))).map fun _ => 1 :=
        List.map_congr_left fun l hl => (hcf l hl).1
      rw [this]
      simp
    rw [this]
    split <;> rfl

theorem changes_times (channel : Str → ℕ) (tc : Option ℕ) (t0 : ℚ) : ∀ vs before : List Event,
    (changes channel tc t0 before vs).map (·.1) = vs.map fun v => v.time - t0 := by
  intro vs
  induction vs with
  | nil => intro _; rfl
  | cons v vs ih => intro before; rw [changes, List.map_cons, List.map_cons, ih]

/-- C140 (what holds).  A stream made from increments and values, the first of which is not later than any
other, can be made; over an interval inside the support whose end points are multiples of `2^-resolution`
its log signature stands for the product, in order of time, of the signatures of the changes of the path at
the ticks in the interval, where times are counted from the first tick.  A value changes its channel by the
difference to the value before; with `include_time` every tick also changes the last channel by the time since
the tick before.  Without `support` the support is `[0, 1)`, without `resolution` the resolution is 0.
Missing: ticks before the first tick given (`C140_order_refuted`), ticks outside of the default support
(`C140_support_refuted`), categorical ticks (`C45_from_data_refuted`), end points between the multiples
(`C40_finer_refuted`), data with a schema given, labels that are empty or have a `:` in them. -/
theorem C140_signature_partial (sort : List Ticks.Tick → List Ticks.Tick) (hsort : Sorts sort) (ops : LieOps Vec)
    (sig : Vec → G) (hI : Interprets ops sig) (hz : ops.isZero ops.zero = true) (k : KW)
    (hk1 : k.schema = none) (hk2 : k.channelTypes = none) (kind : Ticks.TimeKind) (es : List Ticks.Entry)
    (vs : List Event) (hes : List.Forall₂ (Says kind) es vs) (hlab : ∀ v ∈ vs, v.label ≠ [] ∧ PlainLabel v.label)
    (t0 : ℚ) (h0 : vs.head?.map (·.time) = some t0) (hmin : ∀ v ∈ vs, t0 ≤ v.time)
    (made : Made) (hm : prepare sort ops k es = some made) :
    ∃ ordered, InTimeOrder vs ordered ∧
      (k.ctx = none → k.context = none → k.width = none →
        made.info.schema.width = (Ticks.firsts (vs.map (·.label))).length + (if k.includeTime then 1 else 0)) ∧
      ∃ s, Returns (make ops made) s ∧
        ∀ a b : ℚ, a < b → OnGrid (k.resolution.getD 0) a → OnGrid (k.resolution.getD 0) b →
          ((k.support = none ∧ 0 ≤ a ∧ b ≤ 1) ∨ ∃ i, k.support = some (some i) ∧ i.inf ≤ a ∧ b ≤ i.sup) →
          ∀ res : Option ℤ, (∀ r, res = some r → k.resolution.getD 0 ≤ r) →
            ∃ x, Returns (fun fuel => logSignature ops s fuel a b res) x ∧
              sig x = (((changes (channelOf vs) (if k.includeTime then some made.info.schema.width else none) t0 []
                ordered).filter fun r => decide (a ≤ r.1) && decide (r.1 < b)).map fun r => sig r.2).prod := by
  obtain ⟨ordered, p1, p2, p3, p4, p5⟩ := prepare_items hsort ops hk1 hk2 hes hlab h0 hm
  refine ⟨ordered, p1, p5, ?_⟩
  have htimes : made.items.map (·.1) = ordered.map fun v => v.time - t0 := by rw [p2, changes_times]
  have hord : made.items.Pairwise fun r s => r.1 ≤ s.1 := by
    have : (made.items.map (·.1)).Pairwise (· ≤ ·) := by
      rw [htimes, List.pairwise_map]
      exact p1.sorted.imp fun h => by linarith
    rwa [List.pairwise_map] at this
  have hbuild : Buildable (k.resolution.getD 0) made.items := by
    left
    intro r hr
    have : r.1 ∈ made.items.map (·.1) := List.mem_map_of_mem hr
    rw [htimes] at this
    obtain ⟨v, hv, e⟩ := List.mem_map.1 this
    have := hmin v (p1.perm.mem_iff.1 hv)
    rw [← e]; linarith
  obtain ⟨st, ⟨n0, q1⟩, q2⟩ := C40_interval_partial ops sig hI hz (k.resolution.getD 0) made.items hord hbuild
  refine ⟨⟨st, made.info.support.getD RealInterval.default, k.resolution.getD 0⟩, ⟨n0, fun n hn => ?_⟩, ?_⟩
  · unfold make
    rw [p3, q1 n hn]
    rfl
  · intro a b hab ha hb hsup res hres
    have hin : (made.info.support.getD RealInterval.default).inf ≤ a ∧ b ≤ (made.info.support.getD RealInterval.default).sup := by
      rcases hsup with ⟨e, s1, s2⟩ | ⟨i, e, s1, s2⟩
      · rcases p4 with ⟨_, e2⟩ | ⟨i, e2, _⟩
        · rw [e2]; exact ⟨s1, s2⟩
        · rw [e] at e2; cases e2
      · rcases p4 with ⟨e2, _⟩ | ⟨j, e2, e3⟩
        · rw [e] at e2; cases e2
        · rw [e] at e2
          have := Option.some.inj (Option.some.inj e2)
          rw [e3, ← this]; exact ⟨s1, s2⟩
    have htrim : checkSupportAndTrim (made.info.support.getD RealInterval.default) (RealInterval.mk' a b .clopen) =
        some ⟨a, b, .clopen⟩ := by
      unfold checkSupportAndTrim RealInterval.mk'
      rw [if_neg (not_lt.2 hab.le)]
      dsimp only
      rw [if_neg (by rintro (h | h) <;> linarith [hin.1, hin.2]), max_eq_left hin.1, min_eq_left hin.2,
        if_neg (not_lt.2 hab.le)]
    have hR : k.resolution.getD 0 ≤ usedResolution (k.resolution.getD 0) res (b - a) := by
      cases res with
      | some r => exact hres r rfl
      | none => exact le_max_left _ _
    obtain ⟨x, ⟨n1, hx⟩, sx⟩ := q2 a b _ hab.le
    refine ⟨x, ⟨n1, fun n hn => ?_⟩, ?_⟩
    · show logSignature ops _ n a b res = _
      unfold logSignature
      rw [htrim]
      dsimp only
      rw [if_neg (by linarith [hab])]
      exact hx n hn
    · rw [sx, gridFloor_onGrid hR ha, gridFloor_onGrid hR hb, p2]
      unfold eventsSig
      congr 2
      refine List.filter_congr fun r _ => ?_
      rw [Bool.eq_iff_iff]
      simp only [Bool.and_eq_true, decide_eq_true_eq, ← not_le, onGrid_le ha, onGrid_le hb]

/-! ### Cases -/

/-- A sorting algorithm. -/
def tickSort : List Ticks.Tick → List Ticks.Tick :=
  List.insertionSort fun a b => a.time < b.time ∨ a.time = b.time ∧ a.precedence ≤ b.precedence

theorem tickSort_sorts : Sorts tickSort := by
  intro l
  refine ⟨List.perm_insertionSort _ l, ?_⟩
  have : (tickSort l).Pairwise fun a b => a.time < b.time ∨ a.time = b.time ∧ a.precedence ≤ b.precedence := by
    have h1 : IsTotal Ticks.Tick fun a b => a.time < b.time ∨ a.time = b.time ∧ a.precedence ≤ b.precedence := ⟨fun a b => by
      rcases lt_trichotomy a.time b.time with h | h | h
      · exact .inl (.inl h)
      · rcases le_total a.precedence b.precedence with h' | h'
        · exact .inl (.inr ⟨h, h'⟩)
        · exact .inr (.inr ⟨h.symm, h'⟩)
      · exact .inr (.inl h)⟩
    have h2 : IsTrans Ticks.Tick fun a b => a.time < b.time ∨ a.time = b.time ∧ a.precedence ≤ b.precedence := ⟨fun a b c => by
      rintro (h | ⟨h, h'⟩) (g | ⟨g, g'⟩)
      · exact .inl (h.trans g)
      · exact .inl (g ▸ h)
      · exact .inl (h ▸ g)
      · exact .inr ⟨h.trans g, h'.trans g'⟩⟩
    exact List.pairwise_insertionSort _ l
  exact this.imp fun {a b} h => by
    rintro (g | ⟨g, g'⟩) <;> rcases h with h | ⟨h, h'⟩
    · exact absurd (h.trans g) (lt_irrefl _)
    · rw [h] at g; exact absurd g (lt_irrefl _)
    · rw [g] at h; exact absurd h (lt_irrefl _)
    · omega

/-- Width 2 and depth 2: the keys 1, 2 and 3 of the Hall basis. -/
def toHeis (v : Vec) : Heis := ⟨v 1, v 2, v 3⟩

def ofHeis (h : Heis) : Vec := fun c => if c = 1 then h.x else if c = 2 then h.y else if c = 3 then h.z else 0

def heisOps : LieOps Vec where
  zero := fun _ => 0
  isZero v := (Heis.ops 2).isZero (toHeis v)
  cbh ls := ofHeis ((Heis.ops 2).cbh (ls.map toHeis))

theorem heis_interprets : Interprets heisOps toHeis where
  zero := rfl
  isZero v h := Heis.interprets.isZero _ h
  cbh ls := by
    have : ∀ h, toHeis (ofHeis h) = h := fun h => rfl
    rw [heisOps]
    dsimp only
    rw [this, Heis.interprets.cbh]
    simp only [List.map_map]
    rfl

def inc (l : String) (t x : ℚ) : Ticks.Entry := ⟨l.toList, .increment, .float t, .num x⟩
def val (l : String) (t x : ℚ) : Ticks.Entry := ⟨l.toList, .value, .float t, .num x⟩

/-- the coefficients of a query -/
def ask (k : KW) (es : List Ticks.Entry) (a b : ℚ) (res : Option ℤ) : Option (ℚ × ℚ × ℚ) :=
  (prepare tickSort heisOps k es).bind fun m => (make heisOps m 20).bind fun s =>
    (logSignature heisOps s 20 a b res).map fun v => (v 1, v 2, v 3)

/-- The hypotheses of `C140_signature_partial` can be met: an increment of `a`, then two values of `b`, times
counted from 10, with time as the third channel. -/
example : ∃ made, prepare tickSort heisOps { resolution := some 2, includeTime := true }
      [inc "a" 10 1, val "b" (43/4) 5, val "b" (21/2) 2] = some made ∧
    List.Forall₂ (Says .float) [inc "a" 10 1, val "b" (43/4) 5, val "b" (21/2) 2]
      [⟨['a'], false, 10, 1⟩, ⟨['b'], true, 43/4, 5⟩, ⟨['b'], true, 21/2, 2⟩] ∧
    (∀ v ∈ [(⟨['a'], false, 10, 1⟩ : Event), ⟨['b'], true, 43/4, 5⟩, ⟨['b'], true, 21/2, 2⟩],
      v.label ≠ [] ∧ PlainLabel v.label) := by
  obtain ⟨made, hm⟩ : ∃ made, prepare tickSort heisOps { resolution := some 2, includeTime := true }
      [inc "a" 10 1, val "b" (43/4) 5, val "b" (21/2) 2] = some made := Option.isSome_iff_exists.1 (by decide +kernel)
  refine ⟨made, hm, ?_, by simp [PlainLabel]⟩
  refine .cons ⟨rfl, rfl, ?_, rfl⟩ (.cons ⟨rfl, rfl, ?_, rfl⟩ (.cons ⟨rfl, rfl, ?_, rfl⟩ .nil)) <;> exact rfl

/-- The answers: the changes 2 and 3 of the second channel after the change 1 of the first. -/
example : ask { resolution := some 2 } [inc "a" 10 1, val "b" (43/4) 5, val "b" (21/2) 2] 0 1 none = some (1, 5, 5/2) ∧
    ask { resolution := some 2 } [inc "a" 10 1, val "b" (43/4) 5, val "b" (21/2) 2] (1/2) (3/4) none = some (0, 2, 0) := by
  decide +kernel

/-- the ticks have these times -/
theorem prepare_times {sort : List Ticks.Tick → List Ticks.Tick} (hsort : Sorts sort) {ops : LieOps Vec} {k : KW}
    {kind : Ticks.TimeKind} {e : Ticks.Entry} {es : List Ticks.Entry} {q : ℚ} {qs : List ℚ}
    (h1 : Ticks.IsTime kind e.time q) (h2 : List.Forall₂ (fun e q => Ticks.IsTime kind e.time q) es qs) {made : Made}
    (hm : prepare sort ops k (e :: es) = some made) :
    (made.items.map (·.1)).Perm (0 :: qs.map fun x => x - q) := by
  obtain ⟨m, h, m', a1, a2, a3, a4, a5, a6⟩ := prepare_ok hm
  rw [loop_times ops _ _ _ _ _ a5]
  refine ((hsort h.ticks).1.map _).trans ?_
  have key := congrArg (List.map fun x : Str × TickType × Ticks.Data × ℚ => x.2.2.2)
    (Ticks.C138_differences_partial m.schema kind e es q qs h1 h2 h a2)
  rw [List.map_map] at key
  have e1 : ((fun x : Str × TickType × Ticks.Data × ℚ => x.2.2.2) ∘ fun t : Ticks.Tick => (t.label, t.type, t.data, t.time)) =
      fun t => t.time := rfl
  rw [e1] at key
  rw [key, List.map_cons]
  have : ∀ {es : List Ticks.Entry} {qs : List ℚ}, List.Forall₂ (fun e q => Ticks.IsTime kind e.time q) es qs →
      (List.zipWith (fun (e : Ticks.Entry) (x : ℚ) => (e.label, e.type, e.data, x - q)) es qs).map (fun x => x.2.2.2) =
        qs.map fun x => x - q := by
    intro es qs h
    induction h with
    | nil => rfl
    | cons _ _ ih => rw [List.zipWith_cons_cons, List.map_cons, ih, List.map_cons]
  rw [this h2]

/-- C140 fails for data whose first tick is not the earliest: the constructor does not return, for any keyword
arguments (times are counted from the first tick given, so that there is a tick before 0). -/
theorem C140_order_refuted (sort : List Ticks.Tick → List Ticks.Tick) (hsort : Sorts sort) (ops : LieOps Vec)
    (sig : Vec → G) (hI : Interprets ops sig) (k : KW) (kind : Ticks.TimeKind) (e : Ticks.Entry)
    (es : List Ticks.Entry) (q : ℚ) (qs : List ℚ) (h1 : Ticks.IsTime kind e.time q)
    (h2 : List.Forall₂ (fun e q => Ticks.IsTime kind e.time q) es qs) (h3 : ∃ x ∈ qs, x < q) (made : Made)
    (hm : prepare sort ops k (e :: es) = some made) : ∀ fuel, make ops made fuel = none := by
  have hp := prepare_times hsort h1 h2 hm
  obtain ⟨x, hx, hlt⟩ := h3
  have m1 : x - q ∈ made.items.map (·.1) := hp.mem_iff.2 (by
    right; exact List.mem_map_of_mem (f := fun x => x - q) hx)
  have m2 : (0 : ℚ) ∈ made.items.map (·.1) := hp.mem_iff.2 (by simp)
  obtain ⟨r1, a1, b1⟩ := List.mem_map.1 m1
  obtain ⟨r2, a2, b2⟩ := List.mem_map.1 m2
  intro fuel
  unfold make
  rw [C40_construction_refuted ops sig hI _ made.items ⟨r1, a1, by rw [b1]; linarith⟩
    ⟨r2, a2, by rw [b2], by rw [b2]; positivity⟩ fuel]
  rfl

/-- Two ticks, the later one first. -/
example : ∃ made, prepare tickSort heisOps {} [inc "a" 1 1, inc "a" 0 2] = some made ∧
    ∀ fuel, make heisOps made fuel = none := by
  obtain ⟨made, hm⟩ : ∃ made, prepare tickSort heisOps {} [inc "a" 1 1, inc "a" 0 2] = some made :=
    Option.isSome_iff_exists.1 (by decide +kernel)
  exact ⟨made, hm, C140_order_refuted tickSort tickSort_sorts heisOps toHeis heis_interprets {} .float (inc "a" 1 1)
    [inc "a" 0 2] 1 [0] rfl (.cons rfl .nil) ⟨0, by simp, by norm_num⟩ made hm⟩

/-- C140 fails without `support`: the support of the stream is `[0, 1)`, whatever the times of the ticks, and the
tick at time 3/2 after the first is in no signature; with a support that holds all ticks it is. -/
theorem C140_support_refuted :
    ask { resolution := some 2 } [inc "a" 10 1, inc "b" (23/2) 2] 0 10 none = some (1, 0, 0) ∧
    ask { resolution := some 2, support := some (some ⟨0, 10, .clopen⟩) } [inc "a" 10 1, inc "b" (23/2) 2] 0 10 none =
      some (1, 2, 1) := by
  decide +kernel

/-- C140: with no keyword arguments but a resolution, a support and `include_time`, increments and values are
accepted. -/
theorem C140_accepted (sort : List Ticks.Tick → List Ticks.Tick) (hsort : Sorts sort) (ops : LieOps Vec)
    (R : Option ℤ) (i : Option RealInterval) (T : Bool) (kind : Ticks.TimeKind) (es : List Ticks.Entry)
    (vs : List Event) (hes : List.Forall₂ (Says kind) es vs) (hlab : ∀ v ∈ vs, v.label ≠ [] ∧ PlainLabel v.label)
    (hne : vs ≠ []) :
    ∃ made, prepare sort ops { resolution := R, support := i.map some, includeTime := T } es = some made := by
  obtain ⟨v0, vs', rfl⟩ := List.exists_cons_of_ne_nil hne
  obtain ⟨hg, hcat⟩ := says_good hes hlab
  have h0 : ((v0 :: vs').head?.map (·.time)) = some v0.time := rfl
  generalize hk : ({ resolution := R, support := i.map some, includeTime := T } : KW) = k
  have hmeta : ∃ m, kwargsToMetadata k = .ok m ∧ m.width = 0 ∧ m.depth = 0 ∧ m.ctype = none ∧ m.ctx = none ∧
      m.schema = { needsAdding := T } ∧ m.includeTime = T := by
    subst hk
    cases T <;> cases i <;> exact ⟨_, rfl, rfl, rfl, rfl, rfl, rfl, rfl⟩
  obtain ⟨m, m1, m2, m3, m4, m5, m6, m7⟩ := hmeta
  have hacc : ∃ h, Ticks.build m.schema false es = some h := by
    refine Ticks.C138_accepted m.schema kind es fun e he => ?_
    obtain ⟨j, hj, rfl⟩ := List.getElem_of_mem he
    have := (List.forall₂_iff_get.1 hes).2 j hj (by rw [← hes.length_eq]; exact hj)
    simp only [List.get_eq_getElem] at this
    obtain ⟨c1, c2, c3, c4⟩ := this
    refine ⟨⟨by rw [c4]; simp, fun ht => absurd ht (hcat _ (List.getElem_mem hj))⟩, _, c3⟩
  obtain ⟨h, hb⟩ := hacc
  obtain ⟨c1, c2⟩ := build_inferred (by rw [m6]) (by rw [m6]) hg hb
  have c3 := build_needs hb
  have hrec := says_recorded hes h0 hb
  have hticks : h.ticks ≠ [] := by
    intro e
    rw [e] at hrec
    cases hrec
  have hneeds : h.schema.needsAdding = T := by rw [c3, m6]
  have hlast : lastMinuteSetup { m with schema := h.schema } = some { h.schema with isFinal := true } := by
    unfold lastMinuteSetup
    dsimp only
    rw [c2, m2, m7]
    have : ((0 : ℤ) - h.schema.width).toNat = 0 := by omega
    rw [if_neg (by simp), this]
    dsimp only [insertMany]
    rw [finalize_zero]
    cases T with
    | false => rfl
    | true =>
      rw [if_pos rfl]
      have : ({ h.schema with needsAdding := true } : Schema) = h.schema := by
        cases hh : h.schema with
        | mk a b c => rw [hh] at hneeds; dsimp only at hneeds; rw [hneeds]
      rw [this]
  have hcf : ∀ l ∈ Ticks.firsts (es.map (·.label)), (Ticks.channelFor es l).numVariants = 1 ∧
      (Ticks.channelFor es l).isLeadLag = false := channelFor_plain hcat
  have hw : 0 < h.schema.widthWithoutParam := by
    rw [widthWithoutParam_eq, c1]
    unfold Ticks.inferred
    have : v0.label ∈ Ticks.firsts (es.map (·.label)) := by
      rw [Ticks.mem_firsts, says_labels hes]; simp
    rw [List.map_map]
    refine lt_of_lt_of_le (b := (Ticks.channelFor es v0.label).numVariants) ?_ ?_
    · rw [(hcf _ this).1]; exact one_pos
    · exact List.single_le_sum (by simp) _ (List.mem_map.2 ⟨v0.label, this, rfl⟩)
  have hfin : ∃ m', finalizeSchema { m with schema := h.schema } = .ok m' ∧
      m'.schema = { h.schema with isFinal := true } := by
    unfold finalizeSchema
    rw [hlast]
    dsimp only
    have w1 : ({ h.schema with isFinal := true } : Schema).width = h.schema.widthWithoutParam + (if T then 1 else 0) := by
      show h.schema.width = _
      unfold Schema.width
      rw [hneeds]
      split <;> rfl
    rw [w1, if_neg (by omega), if_neg (by rw [m7]; rintro ⟨rfl, h⟩; rw [if_pos rfl] at h; omega)]
    unfold settleWidth
    dsimp only
    rw [if_pos m2, m3, m4, m5]
    exact ⟨_, rfl, rfl⟩
  obtain ⟨m', f1, f2⟩ := hfin
  obtain ⟨o1, o2, o3⟩ := sort_order hsort (fun i t ht => Ticks.C138_precedence _ es h hb i t ht)
  obtain ⟨ordered, p1, p2⟩ := ordered_events hrec o1 o2 o3
  have hl := loop_changes ops (s := m'.schema) (L := Ticks.firsts (es.map (·.label))) (f := Ticks.channelFor es)
    (extra := []) (by rw [f2, List.append_nil]; exact c1) hcf v0.time (sort h.ticks) ordered [] (fun _ _ => 0) p2
    (fun v hv => by
      have hv' := p1.perm.mem_iff.1 hv
      refine ⟨(hlab v hv').1, (hlab v hv').2, ?_⟩
      rw [Ticks.mem_firsts, says_labels hes]
      exact List.mem_map_of_mem hv')
    (fun l _ => by funext c; simp [single, valueAfter])
  simp only [List.getLast?_nil] at hl
  unfold prepare
  rw [m1]
  dsimp only
  rw [hb]
  dsimp only
  rw [if_neg hticks, f1]
  dsimp only
  rw [hl]
  exact ⟨_, rfl⟩

/-- One increment, without keyword arguments. -/
example : List.Forall₂ (Says .float) [inc "a" 10 1] [⟨['a'], false, 10, 1⟩] := .cons ⟨rfl, rfl, rfl, rfl⟩ .nil

/-- C140: the stream depends on the data only through its ticks: in whatever layout they are given (see
`Parse.Ticks`), the same ticks make the same stream. -/
theorem C140_layout (sort : List Ticks.Tick → List Ticks.Tick) (ops : LieOps Vec) (r : Reading) (k : KW)
    (o : Parse.Obj) (xs : List (Parse.Obj × Parse.Obj × Parse.Obj × Parse.Obj)) (cs : List Parse.Call)
    (es : List Ticks.Entry) (h1 : Parse.Ticks o xs) (h2 : List.Forall₂ Parse.Records xs cs)
    (h3 : List.Forall₂ (fun c e => entry r c = some e) cs es) :
    fromObject sort ops r k o = prepare sort ops k es := by
  unfold fromObject
  rw [Parse.C137_recorded_partial o xs cs h1 h2]
  clear h1 h2
  have : cs.mapM (entry r) = some es := by
    induction h3 with
    | nil => rfl
    | cons a _ ih => rw [List.mapM_cons, a, ih]; rfl
  show (cs.mapM (entry r)).bind _ = _
  rw [this]
  rfl

/-- The same tick as a tuple of four objects and as `(time, (label, increment))`. -/
example (sort : List Ticks.Tick → List Ticks.Tick) (ops : LieOps Vec) (k : KW) (r : Reading) :
    fromObject sort ops r k (.tuple (Parse.py [.num 1, Parse.st "a", Parse.st "increment", .num 2])) =
      fromObject sort ops r k (.tuple (Parse.py [.num 1, .tuple (Parse.py [Parse.st "a", .num 2])])) := by
  have h2 : List.Forall₂ Parse.Records [(.num 1, Parse.st "a", Parse.st "increment", .num 2)]
      [.addIncrement (Parse.st "a") (.num 1) (.num 2)] := .cons (.inl ⟨.inr rfl, rfl⟩) .nil
  have h3 : List.Forall₂ (fun c e => entry r c = some e) [.addIncrement (Parse.st "a") (.num 1) (.num 2)]
      [⟨"a".toList, .increment, r.time (.num 1), r.data (.num 2)⟩] := .cons rfl .nil
  rw [C140_layout sort ops r k _ _ _ _ (.tuple _ _ _ _) h2 h3,
    C140_layout sort ops r k _ _ _ _ (Parse.Ticks.pair (.num 1) _ [_] (.pair _ _ [_] (.num 2))) h2 h3]

end RoughPy.FromData
