import Verif.Streams.Spec
import Verif.Intervals.Props

set_option linter.unusedSectionVars false

namespace RoughPy.Streams

open RoughPy.Intervals

/-! ## Programs -/

namespace Prog

variable {L α β : Type}

/-- Value of a program when every cell holds `f ctx d`. -/
def eval (f : ℕ → DyadicInterval → L) : Prog L α → Option α
  | ret a => some a
  | fail => none
  | cell c d k => (k (f c d)).eval f

theorem eval_bind (f : ℕ → DyadicInterval → L) (p : Prog L α) (g : α → Prog L β) :
    (p.bind g).eval f = (p.eval f).bind fun a => (g a).eval f := by
  induction p with
  | ret a => rfl
  | fail => rfl
  | cell c d k ih => exact ih _

theorem eval_forEach (f : ℕ → DyadicInterval → L) (g : β → Prog L α) (xs : List β) :
    (forEach g xs).eval f = xs.mapM fun x => (g x).eval f := by
  induction xs with
  | nil => rfl
  | cons x xs ih =>
    rw [List.mapM_cons, ← ih]
    simp only [forEach, eval_bind]
    rfl

/-- All cells of the program are asked for with context `ctx`. -/
def Uses (ctx : ℕ) : Prog L α → Prop
  | ret _ => True
  | fail => True
  | cell c _ k => c = ctx ∧ ∀ x, (k x).Uses ctx

theorem Uses.bind {ctx : ℕ} {p : Prog L α} {g : α → Prog L β} (h : p.Uses ctx)
    (hg : ∀ a, (g a).Uses ctx) : (p.bind g).Uses ctx := by
  induction p with
  | ret a => exact hg a
  | fail => trivial
  | cell c d k ih => exact ⟨h.1, fun x => ih x (h.2 x)⟩

theorem Uses.forEach {ctx : ℕ} {g : β → Prog L α} (hg : ∀ b, (g b).Uses ctx) (xs : List β) :
    (Prog.forEach g xs).Uses ctx := by
  induction xs with
  | nil => trivial
  | cons x xs ih => exact (hg x).bind fun y => ih.bind fun ys => trivial

end Prog

/-- The cache holds only values computed by the implementation with context `ctx`. -/
def CacheOK {L : Type} (S : Impl L) (ctx : ℕ) (c : Cache L) : Prop :=
  ∀ d x, c d = some x → x = S.impl ctx (asInterval d)

/-- The value of a cell. -/
def cellValue {L : Type} (S : Impl L) (ctx : ℕ) (d : DyadicInterval) : L :=
  S.impl ctx (asInterval d)

variable {L : Type}

theorem cellStep_ok (S : Impl L) (ctx : ℕ) (d : DyadicInterval) (c : Cache L)
    (h : CacheOK S ctx c) :
    (cellStep S ctx d c).1 = cellValue S ctx d ∧ CacheOK S ctx (cellStep S ctx d c).2 := by
  unfold cellStep
  cases hc : c d with
  | some x => exact ⟨h d x hc, h⟩
  | none =>
    refine ⟨rfl, ?_⟩
    intro d' x hx
    simp only at hx
    by_cases he : d' = d
    · subst he
      rw [Function.update_self] at hx
      exact (Option.some.inj hx).symm
    · rw [Function.update_of_ne he] at hx
      exact h d' x hx

theorem run_ok {α : Type} (S : Impl L) (ctx : ℕ) (p : Prog L α) (hp : p.Uses ctx) :
    ∀ c : Cache L, CacheOK S ctx c →
      (p.run S c).1 = p.eval (cellValue S) ∧ CacheOK S ctx (p.run S c).2 := by
  induction p with
  | ret a => exact fun c h => ⟨rfl, h⟩
  | fail => exact fun c h => ⟨rfl, h⟩
  | cell c d k ih =>
    intro cache h
    obtain ⟨rfl, hk⟩ := hp
    obtain ⟨h1, h2⟩ := cellStep_ok S c d cache h
    have := ih (cellStep S c d cache).1 (hk _) (cellStep S c d cache).2 h2
    simp only [Prog.run, Prog.eval]
    rw [h1] at this
    rw [h1]
    exact this

theorem layerQuery_uses (S : Impl L) (ctx fuel : ℕ) (d : DyadicInterval) :
    (layerQuery S ctx fuel d).Uses ctx := by
  induction fuel generalizing d with
  | zero => trivial
  | succ fuel ih =>
    unfold layerQuery
    split
    · trivial
    · split
      · exact ⟨rfl, fun _ => trivial⟩
      · split
        · split
          · trivial
          · split
            · exact ih _
            · trivial
        · split
          · refine (ih _).bind fun a => (ih _).bind fun b => ?_
            split
            · trivial
            · split <;> trivial
          · trivial

theorem dyadicQuery_uses (S : Impl L) (ctx : ℕ) (d : DyadicInterval) :
    (dyadicQuery S ctx d).Uses ctx := by
  unfold dyadicQuery
  split
  · exact layerQuery_uses _ _ _ _
  · trivial

theorem logSigImpl_uses (S : Impl L) (ctx fuel : ℕ) (q : RealInterval) (res : ℤ) :
    (logSigImpl S ctx fuel q res).Uses ctx := by
  unfold logSigImpl
  split
  · trivial
  · exact (Prog.Uses.forEach (fun d => dyadicQuery_uses S ctx d) _).bind fun _ => trivial

theorem ask_uses (s : Stream L) (fuel : ℕ) (q : Query) : (s.ask fuel q).Uses q.ctx := by
  unfold Stream.ask
  split
  · unfold Stream.logSignature
    split
    · trivial
    · exact logSigImpl_uses _ _ _ _ _
  · unfold Stream.logSignatureAt
    split
    · trivial
    · exact logSigImpl_uses _ _ _ _ _

theorem session_ok (s : Stream L) (fuel ctx : ℕ) (qs : List Query) (hq : ∀ q ∈ qs, q.ctx = ctx) :
    ∀ c : Cache L, CacheOK s.impl ctx c →
      (session s fuel qs c).1 = qs.map (fun q => (s.ask fuel q).eval (cellValue s.impl)) ∧
      CacheOK s.impl ctx (session s fuel qs c).2 := by
  induction qs with
  | nil => exact fun c h => ⟨rfl, h⟩
  | cons q qs ih =>
    intro c h
    have hu : (s.ask fuel q).Uses ctx := by
      have := ask_uses s fuel q
      rwa [hq q (by simp)] at this
    obtain ⟨h1, h2⟩ := run_ok s.impl ctx _ hu c h
    obtain ⟨h3, h4⟩ := ih (fun q hqm => hq q (by simp [hqm])) _ h2
    exact ⟨by simp only [session, List.map_cons]; rw [h1, h3], h4⟩

theorem emptyCache_ok (S : Impl L) (ctx : ℕ) : CacheOK S ctx Cache.empty := by
  intro d x h
  cases h

/-! ## Concurrent execution -/

/-- Every thread is, from here, still going to produce its value. -/
theorem schedule_ok {α : Type} (S : Impl L) (ctx : ℕ) (sched : List ℕ) :
    ∀ (ps : List (Prog L α)) (c : Cache L), (∀ p ∈ ps, p.Uses ctx) → CacheOK S ctx c →
      (runSchedule S sched (ps, c)).1.map (fun p => p.eval (cellValue S)) =
        ps.map (fun p => p.eval (cellValue S)) ∧
      (∀ p ∈ (runSchedule S sched (ps, c)).1, p.Uses ctx) ∧
      CacheOK S ctx (runSchedule S sched (ps, c)).2 := by
  induction sched with
  | nil => exact fun ps c h1 h2 => ⟨rfl, h1, h2⟩
  | cons i sched ih =>
    intro ps c h1 h2
    have hstep : runSchedule S (i :: sched) (ps, c) = runSchedule S sched (threadStep S i (ps, c)) :=
      rfl
    rw [hstep]
    unfold threadStep
    simp only
    cases hi : ps[i]? with
    | none => exact ih ps c h1 h2
    | some p =>
      have hmem : p ∈ ps := List.mem_of_getElem? hi
      cases p with
      | ret a => exact ih ps c h1 h2
      | fail => exact ih ps c h1 h2
      | cell c' d k =>
        obtain ⟨rfl, hk⟩ := h1 _ hmem
        obtain ⟨g1, g2⟩ := cellStep_ok S c' d c h2
        simp only
        have hu : ∀ p ∈ ps.set i (k (cellStep S c' d c).1), p.Uses c' := by
          intro p hp
          rcases List.mem_or_eq_of_mem_set hp with h | h
          · exact h1 p h
          · subst h; exact hk _
        obtain ⟨e1, e2, e3⟩ := ih (ps.set i (k (cellStep S c' d c).1)) _ hu g2
        refine ⟨?_, e2, e3⟩
        rw [e1, List.map_set]
        have hlt : i < ps.length := by
          rcases Nat.lt_or_ge i ps.length with h | h
          · exact h
          · rw [List.getElem?_eq_none h] at hi; cases hi
        have hget : ps[i] = Prog.cell c' d k := by
          rw [List.getElem?_eq_getElem hlt] at hi; exact Option.some.inj hi
        apply List.ext_getElem
        · simp
        · intro j hj1 hj2
          rw [List.getElem_set]
          split
          · subst_vars
            rw [List.getElem_map, hget, g1]
            rfl
          · rfl

/-! ## Time-stamped events -/

theorem emplace_keys (t : ℚ) (x : L) (m : List (ℚ × L)) (r : ℚ × L) (h : r ∈ emplace t x m) :
    r.1 = t ∨ r ∈ m := by
  induction m with
  | nil => simp only [emplace, List.mem_singleton] at h; left; rw [h]
  | cons s m ih =>
    obtain ⟨s, y⟩ := s
    unfold emplace at h
    split at h
    · rcases List.mem_cons.1 h with h | h
      · left; rw [h]
      · right; exact h
    · split at h
      · rcases List.mem_cons.1 h with h | h
        · right; rw [h]; simp
        · rcases ih h with h | h
          · left; exact h
          · right; simp [h]
      · right; exact h

theorem emplace_chronological (t : ℚ) (x : L) (m : List (ℚ × L)) (h : Chronological m) :
    Chronological (emplace t x m) := by
  induction m with
  | nil => exact List.pairwise_singleton _ _
  | cons s m ih =>
    obtain ⟨s, y⟩ := s
    have h' := List.pairwise_cons.1 h
    unfold emplace
    split
    · rename_i hts
      refine List.pairwise_cons.2 ⟨?_, h⟩
      intro r hr
      rcases List.mem_cons.1 hr with hr | hr
      · rw [hr]; exact hts
      · exact hts.trans (h'.1 r hr)
    · split
      · rename_i hst
        refine List.pairwise_cons.2 ⟨?_, ih h'.2⟩
        intro r hr
        rcases emplace_keys t x m r hr with hr | hr
        · rw [hr]; exact hst
        · exact h'.1 r hr
      · exact h

theorem incrementData_chronological (rows : List (ℚ × L)) : Chronological (incrementData rows) := by
  unfold incrementData
  suffices ∀ m : List (ℚ × L), Chronological m →
      Chronological (rows.foldl (fun m r => emplace r.1 r.2 m) m) from this [] List.Pairwise.nil
  induction rows with
  | nil => exact fun m h => h
  | cons r rows ih => exact fun m h => ih _ (emplace_chronological _ _ _ h)

/-- the range between the first element satisfying `Pb` and the first satisfying `Pe` -/
theorem range_eq_filter (Pb Pe : ℚ → Bool) (hb : ∀ s t, s < t → Pb s = true → Pb t = true)
    (he : ∀ s t, s < t → Pe s = true → Pe t = true) (heb : ∀ t, Pe t = true → Pb t = true)
    (m : List (ℚ × L)) (h : Chronological m) :
    (m.take (m.findIdx fun r => Pe r.1)).drop (m.findIdx fun r => Pb r.1) =
      m.filter fun r => Pb r.1 && !Pe r.1 := by
  induction m with
  | nil => rfl
  | cons r m ih =>
    have h' := List.pairwise_cons.1 h
    rw [List.findIdx_cons, List.findIdx_cons, List.filter_cons]
    cases hE : Pe r.1 with
    | true =>
      simp only [cond_true, List.take_zero, List.drop_nil]
      symm
      simp only [heb _ hE, Bool.not_true, Bool.and_false, Bool.false_eq_true, if_false]
      rw [List.filter_eq_nil_iff]
      intro s hs
      simp [he _ _ (h'.1 s hs) hE]
    | false =>
      cases hB : Pb r.1 with
      | true =>
        have hall : m.findIdx (fun r => Pb r.1) = 0 := by
          cases m with
          | nil => rfl
          | cons s m =>
            rw [List.findIdx_cons, hb _ _ (h'.1 s (by simp)) hB]
            rfl
        have := ih h'.2
        rw [hall] at this
        simpa using this
      | false =>
        simp [ih h'.2]

theorem incrementRange_eq (m : List (ℚ × L)) (h : Chronological m) (i : RealInterval)
    (hi : i.inf ≤ i.sup) : incrementRange m i = eventsIn m i.points := by
  obtain ⟨a, b, t⟩ := i
  simp only at hi
  unfold incrementRange eventsIn RealInterval.points
  cases t with
  | clopen =>
    simp only [lowerBound, span]
    rw [range_eq_filter (fun t => decide (a ≤ t)) (fun t => decide (b ≤ t))
      (fun s t hst hs => by simp only [decide_eq_true_eq] at *; linarith)
      (fun s t hst hs => by simp only [decide_eq_true_eq] at *; linarith)
      (fun t ht => by simp only [decide_eq_true_eq] at *; linarith) m h]
    refine List.filter_congr fun r _ => ?_
    rw [Bool.eq_iff_iff]
    simp [Set.mem_Ico]
  | opencl =>
    simp only [upperBound, span]
    rw [range_eq_filter (fun t => decide (a < t)) (fun t => decide (b < t))
      (fun s t hst hs => by simp only [decide_eq_true_eq] at *; linarith)
      (fun s t hst hs => by simp only [decide_eq_true_eq] at *; linarith)
      (fun t ht => by simp only [decide_eq_true_eq] at *; linarith) m h]
    refine List.filter_congr fun r _ => ?_
    rw [Bool.eq_iff_iff]
    simp [Set.mem_Ioc]

theorem filter_append_of_chronological (m : List (ℚ × L)) (h : Chronological m) (P Q : ℚ → Prop)
    [DecidablePred P] [DecidablePred Q] (hPQ : ∀ s t, P s → Q t → s < t) :
    m.filter (fun r => decide (P r.1)) ++ m.filter (fun r => decide (Q r.1)) =
      m.filter (fun r => decide (P r.1 ∨ Q r.1)) := by
  induction m with
  | nil => rfl
  | cons r m ih =>
    have h' := List.pairwise_cons.1 h
    simp only [List.filter_cons]
    by_cases hP : P r.1
    · have hQ : ¬ Q r.1 := fun hq => lt_irrefl _ (hPQ _ _ hP hq)
      simp [hP, hQ, ih h'.2]
    · by_cases hQ : Q r.1
      · have hnil : m.filter (fun r => decide (P r.1)) = [] := by
          rw [List.filter_eq_nil_iff]
          intro s hs hps
          simp only [decide_eq_true_eq] at hps
          exact lt_asymm (hPQ _ _ hps hQ) (h'.1 s hs)
        have := ih h'.2
        rw [hnil, List.nil_append] at this
        simp [hP, hQ, hnil, this]
      · simp [hP, hQ, ih h'.2]

theorem eventsIn_append (m : List (ℚ × L)) (h : Chronological m) (S T : Set ℚ)
    (hST : ∀ s ∈ S, ∀ t ∈ T, s < t) : eventsIn m S ++ eventsIn m T = eventsIn m (S ∪ T) := by
  classical
  unfold eventsIn
  rw [filter_append_of_chronological m h (· ∈ S) (· ∈ T) fun s t hs ht => hST s hs t ht]
  refine List.filter_congr fun r _ => ?_
  rw [Bool.eq_iff_iff]
  simp

theorem eventsIn_Ico_append (m : List (ℚ × L)) (h : Chronological m) {a b c : ℚ} (hab : a ≤ b)
    (hbc : b ≤ c) :
    eventsIn m (Set.Ico a b) ++ eventsIn m (Set.Ico b c) = eventsIn m (Set.Ico a c) := by
  rw [eventsIn_append m h _ _ fun s hs t ht => hs.2.trans_le ht.1,
    Set.Ico_union_Ico_eq_Ico hab hbc]

theorem eventsIn_Ioc_append (m : List (ℚ × L)) (h : Chronological m) {a b c : ℚ} (hab : a ≤ b)
    (hbc : b ≤ c) :
    eventsIn m (Set.Ioc a b) ++ eventsIn m (Set.Ioc b c) = eventsIn m (Set.Ioc a c) := by
  rw [eventsIn_append m h _ _ fun s hs t ht => lt_of_le_of_lt hs.2 ht.1,
    Set.Ioc_union_Ioc_eq_Ioc hab hbc]

/-! ## Queries -/

variable {G : Type} [Monoid G]

theorem sig_combine (ops : LieOps L) (sig : L → G) (hI : Interprets ops sig) (x y : L) :
    sig (if ops.isZero x then y else if ops.isZero y then x else ops.cbh [x, y]) = sig x * sig y := by
  split
  · rename_i h; rw [hI.isZero x h, one_mul]
  · split
    · rename_i h; rw [hI.isZero y h, mul_one]
    · rw [hI.cbh]; simp

theorem sig_cbh_filter (ops : LieOps L) (sig : L → G) (hI : Interprets ops sig) (xs : List L) :
    sig (ops.cbh (xs.filter fun x => !ops.isZero x)) = (xs.map sig).prod := by
  rw [hI.cbh]
  induction xs with
  | nil => rfl
  | cons x xs ih =>
    rw [List.filter_cons]
    cases hz : ops.isZero x with
    | true => simp [ih, hI.isZero x hz]
    | false => simp [ih]

/-- `P a b` is what the stream contributes between `a` and `b`; additive, and correct on the
cells of the default resolution. -/
structure Contribution (S : Impl L) (ctx : ℕ) (sig : L → G) (P : ℚ → ℚ → G) : Prop where
  chen : ∀ a b c, a ≤ b → b ≤ c → P a b * P b c = P a c
  empty : ∀ d : DyadicInterval, d.type = .clopen → d.n ≤ S.defaultRes →
    S.empty (asInterval d) = true → P d.left d.right = 1
  cell : ∀ d : DyadicInterval, d.type = .clopen → d.n = S.defaultRes →
    S.empty (asInterval d) = false → sig (S.impl ctx (asInterval d)) = P d.left d.right

theorem layerQuery_sig (S : Impl L) (ctx : ℕ) (sig : L → G) (hI : Interprets (S.ops ctx) sig)
    (P : ℚ → ℚ → G) (hP : Contribution S ctx sig P) :
    ∀ (fuel : ℕ) (d : DyadicInterval), d.type = .clopen → d.n ≤ S.defaultRes →
      (S.defaultRes - d.n).toNat < fuel →
      ∃ x, (layerQuery S ctx fuel d).eval (cellValue S) = some x ∧ sig x = P d.left d.right := by
  intro fuel
  induction fuel with
  | zero => intro d _ _ h; omega
  | succ fuel ih =>
    intro d ht hn hf
    unfold layerQuery
    cases hE : S.empty (asInterval d) with
    | true => exact ⟨_, rfl, by rw [hI.zero, hP.empty d ht hn hE]⟩
    | false =>
      rw [if_neg (by simp)]
      by_cases hR : d.n = S.defaultRes
      · rw [if_pos hR]
        exact ⟨_, rfl, hP.cell d ht hR hE⟩
      · rw [if_neg hR, if_neg (by omega)]
        obtain ⟨l, r, hl, hr, tl, tr, nl, nr, e1, e2, e3, -⟩ := C07_halves d
        have hl' : d.shrinkLeft 1 = some l := by
          unfold DyadicInterval.shrinkLeft
          rw [hl]
          rfl
        rw [hl', hr]
        obtain ⟨x, hx, sx⟩ := ih l (tl.trans ht) (by omega) (by omega)
        obtain ⟨y, hy, sy⟩ := ih r (tr.trans ht) (by omega) (by omega)
        simp only [Prog.eval_bind, hx, hy, Option.bind_some]
        refine ⟨if (S.ops ctx).isZero x then y else if (S.ops ctx).isZero y then x
          else (S.ops ctx).cbh [x, y], ?_, ?_⟩
        · split
          · rfl
          · split <;> rfl
        · rw [sig_combine _ _ hI, sx, sy, e1, e2, e3]
          apply hP.chen
          · rw [← e1, ← e2]; exact (left_lt_right l).le
          · rw [← e3]; exact (left_lt_right r).le

theorem layerQuery_fuel_sig (S : Impl L) (ctx : ℕ) (sig : L → G) (hI : Interprets (S.ops ctx) sig)
    (P : ℚ → ℚ → G) (hP : Contribution S ctx sig P) (d : DyadicInterval) (ht : d.type = .clopen)
    (hn : d.n ≤ S.defaultRes) :
    ∃ x, (layerQuery S ctx (layerFuel S d) d).eval (cellValue S) = some x ∧
      sig x = P d.left d.right := by
  apply layerQuery_sig S ctx sig hI P hP _ d ht hn
  unfold layerFuel
  omega

/-- Pieces of a tiling, evaluated and multiplied. -/
theorem tiles_prod (f : DyadicInterval → Option L) (sig : L → G) (P : ℚ → ℚ → G)
    (chen : ∀ a b c, a ≤ b → b ≤ c → P a b * P b c = P a c) (h1 : ∀ a, P a a = 1) :
    ∀ (ds : List DyadicInterval) (a b : ℚ), TilesFrom ds a b →
      (∀ d ∈ ds, ∃ x, f d = some x ∧ sig x = P d.left d.right) →
      ∃ xs, ds.mapM f = some xs ∧ (xs.map sig).prod = P a b ∧ a ≤ b := by
  intro ds
  induction ds with
  | nil =>
    intro a b h _
    simp only [TilesFrom] at h
    subst h
    exact ⟨[], rfl, by simp [h1], le_rfl⟩
  | cons d ds ih =>
    intro a b h hf
    obtain ⟨rfl, h⟩ := h
    obtain ⟨x, hx, sx⟩ := hf d (by simp)
    obtain ⟨xs, hxs, sxs, hle⟩ := ih d.right b h fun e he => hf e (by simp [he])
    refine ⟨x :: xs, ?_, ?_, (left_lt_right d).le.trans hle⟩
    · rw [List.mapM_cons, hx, hxs]; rfl
    · rw [List.map_cons, List.prod_cons, sx, sxs]
      exact chen _ _ _ (left_lt_right d).le hle

theorem dyadicValue_floor (res : ℤ) (x : ℚ) : dyadicValue ⌊x * 2 ^ res⌋ res = gridFloor res x := rfl

theorem gridFloor_mono (res : ℤ) {x y : ℚ} (h : x ≤ y) : gridFloor res x ≤ gridFloor res y := by
  unfold gridFloor
  have h2 := two_zpow_pos res
  gcongr

theorem clamp_mono (lo hi : ℚ) {x y : ℚ} (h : x ≤ y) : clamp lo hi x ≤ clamp lo hi y := by
  unfold clamp
  gcongr

/-- Evaluate the dissection of a query with any function that is right on its pieces. -/
theorem logSigImpl_sig (S : Impl L) (ctx : ℕ) (sig : L → G) (hI : Interprets (S.ops ctx) sig)
    (P : ℚ → ℚ → G) (chen : ∀ a b c, a ≤ b → b ≤ c → P a b * P b c = P a c) (h1 : ∀ a, P a a = 1)
    (a b : ℚ) (t : IType) (hab : a ≤ b) (res : ℤ)
    (hd : ∀ d : DyadicInterval, d.type = .clopen → d.n ≤ res →
      ∃ x, (dyadicQuery S ctx d).eval (cellValue S) = some x ∧ sig x = P d.left d.right) :
    ∃ x, Returns (fun fuel => (logSigImpl S ctx fuel ⟨a, b, t⟩ res).eval (cellValue S)) x ∧
      sig x = P (gridFloor res a) (gridFloor res b) := by
  obtain ⟨n₀, ds, hds, htile, hdt⟩ := C05_dissection a b res hab
  obtain ⟨xs, hxs, sxs, -⟩ := tiles_prod (fun d => (dyadicQuery S ctx d).eval (cellValue S)) sig P
    chen h1 ds _ _ htile fun d hd' => hd d (hdt d hd').1 (hdt d hd').2
  refine ⟨(S.ops ctx).cbh (xs.filter fun x => !(S.ops ctx).isZero x), ⟨n₀, fun n hn => ?_⟩, ?_⟩
  · unfold logSigImpl
    simp only [hds n hn]
    rw [Prog.eval_bind, Prog.eval_forEach, hxs]
    rfl
  · rw [sig_cbh_filter _ _ hI, sxs]
    rfl

theorem adjust_default (S : Impl L) (h0 : S.offset = 0) (h1 : S.scaling = 1) (a b : ℚ) (t : IType)
    (hab : a ≤ b) : adjustInterval S ⟨a, b, t⟩ = ⟨a, b, t⟩ := by
  unfold adjustInterval RealInterval.mk'
  simp only [h0, h1, zero_add, one_mul]
  rw [if_neg (not_lt.2 hab)]

/-- What `refine_interval` returns. -/
theorem refine_eq (s : Stream L) (h0 : s.impl.offset = 0) (h1 : s.impl.scaling = 1)
    (hs : s.support.inf ≤ s.support.sup) (a b : ℚ) (t : IType) (hab : a ≤ b) :
    (s.refineInterval ⟨a, b, t⟩ = none ∧
      clamp s.support.inf s.support.sup a = clamp s.support.inf s.support.sup b) ∨
    (clamp s.support.inf s.support.sup a < clamp s.support.inf s.support.sup b ∧
      s.refineInterval ⟨a, b, t⟩ =
      some (⟨clamp s.support.inf s.support.sup a, clamp s.support.inf s.support.sup b, t⟩,
        max s.impl.defaultRes (paramToResolution
          (clamp s.support.inf s.support.sup b - clamp s.support.inf s.support.sup a) + 2))) := by
  unfold Stream.refineInterval
  rw [adjust_default s.impl h0 h1 a b t hab]
  unfold checkSupportAndTrim
  simp only
  split_ifs with hd
  · left
    refine ⟨rfl, ?_⟩
    unfold clamp
    rcases hd with hd | hd
    · rw [min_eq_left (by linarith), min_eq_left (by linarith), max_eq_left (by linarith),
        max_eq_left hd.le]
    · rw [min_eq_right (by linarith), min_eq_right (by linarith)]
  · push Not at hd
    have ea : max a s.support.inf = clamp s.support.inf s.support.sup a := by
      unfold clamp
      rw [min_eq_left hd.2, max_comm]
    have eb : min b s.support.sup = clamp s.support.inf s.support.sup b := by
      unfold clamp
      rw [max_eq_right (le_min hd.1 hs)]
    rw [ea, eb]
    have hle := clamp_mono s.support.inf s.support.sup hab
    unfold RealInterval.mk'
    rw [if_neg (not_lt.2 hle)]
    simp only
    split_ifs with hz
    · left
      exact ⟨rfl, by linarith⟩
    · right
      refine ⟨lt_of_le_of_ne hle fun h => hz (by rw [h, sub_self]), rfl⟩

/-- The signature of a query at a fixed resolution. -/
theorem logSignatureAt_sig (s : Stream L) (h0 : s.impl.offset = 0) (h1 : s.impl.scaling = 1)
    (hs : s.support.inf ≤ s.support.sup) (ctx : ℕ) (sig : L → G)
    (hI : Interprets (s.impl.ops ctx) sig)
    (P : ℚ → ℚ → G) (chen : ∀ a b c, a ≤ b → b ≤ c → P a b * P b c = P a c) (hP1 : ∀ a, P a a = 1)
    (a b : ℚ) (t : IType) (hab : a ≤ b) (res : ℤ)
    (hd : ∀ d : DyadicInterval, d.type = .clopen → d.n ≤ res →
      ∃ x, (dyadicQuery s.impl ctx d).eval (cellValue s.impl) = some x ∧
        sig x = P d.left d.right) :
    ∃ x, Returns (fun fuel => (s.logSignatureAt fuel ⟨a, b, t⟩ res ctx).eval (cellValue s.impl)) x ∧
      sig x = P (gridFloor res (clamp s.support.inf s.support.sup a))
        (gridFloor res (clamp s.support.inf s.support.sup b)) := by
  rcases refine_eq s h0 h1 hs a b t hab with ⟨hr, hc⟩ | ⟨hlt, hr⟩
  · refine ⟨(s.impl.ops ctx).zero, ⟨0, fun n _ => ?_⟩, ?_⟩
    · unfold Stream.logSignatureAt
      rw [hr]
      rfl
    · rw [hc, hP1, hI.zero]
  · obtain ⟨x, hx, sx⟩ := logSigImpl_sig s.impl ctx sig hI P chen hP1 _ _ t hlt.le res hd
    refine ⟨x, ?_, sx⟩
    unfold Stream.logSignatureAt
    rw [hr]
    exact hx

/-- Same for the default resolution method. -/
theorem logSignature_sig (s : Stream L) (h0 : s.impl.offset = 0) (h1 : s.impl.scaling = 1)
    (hs : s.support.inf ≤ s.support.sup) (ctx : ℕ) (sig : L → G)
    (hI : Interprets (s.impl.ops ctx) sig)
    (P : ℚ → ℚ → G) (chen : ∀ a b c, a ≤ b → b ≤ c → P a b * P b c = P a c) (hP1 : ∀ a, P a a = 1)
    (a b : ℚ) (t : IType) (hab : a ≤ b)
    (hd : ∀ d : DyadicInterval, d.type = .clopen → d.n ≤ max s.impl.defaultRes (paramToResolution
          (clamp s.support.inf s.support.sup b - clamp s.support.inf s.support.sup a) + 2) →
      ∃ x, (dyadicQuery s.impl ctx d).eval (cellValue s.impl) = some x ∧
        sig x = P d.left d.right) :
    ∃ x, Returns (fun fuel => (s.logSignature fuel ⟨a, b, t⟩ ctx).eval (cellValue s.impl)) x ∧
      ∃ res, sig x = P (gridFloor res (clamp s.support.inf s.support.sup a))
        (gridFloor res (clamp s.support.inf s.support.sup b)) := by
  rcases refine_eq s h0 h1 hs a b t hab with ⟨hr, hc⟩ | ⟨hlt, hr⟩
  · refine ⟨(s.impl.ops ctx).zero, ⟨0, fun n _ => ?_⟩, 0, ?_⟩
    · unfold Stream.logSignature
      rw [hr]
      rfl
    · rw [hc, hP1, hI.zero]
  · obtain ⟨x, hx, sx⟩ := logSigImpl_sig s.impl ctx sig hI P chen hP1 _ _ t hlt.le _ hd
    refine ⟨x, ?_, _, sx⟩
    unfold Stream.logSignature
    rw [hr]
    exact hx

end RoughPy.Streams
