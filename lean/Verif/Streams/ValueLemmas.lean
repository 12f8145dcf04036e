import Verif.Streams.ValueSpec
import Verif.Streams.CellLemmas
import Verif.Streams.Props

/-!
# Lemmas about tensor valued streams
-/

namespace RoughPy.Streams

open RoughPy.Intervals

variable {T L : Type}

/-! ## The cache stays correct -/

theorem plainLogSig_uses (S : Impl L) (ctx fuel : ℕ) (i : RealInterval) :
    (plainLogSig S ctx fuel i).Uses S.defaultDepth := by
  unfold plainLogSig
  split
  · unfold intervalQuery
    split
    · trivial
    · split
      · rename_i h
        rw [← h.2]
        exact (Prog.Uses.forEach (fun d => layerQuery_uses S ctx _ d) _).bind fun _ => trivial
      · trivial
  · trivial

theorem moved_uses (A : TensorOps T L) (v : ValueStream T L) (fuel : ℕ) (i : RealInterval) :
    (v.moved A fuel i).Uses v.inc.defaultDepth :=
  (plainLogSig_uses _ _ _ _).bind fun _ => trivial

theorem valueAt_uses (A : TensorOps T L) (v : ValueStream T L) (fuel : ℕ) (t : ℚ) (p : Prog L T)
    (h : v.valueAt A fuel t = some p) : p.Uses v.inc.defaultDepth := by
  unfold ValueStream.valueAt at h
  split at h
  · cases h
  · split at h
    · cases h
      trivial
    · cases h
      exact moved_uses _ _ _ _

theorem query_uses (A : TensorOps T L) (v : ValueStream T L) (fuel : ℕ) (i : RealInterval)
    (p : Prog L (ValueStream T L)) (h : v.query A fuel i = some p) : p.Uses v.inc.defaultDepth := by
  unfold ValueStream.query at h
  split at h
  · simp only [Option.map_eq_some_iff] at h
    obtain ⟨p', hp', rfl⟩ := h
    exact (valueAt_uses A v fuel _ p' hp').bind fun _ => trivial
  · cases h

theorem signature_uses (A : TensorOps T L) (v : ValueStream T L) (fuel : ℕ)
    (i : Option RealInterval) (res : Option ℤ) (ctx : ℕ) :
    (v.signature A fuel i res ctx).Uses v.inc.defaultDepth := by
  unfold ValueStream.signature
  refine Prog.Uses.bind ?_ fun _ => trivial
  unfold ValueStream.logSignatureAt
  split
  · trivial
  · exact (Prog.Uses.forEach (fun d => plainLogSig_uses _ _ _ _) _).bind fun _ => trivial

theorem VOp.cache_ok (A : TensorOps T L) (fuel : ℕ) (v : ValueStream T L) (o : VOp)
    (ho : ∀ support q, o = .increments support q → q.ctx = v.inc.defaultDepth) (c : Cache L)
    (h : CacheOK v.inc v.inc.defaultDepth c) :
    CacheOK v.inc v.inc.defaultDepth (o.cache A fuel v c) := by
  unfold VOp.cache
  split
  · split
    · exact h
    · rename_i p hp
      exact (run_ok _ _ _ (valueAt_uses A v fuel _ p hp) c h).2
  · exact (run_ok _ _ _ (moved_uses A v fuel _) c h).2
  · split
    · exact h
    · rename_i p hp
      exact (run_ok _ _ _ (query_uses A v fuel _ p hp) c h).2
  · exact (run_ok _ _ _ (signature_uses A v fuel _ _ _) c h).2
  · rename_i support q
    have hu := ask_uses (⟨v.inc, support⟩ : Stream L) fuel q
    rw [ho support q rfl] at hu
    exact (run_ok _ _ _ hu c h).2

theorem cacheAfter_ok (A : TensorOps T L) (fuel : ℕ) (S : Impl L)
    (hist : List (ValueStream T L × VOp)) (hh : History S hist) :
    CacheOK S S.defaultDepth (cacheAfter A fuel hist) := by
  unfold cacheAfter
  have key : ∀ c, CacheOK S S.defaultDepth c →
      CacheOK S S.defaultDepth (hist.foldl (fun c p => p.2.cache A fuel p.1 c) c) := by
    induction hist with
    | nil => exact fun c h => h
    | cons p hist ih =>
      intro c h
      rw [List.foldl_cons]
      obtain ⟨he, hq⟩ := hh p (by simp)
      subst he
      exact ih (fun q hq' => hh q (by simp [hq'])) _ (VOp.cache_ok A fuel p.1 p.2 hq c h)
  exact key _ (emptyCache_ok _ _)

/-- After any history, an operation gives what it gives without any cache. -/
theorem run_cacheAfter {α : Type} (A : TensorOps T L) (fuel : ℕ) (S : Impl L)
    (hist : List (ValueStream T L × VOp)) (hh : History S hist) (p : Prog L α)
    (hp : p.Uses S.defaultDepth) :
    (p.run S (cacheAfter A fuel hist)).1 = p.eval (cellValue S) :=
  (run_ok S S.defaultDepth p hp _ (cacheAfter_ok A fuel S hist hh)).1

/-! ## What the increment stream answers -/

variable {G : Type} [Monoid G]

theorem gridFloor_gridFloor (R : ℤ) (x : ℚ) : gridFloor R (gridFloor R x) = gridFloor R x := by
  unfold gridFloor
  have h2 := two_zpow_pos R
  rw [div_mul_cancel₀ _ h2.ne', Int.floor_intCast]

theorem gridFloor_le (R : ℤ) (x : ℚ) : gridFloor R x ≤ x := by
  unfold gridFloor
  rw [div_le_iff₀ (two_zpow_pos R)]
  exact Int.floor_le _

theorem plainLogSig_sig (S : Impl L) (hc : S.caching = true) (ctx : ℕ) (hx : ctx = S.defaultDepth)
    (sig : L → G) (hI : Interprets (S.ops ctx) sig) (P : ℚ → ℚ → G) (hP : Contribution S ctx sig P)
    (h1 : ∀ a, P a a = 1) (a b : ℚ) (t : IType) (hab : a ≤ b) :
    ∃ x, Returns (fun fuel => (plainLogSig S ctx fuel ⟨a, b, t⟩).eval (cellValue S)) x ∧
      sig x = P (gridFloor S.defaultRes a) (gridFloor S.defaultRes b) := by
  obtain ⟨n₀, ds, hds, htile, hdt⟩ := C05_dissection a b S.defaultRes hab
  obtain ⟨xs, hxs, sxs, -⟩ := tiles_prod
    (fun d => (layerQuery S ctx (layerFuel S d) d).eval (cellValue S)) sig P
    hP.chen h1 ds _ _ htile fun d hd' =>
      layerQuery_fuel_sig S ctx sig hI P hP d (hdt d hd').1 (hdt d hd').2
  refine ⟨(S.ops ctx).cbh (xs.filter fun x => !(S.ops ctx).isZero x), ⟨n₀, fun n hn => ?_⟩, ?_⟩
  · unfold plainLogSig intervalQuery
    simp only [hds n hn]
    rw [if_pos hc, if_pos ⟨hc, hx⟩, Prog.eval_bind, Prog.eval_forEach, hxs]
    rfl
  · rw [sig_cbh_filter _ _ hI, sxs]
    rfl

/-! ## Operations of the value stream -/

section Flow

variable [Monoid T]

/-- The increment stream of `v` is cached and answers with the products `P`. -/
structure Flow (A : TensorOps T L) (v : ValueStream T L) (P : ℚ → ℚ → T) : Prop where
  caching : v.inc.caching = true
  depth : v.depth = v.inc.defaultDepth
  mul : ∀ x y, A.mul x y = x * y
  lie : Interprets (v.inc.ops v.depth) (A.fromLog v.depth)
  contribution : Contribution v.inc v.depth (A.fromLog v.depth) P
  one : ∀ a, P a a = 1

/-- The product over the cells between `a` and `b`. -/
def cells (v : ValueStream T L) (P : ℚ → ℚ → T) (a b : ℚ) : T :=
  P (gridFloor v.inc.defaultRes a) (gridFloor v.inc.defaultRes b)

theorem Flow.chen {A : TensorOps T L} {v : ValueStream T L} {P : ℚ → ℚ → T} (h : Flow A v P)
    (a b c : ℚ) (hab : a ≤ b) (hbc : b ≤ c) : cells v P a b * cells v P b c = cells v P a c :=
  h.contribution.chen _ _ _ (gridFloor_mono _ hab) (gridFloor_mono _ hbc)

theorem Flow.cells_self {A : TensorOps T L} {v : ValueStream T L} {P : ℚ → ℚ → T} (h : Flow A v P)
    (a : ℚ) : cells v P a a = 1 := h.one _

theorem Flow.plain {A : TensorOps T L} {v : ValueStream T L} {P : ℚ → ℚ → T} (h : Flow A v P)
    (a b : ℚ) (t : IType) (hab : a ≤ b) :
    ∃ x, Returns (fun fuel => (plainLogSig v.inc v.depth fuel ⟨a, b, t⟩).eval (cellValue v.inc)) x ∧
      A.fromLog v.depth x = cells v P a b :=
  plainLogSig_sig v.inc h.caching v.depth h.depth _ h.lie P h.contribution h.one a b t hab

theorem Flow.moved {A : TensorOps T L} {v : ValueStream T L} {P : ℚ → ℚ → T} (h : Flow A v P)
    (a b : ℚ) (t : IType) (hab : a ≤ b) :
    Returns (fun fuel => (v.moved A fuel ⟨a, b, t⟩).eval (cellValue v.inc))
      (v.initial * cells v P a b) := by
  obtain ⟨x, ⟨n₀, hx⟩, sx⟩ := h.plain a b t hab
  refine ⟨n₀, fun n hn => ?_⟩
  unfold ValueStream.moved
  simp only [Prog.eval_bind, hx n hn, Option.bind_some, Prog.eval, h.mul, sx]

theorem Flow.value {A : TensorOps T L} {v : ValueStream T L} {P : ℚ → ℚ → T} (h : Flow A v P)
    (hist : List (ValueStream T L × VOp)) (hh : History v.inc hist) (t : ℚ)
    (h0 : v.domain.inf ≤ t) (h1 : t ≤ v.domain.sup) :
    ValueIs A v hist t (v.initial * cells v P v.domain.inf t) := by
  have hout : ¬(t < v.domain.inf ∨ t > v.domain.sup) := by
    push Not
    exact ⟨h0, h1⟩
  unfold ValueIs ValueStream.valueAt
  by_cases he : t = v.domain.inf
  · refine ⟨0, fun n _ => ?_⟩
    simp only
    rw [if_neg hout, if_pos he, he, h.cells_self, mul_one]
    rfl
  · obtain ⟨n₀, hn⟩ := h.moved v.domain.inf t .clopen h0
    refine ⟨n₀, fun n hn' => ?_⟩
    simp only
    rw [if_neg hout, if_neg he]
    have e : RealInterval.mk' v.domain.inf t = ⟨v.domain.inf, t, .clopen⟩ := by
      unfold RealInterval.mk'
      rw [if_neg (not_lt.2 h0)]
    rw [Option.bind_some, run_cacheAfter A n v.inc hist hh _ (moved_uses A v n _), e]
    exact hn n hn'

theorem Flow.terminal {A : TensorOps T L} {v : ValueStream T L} {P : ℚ → ℚ → T} (h : Flow A v P)
    (hist : List (ValueStream T L × VOp)) (hh : History v.inc hist)
    (hd : v.domain.inf ≤ v.domain.sup) :
    TerminalIs A v hist (v.initial * cells v P v.domain.inf v.domain.sup) := by
  obtain ⟨n₀, hn⟩ := h.moved v.domain.inf v.domain.sup v.domain.type hd
  refine ⟨n₀, fun n hn' => ?_⟩
  unfold ValueStream.terminal
  simp only
  rw [run_cacheAfter A n v.inc hist hh _ (moved_uses A v n _)]
  exact hn n hn'

theorem overlap_intersection (l i : RealInterval)
    (ho : max l.inf i.inf < min l.sup i.sup) :
    l.intersectsWith i = true ∧
    l.intersection i = ⟨max l.inf i.inf, min l.sup i.sup, .clopen⟩ := by
  have h := max_lt_iff.1 ho
  have h1 := lt_min_iff.1 h.1
  have h2 := lt_min_iff.1 h.2
  constructor
  · unfold RealInterval.intersectsWith
    rw [if_pos]
    rcases le_total l.inf i.inf with hle | hle
    · exact Or.inl ⟨hle, h2.1⟩
    · exact Or.inr ⟨hle, h1.2⟩
  · unfold RealInterval.intersection RealInterval.mk'
    rw [if_neg, if_neg (not_lt.2 ho.le)]
    push Not
    exact ⟨h1.2, h2.1⟩

theorem Flow.query {A : TensorOps T L} {v : ValueStream T L} {P : ℚ → ℚ → T} (h : Flow A v P)
    (hist : List (ValueStream T L × VOp)) (hh : History v.inc hist)
    (i : RealInterval) (ho : max v.domain.inf i.inf < min v.domain.sup i.sup) :
    QueryIs A v hist i ⟨⟨max v.domain.inf i.inf, min v.domain.sup i.sup, .clopen⟩, v.inc,
      v.initial * cells v P v.domain.inf (max v.domain.inf i.inf), v.depth⟩ := by
  obtain ⟨e1, e2⟩ := overlap_intersection v.domain i ho
  obtain ⟨n₀, hn⟩ := h.value hist hh (max v.domain.inf i.inf) (le_max_left _ _)
    (ho.le.trans (min_le_left _ _))
  refine ⟨n₀, fun n hn' => ?_⟩
  have hv := hn n hn'
  simp only at hv ⊢
  unfold ValueStream.query
  rw [if_pos e1, e2]
  simp only
  cases hp : v.valueAt A n (max v.domain.inf i.inf) with
  | none => rw [hp] at hv; cases hv
  | some p =>
    rw [hp] at hv
    have hu := valueAt_uses A v n _ p hp
    simp only [Option.bind_some] at hv
    rw [run_cacheAfter A n v.inc hist hh _ hu] at hv
    simp only [Option.map_some, Option.bind_some]
    have hu' : (p.bind fun x => (.ret ⟨⟨max v.domain.inf i.inf, min v.domain.sup i.sup, .clopen⟩,
        v.inc, x, v.depth⟩ : Prog L (ValueStream T L))).Uses v.inc.defaultDepth :=
      hu.bind fun _ => trivial
    rw [run_cacheAfter A n v.inc hist hh _ hu', Prog.eval_bind, hv]
    rfl

/-- A stream obtained by a query has the same increment stream. -/
theorem Flow.sub {A : TensorOps T L} {v : ValueStream T L} {P : ℚ → ℚ → T} (h : Flow A v P)
    (d : RealInterval) (x : T) : Flow A ⟨d, v.inc, x, v.depth⟩ P :=
  ⟨h.caching, h.depth, h.mul, h.lie, h.contribution, h.one⟩

theorem returns_tiles (f : ℕ → DyadicInterval → Option L) (sig : L → T) (P : ℚ → ℚ → T)
    (chen : ∀ a b c, a ≤ b → b ≤ c → P a b * P b c = P a c) (h1 : ∀ a, P a a = 1)
    (ds : List DyadicInterval) (a b : ℚ) (ht : TilesFrom ds a b)
    (hf : ∀ d ∈ ds, ∃ x, Returns (fun n => f n d) x ∧ sig x = P d.left d.right) :
    ∃ xs, (∃ n₀, ∀ n ≥ n₀, ds.mapM (f n) = some xs) ∧ (xs.map sig).prod = P a b := by
  have hN : ∃ n₁, ∀ d ∈ ds, ∃ x, (∀ n ≥ n₁, f n d = some x) ∧ sig x = P d.left d.right := by
    clear ht
    induction ds with
    | nil => exact ⟨0, by simp⟩
    | cons d ds ih =>
      obtain ⟨n₁, hn₁⟩ := ih fun e he => hf e (by simp [he])
      obtain ⟨x, ⟨n₀, hx⟩, sx⟩ := hf d (by simp)
      refine ⟨max n₀ n₁, fun e he => ?_⟩
      rcases List.mem_cons.1 he with rfl | he
      · exact ⟨x, fun n hn => hx n (le_trans (le_max_left _ _) hn), sx⟩
      · obtain ⟨y, hy, sy⟩ := hn₁ e he
        exact ⟨y, fun n hn => hy n (le_trans (le_max_right _ _) hn), sy⟩
  obtain ⟨n₁, hn₁⟩ := hN
  obtain ⟨xs, hxs, sxs, -⟩ := tiles_prod (f n₁) sig P chen h1 ds a b ht fun d hd => by
    obtain ⟨x, hx, sx⟩ := hn₁ d hd
    exact ⟨x, hx n₁ le_rfl, sx⟩
  refine ⟨xs, ⟨n₁, fun n hn => ?_⟩, sxs⟩
  rw [← hxs]
  clear hxs sxs ht hf
  induction ds with
  | nil => rfl
  | cons d ds ih =>
    obtain ⟨x, hx, -⟩ := hn₁ d (by simp)
    rw [List.mapM_cons, List.mapM_cons, hx n hn, hx n₁ le_rfl, ih fun e he => hn₁ e (by simp [he])]

theorem Flow.signature {A : TensorOps T L} {v : ValueStream T L} {P : ℚ → ℚ → T} (h : Flow A v P)
    (hist : List (ValueStream T L × VOp)) (hh : History v.inc hist) (i : Option RealInterval)
    (r : Option ℤ) (a b : ℚ) (t : IType) (hab : a ≤ b) (hi : i.getD v.domain = ⟨a, b, t⟩) (res : ℤ)
    (hr : r.getD v.inc.defaultRes = res) :
    SignatureIs A v hist i r v.depth (cells v P (gridFloor res a) (gridFloor res b)) := by
  obtain ⟨n₀, ds, hds, htile, hdt⟩ := C05_dissection a b res hab
  obtain ⟨xs, ⟨n₁, hxs⟩, sxs⟩ := returns_tiles
    (fun n d => (plainLogSig v.inc v.depth n (asInterval d)).eval (cellValue v.inc))
    (A.fromLog v.depth) (cells v P) h.chen h.cells_self ds _ _ htile fun d hd => by
      have hle := (left_lt_right d).le
      have e : asInterval d = ⟨d.left, d.right, d.type⟩ := by
        unfold asInterval
        rw [inf_eq_left, sup_eq_right]
      rw [e]
      exact h.plain d.left d.right d.type hle
  refine ⟨max n₀ n₁, fun n hn => ?_⟩
  simp only
  rw [run_cacheAfter A n v.inc hist hh _ (signature_uses A v n _ _ _)]
  unfold ValueStream.signature ValueStream.logSignatureAt
  rw [hi, hr]
  simp only [hds n (le_trans (le_max_left _ _) hn)]
  rw [Prog.eval_bind, Prog.eval_bind, Prog.eval_forEach, hxs n (le_trans (le_max_right _ _) hn)]
  simp only [Option.bind_some, Prog.eval]
  rw [h.lie.cbh, sxs]
  rfl

theorem gridFloor_finer (R res : ℤ) (hr : R ≤ res) (x : ℚ) :
    gridFloor R (gridFloor res x) = gridFloor R x := by
  apply le_antisymm
  · exact gridFloor_mono _ (gridFloor_le _ _)
  · conv_lhs => rw [← gridFloor_gridFloor]
    apply gridFloor_mono
    have h2 := two_zpow_pos R
    have h2' := two_zpow_pos res
    unfold gridFloor
    rw [le_div_iff₀ h2']
    have e : (2 : ℚ) ^ res = 2 ^ R * 2 ^ (res - R).toNat := by
      rw [← zpow_natCast, ← zpow_add₀ (by norm_num)]
      congr 1
      omega
    have e' : (⌊x * 2 ^ R⌋ : ℚ) / 2 ^ R * 2 ^ res = ((⌊x * 2 ^ R⌋ * 2 ^ (res - R).toNat : ℤ) : ℚ) := by
      rw [e, ← mul_assoc, div_mul_cancel₀ _ h2.ne']
      push_cast
      rfl
    rw [e', Int.cast_le, Int.le_floor, ← e', div_mul_eq_mul_div, div_le_iff₀ h2, mul_right_comm]
    exact mul_le_mul_of_nonneg_right (Int.floor_le _) h2'.le

end Flow

/-! ## Construction from values -/

theorem decode_fits (A : TensorOps T L) (depth : ℕ) (s : CtxShape) (items : List (Item T L))
    (hf : ∀ it ∈ items, it.Fits s) :
    decode A depth (some s) items = some (some s, samplesOf A depth items) := by
  induction items with
  | nil => rfl
  | cons it items ih =>
    have ih' := ih fun x hx => hf x (by simp [hx])
    have h := hf it (by simp)
    cases it with
    | other => exact absurd h (by simp [Item.Fits])
    | tensor t s' x =>
      have hs : s' = s := h
      subst hs
      simp [decode, checkCtxShape, ih', samplesOf]
    | lie t s' x =>
      have hs : s' = s := h
      subst hs
      simp [decode, checkCtxShape, ih', samplesOf]

theorem decode_misfit (A : TensorOps T L) (depth : ℕ) (s : CtxShape) (items : List (Item T L))
    (hf : ¬ ∀ it ∈ items, it.Fits s) : decode A depth (some s) items = none := by
  induction items with
  | nil => exact absurd (by simp) hf
  | cons it items ih =>
    by_cases h : it.Fits s
    · have hn : ¬ ∀ it ∈ items, it.Fits s := fun hc => hf fun x hx => by
        rcases List.mem_cons.1 hx with rfl | hx
        · exact h
        · exact hc x hx
      have ih' := ih hn
      cases it with
      | other => exact absurd h (by simp [Item.Fits])
      | tensor t s' x =>
        have hs : s' = s := h
        subst hs
        simp [decode, checkCtxShape, ih']
      | lie t s' x =>
        have hs : s' = s := h
        subst hs
        simp [decode, checkCtxShape, ih']
    · have key : ∀ s' : CtxShape, s' ≠ s → checkCtxShape (some s) s' = none := by
        intro s' hs
        unfold checkCtxShape
        simp only
        rw [if_neg]
        rintro ⟨h1, h2⟩
        apply hs
        cases s; cases s'
        simp_all
      cases it with
      | other => rfl
      | tensor t s' x =>
        have hs : s' ≠ s := h
        simp [decode, key s' hs]
      | lie t s' x =>
        have hs : s' ≠ s := h
        simp [decode, key s' hs]

theorem incrementData_eq_self (rows : List (ℚ × L)) (hc : Chronological rows) :
    incrementData rows = rows := by
  have hnd : (rows.map Prod.fst).Nodup := by
    rw [List.nodup_iff_pairwise_ne, List.pairwise_map]
    exact hc.imp fun h => h.ne
  have hp := incrementData_perm rows hnd
  have hs := incrementData_chronological rows
  exact hp.eq_of_pairwise (fun a b _ _ h1 h2 => absurd h1 (not_lt.2 h2.le)) hs hc

theorem increments_times (A : TensorOps T L) (depth : ℕ) (x : T) (rest : List (ℚ × T)) :
    (increments A depth x rest).map Prod.fst = rest.map Prod.fst := by
  induction rest generalizing x with
  | nil => rfl
  | cons r rest ih => simp [increments, ih]

theorem increments_chronological (A : TensorOps T L) (depth : ℕ) (x : T) (rest : List (ℚ × T))
    (hc : Chronological rest) : Chronological (increments A depth x rest) := by
  have h : ((increments A depth x rest).map Prod.fst).Pairwise (· < ·) := by
    rw [increments_times, List.pairwise_map]
    exact hc
  rw [List.pairwise_map] at h
  exact h

theorem gridFloor_gt (R : ℤ) (x : ℚ) : x - 1 / 2 ^ R < gridFloor R x := by
  have h2 := two_zpow_pos R
  unfold gridFloor
  rw [lt_div_iff₀ h2, sub_mul, div_mul_cancel₀ _ h2.ne']
  linarith [Int.lt_floor_add_one (x * 2 ^ R)]

theorem gridFloor_add_cell (R : ℤ) (x : ℚ) : x < gridFloor R (x + 1 / 2 ^ R) := by
  have := gridFloor_gt R (x + 1 / 2 ^ R)
  linarith

theorem minDifference_spec (ts : List ℚ) (h : ts.Pairwise (· < ·)) :
    match minDifference ts with
    | none => ts.length ≤ 1
    | some m => 0 < m ∧ ∀ a ∈ ts, ∀ b ∈ ts, a < b → m ≤ b - a := by
  induction ts with
  | nil => simp [minDifference]
  | cons a ts ih =>
    cases ts with
    | nil => simp [minDifference]
    | cons b rest =>
      have h1 := List.pairwise_cons.1 h
      have ih' := ih h1.2
      have hab : a < b := h1.1 b (by simp)
      have hb : ∀ c ∈ b :: rest, b ≤ c := by
        intro c hc
        rcases List.mem_cons.1 hc with rfl | hc
        · exact le_rfl
        · exact ((List.pairwise_cons.1 h1.2).1 c hc).le
      unfold minDifference
      cases hm : minDifference (b :: rest) with
      | none =>
        rw [hm] at ih'
        have hr : rest = [] := by
          cases rest with
          | nil => rfl
          | cons _ _ => simp at ih'
        subst hr
        simp only
        refine ⟨by linarith, fun x hx y hy hxy => ?_⟩
        simp only [List.mem_cons, List.not_mem_nil, or_false] at hx hy
        rcases hx with rfl | rfl <;> rcases hy with rfl | rfl <;> linarith
      | some m =>
        rw [hm] at ih'
        obtain ⟨hm0, hmin⟩ := ih'
        simp only
        refine ⟨lt_min (by linarith) hm0, fun x hx y hy hxy => ?_⟩
        rcases List.mem_cons.1 hx with rfl | hx
        · rcases List.mem_cons.1 hy with rfl | hy
          · exact absurd hxy (lt_irrefl _)
          · exact (min_le_left _ _).trans (by linarith [hb y hy])
        · rcases List.mem_cons.1 hy with hya | hy
          · rw [hya] at hxy
            exact absurd hxy (not_lt.2 (h1.1 x hx).le)
          · exact (min_le_right _ _).trans (hmin x hx y hy hxy)

theorem pyParamToResolution_cell (infExp : ℤ) (m : ℚ) (hm : 0 < m) :
    2 * (1 / 2 ^ (pyParamToResolution infExp (some m) + 1)) ≤ m := by
  unfold pyParamToResolution frexpExp
  simp only
  rw [if_neg hm.ne', abs_of_pos hm, add_sub_cancel_right]
  have e : (2 : ℚ) * (1 / 2 ^ (-(min 5 (Int.log 2 m)) + 1)) = 2 ^ (min 5 (Int.log 2 m)) := by
    rw [zpow_add₀ (by norm_num), zpow_neg, zpow_one]
    have := two_zpow_pos (min 5 (Int.log 2 m))
    field_simp
  rw [e]
  calc (2 : ℚ) ^ (min 5 (Int.log 2 m)) ≤ 2 ^ (Int.log 2 m) :=
        zpow_le_zpow_right₀ (by norm_num) (min_le_right _ _)
    _ ≤ m := (log_bounds m hm).1

/-- The last value before `u`. -/
def lastBefore (u : ℚ) : T → List (ℚ × T) → T
  | x, [] => x
  | x, (t, y) :: rest => if t < u then lastBefore u y rest else x

theorem lastBefore_inForce (u : ℚ) (p : ℚ) (x : T) (rest : List (ℚ × T))
    (hc : Chronological ((p, x) :: rest)) : InForce ((p, x) :: rest) u (lastBefore u x rest) := by
  induction rest generalizing p x with
  | nil =>
    refine ⟨(p, x), by simp, rfl, ?_⟩
    by_cases h : p < u
    · exact Or.inl ⟨h, by simp⟩
    · exact Or.inr ⟨by simpa using h, by simp⟩
  | cons r rest ih =>
    obtain ⟨t, y⟩ := r
    have h1 := List.pairwise_cons.1 hc
    unfold lastBefore
    by_cases ht : t < u
    · rw [if_pos ht]
      obtain ⟨s, hs, hsx, h⟩ := ih t y h1.2
      refine ⟨s, by simp [List.mem_cons.1 hs], hsx, Or.inl ?_⟩
      rcases h with ⟨hu, hmax⟩ | ⟨hall, -⟩
      · refine ⟨hu, fun s' hs' hu' => ?_⟩
        rcases List.mem_cons.1 hs' with rfl | hs'
        · exact (h1.1 s hs).le
        · exact hmax s' hs' hu'
      · exact absurd ht (not_lt.2 (hall (t, y) (by simp)))
    · rw [if_neg ht]
      have hall : ∀ s' ∈ (t, y) :: rest, u ≤ s'.1 := by
        intro s' hs'
        rcases List.mem_cons.1 hs' with rfl | hs'
        · exact not_lt.1 ht
        · exact (not_lt.1 ht).trans ((List.pairwise_cons.1 h1.2).1 s' hs').le
      refine ⟨(p, x), by simp, rfl, ?_⟩
      by_cases hp : p < u
      · refine Or.inl ⟨hp, fun s' hs' hu' => ?_⟩
        rcases List.mem_cons.1 hs' with rfl | hs'
        · exact le_rfl
        · exact absurd hu' (not_lt.2 (hall s' hs'))
      · refine Or.inr ⟨fun s' hs' => ?_, fun s' hs' => ?_⟩
        · rcases List.mem_cons.1 hs' with rfl | hs'
          · exact not_lt.1 hp
          · exact hall s' hs'
        · rcases List.mem_cons.1 hs' with rfl | hs'
          · exact le_rfl
          · exact (h1.1 s' hs').le

theorem telescope [Monoid T] (A : TensorOps T L) (ops : LieOps L) (depth : ℕ) (GL : Set T)
    (hA : TensorInterprets A ops depth GL) (u lo : ℚ) (x : T) (rest : List (ℚ × T))
    (hx : x ∈ GL) (hr : ∀ r ∈ rest, r.2 ∈ GL) (hc : Chronological rest)
    (hlo : ∀ r ∈ rest, lo ≤ r.1) :
    x * eventsSig (A.fromLog depth) (eventsIn (increments A depth x rest) (Set.Ico lo u)) =
      lastBefore u x rest := by
  classical
  induction rest generalizing x with
  | nil => simp [increments, eventsIn, eventsSig, lastBefore]
  | cons r rest ih =>
    obtain ⟨t, y⟩ := r
    have hy : y ∈ GL := hr (t, y) (by simp)
    have h1 := List.pairwise_cons.1 hc
    have ih' := ih y hy (fun r hr' => hr r (by simp [hr'])) h1.2 (fun r hr' => hlo r (by simp [hr']))
    have hl : lo ≤ t := hlo (t, y) (by simp)
    unfold increments lastBefore eventsIn
    rw [List.filter_cons]
    by_cases ht : t < u
    · rw [if_pos ht, if_pos (by simp [hl, ht])]
      unfold eventsSig
      rw [List.map_cons, List.prod_cons]
      simp only
      rw [hA.log _ (by rw [hA.mul]; exact hA.closed x hx y hy), hA.mul, ← mul_assoc, ← mul_assoc,
        hA.antipode x hx, one_mul]
      exact ih'
    · rw [if_neg ht, if_neg (by simp [ht])]
      have : eventsIn (increments A depth y rest) (Set.Ico lo u) = [] := by
        unfold eventsIn
        rw [List.filter_eq_nil_iff]
        intro r hr'
        have hm : r.1 ∈ rest.map Prod.fst := by
          rw [← increments_times A depth y]
          exact List.mem_map_of_mem hr'
        obtain ⟨r', hr'', he⟩ := List.mem_map.1 hm
        have := h1.1 r' hr''
        simp only [decide_eq_true_eq, Set.mem_Ico, not_and, not_lt]
        intro _
        rw [← he]
        exact (not_lt.1 ht).trans this.le
      unfold eventsIn at this
      rw [this]
      simp [eventsSig]

end RoughPy.Streams
