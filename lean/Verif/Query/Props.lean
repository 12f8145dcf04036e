import Verif.Query.Lemmas
import Verif.Streams.Props

/-!
# C125 to C128 — the arguments of queries
-/

namespace RoughPy.Query

open RoughPy.Intervals RoughPy.Streams

/-- Metadata used in the examples: width 2, depth 2, doubles, resolution 0. -/
def exampleMeta : Meta := ⟨2, some ⟨2, 2, .f64⟩, some .f64, 0⟩

/-! ## C125 — interval and resolution -/

/-- C125, the part that holds: if the first three arguments say what interval and what resolution are
meant, numbers are representable and end points in order, then the query made is over this interval
(the support if none is given) and at the resolution asked for: at the level, or at the coarsest level
that reaches the accuracy, or with none passed on.
Missing: arguments that contradict each other (`C125_ignored_refuted`), levels that do not fit in 32
bits (`C125_wrap_refuted`). -/
theorem C125_query_partial (md : Meta) (support : RealInterval) (a : SigIn) (p : Place) (r : Option Res)
    (h : Says a p r) (hp : p.Proper) (hr : ∀ x, r = some x → x.Fits ∧ x.Positive) (c : Call)
    (hc : signatureCall md support a = .ok c) :
    c.interval = p.interval' support ∧
    (match r with
      | none => c.resolution = none
      | some x => ∃ n, c.resolution = some n ∧ x.Met n) := by
  obtain ⟨t, ir, h1, h2, _, h4, h5⟩ := signatureCall_ok hc
  obtain ⟨res, k, i, g1, g2, g3, g4⟩ := parseInterval_says h hp hr support
  have hres := (parseTuple_ok h1).1
  rw [g1] at hres
  rw [← Out.ok.inj hres, g2] at h2
  have := Out.ok.inj h2
  subst this
  refine ⟨by rw [h4]; exact g3, ?_⟩
  rw [h5]
  unfold ResOk at g4
  cases r with
  | none => exact g4
  | some x => exact g4

/-- C125: such calls are accepted (here without `ctx`, `depth` and `dtype`). -/
theorem C125_accepts (md : Meta) (support : RealInterval) (a : SigIn) (p : Place) (r : Option Res)
    (stream : Ctx) (h : Says a p r) (hp : p.Proper) (hr : ∀ x, r = some x → x.Fits ∧ x.Positive)
    (hm : md.ctx = some stream) (h1 : a.ctx = none) (h2 : a.depth = none) (h3 : a.dtype = none) :
    ∃ c, signatureCall md support a = .ok c := by
  obtain ⟨res, k, i, g1, g2, _, _⟩ := parseInterval_says h hp hr support
  unfold signatureCall parseSigArgs
  have ht : parseTuple a = .ok (res, none, 0) := by
    unfold parseTuple
    rw [g1, h1, h2]
    rfl
  have hx : parseContext md none 0 a.dtype = .ok (some stream) := by
    unfold parseContext
    rw [h3, if_pos ⟨rfl, rfl⟩, hm]
  rw [ht]
  show ∃ c, ((parseInterval a res).bind _).bind _ = _
  rw [g2]
  show ∃ c, ((parseContext md none 0 a.dtype).bind _).bind _ = _
  rw [hx]
  show ∃ c, dispatch support ⟨i, k, some stream⟩ = _
  cases i with
  | none => exact ⟨_, rfl⟩
  | some i => exact ⟨_, rfl⟩

/-- C125: end points in the wrong order are rejected, not swapped. -/
theorem C125_order (md : Meta) (support : RealInterval) (a : SigIn) (x y : Num)
    (h1 : a.first = some x.obj) (h2 : a.sup = some y.obj) (hx : x.Exact) (hy : y.Exact)
    (hxy : y.val < x.val) (c : Call) : signatureCall md support a ≠ .ok c := by
  intro hc
  obtain ⟨t, ir, _, h4, _⟩ := signatureCall_ok hc
  rw [parseInterval_ends h1 h2 hx, fromEnds_gt hy hxy] at h4
  cases h4

/-- C125: nothing else is accepted: every call that is answered has arguments that say what is meant,
or is one of the contradictory calls. -/
theorem C125_only (md : Meta) (support : RealInterval) (a : SigIn) (c : Call)
    (hc : signatureCall md support a = .ok c) : (∃ p r, Says a p r) ∨ Contradictory a := by
  obtain ⟨t, ir, h1, h2, _⟩ := signatureCall_ok hc
  exact says_of_parse (parseTuple_ok h1).1 h2

example : signatureCall exampleMeta ⟨0, 4, .clopen⟩
      { first := some (.float (1/2)), sup := some (.int 2), resolution := some (.float (3/10)) } =
    .ok ⟨⟨1/2, 2, .clopen⟩, some 2, ⟨2, 2, .f64⟩⟩ := by decide +kernel

example : signatureCall exampleMeta ⟨0, 4, .clopen⟩
      { first := some (.dyadic ⟨3, 1, .clopen⟩), sup := some (.int 5) } =
    .ok ⟨⟨3/2, 2, .clopen⟩, some 5, ⟨2, 2, .f64⟩⟩ := by decide +kernel

example : Says { first := some (.float (1/2)), sup := some (.int 2), resolution := some (.float (3/10)) }
    (.ends (.float (1/2)) (.int 2)) (some (.accuracy (3/10))) :=
  .ends (.float (1/2)) (.int 2) rfl rfl (.given (.accuracy (3/10)))

/-- C125 fails for contradictory arguments: an upper end point without a lower one is ignored (the
whole stream is used); of two resolutions the one given by keyword is ignored. -/
theorem C125_ignored_refuted :
    signatureCall exampleMeta ⟨0, 4, .clopen⟩ { sup := some (.float 1) } =
      .ok ⟨⟨0, 4, .clopen⟩, none, ⟨2, 2, .f64⟩⟩ ∧
    signatureCall exampleMeta ⟨0, 4, .clopen⟩ { first := some (.int 3), resolution := some (.int 7) } =
      .ok ⟨⟨0, 4, .clopen⟩, some 3, ⟨2, 2, .f64⟩⟩ ∧
    signatureCall exampleMeta ⟨0, 4, .clopen⟩
        { first := some (.real ⟨0, 1, .clopen⟩), sup := some (.int 3), resolution := some (.int 7) } =
      .ok ⟨⟨0, 1, .clopen⟩, some 3, ⟨2, 2, .f64⟩⟩ := by decide +kernel

/-- C125 fails for a level that does not fit in 32 bits: it is wrapped, not rejected. -/
theorem C125_wrap_refuted :
    signatureCall exampleMeta ⟨0, 4, .clopen⟩ { resolution := some (.int (2 ^ 32 + 1)) } =
      .ok ⟨⟨0, 4, .clopen⟩, some 1, ⟨2, 2, .f64⟩⟩ := by decide +kernel

/-! ## C126 — the context -/

/-- C126, the part that holds: a query is answered in the context asked for — the context given, else
that of the stream with the depth and the scalar type given — if the scalar type of the data is that
of the context of the stream, a depth given is not zero, and a scalar type is only given together with
a depth.
Missing: a scalar type without a depth (`C126_dtype_refuted`), scalar types given by name
(`C126_name_refuted`), types without contexts (`C126_terminates_refuted`). -/
theorem C126_context_partial (md : Meta) (support : RealInterval) (a : SigIn) (stream : Ctx)
    (hm : md.ctx = some stream) (ht : md.dataType = some stream.ctype) (h0 : a.depth ≠ some (.int 0))
    (hd : a.dtype ≠ none → a.depth ≠ none) (c : Call) (hc : signatureCall md support a = .ok c) :
    WantsCtx stream a c.ctx := by
  obtain ⟨t, ir, h1, _, h3, _⟩ := signatureCall_ok hc
  obtain ⟨_, g2, g3⟩ := parseTuple_ok h1
  unfold WantsCtx
  unfold parseContext at h3
  cases hctx : a.ctx with
  | some g =>
    rw [hctx] at g2
    dsimp only at g2 ⊢
    cases hg : t.2.1 with
    | none => exact absurd (g2.1.trans hg) g2.2
    | some x =>
      rw [hg] at h3
      dsimp only at h3
      rw [g2.1, hg, ← Out.ok.inj h3]
  | none =>
    rw [hctx] at g2
    dsimp only at g2 ⊢
    rw [g2] at h3
    dsimp only at h3
    cases hdep : a.depth with
    | none =>
      have hdt : a.dtype = none := by
        by_contra hne
        exact hd hne hdep
      rw [hdep] at g3
      have : t.2.2 = 0 := (Out.ok.inj g3).symm
      rw [if_pos ⟨this, hdt⟩, hm] at h3
      have := Option.some.inj (Out.ok.inj h3)
      rw [hdt, ← this]
      exact ⟨rfl, rfl, rfl⟩
    | some o =>
      rw [hdep] at g3 h0
      have ho := asInt_ok g3
      have hne : t.2.2 ≠ 0 := by
        intro hz
        rw [ho, hz] at h0
        exact h0 rfl
      rw [if_neg (fun h => hne h.1)] at h3
      obtain ⟨ty, e1, e2⟩ := Out.bind_ok h3
      rw [hm] at e2
      dsimp only at e2
      cases hgc : getContext stream.width t.2.2 ty with
      | none => rw [hgc] at e2; cases e2
      | some c' =>
        rw [hgc] at e2
        have := Option.some.inj (Out.ok.inj e2)
        subst this
        obtain ⟨f1, f2, f3, _⟩ := getContext_some hgc
        refine ⟨f1, by rw [ho, f2], ?_⟩
        cases hdt : a.dtype with
        | none =>
          rw [hdt] at e1
          have := Out.ok.inj e1
          rw [← this, ht] at f3
          exact (Option.some.inj f3).symm
        | some d =>
          rw [hdt] at e1
          obtain ⟨t', q1, q2⟩ := parseDType_ok e1
          rw [q1] at f3
          rw [← Option.some.inj f3]
          exact q2

/-- C126: a depth and a RoughPy scalar type that there are contexts for are accepted. -/
theorem C126_accepts (md : Meta) (support : RealInterval) (stream : Ctx) (d : ℤ) (t : CType)
    (hm : md.ctx = some stream) (hd : -2 ^ 31 ≤ d ∧ d < 2 ^ 31) (hs : Supported t) :
    signatureCall md support { depth := some (.int d), dtype := some (.scalar t) } =
      .ok ⟨support, none, ⟨stream.width, d, t⟩⟩ := by
  have ht : parseTuple { depth := some (.int d), dtype := some (.scalar t) } = .ok (none, none, d) := by
    show (asInt (.int d)).bind _ = _
    unfold asInt
    dsimp only
    rw [if_pos hd]
    rfl
  have hx : parseContext md none d (some (.scalar t)) = .ok (some ⟨stream.width, d, t⟩) := by
    unfold parseContext
    rw [if_neg (by simp)]
    show (match md.ctx with
      | none => Out.undefined
      | some c => match getContext c.width d (some t) with
        | none => .terminated
        | some c' => .ok (some c')) = _
    rw [hm]
    dsimp only
    rw [getContext_supported hs]
  unfold signatureCall parseSigArgs
  rw [ht]
  show ((parseContext md none d (some (.scalar t))).bind _).bind _ = _
  rw [hx]
  rfl

example : signatureCall exampleMeta ⟨0, 4, .clopen⟩
      { first := some (.real ⟨0, 1, .clopen⟩), depth := some (.int 5), dtype := some (.scalar .rational) } =
    .ok ⟨⟨0, 1, .clopen⟩, none, ⟨2, 5, .rational⟩⟩ ∧
    signatureCall exampleMeta ⟨0, 4, .clopen⟩ { ctx := some (some ⟨2, 7, .f32⟩), depth := some (.int 5) } =
    .ok ⟨⟨0, 4, .clopen⟩, none, ⟨2, 7, .f32⟩⟩ := by decide +kernel

/-- C126 fails for a scalar type given without a depth: the context has depth zero instead of that of
the stream. -/
theorem C126_dtype_refuted :
    signatureCall exampleMeta ⟨0, 4, .clopen⟩ { dtype := some (.scalar .f32) } =
      .ok ⟨⟨0, 4, .clopen⟩, none, ⟨2, 0, .f32⟩⟩ ∧
    ¬ WantsCtx ⟨2, 2, .f64⟩ { dtype := some (.scalar .f32) } ⟨2, 0, .f32⟩ := by
  refine ⟨by decide +kernel, fun h => ?_⟩
  exact absurd h.2.1 (by decide)

/-- C126 fails for scalar types given by name: whatever the other arguments (without `ctx`), a known
name is never accepted, and an unknown one is undefined behaviour. -/
theorem C126_name_refuted (md : Meta) (support : RealInterval) (a : SigIn) (known : Option CType)
    (h : a.dtype = some (.str known)) (hx : a.ctx = none) :
    (∀ c, signatureCall md support a ≠ .ok c) ∧
    signatureCall md support { dtype := some (.str none) } = .undefined := by
  refine ⟨fun c hc => ?_, rfl⟩
  obtain ⟨t, ir, h1, _, h3, _⟩ := signatureCall_ok hc
  obtain ⟨_, g2, _⟩ := parseTuple_ok h1
  rw [hx] at g2
  dsimp only at g2
  unfold parseContext at h3
  rw [g2, h] at h3
  dsimp only at h3
  rw [if_neg (by simp)] at h3
  cases known <;> cases h3

/-- C126 fails for a scalar type there is no context for (half precision): the exception is not
caught, the process is terminated. -/
theorem C126_terminates_refuted (md : Meta) (support : RealInterval) (stream : Ctx) (n : ℕ)
    (hm : md.ctx = some stream) :
    signatureCall md support { dtype := some (.scalar (.other n)) } = .terminated := by
  have hx : parseContext md none 0 (some (.scalar (.other n))) = .terminated := by
    unfold parseContext
    rw [if_neg (by simp)]
    show (match md.ctx with
      | none => Out.undefined
      | some c => match getContext c.width 0 (some (.other n)) with
        | none => .terminated
        | some c' => .ok (some c')) = _
    rw [hm]
    rfl
  unfold signatureCall parseSigArgs
  show ((parseContext md none 0 (some (.scalar (.other n)))).bind _).bind _ = _
  rw [hx]
  rfl

/-! ## C127 — derivatives -/

/-- C127, the part that holds: the pairs handed over are the ones in the arguments, in this order; the
resolution is the one asked for or that of the stream; the context is that of the stream with the
depth asked for.
Missing: a tuple of two pairs (`C127_two_pairs_refuted`); the default resolution is not the one
`signature` uses (`C127_resolution_refuted`). -/
theorem C127_derivative_partial (md : Meta) (a : DerivIn) (stream : Ctx) (ps : List (RealInterval × ℕ))
    (h : DSays a ps) (hm : md.ctx = some stream)
    (hn : ∀ n, a.second = some (.int n) → -2 ^ 31 ≤ n ∧ n < 2 ^ 31) (hd : a.depth ≠ some (.int (-1)))
    (c : DerivCall) (hc : derivCall md a = .ok c) :
    c.pairs = ps ∧ DWantsRes md a c.resolution ∧ DWantsCtx stream a.depth c.ctx := by
  obtain ⟨res, depth, st, sr, h1, h2, h3, h4, h5, h6, h7⟩ := derivCall_ok hc
  rw [hm] at h3
  have := Option.some.inj h3
  subst this
  refine ⟨?_, ?_, ?_⟩
  · have hsr : NoPerturbation a.second → sr.1 = none := by
      intro hs
      rcases secondArg_ok h5 with ⟨n, _, e⟩ | ⟨hne, e⟩
      · rw [e]
      · rcases hs with hs | ⟨n, hs⟩
        · rw [e, hs]
        · exact absurd hs (hne n)
    cases h with
    | two i l g1 g2 =>
      rcases secondArg_ok h5 with ⟨n, e, _⟩ | ⟨_, e⟩
      · rw [g2] at e; cases e
      · rw [g1, e, g2] at h6
        exact (Out.ok.inj h6).symm
    | pair p g1 g2 =>
      rw [g1, hsr g2] at h6
      exact (Out.ok.inj h6).symm
    | seq ps g1 g2 =>
      rw [g1, hsr g2] at h6
      unfold parsePairs at h6
      dsimp only at h6
      split at h6
      · rw [parseItems_map] at h6
        exact (Out.ok.inj h6).symm
      · cases h6
    | tuple ps g1 g2 =>
      rw [g1, hsr g2] at h6
      unfold parsePairs at h6
      dsimp only at h6
      split at h6
      · obtain ⟨p, e1, _⟩ := Out.bind_ok h6
        have hp := parsePair_ok e1
        rcases ps with _ | ⟨q, _ | ⟨q', ps⟩⟩
        · cases hp
        · cases hp
        · cases hp
      · split at h6
        · rw [parseItems_map] at h6
          exact (Out.ok.inj h6).symm
        · cases h6
  · unfold DWantsRes
    rw [h7]
    rcases secondArg_ok h5 with ⟨n, e1, e2⟩ | ⟨hne, e2⟩
    · rw [e1, e2]
      exact wrap32_eq (hn n e1)
    · rw [e2]
      have key : (match a.resolution with
          | some o => o = .int res
          | none => res = md.resolution) := by
        cases hr : a.resolution with
        | none => rw [hr] at h1; exact (Out.ok.inj h1).symm
        | some o => rw [hr] at h1; exact asInt_ok h1
      split
      · rename_i n hs
        exact absurd hs (hne n)
      · exact key
  · unfold DWantsCtx
    cases hdep : a.depth with
    | none =>
      rw [hdep] at h2
      have : depth = -1 := (Out.ok.inj h2).symm
      rw [if_pos this] at h4
      rw [Option.some.inj h4]
      exact ⟨rfl, rfl, rfl⟩
    | some o =>
      rw [hdep] at h2 hd
      have ho := asInt_ok h2
      have hne : depth ≠ -1 := by
        intro hz
        rw [ho, hz] at hd
        exact hd rfl
      rw [if_neg hne] at h4
      obtain ⟨f1, f2, f3, _⟩ := getContext_some h4
      exact ⟨f1, (Option.some.inj f3).symm, by rw [ho, f2]⟩

/-- C127: such calls are accepted, unless a tuple of two pairs is given. -/
theorem C127_accepts (md : Meta) (a : DerivIn) (stream : Ctx) (ps : List (RealInterval × ℕ))
    (h : DSays a ps) (hps : ps ≠ []) (ht : a.arg ≠ .tuple (ps.map pairObj) ∨ ps.length ≠ 2)
    (hm : md.ctx = some stream) (hn : ∀ n, a.second = some (.int n) → -2 ^ 31 ≤ n ∧ n < 2 ^ 31)
    (h1 : a.resolution = none) (h2 : a.depth = none) : ∃ c, derivCall md a = .ok c := by
  have hs : ∃ sr, secondArg a.second md.resolution = .ok sr ∧
      (∀ l, a.second = some (.lie l) → sr.1 = some (.lie l)) := by
    unfold secondArg
    split
    · rename_i n hn'
      rw [asResolution_eq (hn n hn')]
      exact ⟨_, rfl, fun l hl => by rw [hn'] at hl; cases hl⟩
    · exact ⟨_, rfl, fun l hl => hl⟩
  obtain ⟨sr, hs1, hs2⟩ := hs
  have hp : ∃ qs, parsePairs a.arg sr.1 = .ok qs := by
    have hpos : 0 < ps.length := List.length_pos_iff.2 hps
    cases h with
    | two i l g1 g2 => rw [g1, hs2 l g2]; exact ⟨_, rfl⟩
    | pair p g1 g2 => rw [g1]; exact ⟨_, rfl⟩
    | seq ps g1 g2 =>
      rw [g1]
      unfold parsePairs
      dsimp only
      rw [if_pos (by rw [List.length_map]; exact hpos), parseItems_map]
      exact ⟨_, rfl⟩
    | tuple ps g1 g2 =>
      have hlen : ps.length ≠ 2 := by
        rcases ht with ht | ht
        · exact absurd g1 ht
        · exact ht
      rw [g1]
      unfold parsePairs
      dsimp only
      rw [if_neg (by rw [List.length_map]; exact hlen), if_pos (by rw [List.length_map]; exact hpos),
        parseItems_map]
      exact ⟨_, rfl⟩
  obtain ⟨qs, hq⟩ := hp
  unfold derivCall
  rw [h1, h2]
  show ∃ c, (match md.ctx with
    | none => (Out.undefined : Out DerivCall)
    | some c => match (if (-1 : ℤ) = -1 then some c else getContext c.width (-1) (some c.ctype)) with
      | none => .terminated
      | some ctx => (secondArg a.second md.resolution).bind fun sr =>
          (parsePairs a.arg sr.1).bind fun ps => .ok ⟨ps, sr.2, ctx⟩) = .ok c
  rw [hm]
  dsimp only
  rw [if_pos rfl]
  dsimp only
  rw [hs1]
  show ∃ c, (parsePairs a.arg sr.1).bind _ = .ok c
  rw [hq]
  exact ⟨_, rfl⟩

example : derivCall exampleMeta
      ⟨.seq [.tuple [.interval ⟨0, 1, .clopen⟩, .lie 4], .tuple [.interval ⟨1, 2, .clopen⟩, .lie 9]],
        some (.int 3), none, some (.int 5)⟩ =
    .ok ⟨[(⟨0, 1, .clopen⟩, 4), (⟨1, 2, .clopen⟩, 9)], 3, ⟨2, 5, .f64⟩⟩ := by rfl

/-- C127 fails for a tuple of two pairs: it is taken for a pair and rejected; the list of the same
pairs and a tuple of three pairs are accepted. -/
theorem C127_two_pairs_refuted (md : Meta) (stream : Ctx) (hm : md.ctx = some stream)
    (p q r : RealInterval × ℕ) :
    derivCall md ⟨.tuple [pairObj p, pairObj q], none, none, none⟩ = .raised .type ∧
    derivCall md ⟨.seq [pairObj p, pairObj q], none, none, none⟩ = .ok ⟨[p, q], md.resolution, stream⟩ ∧
    derivCall md ⟨.tuple [pairObj p, pairObj q, pairObj r], none, none, none⟩ =
      .ok ⟨[p, q, r], md.resolution, stream⟩ := by
  obtain ⟨w, x, t, res⟩ := md
  dsimp only at hm
  subst hm
  exact ⟨rfl, rfl, rfl⟩

/-- C127 fails for the default resolution: `signature_derivative(interval, …)` takes the derivative of
the log signature at the default resolution of the stream, `signature(interval)` uses a finer one.  On
a stream with increments at 1/4 and 1/2, over [0, 1/2): `log_signature` is not zero (both increments
count, see C35 and C36 for caching), the derivative is taken at zero. -/
theorem C127_resolution_refuted :
    let i : RealInterval := ⟨0, 1/2, .clopen⟩
    let answer := fun c : Call => ((c.ask twoTicks 10 (fun x => x.depth.toNat)).run twoTicks.impl Cache.empty).1
    signatureCall exampleMeta twoTicks.support { first := some (.real i) } = .ok ⟨i, none, ⟨2, 2, .f64⟩⟩ ∧
    answer ⟨i, none, ⟨2, 2, .f64⟩⟩ = some ⟨1, 1, 1/2⟩ ∧
    derivCall exampleMeta ⟨.interval i, some (.lie 0), none, none⟩ = .ok ⟨[(i, 0)], 0, ⟨2, 2, .f64⟩⟩ ∧
    (DerivCall.queries ⟨[(i, 0)], 0, ⟨2, 2, .f64⟩⟩).map answer = [some ⟨0, 0, 0⟩] := by
  refine ⟨by decide +kernel, by decide +kernel, rfl, by decide +kernel⟩

/-! ## C128 — simplify -/

/-- C128, the part that holds: for a call that is answered, the new stream has one piece for every
interval of the partition, in this order; the value of a piece is the log signature over its interval
in the context asked for, at the resolution asked for or else that of the stream; the metadata name
this context and this resolution, and keep width and scalar type.
Missing: without a resolution the pieces are not what `log_signature(interval)` gives
(`C128_resolution_refuted`), the support (`C128_support_refuted`). -/
theorem C128_simplify_partial (md : Meta) (effective : RealInterval) (a : SimplifyIn) (stream : Ctx)
    (hm : md.ctx = some stream) (h0 : a.depth ≠ some (.int 0)) (c : SimplifyCall)
    (hc : simplifyCall md effective a = .ok c) :
    ∃ (ctx : Ctx) (r : ℤ),
      c.pieces = a.pieces.map (fun i => (i, ⟨i, some r, ctx⟩)) ∧
      (match a.resolution with | some o => o = .int r | none => r = md.resolution) ∧
      (match a.ctx with
        | some g => g = some ctx ∧ ctx.width = md.width ∧ some ctx.ctype = md.dataType
        | none => DWantsCtx stream a.depth ctx) ∧
      c.md.ctx = some ctx ∧ c.md.resolution = r ∧ c.md.width = md.width ∧ c.md.dataType = md.dataType := by
  unfold simplifyCall at hc
  obtain ⟨res, h1, h2⟩ := Out.bind_ok hc
  have hres : (match a.resolution with | some o => o = .int res | none => res = md.resolution) := by
    cases hr : a.resolution with
    | none => rw [hr] at h1; exact (Out.ok.inj h1).symm
    | some o => rw [hr] at h1; exact asInt_ok h1
  rcases hx : a.ctx with _ | _ | g
  · rw [hx] at h2
    dsimp only at h2
    obtain ⟨depth, h3, h4⟩ := Out.bind_ok h2
    rw [hm] at h4
    dsimp only at h4
    by_cases hd : depth ≠ 0
    · rw [if_pos hd] at h4
      cases hg : getContext stream.width depth (some stream.ctype) with
      | none => rw [hg] at h4; cases h4
      | some ctx =>
        rw [hg] at h4
        have := Out.ok.inj h4
        subst this
        refine ⟨ctx, res, rfl, hres, ?_, rfl, rfl, rfl, rfl⟩
        obtain ⟨f1, f2, f3, _⟩ := getContext_some hg
        refine ⟨f1, (Option.some.inj f3).symm, ?_⟩
        cases hdep : a.depth with
        | none =>
          rw [hdep] at h3
          exact absurd (Out.ok.inj h3).symm hd
        | some o =>
          rw [hdep] at h3
          show o = .int ctx.depth
          rw [asInt_ok h3, f2]
    · rw [if_neg hd] at h4
      have := Out.ok.inj h4
      subst this
      refine ⟨stream, res, rfl, hres, ⟨rfl, rfl, ?_⟩, rfl, rfl, rfl, rfl⟩
      cases hdep : a.depth with
      | none => rfl
      | some o =>
        rw [hdep] at h3 h0
        rw [asInt_ok h3, not_not.1 hd] at h0
        exact absurd rfl h0
  · rw [hx] at h2; cases h2
  · rw [hx] at h2
    dsimp only at h2
    obtain ⟨depth, h3, h4⟩ := Out.bind_ok h2
    by_cases hw : g.width ≠ md.width
    · rw [if_pos hw] at h4; cases h4
    · rw [if_neg hw] at h4
      by_cases ht : some g.ctype ≠ md.dataType
      · rw [if_pos ht] at h4; cases h4
      · rw [if_neg ht] at h4
        have := Out.ok.inj h4
        subst this
        exact ⟨g, res, rfl, hres, ⟨rfl, not_not.1 hw, not_not.1 ht⟩, rfl, rfl, rfl, rfl⟩

/-- C128: a context of another width or another scalar type is refused. -/
theorem C128_refuses (md : Meta) (effective : RealInterval) (pieces : List RealInterval) (g : Ctx) :
    (simplifyCall md effective ⟨pieces, none, some (some g), none⟩ = .raised .value ↔
      g.width ≠ md.width ∨ some g.ctype ≠ md.dataType) := by
  show (if g.width ≠ md.width then Out.raised Exc.value
    else if some g.ctype ≠ md.dataType then .raised .value
    else .ok (simplifyWith md effective pieces md.resolution g)) = _ ↔ _
  by_cases hw : g.width ≠ md.width
  · rw [if_pos hw]
    exact ⟨fun _ => Or.inl hw, fun _ => rfl⟩
  · rw [if_neg hw]
    by_cases ht : some g.ctype ≠ md.dataType
    · rw [if_pos ht]
      exact ⟨fun _ => Or.inr ht, fun _ => rfl⟩
    · rw [if_neg ht]
      refine ⟨fun h => (by cases h), fun h => ?_⟩
      rcases h with h | h
      · exact absurd h hw
      · exact absurd h ht

example : simplifyCall exampleMeta ⟨0, 2, .clopen⟩
      ⟨[⟨0, 1, .clopen⟩, ⟨1, 2, .clopen⟩], some (.int 3), none, some (.int 4)⟩ =
    .ok ⟨[(⟨0, 1, .clopen⟩, ⟨⟨0, 1, .clopen⟩, some 3, ⟨2, 4, .f64⟩⟩),
        (⟨1, 2, .clopen⟩, ⟨⟨1, 2, .clopen⟩, some 3, ⟨2, 4, .f64⟩⟩)],
      ⟨2, some ⟨2, 4, .f64⟩, some .f64, 3⟩, ⟨0, 2, .clopen⟩⟩ := by decide +kernel

/-- C128 fails without a resolution: the piece over [0, 1/2) of the simplified stream is zero,
whereas `log_signature` over it is not. -/
theorem C128_resolution_refuted :
    let i : RealInterval := ⟨0, 1/2, .clopen⟩
    let answer := fun c : Call => ((c.ask twoTicks 10 (fun x => x.depth.toNat)).run twoTicks.impl Cache.empty).1
    answer ⟨i, none, ⟨2, 2, .f64⟩⟩ = some ⟨1, 1, 1/2⟩ ∧
    simplifyCall exampleMeta ⟨0, 2, .clopen⟩ ⟨[i], none, none, none⟩ =
      .ok ⟨[(i, ⟨i, some 0, ⟨2, 2, .f64⟩⟩)], exampleMeta, ⟨0, 2, .clopen⟩⟩ ∧
    answer ⟨i, some 0, ⟨2, 2, .f64⟩⟩ = some ⟨0, 0, 0⟩ := by decide +kernel

/-- C128 fails for the support: whatever the support of the stream (it may have been restricted) and
whatever the partition, the support of the simplified stream is that of the metadata. -/
theorem C128_support_refuted (md : Meta) (effective : RealInterval) (a : SimplifyIn) (c : SimplifyCall)
    (hc : simplifyCall md effective a = .ok c) : c.support = effective := by
  unfold simplifyCall at hc
  obtain ⟨res, _, h2⟩ := Out.bind_ok hc
  split at h2
  · cases h2
  · obtain ⟨_, _, h4⟩ := Out.bind_ok h2
    split at h4
    · cases h4
    · split at h4
      · cases h4
      · cases h4; rfl
  · obtain ⟨depth, _, h4⟩ := Out.bind_ok h2
    split at h4
    · cases h4
    · split at h4
      · split at h4
        · cases h4
        · cases h4; rfl
      · cases h4; rfl

end RoughPy.Query
