import Verif.Query.Spec
import Mathlib.Data.Int.Log
import Mathlib.Tactic.Linarith
import Mathlib.Tactic.NormNum

/-!
# Lemmas about the arguments of queries
-/

namespace RoughPy.Query

open RoughPy.Intervals RoughPy.Streams RoughPy.Schema

variable {α β : Type}

theorem Out.bind_ok {x : Out α} {f : α → Out β} {b : β} (h : x.bind f = .ok b) :
    ∃ a, x = .ok a ∧ f a = .ok b := by
  cases x with
  | ok a => exact ⟨a, rfl, h⟩
  | raised e => cases h
  | terminated => cases h
  | undefined => cases h

/-! ## Numbers -/

theorem wrap32_eq {n : ℤ} (h : -2 ^ 31 ≤ n ∧ n < 2 ^ 31) : wrap32 n = n := by
  unfold wrap32
  omega

theorem asResolution_eq {n : ℤ} (h : -2 ^ 31 ≤ n ∧ n < 2 ^ 31) : asResolution n = .ok n := by
  unfold asResolution
  rw [if_pos (by omega), wrap32_eq h]

theorem asResolution_ok {n r : ℤ} (h : asResolution n = .ok r) : r = wrap32 n := by
  unfold asResolution at h
  split at h
  · exact (Out.ok.inj h).symm
  · cases h

theorem roundTo_dvd {s a : ℕ} (h : 2 ^ s ∣ a) : roundTo s a = a := by
  unfold roundTo
  have hr : a % 2 ^ s = 0 := Nat.mod_eq_zero_of_dvd h
  have hp : 0 < 2 ^ s := Nat.pos_of_ne_zero (by simp)
  simp only [hr, Nat.mul_zero, hp, if_true]
  exact Nat.div_mul_cancel h

theorem asDouble_exact {n : ℤ} (h : n.natAbs ≤ 2 ^ 53) : asDouble n = .ok n := by
  have hr : roundTo (Nat.log 2 n.natAbs - 52) n.natAbs = n.natAbs := by
    apply roundTo_dvd
    rcases Nat.lt_or_ge n.natAbs (2 ^ 53) with hl | hl
    · have : Nat.log 2 n.natAbs < 53 := Nat.log_lt_of_lt_pow' (by norm_num) hl
      rw [show Nat.log 2 n.natAbs - 52 = 0 by omega]
      exact one_dvd _
    · have he : n.natAbs = 2 ^ 53 := le_antisymm h hl
      rw [he, Nat.log_pow (by norm_num)]
      exact ⟨2 ^ 52, by norm_num⟩
  unfold asDouble
  simp only [hr]
  have hlt : n.natAbs < 2 ^ 1024 := lt_of_le_of_lt h (Nat.pow_lt_pow_right (by norm_num) (by norm_num))
  rw [if_pos hlt]
  congr 1
  have hc : ((n.natAbs : ℕ) : ℚ) = ((n.natAbs : ℤ) : ℚ) := (Int.cast_natCast _).symm
  by_cases hn : n < 0
  · rw [if_pos hn, hc, show (n.natAbs : ℤ) = -n by omega, Int.cast_neg, neg_neg]
  · rw [if_neg hn, hc, show (n.natAbs : ℤ) = n by omega]

theorem resolutionOf_met {x : ℚ} (hx : 0 < x) : (Res.accuracy x).Met (Args.resolutionOf x) := by
  unfold Args.resolutionOf Res.Met
  have hne : x ≠ 0 := ne_of_gt hx
  rw [if_neg hne, abs_of_pos hx]
  rcases le_or_gt 32 x with h | h
  · left
    refine ⟨h, ?_⟩
    have : (5 : ℤ) ≤ Int.log 2 x := by
      rw [← Int.zpow_le_iff_le_log (by norm_num) hx]
      norm_num
      exact h
    rw [show Int.log 2 x + 1 - 1 = Int.log 2 x by ring, min_eq_left this]
  · right
    have hl : Int.log 2 x < 5 := by
      rw [← Int.lt_zpow_iff_log_lt (by norm_num) hx]
      norm_num
      exact h
    rw [show Int.log 2 x + 1 - 1 = Int.log 2 x by ring, min_eq_right (le_of_lt hl)]
    refine ⟨hx, h, ?_, fun r' hr' => ?_⟩
    · rw [neg_neg]
      exact_mod_cast Int.zpow_log_le_self (b := 2) (by norm_num) hx
    · have : -r' ≤ Int.log 2 x := by
        rw [← Int.zpow_le_iff_le_log (by norm_num) hx]
        exact_mod_cast hr'
      omega

/-! ## The parser -/

theorem resConv_absent {o : Option Obj} (h : Absent o) :
    optional (resolutionConverter · none) none o = .ok none := by
  rcases h with rfl | rfl <;> rfl

theorem resConv_given {r : Res} (hf : r.Fits) (hp : r.Positive) (old : Option ℤ) :
    ∃ k, resolutionConverter r.obj old = .ok (some k) ∧ r.Met k := by
  cases r with
  | level n =>
    refine ⟨n, ?_, rfl⟩
    show (asResolution n).bind _ = _
    rw [asResolution_eq hf]
    rfl
  | accuracy x => exact ⟨_, rfl, resolutionOf_met hp⟩

/-- What is known of the resolution handed over. -/
def ResOk (r : Option Res) (k : Option ℤ) : Prop :=
  match r with
  | none => k = none
  | some r => ∃ n, k = some n ∧ r.Met n

theorem resConv_says {o : Option Obj} {r : Option Res} (h : SaysRes o r)
    (hf : ∀ x, r = some x → x.Fits ∧ x.Positive) :
    ∃ k, optional (resolutionConverter · none) none o = .ok k ∧ ResOk r k := by
  cases h with
  | absent h => exact ⟨none, resConv_absent h, rfl⟩
  | given r =>
    obtain ⟨k, h1, h2⟩ := resConv_given (hf r rfl).1 (hf r rfl).2 none
    exact ⟨some k, h1, k, rfl, h2⟩

theorem parseTuple_ok {a : SigIn} {t : Option ℤ × Option Ctx × ℤ} (h : parseTuple a = .ok t) :
    optional (resolutionConverter · none) none a.resolution = .ok t.1 ∧
    (match a.ctx with | none => t.2.1 = none | some c => c = t.2.1 ∧ c ≠ none) ∧
    optional asInt 0 a.depth = .ok t.2.2 := by
  unfold parseTuple at h
  obtain ⟨res, h1, h2⟩ := Out.bind_ok h
  rcases hc : a.ctx with _ | _ | c
  · rw [hc] at h2
    obtain ⟨d, h3, h4⟩ := Out.bind_ok h2
    cases h4
    exact ⟨h1, rfl, h3⟩
  · rw [hc] at h2; cases h2
  · rw [hc] at h2
    obtain ⟨d, h3, h4⟩ := Out.bind_ok h2
    cases h4
    exact ⟨h1, ⟨rfl, by simp⟩, h3⟩

theorem supValue_exact {y : Num} (h : y.Exact) : supValue y.obj = .ok y.val := by
  cases y with
  | float x => rfl
  | int n =>
    show asDouble n = .ok (n : ℚ)
    exact asDouble_exact h

theorem fromEnds_eq {x : ℚ} {y : Num} (h : y.Exact) (hxy : x ≤ y.val) (res : Option ℤ) :
    fromEnds x y.obj res = .ok (some ⟨x, y.val, .clopen⟩, res) := by
  unfold fromEnds
  rw [supValue_exact h]
  show (if x > y.val then _ else _) = _
  rw [if_neg (not_lt.2 hxy)]
  unfold RealInterval.mk'
  rw [if_neg (not_lt.2 hxy)]

theorem fromEnds_gt {x : ℚ} {y : Num} (h : y.Exact) (hxy : y.val < x) (res : Option ℤ) :
    fromEnds x y.obj res = .raised .value := by
  unfold fromEnds
  rw [supValue_exact h]
  show (if x > y.val then _ else _) = _
  rw [if_pos hxy]

theorem parseInterval_ends {a : SigIn} {x y : Num} (h1 : a.first = some x.obj)
    (h2 : a.sup = some y.obj) (hx : x.Exact) (res : Option ℤ) :
    parseInterval a res = fromEnds x.val y.obj res := by
  unfold parseInterval
  rw [h1]
  cases x with
  | float x => simp only [Num.obj, h2]; rfl
  | int n =>
    simp only [Num.obj, h2]
    rw [asDouble_exact hx]
    rfl

theorem parseInterval_over {a : SigIn} {o : Obj} {p : Place} (hi : IsInterval o p)
    (h1 : a.first = some o) (support : RealInterval) (res : Option ℤ) :
    parseInterval a res = fromInterval (p.interval' support) a.sup res := by
  unfold parseInterval
  rw [h1]
  cases hi <;> rfl

/-- Interval and resolution, for arguments that say something. -/
theorem parseInterval_says {a : SigIn} {p : Place} {r : Option Res} (h : Says a p r) (hp : p.Proper)
    (hf : ∀ x, r = some x → x.Fits ∧ x.Positive) (support : RealInterval) :
    ∃ res k i, optional (resolutionConverter · none) none a.resolution = .ok res ∧
      parseInterval a res = .ok (i, k) ∧ i.getD support = p.interval' support ∧ ResOk r k := by
  cases h with
  | whole h1 h2 h3 =>
    obtain ⟨k, hk, hr⟩ := resConv_says h3 hf
    refine ⟨k, k, none, hk, ?_, rfl, hr⟩
    unfold parseInterval
    rcases h1 with h1 | h1 <;> rw [h1]
  | level n h1 h2 h3 =>
    refine ⟨none, some n, none, resConv_absent h3, ?_, rfl, n, rfl, rfl⟩
    unfold parseInterval
    rw [h1, h2]
    show (asResolution n).bind _ = _
    rw [asResolution_eq (hf _ rfl).1]
    rfl
  | ends x y h1 h2 h3 =>
    obtain ⟨k, hk, hr⟩ := resConv_says h3 hf
    refine ⟨k, k, some ⟨x.val, y.val, .clopen⟩, hk, ?_, rfl, hr⟩
    rw [parseInterval_ends h1 h2 hp.1, fromEnds_eq hp.2.1 hp.2.2]
  | over hi h1 h2 h3 =>
    obtain ⟨k, hk, hr⟩ := resConv_says h3 hf
    refine ⟨k, k, some (p.interval' support), hk, ?_, rfl, hr⟩
    rw [parseInterval_over hi h1 support]
    rcases h2 with h2 | h2 <;> rw [h2] <;> rfl
  | overAt r hi h1 h2 h3 =>
    obtain ⟨k, hk, hr⟩ := resConv_given (hf r rfl).1 (hf r rfl).2 none
    refine ⟨none, some k, some (p.interval' support), resConv_absent h3, ?_, rfl, k, rfl, hr⟩
    rw [parseInterval_over hi h1 support, h2]
    show (resolutionConverter r.obj none).bind _ = _
    rw [hk]
    rfl

/-- A resolution argument that is accepted says something. -/
theorem says_of_ok {o : Option Obj} {k : Option ℤ}
    (h : optional (resolutionConverter · none) none o = .ok k) : ∃ r, SaysRes o r := by
  rcases o with _ | o
  · exact ⟨none, .absent (Or.inl rfl)⟩
  · cases o with
    | none => exact ⟨none, .absent (Or.inr rfl)⟩
    | float x => exact ⟨some (.accuracy x), .given (.accuracy x)⟩
    | int n => exact ⟨some (.level n), .given (.level n)⟩
    | real i => cases h
    | dyadic d => cases h
    | interval i => cases h
    | other => cases h

theorem num_of_supValue {o : Obj} {x : ℚ} (h : supValue o = .ok x) : ∃ y : Num, o = y.obj := by
  cases o with
  | float x => exact ⟨.float x, rfl⟩
  | int n => exact ⟨.int n, rfl⟩
  | none => cases h
  | real i => cases h
  | dyadic d => cases h
  | interval i => cases h
  | other => cases h

/-- Arguments that are accepted say something or contradict each other. -/
theorem says_of_parse {a : SigIn} {res : Option ℤ} {ir : Option RealInterval × Option ℤ}
    (h1 : optional (resolutionConverter · none) none a.resolution = .ok res)
    (h2 : parseInterval a res = .ok ir) : (∃ p r, Says a p r) ∨ Contradictory a := by
  obtain ⟨r, hr⟩ := says_of_ok h1
  have hover : ∀ o p i, IsInterval o p → a.first = some o → fromInterval i a.sup res = .ok ir →
      (∃ p r, Says a p r) ∨ Contradictory a := by
    intro o p i hi ho hf
    by_cases hs : Absent a.sup
    · exact Or.inl ⟨p, r, .over hi ho hs hr⟩
    · by_cases ha : Absent a.resolution
      · rcases hsup : a.sup with _ | s
        · exact absurd (Or.inl hsup) hs
        · rw [hsup] at hf
          obtain ⟨k, hk, _⟩ := Out.bind_ok hf
          cases s with
          | none => exact absurd (Or.inr hsup) hs
          | float x => exact Or.inl ⟨p, _, .overAt (.accuracy x) hi ho hsup ha⟩
          | int n => exact Or.inl ⟨p, _, .overAt (.level n) hi ho hsup ha⟩
          | real i => cases hk
          | dyadic d => cases hk
          | interval i => cases hk
          | other => cases hk
      · exact Or.inr (Or.inr (Or.inr ⟨o, p, ho, hi, hs, ha⟩))
  rcases hfirst : a.first with _ | o
  · by_cases hs : a.sup = none
    · exact Or.inl ⟨_, _, .whole (Or.inl hfirst) hs hr⟩
    · exact Or.inr (Or.inl ⟨Or.inl hfirst, hs⟩)
  · unfold parseInterval at h2
    rw [hfirst] at h2
    cases o with
    | none =>
      by_cases hs : a.sup = none
      · exact Or.inl ⟨_, _, .whole (Or.inr hfirst) hs hr⟩
      · exact Or.inr (Or.inl ⟨Or.inr hfirst, hs⟩)
    | float x =>
      rcases hsup : a.sup with _ | s
      · rw [hsup] at h2; cases h2
      · rw [hsup] at h2
        obtain ⟨y, hy, _⟩ := Out.bind_ok h2
        obtain ⟨y', hy'⟩ := num_of_supValue hy
        exact Or.inl ⟨_, _, .ends (.float x) y' hfirst (by rw [hsup, hy']) hr⟩
    | int n =>
      rcases hsup : a.sup with _ | s
      · by_cases ha : Absent a.resolution
        · exact Or.inl ⟨_, _, .level n hfirst hsup ha⟩
        · exact Or.inr (Or.inr (Or.inl ⟨n, hfirst, hsup, ha⟩))
      · rw [hsup] at h2
        obtain ⟨x, _, h3⟩ := Out.bind_ok h2
        obtain ⟨y, hy, _⟩ := Out.bind_ok h3
        obtain ⟨y', hy'⟩ := num_of_supValue hy
        exact Or.inl ⟨_, _, .ends (.int n) y' hfirst (by rw [hsup, hy']) hr⟩
    | real i => exact hover _ _ i (.real i) hfirst h2
    | dyadic d => exact hover _ _ (asInterval d) (.dyadic d) hfirst h2
    | interval i => exact hover _ _ i (.interval i) hfirst h2
    | other => cases h2

/-- The parts of a successful call. -/
theorem signatureCall_ok {md : Meta} {support : RealInterval} {a : SigIn} {c : Call}
    (h : signatureCall md support a = .ok c) :
    ∃ t ir, parseTuple a = .ok t ∧ parseInterval a t.1 = .ok ir ∧
      parseContext md t.2.1 t.2.2 a.dtype = .ok (some c.ctx) ∧ c.interval = ir.1.getD support ∧
      c.resolution = ir.2 := by
  unfold signatureCall parseSigArgs at h
  obtain ⟨s, h1, h2⟩ := Out.bind_ok h
  obtain ⟨t, h3, h4⟩ := Out.bind_ok h1
  obtain ⟨ir, h5, h6⟩ := Out.bind_ok h4
  obtain ⟨x, h7, h8⟩ := Out.bind_ok h6
  have hs := Out.ok.inj h8
  subst hs
  unfold dispatch at h2
  cases x with
  | none => cases h2
  | some ctx =>
    dsimp only at h2
    obtain ⟨i, r⟩ := ir
    cases i with
    | none => cases h2; exact ⟨t, _, h3, h5, h7, rfl, rfl⟩
    | some i => cases h2; exact ⟨t, _, h3, h5, h7, rfl, rfl⟩

/-! ## Contexts -/

theorem getContext_some {w d : ℤ} {t : Option CType} {c : Ctx} (h : getContext w d t = some c) :
    c.width = w ∧ c.depth = d ∧ t = some c.ctype ∧ Supported c.ctype := by
  rcases t with _ | t
  · cases h
  · cases t with
    | other n => cases h
    | f64 => cases h; exact ⟨rfl, rfl, rfl, trivial⟩
    | f32 => cases h; exact ⟨rfl, rfl, rfl, trivial⟩
    | rational => cases h; exact ⟨rfl, rfl, rfl, trivial⟩
    | poly => cases h; exact ⟨rfl, rfl, rfl, trivial⟩

theorem getContext_supported {t : CType} (h : Supported t) (w d : ℤ) :
    getContext w d (some t) = some ⟨w, d, t⟩ := by
  cases t with
  | other n => cases h
  | f64 => rfl
  | f32 => rfl
  | rational => rfl
  | poly => rfl

theorem asInt_ok {o : Obj} {n : ℤ} (h : asInt o = .ok n) : o = .int n := by
  cases o with
  | int m =>
    unfold asInt at h
    dsimp only at h
    by_cases hm : -2 ^ 31 ≤ m ∧ m < 2 ^ 31
    · rw [if_pos hm] at h
      rw [Out.ok.inj h]
    · rw [if_neg hm] at h
      cases h
  | none => cases h
  | float x => cases h
  | real i => cases h
  | dyadic d => cases h
  | interval i => cases h
  | other => cases h

theorem parseDType_ok {old t : Option CType} {d : DType} (h : parseDType old (some d) = .ok t) :
    ∃ t', t = some t' ∧ d.Means t' := by
  cases d with
  | scalar t => cases h; exact ⟨t, rfl, rfl⟩
  | str k => cases k <;> cases h
  | npy k =>
    cases k with
    | none => cases h
    | some t => cases h; exact ⟨t, rfl, rfl⟩
  | other => cases h

/-! ## Derivatives -/

theorem parsePair_pairObj (p : RealInterval × ℕ) : parsePair (pairObj p) = .ok p := rfl

theorem parseItem_pairObj (p : RealInterval × ℕ) : parseItem (pairObj p) = .ok p := rfl

theorem parseItems_map (ps : List (RealInterval × ℕ)) : parseItems (ps.map pairObj) = .ok ps := by
  induction ps with
  | nil => rfl
  | cons p ps ih =>
    show (parseItem (pairObj p)).bind _ = _
    rw [parseItem_pairObj]
    show (parseItems (ps.map pairObj)).bind _ = _
    rw [ih]
    rfl

theorem parseItem_ok {o : DObj} {p : RealInterval × ℕ} (h : parseItem o = .ok p) : o = pairObj p := by
  have hp : ∀ o, parsePair o = .ok p → o = pairObj p := by
    intro o h
    unfold parsePair at h
    split at h
    · cases h; rfl
    · cases h
    · cases h
  unfold parseItem at h
  split at h
  · split at h
    · exact hp _ h
    · cases h
  · split at h
    · exact hp _ h
    · cases h
  · cases h

theorem parseItems_ok {os : List DObj} {ps : List (RealInterval × ℕ)} (h : parseItems os = .ok ps) :
    os = ps.map pairObj := by
  induction os generalizing ps with
  | nil => cases h; rfl
  | cons o os ih =>
    obtain ⟨p, h1, h2⟩ := Out.bind_ok h
    obtain ⟨qs, h3, h4⟩ := Out.bind_ok h2
    cases h4
    rw [List.map_cons, ← ih h3, parseItem_ok h1]

theorem parsePair_ok {o : DObj} {p : RealInterval × ℕ} (h : parsePair o = .ok p) : o = pairObj p := by
  unfold parsePair at h
  split at h
  · cases h; rfl
  · cases h
  · cases h

theorem secondArg_ok {second : Option DObj} {res : ℤ} {sr : Option DObj × ℤ}
    (h : secondArg second res = .ok sr) :
    (∃ n, second = some (.int n) ∧ sr = (none, wrap32 n)) ∨
    ((∀ n, second ≠ some (.int n)) ∧ sr = (second, res)) := by
  unfold secondArg at h
  split at h
  · rename_i n
    obtain ⟨r, h1, h2⟩ := Out.bind_ok h
    cases h2
    exact Or.inl ⟨n, rfl, by rw [asResolution_ok h1]⟩
  · rename_i hn
    cases h
    exact Or.inr ⟨hn, rfl⟩

/-- The parts of a successful call. -/
theorem derivCall_ok {md : Meta} {a : DerivIn} {c : DerivCall} (h : derivCall md a = .ok c) :
    ∃ res depth stream sr, optional asInt md.resolution a.resolution = .ok res ∧
      optional asInt (-1) a.depth = .ok depth ∧ md.ctx = some stream ∧
      (if depth = -1 then some stream else getContext stream.width depth (some stream.ctype)) = some c.ctx ∧
      secondArg a.second res = .ok sr ∧ parsePairs a.arg sr.1 = .ok c.pairs ∧ c.resolution = sr.2 := by
  unfold derivCall at h
  obtain ⟨res, h1, h2⟩ := Out.bind_ok h
  obtain ⟨depth, h3, h4⟩ := Out.bind_ok h2
  cases hc : md.ctx with
  | none => rw [hc] at h4; cases h4
  | some stream =>
    rw [hc] at h4
    dsimp only at h4
    cases hx : (if depth = -1 then some stream else getContext stream.width depth (some stream.ctype)) with
    | none => rw [hx] at h4; cases h4
    | some ctx =>
      rw [hx] at h4
      dsimp only at h4
      obtain ⟨sr, h5, h6⟩ := Out.bind_ok h4
      obtain ⟨ps, h7, h8⟩ := Out.bind_ok h6
      cases h8
      exact ⟨res, depth, stream, sr, h1, h3, rfl, hx, h5, h7, rfl⟩

end RoughPy.Query
