import Verif.Lie.MapLemmas

set_option linter.unusedSectionVars false

/-!
# The columns of the matrix from tensors to Lie elements
-/

namespace RoughPy.Lie

open RoughPy.Tensor (loop loop_nil loop_cons degreesUp Buf Series wordIndex wordOffset wordsBelow loop_range_inv
  loop_map_range_inv wordIndex_inj)
open RoughPy.Tensor.Series (rb letter)
open RoughPy.Sparse

attribute [local instance] LieRing.ofAssociativeRing

/-! ## Loops whose body needs some recursion depth -/

theorem loop_map_range_ev {σ ι : Type} (I : ℕ → σ → Prop) (n : ℕ) (f : ℕ → ι) (body : ℕ → σ → ι → Option σ) (s : σ)
    (h0 : I 0 s) (hstep : ∀ i, i < n → ∀ s, I i s → ∃ n₀ s', (∀ fuel, n₀ ≤ fuel → body fuel s (f i) = some s') ∧ I (i + 1) s') :
    ∃ n₀ s', (∀ fuel, n₀ ≤ fuel → loop ((List.range n).map f) s (body fuel) = some s') ∧ I n s' := by
  have key : ∀ m k s, k + m = n → I k s →
      ∃ n₀ s', (∀ fuel, n₀ ≤ fuel → loop ((List.range' k m).map f) s (body fuel) = some s') ∧ I n s' := by
    intro m
    induction m with
    | zero => intro k s hk hI; exact ⟨0, s, fun _ _ => rfl, by rwa [← hk]⟩
    | succ m ih =>
      intro k s hk hI
      obtain ⟨n1, s1, h1, hI1⟩ := hstep k (by omega) s hI
      obtain ⟨n2, s2, h2, hI2⟩ := ih (k + 1) s1 (by omega) hI1
      refine ⟨max n1 n2, s2, fun fuel hf => ?_, hI2⟩
      rw [List.range'_succ, List.map_cons, loop_cons, h1 fuel (le_trans (le_max_left _ _) hf)]
      exact h2 fuel (le_trans (le_max_right _ _) hf)
  have := key n 0 s (by omega) h0
  rwa [← List.range_eq_range'] at this

theorem loop_range_ev {σ : Type} (I : ℕ → σ → Prop) (n : ℕ) (body : ℕ → σ → ℕ → Option σ) (s : σ)
    (h0 : I 0 s) (hstep : ∀ i, i < n → ∀ s, I i s → ∃ n₀ s', (∀ fuel, n₀ ≤ fuel → body fuel s i = some s') ∧ I (i + 1) s') :
    ∃ n₀ s', (∀ fuel, n₀ ≤ fuel → loop (List.range n) s (body fuel) = some s') ∧ I n s' := by
  have := loop_map_range_ev I n id body s h0 hstep
  rwa [List.map_id] at this

theorem Step.list {K : Type} [AddCommMonoid K] [DecidableEq K] {done : List (List (ℕ × K))} {α : Type} {l : List α}
    {F : α → ℕ → K} {S : ℕ → Prop} {body : Helper K → α → Option (Helper K)}
    (hb : ∀ t ∈ l, Step done (F t) S fun h => body h t) :
    Step done (fun k => (l.map fun t => F t k).sum) S fun h => loop l h body := by
  induction l with
  | nil =>
    intro h cur hh
    exact ⟨h, cur, rfl, hh, fun k => by simp, fun e he => Or.inr ⟨e, he, rfl⟩, Shape.refl h⟩
  | cons t l ih =>
    exact Step.congr (Step.bind (hb t (List.mem_cons_self ..)) (ih fun t ht => hb t (List.mem_cons_of_mem _ ht)))
      fun h cur hh => loop_cons ..

variable {K : Type} [Field K] [DecidableEq K]

/-! ## Values of columns -/

/-- The Lie element with the given coordinates. -/
def valOf (b : Basis) (c : List (ℕ × K)) : Series (Fin b.width) K := (c.map fun e => e.2 • hallPoly K b (e.1 + 1)).sum

theorem valOf_nil (b : Basis) : valOf b ([] : List (ℕ × K)) = 0 := rfl

theorem valOf_cons (b : Basis) (e : ℕ × K) (c : List (ℕ × K)) :
    valOf b (e :: c) = e.2 • hallPoly K b (e.1 + 1) + valOf b c := by simp [valOf]

theorem valOf_coeff (b : Basis) {N : ℕ} {c : List (ℕ × K)} (hc : ∀ e ∈ c, e.1 < N) :
    valOf b c = ∑ k ∈ Finset.range N, coeff c k • hallPoly K b (k + 1) := by
  induction c with
  | nil => simp [valOf_nil, coeff_nil]
  | cons e c ih =>
    rw [valOf_cons, ih fun e he => hc e (List.mem_cons_of_mem _ he)]
    simp only [coeff_cons, add_smul, Finset.sum_add_distrib, ite_smul, zero_smul]
    rw [Finset.sum_ite_eq, if_pos (Finset.mem_range.2 (hc e (List.mem_cons_self ..)))]

theorem valOf_purge (b : Basis) (c : List (ℕ × K)) : valOf b (purge c) = valOf b c := by
  induction c with
  | nil => rfl
  | cons e c ih =>
    rw [valOf_cons, ← ih]
    unfold purge
    rw [List.filter_cons]
    by_cases h : e.2 = 0
    · simp [h]
    · simp [h, valOf_cons]

theorem valOf_bracket (b : Basis) (A : Series (Fin b.width) K) (c : List (ℕ × K)) :
    (c.map fun e => e.2 • (A * hallPoly K b (e.1 + 1) - hallPoly K b (e.1 + 1) * A)).sum =
      A * valOf b c - valOf b c * A := by
  induction c with
  | nil => simp [valOf_nil]
  | cons e c ih =>
    rw [List.map_cons, List.sum_cons, ih, valOf_cons, mul_add, add_mul, smul_sub, mul_smul_comm, smul_mul_assoc]
    abel

/-- The column of a word, before the normalisation. -/
structure T2LCol (b : Basis) (u : List (Fin b.width)) (c : List (ℕ × K)) : Prop where
  value : valOf b c = rb K u
  keys : ∀ e ∈ c, HasDegree b (e.1 + 1) u.length

theorem T2LCol.purge {b : Basis} {u : List (Fin b.width)} {c : List (ℕ × K)} (h : T2LCol b u c) : T2LCol b u (purge c) :=
  ⟨by rw [valOf_purge, h.value], fun e he => h.keys e (mem_purge.1 he).1⟩

structure T2LCols (b : Basis) (cols : List (List (ℕ × K))) : Prop where
  col : ∀ z c, cols[wordIndex z]? = some c → T2LCol b z c
  letter : ∀ (a : Fin b.width) c, cols[a.val + 1]? = some c → c = [(a.val, 1)]

theorem getElem?_concat {α : Type*} {l : List α} {x y : α} {i : ℕ} (h : (l ++ [x])[i]? = some y) :
    l[i]? = some y ∨ (i = l.length ∧ y = x) := by
  rcases Nat.lt_or_ge i l.length with hi | hi
  · rw [List.getElem?_append_left hi] at h; exact Or.inl h
  · rw [List.getElem?_append_right hi] at h
    have hi0 : i - l.length = 0 := by
      by_contra hne
      rw [List.getElem?_eq_none (by simp; omega)] at h
      cases h
    rw [hi0] at h
    simp only [List.getElem?_cons_zero, Option.some.injEq] at h
    exact Or.inr ⟨by omega, h.symm⟩

theorem T2LCols.append {b : Basis} {cols : List (List (ℕ × K))} (h : T2LCols b cols) {z : List (Fin b.width)}
    {c : List (ℕ × K)} (hz : cols.length = wordIndex z) (hc : T2LCol b z c)
    (hl : ∀ a : Fin b.width, z = [a] → c = [(a.val, 1)]) : T2LCols b (cols ++ [c]) := by
  constructor
  · intro z' c' h'
    rcases getElem?_concat h' with h' | ⟨h1, rfl⟩
    · exact h.col z' c' h'
    · have := wordIndex_inj (h1.trans hz)
      subst this
      exact hc
  · intro a c' h'
    rcases getElem?_concat h' with h' | ⟨h1, rfl⟩
    · exact h.letter a c' h'
    · exact hl a (wordIndex_inj (by rw [← hz, ← h1, wordIndex_letter]))

theorem T2LCols.flatten_ne {b : Basis} (hw : 0 < b.width) {cols : List (List (ℕ × K))} (h : T2LCols b cols)
    (hl : 1 < cols.length) : cols.flatten ≠ [] := by
  intro hf
  have h1 := h.letter ⟨0, hw⟩ cols[1] (List.getElem?_eq_getElem hl)
  have h2 : ((0, 1) : ℕ × K) ∈ cols.flatten := List.mem_flatten.2 ⟨cols[1], List.getElem_mem hl, by rw [h1]; simp⟩
  rw [hf] at h2
  cases h2

theorem zsmul_apply {α : Type*} (n : ℤ) (f : Series α K) (z : List α) : (n • f) z = (n : K) * f z := by
  have := map_zsmul ({ toFun := fun f : Series α K => f z, map_zero' := rfl, map_add' := fun _ _ => rfl } : Series α K →+ K) n f
  exact this.trans (zsmul_eq_mul ..)

theorem zsmul_eq {α : Type*} (n : ℤ) (f : Series α K) : n • f = (n : K) • f := by
  funext z
  rw [zsmul_apply]
  rfl

theorem lookup_std {w : ℕ} {b : Basis} (hstd : Standard w b) {L : Type*} [LieRing L] {e : ℕ → L} (he : IsHallMap b e)
    {cache : Cache} (h : History (Standard w) cache) {a c p q : ℕ} (ha0 : 0 < a) (hc0 : 0 < c)
    (ha : HasDegree b a p) (hc : HasDegree b c q) (hpq : p + q ≤ b.depth) :
    ∃ r cache', Looks b cache (a, c) (r, cache') ∧ EntryOK e b (p + q) a c r := by
  obtain ⟨m, rfl⟩ := (standard_iff w b).1 hstd
  exact lookup_value he h ha0 hc0 ha hc hpq

theorem t2lRbracket_ok {w : ℕ} {b : Basis} (hb : IsHallTable b) (hstd : Standard w b) {h : Helper K} {cache : Cache}
    {cols : List (List (ℕ × K))} (hh : Holds h cols []) (hist : History (Standard w) cache) (hcols : T2LCols b cols)
    {a : Fin b.width} {u : List (Fin b.width)} (hu : u ≠ []) (hul : u.length + 1 ≤ b.depth) {cl cr : List (ℕ × K)}
    (hcl : cols[a.val + 1]? = some cl) (hcr : cols[wordIndex u]? = some cr) :
    ∃ n₀ h' cache' cur, (∀ fuel, n₀ ≤ fuel →
        t2lRbracket (get b fuel) (h, cache) (1 + a.val) (wordIndex u) = some (h', cache')) ∧
      Holds h' cols cur ∧ T2LCol b (a :: u) cur ∧ History (Standard w) cache' ∧ Shape h h' := by
  have hCl := hcols.letter a cl hcl
  have hCr := hcols.col u cr hcr
  have ha1 : HasDegree b (1 + a.val) 1 := hb.letter_iff.2 (by omega)
  have hdp := hb.depth_pos
  have hpoly : hallPoly K b (1 + a.val) = letter K a := by rw [add_comm]; exact hallPoly_letter hb a
  set N := b.data.length - 1 with hN
  obtain ⟨n₀, s', h1, cur, h2, h3, h4, h5, h6⟩ := loop_range_ev (σ := Helper K × Cache)
    (fun i s => ∃ cur, Holds s.1 cols cur ∧
      valOf b cur = ((cr.take i).map fun e => e.2 • (letter K a * hallPoly K b (e.1 + 1) - hallPoly K b (e.1 + 1) * letter K a)).sum ∧
      (∀ e ∈ cur, HasDegree b (e.1 + 1) (u.length + 1)) ∧ History (Standard w) s.2 ∧ Shape h s.1) cr.length
    (fun fuel s i => do
      let rf ← s.1.frames[wordIndex u]?
      let re ← s.1.entry rf i
      let p ← get b fuel s.2 (1 + a.val, 1 + re.1)
      let h ← loop p.1 s.1 fun h t => do
        let lf ← h.frames[1 + a.val]?
        let rf ← h.frames[wordIndex u]?
        let le ← h.entry lf 0
        let re ← h.entry rf i
        if t.1 = 0 then none else insertValue h (t.1 - 1) ((t.2 : K) * (le.2 * re.2))
      some (h, p.2)) (h, cache)
    ⟨[], hh, by simp [valOf_nil], by simp, hist, Shape.refl h⟩ (by
      rintro i hi ⟨h, cache⟩ ⟨cur, hh, hval, hkeys, hist, hsh⟩
      have hci : cr[i]? = some cr[i] := List.getElem?_eq_getElem hi
      set e := cr[i] with he
      have hek : HasDegree b (1 + e.1) u.length := by
        rw [add_comm]; exact hCr.keys e (List.mem_of_getElem? hci)
      have hul0 : 0 < u.length := List.length_pos_iff.2 hu
      obtain ⟨r, cache', hlk, hok⟩ := lookup_std hstd (hallPoly_isHallMap (K := K) hb) hist (by omega)
        (hb.pos_of_degree hek hul0) ha1 hek (by omega)
      obtain ⟨n₀, hn₀⟩ := hlk
      have hdegN : ∀ t : ℕ × ℤ, t ∈ r → 0 < t.1 ∧ t.1 - 1 < N ∧ HasDegree b t.1 (u.length + 1) := by
        intro t ht
        have h1 := hok.keys t ht
        rw [add_comm] at h1
        have h2 := hb.pos_of_degree h1 (by omega)
        have h3 := h1.lt hb
        exact ⟨h2, by omega, h1⟩
      have hstep : Step cols (fun k => (r.map fun t => if k = t.1 - 1 then (t.2 : K) * (1 * e.2) else 0).sum)
          (fun k => HasDegree b (k + 1) (u.length + 1)) (fun h => loop r h fun h t => do
            let lf ← h.frames[1 + a.val]?
            let rf ← h.frames[wordIndex u]?
            let le ← h.entry lf 0
            let re ← h.entry rf i
            if t.1 = 0 then none else insertValue h (t.1 - 1) ((t.2 : K) * (le.2 * re.2))) := by
        refine Step.list fun t ht => ?_
        obtain ⟨t1, t2, t3⟩ := hdegN t ht
        refine Step.congr (Step.insert cols (t.1 - 1) ((t.2 : K) * (1 * e.2)) _ (by
          rw [show t.1 - 1 + 1 = t.1 by omega]; exact t3)) ?_
        intro h cur hh
        obtain ⟨a1, a2⟩ := Holds.read hh (show cols[1 + a.val]? = some cl by rw [add_comm]; exact hcl) (i := 0) (e := (a.val, 1)) (by rw [hCl]; rfl)
        obtain ⟨a3, a4⟩ := Holds.read hh hcr hci
        simp only [a1, a2, a3, a4, Option.bind_eq_bind, Option.bind_some]
        rw [if_neg (by omega)]
      obtain ⟨h', cur', b1, b2, b3, b4, b5⟩ := hstep h cur hh
      have hkeys' : ∀ e ∈ cur', HasDegree b (e.1 + 1) (u.length + 1) := by
        intro e he
        rcases b4 e he with h | ⟨e', he', h⟩
        · exact h
        · rw [← h]; exact hkeys e' he'
      refine ⟨n₀, (h', cache'), fun fuel hf => ?_, cur', b2, ?_, hkeys', ?_, hsh.trans b5⟩
      · obtain ⟨a3, a4⟩ := Holds.read hh hcr hci
        show ((h.frames[wordIndex u]?).bind fun rf => (h.entry rf i).bind fun re =>
          (get b fuel cache (1 + a.val, 1 + re.1)).bind fun p => (loop p.1 h _).bind fun h => some (h, p.2)) = _
        rw [a3, Option.bind_some, a4, Option.bind_some, hn₀ fuel hf, Option.bind_some]
        exact congrArg (fun o => o.bind fun h => some (h, cache')) b1
      · have hlt : ∀ (c : List (ℕ × K)), (∀ e ∈ c, HasDegree b (e.1 + 1) (u.length + 1)) → ∀ e ∈ c, e.1 < N := by
          intro c hc e he
          have := (hc e he).lt hb
          omega
        rw [valOf_coeff b (hlt cur' hkeys'), List.take_add_one, hci, List.map_append, List.sum_append, ← hval,
          valOf_coeff b (hlt cur hkeys)]
        simp only [b3, add_smul, Finset.sum_add_distrib]
        congr 1
        have hs : ∀ l : List (ℕ × ℤ), (∀ t ∈ l, 0 < t.1 ∧ t.1 - 1 < N) →
            ∑ k ∈ Finset.range N, (l.map fun t => if k = t.1 - 1 then (t.2 : K) * (1 * e.2) else 0).sum • hallPoly K b (k + 1) =
              e.2 • (l.map fun t => t.2 • hallPoly K b t.1).sum := by
          intro l
          induction l with
          | nil => intro _; simp
          | cons t l ih =>
            intro hl
            obtain ⟨t1, t2⟩ := hl t (List.mem_cons_self ..)
            simp only [List.map_cons, List.sum_cons, add_smul, Finset.sum_add_distrib]
            rw [ih fun t ht => hl t (List.mem_cons_of_mem _ ht), smul_add]
            congr 1
            simp only [ite_smul, zero_smul]
            rw [Finset.sum_ite_eq', if_pos (Finset.mem_range.2 t2), show t.1 - 1 + 1 = t.1 by omega, zsmul_eq, smul_smul,
              one_mul, mul_comm]
        rw [hs r fun t ht => ⟨(hdegN t ht).1, (hdegN t ht).2.1⟩]
        have hv := hok.value
        unfold Entry.value at hv
        rw [hv, Ring.lie_def, hpoly, add_comm 1 e.1]
        simp
      · exact History.lookup hstd hist ⟨n₀, hn₀⟩)
  refine ⟨n₀, s'.1, s'.2, cur, fun fuel hf => ?_, h2, ⟨?_, ?_⟩, h5, h6⟩
  · have := h1 fuel hf
    unfold t2lRbracket
    rw [(hh.frame hcr).1, Option.bind_eq_bind, Option.bind_some]
    exact this
  · rw [h3, List.take_length, valOf_bracket, hCr.value, Tensor.Series.rb_cons a hu]
  · intro e he
    exact h4 e he

/-! ## The words of one degree -/

theorem t2lLetters_ok {b : Basis} (hb : IsHallTable b) (hw : 0 < b.width) {h0 : Helper K} (hh0 : Holds h0 [] [])
    (ha : b.width + 1 ≤ h0.alloc) : ∃ (h : Helper K) (cs : List (List (ℕ × K))),
      t2lLetters h0 b.width = some h ∧ Cols h cs ∧ T2LCols b cs ∧ cs.length = b.width + 1 ∧ Shape h0 h := by
  have hlet : ∀ (i : ℕ) (cs : List (List (ℕ × K))) (h : Helper K), i < b.width → cs.length = i + 1 → T2LCols b cs → Holds h cs [] →
      ∃ h' cs', insertValue h i 1 = some h' ∧ Cols h' cs' ∧ T2LCols b cs' ∧ cs'.length = i + 2 ∧ Shape h h' := by
    intro i cs h hi hcs hC hh
    obtain ⟨h', cur', h1, h2, h3, h4⟩ := hh.insertValue i 1
    have hcur : cur' = [(i, 1)] := by
      have hne := h3.ne one_ne_zero
      have hle := h3.le
      match cur', hne, hle, h3 with
      | [], hne, _, _ => exact absurd rfl hne
      | [e], _, _, h3 =>
        have hm : e.1 = i := by
          rcases h3.mem e (List.mem_singleton.2 rfl) with h | ⟨e', he', -⟩
          · exact h
          · cases he'
        have hc := h3.coeff i
        rw [coeff_cons, coeff_nil, if_pos hm, if_pos rfl] at hc
        simp only [zero_add, add_zero] at hc
        rw [show e = (i, 1) from Prod.ext hm hc]
      | _ :: _ :: _, _, hle, _ => simp at hle
    have hpu : purge cur' = [(i, (1 : K))] := by
      rw [hcur]
      exact purge_eq_self (by simp)
    have hcol : T2LCol b [(⟨i, hi⟩ : Fin b.width)] (purge cur') := by
      rw [hpu]
      constructor
      · rw [valOf_cons, valOf_nil, add_zero, one_smul]
        exact hallPoly_letter hb ⟨i, hi⟩
      · intro e he
        rw [List.mem_singleton.1 he]
        exact hb.letter_iff.2 ⟨by simp, by simpa using hi⟩
    refine ⟨h', cs ++ [purge cur'], h1, ⟨cs, cur', h2, rfl⟩, hC.append (by rw [hcs, wordIndex_letter]) hcol ?_, by simp [hcs], h4⟩
    intro a ha
    have : (⟨i, hi⟩ : Fin b.width) = a := by simpa using ha
    rw [hpu, ← this]
  obtain ⟨h, h1, cs, c1, c2, c3, c4, -⟩ := loop_range_inv
    (fun i (h : Helper K) => ∃ cs, Cols h cs ∧ T2LCols b cs ∧ cs.length = i + 1 ∧ Shape h0 h ∧ (i = 0 → h = h0)) b.width
    (fun h i => do
      let h ← insertFrame h
      insertValue h i 1) h0 ⟨[[]], ⟨[], [], hh0, rfl⟩, (by
        constructor
        · intro z c hz
          have h0 : wordIndex z = 0 := by
            by_contra hne
            rw [List.getElem?_eq_none (by simp; omega)] at hz
            cases hz
          have : z = [] := wordIndex_inj (by rw [h0]; rfl)
          subst this
          rw [h0] at hz
          simp only [List.getElem?_cons_zero, Option.some.injEq] at hz
          subst hz
          exact ⟨rfl, by simp⟩
        · intro a c hz
          rw [List.getElem?_eq_none (by simp)] at hz
          cases hz), rfl, Shape.refl _, fun _ => rfl⟩ (by
      rintro i hi h ⟨cs, c1, c2, c3, c4, c5⟩
      have hfr : ∃ h', insertFrame h = some h' ∧ Holds h' cs [] ∧ Shape h h' := by
        rcases Nat.eq_zero_or_pos i with rfl | hi0
        · have hcs : cs = [[]] := by
            match cs, c3 with
            | [c], _ => 
              have := (c2.col [] c rfl).keys
              match c, this with
              | [], _ => rfl
              | e :: _, this =>
                have h1 := this e (List.mem_cons_self ..)
                have h2 := hb.degree_pos h1 (by omega)
                simp at h2
          rw [c5 rfl, hcs]
          obtain ⟨h', h1, h2, h3, -, h4, h5, h6⟩ := hh0.insertFrame (Or.inl rfl) (by simp only [List.length_nil]; omega)
          exact ⟨h', h1, h2, h3, h4, h5, h6⟩
        · exact c1.frame (c2.flatten_ne hw (by omega)) (by rw [c4.1]; omega)
      obtain ⟨h', h1, h2, h3⟩ := hfr
      obtain ⟨h'', cs', e1, e2, e3, e4, e5⟩ := hlet i cs h' hi c3 c2 h2
      exact ⟨h'', by rw [h1]; exact e1, cs', e2, e3, e4, c4.trans (h3.trans e5), by omega⟩)
  exact ⟨h, cs, h1, c1, c2, c3, c4⟩

theorem t2lDegree_ok {w : ℕ} {b : Basis} (hb : IsHallTable b) (hw : 0 < b.width) (hstd : Standard w b) {h0 : Helper K}
    {cache : Cache} {cols : List (List (ℕ × K))} (hh : Cols h0 cols) (hist : History (Standard w) cache) (hcols : T2LCols b cols)
    {d : ℕ} (hd : 1 ≤ d) (hdD : d + 1 ≤ b.depth) (hlen : cols.length = wordsBelow b.width (d + 1))
    (ha : h0.alloc = wordsBelow b.width (b.depth + 1)) :
    ∃ n₀ h' cache' cols', (∀ fuel, n₀ ≤ fuel →
        t2lDegree (get b fuel) b.width (wordsBelow b.width d) (b.width ^ d) (h0, cache) = some (h', cache')) ∧
      Cols h' cols' ∧ T2LCols b cols' ∧ cols'.length = wordsBelow b.width (d + 2) ∧ History (Standard w) cache' ∧ Shape h0 h' := by
  have hbig : wordsBelow b.width (d + 2) ≤ wordsBelow b.width (b.depth + 1) := Tensor.wordsBelow_mono (by omega)
  have hsmall : wordsBelow b.width 2 ≤ wordsBelow b.width (d + 1) := Tensor.wordsBelow_mono (by omega)
  have htwo : wordsBelow b.width 2 = b.width + 1 := by simp [wordsBelow, Finset.sum_range_succ]; omega
  have hs2 : wordsBelow b.width (d + 2) = wordsBelow b.width (d + 1) + b.width ^ (d + 1) := Tensor.wordsBelow_succ (d + 1)
  have hpow : b.width ^ (d + 1) = b.width ^ d * b.width := pow_succ ..
  obtain ⟨n₀, s', h1, cols', h2, h3, h4, h5, h6⟩ := loop_range_ev (σ := Helper K × Cache)
    (fun i s => ∃ cols', Cols s.1 cols' ∧ T2LCols b cols' ∧ cols'.length = wordsBelow b.width (d + 1) + i ∧
      History (Standard w) s.2 ∧ Shape h0 s.1) (b.width ^ d * b.width)
    (fun fuel s idx => do
      let h ← insertFrame s.1
      let l := 1 + idx / b.width ^ d
      let r := wordsBelow b.width d + idx % b.width ^ d
      if l = r then some (h, s.2) else t2lRbracket (get b fuel) (h, s.2) l r) (h0, cache)
    ⟨cols, hh, hcols, hlen, hist, Shape.refl _⟩ (by
      rintro i hi ⟨h, cache⟩ ⟨cs, c1, c2, c3, c4, c5⟩
      dsimp only at c1 c4 c5
      obtain ⟨z, z1, z2⟩ := Tensor.exists_word (w := b.width) (d := d + 1) (r := i) (by rw [hpow]; exact hi)
      have hz : cs.length = wordIndex z := by rw [c3, ← z2, ← z1]; rfl
      obtain ⟨h', f1, f2, f3⟩ := c1.frame (c2.flatten_ne hw (by omega)) (by rw [c5.1, ha]; omega)
      match z, z1 with
      | a :: u, z1 =>
        have hu : u.length = d := by simpa using z1
        have hdiv : i / b.width ^ d = a.val := by
          have := Tensor.wordOffset_div (a :: u) 1
          rw [show (a :: u).length - 1 = d by simp [hu], z2] at this
          rw [this]
          exact Tensor.wordOffset_singleton a
        have hmod : wordsBelow b.width d + i % b.width ^ d = wordIndex u := by
          have := Tensor.wordOffset_mod (a :: u) 1
          rw [show (a :: u).length - 1 = d by simp [hu], z2] at this
          rw [this, ← hu]
          rfl
        have hune : u ≠ [] := by rintro rfl; simp at hu; omega
        by_cases hlr : 1 + a.val = wordIndex u
        · have hua : u = [a] := wordIndex_inj (by rw [← hlr, wordIndex_letter, add_comm])
          subst hua
          refine ⟨0, (h', cache), fun fuel _ => ?_, cs ++ [purge []], ⟨cs, [], f2, rfl⟩, c2.append hz ⟨?_, ?_⟩ ?_, ?_, c4, c5.trans f3⟩
          · dsimp only
            rw [f1, hdiv, hmod]
            exact if_pos hlr
          · rw [Tensor.Series.rb_cons a hune]
            show (0 : Series (Fin b.width) K) = letter K a * letter K a - letter K a * letter K a
            rw [sub_self]
          · intro e he; cases he
          · intro x hx; simp at hx
          · rw [List.length_append, c3]; rfl
        · have hul : wordIndex u < cs.length := by
            have := Tensor.wordIndex_lt (u := u) (D := d) (by omega)
            omega
          have hal : a.val + 1 < cs.length := by have := a.2; omega
          obtain ⟨n₀, h'', cache', cur, g1, g2, g3, g4, g5⟩ := t2lRbracket_ok hb hstd f2 c4 c2 hune (by omega)
            (List.getElem?_eq_getElem hal) (List.getElem?_eq_getElem hul)
          refine ⟨n₀, (h'', cache'), fun fuel hf => ?_, cs ++ [purge cur], ⟨cs, cur, g2, rfl⟩, c2.append hz g3.purge ?_, ?_, g4,
            c5.trans (f3.trans g5)⟩
          · dsimp only
            rw [f1, hdiv, hmod]
            exact (if_neg hlr).trans (g1 fuel hf)
          · intro x hx
            have : u = [] := by simpa using congrArg List.tail hx
            exact absurd this hune
          · rw [List.length_append, c3]; rfl)
  refine ⟨n₀, s'.1, s'.2, cols', fun fuel hf => h1 fuel hf, h2, h3, ?_, h5, h6⟩
  rw [h4, hs2, hpow]

/-! ## Normalisation -/

/-- All values of a column multiplied by `k`. -/
def scaleCol (k : K) (c : List (ℕ × K)) : List (ℕ × K) := c.map fun e => (e.1, e.2 * k)

theorem scaleFrame_entries {h : Helper K} {k : K} {pre c post : List (ℕ × K)} (he : h.entries = pre ++ (c ++ post)) :
    scaleFrame h k ⟨pre.length, c.length⟩ = some { h with entries := pre ++ (scaleCol k c ++ post) } := by
  obtain ⟨s, h1, h2⟩ := loop_range_inv
    (fun j (s : Helper K) => s = { h with entries := pre ++ (scaleCol k (c.take j) ++ (c.drop j ++ post)) }) c.length
    (fun h j => match h.entries[pre.length + j]? with
      | none => none
      | some e => some { h with entries := h.entries.set (pre.length + j) (e.1, e.2 * k) }) h
    (by simp [scaleCol, ← he]) (by
      rintro j hj s rfl
      refine ⟨_, ?_, rfl⟩
      have hl : (scaleCol k (c.take j)).length = j := by simp [scaleCol]; omega
      have hd : c.drop j = c[j] :: c.drop (j + 1) := List.drop_eq_getElem_cons hj
      have hget : (pre ++ (scaleCol k (c.take j) ++ (c.drop j ++ post)))[pre.length + j]? = some c[j] := by
        rw [List.getElem?_append_right (by omega), List.getElem?_append_right (by omega), hl, Nat.add_sub_cancel_left,
          Nat.sub_self, hd]
        rfl
      simp only [hget]
      congr 2
      rw [List.set_append_right _ _ (by omega), List.set_append_right _ _ (by omega), hl, Nat.add_sub_cancel_left,
        Nat.sub_self, hd]
      have ht : c.take (j + 1) = c.take j ++ [c[j]] := by rw [List.take_add_one, List.getElem?_eq_getElem hj]; rfl
      rw [ht, scaleCol, scaleCol, List.map_append, List.append_assoc]
      rfl)
  rw [h2] at h1
  refine h1.trans ?_
  simp

theorem purge_scaleCol {k : K} (hk : k ≠ 0) (c : List (ℕ × K)) : purge (scaleCol k c) = scaleCol k (purge c) := by
  unfold purge scaleCol
  rw [List.filter_map]
  congr 1
  apply List.filter_congr
  intro e _
  simp [hk]

theorem scaleCol_length (k : K) (c : List (ℕ × K)) : (scaleCol k c).length = c.length := by simp [scaleCol]

theorem scaleCol_sorted {k : K} {c : List (ℕ × K)} (hc : Sorted c) : Sorted (scaleCol k c) := by
  unfold Sorted scaleCol
  rw [List.pairwise_map]
  exact hc

theorem framesOf_scale (pos : ℕ) (a : List (List (ℕ × K))) (c : List (ℕ × K)) (b : List (List (ℕ × K))) (k : K) :
    framesOf pos (a ++ scaleCol k c :: b) = framesOf pos (a ++ c :: b) := by
  rw [framesOf_append, framesOf_append]
  simp only [framesOf, scaleCol_length]

theorem Cols.scale {h : Helper K} {cols : List (List (ℕ × K))} (hc : Cols h cols) {f : ℕ} {c : List (ℕ × K)}
    (hf : cols[f]? = some c) {k : K} (hk : k ≠ 0) :
    ∃ fr h', h.frames[f]? = some fr ∧ scaleFrame h k fr = some h' ∧ Cols h' (cols.set f (scaleCol k c)) ∧ Shape h h' := by
  obtain ⟨done, cur, hh, rfl⟩ := hc.holds
  have hfl : f < (done ++ [purge cur]).length := (List.getElem?_eq_some_iff.1 hf).1
  rw [List.length_append, List.length_singleton] at hfl
  rcases Nat.lt_or_ge f done.length with hlt | hge
  · rw [List.getElem?_append_left hlt] at hf
    have hdone : done = done.take f ++ c :: done.drop (f + 1) := by
      obtain ⟨h1, h2⟩ := List.getElem?_eq_some_iff.1 hf
      rw [← h2, List.getElem_cons_drop, List.take_append_drop]
    have hset : done.set f (scaleCol k c) = done.take f ++ scaleCol k c :: done.drop (f + 1) := by
      rw [List.set_eq_take_append_cons_drop, if_pos hlt]
    have hen : h.entries = (done.take f).flatten ++ (c ++ ((done.drop (f + 1)).flatten ++ cur)) := by
      rw [hh.entries]
      conv_lhs => rw [hdone]
      simp
    have hfro : framesOf 0 (done.set f (scaleCol k c) ++ [cur]) = framesOf 0 (done ++ [cur]) := by
      conv_rhs => rw [hdone]
      rw [hset, List.append_assoc, List.append_assoc]
      exact framesOf_scale ..
    have hflat : (done.set f (scaleCol k c)).flatten = (done.take f).flatten ++ (scaleCol k c ++ (done.drop (f + 1)).flatten) := by
      rw [hset]; simp
    have hlen : (done.set f (scaleCol k c)).flatten.length = done.flatten.length := by
      rw [hflat]
      conv_rhs => rw [hdone]
      simp [scaleCol_length]
    refine ⟨_, _, (hh.frame hf).1, scaleFrame_entries hen, ⟨done.set f (scaleCol k c), cur, ?_, ?_⟩, Shape.refl _⟩
    · refine ⟨?_, ?_, ?_, ?_, ?_, hh.cap, ?_, ?_, ?_, hh.cur_sorted⟩
      · rw [hflat]; simp
      · rw [hfro]; exact hh.frames
      · rw [hlen]; exact hh.nnz
      · unfold starts; rw [hfro]; exact hh.indptr
      · have := hh.fit
        rw [List.length_append] at this ⊢
        rw [hlen]; exact this
      · rw [List.length_set]; exact hh.len
      · intro c' hc'
        rcases List.mem_or_eq_of_mem_set hc' with h' | rfl
        · exact hh.sorted c' h'
        · exact scaleCol_sorted (hh.sorted c (List.mem_of_getElem? hf))
      · intro c' hc'
        rcases List.mem_or_eq_of_mem_set hc' with h' | rfl
        · exact hh.pure c' h'
        · intro e he
          obtain ⟨e', he', rfl⟩ := List.mem_map.1 he
          exact mul_ne_zero (hh.pure c (List.mem_of_getElem? hf) e' he') hk
    · rw [List.set_append_left _ _ hlt]
  · have hfe : f = done.length := by omega
    subst hfe
    have hcp : purge cur = c := by simpa using hf
    subst hcp
    have hen : h.entries = done.flatten ++ (cur ++ []) := by rw [hh.entries, List.append_nil]
    refine ⟨⟨done.flatten.length, cur.length⟩, _, ?_, scaleFrame_entries hen, ⟨done, scaleCol k cur, ?_, ?_⟩, Shape.refl _⟩
    · rw [hh.frames, framesOf_get]; simp
    · refine ⟨?_, ?_, hh.nnz, ?_, ?_, hh.cap, hh.len, hh.sorted, hh.pure, scaleCol_sorted hh.cur_sorted⟩
      · simp
      · rw [framesOf_scale]; exact hh.frames
      · unfold starts; rw [framesOf_scale]; exact hh.indptr
      · have := hh.fit
        rw [List.length_append] at this ⊢
        rw [scaleCol_length]; exact this
    · rw [purge_scaleCol hk, List.set_append_right _ _ le_rfl]
      simp

theorem t2lNormalize_ok {w D : ℕ} [CharZero K] {h0 : Helper K} {cs0 : List (List (ℕ × K))} (hc0 : Cols h0 cs0)
    (hlen : cs0.length = wordsBelow w (D + 1)) :
    ∃ h cs, t2lNormalize w D h0 = some h ∧ Cols h cs ∧ cs.length = cs0.length ∧ Shape h0 h ∧
      ∀ (z : List (Fin w)) c, cs0[wordIndex z]? = some c →
        cs[wordIndex z]? = some (if z = [] then c else scaleCol (1 / (z.length : K)) c) := by
  let I : ℕ → Helper K → Prop := fun i h => ∃ cs, Cols h cs ∧ cs.length = cs0.length ∧ Shape h0 h ∧
      ∀ (z : List (Fin w)) c, cs0[wordIndex z]? = some c →
        cs[wordIndex z]? = some (if 1 ≤ wordIndex z ∧ wordIndex z < i then scaleCol (1 / (z.length : K)) c else c)
  obtain ⟨s, h1, h2, h3⟩ := loop_map_range_inv
    (fun d (s : Helper K × ℕ) => s.2 = wordsBelow w (d + 1) ∧ I (wordsBelow w (d + 1)) s.1) (D + 1 - 1)
    (fun d => 1 + d) (fun s degree => do
      let stop := 1 + s.2 * w
      let h ← loop (upTo s.2 stop) s.1 fun h i => do
        let f ← h.frames[i]?
        scaleFrame h (1 / ((degree : ℕ) : K)) f
      some (h, stop)) (h0, 1) ⟨by simp [wordsBelow], cs0, hc0, rfl, Shape.refl _, fun z c hz => by
        rw [if_neg (by simp [wordsBelow]; omega), hz]⟩ (by
      rintro d hd ⟨h, start⟩ ⟨rfl, hI⟩
      have hstop : 1 + wordsBelow w (d + 1) * w = wordsBelow w (d + 2) := by
        rw [Tensor.wordsBelow_succ' (d + 1), mul_comm]
      have hs1 : wordsBelow w (d + 2) = wordsBelow w (d + 1) + w ^ (d + 1) := Tensor.wordsBelow_succ (d + 1)
      have hbig : wordsBelow w (d + 2) ≤ wordsBelow w (D + 1) := Tensor.wordsBelow_mono (by omega)
      have hpos : wordsBelow w 1 ≤ wordsBelow w (d + 1) := Tensor.wordsBelow_mono (by omega)
      have hone : wordsBelow w 1 = 1 := by simp [wordsBelow]
      obtain ⟨h', e1, e2⟩ := loop_map_range_inv (fun j h => I (wordsBelow w (d + 1) + j) h)
        (wordsBelow w (d + 2) - wordsBelow w (d + 1)) (fun j => wordsBelow w (d + 1) + j)
        (fun h i => do
          let f ← h.frames[i]?
          scaleFrame h (1 / ((1 + d : ℕ) : K)) f) h hI (by
          rintro j hj h ⟨cs, c1, c2, c3, c4⟩
          obtain ⟨z, z1, z2⟩ := Tensor.exists_word (w := w) (d := d + 1) (r := j) (by omega)
          have hz : wordIndex z = wordsBelow w (d + 1) + j := by rw [← z2, ← z1]; rfl
          have hlt : wordIndex z < cs0.length := by omega
          obtain ⟨c0, hc0⟩ : ∃ c0, cs0[wordIndex z]? = some c0 := ⟨_, List.getElem?_eq_getElem hlt⟩
          have hold := c4 z c0 hc0
          rw [if_neg (by omega), hz] at hold
          obtain ⟨fr, h', f1, f2, f3, f4⟩ := c1.scale hold (k := 1 / ((1 + d : ℕ) : K)) (by
            refine one_div_ne_zero ?_
            exact_mod_cast (by omega : 1 + d ≠ 0))
          refine ⟨h', by rw [f1]; exact f2, _, f3, by rw [List.length_set, c2], c3.trans f4, ?_⟩
          intro y c hy
          by_cases hyz : y = z
          · subst hyz
            rw [if_pos (by omega), hz, List.getElem?_set_self (by omega), z1]
            have : c0 = c := by
              rw [hc0] at hy
              exact Option.some.inj hy
            rw [this, add_comm 1 d]
          · have hne : wordIndex y ≠ wordIndex z := fun hh => hyz (wordIndex_inj hh)
            rw [List.getElem?_set_ne (by omega), c4 y c hy]
            congr 1
            by_cases hyi : 1 ≤ wordIndex y ∧ wordIndex y < wordsBelow w (d + 1) + j
            · rw [if_pos hyi, if_pos (by omega)]
            · rw [if_neg hyi, if_neg (by omega)])
      rw [show wordsBelow w (d + 1) + (wordsBelow w (d + 2) - wordsBelow w (d + 1)) = wordsBelow w (d + 2) by omega] at e2
      refine ⟨(h', wordsBelow w (d + 2)), ?_, rfl, e2⟩
      dsimp only
      rw [hstop]
      unfold upTo
      rw [e1]
      rfl)
  obtain ⟨cs, c1, c2, c3, c4⟩ := h3
  refine ⟨s.1, cs, ?_, c1, c2, c3, ?_⟩
  · unfold t2lNormalize
    rw [Tensor.degreesUp_eq, h1]
    rfl
  · intro z c hz
    rw [c4 z c hz]
    congr 1
    have hlt : wordIndex z < cs0.length := (List.getElem?_eq_some_iff.1 hz).1
    by_cases hz0 : z = []
    · subst hz0
      rw [if_pos rfl, if_neg (by rw [show wordIndex ([] : List (Fin w)) = 0 from rfl]; omega)]
    · have : wordIndex z ≠ wordIndex ([] : List (Fin w)) := fun h => hz0 (wordIndex_inj h)
      rw [show wordIndex ([] : List (Fin w)) = 0 from rfl] at this
      rw [if_neg hz0, if_pos (by
        rw [show D + 1 - 1 + 1 = D + 1 by omega]
        omega)]

theorem valOf_scaleCol (b : Basis) (k : K) (c : List (ℕ × K)) : valOf b (scaleCol k c) = k • valOf b c := by
  induction c with
  | nil => simp [valOf_nil, scaleCol]
  | cons e c ih =>
    unfold scaleCol at ih ⊢
    rw [List.map_cons, valOf_cons, ih, valOf_cons, smul_add, smul_smul, mul_comm k]

/-- The columns of the finished matrix. -/
structure T2LNorm (b : Basis) (cols : List (List (ℕ × K))) : Prop where
  value : ∀ z c, cols[wordIndex z]? = some c → valOf b c = (1 / (z.length : K)) • rb K z
  keys : ∀ (z : List (Fin b.width)) c, cols[wordIndex z]? = some c → ∀ e ∈ c, HasDegree b (e.1 + 1) z.length

/-- The matrix is built; the column of the word `z` is the right-nested bracket of its letters, divided by its length. -/
theorem t2lMatrix_ok [CharZero K] {w : ℕ} {b : Basis} (hb : IsHallTable b) (hw : 0 < b.width) (hstd : Standard w b) {cache : Cache}
    (hist : History (Standard w) cache) :
    ∃ n₀ cache' m cols, (∀ fuel, n₀ ≤ fuel → t2lMatrix (K := K) b fuel cache = some (m, cache')) ∧
      History (Standard w) cache' ∧ Built m cols ∧ T2LNorm b cols ∧ cols.length = wordsBelow b.width (b.depth + 1) ∧
      m.rows = b.data.length - 1 ∧ m.cols = wordsBelow b.width (b.depth + 1) ∧ m.csc = true := by
  have hdp := hb.depth_pos
  have htwo : wordsBelow b.width 2 = b.width + 1 := by simp [wordsBelow, Finset.sum_range_succ]; omega
  have hbig : wordsBelow b.width 2 ≤ wordsBelow b.width (b.depth + 1) := Tensor.wordsBelow_mono (by omega)
  obtain ⟨h0, i1, i2, i3⟩ := insertFrame_first
    (h := (init (b.data.length - 1) b.tensorSize b.tensorSize true : Helper K)) rfl rfl rfl rfl
    (by show 0 < b.tensorSize; rw [tensorSize_eq]; omega) (by
      show 0 < (if ((b.tensorSize : ℕ) : ℤ) < 0 then b.tensorSize else ((b.tensorSize : ℕ) : ℤ).toNat)
      rw [if_neg (by omega), tensorSize_eq]
      simp
      omega)
  have hsh0 : Shape (init (b.data.length - 1) b.tensorSize b.tensorSize true : Helper K) h0 := i3
  have halloc : h0.alloc = wordsBelow b.width (b.depth + 1) := by
    rw [hsh0.1, ← tensorSize_eq]; rfl
  obtain ⟨h1, cs1, l1, l2, l3, l4, l5⟩ := t2lLetters_ok hb hw i2 (by omega)
  obtain ⟨n₀, s, d1, d2, cs, d3, d4, d5, d6, d7⟩ := loop_map_range_ev (σ := (Helper K × Cache) × ℕ × ℕ)
    (fun i s => (s.2.1 = wordsBelow b.width (i + 1) ∧ s.2.2 = b.width ^ (i + 1)) ∧ ∃ cs, Cols s.1.1 cs ∧ T2LCols b cs ∧
      cs.length = wordsBelow b.width (i + 2) ∧ History (Standard w) s.1.2 ∧ Shape h0 s.1.1) (b.depth + 1 - 2)
    (fun i => 2 + i) (fun fuel s _ => do
      let s' ← t2lDegree (get b fuel) b.width s.2.1 s.2.2 s.1
      some (s', 1 + s.2.1 * b.width, s.2.2 * b.width)) ((h1, cache), 1, b.width)
    ⟨⟨by simp [wordsBelow], by simp⟩, cs1, l2, l3, by rw [l4, htwo], hist, l5⟩ (by
      rintro i hi ⟨⟨h, cache⟩, degm1, prev⟩ ⟨⟨e1, e2⟩, cs, e3, e4, e5, e6, e7⟩
      dsimp only at e1 e2 e3 e6 e7
      subst e1
      subst e2
      obtain ⟨n₀, h', cache', cs', g1, g2, g3, g4, g5, g6⟩ := t2lDegree_ok hb hw hstd e3 e6 e4 (d := i + 1) (by omega)
        (by omega) e5 (by rw [e7.1, halloc])
      refine ⟨n₀, ((h', cache'), 1 + wordsBelow b.width (i + 1) * b.width, b.width ^ (i + 1) * b.width), fun fuel hf => ?_,
        ⟨?_, ?_⟩, cs', g2, g3, g4, g5, e7.trans g6⟩
      · dsimp only
        rw [g1 fuel hf]
        rfl
      · rw [Tensor.wordsBelow_succ' (i + 1), mul_comm]
      · rw [pow_succ _ (i + 1)])
  rw [show b.depth + 1 - 2 + 2 = b.depth + 1 by omega] at d5
  obtain ⟨h2, cs2, e1, e2, e3, e4, e5⟩ := t2lNormalize_ok d3 d5
  have hne : cs2.flatten ≠ [] := by
    intro hf
    have hlt : 1 < cs.length := by omega
    have hx := e5 [(⟨0, hw⟩ : Fin b.width)] cs[1] (List.getElem?_eq_getElem hlt)
    rw [if_neg (by simp), d4.letter ⟨0, hw⟩ cs[1] (List.getElem?_eq_getElem hlt)] at hx
    have : (((0 : ℕ), (1 : K) * (1 / (1 : ℕ))) : ℕ × K) ∈ cs2.flatten :=
      List.mem_flatten.2 ⟨_, List.mem_of_getElem? hx, by simp [scaleCol]⟩
    rw [hf] at this
    cases this
  obtain ⟨m, m1, m2, m3, m4, m5⟩ := e2.build hne (by rw [e3, d5, e4.1, d7.1, halloc])
  refine ⟨n₀, s.1.2, m, cs2, fun fuel hf => ?_, d6, m2, ?_, by rw [e3, d5], ?_, ?_, ?_⟩
  · unfold t2lMatrix
    rw [hb.sizeToDegree, Option.bind_eq_bind, Option.bind_some, i1, Option.bind_eq_bind, Option.bind_some, l1,
      Option.bind_eq_bind, Option.bind_some, Tensor.degreesUp_eq, d1 fuel hf, Option.bind_eq_bind, Option.bind_some, e1,
      Option.bind_some, m1]
    rfl
  · have hget : ∀ (z : List (Fin b.width)) c, cs2[wordIndex z]? = some c → ∃ c', cs[wordIndex z]? = some c' ∧
        c = if z = [] then c' else scaleCol (1 / (z.length : K)) c' := by
      intro z c hz
      have hlt : wordIndex z < cs.length := by rw [← e3]; exact (List.getElem?_eq_some_iff.1 hz).1
      refine ⟨cs[wordIndex z], List.getElem?_eq_getElem hlt, ?_⟩
      have := e5 z _ (List.getElem?_eq_getElem hlt)
      rw [hz] at this
      exact Option.some.inj this
    constructor
    · intro z c hz
      obtain ⟨c', h1, rfl⟩ := hget z c hz
      have hv := (d4.col z c' h1).value
      by_cases hz0 : z = []
      · subst hz0
        rw [if_pos rfl, hv]
        show (0 : Series (Fin b.width) K) = _ • 0
        rw [smul_zero]
      · rw [if_neg hz0, valOf_scaleCol, hv]
    · intro z c hz
      obtain ⟨c', h1, rfl⟩ := hget z c hz
      have hk := (d4.col z c' h1).keys
      intro e he
      by_cases hz0 : z = []
      · rw [if_pos hz0] at he
        exact hk e he
      · rw [if_neg hz0] at he
        obtain ⟨e', he', rfl⟩ := List.mem_map.1 he
        exact hk e' he'
  · rw [m3, e4.2.1, d7.2.1, hsh0.2.1]; rfl
  · rw [m4, e4.2.2.1, d7.2.2.1, hsh0.2.2.1, ← tensorSize_eq]; rfl
  · rw [m5, e4.2.2.2, d7.2.2.2, hsh0.2.2.2]; rfl

end RoughPy.Lie
