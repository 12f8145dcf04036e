import Verif.Lite.HandleRun

/-!
# Lemmas on reading coefficients and on pairings
-/

namespace RoughPy.Handles

open RoughPy.Lite RoughPy.Lie RoughPy.Tensor RoughPy.Tensor.Series

variable {K : Type} [Field K] [DecidableEq K] {w m : ℕ}

theorem tensorBasis_eq {c : LiteCtx} (hc : c.Ok w m) : c.tensorBasis = tensorBasis w (m + 1) := by
  unfold LiteCtx.tensorBasis
  rw [hc.width, hc.depth]

theorem indexToKey_word {c : LiteCtx} (hc : c.Ok w m) {u : List (Fin w)} (hu : u.length ≤ m + 1) :
    c.tensorBasis.indexToKey (wordIndex u) = some (wordKey u) := by
  rw [tensorBasis_eq hc]
  have hv := wordKey_valid hu
  exact (tensorBasis_lawful w (m + 1)).indexToKey (wordKey u) hv.1 hv.2

theorem keyToIndex_word {c : LiteCtx} (hc : c.Ok w m) {u : List (Fin w)} (hu : u.length ≤ m + 1) :
    c.tensorBasis.keyToIndex (wordKey u) = some (wordIndex u) := by
  rw [tensorBasis_eq hc]
  exact (tensorBasis_lawful w (m + 1)).keyToIndex (wordKey_valid hu)

theorem getTensor_sparse {c : LiteCtx} (hc : c.Ok w m) {v : Sparse K} {f : Series (Fin w) K}
    (h : IsTensor w (m + 1) (.sparse v) f) {u : List (Fin w)} (hu : u.length ≤ m + 1) :
    getTensor c (.sparse v) (wordIndex u) = some (f u) := by
  unfold getTensor
  rw [indexToKey_word hc hu]
  show some (Sparse.read v (wordKey u)) = _
  rw [← (isTensor_sparse.1 h).2 u hu]
  rfl

theorem getTensor_dense {c : LiteCtx} (hc : c.Ok w m) {v : Dense K} {f : Series (Fin w) K}
    (h : IsTensor w (m + 1) (.dense v) f) {u : List (Fin w)} (hu : u.length ≤ m + 1) :
    getTensor c (.dense v) (wordIndex u) =
      if wordIndex u < v.storage.length then some (f u) else none := by
  unfold getTensor
  rw [indexToKey_word hc hu]
  show Dense.read c.tensorBasis v (wordKey u) = _
  unfold Dense.read
  rw [keyToIndex_word hc hu]
  show v.storage[wordIndex u]? = _
  have hf : f u = v.storage[wordIndex u]?.getD 0 := ((isTensor_dense.1 h).2 u hu).symm
  by_cases hlt : wordIndex u < v.storage.length
  · rw [if_pos hlt, hf, List.getElem?_eq_getElem hlt]
    rfl
  · rw [if_neg hlt, List.getElem?_eq_none_iff]
    omega

theorem mem_wordsUpTo {depth : ℕ} {u : List (Fin w)} :
    u ∈ wordsUpTo w depth ↔ u.length ≤ depth := by
  unfold wordsUpTo
  simp only [Finset.mem_biUnion, Finset.mem_range, Finset.mem_image, Finset.mem_univ, true_and]
  constructor
  · rintro ⟨n, hn, v, rfl⟩
    rw [List.length_ofFn]
    omega
  · intro h
    exact ⟨u.length, by omega, u.get, List.ofFn_get u⟩

theorem items_sum {D : ℕ} {l : List (Key × K)} {coef : Key → K}
    (hl : Items (ValidKey (wordsBelow w) D) coef l) (g : Series (Fin w) K) {G : Key × K → K}
    (hG : ∀ u : List (Fin w), u.length ≤ D → ∀ x, (wordKey u, x) ∈ l → G (wordKey u, x) = x * g u) :
    (l.map G).sum = ∑ u ∈ wordsUpTo w D, coef (wordKey u) * g u := by
  classical
  have hex : ∀ t ∈ l, ∃ u : List (Fin w), u.length ≤ D ∧ wordKey u = t.1 :=
    fun t ht => exists_wordKey (hl.val t ht).1
  let dec : Key → List (Fin w) := fun k =>
    if h : ∃ u : List (Fin w), u.length ≤ D ∧ wordKey u = k then h.choose else []
  have hdec : ∀ t ∈ l, (dec t.1).length ≤ D ∧ wordKey (dec t.1) = t.1 := by
    intro t ht
    have h := hex t ht
    have : dec t.1 = h.choose := dif_pos h
    rw [this]
    exact h.choose_spec
  have h1 : l.map G = (l.map fun t => dec t.1).map fun u => coef (wordKey u) * g u := by
    rw [List.map_map]
    refine List.map_congr_left fun t ht => ?_
    obtain ⟨d1, d2⟩ := hdec t ht
    have := hG (dec t.1) d1 t.2 (by rw [d2]; exact ht)
    rw [d2] at this
    show G t = coef (wordKey (dec t.1)) * g (dec t.1)
    rw [d2, ← (hl.val t ht).2]
    exact this
  have hnd : (l.map fun t => dec t.1).Nodup := by
    rw [List.Nodup, List.pairwise_map]
    refine List.Pairwise.imp_of_mem (fun {a b} ha hb hab heq => ?_) hl.sorted
    have := (hdec a ha).2
    rw [heq, (hdec b hb).2] at this
    rw [this] at hab
    exact lt_irrefl _ hab
  rw [h1, ← List.sum_toFinset _ hnd]
  refine Finset.sum_subset (fun u hu => ?_) fun u hu hnot => ?_
  · rw [List.mem_toFinset, List.mem_map] at hu
    obtain ⟨t, ht, rfl⟩ := hu
    exact mem_wordsUpTo.2 (hdec t ht).1
  · have hlen := mem_wordsUpTo.1 hu
    by_cases h0 : coef (wordKey u) = 0
    · rw [h0, zero_mul]
    · refine absurd ?_ hnot
      have hmem := hl.mem (wordKey u) (wordKey_valid hlen) h0
      rw [List.mem_toFinset, List.mem_map]
      refine ⟨_, hmem, ?_⟩
      exact wordKey_inj (hdec _ hmem).2

theorem loop_sum {α : Type} {G : α → K} {f : K → α → Option K} : ∀ (l : List α) (s : K),
    (∀ x ∈ l, ∀ s, f s x = some (s + G x)) → loop l s f = some (s + (l.map G).sum)
  | [], s, _ => by rw [List.map_nil, List.sum_nil, add_zero]; rfl
  | x :: l, s, h => by
    have : loop (x :: l) s f = (f s x).bind fun t => loop l t f := rfl
    rw [this, h x (List.mem_cons_self ..) s, Option.bind_some,
      loop_sum l _ fun y hy => h y (List.mem_cons_of_mem _ hy), List.map_cons, List.sum_cons, add_assoc]

theorem tensorItems_spec {c : LiteCtx} (hc : c.Ok w m) {x : Stored K} {f : Series (Fin w) K}
    (h : IsTensor w (m + 1) x f) :
    ∃ l coef, tensorItems c x = some l ∧ Items (ValidKey (wordsBelow w) (m + 1)) coef l ∧
      (∀ u : List (Fin w), u.length ≤ m + 1 → coef (wordKey u) = f u) ∧
      (∀ v, x = .dense v → ∀ u : List (Fin w), ∀ a, (wordKey u, a) ∈ l →
        wordIndex u < v.storage.length) ∧ ∀ v, x = .sparse v → l = v := by
  cases x with
  | sparse v =>
    obtain ⟨h1, h2⟩ := isTensor_sparse.1 h
    refine ⟨v, Sparse.read v, rfl, Sparse.items_of_goodOn h1, h2, ?_, ?_⟩
    · intro v' hv
      cases hv
    · intro v' hv
      cases hv
      rfl
  | dense v =>
    obtain ⟨h1, h2⟩ := isTensor_dense.1 h
    have hpos : 0 < wordsBelow w (m + 1 + 1) := by rw [wordsBelow_succ']; omega
    obtain ⟨l, e1, e2, e3⟩ := Dense.items_spec (K := K) (tensorBasis_lawful w (m + 1)) hpos
      h1.length_le
    obtain ⟨l', e1', e2', e3', e4'⟩ := Dense.items_coef (K := K) (tensorBasis_lawful w (m + 1)) hpos
      h1.length_le
    rw [e1, Option.some.injEq] at e1'
    subst e1'
    refine ⟨l, Dense.coef (wordsBelow w) v, ?_, ⟨e2', e3', e4'⟩, h2, ?_, by intro v' hv; cases hv⟩
    · show (Dense.ops c.tensorBasis).items v = some l
      rw [tensorBasis_eq hc]
      exact e1
    · intro v' hv u a ha
      cases hv
      obtain ⟨i, hi⟩ := List.mem_iff_getElem?.1 ha
      have h4 := (e3 i _ hi).2
      have h5 : i < l.length := (List.getElem?_eq_some_iff.1 hi).1
      have h6 : l.length = v.storage.length := by rw [← e2, List.length_map]
      rw [← keyIndex_wordKey, h4]
      omega

theorem getLie_items (hw : 0 < w) {c : LiteCtx} (hc : c.Ok w m) {e : Key → Series (Fin w) K}
    {x : Stored K} {f : Series (Fin w) K} (h : IsLieElem c e x f) {l : List (Key × K)}
    (hl : (match x with
      | .sparse v => some v
      | .dense v => Dense.items c.lieBasis v) = some l) {k : Key} {a : K} (hk : (k, a) ∈ l) :
    ∃ n, c.lieBasis.keyToIndex k = some n ∧ getLie c x (n + 1) = some a := by
  have hb := hallTable_isHall w m
  have hL : c.lieBasis.Lawful (lieStart (hallTable w m)) := by
    rw [hc.basis]; exact hallBasis_lawful hb hc.rep
  have hd : c.lieBasis.depth = m + 1 := by rw [hc.basis]; rfl
  have key : ValidKey (lieStart (hallTable w m)) c.lieBasis.depth k ∧
      ((∃ v, x = .sparse v ∧ Sparse.read v k = a) ∨ ∃ v, x = .dense v ∧
        v.storage[keyIndex (lieStart (hallTable w m)) k]? = some a) := by
    cases x with
    | sparse v =>
      obtain ⟨h1, -⟩ := (isLie_sparse hc).1 h
      cases hl
      obtain ⟨g1, g2⟩ := (Sparse.items_of_goodOn h1.1).val _ hk
      exact ⟨by rw [hd]; exact g1, Or.inl ⟨l, rfl, g2.symm⟩⟩
    | dense v =>
      obtain ⟨h1, -⟩ := (isLie_dense hw hc).1 h
      have hfits : Dense.Fits (lieStart (hallTable w m)) c.lieBasis.depth v := by
        have := Dense.GoodDeg.fits hL (v := v) (by rw [hd]; exact h1)
        exact this
      obtain ⟨l', e1, e2, e3⟩ := Dense.items_spec (K := K) hL
        (by rw [hd]; exact start_pos hw) hfits
      have hl' : Dense.items c.lieBasis v = some l := hl
      rw [hl', Option.some.injEq] at e1
      subst e1
      obtain ⟨i, hi⟩ := List.mem_iff_getElem?.1 hk
      obtain ⟨g1, g2⟩ := e3 i _ hi
      refine ⟨g1, Or.inr ⟨v, rfl, ?_⟩⟩
      dsimp only at g2
      rw [g2, ← e2, List.getElem?_map, hi]
      rfl
  obtain ⟨hv, hread⟩ := key
  refine ⟨keyIndex (lieStart (hallTable w m)) k, hL.keyToIndex hv, ?_⟩
  unfold getLie
  rw [if_neg (by omega), Nat.add_sub_cancel,
    show c.lieBasis.indexToKey (keyIndex (lieStart (hallTable w m)) k) = some k from
      hL.indexToKey k hv.1 hv.2]
  rcases hread with ⟨v, rfl, hr⟩ | ⟨v, rfl, hr⟩
  · exact congrArg some hr
  · show Dense.read c.lieBasis v k = some a
    unfold Dense.read
    rw [hL.keyToIndex hv]
    exact hr

theorem getLie_absent {c : LiteCtx} (hc : c.Ok w m) {e : Key → Series (Fin w) K}
    {v : Sparse K} {f : Series (Fin w) K} (h : IsLieElem c e (.sparse v) f) {k : Key}
    (hk : c.hs.HasKey k) (hv : ∀ a, (k, a) ∉ v) :
    ∃ n, c.lieBasis.keyToIndex k = some n ∧ getLie c (.sparse v) (n + 1) = some 0 := by
  have hb := hallTable_isHall w m
  have hL : c.lieBasis.Lawful (lieStart (hallTable w m)) := by
    rw [hc.basis]; exact hallBasis_lawful hb hc.rep
  have hd : c.lieBasis.depth = m + 1 := by rw [hc.basis]; rfl
  have hval : ValidKey (lieStart (hallTable w m)) c.lieBasis.depth k := by
    rw [hd]; exact (hasKey_iff hb hc.rep).1 hk
  obtain ⟨h1, -⟩ := (isLie_sparse hc).1 h
  refine ⟨keyIndex (lieStart (hallTable w m)) k, hL.keyToIndex hval, ?_⟩
  unfold getLie
  rw [if_neg (by omega), Nat.add_sub_cancel,
    show c.lieBasis.indexToKey (keyIndex (lieStart (hallTable w m)) k) = some k from
      hL.indexToKey k hval.1 hval.2]
  show some (Sparse.read v k) = some 0
  by_contra hne
  exact hv _ ((Sparse.items_of_goodOn h1.1).mem k (by rw [← hd]; exact hval)
    fun h0 => hne (by rw [h0]))

theorem getLie_beyond (hw : 0 < w) {c : LiteCtx} (hc : c.Ok w m) {e : Key → Series (Fin w) K}
    {v : Dense K} {f : Series (Fin w) K} (h : IsLieElem c e (.dense v) f) {l : List (Key × K)}
    (hl : Dense.items c.lieBasis v = some l) {k : Key} (hk : c.hs.HasKey k) (hv : ∀ a, (k, a) ∉ l) :
    ∃ n, c.lieBasis.keyToIndex k = some n ∧ getLie c (.dense v) (n + 1) = none := by
  have hb := hallTable_isHall w m
  have hL : c.lieBasis.Lawful (lieStart (hallTable w m)) := by
    rw [hc.basis]; exact hallBasis_lawful hb hc.rep
  have hd : c.lieBasis.depth = m + 1 := by rw [hc.basis]; rfl
  have hval : ValidKey (lieStart (hallTable w m)) c.lieBasis.depth k := by
    rw [hd]; exact (hasKey_iff hb hc.rep).1 hk
  obtain ⟨h1, -⟩ := (isLie_dense hw hc).1 h
  have hfits : Dense.Fits (lieStart (hallTable w m)) c.lieBasis.depth v :=
    Dense.GoodDeg.fits hL (v := v) (by rw [hd]; exact h1)
  obtain ⟨l', e1, e2, e3⟩ := Dense.items_spec (K := K) hL (by rw [hd]; exact start_pos hw) hfits
  rw [hl, Option.some.injEq] at e1
  subst e1
  refine ⟨keyIndex (lieStart (hallTable w m)) k, hL.keyToIndex hval, ?_⟩
  unfold getLie
  rw [if_neg (by omega), Nat.add_sub_cancel,
    show c.lieBasis.indexToKey (keyIndex (lieStart (hallTable w m)) k) = some k from
      hL.indexToKey k hval.1 hval.2]
  show Dense.read c.lieBasis v k = none
  unfold Dense.read
  rw [hL.keyToIndex hval]
  show v.storage[keyIndex (lieStart (hallTable w m)) k]? = none
  rw [← e2, List.getElem?_map, Option.map_eq_none_iff]
  by_contra hne
  obtain ⟨t, ht⟩ := Option.ne_none_iff_exists'.1 hne
  obtain ⟨g1, g2⟩ := e3 _ _ ht
  have : t.1 = k := keyIndex_inj hL.mono g1 hval g2
  exact hv t.2 (this ▸ List.mem_of_getElem? ht)

end RoughPy.Handles
